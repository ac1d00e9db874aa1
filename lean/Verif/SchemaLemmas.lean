import Verif.SchemaSpec
/-!
# The grammar rules on well-formed schema texts
-/

namespace Fbs.Schema
open Fbs Fbs.Peg

theorem ident_prefix {k : Name} : ∀ {n tail : Name}, (∀ c ∈ k, isIdent c = true) → HeadNot isIdent tail →
    k <+: n ++ tail → k <+: n := by
  induction k with
  | nil => intro n tail _ _ _; exact List.nil_prefix
  | cons c k ih =>
    intro n tail hk ht h
    cases n with
    | nil =>
      obtain ⟨x, hx⟩ := h
      have := ht c (k ++ x) (by simpa using hx.symm)
      rw [hk c (by simp)] at this
      cases this
    | cons d n =>
      have h' : c = d ∧ k <+: n ++ tail := by
        obtain ⟨x, hx⟩ := h
        simp only [List.cons_append, List.cons.injEq] at hx
        exact ⟨hx.1, ⟨x, hx.2⟩⟩
      have := ih (fun e he => hk e (by simp [he])) ht h'.2
      obtain ⟨x, hx⟩ := this
      exact ⟨x, by simp [h'.1, hx]⟩

theorem basic_ident : ∀ b ∈ basicNames, ∀ c ∈ b.1, isIdent c = true := by decide
theorem basic_ne : ∀ b ∈ basicNames, b.1 ≠ [] := by decide
theorem basic_find : ∀ b ∈ basicNames, basicNames.find? (fun x => x.1.isPrefixOf b.1) = some b := by decide
theorem basic_not_string : ∀ b ∈ basicNames, ¬ b.1 <+: "string".toList := by decide
theorem basic_ident0 : ∀ b ∈ basicNames, IsIdent b.1 := by
  intro b hb
  have h : ∀ b ∈ basicNames, ∃ c, b.1.head? = some c ∧ isIdent0 c = true := by
    intro b hb
    have : ∀ b ∈ basicNames, (b.1.head?.map isIdent0) = some true := by decide
    have := this b hb
    cases hh : b.1.head? with
    | none => rw [hh] at this; cases this
    | some c => rw [hh] at this; exact ⟨c, rfl, by simpa using this⟩
  obtain ⟨c, h1, h2⟩ := h b hb
  have h3 := basic_ident b hb
  cases hk : b.1 with
  | nil => rw [hk] at h1; cases h1
  | cons d l =>
    rw [hk] at h1 h3
    simp at h1; subst h1
    exact ⟨h2, fun e he => h3 e (by simp [he])⟩

theorem basicType_none (l : List (Name × Name)) {s : Name} (h : ∀ b ∈ l, ¬ b.1 <+: s) : basicType l s = none := by
  induction l with
  | nil => rfl
  | cons b l ih =>
    obtain ⟨kw, go⟩ := b
    unfold basicType
    rw [alt_right (seq_none_left (lit_none (h (kw, go) (by simp))))]
    exact ih (fun b hb => h b (by simp [hb]))

/-- What may follow a type. -/
def TyFollow (rest : Name) : Prop := ∃ c r, rest = c :: r ∧ (c = ';' ∨ c = '=' ∨ c = '(' ∨ c = ']' ∨ c = '{')

theorem TyFollow.notIdent {rest : Name} (h : TyFollow rest) : HeadNot isIdent rest := by
  obtain ⟨c, r, rfl, h⟩ := h
  rcases h with h | h | h | h | h <;> subst h <;> exact headNot_cons (by decide)

theorem TyFollow.notLayout {rest : Name} (h : TyFollow rest) : HeadNot isLayout0 rest := by
  obtain ⟨c, r, rfl, h⟩ := h
  rcases h with h | h | h | h | h <;> subst h <;> exact headNot_cons (by decide)

theorem notIdent_layout (sp : Layout) {rest : Name} (h : HeadNot isIdent rest) :
    HeadNot isIdent (layoutChars sp ++ rest) := layout_head sp layout_not_ident h

theorem basicType_spec : ∀ (l : List (Name × Name)) (kw go : Name) (sp : Layout) (rest : Name),
    (∀ b ∈ l, ∀ c ∈ b.1, isIdent c = true) →
    l.find? (fun x => x.1.isPrefixOf kw) = some (kw, go) → layoutOk sp = true →
    HeadNot isIdent rest → HeadNot isLayout0 rest →
    basicType l (kw ++ (layoutChars sp ++ rest)) = some ([.act (.setType go)], rest) := by
  intro l
  induction l with
  | nil => intro kw go sp rest _ h; simp at h
  | cons b l ih =>
    intro kw go sp rest hi hf hsp h1 h2
    obtain ⟨k, g⟩ := b
    unfold basicType
    by_cases hk : k.isPrefixOf kw = true
    · simp only [List.find?_cons, hk, Option.some.injEq, Prod.mk.injEq] at hf
      obtain ⟨rfl, rfl⟩ := hf
      apply alt_left
      exact seq_some (lit_append _ _) (seq_some (spacing_spec sp hsp h2) rfl)
    · have hk' : k.isPrefixOf kw = false := Bool.eq_false_iff.2 hk
      simp only [List.find?_cons, hk'] at hf
      rw [alt_right]
      · exact ih kw go sp rest (fun b hb => hi b (by simp [hb])) hf hsp h1 h2
      · apply seq_none_left
        apply lit_none
        intro hp
        have := ident_prefix (hi (k, g) (by simp)) (notIdent_layout sp h1) hp
        exact hk (List.isPrefixOf_iff_prefix.2 this)

/-- Tokens of a type. -/
def _root_.Fbs.Schema.Ty.toks : Ty → List Tok
  | .basic _ go _ => [.act (.setType go)]
  | .str _ => [.act (.setRepeated "byte".toList)]
  | .user n _ => [.text n, .act .setTypeText]
  | .list t _ => t.toks ++ [.act (.setRepeated [])]

def _root_.Fbs.Schema.Ty.depth : Ty → Nat
  | .list t _ => t.depth + 1
  | _ => 0

theorem Ty.depth_le (t : Ty) : t.depth ≤ t.chars.length := by
  induction t with
  | list t sp ih => simp [Ty.depth, Ty.chars]; omega
  | _ => simp [Ty.depth]

theorem typeN_spec (t : Ty) : ∀ (n : Nat) (rest : Name), t.depth < n → t.ok → TyFollow rest →
    typeN n (t.chars ++ rest) = some (t.toks, rest) := by
  induction t with
  | basic kw go sp =>
    intro n rest hn ht hr
    cases n with
    | zero => omega
    | succ n =>
      unfold typeN
      apply alt_left
      simp only [Ty.chars, List.append_assoc]
      exact basicType_spec basicNames kw go sp rest basic_ident (basic_find _ ht.1) ht.2 hr.notIdent hr.notLayout
  | str sp =>
    intro n rest hn ht hr
    cases n with
    | zero => omega
    | succ n =>
      unfold typeN
      simp only [Ty.chars, List.append_assoc]
      rw [alt_right]
      · apply alt_left
        exact seq_some (lit_append _ _) (seq_some (spacing_spec sp ht hr.notLayout) rfl)
      · apply basicType_none
        intro b hb hp
        exact basic_not_string b hb (ident_prefix (basic_ident b hb) (notIdent_layout sp hr.notIdent) hp)
  | user m sp =>
    intro n rest hn ht hr
    cases n with
    | zero => omega
    | succ n =>
      unfold typeN
      simp only [Ty.chars, List.append_assoc]
      obtain ⟨h1, h2, h3, h4⟩ := ht
      have hni := notIdent_layout sp hr.notIdent
      rw [alt_right, alt_right]
      · apply alt_left
        exact seq_some (ident_spec h1 hni) (seq_some (spacing_spec sp h4 hr.notLayout) rfl)
      · apply seq_none_left
        apply lit_none
        intro hp
        exact h3 (ident_prefix (by decide) hni hp)
      · apply basicType_none
        intro b hb hp
        exact h2 b hb (ident_prefix (basic_ident b hb) hni hp)
  | list t sp ih =>
    intro n rest hn ht hr
    cases n with
    | zero => omega
    | succ n =>
      unfold typeN
      simp only [Ty.chars, List.append_assoc, List.cons_append]
      have hh : HeadNot isIdent ('[' :: (t.chars ++ (']' :: (layoutChars sp ++ rest)))) := headNot_cons (by decide)
      rw [alt_right, alt_right, alt_right]
      · have h1 := ih n (']' :: (layoutChars sp ++ rest)) (by simp [Ty.depth] at hn; omega) ht.1
          ⟨']', _, rfl, by simp⟩
        have := seq_some (lit_append ['['] _) (seq_some h1 (seq_some (lit_append [']'] _)
          (seq_some (spacing_spec sp ht.2 hr.notLayout) (q := act (.setRepeated [])) rfl)))
        simpa [Ty.toks] using this
      · exact seq_none_left (ident_none (headNot_cons (by decide)))
      · exact seq_none_left (by simp [lit])
      · apply basicType_none
        intro b hb hp
        have := ident_prefix (n := []) (basic_ident b hb) hh hp
        exact basic_ne b hb (List.prefix_nil.1 this)

theorem type_spec (t : Ty) {rest : Name} (ht : t.ok) (hr : TyFollow rest) :
    type (t.chars ++ rest) = some (t.toks, rest) := by
  unfold type
  apply typeN_spec t _ rest _ ht hr
  have := t.depth_le
  rw [List.length_append]; omega

/-! ## fields -/

theorem notIdent_cons {c : Char} {r : Name} (h : isIdent c = false) : HeadNot isIdent (c :: r) := headNot_cons h

theorem fieldType_spec {n rest : Name} (hn : IsIdent n) (hr : HeadNot isIdent rest) :
    fieldType (n ++ rest) = some ([.text n, .act .fieldName], rest) :=
  seq_some (ident_spec hn hr) rfl

theorem ident_notLayout {n rest : Name} (hn : IsIdent n) : HeadNot isLayout0 (n ++ rest) := by
  cases n with
  | nil => exact hn.elim
  | cons c l =>
    apply headNot_cons
    cases h : isLayout0 c with
    | false => rfl
    | true =>
      have h2 := layout_not_ident c h
      rw [isIdent_of_isIdent0 hn.1] at h2
      cases h2

theorem blanks_spec (bl : Name) {rest : Name} (h : ∀ c ∈ bl, c = ' ' ∨ c = '\t')
    (hr : HeadNot (fun c => c = ' ' || c = '\t') rest) : blanks (bl ++ rest) = some ([.text bl], rest) := by
  apply text_append
  apply many_cls _ _ _ hr
  intro c hc
  rcases h c hc with h | h <;> simp [h]

def _root_.Fbs.Schema.Dflt.toks (d : Dflt) : List Tok :=
  if d.val.head?.any isDigit then [.text d.val] else []

theorem digits_spec (v : Name) {rest : Name} (h1 : v ≠ []) (h2 : ∀ c ∈ v, isDigit c = true)
    (hr : HeadNot isDigit rest) : text (many1 (cls isDigit)) (v ++ rest) = some ([.text v], rest) := by
  apply text_append
  cases v with
  | nil => exact absurd rfl h1
  | cons c l =>
    have e1 : cls isDigit (c :: (l ++ rest)) = some ([], l ++ rest) := by simp [cls, h2 c (by simp)]
    have e2 := many_cls (f := isDigit) l rest (fun d hd => h2 d (by simp [hd])) hr
    exact seq_some e1 e2

theorem scalar_spec (d : Dflt) {rest : Name} (hd : d.ok) (hr : HeadNot isDigit rest) :
    scalar (d.val ++ rest) = some (d.toks, rest) := by
  apply alt_left
  unfold integerConstant Dflt.toks
  rcases hd.2 with ⟨h1, h2⟩ | h | h
  · apply alt_left
    rw [digits_spec d.val h1 h2 hr]
    cases hv : d.val with
    | nil => exact absurd hv h1
    | cons c l => rw [hv] at h2; simp [h2 c (by simp)]
  · rw [alt_right]
    · apply alt_left
      rw [h]
      exact lit_append _ _
    · rw [h]; simp [text, many1, seq, cls, isDigit]
  · rw [alt_right, alt_right]
    · rw [h]; exact lit_append _ _
    · rw [h]; simp [lit]
    · rw [h]; simp [text, many1, seq, cls, isDigit]

/-- Tokens of a field. -/
def _root_.Fbs.Schema.FieldC.toks (f : FieldC) : List Tok :=
  [.text f.name, .act .fieldName] ++ f.ty.toks ++
    (match f.dflt with
     | none => f.metas.map Tok.text ++ [.act .newExtractField]
     | some d => [.text [], .text d.bl] ++ d.toks ++ f.metas.map Tok.text ++ [.act .newExtractFieldWithValue])

theorem metas_head_follow (ms : List Name) (r : Name) : TyFollow (ms.flatMap metaChars ++ (';' :: r)) := by
  cases ms with
  | nil => exact ⟨';', r, rfl, by simp⟩
  | cons m ms => exact ⟨'(', _, by simp [metaChars]; rfl, by simp⟩

theorem TyFollow.notDigit {rest : Name} (h : TyFollow rest) : HeadNot isDigit rest := by
  obtain ⟨c, r, rfl, h⟩ := h
  rcases h with h | h | h | h | h <;> subst h <;> exact headNot_cons (by decide)

theorem dflt_val_notBlank {d : Dflt} (hd : d.ok) (rest : Name) :
    HeadNot (fun c => c = ' ' || c = '\t') (d.val ++ rest) := by
  rcases hd.2 with ⟨h1, h2⟩ | h | h
  · cases hv : d.val with
    | nil => exact absurd hv h1
    | cons c l =>
      rw [hv] at h2
      apply headNot_cons
      have := h2 c (by simp)
      cases hc : (decide (c = ' ') || decide (c = '\t')) with
      | false => rfl
      | true =>
        simp only [Bool.or_eq_true, decide_eq_true_eq] at hc
        rcases hc with hc | hc <;> subst hc <;> exact absurd this (by decide)
  · rw [h]; exact headNot_cons (by decide)
  · rw [h]; exact headNot_cons (by decide)

theorem fieldDecl_spec (sp : Layout) (f : FieldC) {rest : Name} (hsp : layoutOk sp = true) (hf : f.ok)
    (hr : HeadNot isLayout0 rest) :
    fieldDecl (layoutChars sp ++ (f.chars ++ rest)) = some (f.toks, rest) := by
  obtain ⟨h1, h2, h3, h4, h5, h6⟩ := hf
  have hs : ∀ x, spacing (layoutChars sp ++ (f.name ++ x)) = some ([], f.name ++ x) :=
    fun x => spacing_spec sp hsp (ident_notLayout h1)
  have hn : ∀ x, fieldType (f.name ++ (':' :: x)) = some ([.text f.name, .act .fieldName], ':' :: x) :=
    fun x => fieldType_spec h1 (headNot_cons (by decide))
  have hc : ∀ x, lit [':'] (':' :: x) = some ([], x) := fun x => lit_append [':'] x
  have he : spacing (layoutChars f.sp ++ rest) = some ([], rest) := spacing_spec _ h6 hr
  have hsemi : ∀ x, lit [';'] (';' :: x) = some ([], x) := fun x => lit_append [';'] x
  have hm : ∀ x, many metadata (f.metas.flatMap metaChars ++ (';' :: x)) = some (f.metas.map Tok.text, ';' :: x) :=
    fun x => metas_spec _ h5 (headNot_cons (by decide))
  cases hd : f.dflt with
  | none =>
    apply alt_left
    have ht := type_spec f.ty h3 (metas_head_follow f.metas (layoutChars f.sp ++ rest))
    have := seq_some (hs _) (seq_some (hn _) (seq_some (hc _) (seq_some ht (seq_some (hm _) (seq_some (hsemi _)
      (seq_some he (q := act .newExtractField) rfl))))))
    simpa [FieldC.chars, FieldC.toks, hd, List.append_assoc] using this
  | some d =>
    have hdo := h4 d hd
    have hfo := metas_head_follow f.metas (layoutChars f.sp ++ rest)
    have ht := type_spec f.ty (rest := '=' :: (d.bl ++ (d.val ++ (f.metas.flatMap metaChars ++ (';' :: (layoutChars f.sp ++ rest)))))) h3
      ⟨'=', _, rfl, by simp⟩
    have hchars : layoutChars sp ++ (f.chars ++ rest) = layoutChars sp ++ (f.name ++ (':' :: (f.ty.chars ++
        ('=' :: (d.bl ++ (d.val ++ (f.metas.flatMap metaChars ++ (';' :: (layoutChars f.sp ++ rest))))))))) := by
      simp [FieldC.chars, hd, List.append_assoc]
    rw [hchars]
    unfold fieldDecl
    rw [alt_right]
    · have hb0 : ∀ x, blanks ('=' :: x) = some ([.text []], '=' :: x) := fun x =>
        blanks_spec [] (by simp) (headNot_cons (by decide))
      have heq : ∀ x, lit ['='] ('=' :: x) = some ([], x) := fun x => lit_append ['='] x
      have hb1 := blanks_spec d.bl hdo.1
        (dflt_val_notBlank hdo (f.metas.flatMap metaChars ++ (';' :: (layoutChars f.sp ++ rest))))
      have hsc := scalar_spec d hdo hfo.notDigit
      have := seq_some (hs _) (seq_some (hn _) (seq_some (hc _) (seq_some ht (seq_some (hb0 _) (seq_some (heq _)
        (seq_some hb1 (seq_some hsc (seq_some (hm _) (seq_some (hsemi _)
        (seq_some he (q := act .newExtractFieldWithValue) rfl))))))))))
      rw [this]
      simp [FieldC.toks, hd, List.append_assoc]
    · refine seq_none_right (hs _) (seq_none_right (hn _) (seq_none_right (hc _) (seq_none_right ht ?_)))
      have hm0 : ∀ x, many metadata ('=' :: x) = some ([], '=' :: x) := fun x =>
        metas_spec [] (by simp) (headNot_cons (by decide))
      exact seq_none_right (hm0 _) (seq_none_left (by simp [lit]))

theorem fieldDecl_none {s : Name} (h1 : HeadNot isLayout0 s) (h2 : HeadNot isIdent0 s) : fieldDecl s = none := by
  have h : fieldType s = none := seq_none_left (ident_none h2)
  unfold fieldDecl
  rw [alt_right]
  · exact seq_none_right (spacing_nil h1) (seq_none_left h)
  · exact seq_none_right (spacing_nil h1) (seq_none_left h)

theorem FieldC.notLayout {f : FieldC} (hf : f.ok) (rest : Name) : HeadNot isLayout0 (f.chars ++ rest) := by
  unfold FieldC.chars
  rw [List.append_assoc]
  exact ident_notLayout hf.1

theorem fields_notLayout {fs : List FieldC} (hf : ∀ g ∈ fs, g.ok) {rest : Name} (hr : HeadNot isLayout0 rest) :
    HeadNot isLayout0 (fs.flatMap FieldC.chars ++ rest) := by
  cases fs with
  | nil => exact hr
  | cons g gs =>
    simp only [List.flatMap_cons, List.append_assoc]
    exact FieldC.notLayout (hf g (by simp)) _

theorem fields_spec (sp : Layout) (f : FieldC) (fs : List FieldC) {rest : Name} (hsp : layoutOk sp = true) (hf : f.ok)
    (hfs : ∀ g ∈ fs, g.ok) (h1 : HeadNot isLayout0 rest) (h2 : HeadNot isIdent0 rest) :
    many1 fieldDecl (layoutChars sp ++ (f.chars ++ (fs.flatMap FieldC.chars ++ rest))) =
      some ((f :: fs).flatMap FieldC.toks, rest) := by
  have e1 := fieldDecl_spec sp f hsp hf (fields_notLayout hfs h1)
  have e2 := many_items (p := fieldDecl) FieldC.chars FieldC.toks (rest := rest) (fieldDecl_none h1 h2) fs
    (by intro g _; simp [FieldC.chars])
    (by
      intro pre x post he
      have hx : x.ok := hfs x (by simp [he])
      have hp : ∀ g ∈ post, g.ok := fun g hg => hfs g (by simp [he, hg])
      simpa [layoutChars] using fieldDecl_spec [] x rfl hx (fields_notLayout hp h1))
  exact seq_some e1 e2

end Fbs.Schema
