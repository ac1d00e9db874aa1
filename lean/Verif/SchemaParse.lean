import Verif.SchemaLemmas
import Mathlib.Tactic.ByContra
/-!
# Statements, execution of the actions, and camel case
-/

namespace Fbs.Schema
open Fbs Fbs.Peg

/-! ## camel case -/

theorem upper_lower (c : Char) : c.toLower.toUpper = c.toUpper := by
  by_cases h : c.val ≥ 'A'.val ∧ c.val ≤ 'Z'.val
  · have h1 : c.toNat ∈ List.range' 65 26 := by
      have a := UInt32.le_iff_toNat_le.1 h.1
      have b := UInt32.le_iff_toNat_le.1 h.2
      have a' : 65 ≤ c.val.toNat := a
      have b' : c.val.toNat ≤ 90 := b
      rw [List.mem_range'_1]
      change 65 ≤ c.val.toNat ∧ c.val.toNat < 65 + 26
      omega
    have h2 : ∀ n ∈ List.range' 65 26, (Char.ofNat n).toLower.toUpper = (Char.ofNat n).toUpper := by decide
    have h3 := h2 _ h1
    rwa [Char.ofNat_toNat] at h3
  · have : c.toLower = c := by unfold Char.toLower; rw [dif_neg h]
    rw [this]

theorem camel_split (s : Name) : ∃ w ws, splitU s = w :: ws ∧
    (noEmptyWord false s = true → ∃ xs, capAll ws = some xs ∧ w.map Char.toLower ++ xs.flatten = camel false s) ∧
    (noEmptyWord false s = false → capAll ws = none) ∧
    (noEmptyWord true s = true → ∃ x xs, capitalize w = some x ∧ capAll ws = some xs ∧
      x ++ xs.flatten = camel true s) ∧
    (noEmptyWord true s = false → capitalize w = none ∨ capAll ws = none) := by
  induction s with
  | nil => exact ⟨[], [], rfl, fun _ => ⟨[], rfl, rfl⟩, by simp [noEmptyWord], by simp [noEmptyWord], fun _ => .inl rfl⟩
  | cons c l ih =>
    obtain ⟨w, ws, h0, hA, hA', hB, hB'⟩ := ih
    by_cases hc : c = '_'
    · subst hc
      refine ⟨[], w :: ws, by simp [splitU, h0], ?_, ?_, by simp [noEmptyWord], fun _ => .inl rfl⟩
      · intro h
        simp [noEmptyWord] at h
        obtain ⟨x, xs, h1, h2, h3⟩ := hB h
        exact ⟨x :: xs, by simp [capAll, h1, h2], by simpa [camel] using h3⟩
      · intro h
        simp [noEmptyWord] at h
        rcases hB' h with h1 | h1
        · simp [capAll, h1]
        · simp only [capAll, h1]; cases capitalize w <;> rfl
    · refine ⟨c :: w, ws, by simp [splitU, h0, hc], ?_, ?_, ?_, ?_⟩
      · intro h
        simp [noEmptyWord, hc] at h
        obtain ⟨xs, h1, h2⟩ := hA h
        exact ⟨xs, h1, by simp [camel, hc, h2]⟩
      · intro h
        simp [noEmptyWord, hc] at h
        exact hA' h
      · intro h
        simp [noEmptyWord, hc] at h
        obtain ⟨xs, h1, h2⟩ := hA h
        exact ⟨c.toLower.toUpper :: w.map Char.toLower, xs, by simp [capitalize], h1,
          by simp [camel, hc, h2, upper_lower]⟩
      · intro h
        simp [noEmptyWord, hc] at h
        exact .inr (hA' h)

theorem toCamelCase_spec (s : Name) :
    toCamelCase s = if noEmptyWord true s then some (camel true s) else none := by
  obtain ⟨w, ws, h0, _, _, hB, hB'⟩ := camel_split s
  unfold toCamelCase
  rw [h0]
  cases hn : noEmptyWord true s with
  | true =>
    obtain ⟨x, xs, h1, h2, h3⟩ := hB hn
    simp [capAll, h1, h2, h3]
  | false =>
    rcases hB' hn with h1 | h1
    · simp [capAll, h1]
    · simp only [capAll, h1]; cases capitalize w <;> rfl

/-! ## execution -/

/-- State after a type. -/
theorem exec_type (ty : Ty) (hty : ty.ok) (st : FbsSt) (t : Name) :
    ∃ t', exec (st, t) ty.toks = some ({ st with fvalue := ty.val }, t') := by
  induction ty generalizing st t with
  | basic kw go sp => exact ⟨t, rfl⟩
  | str sp => exact ⟨t, rfl⟩
  | user n sp => exact ⟨n, rfl⟩
  | list ty sp ih =>
    obtain ⟨t', h⟩ := ih hty.1 st t
    refine ⟨t', ?_⟩
    simp only [Ty.toks]
    rw [exec_append, h]
    rfl

theorem exec_texts' (ms : List Name) (l : List Tok) (st : FbsSt) (t : Name)
    {y : FbsSt} (h : ∀ t, ∃ t', exec (st, t) l = some (y, t')) :
    ∃ t', exec (st, t) (ms.map Tok.text ++ l) = some (y, t') := by
  obtain ⟨t1, h1⟩ := exec_texts ms st t
  rw [exec_append, h1]
  exact h t1

/-- State after a field. -/
def addField (st : FbsSt) (n v : Name) : FbsSt :=
  { st with fname := n, fvalue := v, fields := st.fields ++ [⟨n, v⟩] }

theorem exec_field (f : FieldC) (hf : f.ok) (st : FbsSt) (t : Name) :
    ∃ t', exec (st, t) f.toks = some (addField st (camel true f.name) f.ty.val, t') := by
  obtain ⟨h1, h2, h3, h4, h5, h6⟩ := hf
  unfold FieldC.toks
  rw [exec_append, exec_append]
  have e0 : exec (st, t) [.text f.name, .act .fieldName] = some ({ st with fname := camel true f.name }, f.name) := by
    simp [exec, FbsSt.run, toCamelCase_spec, h2]
  rw [e0]
  obtain ⟨t1, e1⟩ := exec_type f.ty h3 { st with fname := camel true f.name } f.name
  simp only [Option.bind_some, e1]
  cases hd : f.dflt with
  | none =>
    simp only
    exact exec_texts' _ _ _ _ (fun t => ⟨t, rfl⟩)
  | some d =>
    simp only [List.append_assoc]
    have : ∀ l, exec ({ st with fname := camel true f.name, fvalue := f.ty.val }, t1)
        ([Tok.text [], .text d.bl] ++ l) = exec ({ st with fname := camel true f.name, fvalue := f.ty.val }, d.bl) l :=
      fun l => rfl
    rw [this]
    unfold Dflt.toks
    split
    · simp only [List.cons_append, List.nil_append, exec]
      exact exec_texts' _ _ _ _ (fun t => ⟨t, rfl⟩)
    · exact exec_texts' _ _ _ _ (fun t => ⟨t, rfl⟩)

/-- The declared fields. -/
def decls (fs : List FieldC) : List Field := fs.map fun g => ⟨camel true g.name, g.ty.val⟩

theorem exec_fields (fs : List FieldC) (hf : ∀ g ∈ fs, g.ok) (st : FbsSt) (t : Name) :
    ∃ fn fv t', exec (st, t) (fs.flatMap FieldC.toks) =
      some ({ st with fname := fn, fvalue := fv, fields := st.fields ++ decls fs }, t') := by
  induction fs generalizing st t with
  | nil => exact ⟨st.fname, st.fvalue, t, by simp [exec, decls]⟩
  | cons f fs ih =>
    obtain ⟨t1, h1⟩ := exec_field f (hf f (by simp)) st t
    obtain ⟨fn, fv, t2, h2⟩ := ih (fun g hg => hf g (by simp [hg])) _ t1
    refine ⟨fn, fv, t2, ?_⟩
    simp only [List.flatMap_cons]
    rw [exec_append, h1, Option.bind_some, h2]
    simp [decls, addField]

/-! ## statements -/

theorem kw_none {a b : Name} (x : Name) (h1 : ¬ a <+: b) (h2 : ¬ b <+: a) : lit a (b ++ x) = none := by
  apply lit_none
  intro h
  rcases List.prefix_or_prefix_of_prefix h (List.prefix_append b x) with h | h
  · exact h1 h
  · exact h2 h

def _root_.Fbs.Schema.Member.toks (m : Member) : List Tok := [.text m.name, .act .enumName, .act .newExtractField]

def _root_.Fbs.Schema.Decl.toks : Decl → List Tok
  | .nameSpace _ p _ => [.text p, .act .setNameSpace]
  | .root _ p _ => [.text p, .act .setRootType]
  | .struct t _ n _ ms _ f fs _ =>
    [.text n, .act .setTypeName] ++ (ms.map Tok.text ++ ((f :: fs).flatMap FieldC.toks ++ [.act (.extractStruct t)]))
  | .union _ n _ ms init last _ =>
    [.text n, .act .unionName] ++ (ms.map Tok.text ++ ((init ++ [last]).flatMap Member.toks ++ [.act .newUnion]))
  | .misc _ bl txt _ => [.text bl, .text txt]
  | .empty => []

theorem path_notLayout {p : Name} (hp : p ≠ [] ∧ ∀ c ∈ p, isPath c = true) (x : Name) : HeadNot isLayout0 (p ++ x) := by
  cases p with
  | nil => exact absurd rfl hp.1
  | cons c l =>
    apply headNot_cons
    have := hp.2 c (by simp)
    cases h : isLayout0 c with
    | false => rfl
    | true =>
      simp only [isLayout0, Bool.or_eq_true, decide_eq_true_eq] at h
      rcases h with (((h | h) | h) | h) | h <;> subst h <;> exact absurd this (by decide)

theorem path_spec {p : Name} (hp : p ≠ [] ∧ ∀ c ∈ p, isPath c = true) (x : Name) :
    text (many1 (cls isPath)) (p ++ (';' :: x)) = some ([.text p], ';' :: x) := by
  apply text_append
  cases p with
  | nil => exact absurd rfl hp.1
  | cons c l =>
    have e1 : cls isPath (c :: (l ++ (';' :: x))) = some ([], l ++ (';' :: x)) := by simp [cls, hp.2 c (by simp)]
    exact seq_some e1 (many_cls _ _ (fun d hd => hp.2 d (by simp [hd])) (headNot_cons (by decide)))

theorem layout_meta (sp : Layout) (ms : List Name) (x : Name) :
    HeadNot isIdent (layoutChars sp ++ (ms.flatMap metaChars ++ ('{' :: x))) := by
  apply notIdent_layout
  cases ms with
  | nil => exact headNot_cons (by decide)
  | cons m ms => exact headNot_cons (by decide)

theorem meta_notLayout (ms : List Name) (x : Name) : HeadNot isLayout0 (ms.flatMap metaChars ++ ('{' :: x)) := by
  cases ms with
  | nil => exact headNot_cons (by decide)
  | cons m ms => exact headNot_cons (by decide)

theorem structBody_spec (kw : Name) (t : Bool) (sp1 : Layout) (n : Name) (sp2 : Layout) (ms : List Name) (spIn : Layout)
    (f : FieldC) (fs : List FieldC) (sp3 : Layout) {rest : Name}
    (h : (Decl.struct t sp1 n sp2 ms spIn f fs sp3).ok) (hr : HeadNot isLayout0 rest) :
    structBody kw t (kw ++ (layoutChars sp1 ++ (n ++ (layoutChars sp2 ++
      (ms.flatMap metaChars ++ ('{' :: (layoutChars spIn ++ (f.chars ++ (fs.flatMap FieldC.chars ++
        ('}' :: (layoutChars sp3 ++ rest))))))))))) =
      some ((Decl.struct t sp1 n sp2 ms spIn f fs sp3).toks, rest) := by
  obtain ⟨h1, h2, h3, h4, h5, h6, h7, h8⟩ := h
  have e1 := lit_append kw (layoutChars sp1 ++ (n ++ (layoutChars sp2 ++
      (ms.flatMap metaChars ++ ('{' :: (layoutChars spIn ++ (f.chars ++ (fs.flatMap FieldC.chars ++
        ('}' :: (layoutChars sp3 ++ rest))))))))))
  have e2 := spacing_spec sp1 h1 (ident_notLayout (rest := layoutChars sp2 ++
      (ms.flatMap metaChars ++ ('{' :: (layoutChars spIn ++ (f.chars ++ (fs.flatMap FieldC.chars ++
        ('}' :: (layoutChars sp3 ++ rest)))))))) h2)
  have e3 : typename _ = some ([.text n, .act .setTypeName], _) := seq_some (ident_spec h2 (layout_meta sp2 ms
    (layoutChars spIn ++ (f.chars ++ (fs.flatMap FieldC.chars ++ ('}' :: (layoutChars sp3 ++ rest))))))) rfl
  have e4 := spacing_spec sp2 h3 (meta_notLayout ms
    (layoutChars spIn ++ (f.chars ++ (fs.flatMap FieldC.chars ++ ('}' :: (layoutChars sp3 ++ rest))))))
  have e5 := metas_spec ms (rest := '{' ::
    (layoutChars spIn ++ (f.chars ++ (fs.flatMap FieldC.chars ++ ('}' :: (layoutChars sp3 ++ rest)))))) h4
    (headNot_cons (by decide))
  have e6 := lit_append ['{']
    (layoutChars spIn ++ (f.chars ++ (fs.flatMap FieldC.chars ++ ('}' :: (layoutChars sp3 ++ rest)))))
  have e7 := fields_spec spIn f fs (rest := '}' :: (layoutChars sp3 ++ rest)) h5 h6 h7
    (headNot_cons (by decide)) (headNot_cons (by decide))
  have e8 := lit_append ['}'] (layoutChars sp3 ++ rest)
  have e9 := spacing_spec sp3 h8 hr
  have := seq_some e1 (seq_some e2 (seq_some e3 (seq_some e4 (seq_some e5 (seq_some e6 (seq_some e7 (seq_some e8
    (seq_some e9 (q := act (.extractStruct t)) rfl))))))))
  unfold structBody
  rw [this]
  simp [Decl.toks]

theorem enumField_spec (m : Member) {rest : Name} (hm : m.ok) (h1 : HeadNot isIdent rest) (h2 : HeadNot isLayout0 rest) :
    enumField (m.name ++ (layoutChars m.sp2 ++ rest)) = some (m.toks, rest) := by
  apply alt_left
  have e1 : enumFieldType _ = some ([.text m.name, .act .enumName], _) :=
    seq_some (ident_spec hm.2.1 (notIdent_layout m.sp2 h1)) rfl
  exact seq_some e1 (seq_some (spacing_spec m.sp2 hm.2.2 h2) rfl)

theorem enumFields_comma (m : Member) (rest : Name) (hm : m.ok) :
    enumFields (m.chars ++ [','] ++ rest) = some (m.toks, rest) := by
  apply alt_left
  have e1 := spacing_spec m.sp1 hm.1 (ident_notLayout (rest := layoutChars m.sp2 ++ (',' :: rest)) hm.2.1)
  have e2 := enumField_spec m (rest := ',' :: rest) hm (headNot_cons (by decide)) (headNot_cons (by decide))
  have := seq_some e1 (seq_some e2 (lit_append [','] rest))
  simpa [Member.chars] using this

theorem enumFields_last (m : Member) (rest : Name) (hm : m.ok) :
    enumFields (m.chars ++ ('}' :: rest)) = some (m.toks, '}' :: rest) := by
  have e1 := spacing_spec m.sp1 hm.1 (ident_notLayout (rest := layoutChars m.sp2 ++ ('}' :: rest)) hm.2.1)
  have e2 := enumField_spec m (rest := '}' :: rest) hm (headNot_cons (by decide)) (headNot_cons (by decide))
  unfold enumFields
  simp only [Member.chars, List.append_assoc]
  rw [alt_right]
  · exact seq_some e1 e2
  · exact seq_none_right e1 (seq_none_right e2 (by simp [lit]))

theorem enumFields_close (rest : Name) : enumFields ('}' :: rest) = none := by
  have h1 : spacing ('}' :: rest) = some ([], '}' :: rest) := spacing_nil (headNot_cons (by decide))
  have h2 : enumField ('}' :: rest) = none := by
    have : enumFieldType ('}' :: rest) = none := seq_none_left (ident_none (headNot_cons (by decide)))
    unfold enumField
    rw [alt_right (seq_none_left this)]
    exact seq_none_left this
  unfold enumFields
  rw [alt_right (seq_none_right h1 (seq_none_left h2))]
  exact seq_none_right h1 h2

theorem many_of_many1 {p : Rule} {s a r} (h : many1 p s = some (a, r)) : ∃ a1 r1 a2, p s = some (a1, r1) ∧
    many p r1 = some (a2, r) ∧ a = a1 ++ a2 := by
  unfold many1 seq at h
  split at h
  · cases h
  · rename_i a1 r1 h1
    split at h
    · cases h
    · rename_i a2 r2 h2
      cases h
      exact ⟨a1, r1, a2, h1, h2, rfl⟩

theorem members_spec (init : List Member) (last : Member) (rest : Name) (hi : ∀ m ∈ init, m.ok) (hl : last.ok) :
    many1 enumFields (init.flatMap (fun m => m.chars ++ [',']) ++ (last.chars ++ ('}' :: rest))) =
      some ((init ++ [last]).flatMap Member.toks, '}' :: rest) := by
  have hlast : many enumFields ('}' :: rest) = some ([], '}' :: rest) :=
    many_items (p := enumFields) Member.chars Member.toks (enumFields_close rest) [] (by simp) (by simp)
  have hlast1 : many1 enumFields (last.chars ++ ('}' :: rest)) = some (last.toks, '}' :: rest) := by
    simpa [many1] using seq_some (enumFields_last last rest hl) hlast
  have hmany : ∀ (l : List (Member × Bool)),
      (∀ x ∈ l, x.1.ok) → (∀ pre x post, l = pre ++ x :: post → (x.2 = true ↔ post ≠ [])) →
      many enumFields (l.flatMap (fun x => x.1.chars ++ (if x.2 then [','] else [])) ++ ('}' :: rest)) =
        some (l.flatMap (fun x => x.1.toks), '}' :: rest) := by
    intro l hok hlst
    apply many_items (p := enumFields) _ _ (enumFields_close rest) l
    · intro x hx
      have := (hok x hx).2.1
      intro h0
      simp only [Member.chars, List.append_eq_nil_iff] at h0
      rw [h0.1.2.1] at this
      exact this
    · intro pre x post he
      have hx := hok x (by simp [he])
      cases hb : x.2 with
      | true => simpa [hb] using enumFields_comma x.1 (post.flatMap (fun x => x.1.chars ++ (if x.2 then [','] else [])) ++ ('}' :: rest)) hx
      | false =>
        have : post = [] := by
          by_contra hne
          have := (hlst pre x post he).2 hne
          rw [hb] at this; cases this
        subst this
        simpa [hb] using enumFields_last x.1 rest hx
  have hall : ∀ (ini : List Member), (∀ m ∈ ini, m.ok) →
      many enumFields (ini.flatMap (fun m => m.chars ++ [',']) ++ (last.chars ++ ('}' :: rest))) =
        some ((ini ++ [last]).flatMap Member.toks, '}' :: rest) := by
    intro ini hini
    have := hmany (ini.map (fun m => (m, true)) ++ [(last, false)])
      (by
        intro x hx
        simp only [List.mem_append, List.mem_map, List.mem_singleton] at hx
        rcases hx with ⟨m, hm, rfl⟩ | rfl
        · exact hini m hm
        · exact hl)
      (by
        intro pre x post he
        rcases List.eq_nil_or_concat post with hp | ⟨post', y, hp⟩
        · subst hp
          have := congrArg List.getLast? he
          simp at this
          subst this
          simp
        · subst hp
          have he' : ini.map (fun m => (m, true)) = pre ++ x :: post' := by
            have e2 : ini.map (fun m => (m, true)) ++ [(last, false)] = (pre ++ x :: post') ++ [y] := by
              simpa using he
            exact (List.append_inj' e2 rfl).1
          have : x ∈ ini.map (fun m => (m, true)) := by rw [he']; simp
          obtain ⟨m, _, rfl⟩ := List.mem_map.1 this
          simp)
    simpa [List.flatMap_append, List.flatMap_map] using this
  cases init with
  | nil => simpa using hlast1
  | cons m ms =>
    have e1 := enumFields_comma m (ms.flatMap (fun m => m.chars ++ [',']) ++ (last.chars ++ ('}' :: rest)))
      (hi m (by simp))
    have := seq_some e1 (hall ms (fun x hx => hi x (by simp [hx])))
    simpa [many1, List.append_assoc] using this

theorem union_spec (sp1 : Layout) (n : Name) (sp2 : Layout) (ms : List Name) (init : List Member) (last : Member)
    (sp3 : Layout) {rest : Name} (h : (Decl.union sp1 n sp2 ms init last sp3).ok) (hr : HeadNot isLayout0 rest) :
    unionDecl ("union".toList ++ (layoutChars sp1 ++ (n ++ (layoutChars sp2 ++ (ms.flatMap metaChars ++ ('{' ::
      (init.flatMap (fun m => m.chars ++ [',']) ++ (last.chars ++ ('}' :: (layoutChars sp3 ++ rest)))))))))) =
      some ((Decl.union sp1 n sp2 ms init last sp3).toks, rest) := by
  obtain ⟨h1, h2, h3, h4, h5, h6, h7⟩ := h
  have e1 := lit_append "union".toList (layoutChars sp1 ++ (n ++ (layoutChars sp2 ++ (ms.flatMap metaChars ++ ('{' ::
      (init.flatMap (fun m => m.chars ++ [',']) ++ (last.chars ++ ('}' :: (layoutChars sp3 ++ rest)))))))))
  have e2 := spacing_spec sp1 h1 (ident_notLayout (rest := layoutChars sp2 ++ (ms.flatMap metaChars ++ ('{' ::
      (init.flatMap (fun m => m.chars ++ [',']) ++ (last.chars ++ ('}' :: (layoutChars sp3 ++ rest))))))) h2)
  have e3 : unionName _ = some ([.text n, .act .unionName], _) := seq_some (ident_spec h2 (layout_meta sp2 ms
    (init.flatMap (fun m => m.chars ++ [',']) ++ (last.chars ++ ('}' :: (layoutChars sp3 ++ rest)))))) rfl
  have e4 := spacing_spec sp2 h3 (meta_notLayout ms
    (init.flatMap (fun m => m.chars ++ [',']) ++ (last.chars ++ ('}' :: (layoutChars sp3 ++ rest)))))
  have e5 := metas_spec ms (rest := '{' ::
    (init.flatMap (fun m => m.chars ++ [',']) ++ (last.chars ++ ('}' :: (layoutChars sp3 ++ rest))))) h4
    (headNot_cons (by decide))
  have e6 := lit_append ['{']
    (init.flatMap (fun m => m.chars ++ [',']) ++ (last.chars ++ ('}' :: (layoutChars sp3 ++ rest))))
  have e7 := members_spec init last (layoutChars sp3 ++ rest) h5 h6
  have e8 := lit_append ['}'] (layoutChars sp3 ++ rest)
  have e9 := spacing_spec sp3 h7 hr
  have := seq_some e1 (seq_some e2 (seq_some e3 (seq_some e4 (seq_some e5 (seq_some e6 (seq_some e7 (seq_some e8
    (seq_some e9 (q := act .newUnion) rfl))))))))
  unfold unionDecl
  rw [this]
  simp [Decl.toks]

theorem misc_spec (kw bl txt : Name) (sp : Layout) {rest : Name} (h : (Decl.misc kw bl txt sp).ok)
    (hr : HeadNot isLayout0 rest) :
    (lit kw ⋄ blanks ⋄ until1 ';' ⋄ lit [';'] ⋄ spacing) (kw ++ (bl ++ (txt ++ (';' :: (layoutChars sp ++ rest))))) =
      some ((Decl.misc kw bl txt sp).toks, rest) := by
  obtain ⟨_, h2, h3, h4, h5, h6⟩ := h
  have e2 := blanks_spec bl (rest := txt ++ (';' :: (layoutChars sp ++ rest))) h2 (by
    cases txt with
    | nil => exact absurd rfl h3
    | cons c r => exact headNot_cons (by simpa using h4 c r rfl))
  have e3 : until1 ';' (txt ++ (';' :: (layoutChars sp ++ rest))) = some ([.text txt], ';' :: (layoutChars sp ++ rest)) := by
    apply text_append
    cases txt with
    | nil => exact absurd rfl h3
    | cons c r =>
      have e1 : cls (· ≠ ';') (c :: (r ++ (';' :: (layoutChars sp ++ rest)))) = some ([], r ++ (';' :: (layoutChars sp ++ rest))) := by
        simp [cls, h5 c (by simp)]
      exact seq_some e1 (many_cls _ _ (fun d hd => by simp [h5 d (by simp [hd])]) (headNot_cons (by decide)))
  exact seq_some (lit_append kw _) (seq_some e2 (seq_some e3 (seq_some (lit_append [';'] _) (spacing_spec sp h6 hr))))

theorem ns_none {s : Name} (h : lit "namespace".toList s = none) : namespaceDecl s = none := seq_none_left h
theorem un_none {s : Name} (h : lit "union".toList s = none) : unionDecl s = none := seq_none_left h
theorem ty_none {s : Name} (h1 : lit "struct".toList s = none) (h2 : lit "table".toList s = none) :
    typeDecl s = none := by
  have e1 : structBody "struct".toList false s = none := seq_none_left h1
  have e2 : structBody "table".toList true s = none := seq_none_left h2
  unfold typeDecl
  rw [alt_right e1, e2]
theorem en_none {s : Name} (h : lit "enum".toList s = none) : enumDecl s = none := by
  unfold enumDecl
  rw [alt_right (seq_none_left h)]
  exact seq_none_left h
theorem ro_none {s : Name} (h : lit "root_type".toList s = none) : rootDecl s = none := seq_none_left h
theorem fe_none {s : Name} (h : lit "file_extension".toList s = none) : fileExtensionDecl s = none := seq_none_left h
theorem fi_none {s : Name} (h : lit "file_identifier".toList s = none) : fileIdentifierDecl s = none := seq_none_left h
theorem at_none {s : Name} (h : lit "attribute".toList s = none) : attributeDecl s = none := seq_none_left h
theorem rp_none {s : Name} (h : lit "rpc_service".toList s = none) : rpcDecl s = none := seq_none_left h

/-- The keywords that start a statement, and the lone semicolon. -/
def keywords : List Name :=
  ["namespace".toList, "union".toList, "struct".toList, "table".toList, "enum".toList, "root_type".toList,
   "file_extension".toList, "file_identifier".toList, "attribute".toList, "rpc_service".toList, [';']]

theorem keywords_prefix : ∀ a ∈ keywords, ∀ b ∈ keywords, (a <+: b → a = b) ∧ (b <+: a → a = b) := by decide +kernel

theorem namespaceDecl_spec (sp1 : Layout) (p : Name) (sp2 : Layout) {rest : Name} (h1 : layoutOk sp1 = true)
    (h2 : p ≠ [] ∧ ∀ c ∈ p, isPath c = true) (h3 : layoutOk sp2 = true) (hr : HeadNot isLayout0 rest) :
    namespaceDecl ("namespace".toList ++ (layoutChars sp1 ++ (p ++ (';' :: (layoutChars sp2 ++ rest))))) =
      some ([.text p, .act .setNameSpace], rest) := by
  have e1 := lit_append "namespace".toList (layoutChars sp1 ++ (p ++ (';' :: (layoutChars sp2 ++ rest))))
  have e2 := spacing_spec sp1 h1 (path_notLayout h2 (';' :: (layoutChars sp2 ++ rest)))
  have e3 := path_spec h2 (layoutChars sp2 ++ rest)
  have e4 : act .setNameSpace (';' :: (layoutChars sp2 ++ rest)) = some ([.act .setNameSpace], ';' :: (layoutChars sp2 ++ rest)) := rfl
  have e5 := lit_append [';'] (layoutChars sp2 ++ rest)
  have e6 := spacing_spec sp2 h3 hr
  exact seq_some e1 (seq_some e2 (seq_some e3 (seq_some e4 (seq_some e5 e6))))

theorem rootDecl_spec (sp1 : Layout) (p : Name) (sp2 : Layout) {rest : Name} (h1 : layoutOk sp1 = true)
    (h2 : p ≠ [] ∧ ∀ c ∈ p, isPath c = true) (h3 : layoutOk sp2 = true) (hr : HeadNot isLayout0 rest) :
    rootDecl ("root_type".toList ++ (layoutChars sp1 ++ (p ++ (';' :: (layoutChars sp2 ++ rest))))) =
      some ([.text p, .act .setRootType], rest) := by
  have e1 := lit_append "root_type".toList (layoutChars sp1 ++ (p ++ (';' :: (layoutChars sp2 ++ rest))))
  have e2 := spacing_spec sp1 h1 (path_notLayout h2 (';' :: (layoutChars sp2 ++ rest)))
  have e3 := path_spec h2 (layoutChars sp2 ++ rest)
  have e4 : act .setRootType (';' :: (layoutChars sp2 ++ rest)) = some ([.act .setRootType], ';' :: (layoutChars sp2 ++ rest)) := rfl
  have e5 := lit_append [';'] (layoutChars sp2 ++ rest)
  have e6 := spacing_spec sp2 h3 hr
  exact seq_some e1 (seq_some e2 (seq_some e3 (seq_some e4 (seq_some e5 e6))))

/-- No keyword of a statement other than the one given is a prefix of the text. -/
theorem stmt_nones (k x : Name) :
    ("namespace".toList ≠ k → k ∈ keywords → namespaceDecl (k ++ x) = none) ∧
    ("union".toList ≠ k → k ∈ keywords → unionDecl (k ++ x) = none) ∧
    ("struct".toList ≠ k → "table".toList ≠ k → k ∈ keywords → typeDecl (k ++ x) = none) ∧
    ("enum".toList ≠ k → k ∈ keywords → enumDecl (k ++ x) = none) ∧
    ("root_type".toList ≠ k → k ∈ keywords → rootDecl (k ++ x) = none) ∧
    ("file_extension".toList ≠ k → k ∈ keywords → fileExtensionDecl (k ++ x) = none) ∧
    ("file_identifier".toList ≠ k → k ∈ keywords → fileIdentifierDecl (k ++ x) = none) ∧
    ("attribute".toList ≠ k → k ∈ keywords → attributeDecl (k ++ x) = none) ∧
    ("rpc_service".toList ≠ k → k ∈ keywords → rpcDecl (k ++ x) = none) := by
  have H : ∀ a : Name, a ∈ keywords → a ≠ k → k ∈ keywords → lit a (k ++ x) = none := by
    intro a ha hne hk
    have := keywords_prefix a ha k hk
    exact kw_none x (fun h => hne (this.1 h)) (fun h => hne (this.2 h))
  refine ⟨fun h hk => ns_none (H _ (by decide) h hk), fun h hk => un_none (H _ (by decide) h hk),
    fun h h' hk => ty_none (H _ (by decide) h hk) (H _ (by decide) h' hk),
    fun h hk => en_none (H _ (by decide) h hk), fun h hk => ro_none (H _ (by decide) h hk),
    fun h hk => fe_none (H _ (by decide) h hk), fun h hk => fi_none (H _ (by decide) h hk),
    fun h hk => at_none (H _ (by decide) h hk), fun h hk => rp_none (H _ (by decide) h hk)⟩

theorem st_namespaceDecl {s : Name} {x : List Tok × Name} 
    (h : namespaceDecl s = some x) : statement s = some x := by
  unfold statement
  exact alt_left h

theorem st_unionDecl {s : Name} {x : List Tok × Name} (n0 : namespaceDecl s = none)
    (h : unionDecl s = some x) : statement s = some x := by
  unfold statement
  rw [alt_right n0]
  exact alt_left h

theorem st_typeDecl {s : Name} {x : List Tok × Name} (n0 : namespaceDecl s = none) (n1 : unionDecl s = none)
    (h : typeDecl s = some x) : statement s = some x := by
  unfold statement
  rw [alt_right n0]
  rw [alt_right n1]
  exact alt_left h

theorem st_rootDecl {s : Name} {x : List Tok × Name} (n0 : namespaceDecl s = none) (n1 : unionDecl s = none) (n2 : typeDecl s = none) (n3 : enumDecl s = none)
    (h : rootDecl s = some x) : statement s = some x := by
  unfold statement
  rw [alt_right n0]
  rw [alt_right n1]
  rw [alt_right n2]
  rw [alt_right n3]
  exact alt_left h

theorem st_fileExtensionDecl {s : Name} {x : List Tok × Name} (n0 : namespaceDecl s = none) (n1 : unionDecl s = none) (n2 : typeDecl s = none) (n3 : enumDecl s = none) (n4 : rootDecl s = none)
    (h : fileExtensionDecl s = some x) : statement s = some x := by
  unfold statement
  rw [alt_right n0]
  rw [alt_right n1]
  rw [alt_right n2]
  rw [alt_right n3]
  rw [alt_right n4]
  exact alt_left h

theorem st_fileIdentifierDecl {s : Name} {x : List Tok × Name} (n0 : namespaceDecl s = none) (n1 : unionDecl s = none) (n2 : typeDecl s = none) (n3 : enumDecl s = none) (n4 : rootDecl s = none) (n5 : fileExtensionDecl s = none)
    (h : fileIdentifierDecl s = some x) : statement s = some x := by
  unfold statement
  rw [alt_right n0]
  rw [alt_right n1]
  rw [alt_right n2]
  rw [alt_right n3]
  rw [alt_right n4]
  rw [alt_right n5]
  exact alt_left h

theorem st_attributeDecl {s : Name} {x : List Tok × Name} (n0 : namespaceDecl s = none) (n1 : unionDecl s = none) (n2 : typeDecl s = none) (n3 : enumDecl s = none) (n4 : rootDecl s = none) (n5 : fileExtensionDecl s = none) (n6 : fileIdentifierDecl s = none)
    (h : attributeDecl s = some x) : statement s = some x := by
  unfold statement
  rw [alt_right n0]
  rw [alt_right n1]
  rw [alt_right n2]
  rw [alt_right n3]
  rw [alt_right n4]
  rw [alt_right n5]
  rw [alt_right n6]
  exact alt_left h

theorem st_onlyComment {s : Name} {x : List Tok × Name} (n0 : namespaceDecl s = none) (n1 : unionDecl s = none) (n2 : typeDecl s = none) (n3 : enumDecl s = none) (n4 : rootDecl s = none) (n5 : fileExtensionDecl s = none) (n6 : fileIdentifierDecl s = none) (n7 : attributeDecl s = none) (n8 : rpcDecl s = none)
    (h : onlyComment s = some x) : statement s = some x := by
  unfold statement
  rw [alt_right n0]
  rw [alt_right n1]
  rw [alt_right n2]
  rw [alt_right n3]
  rw [alt_right n4]
  rw [alt_right n5]
  rw [alt_right n6]
  rw [alt_right n7]
  rw [alt_right n8]
  exact h

theorem chars_nameSpace (sp1 : Layout) (p : Name) (sp2 : Layout) : (Decl.nameSpace sp1 p sp2).chars =
    "namespace".toList ++ (layoutChars sp1 ++ (p ++ (';' :: layoutChars sp2))) := rfl
theorem chars_root (sp1 : Layout) (p : Name) (sp2 : Layout) : (Decl.root sp1 p sp2).chars =
    "root_type".toList ++ (layoutChars sp1 ++ (p ++ (';' :: layoutChars sp2))) := rfl
theorem chars_struct (t : Bool) (sp1 : Layout) (n : Name) (sp2 : Layout) (ms : List Name) (spIn : Layout) (f : FieldC)
    (fs : List FieldC) (sp3 : Layout) : (Decl.struct t sp1 n sp2 ms spIn f fs sp3).chars =
    (if t then "table".toList else "struct".toList) ++ (layoutChars sp1 ++ (n ++ (layoutChars sp2 ++
      (ms.flatMap metaChars ++ ('{' :: (layoutChars spIn ++ (f.chars ++ (fs.flatMap FieldC.chars ++
        ('}' :: layoutChars sp3))))))))) := rfl
theorem chars_union (sp1 : Layout) (n : Name) (sp2 : Layout) (ms : List Name) (init : List Member)
    (last : Member) (sp3 : Layout) : (Decl.union sp1 n sp2 ms init last sp3).chars =
    "union".toList ++ (layoutChars sp1 ++ (n ++ (layoutChars sp2 ++ (ms.flatMap metaChars ++ ('{' ::
      (init.flatMap (fun m => m.chars ++ [',']) ++ (last.chars ++ ('}' :: layoutChars sp3)))))))) := rfl
theorem chars_misc (kw bl txt : Name) (sp : Layout) : (Decl.misc kw bl txt sp).chars =
    kw ++ (bl ++ (txt ++ (';' :: layoutChars sp))) := rfl
theorem chars_empty : (Decl.empty).chars = [';'] := rfl

theorem stmt_nameSpace (sp1 : Layout) (p : Name) (sp2 : Layout) {rest : Name}
    (h : (Decl.nameSpace sp1 p sp2).ok) (hr : HeadNot isLayout0 rest) :
    statement ((Decl.nameSpace sp1 p sp2).chars ++ rest) = some ((Decl.nameSpace sp1 p sp2).toks, rest) := by
  have hc := namespaceDecl_spec sp1 p sp2 h.1 h.2.1 h.2.2 hr
  simp only [chars_nameSpace, List.append_assoc, List.cons_append]
  exact st_namespaceDecl hc

theorem stmt_root (sp1 : Layout) (p : Name) (sp2 : Layout) {rest : Name}
    (h : (Decl.root sp1 p sp2).ok) (hr : HeadNot isLayout0 rest) :
    statement ((Decl.root sp1 p sp2).chars ++ rest) = some ((Decl.root sp1 p sp2).toks, rest) := by
  have hc := rootDecl_spec sp1 p sp2 h.1 h.2.1 h.2.2 hr
  simp only [chars_root, List.append_assoc, List.cons_append]
  generalize layoutChars sp1 ++ (p ++ (';' :: (layoutChars sp2 ++ rest))) = x at hc ⊢
  obtain ⟨n1, n2, n3, n4, -⟩ := stmt_nones "root_type".toList x
  exact st_rootDecl (n1 (by decide) (by decide)) (n2 (by decide) (by decide))
    (n3 (by decide) (by decide) (by decide)) (n4 (by decide) (by decide)) hc

theorem stmt_struct (t : Bool) (sp1 : Layout) (n : Name) (sp2 : Layout) (ms : List Name) (spIn : Layout) (f : FieldC)
    (fs : List FieldC) (sp3 : Layout) {rest : Name}
    (h : (Decl.struct t sp1 n sp2 ms spIn f fs sp3).ok) (hr : HeadNot isLayout0 rest) :
    statement ((Decl.struct t sp1 n sp2 ms spIn f fs sp3).chars ++ rest) = some ((Decl.struct t sp1 n sp2 ms spIn f fs sp3).toks, rest) := by
  cases t with
  | true =>
    have hc := structBody_spec "table".toList true sp1 n sp2 ms spIn f fs sp3 h hr
    simp only [chars_struct, List.append_assoc, List.cons_append, if_true]
    generalize layoutChars sp1 ++ _ = x at hc ⊢
    obtain ⟨n1, n2, -⟩ := stmt_nones "table".toList x
    have n3 : structBody "struct".toList false ("table".toList ++ x) = none :=
      seq_none_left (kw_none x (by decide) (by decide))
    have hc' : typeDecl ("table".toList ++ x) = _ := (alt_right n3).trans hc
    exact st_typeDecl (n1 (by decide) (by decide)) (n2 (by decide) (by decide)) hc'
  | false =>
    have hc := structBody_spec "struct".toList false sp1 n sp2 ms spIn f fs sp3 h hr
    simp only [chars_struct, List.append_assoc, List.cons_append, Bool.false_eq_true, if_false]
    generalize layoutChars sp1 ++ _ = x at hc ⊢
    obtain ⟨n1, n2, -⟩ := stmt_nones "struct".toList x
    have hc' : typeDecl ("struct".toList ++ x) = _ := alt_left hc
    exact st_typeDecl (n1 (by decide) (by decide)) (n2 (by decide) (by decide)) hc'

theorem stmt_union (sp1 : Layout) (n : Name) (sp2 : Layout) (ms : List Name) (init : List Member)
    (last : Member) (sp3 : Layout) {rest : Name}
    (h : (Decl.union sp1 n sp2 ms init last sp3).ok) (hr : HeadNot isLayout0 rest) :
    statement ((Decl.union sp1 n sp2 ms init last sp3).chars ++ rest) = some ((Decl.union sp1 n sp2 ms init last sp3).toks, rest) := by
  have hc := union_spec sp1 n sp2 ms init last sp3 h hr
  simp only [chars_union, List.append_assoc, List.cons_append]
  generalize layoutChars sp1 ++ _ = x at hc ⊢
  obtain ⟨n1, -⟩ := stmt_nones "union".toList x
  exact st_unionDecl (n1 (by decide) (by decide)) hc

theorem stmt_misc (kw bl txt : Name) (sp : Layout) {rest : Name}
    (h : (Decl.misc kw bl txt sp).ok) (hr : HeadNot isLayout0 rest) :
    statement ((Decl.misc kw bl txt sp).chars ++ rest) = some ((Decl.misc kw bl txt sp).toks, rest) := by
  have hk : kw = "file_extension".toList ∨ kw = "file_identifier".toList ∨ kw = "attribute".toList := by
    simpa [miscKeywords] using h.1
  have hm := misc_spec kw bl txt sp h hr
  simp only [chars_misc, List.append_assoc, List.cons_append]
  generalize bl ++ (txt ++ (';' :: (layoutChars sp ++ rest))) = x at hm ⊢
  generalize (Decl.misc kw bl txt sp).toks = tk at hm ⊢
  clear h
  rcases hk with rfl | rfl | rfl
  · obtain ⟨n1, n2, n3, n4, n5, n6, n7, n8, n9⟩ := stmt_nones "file_extension".toList x
    have hm' : fileExtensionDecl ("file_extension".toList ++ x) = some (tk, rest) := hm
    exact st_fileExtensionDecl (n1 (by decide) (by decide)) (n2 (by decide) (by decide)) (n3 (by decide) (by decide) (by decide)) (n4 (by decide) (by decide)) (n5 (by decide) (by decide)) hm'
  · obtain ⟨n1, n2, n3, n4, n5, n6, n7, n8, n9⟩ := stmt_nones "file_identifier".toList x
    have hm' : fileIdentifierDecl ("file_identifier".toList ++ x) = some (tk, rest) := hm
    exact st_fileIdentifierDecl (n1 (by decide) (by decide)) (n2 (by decide) (by decide)) (n3 (by decide) (by decide) (by decide)) (n4 (by decide) (by decide)) (n5 (by decide) (by decide)) (n6 (by decide) (by decide)) hm'
  · obtain ⟨n1, n2, n3, n4, n5, n6, n7, n8, n9⟩ := stmt_nones "attribute".toList x
    have hm' : attributeDecl ("attribute".toList ++ x) = some (tk, rest) := hm
    exact st_attributeDecl (n1 (by decide) (by decide)) (n2 (by decide) (by decide)) (n3 (by decide) (by decide) (by decide)) (n4 (by decide) (by decide)) (n5 (by decide) (by decide)) (n6 (by decide) (by decide)) (n7 (by decide) (by decide)) hm'

theorem stmt_empty {rest : Name} (_h : Decl.empty.ok) (_hr : HeadNot isLayout0 rest) :
    statement ((Decl.empty).chars ++ rest) = some ((Decl.empty).toks, rest) := by
  simp only [chars_empty]
  obtain ⟨n1, n2, n3, n4, n5, n6, n7, n8, n9⟩ := stmt_nones [';'] rest
  exact st_onlyComment (n1 (by decide) (by decide)) (n2 (by decide) (by decide)) (n3 (by decide) (by decide) (by decide)) (n4 (by decide) (by decide)) (n5 (by decide) (by decide)) (n6 (by decide) (by decide)) (n7 (by decide) (by decide)) (n8 (by decide) (by decide)) (n9 (by decide) (by decide)) (seq_some (spacing_nil (headNot_cons (by decide))) (lit_append [';'] rest))

theorem statement_spec (d : Decl) {rest : Name} (h : d.ok) (hr : HeadNot isLayout0 rest) :
    statement (d.chars ++ rest) = some (d.toks, rest) :=
  match d, h with
  | .nameSpace sp1 p sp2, h => stmt_nameSpace sp1 p sp2 h hr
  | .root sp1 p sp2, h => stmt_root sp1 p sp2 h hr
  | .struct t sp1 n sp2 ms spIn f fs sp3, h => stmt_struct t sp1 n sp2 ms spIn f fs sp3 h hr
  | .union sp1 n sp2 ms init last sp3, h => stmt_union sp1 n sp2 ms init last sp3 h hr
  | .misc kw bl txt sp, h => stmt_misc kw bl txt sp h hr
  | .empty, h => stmt_empty  h hr

end Fbs.Schema
