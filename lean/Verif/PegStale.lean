import Verif.PegTapeLemmas
/-!
# What abandoned alternatives leave behind in the array of tokens

The actions that complete a declaration (`ExtractStruct`, `NewUnion`) are the last ones of their rules: an attempt
that fails never stored one, so behind the index there is none.
-/

namespace Fbs.Peg.Tape
open Fbs Fbs.Peg

/-- A token that completes no declaration. -/
def TTok.minor : TTok → Prop
  | .act (.extractStruct _) => False
  | .act .newUnion => False
  | _ => True

/-- From position `i` on there are only such tokens. -/
def MinorFrom (i : Nat) (tape : List TTok) : Prop := ∀ j t, i ≤ j → tape[j]? = some t → t.minor

theorem MinorFrom.mono {i k : Nat} {l : List TTok} (h : MinorFrom i l) (hk : i ≤ k) : MinorFrom k l :=
  fun j t hj e => h j t (Nat.le_trans hk hj) e

theorem add_get (t : TTok) (st : TSt) (hi : st.idx ≤ st.tape.length) (j : Nat) :
    (add t st).tape[j]? = if j = st.idx then some t else st.tape[j]? := by
  simp only [add]
  by_cases h : j < st.idx
  · rw [List.getElem?_append_left (by rw [List.length_take]; omega), if_neg (by omega), List.getElem?_take_of_lt h]
  · rw [List.getElem?_append_right (by rw [List.length_take]; omega), List.length_take,
      Nat.min_eq_left hi]
    by_cases e : j = st.idx
    · subst e; simp
    · rw [if_neg e]
      obtain ⟨d, hd⟩ : ∃ d, j - st.idx = d + 1 := ⟨j - st.idx - 1, by omega⟩
      rw [hd, List.getElem?_cons_succ, List.getElem?_drop]
      congr 1; omega

theorem minor_add {t : TTok} (ht : t.minor) {st : TSt} (hi : st.idx ≤ st.tape.length) {i : Nat}
    (h : MinorFrom i st.tape) : MinorFrom i (add t st).tape := by
  intro j u hj e
  rw [add_get t st hi] at e
  by_cases hji : j = st.idx
  · rw [if_pos hji] at e; cases e; exact ht
  · rw [if_neg hji] at e; exact h j u hj e

/-- The rule stores no token that completes a declaration. -/
def Quiet (P : TRule) : Prop := ∀ (st : TSt) (i : Nat), st.idx ≤ st.tape.length → MinorFrom i st.tape →
  MinorFrom i (P st).2.tape ∧ (P st).2.idx ≤ (P st).2.tape.length ∧ st.idx ≤ (P st).2.tape.length ∧
    ((P st).1 = true → st.idx ≤ (P st).2.idx)

/-- The rule leaves no such token behind: not behind the index when it matches, and none at all when it fails. -/
def Calm (P : TRule) : Prop := ∀ (st : TSt) (i : Nat), st.idx ≤ st.tape.length → i ≤ st.idx →
  MinorFrom i st.tape →
  (P st).2.idx ≤ (P st).2.tape.length ∧ st.idx ≤ (P st).2.tape.length ∧
  ((P st).1 = false → MinorFrom i (P st).2.tape) ∧
  ((P st).1 = true → st.idx ≤ (P st).2.idx ∧ MinorFrom (P st).2.idx (P st).2.tape)

theorem Quiet.calm {P : TRule} (h : Quiet P) : Calm P := by
  intro st i hi hii hm
  obtain ⟨h1, h2, h3, h4⟩ := h st i hi hm
  exact ⟨h2, h3, fun _ => h1, fun e => ⟨h4 e, h1.mono (Nat.le_trans hii (h4 e))⟩⟩

theorem quiet_seq {P Q : TRule} (hp : Quiet P) (hq : Quiet Q) : Quiet (P ⋄ₜ Q) := by
  intro st i hi hm
  obtain ⟨h1, h2, h3, h4⟩ := hp st i hi hm
  unfold tseq
  generalize P st = x at h1 h2 h3 h4
  obtain ⟨b, st'⟩ := x
  cases b
  · exact ⟨h1, h2, h3, fun e => by cases e⟩
  · obtain ⟨g1, g2, g3, g4⟩ := hq st' i h2 h1
    have := h4 rfl
    exact ⟨g1, g2, Nat.le_trans this g3, fun e => Nat.le_trans this (g4 e)⟩

theorem calm_seq {P Q : TRule} (hp : Quiet P) (hq : Calm Q) : Calm (P ⋄ₜ Q) := by
  intro st i hi hii hm
  obtain ⟨h1, h2, h3, h4⟩ := hp st i hi hm
  unfold tseq
  generalize P st = x at h1 h2 h3 h4
  obtain ⟨b, st'⟩ := x
  cases b
  · exact ⟨h2, h3, fun _ => h1, fun e => by cases e⟩
  · have := h4 rfl
    obtain ⟨g1, g2, g3, g4⟩ := hq st' i h2 (Nat.le_trans hii this) h1
    exact ⟨g1, Nat.le_trans this g2, g3, fun e => ⟨Nat.le_trans this (g4 e).1, (g4 e).2⟩⟩

theorem quiet_alt {P Q : TRule} (hp : Quiet P) (hq : Quiet Q) : Quiet (P //ₜ Q) := by
  intro st i hi hm
  obtain ⟨h1, h2, h3, h4⟩ := hp st i hi hm
  unfold talt
  generalize P st = x at h1 h2 h3 h4
  obtain ⟨b, st'⟩ := x
  cases b
  · exact hq (back st st') i h3 h1
  · exact ⟨h1, h2, h3, h4⟩

theorem calm_alt {P Q : TRule} (hp : Calm P) (hq : Calm Q) : Calm (P //ₜ Q) := by
  intro st i hi hii hm
  obtain ⟨h1, h2, h3, h4⟩ := hp st i hi hii hm
  unfold talt
  generalize P st = x at h1 h2 h3 h4
  obtain ⟨b, st'⟩ := x
  cases b
  · exact hq (back st st') i h2 hii (h3 rfl)
  · exact ⟨h1, h2, fun e => (by cases e), h4⟩

theorem add_len (t : TTok) (st : TSt) (hi : st.idx ≤ st.tape.length) : st.tape.length ≤ (add t st).tape.length := by
  simp only [add, List.length_append, List.length_take, List.length_cons, List.length_drop]; omega

theorem quiet_rule {P : TRule} (hp : Quiet P) : Quiet (trule P) := by
  intro st i hi hm
  obtain ⟨h1, h2, h3, h4⟩ := hp st i hi hm
  unfold trule
  generalize P st = x at h1 h2 h3 h4
  obtain ⟨b, st'⟩ := x
  cases b
  · exact ⟨h1, h3, h3, fun e => by cases e⟩
  · exact ⟨minor_add (by exact trivial) h2 h1, (add_take _ _ h2).1, Nat.le_trans h3 (add_len _ _ h2),
      fun _ => Nat.le_succ_of_le (h4 rfl)⟩

theorem calm_rule {P : TRule} (hp : Calm P) : Calm (trule P) := by
  intro st i hi hii hm
  obtain ⟨h1, h2, h3, h4⟩ := hp st i hi hii hm
  unfold trule
  generalize P st = x at h1 h2 h3 h4
  obtain ⟨b, st'⟩ := x
  cases b
  · exact ⟨h2, h2, fun _ => h3 rfl, fun e => by cases e⟩
  · obtain ⟨g1, g2⟩ := h4 rfl
    exact ⟨(add_take _ _ h1).1, Nat.le_trans h2 (add_len _ _ h1), fun e => (by cases e),
      fun _ => ⟨Nat.le_succ_of_le g1, (minor_add (by exact trivial) h1 g2).mono (Nat.le_succ _)⟩⟩

theorem quiet_text {P : TRule} (hp : Quiet P) : Quiet (ttext P) := by
  intro st i hi hm
  obtain ⟨h1, h2, h3, h4⟩ := hp st i hi hm
  unfold ttext
  generalize P st = x at h1 h2 h3 h4
  obtain ⟨b, st'⟩ := x
  cases b
  · exact ⟨h1, h2, h3, fun e => by cases e⟩
  · exact ⟨minor_add (by exact trivial) h2 h1, (add_take _ _ h2).1, Nat.le_trans h3 (add_len _ _ h2),
      fun _ => Nat.le_succ_of_le (h4 rfl)⟩

theorem quiet_act {a : Action} (ha : (TTok.act a).minor) : Quiet (tact a) := by
  intro st i hi hm
  exact ⟨minor_add ha hi hm, (add_take _ _ hi).1, Nat.le_trans hi (add_len _ _ hi), fun _ => Nat.le_succ _⟩

/-- Any action may be the last thing a rule does. -/
theorem calm_act (a : Action) : Calm (tact a) := by
  intro st i hi hii hm
  refine ⟨(add_take _ _ hi).1, Nat.le_trans hi (add_len _ _ hi), fun e => (by cases e), fun _ => ⟨Nat.le_succ _, ?_⟩⟩
  intro j t hj e
  have hj' : st.idx + 1 ≤ j := hj
  have e' : (add (.act a) st).tape[j]? = some t := e
  rw [add_get _ st hi, if_neg (by omega)] at e'
  exact hm j t (by omega) e'

theorem quiet_cls (f : Char → Bool) : Quiet (tcls f) := by
  intro st i hi hm
  unfold tcls
  split
  · exact ⟨hm, hi, hi, fun _ => Nat.le_refl _⟩
  · split <;> exact ⟨hm, hi, hi, fun _ => Nat.le_refl _⟩

theorem quiet_lit (l : Name) : Quiet (tlit l) := by
  induction l with
  | nil => exact fun st i hi hm => ⟨hm, hi, hi, fun _ => Nat.le_refl _⟩
  | cons c l ih =>
    intro st i hi hm
    unfold tlit
    split
    · exact ⟨hm, hi, hi, fun _ => Nat.le_refl _⟩
    · split
      · exact ih _ i hi hm
      · exact ⟨hm, hi, hi, fun _ => Nat.le_refl _⟩

theorem quiet_not {P : TRule} (hp : Quiet P) : Quiet (tnot P) := by
  intro st i hi hm
  obtain ⟨h1, h2, h3, h4⟩ := hp st i hi hm
  unfold tnot
  generalize P st = x at h1 h2 h3 h4
  obtain ⟨b, st'⟩ := x
  cases b
  · exact ⟨h1, h3, h3, fun _ => Nat.le_refl _⟩
  · exact ⟨h1, h2, h3, fun e => by cases e⟩

theorem quiet_manyN {P : TRule} (hp : Quiet P) : ∀ n, Quiet (tmanyN P n) := by
  intro n
  induction n with
  | zero => exact fun st i hi hm => ⟨hm, hi, hi, fun _ => Nat.le_refl _⟩
  | succ n ih =>
    intro st i hi hm
    obtain ⟨h1, h2, h3, h4⟩ := hp st i hi hm
    unfold tmanyN
    generalize P st = x at h1 h2 h3 h4
    obtain ⟨b, st'⟩ := x
    cases b
    · exact ⟨h1, h3, h3, fun _ => Nat.le_refl _⟩
    · obtain ⟨g1, g2, g3, g4⟩ := ih st' i h2 h1
      have := h4 rfl
      exact ⟨g1, g2, Nat.le_trans this g3, fun e => Nat.le_trans this (g4 e)⟩

theorem quiet_many {P : TRule} (hp : Quiet P) : Quiet (tmany P) := fun st i hi hm => quiet_manyN hp _ st i hi hm

theorem quiet_many1 {P : TRule} (hp : Quiet P) : Quiet (tmany1 P) := quiet_seq hp (quiet_many hp)

theorem calm_manyN {P : TRule} (hp : Calm P) : ∀ n, Calm (tmanyN P n) ∧ ∀ st, (tmanyN P n st).1 = true := by
  intro n
  induction n with
  | zero => exact ⟨fun st i hi hii hm => ⟨hi, hi, fun _ => hm, fun _ => ⟨Nat.le_refl _, hm.mono hii⟩⟩, fun _ => rfl⟩
  | succ n ih =>
    refine ⟨?_, ?_⟩
    · intro st i hi hii hm
      obtain ⟨h1, h2, h3, h4⟩ := hp st i hi hii hm
      unfold tmanyN
      generalize P st = x at h1 h2 h3 h4
      obtain ⟨b, st'⟩ := x
      cases b
      · exact ⟨h2, h2, fun _ => h3 rfl, fun _ => ⟨Nat.le_refl _, (h3 rfl).mono hii⟩⟩
      · obtain ⟨k1, k2⟩ := h4 rfl
        obtain ⟨g1, g2, g3, g4⟩ := ih.1 st' st'.idx h1 (Nat.le_refl _) k2
        refine ⟨g1, Nat.le_trans k1 g2, fun e => ?_, fun e => ⟨Nat.le_trans k1 (g4 e).1, (g4 e).2⟩⟩
        have := ih.2 st'
        simp only at e
        rw [this] at e; cases e
    · intro st
      unfold tmanyN
      generalize P st = x
      obtain ⟨b, st'⟩ := x
      cases b
      · rfl
      · exact ih.2 st'

theorem calm_many1 {P : TRule} (hp : Calm P) : Calm (tmany1 P) := by
  intro st i hi hii hm
  obtain ⟨h1, h2, h3, h4⟩ := hp st i hi hii hm
  unfold tmany1 tseq
  generalize P st = x at h1 h2 h3 h4
  obtain ⟨b, st'⟩ := x
  cases b
  · exact ⟨h1, h2, fun _ => h3 rfl, fun e => by cases e⟩
  · obtain ⟨k1, k2⟩ := h4 rfl
    obtain ⟨c, t⟩ := calm_manyN hp (st'.rest.length + 1)
    obtain ⟨g1, g2, g3, g4⟩ := c st' st'.idx h1 (Nat.le_refl _) k2
    refine ⟨g1, Nat.le_trans k1 g2, fun e => ?_, fun e => ⟨Nat.le_trans k1 (g4 e).1, (g4 e).2⟩⟩
    have := t st'
    have e' : (tmanyN P (st'.rest.length + 1) st').1 = false := e
    rw [this] at e'; cases e'

/-! ## the grammar -/

theorem q_endOfLine : Quiet endOfLine := quiet_rule (quiet_alt (quiet_lit _) (quiet_alt (quiet_lit _) (quiet_lit _)))
theorem q_space : Quiet space := quiet_rule (quiet_alt (quiet_lit _) (quiet_alt (quiet_lit _) q_endOfLine))
theorem q_comment : Quiet comment :=
  quiet_rule (quiet_seq (quiet_lit _) (quiet_seq (quiet_many (quiet_seq (quiet_not q_endOfLine) (quiet_cls _))) q_endOfLine))
theorem q_spacing : Quiet spacing := quiet_rule (quiet_many (quiet_rule (quiet_alt q_space q_comment)))
theorem q_ident : Quiet ident := quiet_rule (quiet_text (quiet_seq (quiet_cls _) (quiet_many (quiet_cls _))))
theorem q_endOfFile : Quiet endOfFile := quiet_rule (quiet_not (quiet_cls _))
theorem q_until1 (c : Char) : Quiet (until1 c) := quiet_text (quiet_many1 (quiet_cls _))
theorem q_metas : Quiet (tmany metadata) :=
  quiet_many (quiet_rule (quiet_seq (quiet_lit _) (quiet_seq (quiet_text (quiet_many (quiet_cls _))) (quiet_lit _))))
theorem q_blanks : Quiet blanks := quiet_text (quiet_many (quiet_cls _))
theorem q_integer : Quiet integerConstant :=
  quiet_rule (quiet_alt (quiet_text (quiet_many1 (quiet_cls _))) (quiet_alt (quiet_lit _) (quiet_lit _)))
theorem q_floatExp : Quiet floatConstantExp :=
  quiet_rule (quiet_seq (quiet_text (quiet_seq (quiet_many (quiet_cls _)) (quiet_seq (quiet_many1 (quiet_cls _))
    (quiet_seq (quiet_cls _) (quiet_many1 (quiet_cls _))))))
    (quiet_seq (quiet_text (quiet_alt (quiet_cls _) (quiet_cls _))) (quiet_text (quiet_many1 (quiet_cls _)))))
theorem q_scalar : Quiet scalar :=
  quiet_rule (quiet_alt q_integer (quiet_rule (quiet_alt (quiet_text (quiet_seq (quiet_many (quiet_cls _))
    (quiet_seq (quiet_many1 (quiet_cls _)) (quiet_seq (quiet_cls _) (quiet_cls _))))) q_floatExp)))

theorem q_basicType {Q : TRule} (hq : Quiet Q) (l : List (Name × Name)) : Quiet (basicType Q l) := by
  induction l with
  | nil => exact hq
  | cons x l ih => exact quiet_alt (quiet_seq (quiet_lit _) (quiet_seq q_spacing (quiet_act (by exact trivial)))) ih

theorem q_typeN (n : Nat) : Quiet (typeN n) := by
  induction n with
  | zero => exact fun st i hi hm => ⟨hm, hi, hi, fun _ => Nat.le_refl _⟩
  | succ n ih =>
    exact quiet_rule (q_basicType (quiet_alt (quiet_seq (quiet_lit _) (quiet_seq q_spacing (quiet_act (by exact trivial))))
      (quiet_alt (quiet_seq q_ident (quiet_seq q_spacing (quiet_act (by exact trivial))))
        (quiet_seq (quiet_lit _) (quiet_seq ih (quiet_seq (quiet_lit _) (quiet_seq q_spacing (quiet_act (by exact trivial)))))))) _)

theorem q_type : Quiet type := fun st i hi hm => q_typeN (st.rest.length + 1) st i hi hm
theorem q_fieldType : Quiet fieldType := quiet_rule (quiet_seq q_ident (quiet_act (by exact trivial)))
theorem q_fieldDecl : Quiet fieldDecl :=
  quiet_rule (quiet_alt
    (quiet_seq q_spacing (quiet_seq q_fieldType (quiet_seq (quiet_lit _) (quiet_seq q_type (quiet_seq q_metas
      (quiet_seq (quiet_lit _) (quiet_seq q_spacing (quiet_act (by exact trivial)))))))))
    (quiet_seq q_spacing (quiet_seq q_fieldType (quiet_seq (quiet_lit _) (quiet_seq q_type (quiet_seq q_blanks
      (quiet_seq (quiet_lit _) (quiet_seq q_blanks (quiet_seq q_scalar (quiet_seq q_metas (quiet_seq (quiet_lit _)
        (quiet_seq q_spacing (quiet_act (by exact trivial))))))))))))))
theorem q_named {a : Action} (ha : (TTok.act a).minor) : Quiet (trule (ident ⋄ₜ tact a)) :=
  quiet_rule (quiet_seq q_ident (quiet_act ha))
theorem c_structBody (kw : Name) (t : Bool) : Calm (structBody kw t) :=
  calm_rule (calm_seq (quiet_lit _) (calm_seq q_spacing (calm_seq (q_named (by exact trivial)) (calm_seq q_spacing (calm_seq q_metas
    (calm_seq (quiet_lit _) (calm_seq (quiet_many1 q_fieldDecl) (calm_seq (quiet_lit _) (calm_seq q_spacing
      (calm_act _))))))))))
theorem q_enumField : Quiet enumField :=
  quiet_rule (quiet_alt (quiet_seq (q_named (by exact trivial)) (quiet_seq q_spacing (quiet_act (by exact trivial))))
    (quiet_seq (q_named (by exact trivial)) (quiet_seq q_spacing (quiet_seq (quiet_lit _) (quiet_seq q_spacing
      (quiet_seq q_integer q_spacing))))))
theorem q_enumFields : Quiet enumFields :=
  quiet_rule (quiet_alt (quiet_seq q_spacing (quiet_seq q_enumField (quiet_lit _))) (quiet_seq q_spacing q_enumField))
theorem q_enumDecl : Quiet enumDecl :=
  quiet_rule (quiet_alt
    (quiet_seq (quiet_lit _) (quiet_seq q_spacing (quiet_seq q_ident (quiet_seq q_spacing (quiet_seq q_metas
      (quiet_seq (quiet_lit _) (quiet_seq q_enumFields (quiet_seq (quiet_lit _) q_spacing))))))))
    (quiet_seq (quiet_lit _) (quiet_seq q_spacing (quiet_seq q_ident (quiet_seq (quiet_lit _) (quiet_seq q_type
      (quiet_seq q_spacing (quiet_seq q_metas (quiet_seq (quiet_lit _) (quiet_seq q_enumFields
        (quiet_seq (quiet_lit _) q_spacing)))))))))))
theorem c_unionDecl : Calm unionDecl :=
  calm_rule (calm_seq (quiet_lit _) (calm_seq q_spacing (calm_seq (q_named (by exact trivial)) (calm_seq q_spacing (calm_seq q_metas
    (calm_seq (quiet_lit _) (calm_seq (quiet_many1 q_enumFields) (calm_seq (quiet_lit _) (calm_seq q_spacing
      (calm_act _))))))))))
theorem q_path {kw : Name} {a : Action} (ha : (TTok.act a).minor) :
    Quiet (trule (tlit kw ⋄ₜ spacing ⋄ₜ ttext (tmany1 (tcls isPath)) ⋄ₜ tact a ⋄ₜ tlit [';'] ⋄ₜ spacing)) :=
  quiet_rule (quiet_seq (quiet_lit _) (quiet_seq q_spacing (quiet_seq (quiet_text (quiet_many1 (quiet_cls _)))
    (quiet_seq (quiet_act ha) (quiet_seq (quiet_lit _) q_spacing)))))
theorem q_misc (kw : Name) : Quiet (trule (tlit kw ⋄ₜ blanks ⋄ₜ until1 ';' ⋄ₜ tlit [';'] ⋄ₜ spacing)) :=
  quiet_rule (quiet_seq (quiet_lit _) (quiet_seq q_blanks (quiet_seq (q_until1 _) (quiet_seq (quiet_lit _) q_spacing))))
theorem q_rpcDecl : Quiet rpcDecl :=
  quiet_rule (quiet_seq (quiet_lit _) (quiet_seq q_blanks (quiet_seq q_ident (quiet_seq (quiet_lit _)
    (quiet_seq (q_until1 _) (quiet_seq (quiet_lit _) q_spacing))))))
theorem q_onlyComment : Quiet onlyComment := quiet_rule (quiet_seq q_spacing (quiet_lit _))
theorem q_includeDecl : Quiet includeDecl :=
  quiet_rule (quiet_seq (quiet_lit _) (quiet_seq q_spacing (quiet_seq q_ident (quiet_seq q_comment
    (quiet_seq (quiet_lit _) q_spacing)))))
theorem c_statement : Calm statement :=
  calm_rule (calm_alt (Quiet.calm (q_path (a := .setNameSpace) trivial)) (calm_alt c_unionDecl
    (calm_alt (calm_rule (calm_alt (c_structBody _ _) (c_structBody _ _))) (calm_alt q_enumDecl.calm
      (calm_alt (Quiet.calm (q_path (a := .setRootType) trivial)) (calm_alt (q_misc _).calm (calm_alt (q_misc _).calm
        (calm_alt (q_misc _).calm (calm_alt q_rpcDecl.calm q_onlyComment.calm)))))))))
theorem c_statements : Calm (tmany1 statement) := calm_many1 c_statement

/-- Such tokens add no declaration. -/
theorem minor_exec : ∀ (l : List TTok), (∀ t ∈ l, t.minor) → ∀ x y : FbsSt × Name, exec x (strip l) = some y →
    y.1.structs = x.1.structs ∧ y.1.unions = x.1.unions := by
  intro l
  induction l with
  | nil => intro _ x y h; simp only [strip, exec, Option.some.injEq] at h; subst h; exact ⟨rfl, rfl⟩
  | cons t l ih =>
    intro hm x y h
    have ih := ih fun u hu => hm u (by simp [hu])
    have ht := hm t (by simp)
    obtain ⟨st, tx⟩ := x
    cases t with
    | rule => exact ih _ _ h
    | text s => exact ih (st, s) y h
    | act a =>
      simp only [strip, exec] at h
      cases e : st.run tx a with
      | none => simp [e] at h
      | some st' =>
        simp only [e] at h
        obtain ⟨g1, g2⟩ := ih _ _ h
        have k : st'.structs = st.structs ∧ st'.unions = st.unions := by
          cases a <;> simp only [FbsSt.run, Option.some.injEq, Option.map_eq_some_iff] at e
          case fieldName => obtain ⟨n, -, e⟩ := e; subst e; exact ⟨rfl, rfl⟩
          case extractStruct => exact ht.elim
          case newUnion => exact ht.elim
          all_goals subst e; exact ⟨rfl, rfl⟩
        exact ⟨g1.trans k.1, g2.trans k.2⟩

end Fbs.Peg.Tape
