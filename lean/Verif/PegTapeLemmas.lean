import Verif.PegTape
/-!
# The recogniser with its array of tokens refines the rules as functions
-/

namespace Fbs.Peg.Tape
open Fbs Fbs.Peg

theorem strip_append (a b : List TTok) : strip (a ++ b) = strip a ++ strip b := by
  induction a with
  | nil => rfl
  | cons t a ih => cases t <;> simp [strip, ih]

/-- What was stored below the index is kept. -/
def Keeps (st st' : TSt) : Prop := st.idx ≤ st'.tape.length ∧ st'.tape.take st.idx = st.tape.take st.idx

/-- `P` goes through the derivation of `p`: it fails when `p` does, keeping what was stored below the index;
otherwise it stands behind it, and the tokens of `p` were stored from the index on. -/
def Ref (p : Rule) (P : TRule) : Prop := ∀ st : TSt, st.idx ≤ st.tape.length →
  (p st.rest = none → (P st).1 = false ∧ Keeps st (P st).2) ∧
  (∀ a r, p st.rest = some (a, r) → (P st).1 = true ∧ (P st).2.rest = r ∧
    (P st).2.idx ≤ (P st).2.tape.length ∧
    ∃ b, (P st).2.tape.take (P st).2.idx = st.tape.take st.idx ++ b ∧ strip b = a)

theorem Keeps.refl {st : TSt} (h : st.idx ≤ st.tape.length) : Keeps st st := ⟨h, rfl⟩

/-- Keeping below a larger index. -/
theorem keeps_trans {st st' st'' : TSt} (h : st.idx ≤ st.tape.length) {b : List TTok}
    (h1 : st'.idx ≤ st'.tape.length)
    (h2 : st'.tape.take st'.idx = st.tape.take st.idx ++ b) (h3 : Keeps st' st'') : Keeps st st'' := by
  have hl := congrArg List.length h2
  rw [List.length_take, List.length_append, List.length_take] at hl
  have hle : st.idx ≤ st'.idx := by omega
  refine ⟨Nat.le_trans hle h3.1, ?_⟩
  have e1 : st''.tape.take st.idx = (st''.tape.take st'.idx).take st.idx := by
    rw [List.take_take, Nat.min_eq_left hle]
  rw [e1, h3.2, h2, List.take_append_of_le_length (by rw [List.length_take]; omega), List.take_take,
    Nat.min_self]

theorem keeps_success {st st' : TSt} (h : st.idx ≤ st.tape.length) {b : List TTok}
    (h1 : st'.idx ≤ st'.tape.length)
    (h2 : st'.tape.take st'.idx = st.tape.take st.idx ++ b) : Keeps st st' :=
  keeps_trans h h1 h2 (Keeps.refl h1)

theorem keeps_back {st st' : TSt} (h : Keeps st st') : (back st st').idx ≤ (back st st').tape.length ∧
    (back st st').tape.take (back st st').idx = st.tape.take st.idx := h

theorem add_take (t : TTok) (st : TSt) (h : st.idx ≤ st.tape.length) :
    (add t st).idx ≤ (add t st).tape.length ∧
      (add t st).tape.take (add t st).idx = st.tape.take st.idx ++ [t] := by
  constructor
  · simp only [add, List.length_append, List.length_take, List.length_cons]; omega
  · simp only [add]
    rw [List.take_append, List.take_take, List.length_take]
    have e : st.idx + 1 - min st.idx st.tape.length = 1 := by omega
    rw [e, Nat.min_eq_right (by omega)]
    rfl

theorem ref_seq {p q : Rule} {P Q : TRule} (hp : Ref p P) (hq : Ref q Q) : Ref (p ⋄ q) (P ⋄ₜ Q) := by
  intro st hi
  obtain ⟨p0, p1⟩ := hp st hi
  cases e : p st.rest with
  | none =>
    obtain ⟨h1, h2⟩ := p0 e
    have e2 : (P ⋄ₜ Q) st = (false, (P st).2) := by
      unfold tseq; cases h : P st with
      | mk x y => rw [h] at h1; simp only at h1; subst h1; rfl
    refine ⟨fun _ => ?_, fun a r he => ?_⟩
    · rw [e2]; exact ⟨rfl, h2⟩
    · rw [seq, e] at he; cases he
  | some x =>
    obtain ⟨a, r⟩ := x
    obtain ⟨h1, h2, h3, b, h4, h5⟩ := p1 a r e
    have e2 : (P ⋄ₜ Q) st = Q (P st).2 := by
      unfold tseq; cases h : P st with
      | mk x y => rw [h] at h1; simp only at h1; subst h1; rfl
    obtain ⟨q0, q1⟩ := hq (P st).2 h3
    rw [e2]
    refine ⟨fun he => ?_, fun a' r' he => ?_⟩
    · simp only [seq, e] at he
      rw [h2] at q0
      have hn : q r = none := by
        cases hh : q r with
        | none => rfl
        | some y => obtain ⟨y1, y2⟩ := y; simp [hh] at he
      obtain ⟨g1, g2⟩ := q0 hn
      exact ⟨g1, keeps_trans hi h3 h4 g2⟩
    · simp only [seq, e] at he
      rw [h2] at q1
      cases hh : q r with
      | none => simp [hh] at he
      | some y =>
        obtain ⟨y1, y2⟩ := y
        simp only [hh, Option.some.injEq, Prod.mk.injEq] at he
        obtain ⟨he1, he2⟩ := he
        subst he2
        obtain ⟨g1, g2, g3, c, g4, g5⟩ := q1 y1 y2 hh
        refine ⟨g1, g2, g3, b ++ c, ?_, ?_⟩
        · rw [g4, h4, List.append_assoc]
        · rw [strip_append, h5, g5]; exact he1

theorem ref_alt {p q : Rule} {P Q : TRule} (hp : Ref p P) (hq : Ref q Q) : Ref (p // q) (P //ₜ Q) := by
  intro st hi
  obtain ⟨p0, p1⟩ := hp st hi
  cases e : p st.rest with
  | none =>
    obtain ⟨h1, h2⟩ := p0 e
    have e2 : (P //ₜ Q) st = Q (back st (P st).2) := by
      unfold talt; cases h : P st with
      | mk x y => rw [h] at h1; simp only at h1; subst h1; rfl
    obtain ⟨k1, k2⟩ := keeps_back h2
    obtain ⟨q0, q1⟩ := hq (back st (P st).2) k1
    rw [e2]
    refine ⟨fun he => ?_, fun a r he => ?_⟩
    · rw [alt, e] at he
      obtain ⟨g1, g2⟩ := q0 he
      exact ⟨g1, g2.1, g2.2.trans k2⟩
    · rw [alt, e] at he
      obtain ⟨g1, g2, g3, b, g4, g5⟩ := q1 a r he
      exact ⟨g1, g2, g3, b, by rw [g4, k2], g5⟩
  | some x =>
    obtain ⟨a, r⟩ := x
    have h1 := (p1 a r e).1
    have e2 : (P //ₜ Q) st = P st := by
      unfold talt; cases h : P st with
      | mk x y => rw [h] at h1; simp only at h1; subst h1; rfl
    rw [e2]
    refine ⟨fun he => ?_, fun a' r' he => ?_⟩
    · rw [alt, e] at he; cases he
    · rw [alt, e] at he; exact p1 a' r' (by rw [e]; exact he)

theorem ref_rule {p : Rule} {P : TRule} (hp : Ref p P) : Ref p (trule P) := by
  intro st hi
  obtain ⟨p0, p1⟩ := hp st hi
  refine ⟨fun e => ?_, fun a r e => ?_⟩
  · obtain ⟨h1, h2⟩ := p0 e
    have e2 : trule P st = (false, back st (P st).2) := by
      unfold trule; cases h : P st with
      | mk x y => rw [h] at h1; simp only at h1; subst h1; rfl
    rw [e2]; exact ⟨rfl, h2⟩
  · obtain ⟨h1, h2, h3, b, h4, h5⟩ := p1 a r e
    have e2 : trule P st = (true, add .rule (P st).2) := by
      unfold trule; cases h : P st with
      | mk x y => rw [h] at h1; simp only at h1; subst h1; rfl
    rw [e2]
    obtain ⟨k1, k2⟩ := add_take .rule (P st).2 h3
    refine ⟨rfl, h2, k1, b ++ [.rule], ?_, ?_⟩
    · rw [k2, h4, List.append_assoc]
    · rw [strip_append, h5]; simp [strip]

theorem ref_text {p : Rule} {P : TRule} (hp : Ref p P) : Ref (text p) (ttext P) := by
  intro st hi
  obtain ⟨p0, p1⟩ := hp st hi
  cases e : p st.rest with
  | none =>
    obtain ⟨h1, h2⟩ := p0 e
    have e2 : ttext P st = (false, (P st).2) := by
      unfold ttext; cases h : P st with
      | mk x y => rw [h] at h1; simp only at h1; subst h1; rfl
    rw [e2]
    refine ⟨fun _ => ⟨rfl, h2⟩, fun a r he => ?_⟩
    rw [text, e] at he; cases he
  | some x =>
    obtain ⟨a, r⟩ := x
    obtain ⟨h1, h2, h3, b, h4, h5⟩ := p1 a r e
    have e2 : ttext P st = (true, add (.text (st.rest.take (st.rest.length - (P st).2.rest.length))) (P st).2) := by
      unfold ttext; cases h : P st with
      | mk x y => rw [h] at h1; simp only at h1; subst h1; rfl
    rw [e2]
    refine ⟨fun he => ?_, fun a' r' he => ?_⟩
    · rw [text, e] at he; cases he
    · rw [text, e] at he
      simp only [Option.some.injEq, Prod.mk.injEq] at he
      obtain ⟨he1, he2⟩ := he
      subst he2
      obtain ⟨k1, k2⟩ := add_take (.text (st.rest.take (st.rest.length - (P st).2.rest.length))) (P st).2 h3
      refine ⟨rfl, h2, k1, _, by rw [k2, h4, List.append_assoc], ?_⟩
      rw [strip_append, h5, h2, ← he1]; rfl

theorem ref_act (a : Action) : Ref (act a) (tact a) := by
  intro st hi
  refine ⟨fun e => by simp [act] at e, fun b r e => ?_⟩
  simp only [act, Option.some.injEq, Prod.mk.injEq] at e
  obtain ⟨e1, e2⟩ := e
  subst e1 e2
  obtain ⟨k1, k2⟩ := add_take (.act a) st hi
  exact ⟨rfl, rfl, k1, [.act a], k2, rfl⟩

theorem ref_cls (f : Char → Bool) : Ref (cls f) (tcls f) := by
  intro st hi
  obtain ⟨rest, tape, idx⟩ := st
  cases rest with
  | nil => exact ⟨fun _ => ⟨rfl, Keeps.refl hi⟩, fun a r e => by simp [cls] at e⟩
  | cons c r =>
    by_cases h : f c = true
    · refine ⟨fun e => by simp [cls, h] at e, fun a r' e => ?_⟩
      simp only [cls, h, if_true, Option.some.injEq, Prod.mk.injEq] at e
      obtain ⟨e1, e2⟩ := e
      subst e1 e2
      simp only [tcls, h, if_true]
      exact ⟨trivial, trivial, hi, [], by simp, rfl⟩
    · refine ⟨fun _ => ?_, fun a r' e => by simp [cls, h] at e⟩
      simp only [tcls, h]
      exact ⟨rfl, Keeps.refl hi⟩

theorem ref_lit (l : Name) : Ref (lit l) (tlit l) := by
  induction l with
  | nil =>
    intro st hi
    refine ⟨fun e => by simp [lit] at e, fun a r e => ?_⟩
    simp only [lit, Option.some.injEq, Prod.mk.injEq] at e
    obtain ⟨e1, e2⟩ := e
    subst e1 e2
    exact ⟨rfl, rfl, hi, [], by simp [tlit], rfl⟩
  | cons c l ih =>
    intro st hi
    obtain ⟨rest, tape, idx⟩ := st
    cases rest with
    | nil => exact ⟨fun _ => ⟨rfl, Keeps.refl hi⟩, fun a r e => by simp [lit] at e⟩
    | cons d s =>
      by_cases h : d = c
      · have := ih ⟨s, tape, idx⟩ hi
        simp only [lit, tlit, h, if_true]
        exact this
      · refine ⟨fun _ => ?_, fun a r' e => by simp [lit, h] at e⟩
        simp only [tlit, h, if_false]
        exact ⟨trivial, Keeps.refl hi⟩

theorem ref_not {p : Rule} {P : TRule} (hp : Ref p P) : Ref (notP p) (tnot P) := by
  intro st hi
  obtain ⟨p0, p1⟩ := hp st hi
  cases e : p st.rest with
  | none =>
    obtain ⟨h1, h2⟩ := p0 e
    have e2 : tnot P st = (true, back st (P st).2) := by
      unfold tnot; cases h : P st with
      | mk x y => rw [h] at h1; simp only at h1; subst h1; rfl
    rw [e2]
    refine ⟨fun he => by simp [notP, e] at he, fun a r he => ?_⟩
    simp only [notP, e, Option.some.injEq, Prod.mk.injEq] at he
    obtain ⟨e1, e3⟩ := he
    subst e1 e3
    obtain ⟨k1, k2⟩ := keeps_back h2
    exact ⟨rfl, rfl, k1, [], by rw [k2, List.append_nil], rfl⟩
  | some x =>
    obtain ⟨a, r⟩ := x
    obtain ⟨h1, h2, h3, b, h4, h5⟩ := p1 a r e
    have e2 : tnot P st = (false, (P st).2) := by
      unfold tnot; cases h : P st with
      | mk x y => rw [h] at h1; simp only at h1; subst h1; rfl
    rw [e2]
    exact ⟨fun _ => ⟨rfl, keeps_success hi h3 h4⟩, fun a r he => by simp [notP, e] at he⟩

/-- The rule consumes a character. -/
def Eats (p : Rule) : Prop := ∀ s a r, p s = some (a, r) → r.length < s.length

/-- The rule does not go back. -/
def Fwd (p : Rule) : Prop := ∀ s a r, p s = some (a, r) → r.length ≤ s.length

theorem ref_manyN {p : Rule} {P : TRule} (hp : Ref p P) (he : Eats p) : ∀ (n : Nat) (st : TSt),
    st.idx ≤ st.tape.length → st.rest.length ≤ n → ∃ a r, manyN p n st.rest = some (a, r) ∧
    (tmanyN P (n + 1) st).1 = true ∧ (tmanyN P (n + 1) st).2.rest = r ∧
    (tmanyN P (n + 1) st).2.idx ≤ (tmanyN P (n + 1) st).2.tape.length ∧
    ∃ b, (tmanyN P (n + 1) st).2.tape.take (tmanyN P (n + 1) st).2.idx = st.tape.take st.idx ++ b ∧ strip b = a := by
  intro n
  induction n with
  | zero =>
    intro st hi hn
    have hr : st.rest = [] := List.length_eq_zero_iff.1 (Nat.le_zero.1 hn)
    have e : p st.rest = none := by
      cases h : p st.rest with
      | none => rfl
      | some x => have := he _ _ _ h; rw [hr] at this; simp at this
    obtain ⟨h1, h2⟩ := (hp st hi).1 e
    have e2 : tmanyN P (0 + 1) st = (true, back st (P st).2) := by
      unfold tmanyN; cases h : P st with
      | mk x y => rw [h] at h1; simp only at h1; subst h1; rfl
    obtain ⟨k1, k2⟩ := keeps_back h2
    refine ⟨[], st.rest, rfl, ?_⟩
    rw [e2]
    exact ⟨rfl, rfl, k1, [], by rw [k2, List.append_nil], rfl⟩
  | succ n ih =>
    intro st hi hn
    obtain ⟨p0, p1⟩ := hp st hi
    cases e : p st.rest with
    | none =>
      obtain ⟨h1, h2⟩ := p0 e
      have e2 : tmanyN P (n + 1 + 1) st = (true, back st (P st).2) := by
        rw [tmanyN]; cases h : P st with
        | mk x y => rw [h] at h1; simp only at h1; subst h1; rfl
      obtain ⟨k1, k2⟩ := keeps_back h2
      refine ⟨[], st.rest, by simp only [manyN, e], ?_⟩
      rw [e2]
      exact ⟨rfl, rfl, k1, [], by rw [k2, List.append_nil], rfl⟩
    | some x =>
      obtain ⟨a, r⟩ := x
      obtain ⟨h1, h2, h3, b, h4, h5⟩ := p1 a r e
      have hlt := he _ _ _ e
      have e2 : tmanyN P (n + 1 + 1) st = tmanyN P (n + 1) (P st).2 := by
        rw [tmanyN]; cases h : P st with
        | mk x y => rw [h] at h1; simp only at h1; subst h1; rfl
      obtain ⟨a', r', g0, g1, g2, g3, c, g4, g5⟩ := ih (P st).2 h3 (by rw [h2]; omega)
      rw [h2] at g0
      refine ⟨a ++ a', r', by simp only [manyN, e, g0], ?_⟩
      rw [e2]
      exact ⟨g1, g2, g3, b ++ c, by rw [g4, h4, List.append_assoc], by rw [strip_append, h5, g5]⟩

theorem ref_many {p : Rule} {P : TRule} (hp : Ref p P) (he : Eats p) : Ref (many p) (tmany P) := by
  intro st hi
  obtain ⟨a, r, h0, h⟩ := ref_manyN hp he st.rest.length st hi (Nat.le_refl _)
  refine ⟨fun e => ?_, fun a' r' e => ?_⟩
  · rw [many, h0] at e; cases e
  · rw [many, h0] at e
    simp only [Option.some.injEq, Prod.mk.injEq] at e
    obtain ⟨e1, e2⟩ := e
    subst e1 e2
    exact h

theorem ref_many1 {p : Rule} {P : TRule} (hp : Ref p P) (he : Eats p) : Ref (many1 p) (tmany1 P) :=
  ref_seq hp (ref_many hp he)

/-! ## which rules consume -/

theorem Eats.fwd {p : Rule} (h : Eats p) : Fwd p := fun s a r e => Nat.le_of_lt (h s a r e)

theorem seq_inv {p q : Rule} {s a r} (h : (p ⋄ q) s = some (a, r)) :
    ∃ a1 r1 a2, p s = some (a1, r1) ∧ q r1 = some (a2, r) ∧ a = a1 ++ a2 := by
  unfold seq at h
  cases e : p s with
  | none => simp [e] at h
  | some x =>
    obtain ⟨a1, r1⟩ := x
    simp only [e] at h
    cases e2 : q r1 with
    | none => simp [e2] at h
    | some y =>
      obtain ⟨a2, r2⟩ := y
      simp only [e2, Option.some.injEq, Prod.mk.injEq] at h
      obtain ⟨h1, h2⟩ := h
      subst h2
      exact ⟨a1, r1, a2, rfl, e2, h1.symm⟩

theorem fwd_seq {p q : Rule} (hp : Fwd p) (hq : Fwd q) : Fwd (p ⋄ q) := by
  intro s a r h
  obtain ⟨a1, r1, a2, h1, h2, _⟩ := seq_inv h
  exact Nat.le_trans (hq _ _ _ h2) (hp _ _ _ h1)

theorem eats_left {p q : Rule} (hp : Eats p) (hq : Fwd q) : Eats (p ⋄ q) := by
  intro s a r h
  obtain ⟨a1, r1, a2, h1, h2, _⟩ := seq_inv h
  exact Nat.lt_of_le_of_lt (hq _ _ _ h2) (hp _ _ _ h1)

theorem eats_right {p q : Rule} (hp : Fwd p) (hq : Eats q) : Eats (p ⋄ q) := by
  intro s a r h
  obtain ⟨a1, r1, a2, h1, h2, _⟩ := seq_inv h
  exact Nat.lt_of_lt_of_le (hq _ _ _ h2) (hp _ _ _ h1)

theorem alt_inv {p q : Rule} {s x} (h : (p // q) s = some x) : p s = some x ∨ q s = some x := by
  unfold alt at h
  cases e : p s with
  | none => rw [e] at h; exact .inr h
  | some y => rw [e] at h; exact .inl h

theorem eats_alt {p q : Rule} (hp : Eats p) (hq : Eats q) : Eats (p // q) := by
  intro s a r h
  rcases alt_inv h with h | h
  · exact hp _ _ _ h
  · exact hq _ _ _ h

theorem fwd_alt {p q : Rule} (hp : Fwd p) (hq : Fwd q) : Fwd (p // q) := by
  intro s a r h
  rcases alt_inv h with h | h
  · exact hp _ _ _ h
  · exact hq _ _ _ h

theorem fwd_lit (l : Name) : Fwd (lit l) := by
  induction l with
  | nil => intro s a r h; simp only [lit, Option.some.injEq, Prod.mk.injEq] at h; rw [h.2]; exact Nat.le_refl _
  | cons c l ih =>
    intro s a r h
    cases s with
    | nil => simp [lit] at h
    | cons d s =>
      by_cases e : d = c
      · simp only [lit, e, if_true] at h
        have := ih _ _ _ h
        simp only [List.length_cons]; omega
      · simp [lit, e] at h

theorem eats_lit (c : Char) (l : Name) : Eats (lit (c :: l)) := by
  intro s a r h
  cases s with
  | nil => simp [lit] at h
  | cons d s =>
    by_cases e : d = c
    · simp only [lit, e, if_true] at h
      have := fwd_lit l _ _ _ h
      simp only [List.length_cons]; omega
    · simp [lit, e] at h

theorem eats_cls (f : Char → Bool) : Eats (cls f) := by
  intro s a r h
  cases s with
  | nil => simp [cls] at h
  | cons c s =>
    by_cases e : f c = true
    · simp only [cls, e, if_true, Option.some.injEq, Prod.mk.injEq] at h
      rw [← h.2]; simp
    · simp [cls, e] at h

theorem fwd_act (a : Action) : Fwd (act a) := by
  intro s b r h
  simp only [act, Option.some.injEq, Prod.mk.injEq] at h
  rw [h.2]; exact Nat.le_refl _

theorem text_inv {p : Rule} {s a r} (h : text p s = some (a, r)) : ∃ b, p s = some (b, r) := by
  unfold text at h
  cases e : p s with
  | none => simp [e] at h
  | some x =>
    obtain ⟨b, r1⟩ := x
    simp only [e, Option.some.injEq, Prod.mk.injEq] at h
    exact ⟨b, by rw [h.2]⟩

theorem fwd_text {p : Rule} (hp : Fwd p) : Fwd (text p) := by
  intro s a r h; obtain ⟨b, h⟩ := text_inv h; exact hp _ _ _ h

theorem eats_text {p : Rule} (hp : Eats p) : Eats (text p) := by
  intro s a r h; obtain ⟨b, h⟩ := text_inv h; exact hp _ _ _ h

theorem fwd_not (p : Rule) : Fwd (notP p) := by
  intro s a r h
  unfold notP at h
  cases e : p s with
  | none => simp only [e, Option.some.injEq, Prod.mk.injEq] at h; rw [h.2]; exact Nat.le_refl _
  | some x => simp [e] at h

theorem fwd_many {p : Rule} (hp : Fwd p) : Fwd (many p) := by
  have : ∀ (n : Nat), Fwd (manyN p n) := by
    intro n
    induction n with
    | zero =>
      intro s a r h
      simp only [manyN, Option.some.injEq, Prod.mk.injEq] at h
      rw [h.2]; exact Nat.le_refl _
    | succ n ih =>
      intro s a r h
      rw [manyN] at h
      cases e : p s with
      | none => simp only [e, Option.some.injEq, Prod.mk.injEq] at h; rw [h.2]; exact Nat.le_refl _
      | some x =>
        obtain ⟨a1, r1⟩ := x
        simp only [e] at h
        cases e2 : manyN p n r1 with
        | none => simp [e2] at h
        | some y =>
          obtain ⟨a2, r2⟩ := y
          simp only [e2, Option.some.injEq, Prod.mk.injEq] at h
          obtain ⟨_, h2⟩ := h
          subst h2
          exact Nat.le_trans (ih _ _ _ e2) (hp _ _ _ e)
  intro s a r h
  exact this _ _ _ _ h

theorem eats_many1 {p : Rule} (hp : Eats p) : Eats (many1 p) := eats_left hp (fwd_many hp.fwd)

theorem eats_endOfLine : Eats Peg.endOfLine := eats_alt (eats_lit _ _) (eats_alt (eats_lit _ _) (eats_lit _ _))
theorem eats_space : Eats Peg.space := eats_alt (eats_lit _ _) (eats_alt (eats_lit _ _) eats_endOfLine)
theorem eats_lineChar : Eats (notP Peg.endOfLine ⋄ anyC) := eats_right (fwd_not _) (eats_cls _)
theorem eats_comment : Eats Peg.comment :=
  eats_left (eats_lit _ _) (fwd_seq (fwd_many eats_lineChar.fwd) eats_endOfLine.fwd)
theorem eats_spaceComment : Eats Peg.spaceComment := eats_alt eats_space eats_comment
theorem fwd_spacing : Fwd Peg.spacing := fwd_many eats_spaceComment.fwd
theorem eats_ident : Eats Peg.ident := eats_text (eats_left (eats_cls _) (fwd_many (eats_cls _).fwd))
theorem fwd_until0 (c : Char) : Fwd (Peg.until0 c) := fwd_text (fwd_many (eats_cls _).fwd)
theorem eats_until1 (c : Char) : Eats (Peg.until1 c) := eats_text (eats_many1 (eats_cls _))
theorem eats_metadata : Eats Peg.metadata := eats_left (eats_lit _ _) (fwd_seq (fwd_until0 _) (fwd_lit _))
theorem fwd_metas : Fwd (many Peg.metadata) := fwd_many eats_metadata.fwd
theorem fwd_blanks : Fwd Peg.blanks := fwd_text (fwd_many (eats_cls _).fwd)
theorem eats_integer : Eats Peg.integerConstant :=
  eats_alt (eats_text (eats_many1 (eats_cls _))) (eats_alt (eats_lit _ _) (eats_lit _ _))
theorem fwd_floatExp : Fwd Peg.floatConstantExp :=
  fwd_seq (fwd_text (fwd_seq (fwd_many (eats_cls _).fwd) (fwd_seq (eats_many1 (eats_cls _)).fwd
    (fwd_seq (eats_cls _).fwd (eats_many1 (eats_cls _)).fwd))))
    (fwd_seq (fwd_text (fwd_alt (eats_cls _).fwd (eats_cls _).fwd)) (fwd_text (eats_many1 (eats_cls _)).fwd))
theorem fwd_float : Fwd Peg.floatConstant :=
  fwd_alt (fwd_text (fwd_seq (fwd_many (eats_cls _).fwd) (fwd_seq (eats_many1 (eats_cls _)).fwd
    (fwd_seq (eats_cls _).fwd (eats_cls _).fwd)))) fwd_floatExp
theorem fwd_scalar : Fwd Peg.scalar := fwd_alt eats_integer.fwd fwd_float

theorem fwd_basicType (l : List (Name × Name)) : Fwd (Peg.basicType l) := by
  induction l with
  | nil => intro s a r h; simp [Peg.basicType] at h
  | cons x l ih => exact fwd_alt (fwd_seq (fwd_lit _) (fwd_seq fwd_spacing (fwd_act _))) ih

theorem fwd_typeN (n : Nat) : Fwd (Peg.typeN n) := by
  induction n with
  | zero => intro s a r h; simp [Peg.typeN] at h
  | succ n ih =>
    exact fwd_alt (fwd_basicType _) (fwd_alt (fwd_seq (fwd_lit _) (fwd_seq fwd_spacing (fwd_act _)))
      (fwd_alt (fwd_seq eats_ident.fwd (fwd_seq fwd_spacing (fwd_act _)))
        (fwd_seq (fwd_lit _) (fwd_seq ih (fwd_seq (fwd_lit _) (fwd_seq fwd_spacing (fwd_act _)))))))

theorem fwd_type : Fwd Peg.type := fun _ _ _ h => fwd_typeN _ _ _ _ h

theorem eats_fieldType : Eats Peg.fieldType := eats_left eats_ident (fwd_act _)
theorem eats_fieldDecl : Eats Peg.fieldDecl :=
  eats_alt
    (eats_right fwd_spacing (eats_left eats_fieldType (fwd_seq (fwd_lit _) (fwd_seq fwd_type (fwd_seq fwd_metas
      (fwd_seq (fwd_lit _) (fwd_seq fwd_spacing (fwd_act _))))))))
    (eats_right fwd_spacing (eats_left eats_fieldType (fwd_seq (fwd_lit _) (fwd_seq fwd_type (fwd_seq fwd_blanks
      (fwd_seq (fwd_lit _) (fwd_seq fwd_blanks (fwd_seq fwd_scalar (fwd_seq fwd_metas (fwd_seq (fwd_lit _)
        (fwd_seq fwd_spacing (fwd_act _))))))))))))
theorem eats_typename : Eats Peg.typename := eats_left eats_ident (fwd_act _)
theorem eats_structBody (c : Char) (l : Name) (t : Bool) : Eats (Peg.structBody (c :: l) t) :=
  eats_left (eats_lit _ _) (fwd_seq fwd_spacing (fwd_seq eats_typename.fwd (fwd_seq fwd_spacing (fwd_seq fwd_metas
    (fwd_seq (fwd_lit _) (fwd_seq (eats_many1 eats_fieldDecl).fwd (fwd_seq (fwd_lit _) (fwd_seq fwd_spacing
      (fwd_act _)))))))))
theorem eats_typeDecl : Eats Peg.typeDecl := eats_alt (eats_structBody _ _ _) (eats_structBody _ _ _)
theorem eats_enumFieldType : Eats Peg.enumFieldType := eats_left eats_ident (fwd_act _)
theorem eats_enumField : Eats Peg.enumField :=
  eats_alt (eats_left eats_enumFieldType (fwd_seq fwd_spacing (fwd_act _)))
    (eats_left eats_enumFieldType (fwd_seq fwd_spacing (fwd_seq (fwd_lit _) (fwd_seq fwd_spacing
      (fwd_seq eats_integer.fwd fwd_spacing)))))
theorem eats_enumFields : Eats Peg.enumFields :=
  eats_alt (eats_right fwd_spacing (eats_left eats_enumField (fwd_lit _))) (eats_right fwd_spacing eats_enumField)
theorem eats_enumDecl : Eats Peg.enumDecl :=
  eats_alt
    (eats_left (eats_lit _ _) (fwd_seq fwd_spacing (fwd_seq eats_ident.fwd (fwd_seq fwd_spacing (fwd_seq fwd_metas
      (fwd_seq (fwd_lit _) (fwd_seq eats_enumFields.fwd (fwd_seq (fwd_lit _) fwd_spacing))))))))
    (eats_left (eats_lit _ _) (fwd_seq fwd_spacing (fwd_seq eats_ident.fwd (fwd_seq (fwd_lit _) (fwd_seq fwd_type
      (fwd_seq fwd_spacing (fwd_seq fwd_metas (fwd_seq (fwd_lit _) (fwd_seq eats_enumFields.fwd
        (fwd_seq (fwd_lit _) fwd_spacing))))))))))
theorem eats_unionName : Eats Peg.unionName := eats_left eats_ident (fwd_act _)
theorem eats_unionDecl : Eats Peg.unionDecl :=
  eats_left (eats_lit _ _) (fwd_seq fwd_spacing (fwd_seq eats_unionName.fwd (fwd_seq fwd_spacing (fwd_seq fwd_metas
    (fwd_seq (fwd_lit _) (fwd_seq (eats_many1 eats_enumFields).fwd (fwd_seq (fwd_lit _) (fwd_seq fwd_spacing
      (fwd_act _)))))))))
theorem fwd_path : Fwd (text (many1 (cls isPath))) := fwd_text (eats_many1 (eats_cls _)).fwd
theorem eats_namespaceDecl : Eats Peg.namespaceDecl :=
  eats_left (eats_lit _ _) (fwd_seq fwd_spacing (fwd_seq fwd_path (fwd_seq (fwd_act _) (fwd_seq (fwd_lit _) fwd_spacing))))
theorem eats_rootDecl : Eats Peg.rootDecl :=
  eats_left (eats_lit _ _) (fwd_seq fwd_spacing (fwd_seq fwd_path (fwd_seq (fwd_act _) (fwd_seq (fwd_lit _) fwd_spacing))))
theorem fwd_misc : Fwd (Peg.blanks ⋄ Peg.until1 ';' ⋄ lit [';'] ⋄ Peg.spacing) :=
  fwd_seq fwd_blanks (fwd_seq (eats_until1 _).fwd (fwd_seq (fwd_lit _) fwd_spacing))
theorem eats_rpcDecl : Eats Peg.rpcDecl :=
  eats_left (eats_lit _ _) (fwd_seq fwd_blanks (fwd_seq eats_ident.fwd (fwd_seq (fwd_lit _)
    (fwd_seq (eats_until1 _).fwd (fwd_seq (fwd_lit _) fwd_spacing)))))
theorem eats_onlyComment : Eats Peg.onlyComment := eats_right fwd_spacing (eats_lit _ _)
theorem eats_statement : Eats Peg.statement :=
  eats_alt eats_namespaceDecl (eats_alt eats_unionDecl (eats_alt eats_typeDecl (eats_alt eats_enumDecl
    (eats_alt eats_rootDecl (eats_alt (eats_left (eats_lit _ _) fwd_misc) (eats_alt (eats_left (eats_lit _ _) fwd_misc)
      (eats_alt (eats_left (eats_lit _ _) fwd_misc) (eats_alt eats_rpcDecl eats_onlyComment))))))))

/-! ## every rule of the grammar -/

theorem r_endOfLine : Ref Peg.endOfLine endOfLine := ref_rule (ref_alt (ref_lit _) (ref_alt (ref_lit _) (ref_lit _)))
theorem r_space : Ref Peg.space space := ref_rule (ref_alt (ref_lit _) (ref_alt (ref_lit _) r_endOfLine))
theorem r_comment : Ref Peg.comment comment :=
  ref_rule (ref_seq (ref_lit _) (ref_seq (ref_many (ref_seq (ref_not r_endOfLine) (ref_cls _)) eats_lineChar) r_endOfLine))
theorem r_spaceComment : Ref Peg.spaceComment spaceComment := ref_rule (ref_alt r_space r_comment)
theorem r_spacing : Ref Peg.spacing spacing := ref_rule (ref_many r_spaceComment eats_spaceComment)
theorem r_clss (f : Char → Bool) : Ref (many (cls f)) (tmany (tcls f)) := ref_many (ref_cls f) (eats_cls f)
theorem r_clss1 (f : Char → Bool) : Ref (many1 (cls f)) (tmany1 (tcls f)) := ref_many1 (ref_cls f) (eats_cls f)
theorem r_ident : Ref Peg.ident ident := ref_rule (ref_text (ref_seq (ref_cls _) (r_clss _)))
theorem r_endOfFile : Ref Peg.endOfFile endOfFile := ref_rule (ref_not (ref_cls _))
theorem r_onlyComment : Ref Peg.onlyComment onlyComment := ref_rule (ref_seq r_spacing (ref_lit _))
theorem r_until0 (c : Char) : Ref (Peg.until0 c) (until0 c) := ref_text (r_clss _)
theorem r_until1 (c : Char) : Ref (Peg.until1 c) (until1 c) := ref_text (r_clss1 _)
theorem r_metadata : Ref Peg.metadata metadata := ref_rule (ref_seq (ref_lit _) (ref_seq (r_until0 _) (ref_lit _)))
theorem r_metas : Ref (many Peg.metadata) (tmany metadata) := ref_many r_metadata eats_metadata
theorem r_blanks : Ref Peg.blanks blanks := ref_text (r_clss _)
theorem r_integer : Ref Peg.integerConstant integerConstant :=
  ref_rule (ref_alt (ref_text (r_clss1 _)) (ref_alt (ref_lit _) (ref_lit _)))
theorem r_floatExp : Ref Peg.floatConstantExp floatConstantExp :=
  ref_rule (ref_seq (ref_text (ref_seq (r_clss _) (ref_seq (r_clss1 _) (ref_seq (ref_cls _) (r_clss1 _)))))
    (ref_seq (ref_text (ref_alt (ref_cls _) (ref_cls _))) (ref_text (r_clss1 _))))
theorem r_float : Ref Peg.floatConstant floatConstant :=
  ref_rule (ref_alt (ref_text (ref_seq (r_clss _) (ref_seq (r_clss1 _) (ref_seq (ref_cls _) (ref_cls _))))) r_floatExp)
theorem r_scalar : Ref Peg.scalar scalar := ref_rule (ref_alt r_integer r_float)

theorem alt_assoc (p q r : Rule) : ((p // q) // r) = (p // q // r) := by
  funext s; simp only [alt]; cases p s <;> rfl

theorem r_basicType {q : Rule} {Q : TRule} (hq : Ref q Q) (l : List (Name × Name)) :
    Ref (Peg.basicType l // q) (basicType Q l) := by
  induction l with
  | nil => exact fun st hi => hq st hi
  | cons x l ih =>
    have := ref_alt (ref_seq (ref_lit x.1) (ref_seq r_spacing (ref_act (.setType x.2)))) ih
    rw [← alt_assoc] at this
    exact this

theorem r_typeN (n : Nat) : Ref (Peg.typeN n) (typeN n) := by
  induction n with
  | zero => exact fun _ hi => ⟨fun _ => ⟨rfl, Keeps.refl hi⟩, fun _ _ e => by simp [Peg.typeN] at e⟩
  | succ n ih =>
    exact ref_rule (r_basicType (ref_alt (ref_seq (ref_lit _) (ref_seq r_spacing (ref_act _)))
      (ref_alt (ref_seq r_ident (ref_seq r_spacing (ref_act _)))
        (ref_seq (ref_lit _) (ref_seq ih (ref_seq (ref_lit _) (ref_seq r_spacing (ref_act _))))))) _)

theorem r_type : Ref Peg.type type := fun st hi => r_typeN (st.rest.length + 1) st hi

theorem r_fieldType : Ref Peg.fieldType fieldType := ref_rule (ref_seq r_ident (ref_act _))
theorem r_fieldDecl : Ref Peg.fieldDecl fieldDecl :=
  ref_rule (ref_alt
    (ref_seq r_spacing (ref_seq r_fieldType (ref_seq (ref_lit _) (ref_seq r_type (ref_seq r_metas
      (ref_seq (ref_lit _) (ref_seq r_spacing (ref_act _))))))))
    (ref_seq r_spacing (ref_seq r_fieldType (ref_seq (ref_lit _) (ref_seq r_type (ref_seq r_blanks
      (ref_seq (ref_lit _) (ref_seq r_blanks (ref_seq r_scalar (ref_seq r_metas (ref_seq (ref_lit _)
        (ref_seq r_spacing (ref_act _)))))))))))))
theorem r_typename : Ref Peg.typename typename := ref_rule (ref_seq r_ident (ref_act _))
theorem r_structBody (kw : Name) (t : Bool) : Ref (Peg.structBody kw t) (structBody kw t) :=
  ref_rule (ref_seq (ref_lit _) (ref_seq r_spacing (ref_seq r_typename (ref_seq r_spacing (ref_seq r_metas
    (ref_seq (ref_lit _) (ref_seq (ref_many1 r_fieldDecl eats_fieldDecl) (ref_seq (ref_lit _) (ref_seq r_spacing
      (ref_act _))))))))))
theorem r_typeDecl : Ref Peg.typeDecl typeDecl := ref_rule (ref_alt (r_structBody _ _) (r_structBody _ _))
theorem r_enumFieldType : Ref Peg.enumFieldType enumFieldType := ref_rule (ref_seq r_ident (ref_act _))
theorem r_enumField : Ref Peg.enumField enumField :=
  ref_rule (ref_alt (ref_seq r_enumFieldType (ref_seq r_spacing (ref_act _)))
    (ref_seq r_enumFieldType (ref_seq r_spacing (ref_seq (ref_lit _) (ref_seq r_spacing
      (ref_seq r_integer r_spacing))))))
theorem r_enumFields : Ref Peg.enumFields enumFields :=
  ref_rule (ref_alt (ref_seq r_spacing (ref_seq r_enumField (ref_lit _))) (ref_seq r_spacing r_enumField))
theorem r_enumDecl : Ref Peg.enumDecl enumDecl :=
  ref_rule (ref_alt
    (ref_seq (ref_lit _) (ref_seq r_spacing (ref_seq r_ident (ref_seq r_spacing (ref_seq r_metas
      (ref_seq (ref_lit _) (ref_seq r_enumFields (ref_seq (ref_lit _) r_spacing))))))))
    (ref_seq (ref_lit _) (ref_seq r_spacing (ref_seq r_ident (ref_seq (ref_lit _) (ref_seq r_type
      (ref_seq r_spacing (ref_seq r_metas (ref_seq (ref_lit _) (ref_seq r_enumFields
        (ref_seq (ref_lit _) r_spacing)))))))))))
theorem r_unionName : Ref Peg.unionName unionName := ref_rule (ref_seq r_ident (ref_act _))
theorem r_unionDecl : Ref Peg.unionDecl unionDecl :=
  ref_rule (ref_seq (ref_lit _) (ref_seq r_spacing (ref_seq r_unionName (ref_seq r_spacing (ref_seq r_metas
    (ref_seq (ref_lit _) (ref_seq (ref_many1 r_enumFields eats_enumFields) (ref_seq (ref_lit _) (ref_seq r_spacing
      (ref_act _))))))))))
theorem r_namespaceDecl : Ref Peg.namespaceDecl namespaceDecl :=
  ref_rule (ref_seq (ref_lit _) (ref_seq r_spacing (ref_seq (ref_text (r_clss1 _)) (ref_seq (ref_act _)
    (ref_seq (ref_lit _) r_spacing)))))
theorem r_rootDecl : Ref Peg.rootDecl rootDecl :=
  ref_rule (ref_seq (ref_lit _) (ref_seq r_spacing (ref_seq (ref_text (r_clss1 _)) (ref_seq (ref_act _)
    (ref_seq (ref_lit _) r_spacing)))))
theorem r_misc (kw : Name) : Ref (lit kw ⋄ Peg.blanks ⋄ Peg.until1 ';' ⋄ lit [';'] ⋄ Peg.spacing)
    (trule (tlit kw ⋄ₜ blanks ⋄ₜ until1 ';' ⋄ₜ tlit [';'] ⋄ₜ spacing)) :=
  ref_rule (ref_seq (ref_lit _) (ref_seq r_blanks (ref_seq (r_until1 _) (ref_seq (ref_lit _) r_spacing))))
theorem r_rpcDecl : Ref Peg.rpcDecl rpcDecl :=
  ref_rule (ref_seq (ref_lit _) (ref_seq r_blanks (ref_seq r_ident (ref_seq (ref_lit _) (ref_seq (r_until1 _)
    (ref_seq (ref_lit _) r_spacing))))))
theorem r_includeDecl : Ref Peg.includeDecl includeDecl :=
  ref_rule (ref_seq (ref_lit _) (ref_seq r_spacing (ref_seq r_ident (ref_seq r_comment (ref_seq (ref_lit _)
    r_spacing)))))
theorem r_statement : Ref Peg.statement statement :=
  ref_rule (ref_alt r_namespaceDecl (ref_alt r_unionDecl (ref_alt r_typeDecl (ref_alt r_enumDecl (ref_alt r_rootDecl
    (ref_alt (r_misc _) (ref_alt (r_misc _) (ref_alt (r_misc _) (ref_alt r_rpcDecl r_onlyComment)))))))))
theorem r_statements : Ref (many1 Peg.statement) (tmany1 statement) := ref_many1 r_statement eats_statement
theorem r_schema : Ref Peg.schema schema :=
  ref_rule (ref_alt (ref_seq r_includeDecl r_endOfFile) (ref_alt
    (ref_seq r_includeDecl (ref_seq r_statements r_endOfFile)) (ref_seq r_statements r_endOfFile)))

end Fbs.Peg.Tape
