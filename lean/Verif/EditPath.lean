import Verif.Laid
/-!
# The way to a table deep inside of a value

What the walk over the whole message shows about a table anywhere in it (`Route`), for any depth.
-/

namespace Fbs.Props
open Fbs CNode

/-- One step down: into a table field, into the member of a union field, into an element of a list field. -/
inductive Hop where
  | field (i : Nat)
  | member (i : Nat)
  | elem (i k : Nat)
deriving DecidableEq

/-- The `k`-th value of a list. -/
def Vals.get : Vals → Nat → Option Val
  | .nil, _ => none
  | .cons _ v _, 0 => some v
  | .cons _ _ vs, k + 1 => vs.get k

/-- The list with another `k`-th value. -/
def Vals.put : Vals → Nat → Val → Vals
  | .nil, _, _ => .nil
  | .cons fl _ vs, 0, w => .cons fl w vs
  | .cons fl v vs, k + 1, w => .cons fl v (vs.put k w)

/-- Specification: the value at the end of the path. -/
def Val.sel : List Hop → Val → Option Val
  | [], v => some v
  | .field i :: p, .tab _ _ (.table i' _ v) _ => if i' = i then v.sel p else none
  | .member i :: p, .tab _ _ (.union i' _ v) _ => if i' + 1 = i then v.sel p else none
  | .elem i k :: p, .tab _ _ (.list i' _ _ vs) _ => if i' = i then (vs.get k).bind (Val.sel p) else none
  | _, _ => none

/-- Specification: the value with another one at the end of the path. -/
def Val.put : List Hop → Val → Val → Val
  | [], _, w => w
  | .field _ :: p, .tab nm pre (.table i fl v) post, w => .tab nm pre (.table i fl (v.put p w)) post
  | .member _ :: p, .tab nm pre (.union i fl v) post, w => .tab nm pre (.union i fl (v.put p w)) post
  | .elem _ k :: p, .tab nm pre (.list i fl t vs) post, w =>
    .tab nm pre (.list i fl t (match vs.get k with | some v => vs.put k (v.put p w) | none => vs)) post
  | _, v, _ => v

/-- The number a cell of four bytes holds. -/
def rd (b : Base) (a : Nat) : Nat := (b.getN 4 a).getD 0

theorem rd_holds {b : Base} {a v : Nat} (h : Holds b a (putLE 4 v)) (hv : v < 4294967296) : rd b a = v := by
  unfold rd
  rw [holds_getN h, Nat.mod_eq_of_lt (by omega)]
  rfl

/-- A list in which the place of the `k`-th value is open. -/
def LCtx (s : Sch) (b : Base) (C : Val → Nat → Nat → Prop) : Nat → Vals → Nat → Nat → Nat → Prop
  | _, .nil, _, _, _ => False
  | 0, .cons _ v vs, A, x, y => ∃ z, C v x z ∧ Holds b A (putLE 4 (x + (4 + 2 * (s.fields v.name).length) - A)) ∧ vs.Laid s b (A + 4) z y
  | k + 1, .cons _ v vs, A, x, y => ∃ z, v.Laid s b x z ∧ Holds b A (putLE 4 (x + (4 + 2 * (s.fields v.name).length) - A)) ∧ LCtx s b C k vs (A + 4) z y

/-- Everything but the value at the end of the path lies in `b` from `x` to `y`; that is to lie from `X` to `Y`; the lists passed. -/
def Ctx (s : Sch) (b : Base) (w : Val) (X Y : Nat) : List Hop → Val → Nat → Nat → List PList → Prop
  | [], v, x, y, L => v = w ∧ x = X ∧ y = Y ∧ L = []
  | .field i :: p, .tab nm pre (.table i' _ v) post, x, y, L => i' = i ∧
      ∃ t, Frame s b nm (lastSet (pre ++ post)) (some i) (4 + 2 * (s.fields v.name).length) x t ∧
        Ctx s b w X Y p v (x + (4 + 2 * (s.fields nm).length + t)) y L
  | .member i :: p, .tab nm pre (.union i' _ v) post, x, y, L => i' + 1 = i ∧
      ∃ t, Frame s b nm (lastSet (pre ++ post)) (some i) (4 + 2 * (s.fields v.name).length) x t ∧
        Ctx s b w X Y p v (x + (4 + 2 * (s.fields nm).length + t)) y L
  | .elem i k :: p, .tab nm pre (.list i' _ tn vs) post, x, y, L => i' = i ∧
      ∃ t e L', Frame s b nm (lastSet (pre ++ post)) (some i) 0 x t ∧ e = x + (4 + 2 * (s.fields nm).length + t) ∧
        Holds b e (putLE 4 vs.count) ∧
        LCtx s b (fun v x z => Ctx s b w X Y p v x z L') k vs (e + 4) (e + 4 + 4 * vs.count) y ∧
        L = ⟨e + 4, k, vs.count, tn, fun j => rd b (e + 4 + 4 * j)⟩ :: L'
  | _, _, _, _, _ => False

/-! ## lists -/

theorem lctx_laid {s : Sch} {b : Base} {C : Val → Nat → Nat → Prop} (hC : ∀ v x z, C v x z → v.Laid s b x z) :
    ∀ (k : Nat) (vs : Vals) {A x y : Nat}, LCtx s b C k vs A x y → vs.Laid s b A x y
  | _, .nil, _, _, _, h => by rw [LCtx] at h; exact h.elim
  | 0, .cons fl v vs, A, x, y, h => by
    rw [LCtx] at h
    rw [Vals.Laid]
    obtain ⟨z, h1, h2, h3⟩ := h
    exact ⟨z, hC _ _ _ h1, h2, h3⟩
  | k + 1, .cons fl v vs, A, x, y, h => by
    rw [LCtx] at h
    rw [Vals.Laid]
    obtain ⟨z, h1, h2, h3⟩ := h
    exact ⟨z, h1, h2, lctx_laid hC k vs h3⟩

theorem laid_lctx {s : Sch} {b : Base} {u : Val} :
    ∀ (k : Nat) (vs : Vals) {A x y : Nat}, vs.Laid s b A x y → vs.get k = some u →
      ∃ x' z, u.Laid s b x' z ∧ ∀ C : Val → Nat → Nat → Prop, C u x' z → LCtx s b C k vs A x y
  | _, .nil, _, _, _, _, h => by cases h
  | 0, .cons fl v vs, A, x, y, h, hg => by
    rw [Vals.Laid] at h
    obtain ⟨z, h1, h2, h3⟩ := h
    rw [Vals.get] at hg
    cases hg
    exact ⟨x, z, h1, fun C hc => ⟨z, hc, h2, h3⟩⟩
  | k + 1, .cons fl v vs, A, x, y, h, hg => by
    rw [Vals.Laid] at h
    obtain ⟨z, h1, h2, h3⟩ := h
    rw [Vals.get] at hg
    obtain ⟨x', z', g1, g2⟩ := laid_lctx k vs h3 hg
    exact ⟨x', z', g1, fun C hc => ⟨z, h1, h2, g2 C hc⟩⟩

/-- The open place is between the offsets and the end. -/
theorem lctx_in {s : Sch} {b : Base} {C : Val → Nat → Nat → Prop} :
    ∀ (k : Nat) (vs : Vals) {A x y : Nat}, LCtx s b C k vs A x y → ∃ v x' z, vs.get k = some v ∧ C v x' z ∧ x ≤ x' ∧ (z ≤ y) ∧
      Holds b (A + 4 * k) (putLE 4 (x' + (4 + 2 * (s.fields v.name).length) - (A + 4 * k)))
  | _, .nil, _, _, _, h => by rw [LCtx] at h; exact h.elim
  | 0, .cons fl v vs, A, x, y, h => by
    rw [LCtx] at h
    obtain ⟨z, h1, h2, h3⟩ := h
    exact ⟨v, x, z, rfl, h1, Nat.le_refl _, Vals.laid_le vs h3, h2⟩
  | k + 1, .cons fl v vs, A, x, y, h => by
    rw [LCtx] at h
    obtain ⟨z, h1, h2, h3⟩ := h
    obtain ⟨v', x', z', g1, g2, g3, g4, g5⟩ := lctx_in k vs h3
    have := Val.laid_le v h1
    rw [show A + 4 + 4 * k = A + 4 * (k + 1) by omega] at g5
    exact ⟨v', x', z', g1, g2, by omega, g4, g5⟩

theorem Vals.get_lt : ∀ (vs : Vals) (k : Nat) {v : Val}, vs.get k = some v → k < vs.count
  | .nil, _, _, h => by cases h
  | .cons _ _ vs, 0, _, _ => by rw [Vals.count]; omega
  | .cons _ _ vs, k + 1, _, h => by
    rw [Vals.get] at h
    have := Vals.get_lt vs k h
    rw [Vals.count]; omega

theorem Vals.get_ok {s : Sch} {t : Name} : ∀ (vs : Vals) (k : Nat) {v : Val}, vs.Ok s t → vs.get k = some v → v.Ok s ∧ v.name = t ∧ k < vs.count
  | .nil, _, _, _, h => by cases h
  | .cons fl u vs, 0, v, ho, h => by
    rw [Vals.Ok] at ho
    rw [Vals.get] at h
    cases h
    exact ⟨ho.1, ho.2.1, by rw [Vals.count]; omega⟩
  | .cons fl u vs, k + 1, v, ho, h => by
    rw [Vals.Ok] at ho
    rw [Vals.get] at h
    obtain ⟨h1, h2, h3⟩ := Vals.get_ok vs k ho.2.2 h
    exact ⟨h1, h2, by rw [Vals.count]; omega⟩

/-! ## the path -/

theorem ctx_view {s : Sch} {b : Base} {w : Val} {X Y : Nat} {st : Hop} {p : List Hop} {nm : Name} {pre post : List Setting} {sub : Sub} {x y : Nat} {L : List PList}
    (h : Ctx s b w X Y (st :: p) (.tab nm pre sub post) x y L) :
    (∃ i fl v t, st = .field i ∧ sub = .table i fl v ∧ Frame s b nm (lastSet (pre ++ post)) (some i) (4 + 2 * (s.fields v.name).length) x t ∧
        Ctx s b w X Y p v (x + (4 + 2 * (s.fields nm).length + t)) y L) ∨
    (∃ i fl v t, st = .member (i + 1) ∧ sub = .union i fl v ∧ Frame s b nm (lastSet (pre ++ post)) (some (i + 1)) (4 + 2 * (s.fields v.name).length) x t ∧
        Ctx s b w X Y p v (x + (4 + 2 * (s.fields nm).length + t)) y L) ∨
    (∃ i k fl tn vs t e L', st = .elem i k ∧ sub = .list i fl tn vs ∧ Frame s b nm (lastSet (pre ++ post)) (some i) 0 x t ∧
        e = x + (4 + 2 * (s.fields nm).length + t) ∧ Holds b e (putLE 4 vs.count) ∧
        LCtx s b (fun v x z => Ctx s b w X Y p v x z L') k vs (e + 4) (e + 4 + 4 * vs.count) y ∧
        L = ⟨e + 4, k, vs.count, tn, fun j => rd b (e + 4 + 4 * j)⟩ :: L') := by
  cases st with
  | field i =>
    cases sub with
    | table i' fl v =>
      rw [Ctx] at h
      obtain ⟨rfl, t, h1, h2⟩ := h
      exact Or.inl ⟨_, fl, v, t, rfl, rfl, h1, h2⟩
    | none => exact h.elim
    | bytes _ _ _ => exact h.elim
    | union _ _ _ => exact h.elim
    | list _ _ _ _ => exact h.elim
  | member i =>
    cases sub with
    | union i' fl v =>
      rw [Ctx] at h
      obtain ⟨rfl, t, h1, h2⟩ := h
      exact Or.inr (Or.inl ⟨_, fl, v, t, rfl, rfl, h1, h2⟩)
    | none => exact h.elim
    | bytes _ _ _ => exact h.elim
    | table _ _ _ => exact h.elim
    | list _ _ _ _ => exact h.elim
  | elem i k =>
    cases sub with
    | list i' fl tn vs =>
      rw [Ctx] at h
      obtain ⟨rfl, t, e, L', h1, h2, h3, h4, h5⟩ := h
      exact Or.inr (Or.inr ⟨_, k, fl, tn, vs, t, e, L', rfl, rfl, h1, h2, h3, h4, h5⟩)
    | none => exact h.elim
    | bytes _ _ _ => exact h.elim
    | table _ _ _ => exact h.elim
    | union _ _ _ => exact h.elim

theorem sel_view {w : Val} {st : Hop} {p : List Hop} {nm : Name} {pre post : List Setting} {sub : Sub}
    (h : Val.sel (st :: p) (.tab nm pre sub post) = some w) :
    (∃ i fl v, st = .field i ∧ sub = .table i fl v ∧ v.sel p = some w) ∨
    (∃ i fl v, st = .member (i + 1) ∧ sub = .union i fl v ∧ v.sel p = some w) ∨
    (∃ i k fl tn vs v, st = .elem i k ∧ sub = .list i fl tn vs ∧ vs.get k = some v ∧ v.sel p = some w) := by
  cases st with
  | field i =>
    cases sub with
    | table i' fl v =>
      rw [Val.sel] at h
      split at h
      · rename_i hi
        subst hi
        exact Or.inl ⟨_, fl, v, rfl, rfl, h⟩
      · cases h
    | none => cases h
    | bytes _ _ _ => cases h
    | union _ _ _ => cases h
    | list _ _ _ _ => cases h
  | member i =>
    cases sub with
    | union i' fl v =>
      rw [Val.sel] at h
      split at h
      · rename_i hi
        subst hi
        exact Or.inr (Or.inl ⟨_, fl, v, rfl, rfl, h⟩)
      · cases h
    | none => cases h
    | bytes _ _ _ => cases h
    | table _ _ _ => cases h
    | list _ _ _ _ => cases h
  | elem i k =>
    cases sub with
    | list i' fl tn vs =>
      rw [Val.sel] at h
      split at h
      · rename_i hi
        subst hi
        obtain ⟨u, hu, h⟩ := Option.bind_eq_some_iff.mp h
        exact Or.inr (Or.inr ⟨_, k, fl, tn, vs, u, rfl, rfl, hu, h⟩)
      · cases h
    | none => cases h
    | bytes _ _ _ => cases h
    | table _ _ _ => cases h
    | union _ _ _ => cases h

theorem ctx_laid {s : Sch} {b : Base} {w : Val} {X Y : Nat} (hw : w.Laid s b X Y) : ∀ (p : List Hop) (v : Val) {x y : Nat} {L : List PList},
    Ctx s b w X Y p v x y L → v.Laid s b x y
  | [], v, x, y, L, h => by
    rw [Ctx] at h
    obtain ⟨rfl, rfl, rfl, -⟩ := h
    exact hw
  | st :: p, .tab nm pre sub post, x, y, L, h => by
    rw [laid_frame]
    rcases ctx_view h with ⟨i, fl, v, t, rfl, rfl, h1, h2⟩ | ⟨i, fl, v, t, rfl, rfl, h1, h2⟩ | ⟨i, k, fl, tn, vs, t, e, L', rfl, rfl, h1, rfl, h2, h3, -⟩
    · exact ⟨t, h1, by rw [Sub.Laid]; exact ctx_laid hw p _ h2⟩
    · exact ⟨t, h1, by rw [Sub.Laid]; exact ctx_laid hw p _ h2⟩
    · exact ⟨t, h1, by rw [Sub.Laid]; exact ⟨h2, lctx_laid (fun v x z hh => ctx_laid hw p v hh) _ _ h3⟩⟩

theorem laid_ctx {s : Sch} {b : Base} {w : Val} : ∀ (p : List Hop) (v : Val) {x y : Nat}, v.Laid s b x y → v.sel p = some w →
    ∃ X Y L, Ctx s b w X Y p v x y L ∧ w.Laid s b X Y
  | [], v, x, y, h, hs => by
    rw [Val.sel] at hs
    cases hs
    exact ⟨x, y, [], ⟨rfl, rfl, rfl, rfl⟩, h⟩
  | st :: p, .tab nm pre sub post, x, y, h, hs => by
    rw [laid_frame] at h
    obtain ⟨t, h1, h2⟩ := h
    rcases sel_view hs with ⟨i, fl, v, rfl, rfl, hs'⟩ | ⟨i, fl, v, rfl, rfl, hs'⟩ | ⟨i, k, fl, tn, vs, u, rfl, rfl, hu, hs'⟩
    · rw [Sub.Laid] at h2
      obtain ⟨X, Y, L, g1, g2⟩ := laid_ctx p _ h2 hs'
      exact ⟨X, Y, L, ⟨rfl, t, h1, g1⟩, g2⟩
    · rw [Sub.Laid] at h2
      obtain ⟨X, Y, L, g1, g2⟩ := laid_ctx p _ h2 hs'
      exact ⟨X, Y, L, ⟨rfl, t, h1, g1⟩, g2⟩
    · rw [Sub.Laid] at h2
      obtain ⟨x', z, a1, a2⟩ := laid_lctx _ _ h2.2 hu
      obtain ⟨X, Y, L', g1, g2⟩ := laid_ctx p u a1 hs'
      exact ⟨X, Y, _, ⟨rfl, t, _, L', h1, rfl, h2.1, a2 _ g1, rfl⟩, g2⟩

theorem sel_ok {s : Sch} {w : Val} : ∀ (p : List Hop) (v : Val), v.Ok s → v.sel p = some w → w.Ok s
  | [], v, h, hs => by
    rw [Val.sel] at hs
    cases hs
    exact h
  | st :: p, .tab nm pre sub post, h, hs => by
    rw [Val.Ok] at h
    obtain ⟨-, -, -, -, -, -, h⟩ := h
    rcases sel_view hs with ⟨i, fl, v, rfl, rfl, hs'⟩ | ⟨i, fl, v, rfl, rfl, hs'⟩ | ⟨i, k, fl, tn, vs, u, rfl, rfl, hu, hs'⟩
    · rw [Sub.Ok] at h
      exact sel_ok p v h.1 hs'
    · rw [Sub.Ok] at h
      exact sel_ok p v h.1 hs'
    · rw [Sub.Ok] at h
      exact sel_ok p u (Vals.get_ok vs k h.1 hu).1 hs'

/-- Where the end of the path and the lists on the way are. -/
theorem ctx_bounds {s : Sch} {b : Base} {w : Val} {X Y : Nat} : ∀ (p : List Hop) (v : Val) {x y : Nat} {L : List PList}, Ctx s b w X Y p v x y L →
    x ≤ X ∧ Y ≤ y ∧ (X = x → v.name = w.name) ∧ (X ≠ x → x + (4 + 2 * (s.fields v.name).length) < X) ∧
    (∀ e ∈ L, x + (4 + 2 * (s.fields v.name).length) < e.A ∧ e.A + 4 * e.n ≤ X ∧ e.kp < e.n) ∧
    (∀ e ∈ L, ∀ e' ∈ L, e = e' ∨ e.A + 4 * e.n ≤ e'.A ∨ e'.A + 4 * e'.n ≤ e.A)
  | [], v, x, y, L, h => by
    rw [Ctx] at h
    obtain ⟨rfl, rfl, rfl, rfl⟩ := h
    exact ⟨Nat.le_refl _, Nat.le_refl _, fun _ => rfl, fun h => absurd rfl h, by simp, by simp⟩
  | st :: p, .tab nm pre sub post, x, y, L, h => by
    rw [Val.name]
    rcases ctx_view h with ⟨i, fl, v, t, rfl, rfl, h1, h2⟩ | ⟨i, fl, v, t, rfl, rfl, h1, h2⟩ | ⟨i, k, fl, tn, vs, t, e, L', rfl, rfl, h1, rfl, h2, h3, rfl⟩
    · have ht := h1.t4
      obtain ⟨g1, g2, g3, g4, g5, g6⟩ := ctx_bounds p v h2
      exact ⟨by omega, g2, fun h => by omega, fun h => by omega, fun e he => by have := g5 e he; omega, g6⟩
    · have ht := h1.t4
      obtain ⟨g1, g2, g3, g4, g5, g6⟩ := ctx_bounds p v h2
      exact ⟨by omega, g2, fun h => by omega, fun h => by omega, fun e he => by have := g5 e he; omega, g6⟩
    · have ht := h1.t4
      obtain ⟨v, x', z, a1, a2, a3, a4, -⟩ := lctx_in _ _ h3
      have hk := Vals.get_lt vs k a1
      obtain ⟨g1, g2, g3, g4, g5, g6⟩ := ctx_bounds p v a2
      refine ⟨by omega, by omega, fun h => by omega, fun h => by omega, fun e he => ?_, fun e he e' he' => ?_⟩
      · rcases List.mem_cons.mp he with rfl | he
        · simp only
          omega
        · have := g5 e he
          omega
      · rcases List.mem_cons.mp he with rfl | he
        · rcases List.mem_cons.mp he' with rfl | he'
          · exact Or.inl rfl
          · have := g5 e' he'
            right; left
            simp only
            omega
        · rcases List.mem_cons.mp he' with rfl | he'
          · have := g5 e he
            right; right
            simp only
            omega
          · exact g6 e he e' he'

/-! ## the walk around the path -/

/-- What the walk shows about the table `c`, the place `q` in it, and the lists on the way, all of which are between `lo` and `hi`; `Q`: owners allowed besides. -/
structure Core (s : Sch) (lo hi : Nat) (c : CNode) (vs : List Visit) (q : Nat) (Q : Int → Prop) (L : List PList) : Prop where
  clo : lo < c.pos
  cq  : c.pos < q
  chi : q ≤ hi
  lb  : ∀ e ∈ L, lo < e.A ∧ e.A ≤ q
  cross  : ∀ u ∈ vs, ∀ a, treeNode s u = some (some (some a)) → u.parent ≤ q → (q : Int) ≤ treePos (some a) →
    u.parent = c.pos ∨ Q u.parent ∨ ∃ e ∈ L, u.parent = (e.A : Int)
  own    : ∀ u ∈ vs, ∀ a, treeNode s u = some (some (some a)) → treePos (some a) = c.pos → OwnName s c a
  lst    : ∀ e ∈ L, ∀ u ∈ vs, ∀ a, treeNode s u = some (some (some a)) → treePos (some a) = (e.A : Int) →
    a.name = '[' :: ']' :: e.t ∧ a.vi.pos = (e.A : Int) ∧ a.vi.vlen = e.n
  idx    : ∀ e ∈ L, (vs.filter fun u => decide (u.parent = (e.A : Int))).map Visit.idx = List.range e.n
  ele    : ∀ e ∈ L, ∀ u ∈ vs, u.parent = (e.A : Int) → ∃ a, treeNode s u = some (some (some a)) ∧ ((q : Int) ≤ treePos (some a) ↔ e.kp < u.idx)

/-- A visit that has nothing to do with what is between `lo` and `hi`. -/
def Off (s : Sch) (lo hi : Nat) (Q : Int → Prop) (u : Visit) : Prop :=
  (u.parent ≤ lo ∨ (hi : Int) < u.parent) ∧ ∀ a, treeNode s u = some (some (some a)) →
    (treePos (some a) ≤ lo ∨ (hi : Int) < treePos (some a)) ∧ (u.parent ≤ lo → (hi : Int) < treePos (some a) → Q u.parent)

section
variable {s : Sch} {lo hi q : Nat} {c : CNode} {vs : List Visit} {Q : Int → Prop} {L : List PList}

theorem Inn.off {P E : Nat} {u : Visit} (h : Inn s P E u) (hE : E ≤ lo) (hh : lo ≤ hi) : Off s lo hi Q u := by
  obtain ⟨h1, h2, o, h3, h4⟩ := h
  refine ⟨Or.inl (by omega), fun a ha => ?_⟩
  rw [h3] at ha
  cases ha
  have := h4 a rfl
  exact ⟨Or.inl (by omega), fun _ _ => by omega⟩

theorem VIn.off_before {P y : Nat} {u : Visit} (h : VIn s P y u) (hE : y ≤ lo) (hh : lo ≤ hi) : Off s lo hi Q u := by
  obtain ⟨h1, h2, o, h3, h4⟩ := h
  refine ⟨Or.inl (by omega), fun a ha => ?_⟩
  rw [h3] at ha
  cases ha
  have := h4 a rfl
  exact ⟨Or.inl (by omega), fun _ _ => by omega⟩

theorem VIn.off_behind {P y : Nat} {u : Visit} (h : VIn s P y u) (hE : hi < P) (hh : lo ≤ hi) : Off s lo hi Q u := by
  obtain ⟨h1, h2, o, h3, h4⟩ := h
  refine ⟨Or.inr (by omega), fun a ha => ?_⟩
  rw [h3] at ha
  cases ha
  have := h4 a rfl
  exact ⟨Or.inr (by omega), fun _ _ => by omega⟩

theorem Core.add (h : Core s lo hi c vs q Q L) {A B : List Visit} (hA : ∀ u ∈ A, Off s lo hi Q u) (hB : ∀ u ∈ B, Off s lo hi Q u) :
    Core s lo hi c (A ++ vs ++ B) q Q L := by
  have h1 := h.clo
  have h2 := h.cq
  have h3 := h.chi
  have hsplit : ∀ u ∈ A ++ vs ++ B, u ∈ vs ∨ Off s lo hi Q u := by
    intro u hu
    rcases List.mem_append.mp hu with hu | hu
    · rcases List.mem_append.mp hu with hu | hu
      · exact Or.inr (hA u hu)
      · exact Or.inl hu
    · exact Or.inr (hB u hu)
  refine ⟨h1, h2, h3, h.lb, ?_, ?_, ?_, ?_, ?_⟩
  · intro u hu a ha g1 g2
    rcases hsplit u hu with hu | ⟨hp, ho⟩
    · exact h.cross u hu a ha g1 g2
    · obtain ⟨o1, o2⟩ := ho a ha
      exact Or.inr (Or.inl (o2 (by omega) (by omega)))
  · intro u hu a ha g
    rcases hsplit u hu with hu | ⟨hp, ho⟩
    · exact h.own u hu a ha g
    · obtain ⟨o1, -⟩ := ho a ha
      omega
  · intro e he u hu a ha g
    have := h.lb e he
    rcases hsplit u hu with hu | ⟨hp, ho⟩
    · exact h.lst e he u hu a ha g
    · obtain ⟨o1, -⟩ := ho a ha
      omega
  · intro e he
    have := h.lb e he
    have hnil : ∀ l : List Visit, (∀ u ∈ l, Off s lo hi Q u) → l.filter (fun u => decide (u.parent = (e.A : Int))) = [] := by
      intro l hl
      rw [List.filter_eq_nil_iff]
      intro u hu
      have := (hl u hu).1
      simp only [decide_eq_true_eq]
      omega
    rw [List.filter_append, List.filter_append, hnil A hA, hnil B hB, List.nil_append, List.append_nil]
    exact h.idx e he
  · intro e he u hu g
    have := h.lb e he
    rcases hsplit u hu with hu | ⟨hp, ho⟩
    · exact h.ele e he u hu g
    · omega

/-- The field that leads to the table in which everything is. -/
theorem Core.head (h : Core s lo hi c vs q Q L) {u : Visit} {a : CNode} (hp : u.parent ≤ lo) (ha : treeNode s u = some (some (some a))) {P : Nat}
    (hP : treePos (some a) = P) (hc : P ≤ c.pos) (hL : ∀ e ∈ L, P < e.A) (hown : P = c.pos → OwnName s c a) :
    Core s lo hi c (u :: vs) q Q L := by
  have h1 := h.clo
  have h2 := h.cq
  have h3 := h.chi
  refine ⟨h1, h2, h3, h.lb, ?_, ?_, ?_, ?_, ?_⟩
  · intro u' hu a' ha' g1 g2
    rcases List.mem_cons.mp hu with rfl | hu
    · rw [ha] at ha'
      cases ha'
      omega
    · exact h.cross u' hu a' ha' g1 g2
  · intro u' hu a' ha' g
    rcases List.mem_cons.mp hu with rfl | hu
    · rw [ha] at ha'
      cases ha'
      exact hown (by omega)
    · exact h.own u' hu a' ha' g
  · intro e he u' hu a' ha' g
    have := hL e he
    rcases List.mem_cons.mp hu with rfl | hu
    · rw [ha] at ha'
      cases ha'
      omega
    · exact h.lst e he u' hu a' ha' g
  · intro e he
    have := h.lb e he
    rw [List.filter_cons_of_neg (by simp only [decide_eq_true_eq]; omega)]
    exact h.idx e he
  · intro e he u' hu g
    have := h.lb e he
    rcases List.mem_cons.mp hu with rfl | hu
    · omega
    · exact h.ele e he u' hu g

theorem Core.weaken (h : Core s lo hi c vs q Q L) {lo' hi' : Nat} {Q' : Int → Prop} (hl : lo' ≤ lo) (hh : hi ≤ hi') (hQ : ∀ p, Q p → Q' p) :
    Core s lo' hi' c vs q Q' L := by
  have h1 := h.clo
  have h3 := h.chi
  refine ⟨by omega, h.cq, by omega, fun e he => by have := h.lb e he; omega, ?_, h.own, h.lst, h.idx, h.ele⟩
  intro u hu a ha g1 g2
  rcases h.cross u hu a ha g1 g2 with g | g | g
  · exact Or.inl g
  · exact Or.inr (Or.inl (hQ _ g))
  · exact Or.inr (Or.inr g)

end

theorem VsIn.idx_ge {s : Sch} {A j n x y : Nat} {R : List Visit} (h : VsIn s A j n x y R) {u : Visit} (hu : u ∈ R) (hp : u.parent = (A : Int)) : j ≤ u.idx := by
  have : u.idx ∈ (R.filter fun u => decide (u.parent = (A : Int))).map Visit.idx :=
    List.mem_map.mpr ⟨u, List.mem_filter.mpr ⟨hu, by simp [hp]⟩, rfl⟩
  rw [h.idx, List.mem_range'_1] at this
  exact this.1

theorem VsIn.off_behind {s : Sch} {A j n z y lo : Nat} {R : List Visit} (h : VsIn s A j n z y R) (hA : A ≤ lo) (hlo : lo ≤ z) :
    ∀ u ∈ R, Off s lo z (fun p => p = (A : Int)) u := by
  intro u hu
  rcases h.each u hu with ⟨g1, a, g2, g3, g4⟩ | g
  · refine ⟨Or.inl (by omega), fun a' ha => ?_⟩
    rw [g2] at ha
    cases ha
    exact ⟨Or.inr g3, fun _ _ => g1⟩
  · exact g.off_behind (by omega) hlo

/-- The walk over a list one of whose elements is passed. -/
theorem lctx_core {s : Sch} {b : Base} {t : Name} {A n : Nat} {l : CNode} (ht : TabElt s t) (hL : LNode s b t A n l) (hA0 : 0 < A)
    {C : Val → Nat → Nat → Prop} {c : CNode} {q K : Nat} {L : List PList}
    (hC : ∀ v x z, C v x z → v.Ok s → v.name = t → z < 4294967296 → v.deep ≤ K → v.Laid s b x z ∧
      ∀ e : CNode, e.name = t → e.io = b → e.vi = {} → e.pos = x + (4 + 2 * (s.fields t).length) →
        (∃ r, traverseF s K e = some r ∧ Core s x z c r q (fun _ => False) L) ∧ e.pos ≤ c.pos ∧ (e.pos = c.pos → e.name = c.name) ∧ ∀ e' ∈ L, e.pos < e'.A) :
    ∀ (k : Nat) (vs : Vals) {j x y : Nat}, vs.Ok s t → j + vs.count = n → LCtx s b C k vs (A + 4 * j) x y → A + 4 * n ≤ x → y < 4294967296 → vs.deep ≤ K →
    ∃ R, elemsFrom s K l j vs.count = some R ∧ VsIn s A j vs.count x y R ∧ Core s x y c R q (fun p => p = (A : Int)) L ∧
      ∀ u ∈ R, u.parent = (A : Int) → ∃ a, treeNode s u = some (some (some a)) ∧ ((q : Int) ≤ treePos (some a) ↔ j + k < u.idx)
  | _, .nil, _, _, _, _, _, h, _, _, _ => by rw [LCtx] at h; exact h.elim
  | 0, .cons fl v vs, j, x, y, ho, hj, h, hA, hy, hK => by
    rw [LCtx] at h
    obtain ⟨z, h1, h2, h3⟩ := h
    rw [Vals.Ok] at ho
    rw [Vals.deep] at hK
    rw [Vals.count] at hj ⊢
    obtain ⟨o1, o2, o3⟩ := ho
    have hz := Vals.laid_le vs h3
    obtain ⟨a1, a2⟩ := hC v x z h1 o1 o2 (by omega) (by omega)
    have hle := Val.laid_le v a1
    obtain ⟨tl, h4, h5⟩ := hL.at_eq ht o2 (by omega) a1 (by omega) (by omega) h2
    obtain ⟨⟨r, r1, r2⟩, r3, r4, r5⟩ := a2 { name := t, io := b, pos := x + (4 + 2 * (s.fields t).length), tlen := tl } rfl rfl rfl rfl
    obtain ⟨r', w1, w2, w3⟩ := Val.laid_walk v o1 a1 (by omega) (c := { name := t, io := b, pos := x + (4 + 2 * (s.fields t).length), tlen := tl }) o2.symm rfl rfl (by rw [o2])
      (K := K) (by omega)
    rw [r1] at w1
    cases w1
    obtain ⟨R, R1, R2⟩ := Vals.laid_walk (k := j + 1) vs o3 ht hL (by omega) (by rw [show A + 4 * (j + 1) = A + 4 * j + 4 by omega]; exact h3) (by omega) hy (K := K) (by omega) hA0
    rw [o2] at hle
    simp only at r3 r4 r5
    have hP := r2.cq
    have hq := r2.chi
    have hT : treeNode s ⟨l, j, l.vi.pos, ((x + (4 + 2 * (s.fields t).length) : Nat) : Int), -1⟩ = some (some (some { name := t, io := b, pos := x + (4 + 2 * (s.fields t).length), tlen := tl })) :=
      standsV_elem (by rw [hL.vpos]; omega) h5
    have hTp : treePos (some ({ name := t, io := b, pos := x + (4 + 2 * (s.fields t).length), tlen := tl } : CNode)) = ((x + (4 + 2 * (s.fields t).length) : Nat) : Int) := treePos_plain rfl
    refine ⟨_, elemsFrom_succ h5 r1 R1, VsIn.cons (P := x + (4 + 2 * (s.fields t).length)) hL.vpos hA0 h5 rfl rfl (by omega) (by omega) (by omega) hz w2 w3 R2, ?_, ?_⟩
    · have hh := ((r2.weaken (Q' := fun p => p = (A : Int)) (Nat.le_refl _) (Nat.le_refl _) (fun p h => h.elim)).head
        (u := ⟨l, j, l.vi.pos, ((x + (4 + 2 * (s.fields t).length) : Nat) : Int), -1⟩) (by show l.vi.pos ≤ _; rw [hL.vpos]; omega) hT hTp r3 r5 (fun h => Or.inl ⟨r4 h, h⟩))
      have hh2 := hh.add (A := []) (B := R) (by simp) (R2.off_behind (by omega) (by omega))
      exact hh2.weaken (Nat.le_refl _) hz (fun p h => h)
    · intro u hu hp
      rcases List.mem_append.mp hu with hu | hu
      · rcases List.mem_cons.mp hu with rfl | hu
        · refine ⟨_, hT, ?_⟩
          rw [hTp]
          simp only
          omega
        · have := (w2 u hu).1
          simp only at this
          omega
      · have hi := R2.idx_ge hu hp
        rcases R2.each u hu with ⟨g1, a, g2, g3, g4⟩ | g
        · exact ⟨a, g2, by omega⟩
        · have := g.1
          omega
  | k + 1, .cons fl v vs, j, x, y, ho, hj, h, hA, hy, hK => by
    rw [LCtx] at h
    obtain ⟨z, h1, h2, h3⟩ := h
    rw [Vals.Ok] at ho
    rw [Vals.deep] at hK
    rw [Vals.count] at hj ⊢
    obtain ⟨o1, o2, o3⟩ := ho
    have hle := Val.laid_le v h1
    obtain ⟨v', x', z', -, c1, c2, c3, -⟩ := lctx_in _ _ h3
    obtain ⟨R, R1, R2, R3, R4⟩ := lctx_core ht hL hA0 hC k vs (j := j + 1) o3 (by omega) (by rw [show A + 4 * (j + 1) = A + 4 * j + 4 by omega]; exact h3) (by omega) hy (by omega)
    have hP := R3.clo
    have hq := R3.cq
    have hqy := R3.chi
    obtain ⟨tl, h4, h5⟩ := hL.at_eq ht o2 (by omega) h1 (by omega) (by omega) h2
    obtain ⟨r, w1, w2, w3⟩ := Val.laid_walk v o1 h1 (by omega) (c := { name := t, io := b, pos := x + (4 + 2 * (s.fields t).length), tlen := tl }) o2.symm rfl rfl (by rw [o2])
      (K := K) (by omega)
    rw [o2] at hle
    have hT : treeNode s ⟨l, j, l.vi.pos, ((x + (4 + 2 * (s.fields t).length) : Nat) : Int), -1⟩ = some (some (some { name := t, io := b, pos := x + (4 + 2 * (s.fields t).length), tlen := tl })) :=
      standsV_elem (by rw [hL.vpos]; omega) h5
    have hTp : treePos (some ({ name := t, io := b, pos := x + (4 + 2 * (s.fields t).length), tlen := tl } : CNode)) = ((x + (4 + 2 * (s.fields t).length) : Nat) : Int) := treePos_plain rfl
    refine ⟨_, elemsFrom_succ h5 w1 R1, VsIn.cons (P := x + (4 + 2 * (s.fields t).length)) hL.vpos hA0 h5 rfl rfl (by omega) (by omega) (by omega) (by omega) w2 w3 R2, ?_, ?_⟩
    · have hh := R3.add (A := ⟨l, j, l.vi.pos, ((x + (4 + 2 * (s.fields t).length) : Nat) : Int), -1⟩ :: r) (B := []) (by
        intro u hu
        rcases List.mem_cons.mp hu with rfl | hu
        · refine ⟨Or.inl (by show l.vi.pos ≤ _; rw [hL.vpos]; omega), fun a ha => ?_⟩
          rw [hT] at ha
          cases ha
          rw [hTp]
          exact ⟨Or.inl (by omega), fun _ _ => by omega⟩
        · exact (w2 u hu).off_before (Nat.le_refl _) (by omega)) (by simp)
      rw [List.append_nil] at hh
      exact hh.weaken (by omega) (Nat.le_refl _) (fun p h => h)
    · intro u hu hp
      rcases List.mem_append.mp hu with hu | hu
      · rcases List.mem_cons.mp hu with rfl | hu
        · refine ⟨_, hT, ?_⟩
          rw [hTp]
          simp only
          omega
        · have := (w2 u hu).1
          simp only at this
          omega
      · obtain ⟨a, g1, g2⟩ := R4 u hu hp
        exact ⟨a, g1, by rw [g2]; omega⟩

/-- The walk over a value, around the table at the end of the path. -/
theorem ctx_core {s : Sch} {b : Base} {w : Val} {X Y tw q : Nat} {d : CNode} (hw : w.Laid s b X Y) (hokw : w.Ok s) (hY : Y < 4294967296)
    (hpre : CNode.preLoad b (X + (4 + 2 * (s.fields w.name).length)) = some tw) (hq : q = X + (4 + 2 * (s.fields w.name).length) + tw)
    (hd : d.name = w.name) (hdp : d.pos = X + (4 + 2 * (s.fields w.name).length)) :
    ∀ (p : List Hop) (v : Val) {x y : Nat} {L : List PList}, Ctx s b w X Y p v x y L → v.Ok s → y < 4294967296 →
      ∀ {c : CNode} {K : Nat}, c.name = v.name → c.io = b → c.vi = {} → c.pos = x + (4 + 2 * (s.fields v.name).length) → v.deep ≤ K →
      ∃ vs, traverseF s K c = some vs ∧ Core s x y d vs q (fun _ => False) L
  | [], v, x, y, L, h, hok, hy, c, K, hn, hio, hvi, hp, hK => by
    rw [Ctx] at h
    obtain ⟨rfl, rfl, rfl, rfl⟩ := h
    have hwl := hw
    cases v with
    | tab nm pre sub post =>
      rw [Val.Ok] at hok
      obtain ⟨o1, o2, o3, o4, o5, o6, o7⟩ := hok
      rw [laid_frame] at hw
      obtain ⟨t, hF, hS⟩ := hw
      rw [Val.name] at *
      have htw : t = tw := by
        have := hF.preLoad
        rw [hpre] at this
        exact (Option.some.inj this).symm
      subst htw
      rw [Val.deep] at hK
      obtain ⟨k, rfl⟩ : ∃ k, K = k + 4 := ⟨K - 4, by omega⟩
      obtain ⟨s1, s2⟩ := hF.shape o1 o3 o4 o6 hn hio hvi hp k
      have hle := Sub.laid_le sub hS
      have ht4 := hF.t4
      have base : ∀ vs : List Visit, (∀ u ∈ vs, Inn s c.pos q u ∨ (VIn s c.pos y u ∧ (u.parent = (c.pos : Int) ∨ (q : Int) < u.parent))) → Core s x y d vs q (fun _ => False) [] := by
        intro vs hvs
        refine ⟨by omega, by omega, by omega, by simp, ?_, ?_, by simp, by simp, by simp⟩
        · intro u hu a ha g1 g2
          rcases hvs u hu with ⟨-, -, o, h3, h4⟩ | ⟨-, h | h⟩
          · rw [ha] at h3
            cases h3
            have := h4 a rfl
            omega
          · exact Or.inl (by omega)
          · omega
        · intro u hu a ha g
          exfalso
          rcases hvs u hu with ⟨-, -, o, h3, h4⟩ | ⟨⟨-, -, o, h3, h4⟩, -⟩
          · rw [ha] at h3
            cases h3
            have := h4 a rfl
            omega
          · rw [ha] at h3
            cases h3
            have := h4 a rfl
            omega
      have hqe : c.pos + t = q := by omega
      rw [hqe] at s1 s2
      cases hf : sub.field with
      | none =>
        obtain ⟨A, a1, a2, a3⟩ := s1 hf
        exact ⟨A, a1, base A fun u hu => Or.inl (a2 u hu)⟩
      | some i =>
        obtain ⟨hi, H, hH, h1, h2, h3⟩ := Sub.laid_walk (K := k + 2) sub hf o1 o7 hF hS hy hn hio hvi hp (by omega)
          (fun j hj hg => hF.read o1 hn hio hp hj hg)
        obtain ⟨A, B, a1, ⟨a2, a3⟩, b2, b3⟩ := s2 i H hf hi hH
        refine ⟨_, a1, base _ fun u hu => ?_⟩
        rcases List.mem_append.mp hu with hu | hu
        · rcases List.mem_append.mp hu with hu | hu
          · exact Or.inl (a2 u hu)
          · refine Or.inr ⟨h1 u hu, ?_⟩
            rcases h3 u hu with h | h
            · exact Or.inl h
            · exact Or.inr (by omega)
        · exact Or.inl (b2 u hu)
  | st :: p, .tab nm pre sub post, x, y, L, h, hok, hy, c, K, hn, hio, hvi, hp, hK => by
    rw [Val.Ok] at hok
    obtain ⟨o1, o2, o3, o4, o5, o6, o7⟩ := hok
    rw [Val.name] at hn hp
    rw [Val.deep] at hK
    obtain ⟨k, rfl⟩ : ∃ k, K = k + 4 := ⟨K - 4, by omega⟩
    rcases ctx_view h with ⟨i, fl, v, t, rfl, rfl, h1, h2⟩ | ⟨i, fl, v, t, rfl, rfl, h1, h2⟩ | ⟨i, k', fl, tn, vs, t, e, L', rfl, rfl, h1, he, h2, h3, rfl⟩
    · have hvl := ctx_laid hw p v h2
      have hle := Val.laid_le v hvl
      have ht4 := h1.t4
      obtain ⟨g1, g2, g3, g4, g5, g6⟩ := ctx_bounds p v h2
      rw [Sub.Ok] at o7
      rw [Sub.deep] at hK
      obtain ⟨ho, fd, hfd, hg, htn⟩ := o7
      have hi := (List.getElem?_eq_some_iff.mp hfd).1
      obtain ⟨pp, hv, hlt⟩ := h1.vtab hi rfl hio hp
      have hpre' : ∃ tl, CNode.preLoad b (x + (4 + 2 * (s.fields nm).length + t) + (4 + 2 * (s.fields v.name).length)) = some tl ∧ 4 + 2 * (s.fields v.name).length < 65536 := by
        cases v with
        | tab nm' pre' sub' post' =>
          rw [laid_frame] at hvl
          obtain ⟨t', hF', -⟩ := hvl
          exact ⟨t', hF'.preLoad, hF'.few⟩
      obtain ⟨tl, hpre', hfew⟩ := hpre'
      have hlead := h1.leads hi rfl hfew hn hio hp
      have hnode := hlead.fieldAt_table o1.notStruct hfd hg (tl := tl) (by rw [hio]; exact hpre')
      obtain ⟨r, r1, r2⟩ := ctx_core hw hokw hY hpre hq hd hdp p v h2 ho hy
        (c := { name := fd.tname, io := c.io, pos := x + (4 + 2 * (s.fields nm).length + t) + (4 + 2 * (s.fields v.name).length), tlen := tl }) (K := k + 2)
        htn hio rfl rfl (by omega)
      obtain ⟨A, B, a1, ⟨a2, a3⟩, b2, b3⟩ := (h1.shape o1 o3 o4 o6 hn hio hvi hp k).2 i _ rfl hi (hlead.walk_table hfd hg ⟨pp, hv, by omega⟩ hnode r1)
      have hPle : x + (4 + 2 * (s.fields nm).length + t) + (4 + 2 * (s.fields v.name).length) ≤ d.pos := by
        by_cases hX : X = x + (4 + 2 * (s.fields nm).length + t)
        · have := g3 hX
          rw [hdp, ← this, hX]
          exact Nat.le_refl _
        · have := g4 hX
          omega
      have c1 := r2.clo
      have c2 := r2.cq
      have c3 := r2.chi
      refine ⟨_, a1, ?_⟩
      have hh := r2.head (u := ⟨c, i, c.pos, ((x + (4 + 2 * (s.fields nm).length + t) + (4 + 2 * (s.fields v.name).length) : Nat) : Int), -1⟩)
        (P := x + (4 + 2 * (s.fields nm).length + t) + (4 + 2 * (s.fields v.name).length)) (by simp only; omega) (treeNode_plain hvi hnode) (treePos_plain rfl)
        hPle (fun e he => (g5 e he).1) (by
          intro hP
          have : X = x + (4 + 2 * (s.fields nm).length + t) := by
            by_contra hne
            have := g4 hne
            omega
          exact Or.inl ⟨by rw [hd, ← g3 this]; exact htn, hP⟩)
      have hh2 := hh.add (A := A) (B := B) (fun u hu => (a2 u hu).off (by omega) (by omega)) (fun u hu => (b2 u hu).off (by omega) (by omega))
      exact hh2.weaken (by omega) (Nat.le_refl _) (fun p h => h)
    · have hvl := ctx_laid hw p v h2
      have hle := Val.laid_le v hvl
      have ht4 := h1.t4
      obtain ⟨g1, g2, g3, g4, g5, g6⟩ := ctx_bounds p v h2
      rw [Sub.Ok] at o7
      rw [Sub.deep] at hK
      obtain ⟨ho, fd, tag, hfd, hg, hcur, h0, hmem⟩ := o7
      have hi := (List.getElem?_eq_some_iff.mp hfd).1
      obtain ⟨td, htd, htg⟩ := union_tag o1 hfd hg
      have hti := (List.getElem?_eq_some_iff.mp htd).1
      have hr := h1.read o1 hn hio hp hti (by rw [(List.getElem?_eq_some_iff.mp htd).2]; exact inlGrp_basic1 htg)
      rw [hcur] at hr
      obtain ⟨nd, n1, n2⟩ := fieldRead_tag hr
      obtain ⟨pp, hv, hlt⟩ := h1.vtab hi rfl hio hp
      have hpre' : ∃ tl, CNode.preLoad b (x + (4 + 2 * (s.fields nm).length + t) + (4 + 2 * (s.fields v.name).length)) = some tl ∧ 4 + 2 * (s.fields v.name).length < 65536 := by
        cases v with
        | tab nm' pre' sub' post' =>
          rw [laid_frame] at hvl
          obtain ⟨t', hF', -⟩ := hvl
          exact ⟨t', hF'.preLoad, hF'.few⟩
      obtain ⟨tl, hpre', hfew⟩ := hpre'
      have hlead := h1.leads hi rfl hfew hn hio hp
      have hnode := hlead.fieldAt_union o1.notStruct hfd hg (tl := tl) (by rw [hio]; exact hpre')
      have hfol := hlead.followUnion o1.notStruct hfd hg (tl := tl) (by rw [hio]; exact hpre') h0 tag.toNat_lt hmem n1 n2
      obtain ⟨r, r1, r2⟩ := ctx_core hw hokw hY hpre hq hd hdp p v h2 ho hy
        (c := { name := v.name, io := c.io, pos := x + (4 + 2 * (s.fields nm).length + t) + (4 + 2 * (s.fields v.name).length), tlen := tl }) (K := k + 2)
        rfl hio rfl rfl (by omega)
      obtain ⟨A, B, a1, ⟨a2, a3⟩, b2, b3⟩ := (h1.shape o1 o3 o4 o6 hn hio hvi hp k).2 (i + 1) _ rfl hi (hlead.walk_union hfd hg ⟨pp, hv, by omega⟩ hfol r1)
      have hPle : x + (4 + 2 * (s.fields nm).length + t) + (4 + 2 * (s.fields v.name).length) ≤ d.pos := by
        by_cases hX : X = x + (4 + 2 * (s.fields nm).length + t)
        · have := g3 hX
          rw [hdp, ← this, hX]
          exact Nat.le_refl _
        · have := g4 hX
          omega
      have c1 := r2.clo
      have c2 := r2.cq
      have c3 := r2.chi
      refine ⟨_, a1, ?_⟩
      have hh := r2.head (u := ⟨c, i + 1, c.pos, ((x + (4 + 2 * (s.fields nm).length + t) + (4 + 2 * (s.fields v.name).length) : Nat) : Int), -1⟩)
        (P := x + (4 + 2 * (s.fields nm).length + t) + (4 + 2 * (s.fields v.name).length)) (by simp only; omega) (treeNode_plain hvi hnode) (treePos_plain rfl)
        hPle (fun e he => (g5 e he).1) (by
          intro hP
          obtain ⟨u1, u2, u3⟩ := o5 fd (List.mem_of_getElem? hfd) hg
          exact Or.inr ⟨u1, u2, u3⟩)
      have hh2 := hh.add (A := A) (B := B) (fun u hu => (a2 u hu).off (by omega) (by omega)) (fun u hu => (b2 u hu).off (by omega) (by omega))
      exact hh2.weaken (by omega) (Nat.le_refl _) (fun p h => h)
    · have ht4 := h1.t4
      rw [Sub.Ok] at o7
      rw [Sub.deep] at hK
      obtain ⟨ho, ht, fd, hfd, hg, htn⟩ := o7
      have hi := (List.getElem?_eq_some_iff.mp hfd).1
      have hlead := h1.leads hi rfl (by omega) hn hio hp
      have hvl := lctx_laid (fun v x z hh => ctx_laid hw p v hh) _ _ h3
      have hle := Vals.laid_le vs hvl
      rw [← he] at hlead
      have hnode := hlead.fieldAt_list o1.notStruct hfd hg (tl := t) (by rw [hio, hp]; exact h1.preLoad) (n := vs.count) (by omega) (by rw [hio]; exact h2)
      generalize hL : ({ name := fd.tname, io := c.io, pos := c.pos, tlen := t, vi := { pos := ((e + 4 : Nat) : Int), size := 0, vlen := vs.count } } : CNode) = l at hnode
      have hlen : l.listLen = some vs.count := by
        subst hL
        unfold CNode.listLen CNode.u32
        simp only
        rw [show ((e + 4 : Nat) : Int) - 4 = (e : Int) by omega, hio, holds_getN h2, Nat.mod_eq_of_lt (by omega)]
      have hLN : LNode s b tn (e + 4) vs.count l := by
        refine ⟨?_, ?_, ?_, ?_, hlen⟩ <;> subst hL
        · exact htn
        · exact hio
        · rfl
        · rfl
      have h3' : LCtx s b (fun v x z => Ctx s b w X Y p v x z L') k' vs (e + 4 + 4 * 0) (e + 4 + 4 * vs.count) y := h3
      obtain ⟨R, R1, R2, R3, R4⟩ := lctx_core (c := d) (q := q) (K := k + 1) ht hLN (by omega) (C := fun v x z => Ctx s b w X Y p v x z L') (L := L') (by
        intro v x' z hc hov hvn hz hdeep
        refine ⟨ctx_laid hw p v hc, fun e' en eio evi ep => ?_⟩
        obtain ⟨g1, g2, g3, g4, g5, g6⟩ := ctx_bounds p v hc
        refine ⟨ctx_core hw hokw hY hpre hq hd hdp p v hc hov hz (by rw [en, hvn]) eio evi (by rw [ep, hvn]) hdeep, ?_, ?_, ?_⟩
        · by_cases hX : X = x'
          · have := g3 hX
            rw [hdp, ep, ← this, hvn, hX]
            exact Nat.le_refl _
          · have := g4 hX
            rw [hvn] at this
            omega
        · intro hP
          have : X = x' := by
            by_contra hne
            have := g4 hne
            rw [hvn] at this
            omega
          rw [en, hd, ← g3 this, hvn]
        · intro e'' he''
          have := (g5 e'' he'').1
          rw [hvn] at this
          omega) k' vs ho (Nat.zero_add _) h3' (Nat.le_refl _) hy (by omega)
      have hsl : traverseSliceF s (k + 2) l = some R := by
        rw [traverseSliceF_elems hlen, hLN.vlen]; exact R1
      have hTl : treePos (some l) = ((e + 4 : Nat) : Int) := by
        rw [treePos_list (by rw [hLN.vpos]; omega), hLN.vpos]
      obtain ⟨A, B, a1, ⟨a2, a3⟩, b2, b3⟩ := (h1.shape o1 o3 o4 o6 hn hio hvi hp k).2 i _ rfl hi (walk_list hn hfd hg hnode hsl)
      have c1 := R3.clo
      have c2 := R3.cq
      have c3 := R3.chi
      refine ⟨_, a1, ?_⟩
      have hTn : treeNode s ⟨c, i, c.pos, l.vi.pos, -1⟩ = some (some (some l)) := treeNode_plain hvi hnode
      have hh := R3.add (A := A ++ [⟨c, i, c.pos, l.vi.pos, -1⟩]) (B := B) (by
        intro u hu
        rcases List.mem_append.mp hu with hu | hu
        · exact (a2 u hu).off (by omega) (by omega)
        · rw [List.mem_singleton] at hu
          subst hu
          refine ⟨Or.inl (by simp only; omega), fun a ha => ?_⟩
          rw [hTn] at ha
          cases ha
          rw [hTl]
          exact ⟨Or.inl (by omega), fun _ _ => by omega⟩) (fun u hu => (b2 u hu).off (by omega) (by omega))
      have e1 : A ++ [⟨c, i, c.pos, l.vi.pos, -1⟩] ++ R ++ B = A ++ (⟨c, i, c.pos, l.vi.pos, -1⟩ :: R) ++ B := by simp
      rw [e1] at hh
      generalize hW : A ++ (⟨c, i, c.pos, l.vi.pos, -1⟩ :: R) ++ B = W at hh ⊢
      have hmem : ∀ u ∈ W, Inn s c.pos (c.pos + t) u ∨ u = ⟨c, i, c.pos, l.vi.pos, -1⟩ ∨ u ∈ R := by
        intro u hu
        rw [← hW] at hu
        rcases List.mem_append.mp hu with hu | hu
        · rcases List.mem_append.mp hu with hu | hu
          · exact Or.inl (a2 u hu)
          · rcases List.mem_cons.mp hu with hu | hu
            · exact Or.inr (Or.inl hu)
            · exact Or.inr (Or.inr hu)
        · exact Or.inl (b2 u hu)
      refine ⟨by omega, c2, c3, ?_, ?_, hh.own, ?_, ?_, ?_⟩
      · intro e' he'
        rcases List.mem_cons.mp he' with rfl | he'
        · simp only; omega
        · have := hh.lb e' he'
          omega
      · intro u hu a ha q1 q2
        rcases hh.cross u hu a ha q1 q2 with g | g | ⟨e', he', g⟩
        · exact Or.inl g
        · exact Or.inr (Or.inr ⟨_, List.mem_cons_self .., g⟩)
        · exact Or.inr (Or.inr ⟨e', List.mem_cons_of_mem _ he', g⟩)
      · intro e' he' u hu a ha g
        rcases List.mem_cons.mp he' with rfl | he'
        · simp only at g ⊢
          rcases hmem u hu with ⟨-, -, o, h3, h4⟩ | rfl | hu
          · rw [ha] at h3
            cases h3
            have := h4 a rfl
            omega
          · rw [hTn] at ha
            cases ha
            exact ⟨hLN.name, hLN.vpos, hLN.vlen⟩
          · rcases R2.each u hu with ⟨-, a', g2, g3, g4⟩ | ⟨-, -, o, h3, h4⟩
            · rw [ha] at g2
              cases g2
              omega
            · rw [ha] at h3
              cases h3
              have := h4 a rfl
              omega
        · exact hh.lst e' he' u hu a ha g
      · intro e' he'
        rcases List.mem_cons.mp he' with rfl | he'
        · simp only
          have hnil : ∀ l : List Visit, (∀ u ∈ l, Inn s c.pos (c.pos + t) u) → l.filter (fun u => decide (u.parent = ((e + 4 : Nat) : Int))) = [] := by
            intro l hl
            rw [List.filter_eq_nil_iff]
            intro u hu
            have := (hl u hu).2.1
            simp only [decide_eq_true_eq]
            omega
          rw [← hW, List.filter_append, List.filter_append, hnil A a2, hnil B b2, List.nil_append, List.append_nil,
            List.filter_cons_of_neg (by simp only [decide_eq_true_eq]; omega), R2.idx, List.range_eq_range']
        · exact hh.idx e' he'
      · intro e' he' u hu g
        rcases List.mem_cons.mp he' with rfl | he'
        · simp only at g ⊢
          rcases hmem u hu with ⟨-, h3, -⟩ | rfl | hu
          · omega
          · simp only at g
            omega
          · obtain ⟨a, g1, g2⟩ := R4 u hu g
            exact ⟨a, g1, by rw [g2, Nat.zero_add]⟩
        · exact hh.ele e' he' u hu g

end Fbs.Props
