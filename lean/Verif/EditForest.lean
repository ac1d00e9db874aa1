import Verif.EditIn
import Mathlib.Logic.Function.Iterate
import Mathlib.Data.List.Nodup
/-!
# The trees found by `InsertSpace` (common.go 816-937)

`FindTree` reaches every tree of `AllTree` exactly once; of the trees asked for by `InsertSpace`, those of the edited
table are left alone, those of lists are moved.
-/

namespace Fbs
open CNode Fbs.Props

/-! ## every tree is reached once -/

section
variable {t : Forest} {N : Nat}

/-- Every tree but the first has a parent made before it. -/
structure ForestOk (t : Forest) (N : Nat) : Prop where
  len  : t.par.length = N
  zero : (t.par[0]?).join = none
  up   : ∀ i, 1 ≤ i → i < N → ∃ j, j < i ∧ (t.par[i]?).join = some j

theorem mem_childs (h : ForestOk t N) {i j : Nat} : i ∈ t.childs j ↔ 1 ≤ i ∧ i < N ∧ (t.par[i]?).join = some j := by
  unfold Forest.childs
  rw [List.mem_filter, List.mem_range, h.len, decide_eq_true_eq]
  constructor
  · rintro ⟨h1, h2⟩
    refine ⟨?_, h1, h2⟩
    rcases Nat.eq_zero_or_pos i with rfl | h0
    · rw [h.zero] at h2; cases h2
    · exact h0
  · rintro ⟨_, h1, h2⟩
    exact ⟨h1, h2⟩

theorem childs_nodup (t : Forest) (j : Nat) : (t.childs j).Nodup := List.Nodup.filter _ List.nodup_range

theorem childs_lt (h : ForestOk t N) {i j : Nat} (hi : i ∈ t.childs j) : j < i := by
  obtain ⟨h1, h2, h3⟩ := (mem_childs h).mp hi
  obtain ⟨j', h4, h5⟩ := h.up i h1 h2
  rw [h3] at h5
  cases h5
  exact h4

/-- The parent of a tree (0 for the first). -/
def _root_.Fbs.CNode.Forest.up (t : Forest) (i : Nat) : Nat := ((t.par[i]?).join).getD 0

theorem up_le (h : ForestOk t N) (i : Nat) : t.up i ≤ i := by
  unfold Forest.up
  by_cases h1 : 1 ≤ i ∧ i < N
  · obtain ⟨j, hj, e⟩ := h.up i h1.1 h1.2
    rw [e]
    show j ≤ i
    omega
  · rcases Nat.eq_zero_or_pos i with rfl | h0
    · rw [h.zero]; exact Nat.le_refl _
    · rw [List.getElem?_eq_none (by have := h.len; omega)]
      exact Nat.zero_le _

theorem up_iter_le (h : ForestOk t N) (m i : Nat) : t.up^[m] i ≤ i := by
  induction m generalizing i with
  | zero => exact Nat.le_refl _
  | succ m ih =>
    rw [Function.iterate_succ_apply]
    exact Nat.le_trans (ih _) (up_le h i)

theorem mem_below (h : ForestOk t N) : ∀ (k j x : Nat), x ∈ t.below k j → 1 ≤ x ∧ x < N ∧ j < x ∧ ∃ m, t.up^[m + 1] x = j := by
  intro k
  induction k with
  | zero => intro j x hx; cases hx
  | succ k ih =>
    intro j x hx
    unfold Forest.below at hx
    obtain ⟨i, hi, hx⟩ := List.mem_flatMap.mp hx
    obtain ⟨h1, h2, h3⟩ := (mem_childs h).mp hi
    have hlt := childs_lt h hi
    rcases List.mem_cons.mp hx with rfl | hx
    · exact ⟨h1, h2, hlt, 0, by show t.up x = j; unfold Forest.up; rw [h3]; rfl⟩
    · obtain ⟨g1, g2, g3, m, g4⟩ := ih i x hx
      refine ⟨g1, g2, by omega, m + 1, ?_⟩
      rw [Function.iterate_succ_apply', g4]
      unfold Forest.up
      rw [h3]; rfl

theorem below_nodup (h : ForestOk t N) : ∀ (k j : Nat), (t.below k j).Nodup := by
  intro k
  induction k with
  | zero => intro j; exact List.nodup_nil
  | succ k ih =>
    intro j
    unfold Forest.below
    rw [List.nodup_flatMap]
    refine ⟨?_, ?_⟩
    · intro i hi
      rw [List.nodup_cons]
      refine ⟨?_, ih i⟩
      intro hm
      have := (mem_below h k i i hm).2.2.1
      omega
    · refine List.Pairwise.imp_of_mem ?_ (childs_nodup t j)
      intro i i' hi hi' hne
      show List.Disjoint _ _
      intro x hx hx'
      have key : ∀ i, i ∈ t.childs j → x ∈ i :: t.below k i → ∃ m, t.up^[m] x = i := by
        intro i _ hx
        rcases List.mem_cons.mp hx with rfl | hx
        · exact ⟨0, rfl⟩
        · obtain ⟨-, -, -, m, hm⟩ := mem_below h k i x hx
          exact ⟨m + 1, hm⟩
      have hu : ∀ i, i ∈ t.childs j → t.up i = j := by
        intro i hi
        unfold Forest.up
        rw [((mem_childs h).mp hi).2.2]; rfl
      have main : ∀ i i' m d, i ∈ t.childs j → i' ∈ t.childs j → t.up^[m] x = i → t.up^[d + m] x = i' → i ≠ i' → False := by
        intro i i' m d hi hi' e e' hne
        rw [Function.iterate_add_apply, e] at e'
        cases d with
        | zero => exact hne e'
        | succ d =>
          rw [Function.iterate_succ_apply, hu i hi] at e'
          have h1 := up_iter_le h d j
          have h2 := childs_lt h hi'
          omega
      obtain ⟨m, hm⟩ := key i hi hx
      obtain ⟨m', hm'⟩ := key i' hi' hx'
      rcases Nat.le_total m m' with hle | hle
      · exact main i i' m (m' - m) hi hi' hm (by rw [Nat.sub_add_cancel hle]; exact hm') hne
      · exact main i' i m' (m - m') hi' hi hm' (by rw [Nat.sub_add_cancel hle]; exact hm) (Ne.symm hne)

theorem below_child (t : Forest) : ∀ (k s j i : Nat), j ∈ t.below k s → i ∈ t.childs j → i ∈ t.below (k + 1) s := by
  intro k
  induction k with
  | zero => intro s j i hj; cases hj
  | succ k ih =>
    intro s j i hj hi
    rw [Forest.below] at hj ⊢
    obtain ⟨a, ha, hj⟩ := List.mem_flatMap.mp hj
    refine List.mem_flatMap.mpr ⟨a, ha, ?_⟩
    rcases List.mem_cons.mp hj with rfl | hj
    · refine List.mem_cons_of_mem _ ?_
      rw [Forest.below]
      exact List.mem_flatMap.mpr ⟨i, hi, List.mem_cons_self ..⟩
    · exact List.mem_cons_of_mem _ (ih a j i hj hi)

theorem below_mono (t : Forest) : ∀ (k k' j x : Nat), k ≤ k' → x ∈ t.below k j → x ∈ t.below k' j := by
  intro k
  induction k with
  | zero => intro k' j x _ hx; cases hx
  | succ k ih =>
    intro k' j x hk hx
    obtain ⟨k', rfl⟩ : ∃ m, k' = m + 1 := ⟨k' - 1, by omega⟩
    rw [Forest.below] at hx ⊢
    obtain ⟨a, ha, hx⟩ := List.mem_flatMap.mp hx
    refine List.mem_flatMap.mpr ⟨a, ha, ?_⟩
    rcases List.mem_cons.mp hx with rfl | hx
    · exact List.mem_cons_self ..
    · exact List.mem_cons_of_mem _ (ih k' a x (by omega) hx)

theorem below_all (h : ForestOk t N) : ∀ i, 1 ≤ i → i < N → i ∈ t.below i 0 := by
  intro i
  induction i using Nat.strongRecOn with
  | ind i ih =>
    intro h1 h2
    obtain ⟨j, hj, e⟩ := h.up i h1 h2
    have hc := (mem_childs h).mpr ⟨h1, h2, e⟩
    rcases Nat.eq_zero_or_pos j with rfl | h0
    · obtain ⟨k, rfl⟩ : ∃ m, i = m + 1 := ⟨i - 1, by omega⟩
      rw [Forest.below]
      exact List.mem_flatMap.mpr ⟨_, hc, List.mem_cons_self ..⟩
    · exact below_mono t (j + 1) i 0 i (by omega) (below_child t j 0 j i (ih j hj h0 (by omega)) hc)

/-- `FindTree` delivers every tree that satisfies the condition, once. -/
theorem find_spec (h : ForestOk t N) (hn : t.node.length = N) (cond : Nat → Bool) :
    (t.find cond).Nodup ∧ ∀ i, i ∈ t.find cond ↔ 1 ≤ i ∧ i < N ∧ cond i = true := by
  unfold Forest.find
  refine ⟨List.Nodup.filter _ (below_nodup h _ _), fun i => ?_⟩
  rw [List.mem_filter]
  constructor
  · rintro ⟨h1, h2⟩
    obtain ⟨g1, g2, -⟩ := mem_below h _ _ _ h1
    exact ⟨g1, g2, h2⟩
  · rintro ⟨h1, h2, h3⟩
    exact ⟨below_mono t i _ 0 i (by omega) (below_all h i h1 h2), h3⟩

end

/-! ## the forest of a walk -/

/-- The tree of the visit stands at `p`. -/
def StandsV (s : Sch) (u : Visit) (p : Int) : Prop := ∃ a, treeNode s u = some (some (some a)) ∧ treePos (some a) = p

/-- The owner of every visit stands at `p`, or is the tree of an earlier visit. -/
def Rooted (s : Sch) (p : Int) (vs : List Visit) : Prop :=
  ∀ A u B, vs = A ++ u :: B → u.parent = p ∨ ∃ u' ∈ A, StandsV s u' u.parent

theorem rooted_nil (s : Sch) (p : Int) : Rooted s p [] := by
  intro A u B h
  simp at h

theorem rooted_append {s : Sch} {p : Int} {vs ws : List Visit} (h1 : Rooted s p vs) (h2 : Rooted s p ws) : Rooted s p (vs ++ ws) := by
  intro A u B h
  rcases List.append_eq_append_iff.mp h with ⟨a, e1, e2⟩ | ⟨a, e1, e2⟩
  · rcases h2 a u B e2 with h | ⟨u', hu, hs⟩
    · exact Or.inl h
    · exact Or.inr ⟨u', by rw [e1]; exact List.mem_append_right _ hu, hs⟩
  · cases a with
    | nil =>
      rw [List.append_nil] at e1
      rw [List.nil_append] at e2
      rcases h2 [] u B (by rw [← e2]; rfl) with h | ⟨u', hu, hs⟩
      · exact Or.inl h
      · cases hu
    | cons x a =>
      rw [List.cons_append, List.cons.injEq] at e2
      obtain ⟨rfl, e2⟩ := e2
      exact h1 A u a e1

theorem rooted_cons {s : Sch} {p p' : Int} {u : Visit} {ws : List Visit} (hp : u.parent = p) (hs : StandsV s u p') (h : Rooted s p' ws) :
    Rooted s p (u :: ws) := by
  intro A v B e
  cases A with
  | nil =>
    rw [List.nil_append, List.cons.injEq] at e
    exact Or.inl (by rw [← e.1]; exact hp)
  | cons x A =>
    rw [List.cons_append, List.cons.injEq] at e
    obtain ⟨rfl, e⟩ := e
    rcases h A v B e with h | ⟨u', hu, hs'⟩
    · exact Or.inr ⟨u, List.mem_cons_self .., by rw [h]; exact hs⟩
    · exact Or.inr ⟨u', List.mem_cons_of_mem _ hu, hs'⟩

theorem rooted_one {s : Sch} {p : Int} {u : Visit} (hp : u.parent = p) : Rooted s p [u] := by
  intro A v B e
  cases A with
  | nil =>
    rw [List.nil_append, List.cons.injEq] at e
    exact Or.inl (by rw [← e.1]; exact hp)
  | cons x A =>
    rw [List.cons_append, List.cons.injEq] at e
    exact absurd e.2 (by simp)

theorem standsAt_iff (p : Int) (a : CNode) : standsAt p (some a) = true ↔ treePos (some a) = p := by
  show (if a.vi.pos > 0 then decide (a.vi.pos = p) else decide ((a.pos : Int) = p)) = true ↔ (if a.vi.pos > 0 then a.vi.pos else (a.pos : Int)) = p
  split <;> simp

/-- The trees of a walk over a table. -/
structure Grown (s : Sch) (r : CNode) (vs : List Visit) (t : Forest) : Prop where
  ok   : ForestOk t (vs.length + 1)
  len  : t.node.length = vs.length + 1
  zero : t.at_ 0 = some r
  node : ∀ j v, vs[j]? = some v → ∃ o, treeNode s v = some (some o) ∧ t.at_ (j + 1) = o
  /-- the parent is the first tree that stands there -/
  par  : ∀ j v, vs[j]? = some v → ∃ k p, (t.par[j + 1]?).join = some k ∧ t.at_ k = some p ∧ treePos (some p) = v.parent ∧
    ∀ k' p', k' < k → t.at_ k' = some p' → treePos (some p') ≠ v.parent

theorem allTree_grown {s : Sch} {fuel : Nat} {r : CNode} {vs : List Visit} (h : traverseF s fuel r = some vs) (hr : r.vi = {})
    (ht : ∀ u ∈ vs, ∃ o, treeNode s u = some (some o)) (hroot : Rooted s r.pos vs) :
    ∃ t, allTree s fuel r = some t ∧ Grown s r vs t := by
  have hrp : treePos (some r) = r.pos := by
    show (if r.vi.pos > 0 then r.vi.pos else (r.pos : Int)) = r.pos
    rw [hr]; rfl
  obtain ⟨ns, h1, h2⟩ := mapM_all (treeNode s) (fun o => ∃ x, o = some x) vs (fun u hu => by
    obtain ⟨o, ho⟩ := ht u hu
    exact ⟨_, ho, o, rfl⟩)
  have hall : ∀ o ∈ some (some r) :: ns, ∃ x, o = some x := by
    intro o ho
    rcases List.mem_cons.mp ho with rfl | ho
    · exact ⟨_, rfl⟩
    · exact h2 o ho
  obtain ⟨ps, h3, -⟩ := mapM_all (fun (v : Visit) => parentIdx v.parent (some (some r) :: ns) 0) (fun _ => True) vs (by
    intro v _
    obtain ⟨q, hq⟩ := parentIdx_total v.parent (some (some r) :: ns) 0 hall
    exact ⟨q, hq, trivial⟩)
  have hA : allTree s fuel r = some ⟨some (some r) :: ns, none :: ps⟩ := by
    unfold allTree
    simp only [h, h1, Option.bind_eq_bind, Option.bind_some, h3, pure]
  refine ⟨_, hA, ?_⟩
  obtain ⟨n1, n2⟩ := mapM_get h1
  obtain ⟨p1, p2⟩ := mapM_get h3
  have hnode : ∀ j v, vs[j]? = some v → ∃ o, treeNode s v = some (some o) ∧ (some (some r) :: ns)[j + 1]? = some (some o) := by
    intro j v hv
    obtain ⟨o, ho⟩ := ht v (List.mem_of_getElem? hv)
    obtain ⟨b, hb, hb'⟩ := n2 j v hv
    rw [ho] at hb
    cases hb
    exact ⟨o, ho, by simpa using hb'⟩
  have hat : ∀ (k : Nat) o, (some (some r) :: ns)[k]? = some (some o) → (⟨some (some r) :: ns, none :: ps⟩ : Forest).at_ k = o := by
    intro k o ho
    unfold Forest.at_
    simp only
    rw [ho]; rfl
  have hat' : ∀ (k : Nat) a, (⟨some (some r) :: ns, none :: ps⟩ : Forest).at_ k = some a → (some (some r) :: ns)[k]? = some (some (some a)) := by
    intro k a ha
    unfold Forest.at_ at ha
    simp only at ha
    cases hg : (some (some r) :: ns)[k]? with
    | none => rw [hg] at ha; simp at ha
    | some o =>
      rw [hg] at ha
      cases o with
      | none => simp at ha
      | some o =>
        simp only [Option.join_some] at ha
        subst ha
        rfl
  have hpar : ∀ j v, vs[j]? = some v → ∃ k p, k ≤ j ∧ ((none :: ps)[j + 1]?).join = some k ∧ (some (some r) :: ns)[k]? = some (some (some p)) ∧
      treePos (some p) = v.parent ∧ ∀ k' p', k' < k → (some (some r) :: ns)[k']? = some (some (some p')) → treePos (some p') ≠ v.parent := by
    intro j v hv
    obtain ⟨q, hq, hq'⟩ := p2 j v hv
    have hst : ∃ j' o, j' ≤ j ∧ (some (some r) :: ns)[j']? = some (some o) ∧ standsAt v.parent o = true := by
      have hsplit : vs = vs.take j ++ v :: vs.drop (j + 1) := by
        have hj := (List.getElem?_eq_some_iff.mp hv)
        obtain ⟨hj, e⟩ := hj
        rw [← e, ← List.drop_eq_getElem_cons hj, List.take_append_drop]
      rcases hroot _ v _ hsplit with h | ⟨u', hu, a, ha, hp⟩
      · exact ⟨0, some r, Nat.zero_le _, rfl, by rw [standsAt_iff, hrp, h]⟩
      · obtain ⟨m, hm⟩ := List.mem_iff_getElem?.mp hu
        have hmj : m < j := by
          have := (List.getElem?_eq_some_iff.mp hm).1
          rw [List.length_take] at this
          omega
        rw [List.getElem?_take_of_lt hmj] at hm
        obtain ⟨o, ho, ho'⟩ := hnode m u' hm
        rw [ha] at ho
        cases ho
        exact ⟨m + 1, some a, hmj, ho', by rw [standsAt_iff]; exact hp⟩
    obtain ⟨j', o, hj', ho, hso⟩ := hst
    obtain ⟨m, e, hm, ⟨o', ho', hs'⟩, hfirst⟩ := parentIdx_first hq j' o ho hso
    cases o' with
    | none => cases hs'
    | some p =>
      rw [standsAt_iff] at hs'
      refine ⟨m, p, by omega, ?_, ho', hs', ?_⟩
      · rw [List.getElem?_cons_succ, hq', e]
        simp
      · intro k' p' hk' hp' he
        have := hfirst k' (some p') hk' hp'
        rw [(standsAt_iff _ _).mpr he] at this
        cases this
  refine ⟨⟨by simp [p1], rfl, ?_⟩, by simp [n1], rfl, ?_, ?_⟩
  · intro i h1 h2
    obtain ⟨j, rfl⟩ : ∃ m, i = m + 1 := ⟨i - 1, by omega⟩
    obtain ⟨k, p, h3, h4, -⟩ := hpar j _ (List.getElem?_eq_getElem (show j < vs.length by omega))
    exact ⟨k, by omega, h4⟩
  · intro j v hv
    obtain ⟨o, h1, h2⟩ := hnode j v hv
    exact ⟨o, h1, hat _ _ h2⟩
  · intro j v hv
    obtain ⟨k, p, h3, h4, h5, h6, h7⟩ := hpar j v hv
    exact ⟨k, p, h4, hat _ _ h5, h6, fun k' p' hk' hp' => h7 k' p' hk' (hat' _ _ hp')⟩

/-! ## the offsets moved -/

/-- A list on the way to the edited table: its offsets start at `A`, element `kp` holds the table; there are `n`, of the
type `t`, with the offsets `off`. -/
structure PList where
  A : Nat
  kp : Nat
  n : Nat
  t : Name
  off : Nat → Nat

/-- A tree of the table `c`: it has its name, or (a member of a union) that of the union, which has no fields. -/
def OwnName (s : Sch) (c a : CNode) : Prop :=
  (a.name = c.name ∧ a.pos = c.pos) ∨ (TI.TName a.name ∧ s.isStruct a.name = false ∧ s.fields a.name = [])

/-- What the walk over the message from `r` shows about the table `c` and the place `q` in it. -/
structure Route (s : Sch) (r c : CNode) (vs : List Visit) (q : Nat) (L : List PList) : Prop where
  vi     : r.vi = {}
  tot    : ∀ u ∈ vs, ∃ o, treeNode s u = some (some o)
  rooted : Rooted s r.pos vs
  /-- behind the place with the owner before it: fields of the table, elements of the lists -/
  cross  : ∀ u ∈ vs, ∀ a, treeNode s u = some (some (some a)) → u.parent ≤ q → (q : Int) ≤ treePos (some a) →
    u.parent = c.pos ∨ ∃ e ∈ L, u.parent = (e.A : Int)
  own    : ∀ u ∈ vs, ∀ a, treeNode s u = some (some (some a)) → treePos (some a) = c.pos → OwnName s c a
  ownr   : (r.pos : Int) = c.pos → r.name = c.name
  lst    : ∀ e ∈ L, ∀ u ∈ vs, ∀ a, treeNode s u = some (some (some a)) → treePos (some a) = (e.A : Int) →
    a.name = '[' :: ']' :: e.t ∧ a.vi.pos = (e.A : Int) ∧ a.vi.vlen = e.n
  lstr   : ∀ e ∈ L, (r.pos : Int) ≠ (e.A : Int)
  idx    : ∀ e ∈ L, (vs.filter fun u => decide (u.parent = (e.A : Int))).map Visit.idx = List.range e.n
  ele    : ∀ e ∈ L, ∀ u ∈ vs, u.parent = (e.A : Int) → ∃ a, treeNode s u = some (some (some a)) ∧ ((q : Int) ≤ treePos (some a) ↔ e.kp < u.idx)
  before : ∀ e ∈ L, e.A ≤ q
  elt    : ∀ e ∈ L, TabElt s e.t
  sep    : ∀ e ∈ L, ∀ e' ∈ L, e = e' ∨ e.A + 4 * e.n ≤ e'.A ∨ e'.A + 4 * e'.n ≤ e.A

/-- The offset at `a` is that of an element behind the one on the way. -/
def Later (L : List PList) (a off : Nat) : Prop := ∃ e ∈ L, ∃ k, e.kp < k ∧ k < e.n ∧ a = e.A + 4 * k ∧ off = e.off k

theorem idxOf_filter_range (P : Nat → Bool) (N i : Nat) (hi : i < N) (hP : P i = true) :
    ((List.range N).filter P).idxOf i = ((List.range i).filter P).length := by
  have e : List.range N = List.range i ++ (List.range' i (N - i)) := by
    have := List.range'_append_1 (s := 0) (m := i) (n := N - i)
    rw [Nat.zero_add, show i + (N - i) = N by omega] at this
    rw [List.range_eq_range', List.range_eq_range', this]
  have e2 : List.range' i (N - i) = i :: List.range' (i + 1) (N - i - 1) := by
    obtain ⟨m, hm⟩ : ∃ m, N - i = m + 1 := ⟨N - i - 1, by omega⟩
    rw [hm, List.range'_succ, Nat.add_sub_cancel]
  rw [e, List.filter_append, e2, List.filter_cons_of_pos hP, List.idxOf_append_of_notMem]
  · simp
  · intro h
    have := (List.mem_filter.mp h).1
    rw [List.mem_range] at this
    omega

theorem count_take (vs : List Visit) (p : Visit → Bool) (P : Nat → Bool) (h0 : P 0 = false) (hP : ∀ m v, vs[m]? = some v → P (m + 1) = p v) :
    ∀ m, m ≤ vs.length → ((List.range (m + 1)).filter P).length = ((vs.take m).filter p).length := by
  intro m
  induction m with
  | zero => intro _; simp [List.range_succ, h0]
  | succ m ih =>
    intro hm
    have hv := List.getElem?_eq_getElem (show m < vs.length by omega)
    rw [List.range_succ, List.filter_append, List.length_append, ih (by omega), List.take_add_one, hv, List.filter_append, List.length_append]
    congr 1
    simp only [Option.toList_some, List.filter_cons, List.filter_nil, hP m _ hv]
    split <;> simp

section
variable {s : Sch} {r c : CNode} {vs : List Visit} {t : Forest} {q : Nat} {L : List PList}

theorem idx_lt (h : Route s r c vs q L) {e : PList} (he : e ∈ L) {m : Nat} {u : Visit} (hm : vs[m]? = some u) (hu : u.parent = (e.A : Int)) :
    u.idx = ((vs.take m).filter fun u => decide (u.parent = (e.A : Int))).length ∧ u.idx < e.n := by
  have hi := h.idx e he
  obtain ⟨hml, hme⟩ := List.getElem?_eq_some_iff.mp hm
  have hsplit : vs = vs.take m ++ u :: vs.drop (m + 1) := by
    rw [← hme, ← List.drop_eq_getElem_cons hml, List.take_append_drop]
  rw [hsplit, List.filter_append, List.filter_cons_of_pos (by simp [hu]), List.map_append, List.map_cons] at hi
  have hg : (List.range e.n)[(List.filter (fun u => decide (u.parent = (e.A : Int))) (List.take m vs)).length]? = some u.idx := by
    rw [← hi, List.getElem?_append_right (by simp)]
    simp
  obtain ⟨g1, g2⟩ := List.getElem?_eq_some_iff.mp hg
  rw [List.getElem_range] at g2
  rw [List.length_range] at g1
  exact ⟨g2.symm, by omega⟩

/-- The first tree that stands at the offsets of a list is the list. -/
theorem list_tree (h : Route s r c vs q L) (hG : Grown s r vs t) {e : PList} (he : e ∈ L) {k : Nat} {p : CNode} (hk : t.at_ k = some p)
    (hp : treePos (some p) = (e.A : Int)) : p.name = '[' :: ']' :: e.t ∧ p.vi.pos = (e.A : Int) ∧ p.vi.vlen = e.n := by
  cases k with
  | zero =>
    rw [hG.zero] at hk
    cases hk
    have : treePos (some r) = r.pos := by
      show (if r.vi.pos > 0 then r.vi.pos else (r.pos : Int)) = r.pos
      rw [h.vi]; rfl
    rw [this] at hp
    exact absurd hp (h.lstr e he)
  | succ k =>
    have hkl : k < vs.length := by
      by_contra hc
      unfold Forest.at_ at hk
      rw [List.getElem?_eq_none (by rw [hG.len]; omega)] at hk
      cases hk
    have hv := List.getElem?_eq_getElem hkl
    obtain ⟨o, h1, h2⟩ := hG.node k _ hv
    rw [hk] at h2
    subst h2
    exact h.lst e he _ (List.mem_of_getElem? hv) p h1 hp

theorem own_tree (h : Route s r c vs q L) (hG : Grown s r vs t) {k : Nat} {p : CNode} (hk : t.at_ k = some p)
    (hp : treePos (some p) = (c.pos : Int)) : OwnName s c p := by
  cases k with
  | zero =>
    rw [hG.zero] at hk
    cases hk
    have : treePos (some r) = r.pos := by
      show (if r.vi.pos > 0 then r.vi.pos else (r.pos : Int)) = r.pos
      rw [h.vi]; rfl
    rw [this] at hp
    exact Or.inl ⟨h.ownr hp, by omega⟩
  | succ k =>
    have hkl : k < vs.length := by
      by_contra hc
      unfold Forest.at_ at hk
      rw [List.getElem?_eq_none (by rw [hG.len]; omega)] at hk
      cases hk
    have hv := List.getElem?_eq_getElem hkl
    obtain ⟨o, h1, h2⟩ := hG.node k _ hv
    rw [hk] at h2
    subst h2
    exact h.own _ (List.mem_of_getElem? hv) p h1 hp

/-- The place of an element among the children of its list is its number. -/
theorem childs_idx (h : Route s r c vs q L) (hG : Grown s r vs t) {e : PList} (he : e ∈ L) {m : Nat} {u : Visit} (hm : vs[m]? = some u)
    (hu : u.parent = (e.A : Int)) {k : Nat} (hk : (t.par[m + 1]?).join = some k) : (t.childs k).idxOf (m + 1) = u.idx := by
  obtain ⟨hml, -⟩ := List.getElem?_eq_some_iff.mp hm
  unfold Forest.childs
  rw [hG.ok.len, idxOf_filter_range _ _ _ (by omega) (by rw [hk]; simp), (idx_lt h he hm hu).1]
  refine count_take vs _ _ ?_ ?_ m (by omega)
  · have := hG.ok.zero
    simp [this]
  · intro m' v hv
    obtain ⟨k0, p0, g1, g2, g3, g4⟩ := hG.par m u hm
    obtain ⟨k1, p1, f1, f2, f3, f4⟩ := hG.par m' v hv
    rw [hk] at g1
    cases g1
    rw [f1]
    rw [decide_eq_decide]
    constructor
    · intro e1
      cases e1
      rw [f2] at g2
      cases g2
      rw [← f3, g3, hu]
    · intro e1
      rcases Nat.lt_trichotomy k1 k with hlt | heq | hlt
      · exact absurd (by rw [f3, e1, hu]) (g4 k1 p1 hlt f2)
      · rw [heq]
      · exact absurd (by rw [g3, hu, e1]) (f4 k p0 hlt g2)

/-- One turn of the loop for an element of a list. -/
theorem move_elem (h : Route s r c vs q L) (hG : Grown s r vs t) (hc : TI.TName c.name) {e : PList} (he : e ∈ L) {m : Nat} {u : Visit}
    (hm : vs[m]? = some u) (hu : u.parent = (e.A : Int)) {size : Nat} {nb : Base} {off : Nat}
    (hH : Holds nb (e.A + 4 * u.idx) (putLE 4 off)) (hoff : off < 4294967296) (l : List Nat) (pos : Nat) :
    moveTrees s c t pos size ((m + 1) :: l) nb = moveTrees s c t pos size l (nb.updateU (e.A + 4 * u.idx) 4 (putLE 4 (off + size))) := by
  obtain ⟨k, p, g1, g2, g3, -⟩ := hG.par m u hm
  obtain ⟨n1, n2, n3⟩ := list_tree h hG he g2 (by rw [g3, hu])
  have hlt := (idx_lt h he hm hu).2
  have hne : ¬ (p.name = c.name ∧ p.pos = c.pos) := by
    rintro ⟨h1, -⟩
    refine hc.2 ?_
    rw [← h1, n1]; rfl
  obtain ⟨g, hg, hb, -⟩ := h.elt e he
  have hidx := childs_idx h hG he hm hu g1
  have hmp : ({ p with io := nb } : CNode).movePos s ((t.childs k).idxOf (m + 1)) pos size =
      some { p with io := nb.updateU (e.A + 4 * u.idx) 4 (putLE 4 (off + size)) } := by
    rw [hidx]
    have hl : ({ p with io := nb } : CNode).isList = some true := by
      unfold CNode.isList
      simp only [n1]
      rw [if_neg (by simp), if_neg (by simp)]
      rfl
    unfold CNode.movePos
    rw [hl]
    simp only [Option.bind_eq_bind, Option.bind_some, if_true]
    unfold CNode.movePosOnList
    rw [hl]
    simp only [Option.bind_eq_bind, Option.bind_some, Bool.not_true, Bool.false_eq_true, if_false, n3]
    rw [if_neg (by omega)]
    simp only [n1]
    rw [if_neg (by simp)]
    simp only [List.drop_succ_cons, List.drop_zero, hg, Option.bind_some, hb, Bool.false_eq_true, if_false]
    unfold CNode.u32
    simp only [n2]
    rw [show (e.A : Int) + (u.idx : Int) * 4 = ((e.A + 4 * u.idx : Nat) : Int) by omega, holds_getN hH, Nat.mod_eq_of_lt (by omega)]
    simp only [Option.bind_some]
    unfold Base.putN
    rw [if_neg (by omega)]
    simp only [Option.bind_some, Int.toNat_natCast, pure, ← n1]
  rw [moveTrees]
  simp only [g1, g2]
  rw [if_neg hne]
  simp only [hmp, Option.bind_eq_bind, Option.bind_some]

/-- One turn of the loop for a field of the table itself. -/
theorem move_own (h : Route s r c vs q L) (hG : Grown s r vs t) {m : Nat} {u : Visit}
    (hm : vs[m]? = some u) (hu : u.parent = (c.pos : Int)) {size : Nat} {nb : Base} (l : List Nat) (pos : Nat) :
    moveTrees s c t pos size ((m + 1) :: l) nb = moveTrees s c t pos size l nb := by
  obtain ⟨k, p, g1, g2, g3, -⟩ := hG.par m u hm
  rw [moveTrees]
  simp only [g1, g2]
  by_cases ho : p.name = c.name ∧ p.pos = c.pos
  · rw [if_pos ho]
  · rw [if_neg ho]
    obtain ⟨o1, o2, o3⟩ := (own_tree h hG g2 (by rw [g3, hu])).resolve_left ho
    have hl : ({ p with io := nb } : CNode).isList = some false := by
      unfold CNode.isList
      have := o1.1
      simp only
      rw [if_neg (by rintro ⟨e, -⟩; rw [e] at this; simp at this), if_neg (by omega)]
      simp only [o1.2, decide_false]
    have hf : ({ p with io := nb } : CNode).fieldT s ((t.childs k).idxOf (m + 1) : Nat) = ⟨[], 0, none⟩ := by
      unfold CNode.fieldT
      rw [if_neg (by omega)]
      simp only [o3]
      rfl
    have hmp : ({ p with io := nb } : CNode).movePos s ((t.childs k).idxOf (m + 1) : Nat) pos size = some { p with io := nb } := by
      unfold CNode.movePos
      simp only [hl, hf, o2, Option.bind_eq_bind, Option.bind_some, Bool.false_eq_true, if_false, pure]
      rfl
    simp only [hmp, Option.bind_eq_bind, Option.bind_some]

/-- What the loop does to the buffer. -/
structure Moved (S : Nat → Nat → Prop) (size : Nat) (nb nb' : Base) : Prop where
  bytes : nb'.bytes = nb.bytes
  other : ∀ x w, Holds nb x w → (∀ a off, S a off → x + w.length ≤ a ∨ a + 4 ≤ x) → Holds nb' x w
  moved : ∀ a off, S a off → Holds nb' a (putLE 4 (off + size))
  clean : ∀ z, Clean nb z → (∀ a off, S a off → z ≤ a ∨ a + 4 ≤ z) → Clean nb' z

theorem move_loop {c : CNode} {t : Forest} {pos size : Nat} (S : Nat → Nat → Prop) (act : Nat → Option (Nat × Nat)) : ∀ (l : List Nat) (nb : Base),
    (∀ i ∈ l, ∀ l' nb, act i = none → moveTrees s c t pos size (i :: l') nb = moveTrees s c t pos size l' nb) →
    (∀ i ∈ l, ∀ a off, act i = some (a, off) → ∀ l' nb, Holds nb a (putLE 4 off) →
      moveTrees s c t pos size (i :: l') nb = moveTrees s c t pos size l' (nb.updateU a 4 (putLE 4 (off + size)))) →
    (∀ a off, S a off ↔ ∃ i ∈ l, act i = some (a, off)) →
    l.Pairwise (fun i j => ∀ a off a' off', act i = some (a, off) → act j = some (a', off') → a + 4 ≤ a' ∨ a' + 4 ≤ a) →
    (∀ a off, S a off → Holds nb a (putLE 4 off)) → ∃ nb', moveTrees s c t pos size l nb = some nb' ∧ Moved S size nb nb' := by
  intro l
  induction l generalizing S with
  | nil =>
    intro nb _ _ hS _ _
    refine ⟨nb, rfl, rfl, fun x w h _ => h, ?_, fun z h _ => h⟩
    intro a off h
    obtain ⟨i, hi, -⟩ := (hS a off).mp h
    cases hi
  | cons i l ih =>
    intro nb h1 h2 hS hp hH
    rw [List.pairwise_cons] at hp
    obtain ⟨hp1, hp2⟩ := hp
    cases ha : act i with
    | none =>
      rw [h1 i (List.mem_cons_self ..) l nb ha]
      refine ih S nb (fun j hj => h1 j (List.mem_cons_of_mem _ hj)) (fun j hj => h2 j (List.mem_cons_of_mem _ hj)) ?_ hp2 hH
      intro a off
      rw [hS]
      constructor
      · rintro ⟨j, hj, e⟩
        rcases List.mem_cons.mp hj with rfl | hj
        · rw [ha] at e; cases e
        · exact ⟨j, hj, e⟩
      · rintro ⟨j, hj, e⟩
        exact ⟨j, List.mem_cons_of_mem _ hj, e⟩
    | some ao =>
      obtain ⟨a0, off0⟩ := ao
      have hS0 : S a0 off0 := (hS a0 off0).mpr ⟨i, List.mem_cons_self .., ha⟩
      have hH0 := hH a0 off0 hS0
      rw [h2 i (List.mem_cons_self ..) a0 off0 ha l nb hH0]
      have hd : ∀ a off, (∃ j ∈ l, act j = some (a, off)) → a0 + 4 ≤ a ∨ a + 4 ≤ a0 := by
        rintro a off ⟨j, hj, e⟩
        exact hp1 j hj a0 off0 a off ha e
      obtain ⟨nb', g1, g2⟩ := ih (fun a off => ∃ j ∈ l, act j = some (a, off)) (nb.updateU a0 4 (putLE 4 (off0 + size)))
        (fun j hj => h1 j (List.mem_cons_of_mem _ hj)) (fun j hj => h2 j (List.mem_cons_of_mem _ hj)) (fun _ _ => Iff.rfl) hp2 (by
          intro a off h
          have hd' := hd a off h
          obtain ⟨j, hj, e⟩ := h
          refine holds_updateU_other (putLE_length 4 _) (hH a off ((hS a off).mpr ⟨j, List.mem_cons_of_mem _ hj, e⟩)) ?_
          rw [putLE_length]
          omega)
      have hsub : ∀ a off, (∃ j ∈ l, act j = some (a, off)) → S a off := fun a off ⟨j, hj, e⟩ => (hS a off).mpr ⟨j, List.mem_cons_of_mem _ hj, e⟩
      refine ⟨nb', g1, ?_, ?_, ?_, ?_⟩
      · rw [g2.bytes, updateU_struct _ _ _ _ (putLE_length 4 _)]
      · intro x w hw hx
        refine g2.other x w (holds_updateU_other (putLE_length 4 _) hw ?_) (fun a off h => hx a off (hsub a off h))
        exact hx a0 off0 hS0
      · intro a off h
        obtain ⟨j, hj, e⟩ := (hS a off).mp h
        rcases List.mem_cons.mp hj with rfl | hj
        · rw [ha] at e
          cases e
          refine g2.other _ _ ?_ (fun a' off' h' => ?_)
          · have := holds_updateU_same (b := nb) (off := a0) (w := putLE 4 (off0 + size)) (by simp [putLE]) (by
              have := hH0.2.1
              rw [putLE_length] at this ⊢
              exact this)
            rw [putLE_length] at this
            exact this
          · have := hd a' off' h'
            rw [putLE_length]
            omega
        · exact g2.moved a off ⟨j, hj, e⟩
      · intro z hz hx
        exact g2.clean z (clean_updateU (putLE_length 4 _) hz (hx a0 off0 hS0)) (fun a off h => hx a off (hsub a off h))

/-- All of the loop: the offsets of the elements behind the one on the way are moved. -/
theorem move_all (h : Route s r c vs q L) (hG : Grown s r vs t) (hc : TI.TName c.name) {size : Nat} {nb : Base}
    (hoff : ∀ e ∈ L, ∀ k, k < e.n → Holds nb (e.A + 4 * k) (putLE 4 (e.off k)) ∧ e.off k < 4294967296) :
    ∃ nb', moveTrees s c t q size (t.find (crosses t q)) nb = some nb' ∧ Moved (Later L) size nb nb' := by
  obtain ⟨f1, f2⟩ := find_spec hG.ok hG.len (crosses t q)
  -- the trees found
  have hcr : ∀ m u, vs[m]? = some u → (crosses t q (m + 1) = true ↔ ∃ a, treeNode s u = some (some (some a)) ∧ u.parent ≤ q ∧ (q : Int) ≤ treePos (some a)) := by
    intro m u hm
    obtain ⟨k, p, g1, g2, g3, -⟩ := hG.par m u hm
    obtain ⟨o, o1, o2⟩ := hG.node m u hm
    unfold crosses
    simp only [g1, o2, g2]
    cases o with
    | none =>
      simp only [Bool.false_eq_true, false_iff]
      rintro ⟨a, e, -⟩
      rw [o1] at e
      cases e
    | some a =>
      simp only [Bool.and_eq_true, decide_eq_true_eq, g3]
      constructor
      · rintro ⟨h1, h2⟩
        exact ⟨a, o1, h1, h2⟩
      · rintro ⟨a', e, h1, h2⟩
        rw [o1] at e
        cases e
        exact ⟨h1, h2⟩
  classical
  let act : Nat → Option (Nat × Nat) := fun i =>
    match vs[i - 1]? with
    | none => none
    | some u => if h : ∃ e ∈ L, u.parent = (e.A : Int) then some ((Classical.choose h).A + 4 * u.idx, (Classical.choose h).off u.idx) else none
  have hact : ∀ m u, vs[m]? = some u → ∀ e ∈ L, u.parent = (e.A : Int) → act (m + 1) = some (e.A + 4 * u.idx, e.off u.idx) := by
    intro m u hm e he hu
    have hex : ∃ e ∈ L, u.parent = (e.A : Int) := ⟨e, he, hu⟩
    obtain ⟨c1, c2⟩ := Classical.choose_spec hex
    have hsame : Classical.choose hex = e := by
      have hlt := (idx_lt h he hm hu).2
      have hlt' := (idx_lt h c1 hm c2).2
      rcases h.sep _ c1 e he with h1 | h1 | h1
      · exact h1
      · omega
      · omega
    show (match vs[m + 1 - 1]? with | none => none | some u => _) = _
    rw [Nat.add_sub_cancel, hm]
    simp only
    rw [dif_pos hex, hsame]
  have hact0 : ∀ m u, vs[m]? = some u → (¬ ∃ e ∈ L, u.parent = (e.A : Int)) → act (m + 1) = none := by
    intro m u hm hno
    show (match vs[m + 1 - 1]? with | none => none | some u => _) = _
    rw [Nat.add_sub_cancel, hm]
    simp only
    rw [dif_neg hno]
  have hget : ∀ i, i ∈ t.find (crosses t q) → ∃ m u a, i = m + 1 ∧ vs[m]? = some u ∧ treeNode s u = some (some (some a)) ∧ u.parent ≤ q ∧ (q : Int) ≤ treePos (some a) := by
    intro i hi
    obtain ⟨h1, h2, h3⟩ := (f2 i).mp hi
    obtain ⟨m, rfl⟩ : ∃ m, i = m + 1 := ⟨i - 1, by omega⟩
    have hm := List.getElem?_eq_getElem (show m < vs.length by omega)
    obtain ⟨a, g1, g2, g3⟩ := (hcr m _ hm).mp h3
    exact ⟨m, _, a, rfl, hm, g1, g2, g3⟩
  refine move_loop (Later L) act (t.find (crosses t q)) nb ?_ ?_ ?_ ?_ ?_
  · intro i hi l' nb ha
    obtain ⟨m, u, a, rfl, hm, g1, g2, g3⟩ := hget i hi
    rcases h.cross u (List.mem_of_getElem? hm) a g1 g2 g3 with h1 | ⟨e, he, h1⟩
    · exact move_own h hG hm h1 l' q
    · rw [hact m u hm e he h1] at ha
      cases ha
  · intro i hi a0 off0 ha l' nb hH
    obtain ⟨m, u, a, rfl, hm, g1, g2, g3⟩ := hget i hi
    by_cases hex : ∃ e ∈ L, u.parent = (e.A : Int)
    · obtain ⟨e, he, hu⟩ := hex
      rw [hact m u hm e he hu] at ha
      simp only [Option.some.injEq, Prod.mk.injEq] at ha
      obtain ⟨rfl, rfl⟩ := ha
      exact move_elem h hG hc he hm hu hH (hoff e he _ (idx_lt h he hm hu).2).2 l' q
    · rw [hact0 m u hm hex] at ha
      cases ha
  · intro a off
    constructor
    · rintro ⟨e, he, k, h1, h2, rfl, rfl⟩
      have : k ∈ (vs.filter fun u => decide (u.parent = (e.A : Int))).map Visit.idx := by
        rw [h.idx e he, List.mem_range]; exact h2
      obtain ⟨u, hu, rfl⟩ := List.mem_map.mp this
      obtain ⟨hu, hp⟩ := List.mem_filter.mp hu
      rw [decide_eq_true_eq] at hp
      obtain ⟨m, hm⟩ := List.mem_iff_getElem?.mp hu
      obtain ⟨a, g1, g2⟩ := h.ele e he u hu hp
      refine ⟨m + 1, (f2 _).mpr ⟨by omega, by have := (List.getElem?_eq_some_iff.mp hm).1; omega, (hcr m u hm).mpr ⟨a, g1, ?_, g2.mpr h1⟩⟩, hact m u hm e he hp⟩
      have := h.before e he
      omega
    · rintro ⟨i, hi, ha⟩
      obtain ⟨m, u, a0, rfl, hm, g1, g2, g3⟩ := hget i hi
      by_cases hex : ∃ e ∈ L, u.parent = (e.A : Int)
      · obtain ⟨e, he, hu⟩ := hex
        rw [hact m u hm e he hu] at ha
        simp only [Option.some.injEq, Prod.mk.injEq] at ha
        obtain ⟨rfl, rfl⟩ := ha
        obtain ⟨a', e1, e2⟩ := h.ele e he u (List.mem_of_getElem? hm) hu
        rw [g1] at e1
        cases e1
        exact ⟨e, he, u.idx, e2.mp g3, (idx_lt h he hm hu).2, rfl, rfl⟩
      · rw [hact0 m u hm hex] at ha
        cases ha
  · refine List.Pairwise.imp_of_mem ?_ f1
    intro i j hi hj hne a off a' off' ha ha'
    obtain ⟨m, u, a0, rfl, hm, -⟩ := hget i hi
    obtain ⟨m', u', a0', rfl, hm', -⟩ := hget j hj
    have hex : ∃ e ∈ L, u.parent = (e.A : Int) := by
      by_contra hc
      rw [hact0 m u hm hc] at ha; cases ha
    have hex' : ∃ e ∈ L, u'.parent = (e.A : Int) := by
      by_contra hc
      rw [hact0 m' u' hm' hc] at ha'; cases ha'
    obtain ⟨e, he, hu⟩ := hex
    obtain ⟨e', he', hu'⟩ := hex'
    rw [hact m u hm e he hu] at ha
    rw [hact m' u' hm' e' he' hu'] at ha'
    simp only [Option.some.injEq, Prod.mk.injEq] at ha ha'
    obtain ⟨rfl, -⟩ := ha
    obtain ⟨rfl, -⟩ := ha'
    obtain ⟨i1, i2⟩ := idx_lt h he hm hu
    obtain ⟨j1, j2⟩ := idx_lt h he' hm' hu'
    rcases h.sep e he e' he' with h1 | h1 | h1
    · subst h1
      have key : ∀ {m m' : Nat} {u u' : Visit}, vs[m]? = some u → u.parent = (e.A : Int) → m < m' →
          ((vs.take m).filter fun u => decide (u.parent = (e.A : Int))).length < ((vs.take m').filter fun u => decide (u.parent = (e.A : Int))).length := by
        intro m m' u u' hm hu hlt
        have hsp : vs.take m' = vs.take m ++ u :: (vs.take m').drop (m + 1) := by
          obtain ⟨hml, hme⟩ := List.getElem?_eq_some_iff.mp hm
          have hl : m < (vs.take m').length := by rw [List.length_take]; omega
          conv => lhs; rw [← List.take_append_drop m (vs.take m')]
          rw [List.take_take, Nat.min_eq_left (by omega), List.drop_eq_getElem_cons hl, List.getElem_take, hme]
        rw [hsp, List.filter_append, List.filter_cons_of_pos (by simp [hu]), List.length_append, List.length_cons]
        omega
      rcases Nat.lt_or_gt_of_ne (show m ≠ m' by intro e; exact hne (by rw [e])) with hlt | hlt
      · have := key (u' := u') hm hu hlt
        omega
      · have := key (u' := u) hm' hu' hlt
        omega
    · omega
    · omega
  · rintro a off ⟨e, he, k, h1, h2, rfl, rfl⟩
    exact (hoff e he k h2).1

/-- `InsertSpace` in a table of a message. -/
theorem insertSpace_route (h : Route s r c vs q L) {fuel : Nat} (hin : c.inRoot = some true) (hr : c.rootCommon s = some r)
    (hw : traverseF s fuel r = some vs) (hc : TI.TName c.name) (hl : c.isList = some false) (hp : c.pos ≤ q) {size : Nat} {cr : Bool}
    (hoff : ∀ e ∈ L, ∀ k, k < e.n → Holds (c.io.insertSpace q size cr) (e.A + 4 * k) (putLE 4 (e.off k)) ∧ e.off k < 4294967296) :
    ∃ nb', c.insertSpace s fuel q size cr = some { c with io := nb' } ∧ Moved (Later L) size (c.io.insertSpace q size cr) nb' := by
  obtain ⟨t, ht, hG⟩ := allTree_grown hw h.vi h.tot h.rooted
  obtain ⟨nb', h1, h2⟩ := move_all h hG hc (size := size) hoff
  refine ⟨nb', ?_, h2⟩
  unfold CNode.insertSpace
  simp only [hin, hr, ht, hl, h1, Option.bind_eq_bind, Option.bind_some, if_true, Bool.false_eq_true, if_false, pure]
  rw [if_neg (by omega)]

end

end Fbs
