import Verif.ListTable
import Mathlib.Data.List.Perm.Basic
import Mathlib.Tactic.ByContra
/-!
# Swapping elements of a list of tables
-/

namespace Fbs
open CNode

/-- `[x, x+n)` does not meet `[lo, hi)`. -/
def Out (lo hi x n : Nat) : Prop := x + n ≤ lo ∨ hi ≤ x

/-- A table at `x` (its vtable before it) whose header cells lie outside `[lo, hi)`; `tl` is the table
length stored in the vtable. -/
def TabAt (b : Base) (lo hi x tl : Nat) : Prop :=
  ∃ vo vl, vo ≤ x ∧ vo < 4294967296 ∧ vl < 65536 ∧ tl < 65536 ∧
    Holds b x (putLE 4 vo) ∧ Out lo hi x 4 ∧ Holds b (x - vo) (putLE 2 vl) ∧ Out lo hi (x - vo) 2 ∧
    Holds b (x - vo + 2) (putLE 2 tl) ∧ Out lo hi (x - vo + 2) 2 ∧
    ∀ k, k < (vl - 3) / 2 → ∃ w : Bytes, w.length = 2 ∧ Holds b (x - vo + 4 + 2 * k) w ∧ Out lo hi (x - vo + 4 + 2 * k) 2

theorem preLoop_cells (b : Base) (n : Nat) : ∀ (x : Nat),
    (∀ k, k < n → ∃ w : Bytes, w.length = 2 ∧ Holds b (x + 2 * k) w) → preLoop b (x : Int) n = some () := by
  induction n with
  | zero => intro x _; rfl
  | succ n ih =>
    intro x h
    obtain ⟨w, hw, hh⟩ := h 0 (by omega)
    have hr := holds_read hh 2
    unfold preLoop Base.Ri
    rw [if_neg (by omega)]
    simp only [Option.bind_eq_bind, Option.bind_some, Int.toNat_natCast]
    have hlen : ¬ (b.R x 2).len < 2 := by
      rw [Nat.mul_zero, Nat.add_zero, hw] at hr
      exact Nat.not_lt.mpr hr.1
    rw [if_neg hlen]
    have := ih (x + 2) (fun k hk => by
      obtain ⟨v, hv, hvh⟩ := h (k + 1) (by omega)
      exact ⟨v, hv, by rw [show x + 2 + 2 * k = x + 2 * (k + 1) by omega]; exact hvh⟩)
    rw [show ((x : Int) + 2) = ((x + 2 : Nat) : Int) by omega, this]

theorem TabAt.preLoad {b : Base} {lo hi x tl : Nat} (h : TabAt b lo hi x tl) : CNode.preLoad b x = some tl := by
  obtain ⟨vo, vl, h1, h2, h3, h4, c1, -, c2, -, c3, -, c4⟩ := h
  unfold CNode.preLoad
  have e1 := holds_getN c1
  rw [Nat.mod_eq_of_lt (by omega)] at e1
  have e2 := holds_getN c2
  rw [Nat.mod_eq_of_lt (by omega)] at e2
  have e3 := holds_getN c3
  rw [Nat.mod_eq_of_lt (by omega)] at e3
  rw [e1]
  simp only [Option.bind_eq_bind, Option.bind_some]
  rw [show ((x : Int) - (vo : Int)) = ((x - vo : Nat) : Int) by omega, e2]
  simp only [Option.bind_some]
  rw [show (((x - vo : Nat) : Int) + 2) = ((x - vo + 2 : Nat) : Int) by omega, e3]
  simp only [Option.bind_some]
  rw [show (((x - vo : Nat) : Int) + 4) = ((x - vo + 4 : Nat) : Int) by omega,
    preLoop_cells b _ (x - vo + 4) (fun k hk => by obtain ⟨w, a, b, -⟩ := c4 k hk; exact ⟨w, a, b⟩)]
  rfl

theorem TabAt.within {b b' : Base} {lo hi lo' hi' x tl : Nat} (h : TabAt b lo hi x tl)
    (hk : ∀ x w, Holds b x w → Out lo' hi' x w.length → Holds b' x w) (hl : lo ≤ lo') (hh : hi' ≤ hi) :
    TabAt b' lo hi x tl := by
  obtain ⟨vo, vl, h1, h2, h3, h4, c1, o1, c2, o2, c3, o3, c4⟩ := h
  refine ⟨vo, vl, h1, h2, h3, h4, hk _ _ c1 ?_, o1, hk _ _ c2 ?_, o2, hk _ _ c3 ?_, o3, ?_⟩
  · rw [putLE_length]; unfold Out at *; omega
  · rw [putLE_length]; unfold Out at *; omega
  · rw [putLE_length]; unfold Out at *; omega
  · intro k hlt
    obtain ⟨w, hw, hc, ho⟩ := c4 k hlt
    exact ⟨w, hw, hk _ _ hc (by rw [hw]; unfold Out at *; omega), ho⟩

/-- A list of tables in a buffer: the count at `p - 4`, the offsets from `p` leading to the tables at `xs`.
The tables themselves may be anywhere behind the offsets, in any order, and may be shared. -/
structure TabList (t : Name) (c : CNode) (p : Nat) (xs : List Nat) : Prop where
  name  : c.name = '[' :: ']' :: t
  vpos  : c.vi.pos = (p : Int)
  hp    : 4 ≤ p
  small : xs.length < 4294967296
  hdr   : Holds c.io (p - 4) (putLE 4 xs.length)
  off   : ∀ i x, xs[i]? = some x → Holds c.io (p + 4 * i) (putLE 4 (x - (p + 4 * i)))
  rng   : ∀ x, x ∈ xs → p + 4 * xs.length ≤ x ∧ x < p + 4294967296
  tab   : ∀ x, x ∈ xs → ∃ tl, TabAt c.io (p - 4) (p + 4 * xs.length) x tl

variable {s : Sch} {t : Name} {c : CNode} {p : Nat} {xs : List Nat}

theorem TabList.listLen (h : TabList t c p xs) : c.listLen = some xs.length := by
  unfold CNode.listLen CNode.u32
  rw [h.vpos, show ((p : Int) - 4) = ((p - 4 : Nat) : Int) by have := h.hp; omega]
  have := holds_getN h.hdr
  rw [Nat.mod_eq_of_lt (by have := h.small; omega)] at this
  exact this

/-- `At` on such a list. -/
theorem TabList.at_eq (h : TabList t c p xs) (ht : TabElt s t) {i x : Nat} (hi : xs[i]? = some x) :
    ∃ tl, CNode.preLoad c.io x = some tl ∧ c.at_ s i = some (.ok { name := t, io := c.io, pos := x, tlen := tl }) := by
  have hlt : i < xs.length := (List.getElem?_eq_some_iff.mp hi).1
  have hm : x ∈ xs := List.mem_of_getElem? hi
  obtain ⟨tl, htl⟩ := h.tab x hm
  have hr := h.rng x hm
  exact ⟨tl, htl.preLoad, at_tab ht h.name h.listLen h.vpos hlt (by omega) (by omega) (h.off i x hi) htl.preLoad⟩

/-- Exchange of two entries. -/
def swapL {α : Type} (l : List α) (i j : Nat) : List α :=
  match l[i]?, l[j]? with
  | some a, some b => (l.set i b).set j a
  | _, _ => l

theorem swapL_length {α : Type} (l : List α) (i j : Nat) : (swapL l i j).length = l.length := by
  unfold swapL; split <;> simp

theorem swapL_get {α : Type} (l : List α) {i j : Nat} (hi : i < l.length) (hj : j < l.length) (k : Nat) :
    (swapL l i j)[k]? = if k = j then l[i]? else if k = i then l[j]? else l[k]? := by
  unfold swapL
  rw [List.getElem?_eq_getElem hi, List.getElem?_eq_getElem hj]
  simp only
  rw [List.getElem?_set, List.getElem?_set]
  simp only [List.length_set]
  by_cases h1 : k = j
  · subst h1; simp [hj]
  · rw [if_neg (fun h => h1 h.symm), if_neg h1]
    by_cases h2 : k = i
    · subst h2; simp [hi]
    · rw [if_neg (fun h => h2 h.symm), if_neg h2]

theorem swapL_mem {α : Type} {l : List α} {i j : Nat} {x : α} (h : x ∈ swapL l i j) : x ∈ l := by
  by_cases hij : i < l.length ∧ j < l.length
  · obtain ⟨k, hk⟩ := List.mem_iff_getElem?.mp h
    rw [swapL_get l hij.1 hij.2] at hk
    split at hk
    · exact List.mem_of_getElem? hk
    · split at hk <;> exact List.mem_of_getElem? hk
  · unfold swapL at h
    split at h
    · rename_i h1 h2
      exact absurd ⟨(List.getElem?_eq_some_iff.mp h1).1, (List.getElem?_eq_some_iff.mp h2).1⟩ hij
    · exact h

theorem not_direct (ht : TabElt s t) (hn : c.name = '[' :: ']' :: t) : c.isDirect s = some false := by
  obtain ⟨g, hg, h1, h2, -, -⟩ := ht
  unfold CNode.isDirect
  have hdr : c.name.drop 2 = t := by rw [hn]; rfl
  rw [hdr, hg]
  simp only [Option.bind_eq_bind, Option.bind_some, h1, h2]
  rfl

theorem u32_of_holds {x v : Nat} (h : Holds c.io x (putLE 4 v)) (hv : v < 4294967296) : c.u32 (x : Int) = some v := by
  unfold CNode.u32
  have := holds_getN h
  rw [Nat.mod_eq_of_lt (by omega)] at this
  exact this

/-- `SwapAt` of two different indices inside the list. -/
theorem TabList.swap (h : TabList t c p xs) (ht : TabElt s t) {i j : Nat} (hi : i < xs.length) (hj : j < xs.length)
    (hne : i ≠ j) : ∃ b, c.swapAt s i j = some ({ c with io := b }, none) ∧
      TabList t { c with io := b } p (swapL xs i j) ∧
      (∀ x w, Holds c.io x w → Out (p + 4 * i) (p + 4 * i + 4) x w.length → Out (p + 4 * j) (p + 4 * j + 4) x w.length →
        Holds b x w) ∧
      ∀ x, Out (p + 4 * i) (p + 4 * i + 4) x 1 → Out (p + 4 * j) (p + 4 * j + 4) x 1 → b.content x = c.io.content x := by
  obtain ⟨a, ha⟩ : ∃ a, xs[i]? = some a := ⟨_, List.getElem?_eq_getElem hi⟩
  obtain ⟨z, hz⟩ : ∃ z, xs[j]? = some z := ⟨_, List.getElem?_eq_getElem hj⟩
  have hra := h.rng a (List.mem_of_getElem? ha)
  have hrz := h.rng z (List.mem_of_getElem? hz)
  have hoa := h.off i a ha
  have hoz := h.off j z hz
  have l4 : ∀ v, (putLE 4 v).length = 4 := fun v => putLE_length _ _
  let b1 := c.io.updateU (p + 4 * i) 4 (putLE 4 (z - (p + 4 * i)))
  let b2 := b1.updateU (p + 4 * j) 4 (putLE 4 (a - (p + 4 * j)))
  have W1 : Within c.io b1 (p + 4 * i) (p + 4 * i + 4) := within_updateU (l4 _) (by omega)
  have W2 : Within b1 b2 (p + 4 * j) (p + 4 * j + 4) := within_updateU (l4 _) (by omega)
  have hother : ∀ x w, Holds c.io x w → Out (p + 4 * i) (p + 4 * i + 4) x w.length →
      Out (p + 4 * j) (p + 4 * j + 4) x w.length → Holds b2 x w :=
    fun x w h0 h1 h2 => W2.other _ _ (W1.other _ _ h0 h1) h2
  have hni : Holds b2 (p + 4 * i) (putLE 4 (z - (p + 4 * i))) :=
    W2.other _ _ (holds_put4 hoa (l4 _) _) (by rw [l4]; omega)
  have hnj : Holds b2 (p + 4 * j) (putLE 4 (a - (p + 4 * j))) :=
    holds_put4 (W1.other _ _ hoz (by rw [l4]; omega)) (l4 _) _
  have hcont : ∀ x, Out (p + 4 * i) (p + 4 * i + 4) x 1 → Out (p + 4 * j) (p + 4 * j + 4) x 1 → b2.content x = c.io.content x := by
    intro x h1 h2
    unfold Out at h1 h2
    show ((c.io.updateU (p + 4 * i) 4 _).updateU (p + 4 * j) 4 _).content x = _
    rw [updateU_content _ _ _ _ (l4 _), updateU_content _ _ _ _ (l4 _)]
    simp only [put_apply, l4]
    rw [if_neg (by omega), if_neg (by omega)]
  refine ⟨b2, ?_, ?_, hother, hcont⟩
  · unfold CNode.swapAt
    rw [isList_of_name h.name, h.listLen, not_direct ht h.name]
    simp only [Option.bind_eq_bind, Option.bind_some, Bool.not_true, Bool.false_eq_true, if_false]
    rw [if_neg (by omega), if_neg (by omega), if_neg (by rw [h.name]; simp)]
    have e1 : c.vi.pos + (i : Int) * 4 = ((p + 4 * i : Nat) : Int) := by rw [h.vpos]; omega
    have e2 : c.vi.pos + (j : Int) * 4 = ((p + 4 * j : Nat) : Int) := by rw [h.vpos]; omega
    rw [e1, e2, u32_of_holds hoa (by omega), u32_of_holds hoz (by omega)]
    simp only [Option.bind_some]
    have f1 : (((z - (p + 4 * j) : Nat) : Int) - (((p + 4 * i : Nat) : Int) - ((p + 4 * j : Nat) : Int))) =
        ((z - (p + 4 * i) : Nat) : Int) := by omega
    have f2 : (((a - (p + 4 * i) : Nat) : Int) - (((p + 4 * j : Nat) : Int) - ((p + 4 * i : Nat) : Int))) =
        ((a - (p + 4 * j) : Nat) : Int) := by omega
    rw [f1, f2, u32_nat _ (by omega), u32_nat _ (by omega), putN_nat]
    simp only [Option.bind_some]
    rw [putN_nat]
    rfl
  · refine ⟨h.name, h.vpos, h.hp, by rw [swapL_length]; exact h.small, ?_, ?_, ?_, ?_⟩
    · rw [swapL_length]
      have := h.hp
      exact hother _ _ h.hdr (by rw [l4]; unfold Out; omega) (by rw [l4]; unfold Out; omega)
    · intro k x hk
      rw [swapL_get xs hi hj] at hk
      by_cases h1 : k = j
      · subst h1
        rw [if_pos rfl, ha] at hk
        cases hk; exact hnj
      · rw [if_neg h1] at hk
        by_cases h2 : k = i
        · subst h2
          rw [if_pos rfl, hz] at hk
          cases hk; exact hni
        · rw [if_neg h2] at hk
          exact hother _ _ (h.off k x hk) (by rw [l4]; unfold Out; omega) (by rw [l4]; unfold Out; omega)
    · intro x hx; rw [swapL_length]; exact h.rng x (swapL_mem hx)
    · intro x hx
      obtain ⟨tl, htl⟩ := h.tab x (swapL_mem hx)
      rw [swapL_length]
      refine ⟨tl, htl.within (lo' := p - 4) (hi' := p + 4 * xs.length) ?_ (Nat.le_refl _) (Nat.le_refl _)⟩
      intro y w hy ho
      unfold Out at ho
      have := h.hp
      exact hother y w hy (by unfold Out; omega) (by unfold Out; omega)

/-- Indices beyond the end, and equal indices. -/
theorem TabList.swap_none (h : TabList t c p xs) {i j : Nat} (hij : xs.length ≤ i ∨ xs.length ≤ j ∨ i = j) :
    ∃ e, c.swapAt s i j = some (c, e) ∧ (xs.length ≤ i ∨ xs.length ≤ j → e = some .invalidIndex) ∧
      (¬ (xs.length ≤ i ∨ xs.length ≤ j) → e = none) := by
  unfold CNode.swapAt
  rw [isList_of_name h.name, h.listLen]
  simp only [Option.bind_eq_bind, Option.bind_some, Bool.not_true, Bool.false_eq_true, if_false]
  by_cases h1 : xs.length ≤ i ∨ xs.length ≤ j
  · rw [if_pos (by omega)]
    exact ⟨_, rfl, fun _ => rfl, fun h => absurd h1 h⟩
  · rw [if_neg (by omega), if_pos (by omega)]
    exact ⟨_, rfl, fun h => absurd h h1, fun _ => rfl⟩

theorem set_perm {α : Type} (l : List α) : ∀ (i : Nat) (a b : α), l[i]? = some a → (a :: l.set i b).Perm (b :: l) := by
  induction l with
  | nil => intro i a b h; simp at h
  | cons x l ih =>
    intro i a b h
    cases i with
    | zero =>
      simp only [List.getElem?_cons_zero, Option.some.injEq] at h
      subst h
      exact List.Perm.swap _ _ _
    | succ i =>
      simp only [List.getElem?_cons_succ] at h
      simp only [List.set_cons_succ]
      exact (List.Perm.swap _ _ _).trans (((ih i a b h).cons x).trans (List.Perm.swap _ _ _))

theorem swapL_perm {α : Type} (l : List α) (i j : Nat) : (swapL l i j).Perm l := by
  unfold swapL
  split
  · rename_i a b ha hb
    have h1 : (l.set i b)[j]? = some b := by
      rw [List.getElem?_set]
      have hi := (List.getElem?_eq_some_iff.mp ha).1
      split
      · simp
      · exact hb
    exact ((set_perm _ j b a h1).trans (set_perm l i a b ha)).cons_inv
  · exact List.Perm.refl _

end Fbs
