import Verif.Misc
import Verif.BufRead
import Verif.Props.Buf
/-!
# Properties of small pure functions (C23, C24, C29, C43, C52, C53)
-/

namespace Fbs.Props
open Fbs

/-! ## C23 growth request -/

/-- C23 (partial): the capacity is a positive multiple of the page size and covers the request unless the
number of whole pages is a non-zero multiple of 4096 and the request is not page aligned. -/
theorem calcBufSize_partial (req : Nat) :
    0 < calcBufSize req ∧ 4096 ∣ calcBufSize req ∧
    (req / 4096 % 4096 ≠ 0 ∨ req < 4096 ∨ req % 4096 = 0 → req ≤ calcBufSize req) := by
  unfold calcBufSize
  simp only []
  refine ⟨?_, ⟨_, Nat.mul_comm _ _⟩, ?_⟩
  · split <;> split <;> omega
  · intro h; split <;> split <;> omega

/-- C23 fails exactly outside that condition: the capacity is then smaller than the request. -/
theorem calcBufSize_short (req : Nat) (h1 : req / 4096 % 4096 = 0) (h2 : 4096 ≤ req) (h3 : req % 4096 ≠ 0) :
    calcBufSize req < req := by
  unfold calcBufSize
  simp only []
  have h0 : req / 4096 ≠ 0 := by omega
  simp only [h1, ne_eq, not_true_eq_false, if_false, h0]
  omega

theorem calcBufSize_fails : calcBufSize 16777217 < 16777217 := by decide

example : calcBufSize 5000 = 8192 ∧ calcBufSize 0 = 4096 := by decide

/-! ## C24 loaded segments -/

/-- Sorted by offset. -/
def SortedOff (l : List Diff) : Prop := l.Pairwise (fun a b => a.off ≤ b.off)

/-- Pairwise disjoint byte ranges. -/
def DisjointSegs (l : List Diff) : Prop :=
  l.Pairwise (fun a b => a.off + a.sl.len ≤ b.off ∨ b.off + b.sl.len ≤ a.off)

theorem insertByOff_perm (d : Diff) (l : List Diff) : (insertByOff d l).Perm (d :: l) := by
  induction l with
  | nil => exact List.Perm.refl _
  | cons e l ih =>
    simp only [insertByOff]
    split
    · exact List.Perm.refl _
    · exact (ih.cons e).trans (List.Perm.swap d e l)

theorem insertByOff_sorted (d : Diff) (l : List Diff) (h : SortedOff l) : SortedOff (insertByOff d l) := by
  induction l with
  | nil => exact List.pairwise_singleton _ _
  | cons e l ih =>
    have hc := List.pairwise_cons.mp h
    simp only [insertByOff]
    split
    · rename_i hlt
      refine List.pairwise_cons.mpr ⟨?_, h⟩
      intro x hx
      rcases List.mem_cons.mp hx with hx | hx
      · subst hx; omega
      · have := hc.1 x hx; omega
    · rename_i hge
      refine List.pairwise_cons.mpr ⟨?_, ih hc.2⟩
      intro x hx
      rcases List.mem_cons.mp ((insertByOff_perm d l).mem_iff.mp hx) with hx | hx
      · subst hx; omega
      · exact hc.1 x hx

theorem sortByOff_perm (l : List Diff) : (sortByOff l).Perm l := by
  induction l with
  | nil => exact List.Perm.refl _
  | cons d l ih => exact (insertByOff_perm d _).trans (ih.cons d)

theorem sortByOff_sorted (l : List Diff) : SortedOff (sortByOff l) := by
  induction l with
  | nil => exact List.Pairwise.nil
  | cons d l ih => exact insertByOff_sorted d _ ih

/-- C24: an accepted segment is added (nothing is lost) and the list stays sorted by offset. -/
theorem addRDiff_sorted (rds rds' : List Diff) (d : Diff) (h : addRDiff rds d = some rds') :
    SortedOff rds' ∧ rds'.Perm (d :: rds) := by
  have key : rds' = sortByOff (rds ++ [d]) := by
    unfold addRDiff at h
    simp only [] at h
    split at h
    · split at h
      · exact absurd h (by simp)
      · injection h with h; exact h.symm
    · injection h with h; exact h.symm
  subst key
  refine ⟨sortByOff_sorted _, (sortByOff_perm _).trans ?_⟩
  exact List.perm_append_comm

/-- C24 (partial): on a sorted, disjoint list of non-empty segments a segment starting
strictly inside an earlier-starting one is refused.  Missing: overlap with a segment starting at the same or a later offset is
accepted, see `addRDiff_fails`. -/
theorem addRDiff_refuses_partial (rds : List Diff) (d e : Diff) (hs : SortedOff rds) (hd : DisjointSegs rds)
    (hne : ∀ e ∈ rds, 0 < e.sl.len) (he : e ∈ rds) (h1 : e.off < d.off) (h2 : d.off < e.off + e.sl.len) : addRDiff rds d = none := by
  unfold addRDiff
  cases hl : lastIndexOf (fun e => decide (e.off < d.off)) rds with
  | none =>
    have := (lastIndexOf_none.mp hl) e he
    simp at this; omega
  | some n =>
    obtain ⟨f, hf, hp⟩ := lastIndexOf_lt hl
    obtain ⟨m, hm⟩ := List.mem_iff_getElem?.mp he
    have hmn := lastIndexOf_last hl hm (by simpa using h1)
    simp only [decide_eq_true_eq] at hp
    simp only [hf]
    rw [if_pos]
    by_cases hnm : m = n
    · subst hnm
      rw [hm] at hf; injection hf with hf; subst hf; omega
    · have hlt : m < n := by omega
      obtain ⟨hm', hme⟩ := List.getElem?_eq_some_iff.mp hm
      obtain ⟨hn', hne'⟩ := List.getElem?_eq_some_iff.mp hf
      have a := List.pairwise_iff_getElem.mp hs m n hm' hn' hlt
      have c := List.pairwise_iff_getElem.mp hd m n hm' hn' hlt
      rw [hme, hne'] at a c
      have := hne f (List.mem_of_getElem? hf)
      omega

/-- C24 (partial): if the new segment does not reach a segment that starts at or after it, acceptance
keeps the list disjoint. -/
theorem addRDiff_disjoint_partial (rds rds' : List Diff) (d : Diff) (hs : SortedOff rds) (hd : DisjointSegs rds)
    (hne : ∀ e ∈ rds, 0 < e.sl.len) (hnext : ∀ e ∈ rds, d.off ≤ e.off → d.off + d.sl.len ≤ e.off) (h : addRDiff rds d = some rds') :
    DisjointSegs rds' := by
  have hp := (addRDiff_sorted rds rds' d h).2
  have hsym : ∀ {a b : Diff}, (a.off + a.sl.len ≤ b.off ∨ b.off + b.sl.len ≤ a.off) →
      (b.off + b.sl.len ≤ a.off ∨ a.off + a.sl.len ≤ b.off) := fun h => h.symm
  refine (List.Perm.pairwise_iff (fun h => hsym h) hp).mpr ?_
  refine List.pairwise_cons.mpr ⟨?_, hd⟩
  intro e he
  by_cases hde : d.off ≤ e.off
  · exact Or.inl (hnext e he hde)
  · right
    by_cases hh : d.off < e.off + e.sl.len
    · rw [addRDiff_refuses_partial rds d e hs hd hne he (by omega) hh] at h; simp at h
    · omega

/-- C24 fails: a segment covering the start of a later one is accepted, and so is one at an equal offset. -/
theorem addRDiff_fails :
    (∃ l, addRDiff [⟨4, ⟨[1, 2], []⟩⟩] ⟨2, ⟨[7, 7, 7], []⟩⟩ = some l ∧ ¬ DisjointSegs l) ∧
    (∃ l, addRDiff [⟨4, ⟨[1, 2], []⟩⟩] ⟨4, ⟨[7], []⟩⟩ = some l ∧ ¬ DisjointSegs l) := by
  refine ⟨⟨[⟨2, ⟨[7, 7, 7], []⟩⟩, ⟨4, ⟨[1, 2], []⟩⟩], by decide, ?_⟩,
    ⟨[⟨4, ⟨[7], []⟩⟩, ⟨4, ⟨[1, 2], []⟩⟩], by decide, ?_⟩⟩ <;> simp [DisjointSegs, Slice.len]

example : addRDiff [⟨0, ⟨[1, 2], []⟩⟩, ⟨8, ⟨[1], []⟩⟩] ⟨2, ⟨[3, 4], []⟩⟩ =
    some [⟨0, ⟨[1, 2], []⟩⟩, ⟨2, ⟨[3, 4], []⟩⟩, ⟨8, ⟨[1], []⟩⟩] := by decide

/-! ## C29 scalars -/

/-- C29: unsigned (and float bit pattern, and byte) round trip at every width. -/
theorem unsigned_round_trip (k n : Nat) (hk : 0 < k) (hn : n < 2 ^ (8 * k)) : (fromU k n).getU k = some n := by
  unfold ScalarNode.getU fromU
  have h := updateU_R (Base.new (.make k)) 0 (putLE k n) k (by intro h; have := putLE_length k n; rw [h] at this; simp at this; omega)
  rw [putLE_length] at h
  simp only []
  rw [h, getLE_putLE, pow256, Nat.mod_eq_of_lt hn]

/-- C29: signed round trip at every width. -/
theorem signed_round_trip (k : Nat) (v : Int) (hk : 0 < k) (h1 : -(2 ^ (8 * k - 1) : Nat) ≤ v)
    (h2 : v < (2 ^ (8 * k - 1) : Nat)) : (fromS k v).getS k = some v := by
  have hp : 2 ^ (8 * k) = 2 * 2 ^ (8 * k - 1) := by
    rw [← Nat.pow_succ']; congr 1; omega
  have hpos : 0 < 2 ^ (8 * k - 1) := Nat.two_pow_pos _
  generalize hM : 2 ^ (8 * k - 1) = M at *
  have hw : wrapU k v = if v < 0 then (v + (2 * M : Nat)).toNat else v.toNat := by
    unfold wrapU
    rw [hp]
    split
    · rename_i h0
      rw [← Int.add_emod_right, Int.emod_eq_of_lt (by omega) (by omega)]
    · rw [Int.emod_eq_of_lt (by omega) (by omega)]
  have hlt : wrapU k v < 2 ^ (8 * k) := by rw [hw, hp]; split <;> omega
  unfold ScalarNode.getS fromS
  rw [unsigned_round_trip k _ hk hlt]
  simp only [Option.map_some, Option.some.injEq]
  unfold wrapS
  rw [hM, hp, hw]
  split <;> split <;> omega

/-- C29: booleans. -/
theorem bool_round_trip (v : Bool) : (fromBool v).getBool = some v := by
  cases v <;> decide

/-- C29: the encoding is little endian and has exactly the declared size. -/
theorem encoding_little_endian (k n i : Nat) (hi : i < k) :
    (fromU k n).base.lenBuf = k ∧ (fromU k n).base.byte i = some (UInt8.ofNat (n / 256 ^ i % 256)) := by
  have h := updateU_exact (Base.new (.make k)) 0 (putLE k n)
  rw [putLE_length] at h
  refine ⟨?_, ?_⟩
  · have := h.2.2
    unfold fromU
    simp only []
    rw [this]
    simp [Base.new, Base.lenBuf, Slice.make, zeros, Slice.len]
  · have := h.1 i hi
    unfold fromU
    rw [Nat.zero_add] at this
    simp only []
    rw [this, putLE_getElem? k n i hi]

/-- C29: setting an existing scalar again replaces its value, whatever the node's buffer looks like. -/
theorem set_round_trip (s : ScalarNode) (n : Nat) (hk : 0 < s.size) (hn : n < 2 ^ (8 * s.size)) :
    (s.setU n).getU s.size = some n ∧
    ∀ x, x < s.pos ∨ s.pos + s.size ≤ x → (s.setU n).base.byte x = s.base.byte x := by
  refine ⟨?_, ?_⟩
  · unfold ScalarNode.getU ScalarNode.setU
    have h := updateU_R s.base s.pos (putLE s.size n) s.size
      (by intro h; have := putLE_length s.size n; rw [h] at this; simp at this; omega)
    rw [putLE_length] at h
    simp only []
    rw [h, getLE_putLE, pow256, Nat.mod_eq_of_lt hn]
  · intro x hx
    have h := (updateU_exact s.base s.pos (putLE s.size n)).2.1 x
    rw [putLE_length] at h
    exact h hx

example : (fromS 2 (-5)).getS 2 = some (-5) ∧ (fromU 4 305419896).getU 4 = some 305419896 := by decide

/-! ## C43 message length -/

/-- C43: the reported length is the least multiple of 8 not below the end of the root's data. -/
theorem len_aligned (e : Nat) :
    8 ∣ roundUp8 e ∧ e ≤ roundUp8 e ∧ roundUp8 e < e + 8 ∧ ∀ m, 8 ∣ m → e ≤ m → roundUp8 e ≤ m := by
  unfold roundUp8
  refine ⟨?_, ?_, ?_, ?_⟩
  · split
    · exact Nat.dvd_of_mod_eq_zero (by assumption)
    · exact Nat.dvd_of_mod_eq_zero (by omega)
  · split <;> omega
  · split <;> omega
  · rintro m ⟨k, rfl⟩ h; split <;> omega

example : roundUp8 13 = 16 ∧ roundUp8 16 = 16 := by decide

/-! ## C52 SearchIndex -/

section
variable {α : Type}

theorem searchLoop_bounds (at_ : Nat → Option α) (fn : α → Bool) (i j : Nat) (h : i ≤ j) :
    i ≤ searchLoop at_ fn i j ∧ searchLoop at_ fn i j ≤ j := by
  fun_induction searchLoop at_ fn i j with
  | case1 i j hij m c hc hf ih => have := ih (by omega); omega
  | case2 i j hij m c hc hf ih => have := ih (by omega); omega
  | case3 i j hij m hc ih => have := ih (by omega); omega
  | case4 i j hij => omega

theorem searchLoop_spec (at_ : Nat → Option α) (fn : α → Bool) (i j : Nat) (hij : i ≤ j) (t : Nat)
    (hit : i ≤ t) (htj : t ≤ j)
    (hlo : ∀ k, i ≤ k → k < t → ∃ c, at_ k = some c ∧ fn c = false)
    (hhi : ∀ k, t ≤ k → k < j → ∀ c, at_ k = some c → fn c = true) :
    searchLoop at_ fn i j = t := by
  fun_induction searchLoop at_ fn i j with
  | case1 i j hij m c hc hf ih =>
    have hmt : m < t := by
      apply Decidable.byContradiction
      intro hx
      have := hhi m (by omega) (by omega) c hc
      simp [this] at hf
    exact ih (by omega) (by omega) htj (fun k h1 h2 => hlo k (by omega) h2) hhi
  | case2 i j hij m c hc hf ih =>
    have hmt : t ≤ m := by
      apply Decidable.byContradiction
      intro hx
      obtain ⟨c', h1, h2⟩ := hlo m (by omega) (by omega)
      rw [hc] at h1; injection h1 with h1; subst h1; simp [h2] at hf
    exact ih (by omega) hit hmt hlo (fun k h1 h2 => hhi k h1 (by omega))
  | case3 i j hij m hc ih =>
    have hmt : t ≤ m := by
      apply Decidable.byContradiction
      intro hx
      obtain ⟨c', h1, h2⟩ := hlo m (by omega) (by omega)
      rw [hc] at h1; simp at h1
    exact ih (by omega) hit hmt hlo (fun k h1 h2 => hhi k h1 (by omega))
  | case4 i j hij => omega

/-- C52: on a list whose elements satisfy `fn` exactly from index `t` on, `SearchIndex(n, fn)` returns
`t`. -/
theorem searchIndex_first (l : List α) (fn : α → Bool) (t : Nat) (ht : t ≤ l.length)
    (hlo : ∀ k c, k < t → l[k]? = some c → fn c = false)
    (hhi : ∀ k c, t ≤ k → l[k]? = some c → fn c = true) :
    searchIndex (fun i => l[i]?) l.length fn = t := by
  apply searchLoop_spec _ _ _ _ (Nat.zero_le _) t (Nat.zero_le _) ht
  · intro k _ hk
    exact ⟨l[k], List.getElem?_eq_getElem (by omega), hlo k _ hk (List.getElem?_eq_getElem (by omega))⟩
  · intro k h1 _ c hc; exact hhi k c h1 hc

/-- C52: for an arbitrary predicate the search terminates with a result in `[0, n]`. -/
theorem searchIndex_range (at_ : Nat → Option α) (n : Nat) (fn : α → Bool) : searchIndex at_ n fn ≤ n :=
  (searchLoop_bounds at_ fn 0 n (Nat.zero_le _)).2

/-- C52: the search only looks at indices below `n`. -/
theorem searchIndex_local (at₁ at₂ : Nat → Option α) (n : Nat) (fn : α → Bool)
    (h : ∀ k, k < n → at₁ k = at₂ k) : searchIndex at₁ n fn = searchIndex at₂ n fn := by
  have : ∀ i j, j ≤ n → searchLoop at₁ fn i j = searchLoop at₂ fn i j := by
    intro i j hj
    fun_induction searchLoop at₁ fn i j with
    | case1 i j hij m c hc hf ih =>
      rw [searchLoop.eq_def at₂, if_pos hij]
      have hm : at₂ ((i + j) / 2) = some c := by rw [← h _ (by omega)]; exact hc
      simp only [hm, hf, if_true]; exact ih hj
    | case2 i j hij m c hc hf ih =>
      rw [searchLoop.eq_def at₂, if_pos hij]
      have hm : at₂ ((i + j) / 2) = some c := by rw [← h _ (by omega)]; exact hc
      simp only [hm, hf]; exact ih (by omega)
    | case3 i j hij m hc ih =>
      rw [searchLoop.eq_def at₂, if_pos hij]
      have hm : at₂ ((i + j) / 2) = none := by rw [← h _ (by omega)]; exact hc
      simp only [hm]; exact ih (by omega)
    | case4 i j hij => rw [searchLoop, if_neg hij]
  exact this 0 n (Nat.le_refl _)

example : searchIndex (fun i => ([1, 3, 5, 7, 9] : List Nat)[i]?) 5 (fun x => decide (6 ≤ x)) = 3 := by
  decide +kernel

/-! ## C53 Select, Find, All -/

theorem selectFrom_eq (l : List α) (fn : α → Bool) (i k : Nat) (h : i + k ≤ l.length) :
    selectFrom (fun i => l[i]?) fn i k = ((l.drop i).take k).filter fn := by
  induction k generalizing i with
  | zero => simp [selectFrom]
  | succ k ih =>
    have hi : i < l.length := by omega
    simp only [selectFrom, List.getElem?_eq_getElem hi]
    rw [List.drop_eq_getElem_cons hi, List.take_succ_cons, List.filter_cons, ih (i + 1) (by omega)]

theorem findFrom_eq (l : List α) (fn : α → Bool) (i k : Nat) (h : i + k ≤ l.length) :
    findFrom (fun i => l[i]?) fn i k = ((l.drop i).take k).find? fn := by
  induction k generalizing i with
  | zero => simp [findFrom]
  | succ k ih =>
    have hi : i < l.length := by omega
    simp only [findFrom, List.getElem?_eq_getElem hi]
    rw [List.drop_eq_getElem_cons hi, List.take_succ_cons, List.find?_cons, ih (i + 1) (by omega)]
    split <;> simp_all

/-- C53: `Select`, `Find` and `All` on a list whose elements are `l` are filter, first match and identity,
in list order. -/
theorem select_find_all (l : List α) (fn : α → Bool) :
    select (fun i => l[i]?) l.length fn = l.filter fn ∧
    find (fun i => l[i]?) l.length fn = l.find? fn ∧
    all (fun i => l[i]?) l.length = l := by
  refine ⟨?_, ?_, ?_⟩
  · rw [select, selectFrom_eq l fn 0 l.length (by omega)]; simp
  · rw [find, findFrom_eq l fn 0 l.length (by omega)]; simp
  · rw [all, select, selectFrom_eq l _ 0 l.length (by omega)]; simp

example : select (fun i => ([1, 2, 3, 4] : List Nat)[i]?) 4 (fun x => x % 2 == 0) = [2, 4] ∧
    find (fun i => ([1, 2, 3, 4] : List Nat)[i]?) 4 (fun x => x % 2 == 0) = some 2 := by decide

theorem selectFrom_range (at_ : Nat → Option α) (fn : α → Bool) (i k : Nat) :
    selectFrom at_ fn i k = ((List.range' i k).filterMap at_).filter fn := by
  induction k generalizing i with
  | zero => rfl
  | succ k ih =>
    rw [List.range'_succ]
    simp only [selectFrom, List.filterMap_cons]
    cases h : at_ i with
    | none => exact ih (i + 1)
    | some m =>
      simp only [List.filter_cons]
      rw [ih (i + 1)]

theorem findFrom_range (at_ : Nat → Option α) (fn : α → Bool) (i k : Nat) :
    findFrom at_ fn i k = ((List.range' i k).filterMap at_).find? fn := by
  induction k generalizing i with
  | zero => rfl
  | succ k ih =>
    rw [List.range'_succ]
    simp only [findFrom, List.filterMap_cons]
    cases h : at_ i with
    | none => exact ih (i + 1)
    | some m =>
      simp only [List.find?_cons]
      rw [ih (i + 1)]
      split <;> simp_all

/-- C53 when `At` fails for some indices: elements that cannot be read are skipped, the others are searched in
list order. -/
theorem select_find_skip (at_ : Nat → Option α) (n : Nat) (fn : α → Bool) :
    select at_ n fn = ((List.range n).filterMap at_).filter fn ∧
    find at_ n fn = ((List.range n).filterMap at_).find? fn ∧
    all at_ n = (List.range n).filterMap at_ := by
  rw [List.range_eq_range']
  refine ⟨selectFrom_range at_ fn 0 n, findFrom_range at_ fn 0 n, ?_⟩
  rw [all, select, selectFrom_range]
  simp

example : find (fun i => if i = 0 then none else some (i * 10)) 3 (fun x => x > 5) = some 10 := by decide

end

end Fbs.Props
