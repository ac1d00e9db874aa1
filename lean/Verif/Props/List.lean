import Verif.ListDirect
import Verif.Props.NodeEdit
/-!
# Lists: C46, C47, C50, C55 (direct lists), C56, C76, C77
-/

namespace Fbs.Props
open Fbs CNode

/-! ## C46 index errors -/

/-- C46, every list: `At` refuses an index with ERR_INVALID_INDEX exactly when it is negative or not below the
count stored in the buffer. -/
theorem at_refuses (s : Sch) (c : CNode) (t : Name) (n : Nat) (i : Int) (hn : c.name = '[' :: ']' :: t)
    (hl : c.listLen = some n) : c.at_ s i = some (.error .invalidIndex) ↔ (i < 0 ∨ (n : Int) ≤ i) := by
  unfold CNode.at_
  rw [isList_of_name hn, hl]
  simp only [Option.bind_eq_bind, Option.bind_some, Bool.not_true, Bool.false_eq_true, if_false]
  by_cases hi : i ≥ (n : Int) ∨ i < 0
  · rw [if_pos hi]
    exact ⟨fun _ => by omega, fun _ => rfl⟩
  · rw [if_neg hi, if_neg (by rw [hn]; simp)]
    refine ⟨fun h => ?_, fun h => by omega⟩
    exfalso
    cases hg : getTypeGroup s.toReg (c.name.drop 2) with
    | none => rw [hg] at h; cases h
    | some g =>
      rw [hg] at h
      simp only [Option.bind_some] at h
      split at h
      · cases hd : directSize s (c.name.drop 2) with
        | none => rw [hd] at h; cases h
        | some x =>
          rw [hd] at h
          simp only [Option.bind_some] at h
          cases x with
          | none => cases h
          | some sz =>
            simp only [Option.bind_some] at h
            split at h <;> split at h <;> cases h
      · unfold CNode.atTable at h
        cases hu : c.u32 (c.vi.pos + i * 4) with
        | none => rw [hu] at h; cases h
        | some o =>
          rw [hu] at h
          simp only [Option.bind_eq_bind, Option.bind_some] at h
          cases hr : c.R (c.vi.pos + i * 4 + o) 4 with
          | none => rw [hr] at h; cases h
          | some r =>
            rw [hr] at h
            simp only [Option.bind_some] at h
            split at h
            · cases h
            · cases hnn : newNode (c.name.drop 2) c.io (c.vi.pos + i * 4 + o).toNat with
              | none => rw [hnn] at h; cases h
              | some x => rw [hnn] at h; cases h

/-- C46, lists of scalars and structs: every other index is answered with an element lying inside the list. -/
theorem at_inside (s : Sch) (c : CNode) (t : Name) (n sz : Nat) (i : Nat) (hd : DirElt s t sz)
    (hn : c.name = '[' :: ']' :: t) (hl : c.listLen = some n) (hp : 0 ≤ c.vi.pos) (hi : i < n) :
    ∃ e, c.at_ s i = some (.ok e) ∧ e.name = t ∧ c.vi.pos ≤ e.pos ∧ (e.pos : Int) + sz ≤ c.vi.pos + n * sz := by
  have hat := at_direct hd hn hl hp (i : Int)
  rw [if_neg (by omega)] at hat
  refine ⟨_, hat, rfl, ?_, ?_⟩
  · have hnn : (0 : Int) ≤ (i : Int) * (sz : Int) := Int.mul_nonneg (by omega) (by omega)
    simp only
    omega
  · have hnn : (0 : Int) ≤ (i : Int) * (sz : Int) := Int.mul_nonneg (by omega) (by omega)
    have h1 : ((i + 1 : Nat) : Int) * (sz : Int) ≤ (n : Int) * (sz : Int) :=
      Int.mul_le_mul_of_nonneg_right (by omega) (by omega)
    rw [Int.natCast_add, Int.add_mul] at h1
    simp only
    omega

/-! ## C47 lists of scalars and structs are arrays -/

/-- A sequence of `SetAt` calls and their results. -/
def runSetAt (s : Sch) (fuel : Nat) : CNode → List (Nat × CNode) → Go (CNode × List (Option Err))
  | c, [] => some (c, [])
  | c, (i, f) :: l => do
    let (c, e) ← c.setAt s fuel i f
    let (c, es) ← runSetAt s fuel c l
    return (c, e :: es)

/-- Specification: the same calls on an array. -/
def arrSet {α : Type} (es : List α) (i : Nat) (e : α) : List α × Option Err :=
  if i < es.length then (es.set i e, none)
  else if i = es.length then (es ++ [e], none)
  else (es, some .invalidIndex)

def arrRun {α : Type} : List α → List (Nat × α) → List α × List (Option Err)
  | es, [] => (es, [])
  | es, (i, e) :: l => ((arrRun (arrSet es i e).1 l).1, (arrSet es i e).2 :: (arrRun (arrSet es i e).1 l).2)

theorem LI_setAt {s : Sch} {t : Name} {sz : Nat} (hd : DirElt s t sz) {c : CNode} {es : List Bytes} (h : LI t sz c es)
    {f : CNode} {e : Bytes} (hf : ElSrc t sz f e) (i : Nat) (hsm : es.length + 1 < 4294967296) (k : Nat) :
    ∃ c', c.setAt s (k + 2) i f = some (c', (arrSet es i e).2) ∧ LI t sz c' (arrSet es i e).1 := by
  obtain ⟨g, hg, hb⟩ := hd.grp
  have hv := h.vlen
  unfold CNode.setAt
  by_cases hi : i ≤ es.length
  · obtain ⟨c', h1, h2⟩ := h.setStructAt hd hf i hi hsm k
    refine ⟨c', ?_, ?_⟩
    · rw [if_neg (by omega), hf.name, hg]
      simp only [Option.bind_eq_bind, Option.bind_some, hb, if_true]
      rw [h1]
      unfold arrSet
      split
      · rfl
      · rw [if_pos (by omega)]
    · unfold arrSet
      split
      · rw [if_neg (by omega)] at h2; exact h2
      · rw [if_pos (by omega)]; rw [if_pos (by omega)] at h2; exact h2
  · refine ⟨c, ?_, ?_⟩
    · rw [if_pos (by omega)]
      unfold arrSet
      rw [if_neg (by omega), if_neg (by omega)]; rfl
    · unfold arrSet
      rw [if_neg (by omega), if_neg (by omega)]; exact h

theorem arrSet_length {α : Type} (es : List α) (i : Nat) (e : α) : (arrSet es i e).1.length ≤ es.length + 1 := by
  unfold arrSet
  split
  · rw [List.length_set]; omega
  · split
    · rw [List.length_append, List.length_singleton]; omega
    · exact Nat.le_succ _

theorem run_LI {s : Sch} {t : Name} {sz : Nat} (hd : DirElt s t sz) (k : Nat) (ops : List (Nat × CNode × Bytes)) :
    ∀ {c : CNode} {es : List Bytes}, LI t sz c es → (∀ o ∈ ops, ElSrc t sz o.2.1 o.2.2) →
      es.length + ops.length < 4294967296 →
      ∃ c', runSetAt s (k + 2) c (ops.map fun o => (o.1, o.2.1)) =
          some (c', (arrRun es (ops.map fun o => (o.1, o.2.2))).2) ∧
        LI t sz c' (arrRun es (ops.map fun o => (o.1, o.2.2))).1 := by
  induction ops with
  | nil => intro c es h _ _; exact ⟨c, rfl, h⟩
  | cons o ops ih =>
    intro c es h hs hl
    rw [List.length_cons] at hl
    obtain ⟨c1, h1, h2⟩ := LI_setAt hd h (hs o (List.mem_cons_self ..)) o.1 (by omega) k
    have hlen := arrSet_length es o.1 o.2.2
    obtain ⟨c', h3, h4⟩ := ih h2 (fun x hx => hs x (List.mem_cons_of_mem _ hx)) (by omega)
    refine ⟨c', ?_, h4⟩
    simp only [List.map_cons, runSetAt, arrRun]
    rw [h1]
    simp only [Option.bind_eq_bind, Option.bind_some]
    rw [h3]
    rfl

/-- C47: starting from an empty list of scalars or structs, any sequence of fewer than 2^32 `SetAt` calls
gives the results, the count and the elements that the same calls give on an array. -/
theorem struct_list (s : Sch) (t : Name) (sz k : Nat) (hd : DirElt s t sz) (ops : List (Nat × CNode × Bytes))
    (hs : ∀ o ∈ ops, ElSrc t sz o.2.1 o.2.2) (hl : ops.length < 4294967296) :
    let a := arrRun ([] : List Bytes) (ops.map fun o => (o.1, o.2.2))
    ∃ c, runSetAt s (k + 2) (initList ('[' :: ']' :: t)) (ops.map fun o => (o.1, o.2.1)) = some (c, a.2) ∧
      c.listLen = some a.1.length ∧
      (∀ (i : Nat) (e : Bytes), a.1[i]? = some e → ∃ n, c.at_ s i = some (.ok n) ∧ n.name = t ∧
        (∀ (j : Nat), j < sz → n.io.content (n.pos + j) = e[j]?) ∧
        (n.io.R n.pos sz).data.take sz = e) := by
  intro a
  obtain ⟨c, h1, h2⟩ := run_LI hd k ops (initList_LI t sz) hs (by simpa using hl)
  refine ⟨c, h1, h2.listLen, ?_⟩
  intro i e hi
  have hlt := (List.getElem?_eq_some_iff.mp hi).1
  refine ⟨_, h2.at_eq hd i hlt, rfl, ?_, ?_⟩
  · have hw := h2.wid e (List.mem_of_getElem? hi)
    intro j hj
    exact (h2.elt i e hi).2.2 j (by omega)
  · have hr := (holds_read (h2.elt i e hi) sz).2
    rw [h2.wid e (List.mem_of_getElem? hi)] at hr
    exact hr

theorem dirElt_int32 (s : Sch) : DirElt s "Int32".toList 4 :=
  ⟨rfl, ⟨ftBasic4, rfl, by decide⟩, by decide⟩

theorem dirElt_byte (s : Sch) : DirElt s "byte".toList 1 :=
  ⟨rfl, ⟨ftBasic1, rfl, by decide⟩, by decide⟩

theorem dirElt_pair : DirElt pairSch "SS".toList 8 :=
  ⟨by decide, ⟨ftStruct, by decide, by decide⟩, by decide⟩

example : DirElt pairSch "SS".toList 8 ∧ ElSrc "SS".toList 8
    { name := "SS".toList, io := Base.new ⟨[1, 0, 0, 0, 2, 0, 0, 0], []⟩, pos := 0 } [1, 0, 0, 0, 2, 0, 0, 0] :=
  ⟨dirElt_pair, rfl, rfl, holds_flat (by decide) (by decide) (by decide), Or.inl (by decide)⟩

/-- C47 is violated for negative indices: on a list with the one element 5, `SetAt(-1, 9)` succeeds and the
count becomes 9. -/
theorem list_negative_fails :
    (do let c0 := initList "[]Int32".toList
        let (c1, e1) ← c0.setAt {} 9 0 (CNode.fromScalar "Int32".toList 4 5)
        let n1 ← c1.listLen
        let (c2, e2) ← c1.setAt {} 9 (-1) (CNode.fromScalar "Int32".toList 4 9)
        let n2 ← c2.listLen
        return (e1, n1, e2, n2)) = some (none, 1, none, 9) := by decide +kernel

/-! ## C55 concatenation of lists of scalars and structs -/

/-- C55 for scalars and structs: adding a non-empty list appends its elements, and the source is not changed. -/
theorem add_direct (s : Sch) (t : Name) (sz k : Nat) (hd : DirElt s t sz) (c a : CNode) (es fs : List Bytes)
    (hc : LI t sz c es) (ha : LI t sz a fs) (hne : fs ≠ []) (hl : es.length + fs.length < 4294967296) :
    ∃ c', c.add s (k + 2) a = some (c', a, none) ∧ LI t sz c' (es ++ fs) := by
  obtain ⟨g, hg, hb⟩ := hd.grp
  obtain ⟨ns, h1, h2⟩ := ha.all hd
  obtain ⟨c', h3, h4⟩ := hc.addElms hd h2 hl k
  refine ⟨c', ?_, h4⟩
  unfold CNode.add
  rw [inRoot_false hc.hdr (by rw [hc.cpos]; omega)]
  simp only [Option.bind_eq_bind, Option.bind_some, Bool.false_eq_true, if_false]
  have h0 := ha.at_eq hd 0 (List.length_pos_iff.mpr hne)
  simp only [Int.natCast_zero] at h0
  rw [h0]
  simp only [Option.bind_some]
  rw [hg]
  simp only [Option.bind_some, hb, if_true]
  rw [h1]
  simp only [Option.bind_some]
  rw [h3]
  rfl

/-- Adding an empty list of scalars or structs is reported as an error; nothing is changed. -/
theorem add_empty_direct (s : Sch) (t : Name) (sz k : Nat) (hd : DirElt s t sz) (c a : CNode) (es : List Bytes)
    (hc : LI t sz c es) (ha : LI t sz a []) : c.add s k a = some (c, a, some .invalidIndex) := by
  unfold CNode.add
  rw [inRoot_false hc.hdr (by rw [hc.cpos]; omega)]
  simp only [Option.bind_eq_bind, Option.bind_some, Bool.false_eq_true, if_false]
  have h0 := at_direct hd ha.name ha.listLen (by rw [ha.vpos]; omega) 0
  rw [if_pos (by simp)] at h0
  rw [h0]
  rfl

/-! ## C50 swapping inline elements on the default backend -/

/-- C50 is violated everywhere: swapping two different elements of a list of scalars or structs reports
success and sets both to zero. -/
theorem swap_direct_fails (s : Sch) (t : Name) (sz : Nat) (hd : DirElt s t sz) (c : CNode) (n : Nat)
    (hn : c.name = '[' :: ']' :: t) (hl : c.listLen = some n) (hp : 0 ≤ c.vi.pos) (i j : Nat) (hi : i < n) (hj : j < n) (hij : i ≠ j) :
    ∃ c', c.swapAt s i j = some (c', none) ∧ ∀ x : Nat, x < sz →
      c'.io.content (c.vi.pos.toNat + i * sz + x) = some 0 ∧ c'.io.content (c.vi.pos.toNat + j * sz + x) = some 0 := by
  obtain ⟨g, hg, hb⟩ := hd.grp
  have hdr : c.name.drop 2 = t := by rw [hn]; rfl
  have hmi : c.vi.pos + (i : Int) * (sz : Int) = ((c.vi.pos.toNat + i * sz : Nat) : Int) := by
    rw [Int.natCast_add, Int.natCast_mul]; omega
  have hmj : c.vi.pos + (j : Int) * (sz : Int) = ((c.vi.pos.toNat + j * sz : Nat) : Int) := by
    rw [Int.natCast_add, Int.natCast_mul]; omega
  refine ⟨{ c with io := (c.io.flatten.U (c.vi.pos.toNat + i * sz) sz).U (c.vi.pos.toNat + j * sz) sz }, ?_, ?_⟩
  · unfold CNode.swapAt CNode.isDirect
    rw [isList_of_name hn, hl, hdr, hg]
    simp only [Option.bind_eq_bind, Option.bind_some, Bool.not_true, Bool.false_eq_true, if_false, pure, hb, if_true]
    rw [if_neg (by omega), if_neg (by omega), if_neg (by rw [hn]; simp), if_neg (by omega), hd.size]
    simp only [Option.bind_some]
    rw [hmi, hmj, if_neg (by omega), Int.toNat_natCast, Int.toNat_natCast]
  · intro x hx
    have hz : (zeros sz).length = sz := by simp [zeros]
    have hU : ∀ (b : Base) (o : Nat), b.U o sz = b.updateU o sz (zeros sz) := by
      intro b o
      unfold Base.U Base.updateU Slice.make
      rw [show copyAt (zeros sz) 0 (zeros sz) = zeros sz by simp [copyAt, hz]]
    have hgz : ∀ y, y < sz → (zeros sz)[y]? = some 0 := by
      intro y hy; unfold zeros; rw [List.getElem?_replicate, if_pos hy]
    simp only [hU]
    rw [updateU_content _ _ _ _ hz, updateU_content _ _ _ _ hz]
    simp only [put_apply]
    constructor
    · split
      · exact hgz _ (by omega)
      · rw [if_pos (by omega)]; exact hgz _ (by omega)
    · rw [if_pos (by omega)]; exact hgz _ (by omega)

/-- What is left of C50: equal indices and indices beyond the end change nothing. -/
theorem swap_direct_partial (s : Sch) (t : Name) (c : CNode) (n : Nat)
    (hn : c.name = '[' :: ']' :: t) (hl : c.listLen = some n) (i j : Int) :
    ((n : Int) ≤ i ∨ (n : Int) ≤ j → c.swapAt s i j = some (c, some .invalidIndex)) ∧
    (i < n → i = j → c.swapAt s i j = some (c, none)) := by
  constructor
  · intro h
    unfold CNode.swapAt
    rw [isList_of_name hn, hl]
    simp only [Option.bind_eq_bind, Option.bind_some, Bool.not_true, Bool.false_eq_true, if_false]
    rw [if_pos (by omega)]; rfl
  · intro h he
    unfold CNode.swapAt
    rw [isList_of_name hn, hl]
    simp only [Option.bind_eq_bind, Option.bind_some, Bool.not_true, Bool.false_eq_true, if_false]
    rw [if_neg (by omega), if_pos he]; rfl

example : ∃ c : CNode, c.name = '[' :: ']' :: "Int32".toList ∧ c.listLen = some 2 ∧ 0 ≤ c.vi.pos ∧ DirElt {} "Int32".toList 4 :=
  ⟨{ name := "[]Int32".toList, io := Base.new ⟨[2, 0, 0, 0, 1, 0, 0, 0, 7, 0, 0, 0], []⟩, pos := 4, vi := { pos := 4, vlen := 2 } },
    rfl, rfl, by decide, dirElt_int32 _⟩

/-! ## C56 byte lists -/

/-- C56, what holds: the count and the single elements. -/
theorem byte_list_partial (s : Sch) (bs : Bytes) (h : bs.length < 4294967296) :
    (CNode.fromBytes bs).listLen = some bs.length ∧
    ∀ (i : Nat) (b : UInt8), bs[i]? = some b →
      ∃ e, (CNode.fromBytes bs).at_ s i = some (.ok e) ∧ CNode.scalar 1 (some e) = some b.toNat := by
  have hl : (CNode.fromBytes bs).listLen = some bs.length := by
    have hH : Holds (CNode.fromBytes bs).io 0 (putLE 4 bs.length) := by
      refine holds_flat ?_ ?_ (by rw [List.length_append, putLE_length]; omega)
      · intro h; have := congrArg List.length h; rw [putLE_length] at this; simp at this
      · intro k hk
        rw [Nat.zero_add, List.getElem?_append_left hk]
    unfold CNode.listLen CNode.u32
    have := holds_getN hH
    rw [Nat.mod_eq_of_lt (by omega)] at this
    exact this
  refine ⟨hl, ?_⟩
  intro i b hb
  have hlt := (List.getElem?_eq_some_iff.mp hb).1
  have hat := at_direct (dirElt_byte s) (c := CNode.fromBytes bs) (t := "byte".toList) rfl hl (by simp [CNode.fromBytes]) i
  rw [if_neg (by omega)] at hat
  refine ⟨_, hat, ?_⟩
  have hpos : ((CNode.fromBytes bs).vi.pos + (i : Int) * ((1 : Nat) : Int)).toNat = 4 + i := by
    simp only [CNode.fromBytes]; omega
  unfold CNode.scalar
  simp only
  rw [hpos]
  have hH : Holds (CNode.fromBytes bs).io (4 + i) [b] := by
    refine holds_flat (by simp) ?_ (by rw [List.length_append, putLE_length, List.length_singleton]; omega)
    intro k hk
    have hk0 : k = 0 := by simpa using hk
    subst hk0
    rw [List.getElem?_append_right (by rw [putLE_length]; omega), putLE_length, Nat.add_zero, Nat.add_sub_cancel_left]
    exact hb
  have := holds_getN' hH
  simp only [List.length_singleton] at this
  rw [this]
  simp [leVal]

/-- C56 is violated: `Bytes()` of a list made by `FromByteList` panics (its node size is -1). -/
theorem byte_list_fails : ∀ bs : Bytes, CNode.bytes (some (CNode.fromBytes bs)) = none := by
  intro bs; rfl

end Fbs.Props
