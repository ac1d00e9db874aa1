import Verif.Access
import Verif.Props.TableNest
import Verif.Props.Message
/-!
# C85, C86, C87: the generated code around nodes
-/

namespace Fbs.Props
open Fbs CNode

/-! ## C85: reading a field leaves the table alone -/

/-- C85: the accessor of a field that is present returns it and changes nothing. -/
theorem getter_present (s : Sch) (fuel : Nat) (c n : CNode) (idx : Int) (r : Res) (h : c.fieldAt s idx = some (some n)) :
    c.getter s fuel idx r = some (c, some n) := by
  unfold CNode.getter
  rw [h]; rfl

/-- C85: accessors of scalars, byte vectors and vectors of scalars (results `CommonNode` and `List`) change
nothing, whether the field is present or not; they panic exactly when `FieldAt` does. -/
theorem getter_unnamed (s : Sch) (fuel : Nat) (c : CNode) (idx : Int) (hn : (c.fieldT s idx).tname ≠ [])
    (hu : isFieldUnion (c.fieldT s idx).grp = false) :
    c.getter s fuel idx .common = (c.fieldAt s idx).map fun n => (c, n) := by
  unfold CNode.getter
  cases h : c.fieldAt s idx with
  | none => rfl
  | some o =>
    cases o with
    | some n => rfl
    | none =>
      have hst : c.isSameType s idx { name := [], io := Base.new .nil, pos := 0 } = false := by
        unfold CNode.isSameType
        rw [if_neg hn, hu]; rfl
      simp only [Option.bind_eq_bind, Option.bind_some, CNode.fillField, hst]
      rw [if_pos (Or.inr trivial)]
      simp only [Option.bind_some, h]
      rfl

/-- A fresh struct is an admissible value. -/
theorem initStruct_src (s : Sch) (nm : Name) (i : Nat) (fd : FieldT) (hfd : (s.fields nm)[i]? = some fd) (hg : fd.grp = ftStruct)
    (hst : s.isStruct fd.tname = true) (h4 : 4 ≤ sumSize (s.fields fd.tname)) {g : Nat} (hgt : getTypeGroup s.toReg fd.tname = some g)
    (hd : CNode.directSize s fd.tname = some (some (sumSize (s.fields fd.tname)))) :
    ∃ f, CNode.init s fd.tname = some f ∧ InlSrc s nm i f (zeros (sumSize (s.fields fd.tname))) := by
  have hz : copyAt (zeros (sumSize (s.fields fd.tname) + 0)) 0 (putLE 4 0) = zeros (sumSize (s.fields fd.tname)) := by
    obtain ⟨m, hm⟩ : ∃ m, sumSize (s.fields fd.tname) = 4 + m := ⟨_, (Nat.add_sub_cancel' h4).symm⟩
    rw [hm]
    simp [copyAt, zeros, putLE, List.replicate_add]
  refine ⟨{ name := fd.tname, io := Base.new ⟨zeros (sumSize (s.fields fd.tname)), zeros 0⟩, pos := 0 }, ?_, fd, hfd, Or.inl hg, rfl, ?_, ?_, fun _ => hd⟩
  · unfold CNode.init
    rw [hgt]
    simp only [Option.bind_eq_bind, Option.bind_some, hst, if_true]
    rw [if_neg (by omega)]
    simp only [hz]
    rfl
  · unfold fieldWidth; rw [if_pos hg]; simp [zeros]
  · refine holds_flat ?_ ?_ ?_
    · intro h; have := congrArg List.length h; simp [zeros] at this; omega
    · intro k hk; simp
    · simp

/-- C85 for struct fields of tables built by the API: the accessor of an absent struct field stores a struct of
zeros; every other field reads as before. -/
theorem getter_struct_partial (s : Sch) (nm : Name) (hs : SmallTable s nm) (fuel : Nat) (ops : List Setting)
    (hops : ∀ o ∈ ops, InlSrc s nm o.field o.node o.val) (i : Nat) (fd : FieldT) (hfd : (s.fields nm)[i]? = some fd)
    (hg : fd.grp = ftStruct) (hst : s.isStruct fd.tname = true) (h4 : 4 ≤ sumSize (s.fields fd.tname)) {g : Nat}
    (hgt : getTypeGroup s.toReg fd.tname = some g) (hd : CNode.directSize s fd.tname = some (some (sumSize (s.fields fd.tname))))
    (habs : lastSet ops i = none) :
    ∃ c c' n, build s (fuel + 1) nm ops = some c ∧ c.getter s (fuel + 1) i (.node fd.tname) = some (c', some n) ∧
      n.name = fd.tname ∧ (∀ req, (n.io.R n.pos req).data.take (sumSize (s.fields fd.tname)) = zeros (sumSize (s.fields fd.tname))) ∧
      ∀ j, j < (s.fields nm).length → j ≠ i → FieldRead s nm c j (lastSet ops j) ∧ FieldRead s nm c' j (lastSet ops j) := by
  obtain ⟨g0, hg1, hg2⟩ := hs.notList
  obtain ⟨c0, h0, r0⟩ := init_rep hs.ok hg1 hg2
  obtain ⟨c, h1, r1⟩ := inline_run hs.ok fuel r0 ops hops
  obtain ⟨v, hv, hsrc⟩ := initStruct_src s nm i fd hfd hg hst h4 hgt hd
  obtain ⟨c', h2, r2⟩ := set_inline hs.ok (fuel := fuel) r1 hsrc
  have hi := (List.getElem?_eq_some_iff.mp hfd).1
  have hcur : (fun i => (lastSet ops i).or ((fun _ => none : Nat → Option Bytes) i)) i = none := by simp [habs]
  obtain ⟨n, n1, n2, n3⟩ := rep_inline hs.ok r2 hfd (Or.inl hg) (w := zeros (sumSize (s.fields fd.tname))) (by simp)
  refine ⟨c, c', n, ?_, ?_, n2, fun req => ?_, ?_⟩
  · unfold build; rw [h0]; exact h1
  · unfold CNode.getter
    rw [rep_absent hs.ok r1 hi hcur]
    simp only [Option.bind_eq_bind, Option.bind_some, CNode.fillField, hv, h2, n1, pure]
  · have := (holds_read n3 req).2
    rwa [show (zeros (sumSize (s.fields fd.tname))).length = sumSize (s.fields fd.tname) by simp [zeros]] at this
  · intro j hj hji
    have hgj : lastSet ops j ≠ none → InlGrp ((s.fields nm)[j]).grp := lastSet_src hops hj
    exact ⟨rep_read hs.ok r1 hj (by simp) hgj, rep_read hs.ok r2 hj (by simp [hji]) hgj⟩

/-- Table `PP { a: int32; t: TT; b: [byte]; l: [TT]; u: UU; s: SS; }`. -/
def accSch : Sch where
  fields := fun n => if n = "TT".toList then [⟨"Int16".toList, ftBasic2, some .int16⟩, ⟨"Int64".toList, ftBasic8, some .int64⟩]
    else if n = "SS".toList then [⟨"Int32".toList, ftBasic4, some .int32⟩]
    else if n = "PP".toList then [⟨"Int32".toList, ftBasic4, some .int32⟩, ⟨"TT".toList, ftTable, none⟩, ⟨"[]byte".toList, ftSlice ||| ftBasic1, none⟩,
      ⟨"[]TT".toList, ftSlice ||| ftTable, none⟩, ⟨"UU".toList, ftUnion, none⟩, ⟨"SS".toList, ftStruct, none⟩] else []
  unions := fun n => if n = "UU".toList then some ["TT".toList] else none
  isStruct := fun n => n = "SS".toList

/-- A `PP` with the number 9 and the string "ABC". -/
def accNode : Go CNode := build accSch 9 "PP".toList [⟨0, fromScalar "Int32".toList 4 9, putLE 4 9⟩, ⟨2, fromBytes [65, 66, 67], []⟩]

/-- The string of a `PP`. -/
def accString (c : CNode) : Option Bytes := do let n ← c.fieldAt accSch 2; bytes n

/-- C85 is violated for table fields: after reading the absent field `t` the string can no longer be read. -/
theorem getter_table_fails :
    (do let c ← accNode
        let (c', _) ← c.getter accSch 9 1 (.node "TT".toList)
        return (accString c, accString c')) = some (some [65, 66, 67], none) := by decide +kernel

/-- C85 is violated for lists: after reading the absent list `l` the string is empty. -/
theorem getter_list_fails :
    (do let c ← accNode
        let (c', _) ← c.getter accSch 9 3 (.list "[]TT".toList)
        return (accString c, accString c')) = some (some [65, 66, 67], some []) := by decide +kernel

/-- C85 is violated for unions: reading an absent union field panics, whatever the table is. -/
theorem getter_union_fails (s : Sch) (fuel : Nat) (c : CNode) (i : Nat) (fd : FieldT) (hfd : (s.fields c.name)[i]? = some fd)
    (h : c.fieldAt s i = some none) : c.getter s fuel i (.union fd.tname) = none := by
  have hi := (List.getElem?_eq_some_iff.mp hfd).1
  unfold CNode.getter
  rw [h]
  have hst : c.isSameType s i { name := fd.tname, io := Base.new .nil, pos := 0 } = true := by
    have h0 : ¬ ((i : Int) < 0) := by omega
    have h1 : c.fieldT s i = fd := by simp [CNode.fieldT, h0, hfd]
    unfold CNode.isSameType
    rw [if_pos (by rw [h1])]
  simp only [Option.bind_eq_bind, Option.bind_some, CNode.fillField, hst]
  rw [if_neg (by simp; omega)]
  rfl

-- the hypotheses can be met
example : (do let c ← accNode; c.fieldAt accSch 4).map Option.isNone = some true := by decide +kernel
example : (do let c ← accNode; let n ← c.fieldAt accSch 0; return n.isSome) = some true := by decide +kernel
example (c : CNode) (h : c.name = "PP".toList) : (c.fieldT accSch 0).tname ≠ [] ∧ isFieldUnion (c.fieldT accSch 0).grp = false := by
  have : c.fieldT accSch 0 = ⟨"Int32".toList, ftBasic4, some .int32⟩ := by unfold CNode.fieldT; rw [h]; rfl
  rw [this]; decide
example : SmallTable accSch "PP".toList where
  notStruct := by decide
  notList := ⟨ftTable, by decide, by decide⟩
  few := by decide
  name := by decide
  small := by decide
example : accSch.isStruct "SS".toList = true ∧ 4 ≤ sumSize (accSch.fields "SS".toList) ∧ getTypeGroup accSch.toReg "SS".toList = some ftStruct ∧
    CNode.directSize accSch "SS".toList = some (some (sumSize (accSch.fields "SS".toList))) := by decide

/-! ## C86: chained messages in memory -/

/-- C86 is violated: `HasNext` is false whenever the buffer is long enough to hold another message (even just
its root offset) behind the one at hand. -/
theorem hasNext_missed_fails (s : Sch) (fuel : Nat) (c : CNode) (n : Int) (h : c.len s fuel = some n) (hl : n ≤ c.io.lenBuf + 4) :
    c.hasNext s fuel = some false := by
  unfold CNode.hasNext
  rw [h]
  simp only [Option.bind_eq_bind, Option.bind_some, pure, Option.some.injEq, decide_eq_false_iff_not]
  omega

/-- C86: what `HasNext` says about a buffer that ends with the message at hand: there is "another" one when the
length is 1, 2 or 3 above a multiple of 8. -/
theorem hasNext_alone_fails (s : Sch) (fuel : Nat) (c : CNode) (i : VInfo) (h : infoF s fuel (some c) = some i) (h0 : 0 ≤ i.pos + i.size)
    (hl : (c.io.lenBuf : Int) = i.pos + i.size) :
    c.hasNext s fuel = some (decide (1 ≤ c.io.lenBuf % 8 ∧ c.io.lenBuf % 8 ≤ 3)) := by
  unfold CNode.hasNext CNode.len
  rw [h]
  simp only [Option.bind_eq_bind, Option.bind_some]
  rw [← hl, show (c.io.lenBuf : Int).tmod 8 = ((c.io.lenBuf % 8 : Nat) : Int) by rw [Int.tmod_eq_emod_of_nonneg (by omega)]; omega]
  split <;> simp only [pure, Option.bind_some, Option.some.injEq, decide_eq_decide] <;> omega

/-- C86 is violated: the message of `accNode` (43 bytes) alone in its buffer has a next message, twice in a row
in one buffer it has none. -/
theorem hasNext_fails :
    (do let c ← accNode
        let d ← c.finish
        let r ← openByBuf "PP".toList ⟨d, []⟩
        let t ← openByBuf "PP".toList ⟨d ++ d, []⟩
        return (d.length, ← r.hasNext accSch 9, ← t.hasNext accSch 9)) = some (43, true, false) := by decide +kernel

/-- C86 is violated: `Next` on a buffer in memory never delivers another message: it returns the node itself or
panics. -/
theorem next_memory_fails (s : Sch) (fuel : Nat) (c : CNode) : c.rootNext s fuel = some c ∨ c.rootNext s fuel = none := by
  have key : ∀ sp : Bytes, getLE 4 ((Base.new ⟨[], sp⟩).R 0 4).data = none := by
    intro sp
    simp [Base.R, Base.writerR, Base.readerR, Base.new, Slice.len, getLE, lastIndexOf, Slice.nil]
  unfold CNode.rootNext
  cases hl : c.len s fuel with
  | none => right; rfl
  | some n =>
    simp only [Option.bind_eq_bind, Option.bind_some]
    by_cases h1 : (c.io.lenBuf : Int) < n
    · left; rw [if_pos h1]; rfl
    · right
      rw [if_neg h1]
      by_cases h2 : n < 0
      · rw [if_pos h2]; rfl
      · rw [if_neg h2]
        by_cases h3 : c.io.bytes.len > n.toNat
        · rw [if_pos h3]
          simp only [Slice.takeTo, Nat.zero_le, if_true, List.take_zero, Option.bind_some, key, Option.bind_none]
        · rw [if_neg h3]
          unfold Slice.takeTo
          by_cases h4 : n.toNat ≤ c.io.bytes.cap
          · rw [if_pos h4]
            simp only [Option.bind_some, Slice.dropFrom]
            have h5 : (c.io.bytes.arr.take n.toNat).length = n.toNat := by
              rw [List.length_take]; unfold Slice.arr; rw [List.length_append]; unfold Slice.cap at h4; omega
            rw [if_pos (by unfold Slice.len; simp only; omega)]
            rw [List.drop_of_length_le (by omega)]
            simp only [Option.bind_some, key, Option.bind_none]
          · rw [if_neg h4]; rfl

/-! ## C87: the generated `Equal` -/

/-- C87 is violated: the generated `Equal` does not look at the values of scalars: any two tables whose fields
are scalars (all readable, present or not) are equal. -/
theorem genEqual_scalars_fails (s : Sch) (fuel : Nat) (c d : CNode) (_hn : c.name = d.name)
    (h : ∀ i, i < genCount s c.name → s.fields (c.fieldT s i).tname = [] ∧ (∃ f, c.fieldAt s i = some f ∧ ∀ n, f = some n → n.vi.pos ≤ 0) ∧
      ∃ g, d.fieldAt s i = some g) :
    c.genEqual s (fuel + 2) d = some true := by
  have key : ∀ n i, i + n ≤ genCount s c.name → genEqualFrom s (fuel + 2) c d i n = some true := by
    intro n
    induction n with
    | zero => intros; rfl
    | succ n ih =>
      intro i hi
      obtain ⟨h1, ⟨f, h2, h3⟩, ⟨g, h4⟩⟩ := h i (by omega)
      have he : equalF s (fuel + 2) ((c.fieldT s i).tname, f) ((d.fieldT s i).tname, g) = some true := by
        simp only [equalF]
        cases f with
        | none => simp only [h1, List.length_nil]; simp [equalFields]
        | some n0 => 
          simp only
          rw [if_neg (by have := h3 n0 rfl; omega), h1]
          simp [equalFields]
      simp only [genEqualFrom, h2, h4, Option.bind_eq_bind, Option.bind_some, he, if_true]
      exact ih (i + 1) (by omega)
  exact key _ 0 (by omega)

/-- C87 is violated for fields behind the scalars, too: only as many fields are compared as there are scalar
fields, so two tables with different strings are equal. -/
theorem genEqual_string_fails :
    (do let c ← accNode
        let d ← build accSch 9 "PP".toList [⟨0, fromScalar "Int32".toList 4 8, putLE 4 8⟩, ⟨2, fromBytes [90], []⟩]
        let e ← c.genEqual accSch 9 d
        return (accString c, accString d, e)) = some (some [65, 66, 67], some [90], true) := by decide +kernel

end Fbs.Props
