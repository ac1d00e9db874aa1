import Verif.TableSet
import Verif.FbSpec
import Mathlib.Data.List.Induction
/-!
# Properties of creating, editing and comparing tables (C34-C37, C45, C74)
-/

namespace Fbs.Props
open Fbs

/-! ## C34 a fresh table -/

/-- `nm` is a table with few enough fields for a 16-bit vtable length. -/
structure TableType (s : Sch) (nm : Name) : Prop where
  notStruct : s.isStruct nm = false
  notList : ∃ g, getTypeGroup s.toReg nm = some g ∧ isFieldSlice g = false
  few : 4 + 2 * (s.fields nm).length < 65536

/-- C34: the buffer of a fresh table is a legal flatbuffers table, at the end of a vtable with one slot per
field, of length 4, in which no field is present; and the API reports every field absent. -/
theorem fresh_table (s : Sch) (nm : Name) (h : TableType s nm) :
    ∃ c, CNode.init s nm = some c ∧ c.io.diffs = [] ∧ Fb.TableOk c.io.bytes.data c.pos ∧
      Fb.vtablePos c.io.bytes.data c.pos = 0 ∧
      Fb.vtableLen c.io.bytes.data c.pos = 4 + 2 * (s.fields nm).length ∧
      Fb.le c.io.bytes.data 2 2 = 4 ∧ c.io.bytes.data.length = c.pos + 4 ∧
      (∀ i, Fb.fieldPos c.io.bytes.data c.pos i = none) ∧
      ∀ i, i < (s.fields nm).length → c.fieldAt s i = some none := by
  obtain ⟨g, hg, hgs⟩ := h.notList
  have hfew := h.few
  obtain ⟨c, h1, h2, h3, h4, -, h5⟩ := init_TI h.notStruct h.few hg hgs
  have hl := initBytes_length (s.fields nm).length
  have hget := initBytes_get (s.fields nm).length
  -- reading the header through the specification
  have hle : ∀ k pos w, (∀ j, j < k → (initBytes (s.fields nm).length)[pos + j]? = w[j]?) → w.length = k →
      pos + k ≤ (initBytes (s.fields nm).length).length → Fb.le (initBytes (s.fields nm).length) k pos = leVal w := by
    intro k pos w hw hk hlen
    unfold Fb.le
    congr 1
    apply List.ext_getElem?
    intro j
    rw [List.getElem?_take, List.getElem?_drop]
    split
    · exact hw j ‹_›
    · rw [List.getElem?_eq_none (by omega)]
  have hso : Fb.le (initBytes (s.fields nm).length) 4 (4 + 2 * (s.fields nm).length) = 4 + 2 * (s.fields nm).length := by
    rw [hle 4 _ (putLE 4 (4 + 2 * (s.fields nm).length)) ?_ (putLE_length _ _) (by omega), leVal_putLE,
      Nat.mod_eq_of_lt (by omega)]
    intro j hj
    rw [hget, if_neg (by omega), if_neg (by omega), if_pos (by omega)]
    congr 1; omega
  have hvl : Fb.le (initBytes (s.fields nm).length) 2 0 = 4 + 2 * (s.fields nm).length := by
    rw [hle 2 _ (putLE 2 (4 + 2 * (s.fields nm).length)) ?_ (putLE_length _ _) (by omega), leVal_putLE,
      Nat.mod_eq_of_lt (by omega)]
    intro j hj
    rw [hget, if_neg (by omega), if_pos (by omega), Nat.zero_add]
  have htl : Fb.le (initBytes (s.fields nm).length) 2 2 = 4 := by
    rw [hle 2 _ (putLE 2 4) ?_ (putLE_length _ _) (by omega), leVal_putLE]
    intro j hj
    rw [hget, if_pos (by omega)]
    congr 1; omega
  have hsl : ∀ i, i < (s.fields nm).length → Fb.le (initBytes (s.fields nm).length) 2 (4 + 2 * i) = 0 := by
    intro i hi
    rw [hle 2 _ (putLE 2 0) ?_ (putLE_length _ _) (by omega), leVal_putLE]
    intro j hj
    rw [hget, if_neg (by omega), if_neg (by omega), if_neg (by omega), if_pos (by omega)]
    rcases (show j = 0 ∨ j = 1 by omega) with rfl | rfl <;> decide
  have hvp : Fb.vtablePos (initBytes (s.fields nm).length) (4 + 2 * (s.fields nm).length) = 0 := by
    unfold Fb.vtablePos Fb.soffset
    rw [hso, if_pos (by omega)]; omega
  have hvl' : Fb.vtableLen (initBytes (s.fields nm).length) (4 + 2 * (s.fields nm).length) = 4 + 2 * (s.fields nm).length := by
    unfold Fb.vtableLen; rw [hvp]; exact hvl
  refine ⟨c, h1, h3, ?_, ?_, ?_, ?_, ?_, ?_, ?_⟩
  · rw [h2, h4]; unfold Fb.TableOk
    rw [hvp, hvl']
    simp only [Int.toNat_zero]
    omega
  · rw [h2, h4]; exact hvp
  · rw [h2, h4]; exact hvl'
  · rw [h2]; exact htl
  · rw [h2, h4]; omega
  · intro i
    rw [h2, h4]; unfold Fb.fieldPos
    rw [hvl', hvp]
    split
    · simp only [Int.toNat_zero]
      rw [Nat.zero_add, hsl i (by omega), if_pos rfl]
    · rfl
  · intro i hi
    exact h5.absent h.notStruct hi rfl

/-! ## C35, C36 setting fields -/

/-- One call `SetFieldAt(field, node)`; `val` is the value `node` holds. -/
structure Setting where
  field : Nat
  node  : CNode
  val   : Bytes

/-- A sequence of calls; `none` if one panics or returns an error. -/
def runSets (s : Sch) (fuel : Nat) : CNode → List Setting → Option CNode
  | c, [] => some c
  | c, o :: l =>
    match c.setFieldAt s fuel o.field o.node with
    | some (c', none) => runSets s fuel c' l
    | _ => none

/-- The value last set for field `i`. -/
def lastSet (ops : List Setting) (i : Nat) : Option Bytes :=
  ((ops.filter (fun o => o.field = i)).getLast?).map Setting.val

/-- A schema type whose fixed part fits the 16-bit offsets of a vtable. -/
structure SmallTable (s : Sch) (nm : Name) : Prop extends TableType s nm where
  name : 2 ≤ nm.length ∧ nm.take 2 ≠ "[]".toList
  small : 4 + ((s.fields nm).map (fieldWidth s)).sum < 65536

theorem SmallTable.ok {s : Sch} {nm : Name} (h : SmallTable s nm) : SchOk s nm := ⟨h.name, h.notStruct, h.few, h.small⟩

theorem lastSet_nil (i : Nat) : lastSet [] i = none := rfl

theorem lastSet_snoc (ops : List Setting) (o : Setting) :
    lastSet (ops ++ [o]) = fun j => if j = o.field then some o.val else lastSet ops j := by
  funext j
  unfold lastSet
  rw [List.filter_append]
  by_cases h : j = o.field
  · rw [if_pos h, List.filter_cons_of_pos (by simp [h])]
    simp
  · rw [if_neg h, List.filter_cons_of_neg (by simp; exact fun e => h e.symm)]
    simp

theorem runSets_append (s : Sch) (fuel : Nat) (c : CNode) (l1 l2 : List Setting) :
    runSets s fuel c (l1 ++ l2) = (runSets s fuel c l1).bind (fun c => runSets s fuel c l2) := by
  induction l1 generalizing c with
  | nil => rfl
  | cons o l ih =>
    simp only [List.cons_append, runSets]
    cases h : c.setFieldAt s fuel o.field o.node with
    | none => rfl
    | some r =>
      obtain ⟨c', e⟩ := r
      cases e with
      | none => exact ih c'
      | some e => rfl

theorem inline_run {cel : Prop} {s : Sch} {nm : Name} (hs : SchOk s nm) (fuel : Nat) {vec : Option (Nat × TI.Tail)} {c : CNode}
    {cur : Nat → Option Bytes} (h : RepG cel s nm c cur vec) (ops : List Setting)
    (hops : ∀ o ∈ ops, InlSrc s nm o.field o.node o.val) :
    ∃ c', runSets s (fuel + 1) c ops = some c' ∧
      RepG cel s nm c' (fun i => (lastSet ops i).or (cur i)) vec := by
  induction ops using List.reverseRecOn with
  | nil => exact ⟨c, rfl, by simpa [lastSet] using h⟩
  | append_singleton l o ih =>
    obtain ⟨c1, h1, r1⟩ := ih (fun o ho => hops o (List.mem_append_left _ ho))
    obtain ⟨c2, h2, r2⟩ := set_inline hs (fuel := fuel) r1 (hops o (by simp))
    refine ⟨c2, ?_, ?_⟩
    · rw [runSets_append, h1]
      simp only [Option.bind_some, runSets, h2]
    · rw [lastSet_snoc]
      have : (fun i => ((fun j => if j = o.field then some o.val else lastSet l j) i).or (cur i)) =
          (fun j => if j = o.field then some o.val else (lastSet l j).or (cur j)) := by
        funext j; simp only; split <;> simp
      rw [this]; exact r2

/-- C35: on a fresh table, any sequence of settings of scalar (or struct) fields succeeds; afterwards every
field never set is absent, and every other field reads exactly the value last set for it. -/
theorem scalar_settings (s : Sch) (nm : Name) (hs : SmallTable s nm) (fuel : Nat) (ops : List Setting)
    (hops : ∀ o ∈ ops, InlSrc s nm o.field o.node o.val) :
    ∃ c0 c, CNode.init s nm = some c0 ∧ runSets s (fuel + 1) c0 ops = some c ∧
      ∀ i, i < (s.fields nm).length →
        (lastSet ops i = none → c.fieldAt s i = some none) ∧
        (∀ w, lastSet ops i = some w → ∃ nd, c.fieldAt s i = some (some nd) ∧
          CNode.scalar w.length (some nd) = some (leVal w) ∧
          ∀ req, (nd.io.R nd.pos req).data.take w.length = w) := by
  obtain ⟨g, hg, hgs⟩ := hs.notList
  obtain ⟨c0, h0, r0⟩ := init_rep hs.ok hg hgs
  obtain ⟨c, h1, r1⟩ := inline_run hs.ok fuel r0 ops hops
  refine ⟨c0, c, h0, h1, ?_⟩
  intro i hi
  constructor
  · intro hn
    exact rep_absent hs.ok r1 hi (by simp [hn])
  · intro w hw
    obtain ⟨o, ho, hof⟩ : ∃ o ∈ ops, o.field = i := by
      unfold lastSet at hw
      obtain ⟨o, ho, -⟩ := Option.map_eq_some_iff.mp hw
      have := List.mem_of_getLast? ho
      rw [List.mem_filter] at this
      exact ⟨o, this.1, by simpa using this.2⟩
    obtain ⟨fd, hfd, hgr, -⟩ := hops o ho
    rw [hof] at hfd
    obtain ⟨nd, n1, n2, n3⟩ := rep_inline hs.ok r1 hfd hgr (w := w) (by simp [hw])
    refine ⟨nd, n1, ?_, fun req => (holds_read n3 req).2⟩
    exact holds_getN' n3

/-- C36 for one byte vector among any number of scalar settings: every field, set before or after the
vector, reads the value last set for it.  (Missing: a second variable-length field, see below, and resetting
the vector.) -/
theorem vector_setting_partial (s : Sch) (nm : Name) (hs : SmallTable s nm) (fuel : Nat) (pre post : List Setting)
    (o : Setting) (hpre : ∀ o ∈ pre, InlSrc s nm o.field o.node o.val)
    (hpost : ∀ o ∈ post, InlSrc s nm o.field o.node o.val)
    (ho : VecSrc s (fuel + 1) nm o.field o.node o.val) (hlen : o.val.length < 4294967296) :
    ∃ c0 c, CNode.init s nm = some c0 ∧ runSets s (fuel + 1) c0 (pre ++ o :: post) = some c ∧
      (∃ nd, c.fieldAt s o.field = some (some nd) ∧ CNode.bytes (some nd) = some o.val) ∧
      ∀ i, i < (s.fields nm).length → i ≠ o.field →
        (lastSet (pre ++ post) i = none → c.fieldAt s i = some none) ∧
        (∀ w, lastSet (pre ++ post) i = some w → ∃ nd, c.fieldAt s i = some (some nd) ∧
          CNode.scalar w.length (some nd) = some (leVal w) ∧
          ∀ req, (nd.io.R nd.pos req).data.take w.length = w) := by
  obtain ⟨g, hg, hgs⟩ := hs.notList
  obtain ⟨c0, h0, r0⟩ := init_rep hs.ok hg hgs
  obtain ⟨c1, h1, r1⟩ := inline_run hs.ok fuel r0 pre hpre
  obtain ⟨c2, h2, r2⟩ := set_vector hs.ok (fuel := fuel + 1) r1 ho
  obtain ⟨c3, h3, r3⟩ := inline_run hs.ok fuel r2 post hpost
  refine ⟨c0, c3, h0, ?_, ?_, ?_⟩
  · rw [runSets_append, h1]
    simp only [Option.bind_some, runSets, h2]
    exact h3
  · obtain ⟨fd, hfd, hg, -⟩ := ho
    exact rep_vector hs.ok r3 hfd hg hlen
  · intro i hi hne
    have hcur : (fun i => (lastSet post i).or ((fun j => if j = o.field then some o.val else
        (lastSet pre j).or none) i)) i = lastSet (pre ++ post) i := by
      simp only [if_neg hne, Option.or_none]
      unfold lastSet
      rw [List.filter_append, List.getLast?_append]
      cases (List.filter (fun o => decide (o.field = i)) post).getLast? with
      | none => rfl
      | some x => rfl
    constructor
    · intro hn
      exact rep_absent hs.ok r3 hi (hcur.trans hn)
    · intro w hw
      obtain ⟨o', ho', hof⟩ : ∃ o ∈ pre ++ post, o.field = i := by
        unfold lastSet at hw
        obtain ⟨o, ho, -⟩ := Option.map_eq_some_iff.mp hw
        have := List.mem_of_getLast? ho
        rw [List.mem_filter] at this
        exact ⟨o, this.1, by simpa using this.2⟩
      have hsrc : InlSrc s nm o'.field o'.node o'.val := by
        rcases List.mem_append.mp ho' with h | h
        · exact hpre o' h
        · exact hpost o' h
      obtain ⟨fd, hfd, hgr, -⟩ := hsrc
      rw [hof] at hfd
      obtain ⟨nd, n1, n2, n3⟩ := rep_inline hs.ok r3 hfd hgr (w := w) (hcur.trans hw)
      exact ⟨nd, n1, holds_getN' n3, fun req => (holds_read n3 req).2⟩

/-- A scalar made by `FromInt32` etc. is an admissible value. -/
theorem fromScalar_src (s : Sch) (nm : Name) (i k v : Nat) (fd : FieldT) (hk : 0 < k) (hfd : (s.fields nm)[i]? = some fd)
    (hg : fd.grp = ftBasic1 ∨ fd.grp = ftBasic2 ∨ fd.grp = ftBasic4 ∨ fd.grp = ftBasic8) (hsz : fd.size = k) :
    InlSrc s nm i (CNode.fromScalar fd.tname k v) (putLE k v) := by
  refine ⟨fd, hfd, Or.inr hg, rfl, ?_, ?_, ?_⟩
  · rw [putLE_length]; unfold fieldWidth
    rw [if_neg (by rcases hg with h | h | h | h <;> rw [h] <;> decide),
      if_neg (by rcases hg with h | h | h | h <;> rw [h] <;> decide), hsz]
  · have h := holds_updateU_same (b := Base.new ⟨zeros k, []⟩) (off := 0) (w := putLE k v)
      (by intro h; have := putLE_length k v; rw [h] at this; simp at this; omega)
      ⟨fun d hd => (by cases hd), by rw [putLE_length]; simp [Base.new, Slice.len, zeros]⟩
    rw [putLE_length] at h; exact h
  · intro h; rw [h] at hg; exact absurd hg (by decide)

/-- A vector made by `FromByteList` is an admissible value. -/
theorem fromBytes_src (s : Sch) (nm : Name) (i fuel : Nat) (bs : Bytes) (fd : FieldT) (hfd : (s.fields nm)[i]? = some fd)
    (hg : fd.grp = ftSlice ||| ftBasic1) (hn : fd.tname = "[]byte".toList) (hlen : bs.length < 4294967296) :
    VecSrc s (fuel + 1) nm i (CNode.fromBytes bs) bs := by
  have hH : Holds (CNode.fromBytes bs).io 0 (putLE 4 bs.length ++ bs) := by
    refine holds_flat ?_ ?_ (by simp)
    · intro h; have := congrArg List.length h; rw [List.length_append, putLE_length] at this; simp at this
    · intro k hk; rw [Nat.zero_add]
  refine ⟨fd, hfd, hg, hn.symm, by simp [CNode.fromBytes], rfl, by simpa [CNode.fromBytes] using hH, Or.inr ?_⟩
  have hl : (CNode.fromBytes bs).listLen = some bs.length := by
    have hh := holds_sub hH 0 4 (by omega) (by rw [List.length_append, putLE_length]; omega)
    rw [List.drop_zero, List.take_append_of_le_length (by rw [putLE_length]; exact Nat.le_refl _),
      List.take_of_length_le (by rw [putLE_length]; exact Nat.le_refl _), Nat.add_zero] at hh
    unfold CNode.listLen CNode.u32
    have := holds_getN hh
    rw [Nat.mod_eq_of_lt (by omega)] at this
    exact this
  unfold infoSliceF
  rw [hl]
  have hname : (CNode.fromBytes bs).name = "[]byte".toList := rfl
  have hvi : (CNode.fromBytes bs).vi = { pos := 4, size := bs.length, vlen := bs.length % 4294967296 } := rfl
  rw [hname, hvi, Nat.mod_eq_of_lt hlen]
  have hgt : ∃ g, getTypeGroup s.toReg ("[]byte".toList.drop 2) = some g ∧ isFieldBasicType g = true := ⟨_, rfl, by decide⟩
  obtain ⟨g, hg1, hg2⟩ := hgt
  have hs1 : sizeOfName ("[]byte".toList.drop 2) = 1 := by decide
  simp only
  rw [hg1, hs1]
  simp only [Option.bind_eq_bind, Option.bind_some, hg2, if_true, pure]
  rw [if_neg (by decide)]
  refine ⟨_, rfl, ?_⟩
  unfold growInfo
  simp only
  by_cases h0 : bs.length = 0
  · rw [if_pos h0]; simp [h0]
  · rw [if_neg h0, if_pos (by omega)]; simp only; omega

/-- Table `TT { a: int32; b: [byte]; c: int16; d: [byte]; }`. -/
def editSch : Sch where
  fields := fun n =>
    if n = "TT".toList then [⟨"Int32".toList, ftBasic4, some .int32⟩, ⟨"[]byte".toList, ftSlice ||| ftBasic1, none⟩,
      ⟨"Int16".toList, ftBasic2, some .int16⟩, ⟨"[]byte".toList, ftSlice ||| ftBasic1, none⟩] else []

theorem editSch_ok : SmallTable editSch "TT".toList where
  notStruct := rfl
  notList := ⟨ftTable, by decide, by decide⟩
  few := by decide
  name := by decide
  small := by decide

/-- The hypotheses of C34-C36 are met by this schema and the constructors of the package. -/
example : SmallTable editSch "TT".toList ∧
    InlSrc editSch "TT".toList 0 (CNode.fromScalar "Int32".toList 4 7) (putLE 4 7) ∧
    InlSrc editSch "TT".toList 2 (CNode.fromScalar "Int16".toList 2 9) (putLE 2 9) ∧
    VecSrc editSch 1 "TT".toList 1 (CNode.fromBytes [65, 66]) [65, 66] :=
  ⟨editSch_ok, fromScalar_src _ _ 0 4 7 ⟨"Int32".toList, ftBasic4, some .int32⟩ (by decide) rfl (by decide) rfl,
    fromScalar_src _ _ 2 2 9 ⟨"Int16".toList, ftBasic2, some .int16⟩ (by decide) rfl (by decide) rfl,
    fromBytes_src _ _ 1 0 _ _ rfl rfl rfl (by decide)⟩

/-- C36 is violated: setting the second byte vector of a table replaces the value of the first (both calls
succeed; the first vector is read before and after the second call). -/
theorem vector_setting_fails :
    (do let c0 ← CNode.init editSch "TT".toList
        let (c1, e1) ← c0.setFieldAt editSch 9 1 (CNode.fromBytes [65, 65])
        let f1 ← c1.fieldAt editSch 1
        let b1 ← CNode.bytes f1
        let (c2, e2) ← c1.setFieldAt editSch 9 3 (CNode.fromBytes [66, 66, 66])
        let f2 ← c2.fieldAt editSch 1
        let b2 ← CNode.bytes f2
        return (e1, b1, e2, b2)) = some (none, [65, 65], none, [66, 66, 66]) := by decide +kernel

/-! ## C37 refused settings -/

/-- C37: an index outside the table is refused, and so is a value (with a name) whose type is neither the
declared one nor a member of the declared union, at any index, negative ones included; the node is unchanged. -/
theorem set_refused (s : Sch) (fuel : Nat) (c : CNode) (idx : Int) (f : CNode) :
    (((s.fields c.name).length : Int) ≤ idx → c.setFieldAt s fuel idx f = some (c, some .invalidIndex)) ∧
    (idx < 0 → f.name ≠ [] → c.setFieldAt s fuel idx f = some (c, some .invalidType)) ∧
    (∀ fd, 0 ≤ idx → (s.fields c.name)[idx.toNat]? = some fd → f.name ≠ fd.tname →
      f.name ∉ (s.unions fd.tname).getD [] →
      c.setFieldAt s fuel idx f = some (c, some .invalidType)) := by
  refine ⟨?_, ?_, ?_⟩
  · intro h
    unfold CNode.setFieldAt
    rw [if_pos h]; rfl
  · intro h hn
    unfold CNode.setFieldAt
    have hl : ¬ (((s.fields c.name).length : Int) ≤ idx) := by omega
    have hs : c.isSameType s idx f = false := by
      have hfT : c.fieldT s idx = ⟨[], 0, none⟩ := by unfold CNode.fieldT; rw [if_pos h]
      unfold CNode.isSameType
      rw [hfT, if_neg (fun e => hn e.symm)]
      rfl
    rw [if_neg hl, hs]; rfl
  · intro fd h0 hf hn hu
    unfold CNode.setFieldAt
    have hlt : idx.toNat < (s.fields c.name).length := (List.getElem?_eq_some_iff.mp hf).1
    have hl : ¬ (((s.fields c.name).length : Int) ≤ idx) := by omega
    have hs : c.isSameType s idx f = false := by
      have hfT : c.fieldT s idx = fd := by
        unfold CNode.fieldT; rw [if_neg (by omega), hf]; rfl
      unfold CNode.isSameType
      rw [hfT, if_neg (fun e => hn e.symm)]
      have : ((s.unions fd.tname).getD []).any (fun a => decide (a = f.name)) = false := by
        rw [List.any_eq_false]
        intro a ha
        simp only [decide_eq_true_eq]
        rintro rfl
        exact hu ha
      rw [this, Bool.and_false]
    rw [if_neg hl, hs]; rfl

/-- A struct `SS { a: int32; b: int32; }`. -/
def pairSch : Sch where
  isStruct := fun n => n = "SS".toList
  fields := fun n => if n = "SS".toList then [⟨"Int32".toList, ftBasic4, some .int32⟩, ⟨"Int32".toList, ftBasic4, some .int32⟩] else []

/-- C37 is violated for nameless values: a struct accepts the index -1 and overwrites field 0. -/
theorem set_negative_fails : ∃ (c c' : CNode) (f : CNode), c.setFieldAt pairSch 9 (-1) f = some (c', none) ∧
    CNode.scalar 4 (some c) = some 1 ∧ CNode.scalar 4 (some c') = some 7 :=
  ⟨{ name := "SS".toList, io := Base.new ⟨[1, 0, 0, 0, 2, 0, 0, 0], []⟩, pos := 0 }, _,
    { name := [], io := Base.new ⟨[7, 0, 0, 0], []⟩, pos := 0 }, rfl, by decide +kernel, by decide +kernel⟩

/-! ## C45, C74, C75 equality -/

/-- `c` is a list of scalars with `n` elements according to its buffer. -/
structure ScalarList (s : Sch) (c : CNode) (n : Nat) : Prop where
  ty : ∃ t g, c.name = '[' :: ']' :: t ∧ getTypeGroup s.toReg t = some g ∧ isFieldBasicType g = true ∧ s.fields t = []
  pos : 0 < c.vi.pos
  len : c.listLen = some n

theorem scalarList_at {s : Sch} {c : CNode} {n : Nat} (h : ScalarList s c n) (i : Nat) :
    (n ≤ i → c.at_ s i = some (.error .invalidIndex)) ∧
    (i < n → ∃ e, c.at_ s i = some (.ok e) ∧ e.vi = {} ∧ s.fields e.name = []) := by
  obtain ⟨t, g, hn, hg, hb, hf⟩ := h.ty
  have hp := h.pos
  have hl : c.isList = some true := by
    unfold CNode.isList
    rw [hn]
    rw [if_neg (by rintro ⟨h, -⟩; cases h), if_neg (by simp)]
    rfl
  constructor
  · intro hi
    unfold CNode.at_
    rw [hl, h.len]
    simp only [Option.bind_eq_bind, Option.bind_some, Bool.not_true, Bool.false_eq_true, if_false]
    rw [if_pos (Or.inl (by omega))]
    rfl
  · intro hi
    unfold CNode.at_
    rw [hl, h.len]
    simp only [Option.bind_eq_bind, Option.bind_some, Bool.not_true, Bool.false_eq_true, if_false]
    rw [if_neg (by omega), if_neg (by rw [hn]; simp)]
    have hd : c.name.drop 2 = t := by rw [hn]; rfl
    have hds : CNode.directSize s t = some (some (sizeOfName t)) := by
      unfold CNode.directSize
      rw [hg]
      simp only [Option.bind_eq_bind, Option.bind_some, hb, if_true, pure]
    rw [hd, hg]
    simp only [Option.bind_some, hb, Bool.true_or, if_true]
    rw [hds]
    simp only [Option.bind_some]
    have hnn : (0 : Int) ≤ (i : Int) * (sizeOfName t : Int) := Int.mul_nonneg (by omega) (by omega)
    split
    · rw [if_neg (by omega)]
      exact ⟨_, rfl, rfl, hf⟩
    · rw [if_neg (by omega)]
      exact ⟨_, rfl, rfl, hf⟩

theorem equalList_scalar {s : Sch} {c1 c2 : CNode} {n1 n2 : Nat} (h1 : ScalarList s c1 n1) (h2 : ScalarList s c2 n2)
    (m i k : Nat) (hm : i + m = n1) (hk : m + 3 ≤ k) :
    equalList s k c1 c2 i m = some (decide (n1 ≤ n2 ∨ m = 0)) := by
  induction m generalizing i k with
  | zero =>
    obtain ⟨k, rfl⟩ : ∃ k', k = k' + 1 := ⟨k - 1, by omega⟩
    simp [equalList]
  | succ m ih =>
    obtain ⟨k, rfl⟩ : ∃ k', k = k' + 1 := ⟨k - 1, by omega⟩
    obtain ⟨e1, a1, a2, a3⟩ := (scalarList_at h1 i).2 (by omega)
    unfold equalList
    rw [a1]
    simp only [Option.bind_eq_bind, Option.bind_some]
    by_cases hi : n2 ≤ i
    · rw [(scalarList_at h2 i).1 hi]
      simp only [Option.bind_some, pure]
      rw [decide_eq_false (by omega)]
    · obtain ⟨e2, b1, b2, b3⟩ := (scalarList_at h2 i).2 (by omega)
      rw [b1]
      simp only [Option.bind_some]
      have he : equalF s k (e1.name, some e1) (e2.name, some e2) = some true := by
        obtain ⟨k, rfl⟩ : ∃ k', k = k' + 1 := ⟨k - 1, by omega⟩
        obtain ⟨k, rfl⟩ : ∃ k', k = k' + 1 := ⟨k - 1, by omega⟩
        unfold equalF
        simp only
        rw [a2, a3]
        simp [equalFields]
      rw [he]
      simp only [Option.bind_some, if_true]
      rw [ih (i + 1) k (by omega) (by omega)]
      congr 1
      apply decide_eq_decide.mpr
      omega

/-- What Equal computes on two lists of scalars (of strings, too): only the lengths matter, and a list is
"equal" to every list at least as long. -/
theorem equal_scalar_lists (s : Sch) (c1 c2 : CNode) (n1 n2 k : Nat) (h1 : ScalarList s c1 n1) (h2 : ScalarList s c2 n2)
    (hv : c1.vi.vlen = n1) (hk : n1 + 4 ≤ k) :
    equalF s k (c1.name, some c1) (c2.name, some c2) = some (decide (n1 ≤ n2)) := by
  obtain ⟨k, rfl⟩ : ∃ k', k = k' + 1 := ⟨k - 1, by omega⟩
  unfold equalF
  simp only
  rw [if_pos (by have := h1.pos; omega), hv, equalList_scalar h1 h2 n1 0 k (by omega) (by omega)]
  congr 1
  apply decide_eq_decide.mpr
  omega

/-- C45, reflexivity and symmetry for lists of scalars of the same length. -/
theorem equal_refl_symm_partial (s : Sch) (c1 c2 : CNode) (n k : Nat) (h1 : ScalarList s c1 n) (h2 : ScalarList s c2 n)
    (hv1 : c1.vi.vlen = n) (hv2 : c2.vi.vlen = n) (hk : n + 4 ≤ k) :
    equalF s k (c1.name, some c1) (c1.name, some c1) = some true ∧
    equalF s k (c1.name, some c1) (c2.name, some c2) = equalF s k (c2.name, some c2) (c1.name, some c1) := by
  rw [equal_scalar_lists s c1 c1 n n k h1 h1 hv1 hk, equal_scalar_lists s c1 c2 n n k h1 h2 hv1 hk,
    equal_scalar_lists s c2 c1 n n k h2 h1 hv2 hk]
  simp

theorem fromBytes_list (s : Sch) (bs : Bytes) (hs : s.fields "byte".toList = []) (h : bs.length < 4294967296) :
    ScalarList s (CNode.fromBytes bs) bs.length ∧ (CNode.fromBytes bs).vi.vlen = bs.length := by
  refine ⟨⟨⟨"byte".toList, ftBasic1, rfl, rfl, by decide, hs⟩, by simp [CNode.fromBytes], ?_⟩, Nat.mod_eq_of_lt h⟩
  have hH : Holds (CNode.fromBytes bs).io 0 (putLE 4 bs.length ++ bs) := by
    refine holds_flat ?_ ?_ (by simp)
    · intro h; have := congrArg List.length h; rw [List.length_append, putLE_length] at this; simp at this
    · intro k hk; rw [Nat.zero_add]
  have hh := holds_sub hH 0 4 (by omega) (by rw [List.length_append, putLE_length]; omega)
  rw [List.drop_zero, List.take_append_of_le_length (by rw [putLE_length]; exact Nat.le_refl _),
    List.take_of_length_le (by rw [putLE_length]; exact Nat.le_refl _), Nat.add_zero] at hh
  unfold CNode.listLen CNode.u32
  have := holds_getN hh
  rw [Nat.mod_eq_of_lt (by omega)] at this
  exact this

example : ScalarList {} (CNode.fromBytes [1, 2, 3]) 3 := (fromBytes_list {} [1, 2, 3] rfl (by decide)).1

/-- C45 is violated (symmetry): a proper prefix equals the longer list, not the other way round. -/
theorem equal_symm_fails :
    equalF {} 9 ("[]byte".toList, some (CNode.fromBytes [1])) ("[]byte".toList, some (CNode.fromBytes [1, 2])) = some true ∧
    equalF {} 9 ("[]byte".toList, some (CNode.fromBytes [1, 2])) ("[]byte".toList, some (CNode.fromBytes [1])) = some false := by
  decide +kernel

/-- C74 is violated: lists with different contents are equal. -/
theorem equal_contents_fails : ∀ a b : UInt8,
    equalF {} 9 ("[]byte".toList, some (CNode.fromBytes [a])) ("[]byte".toList, some (CNode.fromBytes [b])) = some true := by
  intro a b
  have h1 := fromBytes_list {} [a] rfl (by simp)
  have h2 := fromBytes_list {} [b] rfl (by simp)
  exact equal_scalar_lists {} _ _ 1 1 9 h1.1 h2.1 h1.2 (by decide)

/-- Node `c` has all its `n` scalar fields, with the given bytes. -/
def AllScalars (s : Sch) (c : CNode) (w : Nat → Bytes) : Prop :=
  ∀ i fd, (s.fields c.name)[i]? = some fd → ScalarGrp' fd.grp ∧ (w i).length = fd.size ∧
    ∃ nd, c.fieldAt s i = some (some nd) ∧ Holds nd.io nd.pos (w i)
where ScalarGrp' (g : Nat) : Prop := isFieldUnion g = false ∧ isFieldBasicType g = true

theorem equalScalar_holds {a b : CNode} {w v : Bytes} (ha : Holds a.io a.pos w) (hb : Holds b.io b.pos v)
    (hl : w.length = v.length) : equalScalar w.length (some a) (some b) = some (decide (w = v)) := by
  have rd : ∀ {c : CNode} {u : Bytes}, Holds c.io c.pos u → ∀ req, ∃ r, c.R c.pos req = some r ∧ u.length ≤ r.len ∧
      ∃ t, r.takeTo u.length = some t ∧ t.data = u := by
    intro c u hu req
    obtain ⟨h1, h2⟩ := holds_read hu req
    refine ⟨c.io.R c.pos req, ?_, h1, ⟨(c.io.R c.pos req).arr.take u.length, (c.io.R c.pos req).arr.drop u.length⟩, ?_, ?_⟩
    · unfold CNode.R Base.Ri
      rw [if_neg (by omega)]; rfl
    · unfold Slice.takeTo
      rw [if_pos (by simp only [Slice.cap, Slice.len] at h1 ⊢; omega)]
    · simp only [Slice.arr]
      simp only [Slice.len] at h1
      rw [List.take_append_of_le_length h1, h2]
  obtain ⟨r1, e1, l1, -⟩ := rd ha 0
  obtain ⟨r2, e2, l2, -⟩ := rd hb 0
  obtain ⟨r3, e3, l3, t3, e3', d3⟩ := rd ha w.length
  obtain ⟨r4, e4, l4, t4, e4', d4⟩ := rd hb v.length
  rw [← hl] at e4 e4'
  unfold equalScalar
  simp only
  rw [e1, e2, e3, e4]
  simp only [Option.bind_eq_bind, Option.bind_some]
  rw [if_neg (by omega), if_neg (by omega), e3', e4']
  simp only [Option.bind_some, pure, d3, d4]
  congr 1
  by_cases hwv : w = v
  · simp [hwv]
  · simp [hwv]

theorem equalFields_scalars {s : Sch} {c1 c2 : CNode} {w v : Nat → Bytes} (hn : c1.name = c2.name)
    (h1 : AllScalars s c1 w) (h2 : AllScalars s c2 v) (m i k : Nat) (hm : i + m = (s.fields c1.name).length) (hk : m + 1 ≤ k) :
    ∃ r, equalFields s k (c1.name, some c1) (c2.name, some c2) i m = some r ∧
      (r = true ↔ ∀ j, i ≤ j → j < (s.fields c1.name).length → w j = v j) := by
  induction m generalizing i k with
  | zero =>
    obtain ⟨k, rfl⟩ : ∃ k', k = k' + 1 := ⟨k - 1, by omega⟩
    refine ⟨true, by simp [equalFields], ?_⟩
    simp only [true_iff]
    intro j h1 h2; omega
  | succ m ih =>
    obtain ⟨k, rfl⟩ : ∃ k', k = k' + 1 := ⟨k - 1, by omega⟩
    have hi : i < (s.fields c1.name).length := by omega
    have hfd : (s.fields c1.name)[i]? = some (s.fields c1.name)[i] := List.getElem?_eq_getElem hi
    obtain ⟨⟨gu, gb⟩, l1, a, fa, ha⟩ := h1 i _ hfd
    obtain ⟨-, l2, b, fb, hb⟩ := h2 i _ (by rw [← hn]; exact hfd)
    have hes := equalScalar_holds ha hb (by omega)
    rw [l1] at hes
    obtain ⟨r, hr, hr'⟩ := ih (i + 1) k (by omega) (by omega)
    unfold equalFields
    simp only [← hn] at hr ⊢
    rw [hfd]
    simp only [Option.getD_some, ne_eq, not_true, if_false, gu, gb, Option.bind_eq_bind, Option.bind_some, Bool.false_eq_true,
      Bool.not_true]
    rw [fa, fb]
    simp only [Option.bind_some]
    rw [hes]
    simp only [Option.bind_some]
    by_cases hw : w i = v i
    · rw [decide_eq_true hw, if_pos rfl, hr]
      refine ⟨r, rfl, ?_⟩
      rw [hr']
      constructor
      · intro h j hj1 hj2
        by_cases hji : j = i
        · rw [hji]; exact hw
        · exact h j (by omega) hj2
      · intro h j hj1 hj2; exact h j (by omega) hj2
    · rw [decide_eq_false hw]
      refine ⟨false, rfl, ?_⟩
      constructor
      · intro h; cases h
      · intro h; exact absurd (h i (Nat.le_refl _) hi) hw

/-- C75 for tables (or structs) of the same type all of whose fields are scalars and present: Equal is
exactly equality of the values. -/
theorem equal_tables_partial (s : Sch) (c1 c2 : CNode) (w v : Nat → Bytes) (k : Nat) (hn : c1.name = c2.name)
    (h1 : AllScalars s c1 w) (h2 : AllScalars s c2 v) (hp : c1.vi.pos ≤ 0) (hk : (s.fields c1.name).length + 2 ≤ k) :
    ∃ r, equalF s k (c1.name, some c1) (c2.name, some c2) = some r ∧
      (r = true ↔ ∀ j, j < (s.fields c1.name).length → w j = v j) := by
  obtain ⟨k, rfl⟩ : ∃ k', k = k' + 1 := ⟨k - 1, by omega⟩
  obtain ⟨r, hr, hr'⟩ := equalFields_scalars hn h1 h2 (s.fields c1.name).length 0 k (by omega) (by omega)
  refine ⟨r, ?_, ?_⟩
  · unfold equalF
    simp only
    rw [if_neg (by omega)]
    exact hr
  · rw [hr']
    exact ⟨fun h j hj => h j (by omega) hj, fun h j _ hj => h j hj⟩

/-- The struct of the example above satisfies the hypotheses. -/
example : AllScalars pairSch { name := "SS".toList, io := Base.new ⟨[1, 0, 0, 0, 2, 0, 0, 0], []⟩, pos := 0 }
    (fun i => if i = 0 then [1, 0, 0, 0] else [2, 0, 0, 0]) := by
  intro i fd hfd
  have hi : i = 0 ∨ i = 1 := by
    have := (List.getElem?_eq_some_iff.mp hfd).1
    simp [pairSch] at this; omega
  rcases hi with rfl | rfl
  · cases hfd
    refine ⟨⟨by decide, by decide⟩, rfl, _, rfl, holds_flat (by decide) (by decide) (by decide)⟩
  · cases hfd
    refine ⟨⟨by decide, by decide⟩, rfl, _, rfl, holds_flat (by decide) (by decide) (by decide)⟩

/-- C75 is violated: comparing a table with itself panics when one of its scalar fields is absent. -/
theorem equal_absent_fails :
    (CNode.init editSch "TT".toList).bind (fun c => equalF editSch 9 (c.name, some c) (c.name, some c)) = none ∧
    (CNode.init editSch "TT".toList).isSome = true := by decide +kernel

end Fbs.Props
