import Verif.NodeLemmas
import Mathlib.Tactic.ByContra
/-!
# Properties of table, struct and union access (C38-C42, C44)
-/

namespace Fbs.Props
open Fbs

/-- A table node at position `t` of a byte buffer. -/
def tableAt (name : Name) (buf : Slice) (t : Nat) : CNode := { name := name, io := Base.new buf, pos := t }

/-! ## C38 layout of tables -/

theorem vtab_spec (name : Name) (buf : Slice) (t i : Nat) (hok : Fb.TableOk buf.data t)
    (hs : 0 ≤ Fb.soffset buf.data t) (hi : 4 + 2 * i + 2 ≤ Fb.vtableLen buf.data t) :
    (tableAt name buf t).vtab i = some ((Fb.fieldPos buf.data t i).getD t) := by
  obtain ⟨h1, h2, h3, h4, h5, h6⟩ := hok
  have hlt : Fb.le buf.data 4 t < 2147483648 := by
    by_contra hc
    have := le_lt buf.data 4 t
    unfold Fb.soffset at hs
    rw [if_neg hc] at hs
    simp only [Nat.reducePow] at this
    omega
  have hso : Fb.soffset buf.data t = Fb.le buf.data 4 t := by unfold Fb.soffset; rw [if_pos hlt]
  have hv : Fb.vtablePos buf.data t = (t : Int) - Fb.le buf.data 4 t := by unfold Fb.vtablePos; rw [hso]
  have e1 : (tableAt name buf t).u32 (tableAt name buf t).pos = some (Fb.le buf.data 4 t) := by
    have := getN_flat buf 4 t
    rw [if_pos (by omega)] at this
    exact this
  unfold CNode.vtab
  rw [e1]
  simp only [Option.bind_eq_bind, Option.bind_some]
  have hv' : (((tableAt name buf t).pos : Int) - Fb.le buf.data 4 t) = ((Fb.vtablePos buf.data t).toNat : Int) := by
    simp only [tableAt]; omega
  rw [hv']
  rw [if_neg (by simp only [tableAt, lenBuf_flat]; omega)]
  have hpos : (((Fb.vtablePos buf.data t).toNat : Int) + 4 + (i : Int) * 2)
      = (((Fb.vtablePos buf.data t).toNat + 4 + 2 * i : Nat) : Int) := by omega
  rw [hpos]
  have e2 : (tableAt name buf t).u16 ((((Fb.vtablePos buf.data t).toNat + 4 + 2 * i : Nat) : Int))
      = some (Fb.le buf.data 2 ((Fb.vtablePos buf.data t).toNat + 4 + 2 * i)) := by
    have := getN_flat buf 2 ((Fb.vtablePos buf.data t).toNat + 4 + 2 * i)
    rw [if_pos (by omega)] at this
    exact this
  simp only [e2, Option.bind_some, pure]
  unfold Fb.fieldPos
  rw [if_pos hi]
  simp only
  split
  · rename_i h0; rw [h0]; rfl
  · rfl

/-- C38: a slot inside the vtable is read as the format prescribes: absent iff its entry is 0, otherwise
at table position plus entry.  In particular there is no panic. -/
theorem slot_access (name : Name) (buf : Slice) (t i : Nat) (hok : Fb.TableOk buf.data t)
    (hs : 0 ≤ Fb.soffset buf.data t) (hi : 4 + 2 * i + 2 ≤ Fb.vtableLen buf.data t) :
    (tableAt name buf t).vtab i = some ((Fb.fieldPos buf.data t i).getD t) ∧
    (tableAt name buf t).isZero i = some (Fb.fieldPos buf.data t i).isNone := by
  have h := vtab_spec name buf t i hok hs hi
  refine ⟨h, ?_⟩
  unfold CNode.isZero
  rw [h]
  simp only [Option.bind_eq_bind, Option.bind_some, pure, Option.some.injEq]
  unfold Fb.fieldPos
  rw [if_pos hi]
  simp only
  split
  · simp [tableAt]
  · simp only [Option.getD_some, tableAt, Option.isNone_some, beq_eq_false_iff_ne, ne_eq]; omega

/-- The group is that of a scalar field. -/
def ScalarGrp (g : Nat) : Prop :=
  isFieldStruct g = false ∧ isFieldUnion g = false ∧ isFieldSlice g = false ∧ isFieldTable g = false ∧
  isFieldBasicType g = true

/-- C38 (scalar fields): FieldAt yields nothing exactly when the format says the field is absent, and
otherwise a node at the prescribed position whose accessor reads the value stored there. -/
theorem scalar_field (s : Sch) (name : Name) (buf : Slice) (t i : Nat) (f : FieldT)
    (hf : (s.fields name)[i]? = some f) (hg : ScalarGrp f.grp) (hst : s.isStruct name = false)
    (hok : Fb.TableOk buf.data t)
    (hs : 0 ≤ Fb.soffset buf.data t) (hi : 4 + 2 * i + 2 ≤ Fb.vtableLen buf.data t) :
    (∃ r, (tableAt name buf t).fieldAt s i = some r ∧ r.map CNode.pos = Fb.fieldPos buf.data t i ∧
      (∀ n ∈ r, n.name = f.tname ∧ n.size = f.size) ∧
      ∀ p k, Fb.fieldPos buf.data t i = some p → p + k ≤ buf.data.length → 0 < k →
        CNode.scalar k r = some (Fb.le buf.data k p)) := by
  obtain ⟨hv, hz⟩ := slot_access name buf t i hok hs hi
  obtain ⟨g1, g2, g3, g4, g5⟩ := hg
  have hft : (tableAt name buf t).fieldT s i = f := by
    unfold CNode.fieldT
    rw [if_neg (by omega)]
    simp only [tableAt, Int.toNat_natCast, hf, Option.getD_some]
  have hb : isFieldBytes f.grp = false := by
    have : isMatchBit f.grp ftSlice = false := g3
    simp only [isFieldBytes, this, Bool.false_and]
  unfold CNode.fieldAt
  simp only [hft]
  have hst' : s.isStruct (tableAt name buf t).name = false := hst
  simp only [hst', Bool.false_eq_true, if_false, hz, Option.bind_eq_bind, Option.bind_some, g1, g2, hb, g3, g4, g5, if_true, hv, pure]
  cases hp : Fb.fieldPos buf.data t i with
  | none => exact ⟨none, by simp⟩
  | some p =>
    refine ⟨some { name := f.tname, io := (tableAt name buf t).io, pos := p, size := f.size }, by simp, rfl, ?_, ?_⟩
    · intro n hn
      simp only [Option.mem_def, Option.some.injEq] at hn
      subst hn; exact ⟨rfl, rfl⟩
    · intro q k hq hk h0
      injection hq with hq; subst hq
      have := getN_flat buf k p
      rw [if_pos (by omega)] at this
      exact this

/-- C38 (string and byte-vector fields): the bytes read are those the format prescribes. -/
theorem string_field (s : Sch) (name : Name) (buf : Slice) (t i p : Nat) (f : FieldT)
    (hf : (s.fields name)[i]? = some f) (hg : f.grp = ftSlice ||| ftBasic1) (hst : s.isStruct name = false)
    (hok : Fb.TableOk buf.data t)
    (hs : 0 ≤ Fb.soffset buf.data t) (hi : 4 + 2 * i + 2 ≤ Fb.vtableLen buf.data t)
    (hp : Fb.fieldPos buf.data t i = some p) (hb : Fb.BytesOk buf.data p) :
    ∃ r, (tableAt name buf t).fieldAt s i = some (some r) ∧ CNode.bytes (some r) = some (Fb.bytesAt buf.data p) := by
  obtain ⟨hv, hz⟩ := slot_access name buf t i hok hs hi
  obtain ⟨hb1, hb2⟩ := hb
  have hft : (tableAt name buf t).fieldT s i = f := by
    unfold CNode.fieldT
    rw [if_neg (by omega)]
    simp only [tableAt, Int.toNat_natCast, hf, Option.getD_some]
  have g1 : isFieldStruct f.grp = false := by rw [hg]; decide
  have g2 : isFieldUnion f.grp = false := by rw [hg]; decide
  have g3 : isFieldBytes f.grp = true := by rw [hg]; decide
  have hst' : s.isStruct (tableAt name buf t).name = false := hst
  rw [hp] at hv hz
  simp only [Option.getD_some, Option.isNone_some] at hv hz
  have e1 : (tableAt name buf t).u32 (p : Int) = some (Fb.le buf.data 4 p) := by
    have := getN_flat buf 4 p
    rw [if_pos (by omega)] at this
    exact this
  have e2 : (tableAt name buf t).u32 ((p : Int) + (Fb.le buf.data 4 p : Nat)) = some (Fb.le buf.data 4 (Fb.follow buf.data p)) := by
    have := getN_flat buf 4 (Fb.follow buf.data p)
    rw [if_pos (by omega)] at this
    have hc : ((p : Int) + (Fb.le buf.data 4 p : Nat)) = ((Fb.follow buf.data p : Nat) : Int) := by
      simp only [Fb.follow]; omega
    rw [hc]
    exact this
  have hip : (tableAt name buf t).infoPosList i = some { pos := ((Fb.follow buf.data p + 4 : Nat) : Int), size := 0, vlen := Fb.le buf.data 4 (Fb.follow buf.data p) } := by
    unfold CNode.infoPosList
    simp only [hv, hz, Option.bind_eq_bind, Option.bind_some, Bool.false_eq_true, if_false, e1, e2, pure]
    simp only [Option.some.injEq, VInfo.mk.injEq, and_true]
    simp only [Fb.follow]; omega
  refine ⟨{ name := f.tname, io := (tableAt name buf t).io, pos := Fb.follow buf.data p + 4, size := Fb.le buf.data 4 (Fb.follow buf.data p), vi := { pos := ((Fb.follow buf.data p + 4 : Nat) : Int), size := Fb.le buf.data 4 (Fb.follow buf.data p), vlen := Fb.le buf.data 4 (Fb.follow buf.data p) } }, ?_, ?_⟩
  · unfold CNode.fieldAt
    simp only [hft, hst', Bool.false_eq_true, if_false, hz, Option.bind_eq_bind, Option.bind_some, g1, g2, g3, if_true, hip, pure]
    rfl
  · unfold CNode.bytes
    simp only
    rw [if_neg (by omega)]
    unfold CNode.R Base.Ri
    rw [if_neg (by omega)]
    simp only [Option.bind_eq_bind, Option.bind_some, Int.toNat_natCast, Slice.takeTo]
    have hR := R_flat buf (Fb.follow buf.data p + 4) (Fb.le buf.data 4 (Fb.follow buf.data p))
    have hio : (tableAt name buf t).io = Base.new buf := rfl
    rw [hio]
    have hlen : ((Base.new buf).R (Fb.follow buf.data p + 4) (Fb.le buf.data 4 (Fb.follow buf.data p))).data.length
        = buf.data.length - (Fb.follow buf.data p + 4) := by rw [hR, List.length_drop]
    rw [if_pos (by simp only [Slice.cap]; omega)]
    simp only [Option.bind_some, pure, Option.some.injEq, Slice.arr, Fb.bytesAt]
    rw [List.take_append_of_le_length (by omega), hR]

/-- A conforming buffer with one table: vtable at 0 (8 bytes, two slots, the second empty), table at 8 with
an `int16` field. -/
def oneTable : Slice := ⟨[8, 0, 6, 0, 4, 0, 0, 0, 8, 0, 0, 0, 57, 48], []⟩

-- the hypotheses of `slot_access`, `scalar_field` are satisfiable, with both outcomes
example : Fb.TableOk oneTable.data 8 ∧ 0 ≤ Fb.soffset oneTable.data 8 ∧
    4 + 2 * 1 + 2 ≤ Fb.vtableLen oneTable.data 8 ∧
    Fb.fieldPos oneTable.data 8 0 = some 12 ∧ Fb.fieldPos oneTable.data 8 1 = none ∧
    Fb.le oneTable.data 2 12 = 12345 ∧ ScalarGrp ftBasic2 := by
  unfold Fb.TableOk ScalarGrp; decide

/-- A table at 6 with one string field "ab". -/
def strTable : Slice := ⟨[6, 0, 8, 0, 4, 0, 6, 0, 0, 0, 4, 0, 0, 0, 2, 0, 0, 0, 97, 98], []⟩

example : Fb.TableOk strTable.data 6 ∧ 0 ≤ Fb.soffset strTable.data 6 ∧
    4 + 2 * 0 + 2 ≤ Fb.vtableLen strTable.data 6 ∧ Fb.fieldPos strTable.data 6 0 = some 10 ∧
    Fb.BytesOk strTable.data 10 ∧ Fb.bytesAt strTable.data 10 = [97, 98] := by
  unfold Fb.TableOk Fb.BytesOk; decide

/-! ## C39 shortened vtables -/

/-- C39 (partial): a slot beyond the vtable reads as absent when it also lies beyond the end of the buffer.
Missing: slots beyond the vtable but inside the buffer, see `short_vtable_fails`. -/
theorem short_vtable_partial (name : Name) (buf : Slice) (t i : Nat) (hok : Fb.TableOk buf.data t)
    (hs : 0 ≤ Fb.soffset buf.data t) (hi : Fb.vtableLen buf.data t < 4 + 2 * i + 2)
    (hend : buf.data.length ≤ (Fb.vtablePos buf.data t).toNat + 4 + 2 * i) :
    Fb.fieldPos buf.data t i = none ∧ (tableAt name buf t).isZero i = some true := by
  obtain ⟨h1, h2, h3, h4, h5, h6⟩ := hok
  have hlt : Fb.le buf.data 4 t < 2147483648 := by
    by_contra hc
    have := le_lt buf.data 4 t
    unfold Fb.soffset at hs
    rw [if_neg hc] at hs
    simp only [Nat.reducePow] at this
    omega
  have hv : Fb.vtablePos buf.data t = (t : Int) - Fb.le buf.data 4 t := by
    unfold Fb.vtablePos Fb.soffset; rw [if_pos hlt]
  refine ⟨by unfold Fb.fieldPos; rw [if_neg (by omega)], ?_⟩
  have e1 : (tableAt name buf t).u32 (tableAt name buf t).pos = some (Fb.le buf.data 4 t) := by
    have := getN_flat buf 4 t
    rw [if_pos (by omega)] at this
    exact this
  unfold CNode.isZero CNode.vtab
  rw [e1]
  simp only [Option.bind_eq_bind, Option.bind_some]
  rw [if_pos (by simp only [tableAt, lenBuf_flat]; omega)]
  simp [pure]

example : ∃ (buf : Slice) (t i : Nat), Fb.TableOk buf.data t ∧ 0 ≤ Fb.soffset buf.data t ∧
    Fb.vtableLen buf.data t < 4 + 2 * i + 2 ∧ buf.data.length ≤ (Fb.vtablePos buf.data t).toNat + 4 + 2 * i :=
  ⟨oneTable, 8, 5, by unfold Fb.TableOk; decide⟩

/-- C39 is violated: a table whose vtable has no slot at all; field 0 is reported present, its "vtable entry"
being the table's own first two bytes. -/
theorem short_vtable_fails : ∃ (buf : Slice) (t : Nat), Fb.TableOk buf.data t ∧ 0 ≤ Fb.soffset buf.data t ∧
    Fb.fieldPos buf.data t 0 = none ∧ ∀ name, (tableAt name buf t).isZero 0 = some false :=
  ⟨⟨[4, 0, 4, 0, 4, 0, 0, 0], []⟩, 4, by unfold Fb.TableOk; decide, by decide, by decide, fun _ => rfl⟩

/-! ## C40 vtables stored after the table -/

/-- C40 is violated for *every* conforming table with a negative soffset (in a buffer below 2 GiB): opening
the node panics. -/
theorem shared_vtable_fails (name : Name) (buf : Slice) (t : Nat) (hok : Fb.TableOk buf.data t)
    (hs : Fb.soffset buf.data t < 0) (ht : t < 2147483648) :
    CNode.newNode name (Base.new buf) t = none := by
  obtain ⟨h1, -⟩ := hok
  have hge : ¬ Fb.le buf.data 4 t < 2147483648 := by
    intro hc
    unfold Fb.soffset at hs
    rw [if_pos hc] at hs
    omega
  unfold CNode.newNode CNode.preLoad
  have e1 := getN_flat buf 4 t
  rw [if_pos (by omega)] at e1
  simp only [e1, Option.bind_eq_bind, Option.bind_some]
  rw [getN_neg _ _ _ (by omega)]
  rfl

/-- Such tables exist: a table at 0 whose vtable is at 8. -/
example : ∃ (buf : Slice) (t : Nat), Fb.TableOk buf.data t ∧ Fb.soffset buf.data t < 0 ∧ t < 2147483648 :=
  ⟨⟨[248, 255, 255, 255, 1, 0, 0, 0, 6, 0, 8, 0, 4, 0], []⟩, 0, by unfold Fb.TableOk; decide⟩

/-- C40 (partial): when the vtable precedes the table, opening the node does not panic. -/
theorem own_vtable_partial (name : Name) (buf : Slice) (t : Nat) (hok : Fb.TableOk buf.data t)
    (hs : 0 ≤ Fb.soffset buf.data t) :
    ∃ n, CNode.newNode name (Base.new buf) t = some n ∧ n.pos = t ∧ n.io = Base.new buf ∧
      n.tlen = Fb.le buf.data 2 ((Fb.vtablePos buf.data t).toNat + 2) := by
  obtain ⟨h1, h2, h3, h4, h5, h6⟩ := hok
  have hlt : Fb.le buf.data 4 t < 2147483648 := by
    by_contra hc
    have := le_lt buf.data 4 t
    unfold Fb.soffset at hs
    rw [if_neg hc] at hs
    simp only [Nat.reducePow] at this
    omega
  have hv : (t : Int) - Fb.le buf.data 4 t = ((Fb.vtablePos buf.data t).toNat : Int) := by
    have : Fb.vtablePos buf.data t = (t : Int) - Fb.le buf.data 4 t := by
      unfold Fb.vtablePos Fb.soffset; rw [if_pos hlt]
    omega
  have hloop : ∀ n (cur : Nat), cur + 2 * n ≤ buf.data.length → CNode.preLoop (Base.new buf) cur n = some () := by
    intro n
    induction n with
    | zero => intro cur _; rfl
    | succ n ih =>
      intro cur hc
      unfold CNode.preLoop Base.Ri
      rw [if_neg (by omega)]
      simp only [Option.bind_eq_bind, Option.bind_some, Int.toNat_natCast]
      have : ¬ ((Base.new buf).R cur 2).len < 2 := by
        simp only [Slice.len, R_flat, List.length_drop]; omega
      rw [if_neg this]
      have := ih (cur + 2) (by omega)
      simpa using this
  have e1 := getN_flat buf 4 t
  rw [if_pos (by omega)] at e1
  have e2 := getN_flat buf 2 (Fb.vtablePos buf.data t).toNat
  rw [if_pos (by omega)] at e2
  have e3 := getN_flat buf 2 ((Fb.vtablePos buf.data t).toNat + 2)
  rw [if_pos (by omega)] at e3
  have e4 := hloop ((Fb.le buf.data 2 (Fb.vtablePos buf.data t).toNat - 3) / 2) ((Fb.vtablePos buf.data t).toNat + 4) (by
    unfold Fb.vtableLen at h6 h4 h5; omega)
  refine ⟨{ name := name, io := Base.new buf, pos := t, tlen := Fb.le buf.data 2 ((Fb.vtablePos buf.data t).toNat + 2) }, ?_, rfl, rfl, rfl⟩
  unfold CNode.newNode CNode.preLoad
  simp only [e1, Option.bind_eq_bind, Option.bind_some, hv, e2]
  have c3 : ((((Fb.vtablePos buf.data t).toNat : Nat) : Int) + 2) = (((Fb.vtablePos buf.data t).toNat + 2 : Nat) : Int) := by omega
  have c4 : ((((Fb.vtablePos buf.data t).toNat : Nat) : Int) + 4) = (((Fb.vtablePos buf.data t).toNat + 4 : Nat) : Int) := by omega
  rw [c3, e3, c4]
  simp only [Option.bind_some]
  rw [e4]
  rfl

/-! ## C41, C42 structs -/

theorem sumSize_foldl (fs : List FieldT) (a : Nat) :
    fs.foldl (fun a f => a + f.size) a = a + (fs.map FieldT.size).sum := by
  induction fs generalizing a with
  | nil => simp
  | cons f l ih => simp only [List.foldl_cons, ih, List.map_cons, List.sum_cons]; omega

theorem sumSize_eq (fs : List FieldT) : sumSize fs = (fs.map FieldT.size).sum := by
  unfold sumSize; rw [sumSize_foldl]; omega

/-- Fields need no padding: every field starts at a multiple of its size when the fields are laid out
without gaps. -/
def NoPadding : List Nat → Nat → Prop
  | [], _ => True
  | s :: l, cur => 0 < s ∧ s ∣ cur ∧ NoPadding l (cur + s)

theorem alignUp_of_dvd {x a : Nat} (ha : 0 < a) (h : a ∣ x) : Fb.alignUp x a = x := by
  obtain ⟨k, rfl⟩ := h
  unfold Fb.alignUp
  have : (a * k + a - 1) / a = k := by
    have e : a * k + a - 1 = (a - 1) + a * k := by omega
    rw [e, Nat.add_mul_div_left _ _ ha, Nat.div_eq_of_lt (by omega)]; omega
  rw [this, Nat.mul_comm]

theorem structOff_packed (l : List Nat) (i cur : Nat) (hn : NoPadding l cur) (hi : i < l.length) :
    Fb.structOff l i cur = cur + (l.take i).sum := by
  induction l generalizing i cur with
  | nil => simp at hi
  | cons a l ih =>
    obtain ⟨h1, h2, h3⟩ := hn
    cases i with
    | zero => simp [Fb.structOff, alignUp_of_dvd h1 h2]
    | succ i =>
      simp only [Fb.structOff, alignUp_of_dvd h1 h2, List.take_succ_cons, List.sum_cons]
      rw [ih i (cur + a) h3 (by simpa using hi)]
      omega

/-- C41 (partial): for a struct whose fields need no padding, FieldAt(i) is at the offset flatbuffers
assigns.  Missing: structs with padding, see `struct_offset_fails`. -/
theorem struct_offset_partial (s : Sch) (c : CNode) (i : Nat) (hst : s.isStruct c.name = true)
    (hi : i < (s.fields c.name).length) (hn : NoPadding ((s.fields c.name).map FieldT.size) 0) :
    ∃ n, c.fieldAt s i = some (some n) ∧
      n.pos = c.pos + Fb.structOff ((s.fields c.name).map FieldT.size) i 0 ∧ n.io = c.io := by
  refine ⟨{ name := (c.fieldT s i).tname, io := c.io, pos := c.pos + sumSize ((s.fields c.name).take i) }, ?_, ?_, rfl⟩
  · unfold CNode.fieldAt
    simp only [hst, if_true, Int.toNat_natCast]
    rfl
  · rw [structOff_packed _ _ _ hn (by simpa using hi)]
    simp only [sumSize_eq, List.map_take]
    omega

/-- In general FieldAt(i) is at the sum of the sizes of the preceding fields. -/
theorem struct_packed (s : Sch) (c : CNode) (i : Nat) (hst : s.isStruct c.name = true) :
    ∃ n, c.fieldAt s i = some (some n) ∧ n.pos = c.pos + (((s.fields c.name).take i).map FieldT.size).sum := by
  refine ⟨{ name := (c.fieldT s i).tname, io := c.io, pos := c.pos + sumSize ((s.fields c.name).take i) }, ?_, ?_⟩
  · unfold CNode.fieldAt
    simp only [hst, if_true, Int.toNat_natCast]
    rfl
  · simp only [sumSize_eq]

/-- Schema with the struct `S { a: byte; b: int32; }` and the struct `P { a: int32; b: int32; }`. -/
def structSch : Sch where
  isStruct := fun n => decide (n = "SS".toList) || decide (n = "PP".toList)
  fields := fun n =>
    if n = "SS".toList then [⟨"byte".toList, ftBasic1, some .byte⟩, ⟨"int32".toList, ftBasic4, some .int32⟩]
    else if n = "PP".toList then [⟨"int32".toList, ftBasic4, some .int32⟩, ⟨"int32".toList, ftBasic4, some .int32⟩]
    else []

example : NoPadding ((structSch.fields "PP".toList).map FieldT.size) 0 := by
  show 0 < 4 ∧ 4 ∣ 0 ∧ 0 < 4 ∧ 4 ∣ 0 + 4 ∧ True
  decide

/-- C41 is violated: in `S { a: byte; b: int32 }` flatbuffers puts `b` at offset 4, FieldAt(1) is at 1. -/
theorem struct_offset_fails : ∃ (s : Sch) (c n : CNode), s.isStruct c.name = true ∧
    c.fieldAt s 1 = some (some n) ∧ n.pos = 1 ∧
    c.pos + Fb.structOff ((s.fields c.name).map FieldT.size) 1 0 = 4 :=
  ⟨structSch, { name := "SS".toList, io := Base.new ⟨[7, 0, 0, 0, 1, 2, 3, 4], []⟩, pos := 0 },
    { name := "int32".toList, io := Base.new ⟨[7, 0, 0, 0, 1, 2, 3, 4], []⟩, pos := 1 }, by decide, rfl, rfl, by decide⟩

theorem structValueInfo_succ (s : Sch) (c : CNode) (i : Nat) :
    structValueInfo s c (i + 1) =
      { structValueInfo s c i with
        pos := (structValueInfo s c i).pos + (structValueInfo s c i).size
        size := (c.fieldT s i).size } := by
  unfold structValueInfo
  rw [List.range_succ, List.foldl_append]
  rfl

theorem structValueInfo_end (s : Sch) (c : CNode) (i : Nat) (hi : i ≤ (s.fields c.name).length) :
    (structValueInfo s c i).pos + (structValueInfo s c i).size
      = c.pos + (((s.fields c.name).take i).map FieldT.size).sum := by
  induction i with
  | zero => simp [structValueInfo]
  | succ i ih =>
    have := ih (by omega)
    rw [structValueInfo_succ]
    simp only
    rw [this]
    have hlt : i < (s.fields c.name).length := by omega
    have hf : c.fieldT s i = (s.fields c.name)[i] := by
      unfold CNode.fieldT
      rw [if_neg (by omega)]
      simp [List.getElem?_eq_getElem hlt]
    rw [hf, List.take_succ_eq_append_getElem hlt]
    simp only [List.map_append, List.map_cons, List.map_nil, List.sum_append, List.sum_cons, List.sum_nil]
    omega

/-- C42 (partial): ValueInfo(i+1) of a struct is the position and size of field `i` (the one before).
Missing: it should be those of field `i+1`, see `struct_info_fails`. -/
theorem struct_info_partial (s : Sch) (c : CNode) (i : Nat) (hi : i < (s.fields c.name).length)
    (hst : s.isStruct c.name = true) :
    ∃ n, c.fieldAt s i = some (some n) ∧ (structValueInfo s c (i + 1)).pos = n.pos ∧
      (structValueInfo s c (i + 1)).size = ((s.fields c.name)[i]).size := by
  obtain ⟨n, hn, hp⟩ := struct_packed s c i hst
  refine ⟨n, hn, ?_, ?_⟩
  · rw [structValueInfo_succ]
    simp only
    rw [structValueInfo_end s c i (by omega), hp]
    omega
  · rw [structValueInfo_succ]
    have hf : c.fieldT s i = (s.fields c.name)[i] := by
      unfold CNode.fieldT
      rw [if_neg (by omega)]
      simp [List.getElem?_eq_getElem hi]
    simp only [hf]

/-- C42 is violated: ValueInfo(0) always has size 0, and ValueInfo(1) describes field 0. -/
theorem struct_info_fails : ∃ (s : Sch) (c : CNode), s.isStruct c.name = true ∧
    (structValueInfo s c 0).size = 0 ∧ ((s.fields c.name)[0]?.map FieldT.size) = some 1 ∧
    (structValueInfo s c 1).pos = c.pos ∧ (structValueInfo s c 1).size = 1 ∧
    ((s.fields c.name)[1]?.map FieldT.size) = some 4 :=
  ⟨structSch, { name := "SS".toList, io := Base.new ⟨[7, 0, 0, 0, 1, 2, 3, 4], []⟩, pos := 0 }, by decide⟩

/-! ## C44 unions -/

/-- C44: when the type field holds the byte `t` and the union field itself can be opened, FollowUnion
returns nil exactly for `t = 0` and `t` beyond the members, and otherwise the member number `t - 1`.  A
flatbuffers union has at most 255 members (the type field is a `ubyte`). -/
theorem follow_union (s : Sch) (c : CNode) (idx : Int) (ft u : Option CNode) (t : Nat)
    (hf : c.fieldAt s (idx - 1) = some ft) (ht : CNode.scalar 1 ft = some t) (ht8 : t < 256)
    (hu : c.fieldAt s idx = some u) (members : List Name)
    (hm : (s.unions (c.fieldT s idx).tname).getD [] = members) (hlen : members.length ≤ 255) :
    (t = 0 ∨ members.length < t → c.followUnion s idx = some none) ∧
    (∀ (h0 : 0 < t) (h1 : t ≤ members.length),
      c.followUnion s idx = some (some (members[t - 1], u.map fun n => { n with name := members[t - 1] }))) := by
  constructor
  · intro h
    unfold CNode.followUnion
    simp only [hf, ht, Option.bind_eq_bind, Option.bind_some, hm]
    have : members[(t + 255) % 256]? = none := by
      rw [List.getElem?_eq_none_iff]; omega
    rw [this]
    rfl
  · intro h0 h1
    unfold CNode.followUnion
    simp only [hf, ht, Option.bind_eq_bind, Option.bind_some, hm]
    have e : (t + 255) % 256 = t - 1 := by omega
    have : members[(t + 255) % 256]? = some members[t - 1] := by
      rw [e, List.getElem?_eq_getElem (by omega)]
    rw [this]
    simp only [hu, Option.bind_some]
    rfl

/-- A schema with table `TT { type: byte; u: UU }` and `union UU { AA, BB }`, and a buffer. -/
def unionSch : Sch where
  unions := fun n => if n = "UU".toList then some ["AA".toList, "BB".toList] else none
  fields := fun n =>
    if n = "TT".toList then [⟨"byte".toList, ftBasic1, some .byte⟩, ⟨"UU".toList, ftUnion, none⟩] else []

/-- vtable of `TT` at 0, `TT` at 8 (type byte 2, offset 8 to the member), member vtable at 16, member at 20. -/
def unionBuf : Slice :=
  ⟨[8, 0, 12, 0, 8, 0, 4, 0, 8, 0, 0, 0, 12, 0, 0, 0, 2, 0, 0, 0, 4, 0, 4, 0, 4, 0, 0, 0], []⟩

example : (∃ ft u, (tableAt "TT".toList unionBuf 8).fieldAt unionSch 0 = some ft ∧ CNode.scalar 1 ft = some 2 ∧
    (tableAt "TT".toList unionBuf 8).fieldAt unionSch 1 = some u ∧ u.map CNode.pos = some 24) ∧
    ((tableAt "TT".toList unionBuf 8).followUnion unionSch 1).map (fun r => r.map Prod.fst) = some (some "BB".toList) := by
  refine ⟨⟨_, _, rfl, by decide, rfl, by decide⟩, by decide⟩

end Fbs.Props
