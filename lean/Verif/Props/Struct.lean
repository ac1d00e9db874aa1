import Verif.Props.Split
import Verif.Props.Len
/-!
# Building structs (C94)
-/

namespace Fbs.Props
open Fbs

/-- `nm` is a struct of scalars that `Init` can make. -/
structure StructType (s : Sch) (nm : Name) : Prop where
  isStruct : s.isStruct nm = true
  known : ∃ g, getTypeGroup s.toReg nm = some g ∧ isFieldBasicType g = false
  scalars : ∀ fd ∈ s.fields nm, InlGrp fd.grp ∧ fd.grp ≠ ftStruct ∧ 0 < fd.size
  size : 4 ≤ sumSize (s.fields nm)

/-- Where field `i` of a struct starts. -/
def structOff (s : Sch) (nm : Name) (i : Nat) : Nat := (((s.fields nm).take i).map FieldT.size).sum

/-- The bytes field `i` of a struct has after the settings `ops`. -/
def structVal (s : Sch) (nm : Name) (ops : List Setting) (i : Nat) : Bytes :=
  (lastSet ops i).getD (zeros (((s.fields nm)[i]?).map FieldT.size |>.getD 0))

/-- The bytes of the whole struct after the settings `ops`: its fields in order. -/
def structBytes (s : Sch) (nm : Name) (ops : List Setting) : Bytes :=
  ((List.range (s.fields nm).length).map (structVal s nm ops)).flatten

theorem structOff_succ {s : Sch} {nm : Name} {i : Nat} {fd : FieldT} (h : (s.fields nm)[i]? = some fd) :
    structOff s nm (i + 1) = structOff s nm i + fd.size := by
  unfold structOff
  rw [List.take_add_one, h]
  simp

theorem structOff_le {s : Sch} {nm : Name} {i j : Nat} (h : i ≤ j) : structOff s nm i ≤ structOff s nm j := by
  unfold structOff
  induction j with
  | zero => exact Nat.le_of_eq (by rw [Nat.le_zero.mp h])
  | succ j ih =>
    rcases Nat.lt_or_ge j i with h' | h'
    · exact Nat.le_of_eq (by rw [show i = j + 1 by omega])
    · refine Nat.le_trans (ih h') ?_
      rw [List.take_add_one]
      simp

theorem structOff_all (s : Sch) (nm : Name) : structOff s nm (s.fields nm).length = sumSize (s.fields nm) := by
  unfold structOff
  rw [List.take_length, sumSize_eq]

/-- The state of a struct being built. -/
structure StrI (s : Sch) (nm : Name) (c : CNode) (cur : Nat → Bytes) : Prop where
  name : c.name = nm
  pos : c.pos = 0
  len : c.io.lenBuf = sumSize (s.fields nm)
  wid : ∀ i fd, (s.fields nm)[i]? = some fd → (cur i).length = fd.size
  cell : ∀ i, i < (s.fields nm).length → Holds c.io (structOff s nm i) (cur i)

theorem init_str {s : Sch} {nm : Name} (h : StructType s nm) :
    ∃ c, CNode.init s nm = some c ∧ StrI s nm c (structVal s nm []) := by
  obtain ⟨g, hg, -⟩ := h.known
  have h4 := h.size
  have hz : copyAt (zeros (sumSize (s.fields nm) + 0)) 0 (putLE 4 0) = zeros (sumSize (s.fields nm)) := by
    apply List.ext_getElem?
    intro x
    rw [copyAt_getElem? _ _ _ _ (by rw [putLE_length]; simp [zeros]; omega), putLE_length]
    split
    · rename_i hx
      rw [zeros, List.getElem?_replicate, if_pos (by omega), Nat.sub_zero]
      rcases (show x = 0 ∨ x = 1 ∨ x = 2 ∨ x = 3 by omega) with rfl | rfl | rfl | rfl <;> decide
    · rw [Nat.add_zero]
  have hi : CNode.init s nm = some (CNode.mk nm (Base.new ⟨zeros (sumSize (s.fields nm)), []⟩) 0 (-1) 0 {}) := by
    unfold CNode.init
    rw [hg, h.isStruct]
    simp only [Option.bind_eq_bind, Option.bind_some, if_true]
    rw [if_neg (by omega), if_neg (by omega), hz]
    rfl
  refine ⟨_, hi, rfl, rfl, ?_, ?_, ?_⟩
  · simp [Base.new, Base.lenBuf, zeros, Slice.len]
  · intro i fd hfd
    simp [structVal, lastSet_nil, hfd, zeros]
  · intro i hi
    have hfd := List.getElem?_eq_getElem hi
    have hs := h.scalars _ (List.getElem_mem hi)
    have h1 := structOff_succ hfd
    have h2 := structOff_le (s := s) (nm := nm) (show i + 1 ≤ (s.fields nm).length by omega)
    rw [structOff_all] at h2
    have hv : structVal s nm [] i = zeros (s.fields nm)[i].size := by
      simp [structVal, lastSet_nil, hfd]
    rw [hv]
    refine holds_flat ?_ ?_ ?_
    · intro hh
      have := congrArg List.length hh
      simp [zeros] at this
      omega
    · intro k hk
      simp only [zeros, List.length_replicate] at hk
      simp only [zeros, List.getElem?_replicate]
      rw [if_pos (by omega), if_pos hk]
    · simp only [zeros, List.length_replicate]
      omega

theorem lenBuf_copy_in {b src : Base} {srcOff dst : Nat} {w : Bytes} (h : Holds src srcOff w) (hd : dst + w.length ≤ b.lenBuf) :
    (b.copy (fun p n => src.R p n) srcOff w.length dst 0).lenBuf = b.lenBuf := by
  obtain ⟨sp, hc⟩ := copy_one (b := b) (dst := dst) (ext := 0) h
  rw [hc, lenBuf_eq, lenBuf_eq, maxEnd_snoc]
  rw [lenBuf_eq] at hd
  have h1 : maxEnd b.bytes.len (b.copyExtend dst 0).diffs = maxEnd b.bytes.len b.diffs := by
    have hmap : ∀ (l : List Diff), (l.map fun d => if d.off ≥ dst then (⟨d.off + 0, d.sl⟩ : Diff) else d) = l := by
      intro l
      have : (fun d : Diff => if d.off ≥ dst then (⟨d.off + 0, d.sl⟩ : Diff) else d) = id := by
        funext d; split <;> rfl
      rw [this, List.map_id]
    unfold Base.copyExtend
    simp only [hmap]
    split
    · rw [insertOr_zero, List.singleton_append, maxEnd_cons]
      congr 1
      simp only [Slice.len, List.length_drop] at *
      omega
    · rfl
  rw [h1]
  simp only [Slice.len] at *
  omega

theorem set_str {s : Sch} {nm : Name} (h : StructType s nm) (fuel : Nat) {c : CNode} {cur : Nat → Bytes} (r : StrI s nm c cur)
    {i : Nat} {f : CNode} {w : Bytes} (hf : InlSrc s nm i f w) :
    ∃ c', c.setFieldAt s fuel i f = some (c', none) ∧ StrI s nm c' (fun j => if j = i then w else cur j) := by
  obtain ⟨fd, hfd, hgr, hn, hl, hh, -⟩ := hf
  have hi : i < (s.fields nm).length := (List.getElem?_eq_some_iff.mp hfd).1
  have hsc := h.scalars fd (List.mem_of_getElem? hfd)
  have hw : w.length = fd.size := by
    rw [hl]; unfold fieldWidth
    rw [if_neg hsc.2.1, if_neg]
    rcases hgr with h | h | h | h | h
    · exact absurd h hsc.2.1
    all_goals rw [h]; decide
  have hft : c.fieldT s i = fd := by
    unfold CNode.fieldT
    rw [if_neg (by omega), r.name, Int.toNat_natCast, hfd]; rfl
  have ht : c.isSameType s i f = true := by
    unfold CNode.isSameType
    rw [hft, if_pos hn.symm]
  refine ⟨{ c with io := c.io.copy (fun p n => f.io.R p n) f.pos w.length (structOff s nm i) 0 }, ?_, ?_⟩
  · unfold CNode.setFieldAt
    rw [if_neg (by rw [r.name]; omega), ht]
    simp only [Bool.not_true, Bool.false_eq_true, if_false]
    rw [if_pos (by rw [r.name]; exact ⟨h.isStruct, by omega⟩)]
    simp only [Int.toNat_natCast, hft, r.pos, r.name]
    have : ((0 : Nat) : Int) + (sumSize ((s.fields nm).take i) : Int) = ((structOff s nm i : Nat) : Int) := by
      rw [sumSize_eq]; unfold structOff; omega
    rw [← hw]
    simp only [pure, bind, Option.bind]
    rw [show ((0 + sumSize ((s.fields nm).take i) : Nat) : Int) = ((structOff s nm i : Nat) : Int) by
      rw [sumSize_eq]; unfold structOff; omega, copyI_zero]
  · have h1 := structOff_succ hfd
    have h2 := structOff_le (s := s) (nm := nm) (show i + 1 ≤ (s.fields nm).length by omega)
    rw [structOff_all] at h2
    refine ⟨r.name, r.pos, ?_, ?_, ?_⟩
    · show (c.io.copy _ _ _ _ _).lenBuf = _
      rw [lenBuf_copy_in hh (by rw [r.len]; omega), r.len]
    · intro j fd' hj
      split
      · subst j
        rw [hfd] at hj; cases hj; exact hw
      · exact r.wid j fd' hj
    · intro j hj
      split
      · subst j
        have := r.cell i hi
        apply holds_copy_same hh
        have h3 := this.2.1
        rw [r.wid i fd hfd, ← hw] at h3
        exact h3
      · rename_i hne
        refine holds_copy_other hh (r.cell j hj) ?_
        have hfj := List.getElem?_eq_getElem hj
        have h3 := structOff_succ hfj
        rw [r.wid j _ hfj]
        rcases Nat.lt_or_gt_of_ne hne with hlt | hlt
        · have := structOff_le (s := s) (nm := nm) (show j + 1 ≤ i by omega)
          omega
        · have := structOff_le (s := s) (nm := nm) (show i + 1 ≤ j by omega)
          omega

theorem build_str {s : Sch} {nm : Name} (h : StructType s nm) (fuel : Nat) (ops : List Setting)
    (hops : ∀ o ∈ ops, InlSrc s nm o.field o.node o.val) :
    ∃ c, build s fuel nm ops = some c ∧ StrI s nm c (structVal s nm ops) := by
  obtain ⟨c0, h0, r0⟩ := init_str h
  unfold build
  rw [h0]
  simp only [Option.bind_some]
  induction ops using List.reverseRecOn with
  | nil => exact ⟨c0, rfl, r0⟩
  | append_singleton l o ih =>
    obtain ⟨c1, h1, r1⟩ := ih (fun o ho => hops o (List.mem_append_left _ ho))
    obtain ⟨c2, h2, r2⟩ := set_str h fuel r1 (hops o (by simp))
    refine ⟨c2, ?_, ?_⟩
    · rw [runSets_append, h1]
      simp only [Option.bind_some, runSets, h2]
    · have : structVal s nm (l ++ [o]) = fun j => if j = o.field then o.val else structVal s nm l j := by
        funext j
        unfold structVal
        rw [lastSet_snoc]
        simp only
        split <;> rfl
      rw [this]; exact r2

/-- C94: a fresh struct has all fields zero, every setting of a field succeeds, and afterwards every field
reads the value last set for it, or zeros; the buffer keeps exactly the size of the struct. -/
theorem struct_fields (s : Sch) (nm : Name) (h : StructType s nm) (fuel : Nat) (ops : List Setting)
    (hops : ∀ o ∈ ops, InlSrc s nm o.field o.node o.val) :
    ∃ c, build s fuel nm ops = some c ∧ c.io.lenBuf = ((s.fields nm).map FieldT.size).sum ∧
      ∀ (i : Nat) (fd : FieldT), (s.fields nm)[i]? = some fd → ∃ nd, c.fieldAt s i = some (some nd) ∧
        CNode.scalar fd.size (some nd) = some (leVal (structVal s nm ops i)) ∧
        ∀ req, (nd.io.R nd.pos req).data.take fd.size = structVal s nm ops i := by
  obtain ⟨c, h1, r⟩ := build_str h fuel ops hops
  refine ⟨c, h1, by rw [r.len, sumSize_eq], ?_⟩
  intro i fd hfd
  obtain ⟨nd, h2, h3⟩ := struct_packed s c i (by rw [r.name]; exact h.isStruct)
  have hio : nd.io = c.io := by
    unfold CNode.fieldAt at h2
    rw [r.name, h.isStruct] at h2
    simp only [if_true] at h2
    cases h2; rfl
  have hp : nd.pos = structOff s nm i := by rw [h3, r.pos, r.name, Nat.zero_add]; rfl
  have hc := r.cell i (List.getElem?_eq_some_iff.mp hfd).1
  rw [← hp, ← hio] at hc
  refine ⟨nd, h2, ?_, ?_⟩
  · have := holds_getN' hc
    rw [r.wid i fd hfd] at this
    exact this
  · intro req
    have := (holds_read hc req).2
    rw [r.wid i fd hfd] at this
    exact this

/-! ## Storing a struct in a table -/

theorem structVal_length {s : Sch} {nm : Name} (h : StructType s nm) {ops : List Setting}
    (hops : ∀ o ∈ ops, InlSrc s nm o.field o.node o.val) {i : Nat} {fd : FieldT} (hfd : (s.fields nm)[i]? = some fd) :
    (structVal s nm ops i).length = fd.size := by
  obtain ⟨c, -, r⟩ := build_str h 0 ops hops
  exact r.wid i fd hfd

theorem structBytes_take {s : Sch} {nm : Name} {ops : List Setting}
    (hw : ∀ (i : Nat) (fd : FieldT), (s.fields nm)[i]? = some fd → (structVal s nm ops i).length = fd.size) :
    ∀ n, n ≤ (s.fields nm).length → (((List.range n).map (structVal s nm ops)).flatten).length = structOff s nm n := by
  intro n
  induction n with
  | zero => intro _; rfl
  | succ n ih =>
    intro hn
    have hfd := List.getElem?_eq_getElem (show n < (s.fields nm).length by omega)
    rw [List.range_succ, List.map_append, List.flatten_append, List.length_append, ih (by omega), structOff_succ hfd]
    simp [hw n _ hfd]

theorem structBytes_sub {s : Sch} {nm : Name} {ops : List Setting}
    (hw : ∀ (i : Nat) (fd : FieldT), (s.fields nm)[i]? = some fd → (structVal s nm ops i).length = fd.size)
    {i : Nat} {fd : FieldT} (hfd : (s.fields nm)[i]? = some fd) :
    ((structBytes s nm ops).drop (structOff s nm i)).take fd.size = structVal s nm ops i := by
  have hi : i < (s.fields nm).length := (List.getElem?_eq_some_iff.mp hfd).1
  unfold structBytes
  have hr : List.range (s.fields nm).length = List.range i ++ i :: (List.range' (i + 1) ((s.fields nm).length - (i + 1))) := by
    rw [List.range_eq_range', List.range_eq_range', show (s.fields nm).length = i + (1 + ((s.fields nm).length - (i + 1))) by omega,
      ← List.range'_append_1, ← List.range'_append_1]
    simp
    omega
  rw [hr, List.map_append, List.flatten_append, ← structBytes_take hw i (by omega), List.drop_left, List.map_cons,
    List.flatten_cons, ← hw i fd hfd, List.take_left]

theorem spells_struct {s : Sch} {nm : Name} {ops : List Setting} {b : Base}
    (hw : ∀ (i : Nat) (fd : FieldT), (s.fields nm)[i]? = some fd → (structVal s nm ops i).length = fd.size)
    (hc : ∀ i, i < (s.fields nm).length → Holds b (structOff s nm i) (structVal s nm ops i)) :
    b.content.Spells 0 (structBytes s nm ops) := by
  have key : ∀ n, n ≤ (s.fields nm).length → b.content.Spells 0 (((List.range n).map (structVal s nm ops)).flatten) := by
    intro n
    induction n with
    | zero => intro _ k hk; cases hk
    | succ n ih =>
      intro hn k hk
      have hl := structBytes_take hw n (by omega)
      have hfd := List.getElem?_eq_getElem (show n < (s.fields nm).length by omega)
      rw [List.range_succ, List.map_append, List.flatten_append] at hk ⊢
      simp only [List.map_cons, List.map_nil, List.flatten_cons, List.flatten_nil, List.append_nil, List.length_append] at hk ⊢
      rcases Nat.lt_or_ge k (((List.range n).map (structVal s nm ops)).flatten).length with hk' | hk'
      · rw [List.getElem?_append_left hk']
        exact ih (by omega) k hk'
      · rw [List.getElem?_append_right hk']
        have := (hc n (by omega)).2.2 (k - structOff s nm n) (by omega)
        rw [hl] at hk' ⊢
        rw [← this]
        congr 1; omega
  exact key _ (Nat.le_refl _)

/-- A struct that was built and then merged can be stored in a table field of its type. -/
theorem merged_struct_src {s : Sch} {nm tn : Name} (h : StructType s nm) (fuel : Nat) (ops : List Setting)
    (hops : ∀ o ∈ ops, InlSrc s nm o.field o.node o.val) {j : Nat} {fd : FieldT} (hfd : (s.fields tn)[j]? = some fd)
    (hgrp : fd.grp = ftStruct) (hn : fd.tname = nm) :
    ∃ f, buildMerged s fuel nm ops = some f ∧ InlSrc s tn j f (structBytes s nm ops) := by
  obtain ⟨c, h1, r⟩ := build_str h fuel ops hops
  have hl : (structBytes s nm ops).length = sumSize (s.fields nm) := by
    rw [← structOff_all]; exact structBytes_take r.wid _ (Nat.le_refl _)
  have h4 := h.size
  refine ⟨{ c with io := c.io.flatten }, ?_, fd, hfd, Or.inl hgrp, ?_, ?_, ?_, ?_⟩
  · unfold buildMerged; rw [h1]; rfl
  · rw [hn]; exact r.name
  · unfold fieldWidth; rw [if_pos hgrp, hn, hl]
  · show Holds c.io.flatten c.pos _
    rw [r.pos]
    refine spells_flatten ?_ (spells_struct r.wid r.cell)
    intro hh; rw [hh] at hl; simp at hl; omega
  · intro _
    obtain ⟨g, hg, hb⟩ := h.known
    unfold CNode.directSize
    rw [hn, hg, h.isStruct]
    simp [hb]

/-- C94: a struct that is built, merged and stored in a table among other settings reads back from there,
field by field, with the values last set for them.  (Missing: storing it without merging, see
`struct_store_fails`.) -/
theorem struct_stored_partial (s : Sch) (nm tn : Name) (h : StructType s nm) (ht : SmallTable s tn) (fuel : Nat) (ops : List Setting)
    (hops : ∀ o ∈ ops, InlSrc s nm o.field o.node o.val) (j : Nat) (fd : FieldT) (hfd : (s.fields tn)[j]? = some fd)
    (hgrp : fd.grp = ftStruct) (hn : fd.tname = nm) :
    ∃ f, buildMerged s (fuel + 1) nm ops = some f ∧
      ∀ pre post, (∀ o ∈ pre, InlSrc s tn o.field o.node o.val) → (∀ o ∈ post, InlSrc s tn o.field o.node o.val ∧ o.field ≠ j) →
        ∃ c nd, build s (fuel + 1) tn (pre ++ ⟨j, f, structBytes s nm ops⟩ :: post) = some c ∧ c.fieldAt s j = some (some nd) ∧
          ∀ (i : Nat) (e : FieldT), (s.fields nm)[i]? = some e → ∃ fnd, nd.fieldAt s i = some (some fnd) ∧
            CNode.scalar e.size (some fnd) = some (leVal (structVal s nm ops i)) ∧
            ∀ req, (fnd.io.R fnd.pos req).data.take e.size = structVal s nm ops i := by
  obtain ⟨f, h1, h2⟩ := merged_struct_src h (fuel + 1) ops hops hfd hgrp hn
  refine ⟨f, h1, ?_⟩
  intro pre post hpre hpost
  obtain ⟨g, hg, hgs⟩ := ht.notList
  obtain ⟨c0, h0, r0⟩ := init_rep ht.ok hg hgs
  obtain ⟨c, h3, r⟩ := inline_run ht.ok fuel r0 (pre ++ ⟨j, f, structBytes s nm ops⟩ :: post) (by
    intro o ho
    rcases List.mem_append.mp ho with ho | ho
    · exact hpre o ho
    · rcases List.mem_cons.mp ho with rfl | ho
      · exact h2
      · exact (hpost o ho).1)
  have hlast : lastSet (pre ++ ⟨j, f, structBytes s nm ops⟩ :: post) j = some (structBytes s nm ops) := by
    have hp : lastSet post j = none := by
      unfold lastSet
      rw [List.filter_eq_nil_iff.mpr]
      · rfl
      · intro o ho; simp [(hpost o ho).2]
    rw [show pre ++ ⟨j, f, structBytes s nm ops⟩ :: post = (pre ++ [⟨j, f, structBytes s nm ops⟩]) ++ post by simp,
      lastSet_append, hp, lastSet_snoc]
    simp
  obtain ⟨nd, n1, n2, n3⟩ := rep_inline ht.ok r hfd (Or.inl hgrp) (w := structBytes s nm ops) (by simp [hlast])
  refine ⟨c, nd, ?_, n1, ?_⟩
  · unfold build; rw [h0]; exact h3
  · intro i e he
    have hw := fun (i : Nat) (fd : FieldT) (hfd : (s.fields nm)[i]? = some fd) => structVal_length h hops hfd
    rw [hn] at n2
    obtain ⟨fnd, f1, f2⟩ := struct_packed s nd i (by rw [n2]; exact h.isStruct)
    have hio : fnd.io = nd.io := by
      unfold CNode.fieldAt at f1
      rw [n2, h.isStruct] at f1
      simp only [if_true] at f1
      cases f1; rfl
    have hp : fnd.pos = nd.pos + structOff s nm i := by rw [f2, n2]; rfl
    have hi : i < (s.fields nm).length := (List.getElem?_eq_some_iff.mp he).1
    have h5 := structOff_succ he
    have h6 := structOff_le (s := s) (nm := nm) (show i + 1 ≤ (s.fields nm).length by omega)
    have hl : (structBytes s nm ops).length = structOff s nm (s.fields nm).length := structBytes_take hw _ (Nat.le_refl _)
    have hc := holds_sub n3 (structOff s nm i) e.size (h.scalars e (List.mem_of_getElem? he)).2.2 (by omega)
    rw [structBytes_sub hw he, ← hp, ← hio] at hc
    refine ⟨fnd, f1, ?_, ?_⟩
    · have := holds_getN' hc
      rw [hw i e he] at this
      exact this
    · intro req
      have := (holds_read hc req).2
      rw [hw i e he] at this
      exact this

/-! ## Witnesses -/

/-- `struct SS { a,b,c: int32 }`, `struct S2 { a: int16 }`, `table WW { s: SS; n: int32 }`. -/
def strSch : Sch where
  fields := fun n => if n = "SS".toList then [⟨"Int32".toList, ftBasic4, some .int32⟩, ⟨"Int32".toList, ftBasic4, some .int32⟩,
      ⟨"Int32".toList, ftBasic4, some .int32⟩]
    else if n = "S2".toList then [⟨"Int16".toList, ftBasic2, some .int16⟩]
    else if n = "WW".toList then [⟨"SS".toList, ftStruct, none⟩, ⟨"Int32".toList, ftBasic4, some .int32⟩] else []
  unions := fun _ => none
  isStruct := fun n => n = "SS".toList || n = "S2".toList

theorem str_SS : StructType strSch "SS".toList where
  isStruct := rfl
  known := ⟨ftStruct, by decide, by decide⟩
  scalars := by
    intro fd hfd
    simp only [strSch, if_true, List.mem_cons, List.not_mem_nil, or_false] at hfd
    rcases hfd with rfl | rfl | rfl <;> exact ⟨Or.inr (Or.inr (Or.inr (Or.inl rfl))), by decide, by decide⟩
  size := by decide

theorem str_WW : SmallTable strSch "WW".toList where
  notStruct := rfl
  notList := ⟨ftTable, by decide, by decide⟩
  few := by decide
  name := by decide
  small := by decide

/-- `SetFieldAt(i, FromInt32(v))`. -/
def setI32 (i v : Nat) : Setting := ⟨i, CNode.fromScalar "Int32".toList 4 v, putLE 4 v⟩

theorem setI32_src (i v : Nat) (hi : i < 3) : InlSrc strSch "SS".toList (setI32 i v).field (setI32 i v).node (setI32 i v).val := by
  rcases (show i = 0 ∨ i = 1 ∨ i = 2 by omega) with rfl | rfl | rfl <;>
    exact fromScalar_src strSch "SS".toList _ 4 v ⟨"Int32".toList, ftBasic4, some .int32⟩ (by decide) rfl
      (Or.inr (Or.inr (Or.inl rfl))) rfl

/-- Not vacuous. -/
example : ∃ c, build strSch 3 "SS".toList [setI32 2 7, setI32 0 5, setI32 2 9] = some c ∧
    ∃ nd, c.fieldAt strSch (2 : Nat) = some (some nd) ∧ CNode.scalar 4 (some nd) = some 9 := by
  obtain ⟨c, h1, -, h3⟩ := struct_fields strSch "SS".toList str_SS 3 [setI32 2 7, setI32 0 5, setI32 2 9] (by
    intro o ho
    simp only [List.mem_cons, List.not_mem_nil, or_false] at ho
    rcases ho with rfl | rfl | rfl <;> exact setI32_src _ _ (by decide))
  obtain ⟨nd, h4, h5, -⟩ := h3 2 ⟨"Int32".toList, ftBasic4, some .int32⟩ rfl
  exact ⟨c, h1, nd, h4, h5⟩

/-- The three fields of a struct, read one by one. -/
def readThree (c : CNode) : Go (List Nat) := do
  let f ← c.fieldAt strSch (0 : Nat)
  let a ← CNode.scalar 4 f
  let f ← c.fieldAt strSch (1 : Nat)
  let b ← CNode.scalar 4 f
  let f ← c.fieldAt strSch (2 : Nat)
  let d ← CNode.scalar 4 f
  return [a, b, d]

/-- Build a struct, store it in a table as it is, read it back from there. -/
def storeStruct (ops : List Setting) : Go (List Nat × List Nat) := do
  let f ← build strSch 3 "SS".toList ops
  let l ← readThree f
  let w ← CNode.init strSch "WW".toList
  let (w, _) ← w.setFieldAt strSch 3 0 f
  let g ← w.fieldAt strSch 0
  let nd ← g
  let l' ← readThree nd
  return (l, l')

/-- C94 fails for a struct stored as it is: with the first and the third field set, the struct reads
7, 0, 5, but once stored in a table 7, 0, 0. -/
theorem struct_store_fails : storeStruct [setI32 0 7, setI32 2 5] = some ([7, 0, 5], [7, 0, 0]) := by decide +kernel

/-- The order of the settings decides: with all three set, the value survives. -/
example : storeStruct [setI32 0 7, setI32 1 9, setI32 2 5] = some ([7, 9, 5], [7, 9, 5]) := by decide +kernel

/-- Not vacuous: merged first, the struct above keeps its third field. -/
example : ∃ f, buildMerged strSch 3 "SS".toList [setI32 0 7, setI32 2 5] = some f ∧
    ∃ c nd fnd, build strSch 3 "WW".toList [⟨0, f, structBytes strSch "SS".toList [setI32 0 7, setI32 2 5]⟩] = some c ∧
      c.fieldAt strSch (0 : Nat) = some (some nd) ∧ nd.fieldAt strSch (2 : Nat) = some (some fnd) ∧
      CNode.scalar 4 (some fnd) = some 5 := by
  obtain ⟨f, h1, h2⟩ := struct_stored_partial strSch "SS".toList "WW".toList str_SS str_WW 2 [setI32 0 7, setI32 2 5] (by
    intro o ho
    simp only [List.mem_cons, List.not_mem_nil, or_false] at ho
    rcases ho with rfl | rfl <;> exact setI32_src _ _ (by decide)) 0 ⟨"SS".toList, ftStruct, none⟩ rfl rfl rfl
  obtain ⟨c, nd, h3, h4, h5⟩ := h2 [] [] (by intro o ho; cases ho) (by intro o ho; cases ho)
  obtain ⟨fnd, h6, h7, -⟩ := h5 2 ⟨"Int32".toList, ftBasic4, some .int32⟩ rfl
  exact ⟨f, h1, c, nd, fnd, h3, h4, h6, h7⟩

/-- C94 fails for structs smaller than four bytes: `Init` panics. -/
theorem struct_small_fails : CNode.init strSch "S2".toList = none := by decide

end Fbs.Props
