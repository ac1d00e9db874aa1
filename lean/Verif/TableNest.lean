import Verif.ListTable
/-!
# Storing a table in a field of another table (lemmas)
-/

namespace Fbs
open CNode TI

theorem tailSum_cellsAt (x : Nat) (ps : List Bytes) : tailSum (cellsAt x ps) = tot ps := by
  unfold tailSum
  induction ps generalizing x with
  | nil => rfl
  | cons w ps ih => rw [cellsAt, List.map_cons, List.sum_cons, ih, tot_cons]

/-- Inserting space behind the table. -/
theorem TI.insert_end {nm : Name} {n t : Nat} {c : CNode} {vo : Nat → Nat} {fx : Nat → Option Bytes} (h : TI nm n c t vo fx)
    (size : Nat) (cr : Bool) (c' : CNode)
    (hc : c'.name = c.name ∧ c'.pos = c.pos ∧ c'.io = c.io.insertSpace (4 + 2 * n + t) size cr) : TI nm n c' t vo fx := by
  obtain ⟨e1, e2, e3⟩ := hc
  have hl := h.len
  refine h.mono c' e1 e2 ?_ ?_ ?_
  · intro x v hv hx; rw [e3]; exact holds_insertSpace_lt h.clean hv hx
  · rw [e3]; exact clean_insertSpace h.clean (Or.inl ⟨Nat.le_refl _, h.clean⟩)
  · rw [e3, (insertSpace_diffs h.clean cr).1, if_neg (by omega)]; exact hl

theorem TI.cellular_insert_end {nm : Name} {n t : Nat} {c : CNode} {vo : Nat → Nat} {fx : Nat → Option Bytes} (h : TI nm n c t vo fx)
    {z : Nat} (hC : Cellular n t c.io vo fx [] z) (size : Nat) (cr : Bool) :
    Cellular n t (c.io.insertSpace (4 + 2 * n + t) size cr) vo fx [] (z + size) := by
  have hl := h.len
  obtain ⟨h1, h2⟩ := insertSpace_diffs (size := size) h.clean cr
  rw [if_neg (by omega)] at h1
  rw [if_neg (by omega)] at h2
  refine ⟨?_, by rw [h1]; exact hC.base, hC.tile, hC.last⟩
  intro d hd
  rw [h2] at hd
  simp only [List.nil_append, List.mem_append, List.mem_map] at hd
  rcases hd with ⟨d0, hd0, rfl⟩ | hd
  · rcases hC.seg d0 hd0 with hc0 | hc0
    · have hlt := h.cell_le hc0
      unfold shiftD
      rw [if_neg (by omega)]
      exact Or.inl hc0
    · have hge := outer_ge hc0
      unfold shiftD
      rw [if_pos hge]
      refine Or.inr (Or.inr ?_)
      rcases hc0 with ⟨q, hq, -⟩ | hc0
      · cases hq
      simp only [tailSum, List.map_nil, List.sum_nil, Nat.add_zero] at hc0 ⊢; omega
  · split at hd
    · simp only [List.mem_singleton] at hd
      subst hd
      exact Or.inr (Or.inr (by simp [tailSum, Slice.make, Slice.len, zeros]))
    · cases hd

/-- Without initial bytes behind the destination, `Copy` makes room like `insertSpace`. -/
theorem copyExtend_insert {b : Base} {dst ext : Nat} (hlen : b.bytes.len ≤ dst) (hcl : Clean b dst) :
    (b.copyExtend dst ext).bytes = (b.insertSpace dst ext false).bytes ∧
      (b.copyExtend dst ext).diffs = (b.insertSpace dst ext false).diffs := by
  obtain ⟨h1, h2⟩ := insertSpace_diffs (size := ext) hcl false
  rw [h1, h2, if_neg (by omega), if_neg (by omega)]
  unfold Base.copyExtend
  simp only [if_neg (show ¬ b.bytes.len > dst by omega)]
  refine ⟨trivial, ?_⟩
  simp only [List.nil_append, Bool.false_eq_true, if_false, List.append_nil]
  rfl

/-- A copy into the room it makes itself. -/
theorem copy_room {b src : Base} {so dst ext : Nat} {ps : List Bytes} (h : Reads src so ps) (hlen : b.bytes.len ≤ dst)
    (hcl : Clean b dst) (he : tot ps ≤ ext) :
    (b.copy (fun p n => src.R p n) so (tot ps) dst ext).bytes = b.bytes ∧
    (∀ {x : Nat} {v : Bytes}, Holds b x v → x + v.length ≤ dst →
      Holds (b.copy (fun p n => src.R p n) so (tot ps) dst ext) x v) ∧
    Clean (b.copy (fun p n => src.R p n) so (tot ps) dst ext) dst ∧
    HoldsC (b.copy (fun p n => src.R p n) so (tot ps) dst ext) (cellsAt dst ps) := by
  obtain ⟨e1, e2⟩ := copyExtend_insert (ext := ext) hlen hcl
  obtain ⟨pd, h1, h2⟩ := copyLoop_reads (dst := dst) (done := 0) (by rw [Nat.add_zero]; exact h) (b.copyExtend dst ext).diffs
  rw [Nat.zero_add] at h2
  have hb1 : (b.copy (fun p n => src.R p n) so (tot ps) dst ext).bytes = ((b.insertSpace dst ext false).apps pd).bytes := by
    unfold Base.copy Base.apps; simp only; exact e1
  have hb2 : (b.copy (fun p n => src.R p n) so (tot ps) dst ext).diffs = ((b.insertSpace dst ext false).apps pd).diffs := by
    unfold Base.copy Base.apps; simp only; rw [h1, e2]
  have hne := reads_ne h
  refine ⟨?_, ?_, ?_, ?_⟩
  · rw [hb1]
    show (b.insertSpace dst ext false).bytes = _
    rw [(insertSpace_diffs (size := ext) hcl false).1, if_neg (by omega)]
  · intro x v hv hx
    exact holds_congr hb1 hb2 (apps_other h2 (holds_insertSpace_lt hcl hv hx) (Or.inl hx))
  · have := apps_clean (b := b.insertSpace dst ext false) h2 (x := dst)
      (clean_insertSpace hcl (Or.inl ⟨Nat.le_refl _, hcl⟩)) (Or.inl (Nat.le_refl _))
    intro d hd
    rw [hb2] at hd
    exact this d hd
  · have := apps_same (b := b.insertSpace dst ext false) h2 hne (by
      intro c hc
      have hm := cellsAt_mem hc
      have hn := noCut_insertSpace (size := ext) hcl (cr := false)
      rw [noCut_iff] at hn ⊢
      intro e hE
      have := hn e hE
      omega)
    intro c hc
    exact holds_congr hb1 hb2 (this c hc)

theorem pieces_diff {pd : List Diff} {x : Nat} {ps : List Bytes} (h : pd.map diffCell = cellsAt x ps) {d : Diff} (hd : d ∈ pd) :
    ∃ q ∈ cellsAt 0 ps, d.off = x + q.1 ∧ d.sl.len = q.2.length := by
  have h1 : diffCell d ∈ cellsAt x ps := by rw [← h]; exact List.mem_map_of_mem hd
  have h2 := cellsAt_shift 0 x ps
  rw [Nat.zero_add] at h2
  rw [h2, List.mem_map] at h1
  obtain ⟨q, q1, q2⟩ := h1
  have e1 : d.off = q.1 + x := congrArg Prod.fst q2.symm
  have e2 : d.sl.data = q.2 := congrArg Prod.snd q2.symm
  exact ⟨q, q1, by omega, by rw [← e2]; rfl⟩

/-- What lies behind is moved away, what is copied takes its place. -/
theorem TI.cellular_copy_room {nm : Name} {n t : Nat} {c : CNode} {vo : Nat → Nat} {fx : Nat → Option Bytes} (h : TI nm n c t vo fx)
    {z : Nat} (hC : Cellular n t c.io vo fx [] z) {src : Base} {so : Nat} {ps : List Bytes} (hr : Reads src so ps) :
    Cellular n t (c.io.copy (fun p n => src.R p n) so (tot ps) (4 + 2 * n + t) (tot ps)) vo fx (cellsAt 0 ps) z := by
  have hl := h.len
  obtain ⟨pd, h1, h2⟩ := copyLoop_reads (dst := 4 + 2 * n + t) (done := 0) (by rw [Nat.add_zero]; exact hr)
    (c.io.copyExtend (4 + 2 * n + t) (tot ps)).diffs
  rw [Nat.zero_add] at h2
  refine ⟨?_, ?_, hC.tile, hC.last⟩
  · intro d hd
    have hd : d ∈ Base.copyLoop (fun p n => src.R p n) so (4 + 2 * n + t) 0 (tot ps) (c.io.copyExtend (4 + 2 * n + t) (tot ps)).diffs := hd
    rw [h1, List.mem_append] at hd
    rcases hd with hd | hd
    · unfold Base.copyExtend at hd
      simp only [if_neg (show ¬ c.io.bytes.len > 4 + 2 * n + t by omega), List.mem_map] at hd
      obtain ⟨d0, hd0, rfl⟩ := hd
      rcases hC.seg d0 hd0 with hc0 | hc0
      · have hlt := h.cell_le hc0
        rw [if_neg (by omega)]
        exact Or.inl hc0
      · have hge := outer_ge hc0
        rw [if_pos hge]
        refine Or.inr (Or.inr ?_)
        rcases hc0 with ⟨q, hq, -⟩ | hc0
        · cases hq
        simp only [tailSum, List.map_nil, List.sum_nil, Nat.add_zero] at hc0
        rw [tailSum_cellsAt]; simp only; omega
    · exact Or.inr (Or.inl (pieces_diff h2 hd))
  · exact hC.base

/-- Copied behind everything, pieces become cells. -/
theorem copyEnd_reads {src : Base} {sp : Nat} {ps : List Bytes} (hr : Reads src sp ps) : CopyEnd src sp (tot ps) (cellsAt 0 ps) := by
  intro b dst hlen hb hcl
  obtain ⟨pd, h1, h2⟩ := copy_reads (dst := dst) hr hlen
  rw [h1]
  refine ⟨rfl, fun hv hx => apps_other h2 hv (Or.inl hx), apps_clean h2 hcl (Or.inl (Nat.le_refl _)), ?_, ?_⟩
  · intro q hq
    have h3 := apps_same h2 (reads_ne hr) (b := b) (by
      intro c hc
      have hm := cellsAt_mem hc
      rw [noCut_iff]
      rintro e (he | ⟨d, hd, he | he⟩)
      · omega
      · have := hb d hd; omega
      · have := hb d hd; have := hcl d hd; unfold Straddles at this; omega)
    refine h3 (dst + q.1, q.2) ?_
    have h4 := cellsAt_shift 0 dst ps
    rw [Nat.zero_add] at h4
    rw [h4, List.mem_map]
    exact ⟨q, hq, by rw [Nat.add_comm]⟩
  · intro d hd
    rcases List.mem_append.mp hd with hd | hd
    · exact Or.inl hd
    · exact Or.inr (pieces_diff h2 hd)

/-- `f` is a table that may be stored in field `i`: its virtual table of `vs` bytes directly in front, `m` bytes
of data. -/
structure TabSrc (s : Sch) (fuel : Nat) (nm : Name) (i : Nat) (fd : FieldT) (f : CNode) (ps : List Bytes) (m : Nat) : Prop where
  fld  : (s.fields nm)[i]? = some fd
  grp  : fd.grp = ftTable ∨ fd.grp = ftUnion
  name : f.name = fd.tname ∨ (fd.grp = ftUnion ∧ f.name ∈ (s.unions fd.tname).getD [])
  vpos : 4 + 2 * (s.fields f.name).length ≤ f.pos
  vsm  : 4 + 2 * (s.fields f.name).length < 65536
  mem  : Reads f.io (f.pos - (4 + 2 * (s.fields f.name).length)) ps
  len  : tot ps = 4 + 2 * (s.fields f.name).length + m
  mpos : 0 < m
  size : f.size = m ∨ (f.size ≤ 0 ∧ ∃ v, infoF s fuel (some f) = some v ∧ v.size = m)

/-- A table behind the table. -/
def tabTail (vs : Nat) (ps : List Bytes) : Tail := ⟨vs, cellsAt 0 ps⟩

theorem set_table {s : Sch} {nm : Name} (hs : SchOk s nm) {fuel : Nat} {c : CNode} {cur : Nat → Option Bytes}
    (h : Rep s nm c cur none) {i : Nat} {fd : FieldT} {f : CNode} {ps : List Bytes} {m : Nat}
    (hsrc : TabSrc s fuel nm i fd f ps m) (hvi : ∃ v, valueInfoF s fuel c i = some v) :
    ∃ c', c.setFieldAt s fuel i f = some (c', none) ∧
      Rep s nm c' (fun j => if j = i then some ps.flatten else cur j) (some (i, tabTail (4 + 2 * (s.fields f.name).length) ps)) := by
  obtain ⟨t, vo, fx, hT, hV, hI, hN, hB, hW, ht, hCel, hsz⟩ := h.ex
  have hfd := hsrc.fld
  have hg : VarGrp fd.grp := Or.inr hsrc.grp
  have hin : i < (s.fields nm).length := (List.getElem?_eq_some_iff.mp hfd).1
  have hfT := hT.fieldT_eq hfd
  have hng : ¬ InlGrp fd.grp := fun hh => inlGrp_notVec hh hg
  have hfx : fx i = none := by
    rcases hN i fd hfd hng with ⟨h1, -⟩ | ⟨d, h1, -⟩
    · exact h1
    · cases h1
  have hw4 : fieldWidth s fd = 4 := by
    unfold fieldWidth; rw [if_neg (by rcases hsrc.grp with h | h <;> rw [h] <;> decide), if_pos hg]
  have hroom := room hW ht hfd hfx hs.hb
  rw [hw4] at hroom
  obtain ⟨c1, hc1, hT1, hV1, hG1, hz1⟩ := hT.insertVTable (fuel := fuel) rfl hs.tn hs.st hV hB (by
    intro j hj hjf
    obtain ⟨fj, hfj⟩ : ∃ fj, (s.fields nm)[j]? = some fj := ⟨_, List.getElem?_eq_getElem hj⟩
    by_cases hgj : InlGrp fj.grp
    · exact Or.inl (inlGrp_inl hfj hgj)
    · rcases hN j fj hfj hgj with ⟨h1, -⟩ | ⟨d, h1, -⟩
      · exact absurd h1 hjf
      · exact Or.inr ⟨d, h1⟩) hin hfx (by omega) hroom
  have hfx1 : grownFx t 4 i vo fx none i = some (zeros 4) := by unfold grownFx; rw [if_pos rfl]
  generalize hvs : 4 + 2 * (s.fields f.name).length = vs
  have hvsm := hsrc.vsm
  have hvpos := hsrc.vpos
  have hlen := hsrc.len
  have hmem := hsrc.mem
  rw [hvs] at hvsm hvpos hlen hmem
  generalize hn : (s.fields nm).length = n at *
  have hz : (putLE 4 (vs + 4)).length = (zeros 4).length := by rw [putLE_length]; simp [zeros]
  -- room behind the table
  have hT2 := hT1.insert_end (vs + m) true
    (withIO c1 c1.tlen (c1.io.insertSpace (4 + 2 * n + (t + 4)) (vs + m) true)) ⟨rfl, rfl, rfl⟩
  -- the offset
  have hT3 := hT2.write hin hfx1 hz (withIO c1 c1.tlen ((c1.io.insertSpace (4 + 2 * n + (t + 4)) (vs + m) true).updateU
    (4 + 2 * n + t) 4 (putLE 4 (vs + 4)))) ⟨rfl, rfl, by simp only [if_true, putLE_length, withIO]⟩
  generalize hb3 : (c1.io.insertSpace (4 + 2 * n + (t + 4)) (vs + m) true).updateU (4 + 2 * n + t) 4 (putLE 4 (vs + 4)) = b3 at hT3
  have hlen3 : b3.bytes.len ≤ 4 + 2 * n + (t + 4) := hT3.len
  have hcl3 : Clean b3 (4 + 2 * n + (t + 4)) := hT3.clean
  obtain ⟨k1, k2, k3, k4⟩ := copy_room (ext := vs + m) hmem hlen3 hcl3 (by omega)
  generalize hb4 : b3.copy (fun p n => f.io.R p n) (f.pos - vs) (tot ps) (4 + 2 * n + (t + 4)) (vs + m) = b4 at k1 k2 k3 k4
  have hT4 := hT3.mono (withIO c1 (t + 4) b4) rfl rfl k2 k3 (by show b4.bytes.len ≤ _; rw [k1]; exact hlen3)
  have hpl : CNode.preLoad b4 c1.pos = some (t + 4) := hT4.preLoad
  refine ⟨withIO c1 (t + 4) b4, ?_, ⟨t + 4, _, _, by rw [hn]; exact hT4, ?_, ?_, ?_, ?_, ?_, ?_, ?_, hz1.trans hsz⟩⟩
  · unfold CNode.setFieldAt
    have hsame : c.isSameType s i f = true := by
      unfold CNode.isSameType
      rw [hfT]
      rcases hsrc.name with h1 | ⟨h1, h2⟩
      · rw [if_pos h1.symm]
      · split
        · rfl
        · rw [h1]
          simp only [show isFieldUnion ftUnion = true by decide, Bool.true_and, List.any_eq_true, decide_eq_true_eq]
          exact ⟨_, h2, rfl⟩
    rw [hT.name, hn, if_neg (by omega), hsame, hs.st, hfT]
    have hg1 : isFieldSlice fd.grp = false ∧ (isFieldStruct fd.grp || isFieldBasicType fd.grp) = false ∧
        (isFieldUnion fd.grp || isFieldTable fd.grp) = true := by
      rcases hsrc.grp with h | h <;> rw [h] <;> decide
    obtain ⟨q1, q2, q3⟩ := hg1
    simp only
    rw [q1, q2, q3]
    simp only [Bool.not_true, Bool.false_eq_true, if_false, false_and, if_true, Int.toNat_natCast]
    have hset : c.setTable s fuel i f = some (withIO c1 (t + 4) b4) := by
      unfold CNode.setTable
      have hfs : (if f.size ≤ 0 then do
          let i ← infoF s fuel (some f)
          if i.size ≤ 0 then none
          return i.size
        else some f.size) = some (m : Int) := by
        have hm := hsrc.mpos
        rcases hsrc.size with h1 | ⟨h1, v, h2, h3⟩
        · rw [if_neg (by omega), h1]
        · rw [if_pos h1, h2]
          simp only [Option.bind_eq_bind, Option.bind_some]
          rw [if_neg (by omega), h3]; rfl
      obtain ⟨v, hv⟩ := hvi
      rw [hfs, hv, hT.isZero hin, hfx]
      simp only [Option.bind_eq_bind, Option.bind_some, Option.isNone_none, if_true]
      rw [hc1]
      simp only [Option.bind_some]
      have evs : (s.fields f.name).length * 2 + 4 = vs := by omega
      rw [evs]
      have hins : c1.insertSpace s fuel (4 + 2 * n + t + 4) (vs + (m : Int).toNat) true =
          some (withIO c1 c1.tlen (c1.io.insertSpace (4 + 2 * n + (t + 4)) (vs + m) true)) := by
        rw [CNode.insertSpace_out hT1.inRoot, hT1.isList hs.tn]
        simp only [Option.bind_eq_bind, Option.bind_some, Bool.false_eq_true, if_false, hT1.pos]
        rw [if_neg (by omega)]
        simp only [withIO, hT1.pos, Int.toNat_natCast, pure]
        rfl
      rw [hins]
      simp only [Option.bind_some]
      unfold Base.putN
      rw [if_neg (by omega)]
      simp only [Option.bind_some, Int.toNat_natCast]
      have hcp : b3.copyI f.io ((f.pos : Int) - (vs : Int)) ((m : Int) + (vs : Int)) (((4 + 2 * n + t : Nat) : Int) + 4) ((m : Int) + (vs : Int)) = some b4 := by
        unfold Base.copyI
        rw [if_neg (by omega), if_neg (by omega), if_pos (by omega), ← hb4]
        congr 2 <;> omega
      simp only [withIO]
      rw [hb3, hcp]
      simp only [Option.bind_some]
      rw [hpl]
      rfl
    rw [hset]
    rfl
  · refine ⟨hn ▸ hin, by simpa [tabTail] using hvsm, ?_, ?_⟩
    · simp only [if_true, tabTail]; congr 2; omega
    · intro q hq
      have hq' : (4 + 2 * n + (t + 4) + q.1, q.2) ∈ cellsAt (4 + 2 * n + (t + 4)) ps := by
        have := cellsAt_shift 0 (4 + 2 * n + (t + 4)) ps
        rw [Nat.zero_add] at this
        rw [this, List.mem_map]
        exact ⟨q, hq, by rw [Nat.add_comm q.1]⟩
      rw [hn]
      exact k4 _ hq'
  · intro j fj hj hgj
    have hji : j ≠ i := by rintro rfl; rw [hfd] at hj; cases hj; exact hng hgj
    simp only [if_neg hji]
    unfold grownFx
    rw [if_neg hji]; exact hI j fj hj hgj
  · intro j fj hj hgj
    by_cases hji : j = i
    · subst hji; exact Or.inr ⟨_, rfl, by simp⟩
    · simp only [if_neg hji]
      rcases hN j fj hj hgj with ⟨h1, h2, -⟩ | ⟨d, h1, -⟩
      · refine Or.inl ⟨?_, h2, ?_⟩
        · unfold grownFx; rw [if_neg hji]; exact h1
        · intro d hd; cases hd; exact hji rfl
      · cases h1
  · intro p hp
    cases hp
    exact ⟨fd, hfd, hg⟩
  · intro j fj v hj hv
    by_cases hji : j = i
    · subst hji; simp only [if_true] at hv; cases hv; rw [hfd] at hj; cases hj; rw [putLE_length, hw4]
    · simp only [if_neg hji] at hv
      unfold grownFx at hv
      rw [if_neg hji] at hv
      exact hW j fj v hj hv
  · rw [ht, Nat.add_assoc, hn]
    congr 1
    symm
    apply sum_range_update _ i _ _ _ hin
    · intro j hji
      simp only [if_neg hji]
      unfold grownFx
      rw [if_neg hji]
    · simp only [if_true, hfx, Option.map_some, Option.getD_some, Option.map_none, Option.getD_none, putLE_length]
  · intro _
    rw [hn]
    have hG := hT.cellular_growV (hCel trivial) hV hin hfx (by omega) hroom
    rw [← hG1] at hG
    have hE := hT1.cellular_insert_end hG (vs + m) true
    have hU := hT2.cellular_update hE hin hfx1 hz
    rw [if_pos rfl, putLE_length] at hU
    have hU' := hT3.cellular_copy_room (z := vs + m) (show Cellular n (t + 4) _ _ _ [] (vs + m) by rw [← hb3]; rw [show tailSlack none = 0 from rfl, Nat.zero_add] at hU; exact hU) hmem
    have e : tot ps = vs + m := hlen
    rw [show b3.copy (fun p n => f.io.R p n) (f.pos - vs) (tot ps) (4 + 2 * n + (t + 4)) (vs + m) =
      b3.copy (fun p n => f.io.R p n) (f.pos - vs) (tot ps) (4 + 2 * n + (t + 4)) (tot ps) by rw [e]] at hb4
    rw [← hb4]
    have ez : tailSlack (some (i, tabTail vs ps)) = vs + m := by
      show (if vs = 0 then 0 else tailSum (cellsAt 0 ps)) = vs + m
      rw [if_neg (by omega), tailSum_cellsAt, e]
    rw [ez]
    exact hU'

/-- Reading back: the field leads to the table, whose pieces are all there. -/
theorem rep_table {s : Sch} {nm : Name} {c : CNode} {cur : Nat → Option Bytes}
    {i vs : Nat} {ps : List Bytes} (h : Rep s nm c cur (some (i, tabTail vs ps))) (hi : i < (s.fields nm).length) :
    ∃ x, c.table i = some ((x + vs : Nat) : Int) ∧ c.isZero i = some false ∧ HoldsC c.io (cellsAt x ps) := by
  obtain ⟨t, vo, fx, hT, hV, hI, hN, hB, hW, ht, hCel, hsz⟩ := h.ex
  obtain ⟨-, hg, hfx, hH⟩ := hV
  have hfl := hT.fld i hi _ hfx
  rw [putLE_length] at hfl
  have htt := hT.ht
  refine ⟨4 + 2 * (s.fields nm).length + t, ?_, ?_, ?_⟩
  · simp only [tabTail] at hfx hg
    rw [hT.table_present hi hfx (by omega)]
    congr 2
    omega
  · rw [hT.isZero hi, hfx]; rfl
  · intro q hq
    have := cellsAt_shift 0 (4 + 2 * (s.fields nm).length + t) ps
    rw [Nat.zero_add] at this
    rw [this, List.mem_map] at hq
    obtain ⟨q', hq', rfl⟩ := hq
    have := hH q' hq'
    rw [Nat.add_comm] at this
    exact this

end Fbs
