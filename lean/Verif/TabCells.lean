import Verif.Props.Message
/-!
# Reading a table anywhere in a buffer from its cells
-/

namespace Fbs.Props
open Fbs CNode

theorem holds_lenBuf {b : Base} {x : Nat} {w : Bytes} (h : Holds b x w) : x + w.length ≤ b.lenBuf := by
  have h1 := (holds_flattened h).1
  rw [(flatten_bytes b).1] at h1
  exact h1

/-- The table at `x` with its inline fields. -/
structure FldAt (b : Base) (x n : Nat) (vo : Nat → Nat) (fx : Nat → Option Bytes) : Prop where
  tab : TabAt b x n vo
  abs : ∀ i, i < n → fx i = none → vo i = 0
  fld : ∀ i, i < n → ∀ w, fx i = some w → vo i ≠ 0 ∧ Holds b (x + (4 + 2 * n) + vo i) w

section
variable {b : Base} {x n : Nat} {vo : Nat → Nat}

theorem TabAt_vtab (h : TabAt b x n vo) {c : CNode} (hio : c.io = b) (hp : c.pos = x + (4 + 2 * n)) {i : Nat} (hi : i < n) :
    c.vtab i = some (c.pos + vo i) := by
  obtain ⟨h1, h2⟩ := h.slot i hi
  have h3 := holds_getN h.soff
  have h4 := holds_getN h2
  have h5 := holds_lenBuf h.soff
  have hh := h.hp
  rw [putLE_length] at h5
  rw [Nat.mod_eq_of_lt (by omega)] at h3 h4
  unfold CNode.vtab CNode.u32 CNode.u16
  rw [hio, hp, h3]
  simp only [Option.bind_eq_bind, Option.bind_some]
  rw [if_neg (by omega), show (((x + (4 + 2 * n) : Nat) : Int) - ((4 + 2 * n : Nat) : Int) + 4 + (i : Int) * 2) = ((x + (4 + 2 * i) : Nat) : Int) by omega, h4]
  rfl

theorem TabAt_isZero (h : TabAt b x n vo) {c : CNode} (hio : c.io = b) (hp : c.pos = x + (4 + 2 * n)) {i : Nat} (hi : i < n) :
    c.isZero i = some (decide (vo i = 0)) := by
  unfold CNode.isZero
  rw [TabAt_vtab h hio hp hi]
  simp only [Option.bind_eq_bind, Option.bind_some, pure]
  congr 1
  by_cases h0 : vo i = 0
  · simp [h0]
  · rw [decide_eq_false h0]
    simp only [beq_eq_false_iff_ne, ne_eq]
    omega

theorem TabAt_preLoop (h : TabAt b x n vo) (m i : Nat) (hm : i + m ≤ n) :
    CNode.preLoop b ((x + (4 + 2 * i) : Nat) : Int) m = some () := by
  induction m generalizing i with
  | zero => rfl
  | succ m ih =>
    unfold CNode.preLoop
    have h1 := holds_read (h.slot i (by omega)).2 2
    have := ih (i + 1) (by omega)
    rw [show ((x + (4 + 2 * (i + 1)) : Nat) : Int) = ((x + (4 + 2 * i) : Nat) : Int) + 2 by omega] at this
    unfold Base.Ri
    rw [if_neg (by omega)]
    simp only [Option.bind_eq_bind, Option.bind_some, Int.toNat_natCast]
    rw [putLE_length] at h1
    rw [if_neg (by omega)]
    exact this

end

/-- The inline fields of a table read what its cells hold. -/
theorem fldAt_read {s : Sch} {nm : Name} (hst : s.isStruct nm = false) {b : Base} {x : Nat} {vo : Nat → Nat} {fx : Nat → Option Bytes}
    (h : FldAt b x (s.fields nm).length vo fx) {c : CNode} (hn : c.name = nm) (hio : c.io = b)
    (hp : c.pos = x + (4 + 2 * (s.fields nm).length)) {i : Nat} (hi : i < (s.fields nm).length)
    (hg : fx i ≠ none → InlGrp ((s.fields nm)[i]).grp) : FieldRead s nm c i (fx i) := by
  have hfT : c.fieldT s (i : Int) = (s.fields nm)[i] := by
    unfold CNode.fieldT
    rw [if_neg (by omega), hn, Int.toNat_natCast, List.getElem?_eq_getElem hi]; rfl
  constructor
  · intro hc
    unfold CNode.fieldAt
    rw [hn, hst, TabAt_isZero h.tab hio hp hi, h.abs i hi hc]
    rfl
  · intro w hc
    have hg := hg (by rw [hc]; simp)
    obtain ⟨h0, h1⟩ := h.fld i hi w hc
    have hH : Holds c.io (c.pos + vo i) w := by rw [hio, hp]; exact h1
    have key : ∃ nd, c.fieldAt s i = some (some nd) ∧ nd.name = ((s.fields nm)[i]).tname ∧ Holds nd.io nd.pos w := by
      unfold CNode.fieldAt
      rw [hn, hst, TabAt_isZero h.tab hio hp hi, hfT, TabAt_vtab h.tab hio hp hi]
      simp only [Option.bind_eq_bind, Option.bind_some, h0, decide_false, Bool.false_eq_true, if_false]
      by_cases hstr : ((s.fields nm)[i]).grp = ftStruct
      · rw [if_pos (by rw [hstr]; decide)]
        exact ⟨_, rfl, rfl, hH⟩
      · obtain ⟨f1, f2, f3, f4, f5, f6⟩ := inlGrp_flags hg hstr
        simp only [f1, f2, f3, f4, f5, f6, if_true, Bool.false_eq_true, if_false]
        exact ⟨_, rfl, rfl, hH⟩
    obtain ⟨nd, n1, n2, n3⟩ := key
    exact ⟨nd, n1, by rw [n2, List.getElem?_eq_getElem hi]; rfl, holds_getN' n3, fun req => (holds_read n3 req).2⟩

/-- A byte vector of a table reads what its cells hold. -/
theorem fldAt_vector {s : Sch} {nm : Name} (hst : s.isStruct nm = false) {b : Base} {x : Nat} {vo : Nat → Nat} {fx : Nat → Option Bytes}
    (h : FldAt b x (s.fields nm).length vo fx) {c : CNode} (hn : c.name = nm) (hio : c.io = b)
    (hp : c.pos = x + (4 + 2 * (s.fields nm).length)) {i : Nat} {fd : FieldT} (hfd : (s.fields nm)[i]? = some fd)
    (hg : fd.grp = ftSlice ||| ftBasic1) {off : Nat} {data : Bytes} (hoff : off < 4294967296) (hfx : fx i = some (putLE 4 off))
    (hH : Holds b (c.pos + vo i + off) (putLE 4 data.length ++ data)) (hd : data.length < 4294967296) :
    ∃ nd, c.fieldAt s i = some (some nd) ∧ CNode.bytes (some nd) = some data := by
  have hi := (List.getElem?_eq_some_iff.mp hfd).1
  obtain ⟨g0, g3⟩ := h.fld i hi _ hfx
  rw [← hp] at g3
  have hfT : c.fieldT s (i : Int) = fd := by
    unfold CNode.fieldT
    rw [if_neg (by omega), hn, Int.toNat_natCast, hfd]; rfl
  have hl4 : (putLE 4 data.length ++ data).length = 4 + data.length := by rw [List.length_append, putLE_length]
  have hlen : b.getN 4 ((c.pos + vo i + off : Nat) : Int) = some data.length := by
    have hh := holds_sub hH 0 4 (by omega) (by omega)
    rw [List.drop_zero, List.take_append_of_le_length (by rw [putLE_length]; exact Nat.le_refl _),
      List.take_of_length_le (by rw [putLE_length]; exact Nat.le_refl _), Nat.add_zero] at hh
    rw [holds_getN hh, Nat.mod_eq_of_lt (by omega)]
  have hoff : b.getN 4 ((c.pos + vo i : Nat) : Int) = some off := by
    rw [holds_getN g3, Nat.mod_eq_of_lt (by omega)]
  have hinfo : c.infoPosList i = some { pos := ((c.pos + vo i + off : Nat) : Int) + 4, size := 0, vlen := data.length } := by
    unfold CNode.infoPosList
    rw [TabAt_vtab h.tab hio hp hi, TabAt_isZero h.tab hio hp hi]
    simp only [Option.bind_eq_bind, Option.bind_some, g0, decide_false, Bool.false_eq_true, if_false]
    unfold CNode.u32
    rw [hio, hoff]
    simp only [Option.bind_some]
    rw [show ((c.pos + vo i : Nat) : Int) + (off : Int) = ((c.pos + vo i + off : Nat) : Int) by omega, hlen]
    rfl
  refine ⟨{ name := fd.tname, io := c.io, pos := c.pos + vo i + off + 4, size := data.length,
            vi := { pos := ((c.pos + vo i + off : Nat) : Int) + 4, size := data.length, vlen := data.length } }, ?_, ?_⟩
  · unfold CNode.fieldAt
    rw [hn, hst, TabAt_isZero h.tab hio hp hi, hfT, hinfo]
    simp only [Option.bind_eq_bind, Option.bind_some, g0, decide_false, Bool.false_eq_true, if_false]
    rw [if_neg (by rw [hg]; decide), if_neg (by rw [hg]; decide), if_pos (by rw [hg]; decide)]
    simp only [pure]
    congr 3
  · unfold CNode.bytes
    simp only
    rw [if_neg (by omega)]
    unfold CNode.R Base.Ri
    rw [if_neg (by omega)]
    simp only [Option.bind_eq_bind, Option.bind_some, Int.toNat_natCast]
    by_cases he : data = []
    · subst he
      simp [Slice.takeTo]
    · have hh := holds_sub hH 4 data.length (List.length_pos_iff.mpr he) (by omega)
      rw [List.drop_append_of_le_length (by rw [putLE_length]; exact Nat.le_refl _),
        List.drop_of_length_le (by rw [putLE_length]; exact Nat.le_refl _), List.nil_append, List.take_length] at hh
      rw [hio]
      obtain ⟨h1, h2⟩ := holds_read hh data.length
      unfold Slice.takeTo
      simp only [Slice.len] at h1
      rw [if_pos (by simp only [Slice.cap]; omega)]
      simp only [Option.bind_some, pure, Slice.arr]
      rw [List.take_append_of_le_length h1, h2]

/-- The cells of a table built by the API. -/
theorem TI_fldAt {nm : Name} {n t : Nat} {c : CNode} {vo : Nat → Nat} {fx : Nat → Option Bytes} (h : TI nm n c t vo fx) :
    FldAt c.io 0 n vo fx :=
  ⟨TI_tabAt h, h.abs, fun i hi w hw => ⟨by have := (h.fld i hi w hw).1; omega, by rw [Nat.zero_add]; exact (h.fld i hi w hw).2.2⟩⟩

/-- Moving all cells by `k`. -/
theorem FldAt_move {b b' : Base} {x n k : Nat} {vo : Nat → Nat} {fx : Nat → Option Bytes} (h : FldAt b x n vo fx)
    (hm : ∀ y w, Holds b y w → Holds b' (y + k) w) : FldAt b' (x + k) n vo fx := by
  have e : ∀ y, x + k + y = x + y + k := by omega
  refine ⟨⟨h.tab.hp, hm _ _ h.tab.vl, by rw [e]; exact hm _ _ h.tab.soff, fun i hi => ⟨(h.tab.slot i hi).1, by rw [e]; exact hm _ _ (h.tab.slot i hi).2⟩⟩,
    h.abs, fun i hi w hw => ⟨(h.fld i hi w hw).1, ?_⟩⟩
  rw [Nat.add_assoc, e, ← Nat.add_assoc]
  exact hm _ _ (h.fld i hi w hw).2

end Fbs.Props
