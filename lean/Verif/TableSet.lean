import Verif.TableInv
/-!
# What `Init` and `SetFieldAt` do to the table invariant (lemmas)
-/

namespace Fbs
open TI

/-- Bytes a field occupies inside the table. -/
def fieldWidth (s : Sch) (f : FieldT) : Nat :=
  if f.grp = ftStruct then sumSize (s.fields f.tname) else if VarGrp f.grp then 4 else f.size

def InlGrp (g : Nat) : Prop := g = ftStruct ∨ g = ftBasic1 ∨ g = ftBasic2 ∨ g = ftBasic4 ∨ g = ftBasic8

/-- `f` is a scalar or struct value `w` that may be stored in field `i`: its name is the declared one, it
has the width of the field, and its bytes lie in one piece of its buffer. -/
def InlSrc (s : Sch) (nm : Name) (i : Nat) (f : CNode) (w : Bytes) : Prop :=
  ∃ fd, (s.fields nm)[i]? = some fd ∧ InlGrp fd.grp ∧ f.name = fd.tname ∧ w.length = fieldWidth s fd ∧
    Holds f.io f.pos w ∧
    (fd.grp = ftStruct → CNode.directSize s fd.tname = some (some (sumSize (s.fields fd.tname))))

/-- `f` is a byte vector `data` that may be stored in field `i`. -/
def VecSrc (s : Sch) (fuel : Nat) (nm : Name) (i : Nat) (f : CNode) (data : Bytes) : Prop :=
  ∃ fd, (s.fields nm)[i]? = some fd ∧ fd.grp = ftSlice ||| ftBasic1 ∧ f.name = fd.tname ∧
    4 ≤ f.vi.pos ∧ f.vi.size = data.length ∧ Holds f.io (f.vi.pos.toNat - 4) (putLE 4 data.length ++ data) ∧
    (0 < f.size ∨ ∃ v, infoSliceF s fuel f = some v ∧ 0 ≤ v.size)

/-- `f` is a list that may be stored in field `i`: `W` is its count and what follows. -/
def SliceSrc (s : Sch) (fuel : Nat) (nm : Name) (i : Nat) (f : CNode) (W : Bytes) : Prop :=
  ∃ fd, (s.fields nm)[i]? = some fd ∧ isFieldSlice fd.grp = true ∧ f.name = fd.tname ∧
    4 ≤ f.vi.pos ∧ f.vi.size + 4 = W.length ∧ Holds f.io (f.vi.pos.toNat - 4) W ∧
    (0 < f.size ∨ ∃ v, infoSliceF s fuel f = some v ∧ 0 ≤ v.size)

theorem inlGrp_inl {s : Sch} {nm : Name} {i : Nat} {fd : FieldT} (h : (s.fields nm)[i]? = some fd) (hg : InlGrp fd.grp) :
    Inl s nm i := by
  intro f hf
  rw [h] at hf; cases hf
  rcases hg with h | h | h | h | h <;> rw [h] <;> decide

/-- Value held by each field, as `fx` and `vec` represent it. -/
structure RepG (cel : Prop) (s : Sch) (nm : Name) (c : CNode) (cur : Nat → Option Bytes) (vec : Option (Nat × Tail)) : Prop where
  ex : ∃ t vo fx, TI nm (s.fields nm).length c t vo fx ∧ VecOk (s.fields nm).length t c vo fx vec ∧
    (∀ i fd, (s.fields nm)[i]? = some fd → InlGrp fd.grp → fx i = cur i) ∧
    (∀ i fd, (s.fields nm)[i]? = some fd → ¬ InlGrp fd.grp →
      (fx i = none ∧ cur i = none ∧ ∀ d, vec ≠ some (i, d)) ∨ (∃ d, vec = some (i, d) ∧ cur i ≠ none)) ∧
    (∀ p ∈ vec, ByteVec s nm p.1) ∧
    (∀ i fd w, (s.fields nm)[i]? = some fd → fx i = some w → w.length = fieldWidth s fd) ∧
    t = 4 + ((List.range (s.fields nm).length).map (fun i => ((fx i).map List.length).getD 0)).sum ∧
    (cel → Cellular (s.fields nm).length t c.io vo fx (tailCells vec) (tailSlack vec)) ∧ c.size = -1

/-- The same, made by `Init` and settings: the buffer consists of the pieces written. -/
abbrev Rep := RepG True

/-! ## sums -/

theorem sum_range_update (n idx k : Nat) (g g' : Nat → Nat) (hi : idx < n) (h : ∀ i, i ≠ idx → g' i = g i)
    (hk : g' idx = g idx + k) :
    ((List.range n).map g').sum = ((List.range n).map g).sum + k := by
  induction n with
  | zero => omega
  | succ n ih =>
    rw [List.range_succ, List.map_append, List.map_append, List.sum_append, List.sum_append]
    simp only [List.map_cons, List.map_nil, List.sum_cons, List.sum_nil]
    by_cases hn : idx = n
    · subst hn
      have : (List.range idx).map g' = (List.range idx).map g := by
        apply List.map_congr_left
        intro i hi; rw [List.mem_range] at hi; exact h i (by omega)
      rw [this, hk]; omega
    · rw [ih (by omega), h n (fun e => hn e.symm)]; omega

theorem sum_range_le (n : Nat) (g g' : Nat → Nat) (h : ∀ i, i < n → g i ≤ g' i) :
    ((List.range n).map g).sum ≤ ((List.range n).map g').sum := by
  induction n with
  | zero => simp
  | succ n ih =>
    rw [List.range_succ, List.map_append, List.map_append, List.sum_append, List.sum_append]
    simp only [List.map_cons, List.map_nil, List.sum_cons, List.sum_nil]
    have := ih (fun i hi => h i (by omega))
    have := h n (by omega)
    omega

theorem map_eq_range {α : Type} (l : List α) (w : α → Nat) :
    (l.map w) = (List.range l.length).map (fun i => (l[i]?.map w).getD 0) := by
  apply List.ext_getElem
  · simp
  · intro i h1 h2
    rw [List.length_map] at h1
    simp [List.getElem?_eq_getElem h1]

/-- Room for one more absent field. -/
theorem room {s : Sch} {nm : Name} {fx : Nat → Option Bytes} {t idx : Nat} {fd : FieldT}
    (hw : ∀ i fd w, (s.fields nm)[i]? = some fd → fx i = some w → w.length = fieldWidth s fd)
    (ht : t = 4 + ((List.range (s.fields nm).length).map (fun i => ((fx i).map List.length).getD 0)).sum)
    (hi : (s.fields nm)[idx]? = some fd) (hf : fx idx = none)
    (hb : 4 + ((s.fields nm).map (fieldWidth s)).sum < 65536) : t + fieldWidth s fd < 65536 := by
  have hidx : idx < (s.fields nm).length := (List.getElem?_eq_some_iff.mp hi).1
  let g' : Nat → Nat := fun i => if i = idx then fieldWidth s fd else ((fx i).map List.length).getD 0
  have h1 := sum_range_update (s.fields nm).length idx (fieldWidth s fd) (fun i => ((fx i).map List.length).getD 0) g' hidx
    (fun i hi => if_neg hi) (by simp only [g', if_true, hf]; simp)
  have h2 : ((List.range (s.fields nm).length).map g').sum ≤ ((s.fields nm).map (fieldWidth s)).sum := by
    rw [map_eq_range (s.fields nm)]
    apply sum_range_le
    intro i hin
    simp only [g', List.getElem?_eq_getElem hin, Option.map_some, Option.getD_some]
    split
    · rename_i e; subst e; rw [List.getElem?_eq_getElem hin] at hi; cases hi; exact Nat.le_refl _
    · cases hfi : fx i with
      | none => simp
      | some w => rw [Option.map_some, Option.getD_some, hw i _ w (List.getElem?_eq_getElem hin) hfi]
                  exact Nat.le_refl _
  omega

theorem copyExtend_zero_diffs (b : Base) (dst : Nat) :
    (b.copyExtend dst 0).diffs =
      (if b.bytes.len > dst then [⟨dst, ⟨b.bytes.data.drop dst, b.bytes.spare⟩⟩] else []) ++ b.diffs := by
  unfold Base.copyExtend
  simp only [Nat.add_zero]
  have hmap : ∀ (l : List Diff), (l.map fun d => if d.off ≥ dst then (⟨d.off, d.sl⟩ : Diff) else d) = l := by
    intro l
    have : (fun d : Diff => if d.off ≥ dst then (⟨d.off, d.sl⟩ : Diff) else d) = id := by
      funext d; split <;> rfl
    rw [this, List.map_id]
  rw [hmap]
  split
  · rw [insertOr_zero]
  · rfl

theorem below_copy {b src : Base} {srcOff dst x : Nat} {w : Bytes} (h : Holds src srcOff w) (hb : Below b x)
    (hx : dst < x) : Below (b.copy (fun p n => src.R p n) srcOff w.length dst 0) x := by
  obtain ⟨sp, hc⟩ := copy_one (b := b) (dst := dst) (ext := 0) h
  rw [hc]
  intro d hd
  simp only [copyExtend_zero_diffs, List.mem_append, List.mem_singleton] at hd
  rcases hd with (hd | hd) | rfl
  · split at hd
    · simp only [List.mem_singleton] at hd; subst hd; exact hx
    · cases hd
  · exact hb d hd
  · exact hx

theorem copyI_zero (b src : Base) (sp k dst : Nat) :
    b.copyI src (sp : Int) (k : Int) (dst : Int) 0 = some (b.copy (fun p n => src.R p n) sp k dst 0) := by
  unfold Base.copyI
  rw [if_neg (by omega), if_neg (by omega), if_pos (by omega)]
  simp only [Int.toNat_natCast]
  rfl

/-- A table schema this file applies to. -/
structure SchOk (s : Sch) (nm : Name) : Prop where
  tn : TName nm
  st : s.isStruct nm = false
  hp : 4 + 2 * (s.fields nm).length < 65536
  hb : 4 + ((s.fields nm).map (fieldWidth s)).sum < 65536

theorem inlGrp_slice {g : Nat} (h : InlGrp g) : isFieldSlice g = false := by
  rcases h with h | h | h | h | h <;> rw [h] <;> decide

theorem inlGrp_basic {g : Nat} (h : InlGrp g) : (isFieldStruct g || isFieldBasicType g) = true := by
  rcases h with h | h | h | h | h <;> rw [h] <;> decide

theorem inlGrp_struct {g : Nat} (h : InlGrp g) : isFieldStruct g = decide (g = ftStruct) := by
  rcases h with h | h | h | h | h <;> rw [h] <;> decide

theorem inlGrp_notVec {g : Nat} (h : InlGrp g) : ¬ VarGrp g := by
  rcases h with h | h | h | h | h <;> rw [h] <;> decide

theorem varGrp_notStruct {g : Nat} (h : VarGrp g) : g ≠ ftStruct := by
  rintro rfl
  exact absurd h (by decide)

theorem set_inline {cel : Prop} {s : Sch} {nm : Name} (hs : SchOk s nm) {fuel : Nat} {c : CNode} {cur : Nat → Option Bytes}
    {vec : Option (Nat × Tail)} (h : RepG cel s nm c cur vec) {i : Nat} {f : CNode} {w : Bytes} (hsrc : InlSrc s nm i f w) :
    ∃ c', c.setFieldAt s (fuel + 1) i f = some (c', none) ∧ RepG cel s nm c' (fun j => if j = i then some w else cur j) vec := by
  obtain ⟨t, vo, fx, hT, hV, hI, hN, hB, hW, ht, hCel, hsz⟩ := h.ex
  obtain ⟨fd, hfd, hg, hname, hlen, hsrcH, hstr⟩ := hsrc
  have hin : i < (s.fields nm).length := (List.getElem?_eq_some_iff.mp hfd).1
  have hfT := hT.fieldT_eq hfd
  have hwpos : 0 < w.length := List.length_pos_iff.mpr hsrcH.1
  -- the vector is another field
  have hvne : ∀ j d, vec = some (j, d) → j ≠ i := by
    rintro j d rfl rfl
    obtain ⟨f', hf', hg'⟩ := hB (j, d) rfl
    rw [hfd] at hf'; cases hf'
    exact inlGrp_notVec hg hg'
  -- reduce to setScalar
  have e1 : c.setFieldAt s (fuel + 1) i f = (c.setScalar s (fuel + 1) i f).bind (fun c => some (c, none)) := by
    unfold CNode.setFieldAt
    have hsame : c.isSameType s i f = true := by
      unfold CNode.isSameType; rw [hfT, if_pos hname.symm]
    rw [hT.name, if_neg (by omega), hsame, hs.st, hfT]
    simp only
    rw [inlGrp_slice hg, inlGrp_basic hg]
    simp only [Bool.not_true, Bool.false_eq_true, if_false, false_and, if_true, Int.toNat_natCast]
    rfl
  have hT' : TI nm (s.fields nm).length (withIO c t c.io) t vo fx := ⟨hT.name, hT.pos, hT.hp, hT.ht, hT.t4, hT.soff, hT.vl,
    hT.tl, hT.slot, hT.abs, hT.fld, hT.disj, hT.clean, hT.len⟩
  have e2 : c.setScalar s (fuel + 1) i f = (do
      if !(fx i).isNone then
        let b := c.io.copy (fun p n => f.io.R p n) f.pos w.length (4 + 2 * (s.fields nm).length + vo i) 0
        return withIO c t b
      let (c, wPos) ← (withIO c t c.io).insertVTable s (fuel + 1) i w.length
      let b := c.io.copy (fun p n => f.io.R p n) f.pos w.length wPos 0
      let t ← CNode.preLoad b c.pos
      return { c with io := b, tlen := t }) := by
    unfold CNode.setScalar
    have hsz : (if isFieldStruct (c.fieldT s i).grp then do
          let i ← infoF s (fuel + 1) (some f)
          return i.size
        else some ((c.fieldT s i).size : Int)) = some (w.length : Int) := by
      rw [hfT, inlGrp_struct hg]
      by_cases he : fd.grp = ftStruct
      · rw [decide_eq_true he, if_pos rfl]
        unfold infoF
        rw [hname, hstr he]
        simp only [Option.bind_eq_bind, Option.bind_some, pure]
        rw [hlen]; unfold fieldWidth; rw [if_pos he]
      · rw [decide_eq_false he]
        simp only [Bool.false_eq_true, if_false]
        rw [hlen]; unfold fieldWidth; rw [if_neg he, if_neg (inlGrp_notVec hg)]
    simp only
    rw [hsz, hT.preLoad]
    simp only [Option.bind_eq_bind, Option.bind_some]
    have hz : ({ c with tlen := t } : CNode).isZero i = some (fx i).isNone := hT'.isZero hin
    have hv : ({ c with tlen := t } : CNode).vtab i = some (4 + 2 * (s.fields nm).length + vo i) := hT'.vtab hin
    rw [hz, hv]
    simp only [Option.bind_some, copyI_zero]
    rw [if_neg (show ¬ ((w.length : Int) < 0) by omega)]
    simp only [Int.toNat_natCast, Option.bind_some]
    rfl
  cases hfx : fx i with
  | some w0 =>
    have hw0 : w.length = w0.length := by rw [hW i fd w0 hfd hfx, hlen]
    refine ⟨withIO c t (c.io.copy (fun p n => f.io.R p n) f.pos w.length (4 + 2 * (s.fields nm).length + vo i) 0), ?_, ?_⟩
    · rw [e1, e2, hfx]; rfl
    have hC := hT.copy hin hfx hw0 hsrcH
      (withIO c t (c.io.copy (fun p n => f.io.R p n) f.pos w.length (4 + 2 * (s.fields nm).length + vo i) 0)) ⟨rfl, rfl, rfl⟩
    obtain ⟨g1, g2, g3⟩ := hT.fld i hin w0 hfx
    refine ⟨t, vo, _, hC, ?_, ?_, ?_, hB, ?_, ?_, fun hc => hT.cellular_copy (hCel hc) hin hfx hw0 hsrcH, hsz⟩
    · cases hvec : vec with
      | none =>
        rw [hvec] at hV
        exact below_copy hsrcH hV (by omega)
      | some p =>
        obtain ⟨j, d⟩ := p
        rw [hvec] at hV
        obtain ⟨v1, v0, v2, v3⟩ := hV
        refine ⟨v1, v0, ?_, ?_⟩
        · simp only [if_neg (hvne j d hvec)]; exact v2
        · exact fun q hq => holds_copy_other hsrcH (v3 q hq) (by omega)
    · intro j fj hj hgj
      by_cases hji : j = i
      · simp only [if_pos hji]
      · simp only [if_neg hji]; exact hI j fj hj hgj
    · intro j fj hj hgj
      have hji : j ≠ i := by rintro rfl; rw [hfd] at hj; cases hj; exact hgj hg
      simp only [if_neg hji]; exact hN j fj hj hgj
    · intro j fj v hj hv
      by_cases hji : j = i
      · subst hji; simp only [if_true] at hv; cases hv; rw [hfd] at hj; cases hj; exact hlen
      · simp only [if_neg hji] at hv; exact hW j fj v hj hv
    · rw [ht]; congr 3
      funext j
      by_cases hji : j = i
      · subst hji; simp only [if_true, hfx, Option.map_some, Option.getD_some, hw0]
      · simp only [if_neg hji]
  | none =>
    have hroom := room hW ht hfd hfx hs.hb
    rw [← hlen] at hroom
    have hV' : VecOk (s.fields nm).length t (withIO c t c.io) vo fx vec := by
      cases vec with
      | none => exact hV
      | some p => exact hV
    obtain ⟨c1, hc1, hT1, hV1, hG1, hz1⟩ := hT'.insertVTable rfl hs.tn hs.st hV' hB (by
      intro j hj hjf
      obtain ⟨fj, hfj⟩ : ∃ fj, (s.fields nm)[j]? = some fj := ⟨_, List.getElem?_eq_getElem hj⟩
      by_cases hgj : InlGrp fj.grp
      · exact Or.inl (inlGrp_inl hfj hgj)
      · rcases hN j fj hfj hgj with ⟨h1, -⟩ | ⟨d, h1, -⟩
        · exact absurd h1 hjf
        · exact Or.inr ⟨d, h1⟩) hin hfx hwpos hroom
    have hfx1 : grownFx t w.length i vo fx vec i = some (zeros w.length) := by unfold grownFx; rw [if_pos rfl]
    have hz : (zeros w.length).length = w.length := by simp [zeros]
    have hdst : 4 + 2 * (s.fields nm).length + t = 4 + 2 * (s.fields nm).length + (fun j => if j = i then t else vo j) i := by
      simp only [if_true]
    have hC := hT1.copy hin hfx1 hz.symm hsrcH
      ({ c1 with io := c1.io.copy (fun p n => f.io.R p n) f.pos w.length (4 + 2 * (s.fields nm).length + t) 0, tlen := t + w.length })
      ⟨rfl, rfl, by rw [hdst]⟩
    have hpl := hC.preLoad
    refine ⟨_, ?_, ⟨t + w.length, _, _, hC, ?_, ?_, ?_, hB, ?_, ?_, ?_, hz1.trans hsz⟩⟩
    · rw [e1, e2, hfx, hc1]
      simp only [Option.isNone_none, Bool.not_true, Bool.false_eq_true, if_false, Option.bind_eq_bind, Option.bind_some]
      simp only at hpl
      rw [hpl]
      rfl
    · cases hvec : vec with
      | none =>
        rw [hvec] at hV1
        refine below_copy hsrcH hV1 ?_
        omega
      | some p =>
        obtain ⟨j, d⟩ := p
        rw [hvec] at hV1
        obtain ⟨v1, v0, v2, v3⟩ := hV1
        refine ⟨v1, v0, ?_, ?_⟩
        · simp only [if_neg (hvne j d hvec)]; simp only [if_neg (hvne j d hvec)] at v2; exact v2
        · exact fun q hq => holds_copy_other hsrcH (v3 q hq) (by omega)
    · intro j fj hj hgj
      by_cases hji : j = i
      · simp only [if_pos hji]
      · simp only [if_neg hji]
        unfold grownFx
        rw [if_neg hji]
        cases hvec : vec with
        | none => exact hI j fj hj hgj
        | some p =>
          obtain ⟨j', d⟩ := p
          simp only
          have : j ≠ j' := by
            rintro rfl
            obtain ⟨f', hf', hg'⟩ := hB (j, d) hvec
            rw [hj] at hf'; cases hf'
            exact inlGrp_notVec hgj hg'
          rw [if_neg this]; exact hI j fj hj hgj
    · intro j fj hj hgj
      have hji : j ≠ i := by rintro rfl; rw [hfd] at hj; cases hj; exact hgj hg
      simp only [if_neg hji]
      rcases hN j fj hj hgj with ⟨h1, h2, h3⟩ | ⟨d, h1, h2⟩
      · refine Or.inl ⟨?_, h2, h3⟩
        unfold grownFx
        rw [if_neg hji]
        cases hvec : vec with
        | none => exact h1
        | some p =>
          obtain ⟨j', d⟩ := p
          simp only
          have : j ≠ j' := by rintro rfl; exact h3 d hvec
          rw [if_neg this]; exact h1
      · exact Or.inr ⟨d, h1, h2⟩
    · intro j fj v hj hv
      by_cases hji : j = i
      · subst hji; simp only [if_true] at hv; cases hv; rw [hfd] at hj; cases hj; exact hlen
      · simp only [if_neg hji] at hv
        unfold grownFx at hv
        rw [if_neg hji] at hv
        cases hvec : vec with
        | none => rw [hvec] at hv; exact hW j fj v hj hv
        | some p =>
          obtain ⟨j', d⟩ := p
          rw [hvec] at hv
          simp only at hv
          split at hv
          · rename_i hjj
            cases hv
            obtain ⟨f', hf', hg'⟩ := hB (j', d) hvec
            simp only at hf'
            rw [← hjj, hj] at hf'; cases hf'
            rw [putLE_length]; unfold fieldWidth
            rw [if_neg (varGrp_notStruct hg'), if_pos hg']
          · exact hW j fj v hj hv
    · rw [ht, Nat.add_assoc]
      congr 1
      symm
      apply sum_range_update _ i _ _ _ hin
      · intro j hji
        simp only [if_neg hji]
        unfold grownFx
        rw [if_neg hji]
        cases hvec : vec with
        | none => rfl
        | some p =>
          obtain ⟨j', d⟩ := p
          simp only
          split
          · rename_i hjj
            rw [hvec] at hV
            obtain ⟨-, -, v2, -⟩ := hV
            rw [hjj, v2]; simp only [Option.map_some, Option.getD_some, putLE_length]
          · rfl
      · simp only [if_true, hfx, Option.map_some, Option.getD_some, Option.map_none, Option.getD_none]; omega
    · intro hc
      have hG := hT'.cellular_growV (hCel hc) hV' hin hfx hwpos hroom
      rw [← hG1] at hG
      have := hT1.cellular_copy hG hin hfx1 hz.symm hsrcH
      rw [← hdst] at this
      exact this

/-! ## the first byte vector -/

theorem copy_below_ext {b src : Base} {srcOff size dst : Nat} (ext : Nat) (hlen : b.bytes.len ≤ dst) (h : Below b dst) :
    b.copy (fun p n => src.R p n) srcOff size dst ext = b.copy (fun p n => src.R p n) srcOff size dst 0 := by
  unfold Base.copy
  rw [copyExtend_below ext hlen h, copyExtend_below 0 hlen h]

theorem copyI_below {b src : Base} {sp k dst : Nat} {ext : Int} (he : 0 ≤ ext) (hlen : b.bytes.len ≤ dst) (h : Below b dst) :
    b.copyI src (sp : Int) (k : Int) (dst : Int) ext = some (b.copy (fun p n => src.R p n) sp k dst 0) := by
  unfold Base.copyI
  rw [if_neg (by omega), if_neg (by omega), if_pos he]
  simp only [Int.toNat_natCast]
  rw [copy_below_ext _ hlen h]

theorem TI.mono {nm : Name} {n t : Nat} {c : CNode} {vo : Nat → Nat} {fx : Nat → Option Bytes} (h : TI nm n c t vo fx)
    (c' : CNode) (hn : c'.name = c.name) (hp : c'.pos = c.pos)
    (p1 : ∀ {x : Nat} {v : Bytes}, Holds c.io x v → x + v.length ≤ 4 + 2 * n + t → Holds c'.io x v)
    (hcl : Clean c'.io (4 + 2 * n + t)) (hl : c'.io.bytes.len ≤ 4 + 2 * n + t) : TI nm n c' t vo fx := by
  have ht4 := h.t4
  refine ⟨by rw [hn, h.name], by rw [hp, h.pos], h.hp, h.ht, h.t4, p1 h.soff (by rw [putLE_length]; omega),
    p1 h.vl (by rw [putLE_length]; omega), p1 h.tl (by rw [putLE_length]; omega),
    fun i hi => p1 (h.slot i hi) (by rw [putLE_length]; omega), h.abs, ?_, h.disj, hcl, hl⟩
  intro i hi v hv
  obtain ⟨g1, g2, g3⟩ := h.fld i hi v hv
  exact ⟨g1, g2, p1 g3 (by omega)⟩

theorem holds_copy_end {b src : Base} {srcOff dst : Nat} {w : Bytes} (h : Holds src srcOff w)
    (hlen : b.bytes.len ≤ dst) (hb : Below b dst) (hcl : Clean b dst) :
    Holds (b.copy (fun p n => src.R p n) srcOff w.length dst 0) dst w := by
  refine holds_copy_same h ?_
  rw [noCut_iff]
  rintro e (he | ⟨d, hd, he⟩)
  · omega
  · have h1 := hb d hd
    have h2 := hcl d hd
    unfold Straddles at h2
    omega

/-- A byte vector behind the table. -/
def vecTail (data : Bytes) : Tail := ⟨0, [(0, putLE 4 data.length ++ data)]⟩

/-- `L` bytes of `src` from `sp` on, copied behind everything, become the cells `r`. -/
def CopyEnd (src : Base) (sp L : Nat) (r : List (Nat × Bytes)) : Prop :=
  ∀ (b : Base) (dst : Nat), b.bytes.len ≤ dst → Below b dst → Clean b dst →
    (b.copy (fun p n => src.R p n) sp L dst 0).bytes = b.bytes ∧
    (∀ {x : Nat} {v : Bytes}, Holds b x v → x + v.length ≤ dst → Holds (b.copy (fun p n => src.R p n) sp L dst 0) x v) ∧
    Clean (b.copy (fun p n => src.R p n) sp L dst 0) dst ∧
    (∀ q ∈ r, Holds (b.copy (fun p n => src.R p n) sp L dst 0) (dst + q.1) q.2) ∧
    ∀ d ∈ (b.copy (fun p n => src.R p n) sp L dst 0).diffs, d ∈ b.diffs ∨ ∃ q ∈ r, d.off = dst + q.1 ∧ d.sl.len = q.2.length

theorem copyEnd_one {src : Base} {sp : Nat} {w : Bytes} (hs : Holds src sp w) : CopyEnd src sp w.length [(0, w)] := by
  intro b dst hlen hb hcl
  obtain ⟨sp', hcp⟩ := copy_one (b := b) (dst := dst) (ext := 0) hs
  refine ⟨by rw [hcp], fun hv hx => holds_copy_other hs hv (Or.inl hx), clean_copy_zero hs hcl (Or.inl (Nat.le_refl _)) (Or.inl hlen), ?_, ?_⟩
  · intro q hq
    simp only [List.mem_singleton] at hq
    subst hq
    exact holds_copy_end hs hlen hb hcl
  · intro d hd
    have hce : b.copyExtend dst 0 = b := by
      unfold Base.copyExtend
      rw [if_neg (by omega)]
      simp
    rw [hcp, hce] at hd
    simp only [List.mem_append, List.mem_singleton] at hd
    rcases hd with hd | rfl
    · exact Or.inl hd
    · exact Or.inr ⟨_, List.mem_singleton.mpr rfl, rfl, rfl⟩

/-- `f` is a list (or byte vector) for field `i`; its `L` bytes are copied as the cells `r`. -/
def SliceSrcC (s : Sch) (fuel : Nat) (nm : Name) (i : Nat) (f : CNode) (L : Nat) (r : List (Nat × Bytes)) : Prop :=
  ∃ fd, (s.fields nm)[i]? = some fd ∧ isFieldSlice fd.grp = true ∧ f.name = fd.tname ∧
    4 ≤ f.vi.pos ∧ f.vi.size + 4 = L ∧ CopyEnd f.io (f.vi.pos.toNat - 4) L r ∧
    (0 < f.size ∨ ∃ v, infoSliceF s fuel f = some v ∧ 0 ≤ v.size)

theorem set_sliceC {s : Sch} {nm : Name} (hs : SchOk s nm) {fuel : Nat} {c : CNode} {cur : Nat → Option Bytes}
    (h : Rep s nm c cur none) {i : Nat} {f : CNode} {L : Nat} {r : List (Nat × Bytes)} (v : Bytes) (hsrc : SliceSrcC s fuel nm i f L r) :
    ∃ c', c.setFieldAt s fuel i f = some (c', none) ∧
      Rep s nm c' (fun j => if j = i then some v else cur j) (some (i, ⟨0, r⟩)) := by
  obtain ⟨t, vo, fx, hT, hV, hI, hN, hB, hW, ht, hCel, hsz⟩ := h.ex
  obtain ⟨fd, hfd, hg, hname, hpos, hsize, hsrcH, hfs⟩ := hsrc
  have hin : i < (s.fields nm).length := (List.getElem?_eq_some_iff.mp hfd).1
  have hfT := hT.fieldT_eq hfd
  have hng : ¬ InlGrp fd.grp := fun hh => inlGrp_notVec hh (Or.inl hg)
  have hfx : fx i = none := by
    rcases hN i fd hfd hng with ⟨h1, -⟩ | ⟨d, h1, -⟩
    · exact h1
    · cases h1
  have hw4 : fieldWidth s fd = 4 := by unfold fieldWidth; rw [if_neg (varGrp_notStruct (Or.inl hg)), if_pos (show VarGrp fd.grp from Or.inl hg)]
  have hroom := room hW ht hfd hfx hs.hb
  rw [hw4] at hroom
  obtain ⟨c1, hc1, hT1, hV1, hG1, hz1⟩ := hT.insertVTable rfl hs.tn hs.st hV hB (by
    intro j hj hjf
    obtain ⟨fj, hfj⟩ : ∃ fj, (s.fields nm)[j]? = some fj := ⟨_, List.getElem?_eq_getElem hj⟩
    by_cases hgj : InlGrp fj.grp
    · exact Or.inl (inlGrp_inl hfj hgj)
    · rcases hN j fj hfj hgj with ⟨h1, -⟩ | ⟨d, h1, -⟩
      · exact absurd h1 hjf
      · exact Or.inr ⟨d, h1⟩) hin hfx (by omega) hroom
  have hfx1 : grownFx t 4 i vo fx none i = some (zeros 4) := by unfold grownFx; rw [if_pos rfl]
  have hz : (putLE 4 4).length = (zeros 4).length := by rw [putLE_length]; simp [zeros]
  -- the offset
  have hT2 := hT1.write hin hfx1 hz ({ c1 with io := c1.io.updateU (4 + 2 * (s.fields nm).length + t) 4 (putLE 4 4), tlen := t + 4 })
    ⟨rfl, rfl, by simp only [if_true, putLE_length]⟩
  have hpl := hT2.preLoad
  have hB2 : Below (c1.io.updateU (4 + 2 * (s.fields nm).length + t) 4 (putLE 4 4)) (4 + 2 * (s.fields nm).length + (t + 4)) :=
    below_updateU_end (putLE_length 4 _) hV1 hT1.clean (by omega) (by omega)
  -- the vector
  have hlen2 := hT2.len
  have hcl2 := hT2.clean
  obtain ⟨k1, k2, k3, k4, k5⟩ := hsrcH (c1.io.updateU (4 + 2 * (s.fields nm).length + t) 4 (putLE 4 4)) _ hlen2 hB2 hcl2
  have hT3 := hT2.mono (withIO c1 (t + 4)
    ((c1.io.updateU (4 + 2 * (s.fields nm).length + t) 4 (putLE 4 4)).copy (fun p n => f.io.R p n) (f.vi.pos.toNat - 4)
      L (4 + 2 * (s.fields nm).length + (t + 4)) 0)) rfl rfl k2 k3 (by simp only [withIO]; rw [k1]; exact hlen2)
  refine ⟨_, ?_, ⟨t + 4, _, _, hT3, ⟨hin, by simp, ?_, ?_⟩, ?_, ?_, ?_, ?_, ?_, ?_, hz1.trans hsz⟩⟩
  · have htab := hT2.table_present (i := i) (v := 4) hin (by simp only [if_true]) (by omega)
    simp only [if_true] at htab
    unfold CNode.setFieldAt
    have hsame : c.isSameType s i f = true := by
      unfold CNode.isSameType; rw [hfT, if_pos hname.symm]
    rw [hT.name, if_neg (by omega), hsame, hs.st, hfT]
    simp only
    rw [hg]
    simp only [Bool.not_true, Bool.false_eq_true, if_false, false_and, if_true, Int.toNat_natCast]
    unfold CNode.setSlice
    obtain ⟨fs, hfs1, hfs0⟩ : ∃ fs : Int, (if f.size ≤ 0 then do
        let i ← infoSliceF s fuel f
        if i.size < 0 then none
        return i.size
      else some f.size) = some fs ∧ 0 ≤ fs := by
      by_cases hc : f.size ≤ 0
      · rw [if_pos hc]
        rcases hfs with hfs | ⟨v, hv, hv0⟩
        · omega
        · rw [hv]
          simp only [Option.bind_eq_bind, Option.bind_some]
          rw [if_neg (by omega)]
          exact ⟨_, rfl, hv0⟩
      · rw [if_neg hc]; exact ⟨_, rfl, by omega⟩
    rw [hfs1, hT.isZero hin, hfx]
    simp only [Option.bind_eq_bind, Option.bind_some, Option.isNone_none, if_true]
    rw [hc1]
    simp only [Option.bind_some]
    unfold Base.putN
    rw [if_neg (by omega)]
    simp only [Option.bind_some, Int.toNat_natCast]
    simp only at hpl
    rw [hpl]
    simp only [Option.bind_some, pure]
    rw [htab]
    simp only [Option.bind_some]
    rw [show f.vi.pos - 4 = ((f.vi.pos.toNat - 4 : Nat) : Int) by omega,
      show f.vi.size + 4 = (L : Int) by omega,
      show 4 + 2 * (s.fields nm).length + t + 4 = 4 + 2 * (s.fields nm).length + (t + 4) by omega,
      copyI_below (by omega) hlen2 hB2]
    rfl
  · simp only [if_true]; congr 2; omega
  · exact k4
  · intro j fj hj hgj
    have hji : j ≠ i := by rintro rfl; rw [hfd] at hj; cases hj; exact hng hgj
    simp only [if_neg hji]
    unfold grownFx
    rw [if_neg hji]; exact hI j fj hj hgj
  · intro j fj hj hgj
    by_cases hji : j = i
    · subst hji; exact Or.inr ⟨_, rfl, by simp⟩
    · simp only [if_neg hji]
      rcases hN j fj hj hgj with ⟨h1, h2, -⟩ | ⟨d, h1, -⟩
      · refine Or.inl ⟨?_, h2, ?_⟩
        · unfold grownFx; rw [if_neg hji]; exact h1
        · intro d hd; cases hd; exact hji rfl
      · cases h1
  · intro p hp
    cases hp
    exact ⟨fd, hfd, Or.inl hg⟩
  · intro j fj v hj hv
    by_cases hji : j = i
    · subst hji; simp only [if_true] at hv; cases hv; rw [hfd] at hj; cases hj; rw [putLE_length, hw4]
    · simp only [if_neg hji] at hv
      unfold grownFx at hv
      rw [if_neg hji] at hv
      exact hW j fj v hj hv
  · rw [ht, Nat.add_assoc]
    congr 1
    symm
    apply sum_range_update _ i _ _ _ hin
    · intro j hji
      simp only [if_neg hji]
      unfold grownFx
      rw [if_neg hji]
    · simp only [if_true, hfx, Option.map_some, Option.getD_some, Option.map_none, Option.getD_none, putLE_length]
  · intro hc
    have hG := hT.cellular_growV (hCel hc) hV hin hfx (by omega) hroom
    rw [← hG1] at hG
    have hU := hT1.cellular_update hG hin hfx1 hz
    rw [if_pos rfl, putLE_length] at hU
    refine ⟨?_, by simp only [withIO]; rw [k1]; exact hU.base, hU.tile, hU.last⟩
    intro d hd
    rcases k5 d hd with hd | ⟨q, h1, h2, h3⟩
    · rcases hU.seg d hd with h1 | h1
      · exact Or.inl h1
      · have := outer_ge h1
        have := hB2 d hd
        omega
    · exact Or.inr (Or.inl ⟨q, h1, h2, h3⟩)

theorem set_slice {s : Sch} {nm : Name} (hs : SchOk s nm) {fuel : Nat} {c : CNode} {cur : Nat → Option Bytes}
    (h : Rep s nm c cur none) {i : Nat} {f : CNode} {W : Bytes} (v : Bytes) (hsrc : SliceSrc s fuel nm i f W) :
    ∃ c', c.setFieldAt s fuel i f = some (c', none) ∧
      Rep s nm c' (fun j => if j = i then some v else cur j) (some (i, ⟨0, [(0, W)]⟩)) := by
  obtain ⟨fd, hfd, hg, hname, hpos, hsize, hsrcH, hfs⟩ := hsrc
  exact set_sliceC hs h v ⟨fd, hfd, hg, hname, hpos, hsize, copyEnd_one hsrcH, hfs⟩

theorem set_vector {s : Sch} {nm : Name} (hs : SchOk s nm) {fuel : Nat} {c : CNode} {cur : Nat → Option Bytes}
    (h : Rep s nm c cur none) {i : Nat} {f : CNode} {data : Bytes} (hsrc : VecSrc s fuel nm i f data) :
    ∃ c', c.setFieldAt s fuel i f = some (c', none) ∧
      Rep s nm c' (fun j => if j = i then some data else cur j) (some (i, vecTail data)) := by
  obtain ⟨fd, hfd, hg, hname, hpos, hsize, hsrcH, hfs⟩ := hsrc
  exact set_slice hs h data ⟨fd, hfd, by rw [hg]; decide, hname, hpos, by rw [List.length_append, putLE_length]; omega, hsrcH, hfs⟩

/-! ## a fresh table -/

theorem holds_flat {bs : Bytes} {sp : Bytes} {x : Nat} {w : Bytes} (hw : w ≠ [])
    (h : ∀ k, k < w.length → bs[x + k]? = w[k]?) (hl : x + w.length ≤ bs.length) : Holds (Base.new ⟨bs, sp⟩) x w := by
  refine ⟨hw, ⟨fun d hd => (by cases hd), ?_⟩, ?_⟩
  · simp only [Base.new, Slice.len]; omega
  · intro k hk
    exact h k hk

/-- The header `Init` writes for a table with `n` fields. -/
def initBytes (n : Nat) : Bytes :=
  copyAt (copyAt (copyAt (zeros (4 + (4 + n * 2))) (4 + n * 2) (putLE 4 (4 + n * 2))) 0 (putLE 2 (4 + n * 2))) 2 (putLE 2 4)

theorem initBytes_length (n : Nat) : (initBytes n).length = 8 + 2 * n := by
  unfold initBytes
  have h0 : (zeros (4 + (4 + n * 2))).length = 8 + 2 * n := by simp [zeros]; omega
  have h1 := copyAt_length' (zeros (4 + (4 + n * 2))) (4 + n * 2) (putLE 4 (4 + n * 2)) (by omega)
  have h2 := copyAt_length' (copyAt (zeros (4 + (4 + n * 2))) (4 + n * 2) (putLE 4 (4 + n * 2))) 0 (putLE 2 (4 + n * 2)) (by omega)
  rw [copyAt_length' _ _ _ (by omega)]
  omega

theorem initBytes_get (n x : Nat) : (initBytes n)[x]? =
    if 2 ≤ x ∧ x < 4 then (putLE 2 4)[x - 2]?
    else if x < 2 then (putLE 2 (4 + 2 * n))[x]?
    else if 4 + 2 * n ≤ x ∧ x < 8 + 2 * n then (putLE 4 (4 + 2 * n))[x - (4 + 2 * n)]?
    else if x < 8 + 2 * n then some 0 else none := by
  unfold initBytes
  rw [show n * 2 = 2 * n by omega]
  have h0 : (zeros (4 + (4 + 2 * n))).length = 8 + 2 * n := by simp [zeros]; omega
  have h1 := copyAt_length' (zeros (4 + (4 + 2 * n))) (4 + 2 * n) (putLE 4 (4 + 2 * n)) (by omega)
  have h2 := copyAt_length' (copyAt (zeros (4 + (4 + 2 * n))) (4 + 2 * n) (putLE 4 (4 + 2 * n))) 0 (putLE 2 (4 + 2 * n)) (by omega)
  rw [copyAt_getElem? _ _ _ _ (by rw [putLE_length]; omega), copyAt_getElem? _ _ _ _ (by rw [putLE_length]; omega),
    copyAt_getElem? _ _ _ _ (by rw [putLE_length]; omega), putLE_length, putLE_length, putLE_length]
  have hz : (zeros (4 + (4 + 2 * n)))[x]? = if x < 8 + 2 * n then some 0 else none := by
    unfold zeros
    rw [List.getElem?_replicate]
    simp only [show 4 + (4 + 2 * n) = 8 + 2 * n by omega]
  rw [hz]
  by_cases ha : 2 ≤ x ∧ x < 4
  · rw [if_pos (by omega), if_pos ha]
  · rw [if_neg (by omega), if_neg ha]
    by_cases hb : x < 2
    · rw [if_pos (by omega), if_pos hb]; rfl
    · rw [if_neg (by omega), if_neg hb]
      by_cases hc : 4 + 2 * n ≤ x ∧ x < 8 + 2 * n
      · rw [if_pos (by omega), if_pos hc]
      · rw [if_neg (by omega), if_neg hc]

theorem init_TI {s : Sch} {nm : Name} (hst : s.isStruct nm = false) (hp : 4 + 2 * (s.fields nm).length < 65536)
    {g : Nat} (hg : getTypeGroup s.toReg nm = some g) (hgs : isFieldSlice g = false) :
    ∃ c, CNode.init s nm = some c ∧ c.io.bytes.data = initBytes (s.fields nm).length ∧ c.io.diffs = [] ∧
      c.pos = 4 + 2 * (s.fields nm).length ∧ c.size = -1 ∧ TI nm (s.fields nm).length c 4 (fun _ => 0) (fun _ => none) := by
  have hi : CNode.init s nm = some (CNode.mk nm (Base.new ⟨initBytes (s.fields nm).length, zeros (CNode.initExt (s.fields nm))⟩)
      (4 + (s.fields nm).length * 2) (-1) 0 {}) := by
    unfold CNode.init
    rw [hg, hst]
    simp only [Option.bind_eq_bind, Option.bind_some, Bool.false_eq_true, if_false, hgs]
    rw [if_neg (by omega), if_pos (by omega)]
    rfl
  have hl := initBytes_length (s.fields nm).length
  have hne : ∀ k v, 0 < k → putLE k v ≠ [] := by
    intro k v hk hh; have := putLE_length k v; rw [hh] at this; simp at this; omega
  refine ⟨_, hi, rfl, rfl, by simp only; omega, rfl, ?_⟩
  refine ⟨rfl, by simp only; omega, hp, by omega, Nat.le_refl _, ?_, ?_, ?_, ?_, ?_, ?_, ?_, ?_, ?_⟩
  · refine holds_flat (hne 4 _ (by omega)) ?_ (by rw [putLE_length]; omega)
    intro k hk
    rw [putLE_length] at hk
    rw [initBytes_get, if_neg (by omega), if_neg (by omega), if_pos (by omega)]
    congr 1; omega
  · refine holds_flat (hne 2 _ (by omega)) ?_ (by rw [putLE_length]; omega)
    intro k hk
    rw [putLE_length] at hk
    rw [initBytes_get, if_neg (by omega), if_pos (by omega), Nat.zero_add]
  · refine holds_flat (hne 2 _ (by omega)) ?_ (by rw [putLE_length]; omega)
    intro k hk
    rw [putLE_length] at hk
    rw [initBytes_get, if_pos (by omega)]
    congr 1; omega
  · intro i hi
    refine holds_flat (hne 2 _ (by omega)) ?_ (by rw [putLE_length]; omega)
    intro k hk
    rw [putLE_length] at hk
    rw [initBytes_get, if_neg (by omega), if_neg (by omega), if_neg (by omega), if_pos (by omega)]
    rcases (show k = 0 ∨ k = 1 by omega) with rfl | rfl <;> decide
  · intros; rfl
  · intro i _ w hh; cases hh
  · intro i j _ _ _ w w' hh; cases hh
  · intro d hd; cases hd
  · simp only [Base.new, Slice.len]; omega

theorem init_rep {s : Sch} {nm : Name} (hs : SchOk s nm) {g : Nat} (hg : getTypeGroup s.toReg nm = some g)
    (hgs : isFieldSlice g = false) : ∃ c, CNode.init s nm = some c ∧ Rep s nm c (fun _ => none) none := by
  obtain ⟨c, h1, h2, h3, -, h6, h5⟩ := init_TI hs.st hs.hp hg hgs
  refine ⟨c, h1, ⟨4, fun _ => 0, fun _ => none, h5, ?_, ?_, ?_, ?_, ?_, ?_, fun _ => ⟨?_, ?_, ?_, Or.inl rfl⟩, h6⟩⟩
  · intro d hd; rw [h3] at hd; cases hd
  · intros; rfl
  · intro i fd _ _; exact Or.inl ⟨rfl, rfl, fun d hd => (by cases hd)⟩
  · intro p hp; cases hp
  · intro i fd w _ hh; cases hh
  · simp only [Option.map_none, Option.getD_none]
    have : ∀ l : List Nat, (l.map fun _ => 0).sum = 0 := by intro l; induction l <;> simp_all
    rw [this]
  · intro d hd; rw [h3] at hd; cases hd
  · unfold Slice.len; rw [h2, initBytes_length]
  · intro y h1 h2; omega

theorem TI.absent {nm : Name} {n t : Nat} {c : CNode} {vo : Nat → Nat} {fx : Nat → Option Bytes} (h : TI nm n c t vo fx)
    {s : Sch} (hst : s.isStruct nm = false) {i : Nat} (hi : i < n) (hf : fx i = none) : c.fieldAt s i = some none := by
  unfold CNode.fieldAt
  rw [h.name, hst, h.isZero hi, hf]
  rfl

/-! ## reading back -/

theorem rep_absent {cel : Prop} {s : Sch} {nm : Name} (hs : SchOk s nm) {c : CNode} {cur : Nat → Option Bytes}
    {vec : Option (Nat × Tail)} (h : RepG cel s nm c cur vec) {i : Nat} (hi : i < (s.fields nm).length) (hc : cur i = none) :
    c.fieldAt s i = some none := by
  obtain ⟨t, vo, fx, hT, hV, hI, hN, hB, hW, ht, hCel, hsz⟩ := h.ex
  have hfd : (s.fields nm)[i]? = some (s.fields nm)[i] := List.getElem?_eq_getElem hi
  have hfx : fx i = none := by
    by_cases hg : InlGrp (s.fields nm)[i].grp
    · rw [hI i _ hfd hg, hc]
    · rcases hN i _ hfd hg with ⟨h1, -⟩ | ⟨d, -, h2⟩
      · exact h1
      · exact absurd hc h2
  unfold CNode.fieldAt
  rw [hT.name, hs.st, hT.isZero hi, hfx]
  rfl

theorem rep_inline {cel : Prop} {s : Sch} {nm : Name} (hs : SchOk s nm) {c : CNode} {cur : Nat → Option Bytes}
    {vec : Option (Nat × Tail)} (h : RepG cel s nm c cur vec) {i : Nat} {fd : FieldT} (hfd : (s.fields nm)[i]? = some fd)
    (hg : InlGrp fd.grp) {w : Bytes} (hc : cur i = some w) :
    ∃ nd, c.fieldAt s i = some (some nd) ∧ nd.name = fd.tname ∧ Holds nd.io nd.pos w := by
  obtain ⟨t, vo, fx, hT, hV, hI, hN, hB, hW, ht, hCel, hsz⟩ := h.ex
  have hi : i < (s.fields nm).length := (List.getElem?_eq_some_iff.mp hfd).1
  have hfx : fx i = some w := by rw [hI i _ hfd hg, hc]
  obtain ⟨g1, g2, g3⟩ := hT.fld i hi w hfx
  unfold CNode.fieldAt
  rw [hT.name, hs.st, hT.isZero hi, hfx, hT.fieldT_eq hfd, hT.vtab hi]
  simp only [Option.bind_eq_bind, Option.bind_some, Option.isNone_some, Bool.false_eq_true, if_false]
  by_cases hstr : fd.grp = ftStruct
  · rw [if_pos (by rw [hstr]; decide)]
    exact ⟨_, rfl, rfl, g3⟩
  · rw [if_neg (by rw [inlGrp_struct hg]; simpa using hstr), if_neg, if_neg, if_neg, if_neg, if_pos]
    · exact ⟨_, rfl, rfl, g3⟩
    all_goals rcases hg with h | h | h | h | h
    all_goals (first | exact absurd h hstr | (rw [h]; decide))

theorem rep_vector {s : Sch} {nm : Name} (hs : SchOk s nm) {c : CNode} {cur : Nat → Option Bytes}
    {i : Nat} {data : Bytes} (h : Rep s nm c cur (some (i, vecTail data))) {fd : FieldT} (hfd : (s.fields nm)[i]? = some fd)
    (hg : fd.grp = ftSlice ||| ftBasic1) (hd : data.length < 4294967296) :
    ∃ nd, c.fieldAt s i = some (some nd) ∧ CNode.bytes (some nd) = some data := by
  obtain ⟨t, vo, fx, hT, hV, hI, hN, hB, hW, ht, hCel, hsz⟩ := h.ex
  obtain ⟨hi, -, hfx, hH⟩ := hV
  have hH := hH (0, putLE 4 data.length ++ data) (by simp [vecTail])
  simp only [Nat.add_zero] at hH
  rw [show t - vo i + (vecTail data).gap = t - vo i by simp [vecTail]] at hfx
  obtain ⟨g1, g2, g3⟩ := hT.fld i hi _ hfx
  rw [putLE_length] at g2
  have ht6 := hT.ht
  have hl4 : (putLE 4 data.length ++ data).length = 4 + data.length := by rw [List.length_append, putLE_length]
  have hlen : c.io.getN 4 ((4 + 2 * (s.fields nm).length + t : Nat) : Int) = some data.length := by
    have hh := holds_sub hH 0 4 (by omega) (by omega)
    rw [List.drop_zero, List.take_append_of_le_length (by rw [putLE_length]; exact Nat.le_refl _),
      List.take_of_length_le (by rw [putLE_length]; exact Nat.le_refl _), Nat.add_zero] at hh
    rw [holds_getN hh, Nat.mod_eq_of_lt (by omega)]
  have hoff : c.io.getN 4 ((4 + 2 * (s.fields nm).length + vo i : Nat) : Int) = some (t - vo i) := by
    rw [holds_getN g3, Nat.mod_eq_of_lt (by omega)]
  have hinfo : c.infoPosList i = some { pos := ((4 + 2 * (s.fields nm).length + t : Nat) : Int) + 4, size := 0, vlen := data.length } := by
    unfold CNode.infoPosList
    rw [hT.vtab hi, hT.isZero hi, hfx]
    simp only [Option.bind_eq_bind, Option.bind_some, Option.isNone_some, Bool.false_eq_true, if_false]
    unfold CNode.u32
    rw [hoff]
    simp only [Option.bind_some]
    rw [show ((4 + 2 * (s.fields nm).length + vo i : Nat) : Int) + ((t - vo i : Nat) : Int) =
      ((4 + 2 * (s.fields nm).length + t : Nat) : Int) by omega, hlen]
    rfl
  refine ⟨{ name := fd.tname, io := c.io, pos := 4 + 2 * (s.fields nm).length + t + 4, size := data.length,
            vi := { pos := ((4 + 2 * (s.fields nm).length + t : Nat) : Int) + 4, size := data.length, vlen := data.length } }, ?_, ?_⟩
  · unfold CNode.fieldAt
    rw [hT.name, hs.st, hT.isZero hi, hfx, hT.fieldT_eq hfd, hinfo]
    simp only [Option.bind_eq_bind, Option.bind_some, Option.isNone_some, Bool.false_eq_true, if_false]
    rw [if_neg (by rw [hg]; decide), if_neg (by rw [hg]; decide), if_pos (by rw [hg]; decide)]
    simp only [pure]
    congr 3
  · unfold CNode.bytes
    simp only
    rw [if_neg (by omega)]
    unfold CNode.R Base.Ri
    rw [if_neg (by omega)]
    simp only [Option.bind_eq_bind, Option.bind_some, Int.toNat_natCast]
    by_cases he : data = []
    · subst he
      simp [Slice.takeTo]
    · have hh := holds_sub hH 4 data.length (List.length_pos_iff.mpr he) (by omega)
      rw [List.drop_append_of_le_length (by rw [putLE_length]; exact Nat.le_refl _),
        List.drop_of_length_le (by rw [putLE_length]; exact Nat.le_refl _), List.nil_append, List.take_length] at hh
      obtain ⟨h1, h2⟩ := holds_read hh data.length
      unfold Slice.takeTo
      simp only [Slice.len] at h1
      rw [if_pos (by simp only [Slice.cap]; omega)]
      simp only [Option.bind_some, pure, Slice.arr]
      rw [List.take_append_of_le_length h1, h2]

end Fbs
