import Verif.SplitLemmas
/-!
# Appending to a list whose data area has been written elsewhere
-/

namespace Fbs
open CNode

theorem upto_mono {b : Base} {x y : Nat} (hb : Below b x) (hc : Clean b x) (h : x ≤ y) : Below b y ∧ Clean b y := by
  refine ⟨fun d hd => by have := hb d hd; omega, ?_⟩
  intro d hd
  have h1 := hb d hd
  have h2 := hc d hd
  unfold Straddles at h2 ⊢
  omega

/-- Behind everything there is nothing to read. -/
theorem R_behind {b : Base} {x y : Nat} (hlen : b.bytes.len ≤ x) (hb : Below b x) (hc : Clean b x) (hy : x < y) (req : Nat) :
    (b.R y req).len = 0 := by
  have hn : lastOf (fun d => d.covers y) b.diffs = none := by
    rw [lastOf_none]
    intro d hd
    have h1 := hb d hd
    have h2 := hc d hd
    unfold Straddles at h2
    have : ¬ d.covers y = true := by rw [covers_iff]; omega
    simpa using this
  unfold Slice.len
  rw [R_data, writerR_beyond hn (by omega)]
  rfl

section
variable {s : Sch} {k0 : Nat} {t : Name} {vs : Nat} {c : CNode} {es : List El}

/-- `At` on a list of tables when there is nothing where the offset leads. -/
theorem at_missing (ht : TabElt s t) {n p : Nat} (hn : c.name = '[' :: ']' :: t)
    (hl : c.listLen = some n) (hp : c.vi.pos = p) {i x : Nat} (hi : i < n) (hx : p + 4 * i ≤ x)
    (hb : x < 4294967296 + p + 4 * i)
    (ho : Holds c.io (p + 4 * i) (putLE 4 (x - (p + 4 * i)))) (hr : (c.io.R x 4).len = 0) :
    c.at_ s i = some (.error .notFound) := by
  obtain ⟨g, hg, h1, h2, -, -⟩ := ht
  unfold CNode.at_
  rw [isList_of_name hn, hl]
  simp only [Option.bind_eq_bind, Option.bind_some, Bool.not_true, Bool.false_eq_true, if_false]
  rw [if_neg (by omega), if_neg (by rw [hn]; simp)]
  have hdr : c.name.drop 2 = t := by rw [hn]; rfl
  rw [hdr, hg]
  simp only [Option.bind_some, h1, h2, Bool.or_false, Bool.false_eq_true, if_false]
  have hpos : c.vi.pos + (i : Int) * 4 = ((p + 4 * i : Nat) : Int) := by omega
  have hu : c.u32 ((p + 4 * i : Nat) : Int) = some (x - (p + 4 * i)) := by
    unfold CNode.u32
    have := holds_getN ho
    rw [Nat.mod_eq_of_lt (by omega)] at this
    exact this
  unfold CNode.atTable
  rw [hpos, hu]
  simp only [Option.bind_eq_bind, Option.bind_some]
  have hx2 : ((p + 4 * i : Nat) : Int) + ((x - (p + 4 * i) : Nat) : Int) = (x : Int) := by omega
  rw [hx2]
  unfold CNode.R Base.Ri
  rw [if_neg (by omega)]
  simp only [Option.bind_some, Int.toNat_natCast]
  rw [if_pos hr]
  rfl

/-- `c` holds the count and the offsets of the array `es` of tables, and nothing else. -/
structure SLI (s : Sch) (k0 : Nat) (t : Name) (vs : Nat) (c : CNode) (es : List El) : Prop where
  name  : c.name = '[' :: ']' :: t
  cpos  : c.pos = 4
  vpos  : c.vi.pos = 4
  vlen  : c.vi.vlen = es.length
  small : elEnd es < 4294967296
  hdr   : Holds c.io 0 (putLE 4 es.length)
  off   : ∀ i, i < es.length → Holds c.io (4 + 4 * i) (putLE 4 (elX es i + vs - (4 + 4 * i)))
  self  : ∀ e ∈ es, SelfC s k0 t vs e.ps e.m
  len   : c.io.bytes.len ≤ 4 + 4 * es.length
  clean : Clean c.io (4 + 4 * es.length)
  below : Below c.io (4 + 4 * es.length)

/-- The cached size is that of the whole list. -/
def Sized (c : CNode) (es : List El) : Prop := es ≠ [] → c.vi.size = 4 * es.length + sumTot es

theorem SLI.listLen (h : SLI s k0 t vs c es) : c.listLen = some es.length :=
  listLen_of h.vpos (by have := h.small; unfold elEnd at this; omega) h.hdr

theorem SLI.vlenTotal (h : SLI s k0 t vs c es) (hz : Sized c es) (ht : TabElt s t) (k : Nat) (hk : k0 ≤ k) :
    c.vlenTotal s (k + 1) = some { c with vi := ⟨4, if es = [] then 0 else 4 * es.length + sumTot es, es.length⟩ } := by
  have hp := h.vpos
  have hv := h.vlen
  unfold CNode.vlenTotal
  by_cases hne : es = []
  · have hview : TView s k0 t vs c es := ⟨h.name, h.vpos, h.small, h.hdr, h.off, fun i e hi => by rw [hne] at hi; simp at hi, h.self⟩
    rw [if_pos (Or.inr (Or.inl (by rw [hv, hne]; rfl))), hview.infoSlice ht k hk]
    simp only [Option.bind_eq_bind, Option.bind_some, pure, hne, if_true, List.length_nil]
  · have hpos : 0 < es.length := List.length_pos_iff.mpr hne
    have hsz := hz hne
    rw [if_neg (by omega)]
    simp only [Option.bind_eq_bind, Option.bind_some, pure]
    rw [if_neg (by omega), if_neg hne, ← hsz, ← hp, ← hv]

/-- `InfoSlice` when only the last element is there. -/
theorem infoSlice_last (ht : TabElt s t) {e : El} (hn : c.name = '[' :: ']' :: t) (hp : c.vi.pos = 4)
    (hsm : elEnd (es ++ [e]) < 4294967296) (hh : Holds c.io 0 (putLE 4 (es ++ [e]).length))
    (ho : ∀ i, i < (es ++ [e]).length → Holds c.io (4 + 4 * i) (putLE 4 (elX (es ++ [e]) i + vs - (4 + 4 * i))))
    (hel : HoldsC c.io (cellsAt (elEnd es + 4) e.ps)) (hse : SelfC s k0 t vs e.ps e.m)
    (hgap : ∀ i, i < es.length → (c.io.R (elX (es ++ [e]) i + vs) 4).len = 0) (hsel : ∀ x ∈ es, SelfC s k0 t vs x.ps x.m)
    (k : Nat) (hk : k0 ≤ k) :
    infoSliceF s (k + 1) c = some { pos := 4, size := 4 * (es ++ [e]).length + sumTot (es ++ [e]), vlen := (es ++ [e]).length } := by
  obtain ⟨g, hg, hb, -, -, -⟩ := id ht
  have hlen1 : (es ++ [e]).length = es.length + 1 := by simp
  have hEnd1 : elEnd (es ++ [e]) = 4 + 4 * (es ++ [e]).length + sumTot (es ++ [e]) := rfl
  have hE := elEnd_append (es := es) e
  have hl : c.listLen = some (es ++ [e]).length := listLen_of hp (by unfold elEnd at hsm; omega) hh
  have hl1 := hse.len
  have hm := hse.mpos
  obtain ⟨tl, htl⟩ := hse.pre _ _ hel
  have hX : elX (es ++ [e]) es.length = elEnd es + 4 := by rw [elX_append (Nat.le_refl _), elX_last]
  have hlast : c.at_ s ((es.length : Nat) : Int) = some (.ok { name := t, io := c.io, pos := elEnd es + 4 + vs, tlen := tl }) := by
    have := ho es.length (by omega)
    rw [hX] at this
    refine at_tab (p := 4) ht hn hl hp (by omega) (by unfold elEnd; omega) (by omega) this htl
  have hmiss : ∀ i, i < es.length → c.at_ s (i : Int) = some (.error .notFound) := by
    intro i hi
    have hX1 := elX_end (show (es ++ [e])[i]? = some es[i] by rw [List.getElem?_append_left hi, List.getElem?_eq_getElem hi])
    have hse' := (hsel es[i] (List.getElem_mem hi)).len
    refine at_missing (p := 4) ht hn hl hp (by omega) ?_ (by omega) (ho i (by omega)) (hgap i hi)
    unfold elX; omega
  have hAll : ∀ i : Int, ∃ r, c.at_ s i = some r ∧ ∀ n, r = .ok n → n = { name := t, io := c.io, pos := elEnd es + 4 + vs, tlen := tl } := by
    intro i
    by_cases hi : i ≥ (es ++ [e]).length ∨ i < 0
    · exact ⟨_, at_out hn hl i hi, fun n h => by cases h⟩
    · have e1 : ((i.toNat : Nat) : Int) = i := by omega
      by_cases hi2 : i.toNat < es.length
      · have := hmiss _ hi2
        rw [e1] at this
        exact ⟨_, this, fun n h => by cases h⟩
      · have e2 : i = (es.length : Nat) := by omega
        rw [e2]
        exact ⟨_, hlast, fun n h => by cases h; rfl⟩
  let A : Int → Except Err CNode := fun i => (c.at_ s i).getD (.error .notFound)
  have hA : ∀ i, c.at_ s i = some (A i) := by
    intro i
    obtain ⟨r, hr, -⟩ := hAll i
    show c.at_ s i = some ((c.at_ s i).getD _)
    rw [hr]; rfl
  have hinf := hse.info _ _ hel k hk { name := t, io := c.io, pos := elEnd es + 4 + vs, tlen := tl } rfl rfl rfl
  have hI : ∀ i n, A i = .ok n → infoF s k (some n) = some ((infoF s k (some n)).getD {}) := by
    intro i n hn'
    obtain ⟨r, h1, h2⟩ := hAll i
    have h3 := hA i
    rw [h1] at h3
    injection h3 with h3
    rw [h2 n (by rw [h3, hn']), hinf]
    rfl
  rw [infoSlice_gen (k := k) hn hg hb hl A hA (fun e => (infoF s k (some e)).getD {}) hI]
  congr 1
  have e1 : (((es ++ [e]).length : Nat) : Int) - 1 = ((es.length : Nat) : Int) := by omega
  have hAl : A ((((es ++ [e]).length : Nat) : Int) - 1) = .ok { name := t, io := c.io, pos := elEnd es + 4 + vs, tlen := tl } := by
    have h3 := hA ((es.length : Nat) : Int)
    rw [hlast] at h3
    injection h3 with h3
    rw [e1]
    exact h3.symm
  rw [hAl]
  simp only [hinf, Option.getD_some]
  rw [if_neg (by omega)]
  unfold growInfo
  rw [if_pos (by simp only [hp]; omega)]
  simp only [VInfo.mk.injEq, hp, and_true, true_and]
  omega

/-- Appending a table: the offsets are extended and the table is stored behind where the data would be. -/
theorem SLI.append (h : SLI s k0 t vs c es) (hz : Sized c es) (ht : TabElt s t) (hvs : (s.fields t).length * 2 + 4 = vs) {f : CNode} {e : El}
    (hf : TSrc s k0 t vs f e) (hsm : elEnd (es ++ [e]) < 4294967296) (k : Nat) (hk : k0 ≤ k) :
    ∃ c' b pd, c.setTableAt s (k + 1) es.length f = some (c', none) ∧ c'.io = Base.apps b pd ∧ pd ≠ [] ∧ (∀ d ∈ pd, elEnd es + 4 ≤ d.off) ∧
      (∀ d ∈ b.diffs, d.off + d.sl.len ≤ 4 + 4 * (es ++ [e]).length) ∧
      SLI s k0 t vs { c' with io := b } (es ++ [e]) ∧ Sized c' (es ++ [e]) := by
  have hv := h.vlen
  have hel := hf.self.len
  have hm := hf.self.mpos
  have hE := elEnd_append (es := es) e
  have hEnd : elEnd es = 4 + 4 * es.length + sumTot es := rfl
  have hlen := h.len
  unfold CNode.setTableAt
  rw [if_neg (by omega), h.vlenTotal hz ht k hk]
  simp only [Option.bind_eq_bind, Option.bind_some]
  rw [hf.name, hvs]
  simp only [if_true]
  rw [hf.elmSize (k + 1) (by omega)]
  simp only [Option.bind_some]
  have hptr : (4 : Int) + (es.length : Int) * 4 = ((4 + 4 * es.length : Nat) : Int) := by omega
  have htot : (if es = [] then (0 : Int) else 4 * es.length + sumTot es) = ((4 * es.length + sumTot es : Nat) : Int) := by
    split
    · rename_i he; subst he; rfl
    · omega
  have htd : (4 : Int) + ((4 * es.length + sumTot es : Nat) : Int) + 4 = ((elEnd es + 4 : Nat) : Int) := by omega
  have hbody : max (0 : Int) ((e.m : Int) + (vs : Int)) = ((e.m + vs : Nat) : Int) := by omega
  rw [hptr, htot, hbody, if_neg (by omega), Int.toNat_natCast]
  -- space for the new offset
  generalize hc0 : ({ name := c.name, io := c.io, pos := c.pos, size := c.size, tlen := c.tlen, vi := ⟨4, ((4 * es.length + sumTot es : Nat) : Int), es.length⟩ } : CNode) = c0
  have hn0 : c0.name = '[' :: ']' :: t := by rw [← hc0]; exact h.name
  have hio0 : c0.io = c.io := by rw [← hc0]
  have hvi0 : c0.vi = ⟨4, ((4 * es.length + sumTot es : Nat) : Int), es.length⟩ := by rw [← hc0]
  have hps0 : c0.pos = 4 := by rw [← hc0]; exact h.cpos
  have hir : c0.inRoot = some false := inRoot_false (by rw [hio0]; exact h.hdr) (by omega)
  generalize hb1 : c.io.insertSpace (4 + 4 * es.length) 4 true = b1
  have hins : ∀ F, c0.insertSpace s F (4 + 4 * es.length) 4 true = some { c0 with io := b1 } := by
    intro F
    rw [CNode.insertSpace_out hir, isList_of_name hn0, hio0, hb1, hvi0]
    simp only [Option.bind_eq_bind, Option.bind_some, Bool.false_eq_true, if_false, if_true]
    rw [if_neg (by omega)]; rfl
  rw [hins]
  simp only [Option.bind_some]
  have b1_bytes : b1.bytes = c.io.bytes := by
    rw [← hb1, (insertSpace_diffs h.clean true).1, if_neg (by omega)]
  have b1_lt : ∀ x w, Holds c.io x w → x + w.length ≤ 4 + 4 * es.length → Holds b1 x w := by
    intro x w hw hx; rw [← hb1]; exact holds_insertSpace_lt h.clean hw hx
  have b1_new : Holds b1 (4 + 4 * es.length) (zeros 4) := by rw [← hb1]; exact holds_insertSpace_new h.clean (by omega)
  have b1_c1 : Clean b1 (8 + 4 * es.length) := by
    rw [← hb1]
    refine clean_insertSpace h.clean (Or.inr ⟨by omega, ?_, Or.inl (by omega)⟩)
    have : 8 + 4 * es.length - 4 = 4 + 4 * es.length := by omega
    rw [this]; exact h.clean
  have b1_bel : Below b1 (8 + 4 * es.length) := by
    rw [← hb1]
    have := below_insert4 h.clean (by omega) h.below (Nat.le_refl _)
    have e : 4 + 4 * es.length + 4 = 8 + 4 * es.length := by omega
    rw [e] at this
    exact this
  -- the existing offsets grow by four
  obtain ⟨b2, h2e, h2w, h2o⟩ := addOffs_eq (p := 4) (d := 4) (fun i => elX es i + vs - (4 + 4 * i)) es.length 0
    { c0 with io := b1 } (by simp only [hvi0]; rfl) (by
      intro j hj1 hj2
      have hjl : j < es.length := by omega
      have hX := elX_end (List.getElem?_eq_getElem hjl)
      have hsl := (h.self _ (List.getElem_mem hjl)).len
      exact ⟨b1_lt _ _ (h.off j hjl) (by rw [putLE_length]; omega), by omega⟩)
  simp only [Nat.zero_add, Nat.mul_zero, Nat.add_zero] at h2w h2o
  rw [show ((4 : Nat) : Int) = 4 from rfl] at h2e
  rw [h2e]
  simp only [Option.bind_some, hvi0]
  have hoffv : (4 : Int) + ((4 * es.length + sumTot es : Nat) : Int) + 4 + (vs : Int) - (4 + (es.length : Int) * 4) =
      ((elEnd es + 4 + vs - (4 + 4 * es.length) : Nat) : Int) := by omega
  rw [hoffv, u32_nat _ (by omega), hptr, putN_nat]
  simp only [Option.bind_some]
  rw [if_pos (by omega), htd, if_neg (by omega)]
  generalize hb3 : b2.updateU (4 + 4 * es.length) 4 (putLE 4 (elEnd es + 4 + vs - (4 + 4 * es.length))) = b3
  have hW3 : Within b2 b3 (4 + 4 * es.length) (8 + 4 * es.length) := by
    rw [← hb3]
    have := within_updateU (b := b2) (off := 4 + 4 * es.length) (putLE_length 4 (elEnd es + 4 + vs - (4 + 4 * es.length))) (by omega)
    have e : 4 + 4 * es.length + 4 = 8 + 4 * es.length := by omega
    rw [e] at this
    exact this
  have b2_new : Holds b2 (4 + 4 * es.length) (zeros 4) := h2w.other _ _ b1_new (Or.inr (Nat.le_refl _))
  have b3_off : Holds b3 (4 + 4 * es.length) (putLE 4 (elEnd es + 4 + vs - (4 + 4 * es.length))) := by
    rw [← hb3]; exact holds_put4 b2_new (by simp [zeros]) _
  have h2w' : Within b1 b3 4 (8 + 4 * es.length) := h2w.trans hW3 (by omega) (by omega)
  have b3_bel : Below b3 (8 + 4 * es.length) := h2w'.belowE b1_bel b1_c1
  have b3_c1 : Clean b3 (8 + 4 * es.length) := h2w'.clean _ b1_c1 (Or.inr (Nat.le_refl _))
  obtain ⟨b3_bel2, b3_c2⟩ := upto_mono (y := elEnd es + 4) b3_bel b3_c1 (by omega)
  have b3_bytes : b3.bytes = c.io.bytes := by rw [h2w'.bytes, b1_bytes]
  have b1_hdr := b1_lt _ _ h.hdr (by rw [putLE_length]; omega)
  have b3_hdr : Holds b3 0 (putLE 4 es.length) := h2w'.other _ _ b1_hdr (Or.inl (by rw [putLE_length]; omega))
  -- space for the element: nothing is there
  generalize hc3 : ({ name := c0.name, io := b3, pos := c0.pos, size := c0.size, tlen := c0.tlen, vi := ⟨4, ((4 * es.length + sumTot es : Nat) : Int), es.length⟩ } : CNode) = c3
  have hn3 : c3.name = '[' :: ']' :: t := by rw [← hc3]; exact hn0
  have hio3 : c3.io = b3 := by rw [← hc3]
  have hvi3 : c3.vi = ⟨4, ((4 * es.length + sumTot es : Nat) : Int), es.length⟩ := by rw [← hc3]
  have hps3 : c3.pos = 4 := by rw [← hc3]; exact hps0
  have hir3 : c3.inRoot = some false := inRoot_false (by rw [hio3]; exact b3_hdr) (by omega)
  rw [Int.toNat_natCast, Int.toNat_natCast]
  obtain ⟨b4_bytes, b4_diffs⟩ := insertSpace_end (b := b3) (pos := elEnd es + 4) (size := e.m + vs)
    (by rw [b3_bytes]; omega) b3_bel2 b3_c2
  generalize hb4 : b3.insertSpace (elEnd es + 4) (e.m + vs) false = b4
  rw [hb4] at b4_bytes b4_diffs
  have hins3 : ∀ F, c3.insertSpace s F (elEnd es + 4) (e.m + vs) false = some { c3 with io := b4 } := by
    intro F
    rw [CNode.insertSpace_out hir3, isList_of_name hn3, hio3, hb4, hvi3]
    simp only [Option.bind_eq_bind, Option.bind_some, Bool.false_eq_true, if_false, if_true]
    rw [if_neg (by omega)]; rfl
  rw [hins3]
  simp only [Option.bind_some, hvi3]
  -- the count
  have hz : (4 : Int) - 4 = ((0 : Nat) : Int) := by omega
  rw [hz, putN_nat]
  simp only [Option.bind_some]
  generalize hb5 : b4.updateU 0 4 (putLE 4 (es.length + 1)) = b5
  have hW5 : Within b4 b5 0 4 := by rw [← hb5]; exact within_updateU (putLE_length _ _) (by omega)
  have b4_of : ∀ x w, Holds b3 x w → Holds b4 x w := fun x w hw => holds_congr b4_bytes b4_diffs hw
  have b5_hdr : Holds b5 0 (putLE 4 (es.length + 1)) := by
    rw [← hb5]; exact holds_put4 (b4_of _ _ b3_hdr) (putLE_length _ _) _
  have b5_of : ∀ x w, Holds b3 x w → 4 ≤ x → Holds b5 x w := fun x w hw hx => hW5.other _ _ (b4_of x w hw) (Or.inr hx)
  have b5_bytes : b5.bytes = c.io.bytes := by rw [hW5.bytes, b4_bytes, b3_bytes]
  have b4_bel : Below b4 (8 + 4 * es.length) := by unfold Below; rw [b4_diffs]; exact b3_bel
  have b4_c1 : Clean b4 (8 + 4 * es.length) := by unfold Clean; rw [b4_diffs]; exact b3_c1
  have b5_bel : Below b5 (8 + 4 * es.length) := hW5.below _ b4_bel (by omega)
  have b5_c1 : Clean b5 (8 + 4 * es.length) := hW5.clean _ b4_c1 (Or.inr (by omega))
  obtain ⟨b5_bel2, b5_c2⟩ := upto_mono (y := elEnd es + 4) b5_bel b5_c1 (by omega)
  -- the element
  have hsp : (f.pos : Int) - (vs : Int) = ((f.pos - vs : Nat) : Int) := by have := hf.vpos; omega
  have hsz : (e.m : Int) + (vs : Int) = ((tot e.ps : Nat) : Int) := by omega
  rw [hsp, hsz, copyI_zero]
  simp only [Option.bind_some]
  obtain ⟨pd, hcp, hpd⟩ := copy_reads (b := b5) (dst := elEnd es + 4) hf.mem (by rw [b5_bytes]; omega)
  rw [hcp]
  have hne := reads_ne hf.mem
  have b6_elt : HoldsC (b5.apps pd) (cellsAt (elEnd es + 4) e.ps) :=
    apps_same hpd hne (fun cc hcc => noCut_end (by rw [b5_bytes]; omega) b5_bel2 b5_c2 (cellsAt_mem hcc).1)
  have b6_of : ∀ x w, Holds b5 x w → x + w.length ≤ elEnd es + 4 → Holds (b5.apps pd) x w :=
    fun x w hw hx => apps_other hpd hw (Or.inl hx)
  have hlen1 : (es ++ [e]).length = es.length + 1 := by simp
  have b5_hdr' : Holds b5 0 (putLE 4 (es ++ [e]).length) := by rw [hlen1]; exact b5_hdr
  have b5_off : ∀ i, i < (es ++ [e]).length → Holds b5 (4 + 4 * i) (putLE 4 (elX (es ++ [e]) i + vs - (4 + 4 * i))) := by
    intro i hi
    rw [hlen1] at hi
    have hil : i ≤ es.length := by omega
    rw [elX_append hil]
    by_cases hlast : i = es.length
    · subst hlast
      rw [elX_last]
      exact b5_of _ _ b3_off (by omega)
    · have hlt : i < es.length := by omega
      have hX : 4 + 4 * es.length ≤ elX es i := by unfold elX; omega
      have := h2o i (by omega) hlt
      have e3 : elX es i + vs - (4 + 4 * i) + 4 = elX es i + 4 + vs - (4 + 4 * i) := by omega
      rw [e3] at this
      exact b5_of _ _ (hW3.other _ _ this (Or.inl (by rw [putLE_length]; omega))) (by omega)
  have hpdm : ∀ d ∈ pd, elEnd es + 4 ≤ d.off := by
    intro d hd
    have : diffCell d ∈ cellsAt (elEnd es + 4) e.ps := by rw [← hpd]; exact List.mem_map.mpr ⟨d, hd, rfl⟩
    have := (cellsAt_mem this).1
    exact this
  have hself : ∀ x ∈ es ++ [e], SelfC s k0 t vs x.ps x.m := by
    intro x hx
    rcases List.mem_append.mp hx with hx | hx
    · exact h.self x hx
    · rw [List.mem_singleton.mp hx]; exact hf.self
  -- the elements written before cannot be read
  have hgap : ∀ i, i < es.length → ((b5.apps pd).R (elX (es ++ [e]) i + vs) 4).len = 0 := by
    intro i hi
    have hX1 := elX_end (List.getElem?_eq_getElem hi)
    have hX2 := elX_append (e := e) (show i ≤ es.length by omega)
    have hse' := (h.self es[i] (List.getElem_mem hi)).len
    have hse2 := (h.self es[i] (List.getElem_mem hi)).mpos
    have hlow : 4 + 4 * es.length ≤ elX es i := by unfold elX; omega
    have hn : lastOf (fun d => d.covers (elX (es ++ [e]) i + vs)) (b5.apps pd).diffs = none := by
      rw [lastOf_none]
      intro d hd
      have : ¬ d.covers (elX (es ++ [e]) i + vs) = true := by
        rw [covers_iff]
        rcases List.mem_append.mp hd with hd | hd
        · have h1 := b5_bel d hd
          have h2 := b5_c1 d hd
          unfold Straddles at h2
          omega
        · have := hpdm d hd
          omega
      simpa using this
    unfold Slice.len
    rw [R_data, writerR_beyond hn (by show b5.bytes.len < _; rw [b5_bytes]; omega)]
    rfl
  generalize hc6 : ({ name := c3.name, io := b5.apps pd, pos := c3.pos, size := c3.size, tlen := c3.tlen, vi := ⟨4, ((4 * es.length + sumTot es : Nat) : Int), es.length⟩ } : CNode) = c6
  have hinfo : infoSliceF s (k + 1) c6 = some { pos := 4, size := 4 * (es ++ [e]).length + sumTot (es ++ [e]), vlen := (es ++ [e]).length } := by
    rw [← hc6]
    refine infoSlice_last ht (by exact hn3) rfl hsm (b6_of _ _ b5_hdr' (by rw [putLE_length]; omega))
      (fun i hi => b6_of _ _ (b5_off i hi) (by rw [putLE_length]; omega)) b6_elt hf.self hgap h.self k hk
  unfold CNode.refresh
  rw [hinfo]
  simp only [Option.bind_eq_bind, Option.bind_some, pure]
  refine ⟨_, b5, pd, rfl, by rw [← hc6], ?_, hpdm, ?_, ?_, ?_⟩
  · rintro rfl
    cases hq : e.ps with
    | nil => rw [hq] at hel; simp [tot] at hel; omega
    | cons w ps => rw [hq] at hpd; simp [cellsAt] at hpd
  · intro d hd
    have h1 := b5_bel d hd
    have h2 := b5_c1 d hd
    unfold Straddles at h2
    rw [hlen1]
    omega
  · refine ⟨by rw [← hc6]; exact hn3, by rw [← hc6]; exact hps3, rfl, rfl, hsm, b5_hdr', b5_off, hself, ?_, ?_, ?_⟩
    · simp only [hlen1, b5_bytes]; omega
    · simp only [hlen1]
      have e4 : 4 + 4 * (es.length + 1) = 8 + 4 * es.length := by omega
      rw [e4]; exact b5_c1
    · simp only [hlen1]
      have e4 : 4 + 4 * (es.length + 1) = 8 + 4 * es.length := by omega
      rw [e4]; exact b5_bel
  · intro _; rfl

/-- `List.SetAt` at the end. -/
theorem SLI.setAt (h : SLI s k0 t vs c es) (ht : TabElt s t) {f : CNode} (hn : f.name = t) (fuel : Nat) :
    c.setAt s fuel es.length f = c.setTableAt s fuel es.length f := by
  obtain ⟨g, hg, g1, g2, g3, g4⟩ := ht
  unfold CNode.setAt
  rw [if_neg (by rw [h.vlen]; omega), hn, hg]
  simp only [Option.bind_eq_bind, Option.bind_some, g1, g2, g3, g4, Bool.or_false, Bool.false_eq_true, if_false, if_true]

/-- The list with its data area: count and offsets in `l.node`, the elements in the file. -/
structure SplitI (s : Sch) (k0 : Nat) (t : Name) (vs : Nat) (l : CList) (es : List El) : Prop where
  node : SLI s k0 t vs l.node es
  dlen : l.dLen = sumTot es
  file : ∃ w, l.w = some w ∧ w.kind = .file ∧ w.data = (allPs es).flatten
  ne   : ∀ w ∈ allPs es, w ≠ []

theorem allPs_append (a b : List El) : allPs (a ++ b) = allPs a ++ allPs b := by simp [allPs]

theorem allPs_length (es : List El) : (allPs es).flatten.length = sumTot es := by rw [tot_flatten, tot_allPs]

/-- list.go 93-116 and 125-168: a merged table whose buffer holds nothing else is appended. -/
theorem SplitI.setAt {l : CList} (h : SplitI s k0 t vs l es) (hz : Sized l.node es) (ht : TabElt s t) (hvs : (s.fields t).length * 2 + 4 = vs)
    {f : CNode} {B : Bytes} {m : Nat} (hf : TSrc s k0 t vs f ⟨[B], m⟩) (hp : f.pos = vs) (hfd : f.io.diffs = []) (hB : f.io.bytes.data = B)
    (hi : ∀ k, k0 ≤ k → ∃ p, infoF s k (some f) = some { pos := p, size := m, vlen := 0 })
    (hsm : elEnd (es ++ [(⟨[B], m⟩ : El)]) < 4294967296) (k : Nat) (hk : k0 ≤ k) :
    ∃ l', l.setAt s (k + 1) es.length f = some (l', none) ∧ SplitI s k0 t vs l' (es ++ [⟨[B], m⟩]) ∧ Sized l'.node (es ++ [⟨[B], m⟩]) := by
  obtain ⟨w, hw, hwk, hwd⟩ := h.file
  have hmp := hf.self.mpos
  have hln := hf.self.len
  obtain ⟨p, hinf⟩ := hi (k + 1) (by omega)
  have hf' : TSrc s k0 t vs { f with size := m } ⟨[B], m⟩ := ⟨hf.name, hf.vpos, hf.mem, hf.self, Or.inl rfl⟩
  obtain ⟨c', b, pd, a1, a2, a0, a3, a4, a5, a6⟩ := h.node.append hz ht hvs hf' hsm k hk
  have hset := h.node.setAt ht (f := { f with size := m }) hf.name (k + 1)
  rw [a1] at hset
  unfold CList.setAt
  rw [hw]
  simp only [h.node.vlen, ne_eq, not_true_eq_false, if_false, Option.bind_eq_bind, hinf, Option.bind_some, pure]
  have hcf : f.countOfField s * 2 + 4 = vs := by unfold CNode.countOfField; rw [hf.name]; exact hvs
  rw [hcf, hset, hp]
  simp only [Option.bind_some, Int.sub_self]
  have hd0 : c'.io.diffs ≠ [] := by rw [a2]; simp [Base.apps, a0]
  have hlen1 : (es ++ [(⟨[B], m⟩ : El)]).length = es.length + 1 := by simp
  have htB : tot [B] = B.length := by simp [tot]
  have hBl : B.length = vs + m := by rw [← hln, htB]
  have hEnd : elEnd es = 4 + 4 * es.length + sumTot es := rfl
  have hE := elEnd_append (es := es) (⟨[B], m⟩ : El)
  -- the count as the list has it now
  have hll : c'.listLen = some (es.length + 1) := by
    have hv := a5.vpos
    refine listLen_of (c := c') hv (by omega) ?_
    rw [a2, ← hlen1]
    have hh : Holds b 0 (putLE 4 (es ++ [(⟨[B], m⟩ : El)]).length) := a5.hdr
    have hds : ∀ d ∈ pd, 4 ≤ d.off := fun d hd => by have := a3 d hd; omega
    refine ⟨hh.1, ?_, ?_⟩
    · rw [noCut_iff]
      intro e he hcut
      have h0 := (noCut_iff _ _ _).mp hh.2.1
      rw [putLE_length] at hcut
      rcases he with rfl | ⟨d, hd, he⟩
      · exact h0 _ (Or.inl rfl) (by rw [putLE_length]; exact hcut)
      · rcases List.mem_append.mp hd with hd | hd
        · exact h0 _ (Or.inr ⟨d, hd, he⟩) (by rw [putLE_length]; exact hcut)
        · have := hds d hd
          omega
    · intro k hk
      rw [putLE_length] at hk
      have h0 := hh.2.2 k (by rw [putLE_length]; omega)
      rw [← h0]
      unfold Base.content Base.apps
      simp only
      rw [contentOf_append]
      have : ∀ (l : List Diff) (mm : ByteMap), (∀ d ∈ l, 4 ≤ d.off) → contentOf mm l (0 + k) = mm (0 + k) := by
        intro l
        induction l with
        | nil => intro mm _; rfl
        | cons d l ih =>
          intro mm hl
          show contentOf (mm.put d.off d.sl.data) l (0 + k) = _
          rw [ih _ (fun d' hd' => hl d' (List.mem_cons_of_mem _ hd')), put_apply, if_neg]
          have := hl d (List.mem_cons_self ..)
          omega
      exact this pd _ hds
  unfold CList.writeElm CList.dataStart
  simp only [Option.bind_eq_bind, Option.bind_some, hd0, if_false, hll, hwk, if_true, pure]
  have hdl : l.dLen = ((sumTot es : Nat) : Int) := h.dlen
  have hwl : w.data.length = sumTot es := by rw [hwd, allPs_length]
  have hR0 : (f.io.R 0).data = B := by
    rw [R_data, writerR_uncovered (by rw [hfd]; rfl) (Nat.zero_le _)]
    have : f.io.stop 0 = f.io.bytes.len := by unfold Base.stop; rw [hfd]; rfl
    rw [this]
    simp [Slice.len, hB]
  rw [hdl, if_neg (by omega)]
  simp only [Int.toNat_natCast, Writer.writeAt, hwk, Option.bind_some, hfd, CList.writeDiffs, hR0]
  have hput : Writer.putAt w.data (sumTot es) B = w.data ++ B := by rw [← hwl]; exact Writer.putAt_end _ _
  rw [hput]
  refine ⟨_, rfl, ⟨?_, ?_, ⟨_, rfl, rfl, ?_⟩, ?_⟩, ?_⟩
  · -- what remains is the header
    have hkeep : c'.io.diffs.filter (fun d =>
        !(decide (c'.vi.pos + ((es.length + 1 : Nat) : Int) * 4 + ((sumTot es : Nat) : Int) + 0 + ((m : Int) + (vs : Int)) ≤ (d.off : Int) + (d.sl.len : Int)) ||
          decide (c'.vi.pos + ((es.length + 1 : Nat) : Int) * 4 + ((sumTot es : Nat) : Int) ≤ (d.off : Int)))) = b.diffs := by
      have hv : c'.vi.pos = 4 := a5.vpos
      rw [a2, hv]
      show (b.diffs ++ pd).filter _ = b.diffs
      rw [List.filter_append, List.filter_eq_self.mpr, List.filter_eq_nil_iff.mpr, List.append_nil]
      · intro d hd
        have := a3 d hd
        simp only [Bool.not_eq_true', Bool.or_eq_false_iff, decide_eq_false_iff_not, not_and]
        omega
      · intro d hd
        have := a4 d hd
        have h1 : d.off < 4 + 4 * (es ++ [(⟨[B], m⟩ : El)]).length := a5.below d hd
        rw [hlen1] at this h1
        simp only [Bool.not_eq_true', Bool.or_eq_false_iff, decide_eq_false_iff_not]
        omega
    simp only
    rw [hkeep]
    have : ({ c'.io with diffs := b.diffs } : Base) = b := by rw [a2]; rfl
    rw [this]
    exact a5
  · simp only [sumTot_append]
    simp only [sumTot, List.map_cons, List.map_nil, List.sum_cons, List.sum_nil, htB]
    omega
  · simp only [hwd, allPs_append, List.flatten_append]
    simp [allPs]
  · intro v hv
    rw [allPs_append] at hv
    rcases List.mem_append.mp hv with hv | hv
    · exact h.ne v hv
    · simp only [allPs, List.flatMap_cons, List.flatMap_nil, List.append_nil, List.mem_singleton] at hv
      rintro rfl
      rw [← hv] at hBl
      simp at hBl
      omega
  · exact a6

theorem SplitI.length {l : CList} (h : SplitI s k0 t vs l es) : l.node.io.flatten.bytes.data.length = 4 + 4 * es.length := by
  have h1 := lenBuf_upto h.node.len h.node.below h.node.clean
  have h2 := (flatten_bytes l.node.io).1
  have h3 : 4 + 4 * es.length ≤ l.node.io.flatten.bytes.data.length := by
    by_cases hn : es.length = 0
    · have := (holds_flattened h.node.hdr).1
      rw [putLE_length] at this; omega
    · have := (holds_flattened (h.node.off (es.length - 1) (by omega))).1
      rw [putLE_length] at this; omega
  omega

theorem flatten_new (bs : Bytes) : (Base.new ⟨bs, []⟩).flatten.bytes.data = bs := by
  obtain ⟨h1, h2⟩ := flatten_bytes (Base.new ⟨bs, []⟩)
  have hl : (Base.new ⟨bs, []⟩).lenBuf = bs.length := by
    rw [lenBuf_eq]; simp [maxEnd, Base.new, Slice.len]
  apply List.ext_getElem?
  intro k
  rw [h2 k]
  simp only [ByteMap.fill, hl]
  by_cases hk : k < bs.length
  · have : (Base.new ⟨bs, []⟩).content k = bs[k]? := rfl
    rw [if_pos hk, this, List.getElem?_eq_getElem hk]; rfl
  · rw [if_neg hk, List.getElem?_eq_none (by omega)]

/-- What `WriteDataAll` leaves. -/
theorem TLI.split (h : TLI s k0 t vs c es) (ht : TabElt s t) (hvs : (s.fields t).length * 2 + 4 = vs) (k : Nat) (hk : k0 ≤ k)
    (l : CList) (hl : l.node = c) {w : Writer} (hw : l.w = some w) (hwk : w.kind = .file) (hwd : w.data = []) (hwc : w.cur = 0) (hd : l.dLen = 0) :
    ∃ l', l.writeDataAll s k = some (l', none) ∧ SplitI s k0 t vs l' es ∧ Sized l'.node es ∧
      l'.node.io.flatten.bytes.data = c.io.flatten.bytes.data.take (4 + 4 * es.length) := by
  by_cases hne : es = []
  · subst hne
    have hv := h.vlen
    refine ⟨l, ?_, ⟨?_, by rw [hd]; rfl, ⟨w, hw, hwk, by rw [hwd]; rfl⟩, fun w hw => by simp [allPs] at hw⟩, fun h => absurd rfl h, ?_⟩
    · unfold CList.writeDataAll
      rw [hl, if_pos (by rw [hv]; rfl)]; rfl
    · rw [hl]
      exact ⟨h.name, h.cpos, h.vpos, h.vlen, h.small, h.hdr, h.off, h.self, h.len, h.clean0, h.below⟩
    · have h1 := lenBuf_upto h.len h.below h.clean0
      rw [hl, List.take_of_length_le]
      rw [(flatten_bytes c.io).1]; exact h1
  · obtain ⟨l', w', r1, r2, r3, r4, r5, r6, r7⟩ := writeDataAll_eq h.view ht hvs hne h.vlen k hk l hl hw
      (fun _ => by rw [hwc, hwd]; rfl) hd
    have hpos : 0 < es.length := List.length_pos_iff.mpr hne
    have hpre : ∀ x v, Holds c.io x v → x + v.length ≤ 4 + 4 * es.length →
        Holds (Base.new ⟨c.io.flatten.bytes.data.take (4 + 4 * es.length), []⟩) x v := by
      intro x v hv hx
      exact holds_prefix (b := c.io.flatten) rfl rfl (holds_flatten hv) hx
    refine ⟨l', r1, ⟨?_, r7, ⟨w', r3, by rw [r5, hwk], by rw [r6, hwd, List.nil_append]⟩, h.pieces_ne⟩, ?_, by rw [r2]; exact flatten_new _⟩
    · rw [r2]
      refine ⟨h.name, h.cpos, h.vpos, h.vlen, h.small, hpre _ _ h.hdr (by rw [putLE_length]; omega), ?_, h.self, ?_, ?_, ?_⟩
      · intro i hi
        exact hpre _ _ (h.off i hi) (by rw [putLE_length]; omega)
      · simp only [Base.new, Slice.len, List.length_take]; omega
      · intro d hd; cases hd
      · intro d hd; cases hd
    · rw [r2]
      exact h.vsize

/-! ## the list put together again -/

/-- Count and offsets followed by the data area. -/
def CList.joined (l : CList) : CNode :=
  { l.node with io := Base.new ⟨l.node.io.flatten.bytes.data ++ (l.w.map Writer.data).getD [], []⟩ }

theorem SplitI.joined {l : CList} (h : SplitI s k0 t vs l es) : TView s k0 t vs l.joined es := by
  obtain ⟨w, hw, -, hwd⟩ := h.file
  have hlen := h.length
  have hpre : ∀ x v, Holds l.node.io x v → Holds l.joined.io x v := by
    intro x v hv
    obtain ⟨h1, h2⟩ := holds_flattened hv
    unfold CList.joined
    refine holds_flat hv.1 ?_ (by rw [List.length_append]; omega)
    intro k hk
    rw [List.getElem?_append_left (by omega), h2 k hk]
  refine ⟨h.node.name, h.node.vpos, h.node.small, hpre _ _ h.node.hdr, fun i hi => hpre _ _ (h.node.off i hi), ?_, h.node.self⟩
  intro i e hi
  have hall : HoldsC l.joined.io (cellsAt (4 + 4 * es.length) (allPs es)) := by
    by_cases hE : (allPs es).flatten = []
    · intro cc hcc
      have : allPs es = [] := by
        cases hq : allPs es with
        | nil => rfl
        | cons v vs =>
          have := h.ne v (by rw [hq]; exact List.mem_cons_self ..)
          rw [hq] at hE
          simp at hE
          exact absurd hE.1 this
      rw [this] at hcc; cases hcc
    · refine holdsC_one h.ne ?_
      intro cc hcc
      simp only [cellsAt, List.mem_singleton] at hcc
      rw [hcc]
      unfold CList.joined
      rw [hw]
      simp only [Option.map_some, Option.getD_some, hwd]
      refine holds_flat hE ?_ (by rw [List.length_append]; omega)
      intro k hk
      rw [List.getElem?_append_right (by omega), hlen]
      congr 1
      omega
  intro cc hcc
  exact hall cc ((cells_allPs _ es).mpr ⟨i, e, hi, hcc⟩)

/-! ## adding -/

theorem writeOffs_eq {src : CNode} {p d to_ : Nat} (F : Nat → Nat) (hp : src.vi.pos = p) (n : Nat) :
    ∀ (i : Nat) (io : Base), (∀ j, i ≤ j → j < i + n → Holds src.io (p + 4 * j) (putLE 4 (F j)) ∧ F j + d < 4294967296) →
      (∀ j, i ≤ j → j < i + n → ∃ v, v.length = 4 ∧ Holds io (to_ + 4 * j) v) →
      ∃ b, CList.writeOffs src d io to_ i n = some b ∧ Within io b (to_ + 4 * i) (to_ + 4 * (i + n)) ∧
        ∀ j, i ≤ j → j < i + n → Holds b (to_ + 4 * j) (putLE 4 (F j + d)) := by
  induction n with
  | zero =>
    intro i io _ _
    exact ⟨io, rfl, Within.refl _ _ _, fun j h1 h2 => by omega⟩
  | succ n ih =>
    intro i io h hi
    obtain ⟨h0, hlt⟩ := h i (Nat.le_refl _) (by omega)
    obtain ⟨v, hv, hiv⟩ := hi i (Nat.le_refl _) (by omega)
    have hpos : src.vi.pos + (i : Int) * 4 = ((p + 4 * i : Nat) : Int) := by omega
    have hu : src.u32 ((p + 4 * i : Nat) : Int) = some (F i) := by
      unfold CNode.u32
      have := holds_getN h0
      rw [Nat.mod_eq_of_lt (by omega)] at this
      exact this
    have hw4 : (putLE 4 (F i + d)).length = 4 := putLE_length _ _
    have hW := within_updateU (b := io) (off := to_ + 4 * i) hw4 (by omega)
    obtain ⟨b, h1, h2, h3⟩ := ih (i + 1) (io.updateU (to_ + 4 * i) 4 (putLE 4 (F i + d))) (fun j hj1 hj2 => h j (by omega) (by omega)) (by
      intro j hj1 hj2
      obtain ⟨v', h4, h5⟩ := hi j (by omega) (by omega)
      exact ⟨v', h4, hW.other _ _ h5 (Or.inr (by omega))⟩)
    have hE : to_ + 4 * i + 4 = to_ + 4 * (i + 1) := by omega
    refine ⟨b, ?_, ?_, ?_⟩
    · unfold CList.writeOffs
      rw [hpos, hu]
      simp only [Option.bind_eq_bind, Option.bind_some]
      have : ((F i : Nat) : Int) + (d : Int) = ((F i + d : Nat) : Int) := by omega
      rw [this, u32_nat _ hlt, Nat.mul_comm i 4]
      exact h1
    · rw [hE] at hW
      have e2 : to_ + 4 * (i + 1 + n) = to_ + 4 * (i + (n + 1)) := by omega
      rw [e2] at h2
      by_cases hn : n = 0
      · subst hn
        simp only [CList.writeOffs, Option.some.injEq] at h1
        rw [← h1]
        exact hW
      · exact hW.trans h2 (by omega) (by omega)
    · intro j hj1 hj2
      by_cases hj : j = i
      · subst hj
        exact h2.other _ _ (holds_put4 hiv hv _) (Or.inl (by rw [putLE_length]; omega))
      · exact h3 j (by omega) (by omega)

/-- list.go 172-248: two lists with their data in files, the cursor of the second at its beginning. -/
theorem SplitI.add {l a : CList} {fs : List El} (h : SplitI s k0 t vs l es) (ha : SplitI s k0 t vs a fs) (hvs : 4 ≤ vs)
    (hg : ∃ g, getTypeGroup s.toReg ('[' :: ']' :: t) = some g ∧ isFieldTable g = true)
    (hcur : ∀ w, a.w = some w → w.cur = 0) (hsm : elEnd (es ++ fs) < 4294967296) :
    ∃ r l' a', l.add s a = some (.ok (r, l', a')) ∧ SplitI s k0 t vs r (es ++ fs) ∧ l'.node = l.node ∧ l'.w = r.w ∧ a'.node = a.node := by
  obtain ⟨g, hg1, hg2⟩ := hg
  obtain ⟨w, hw, hwk, hwd⟩ := h.file
  obtain ⟨v, hv, hvk, hvd⟩ := ha.file
  have hvc := hcur v hv
  have hE := elEnd_cat (es := es) fs
  have hEe : elEnd es = 4 + 4 * es.length + sumTot es := rfl
  have hlen : (es ++ fs).length = es.length + fs.length := List.length_append
  unfold CList.add
  rw [h.node.name, ha.node.name, if_neg (by simp), hg1]
  simp only [Option.bind_eq_bind, Option.bind_some, hg2, Bool.not_true, Bool.false_eq_true, if_false, hw, hv]
  rw [h.node.listLen, ha.node.listLen]
  simp only [Option.bind_some]
  have hnew : Fbs.u32 ((es.length : Int) + (fs.length : Int)) = es.length + fs.length := by
    rw [show (es.length : Int) + (fs.length : Int) = ((es.length + fs.length : Nat) : Int) by omega]
    exact u32_nat _ (by omega)
  rw [hnew]
  generalize hN : es.length + fs.length = N
  generalize hb0 : Base.new ⟨zeros (4 + N * 4), []⟩ = b0
  have hz : ∀ x, x + 4 ≤ 4 + N * 4 → Holds b0 x (zeros 4) := by
    intro x hx
    rw [← hb0]
    refine holds_flat (by decide) ?_ (by simp [zeros]; omega)
    intro k hk
    simp only [zeros, List.length_replicate] at hk
    simp only [zeros]
    rw [List.getElem?_replicate_of_lt (by omega), List.getElem?_replicate_of_lt (by omega)]
  have hW1 := within_updateU (b := b0) (off := 0) (putLE_length 4 N) (by omega)
  generalize hb1 : b0.updateU 0 4 (putLE 4 N) = b1
  rw [hb1] at hW1
  have b1_hdr : Holds b1 0 (putLE 4 N) := by rw [← hb1]; exact holds_put4 (hz 0 (by omega)) (by simp [zeros]) _
  have b1_z : ∀ x, 4 ≤ x → x + 4 ≤ 4 + N * 4 → Holds b1 x (zeros 4) := fun x h1 h2 => hW1.other _ _ (hz x h2) (Or.inr (by omega))
  obtain ⟨b2, q1, q2, q3⟩ := writeOffs_eq (src := l.node) (p := 4) (d := fs.length * 4) (to_ := 4) (fun j => elX es j + vs - (4 + 4 * j))
    h.node.vpos es.length 0 b1 (by
      intro j _ hj
      have hj' : j < es.length := by omega
      have hX := elX_end (List.getElem?_eq_getElem hj')
      have := (h.node.self es[j] (List.getElem_mem hj')).len
      exact ⟨h.node.off j hj', by omega⟩) (by
      intro j _ hj
      exact ⟨_, by simp [zeros], b1_z _ (by omega) (by omega)⟩)
  rw [show ((fs.length * 4 : Nat) : Int) = (fs.length : Int) * 4 by omega] at q1
  rw [q1]
  simp only [Option.bind_some, Nat.zero_add] at q2 q3 ⊢
  have hdl : l.dLen = ((sumTot es : Nat) : Int) := h.dlen
  have hal : a.dLen = ((sumTot fs : Nat) : Int) := ha.dlen
  obtain ⟨b3, u1, u2, u3⟩ := writeOffs_eq (src := a.node) (p := 4) (d := sumTot es) (to_ := es.length * 4 + 4) (fun j => elX fs j + vs - (4 + 4 * j))
    ha.node.vpos fs.length 0 b2 (by
      intro j _ hj
      have hj' : j < fs.length := by omega
      have hX := elX_end (List.getElem?_eq_getElem hj')
      have hXf : elEnd fs = 4 + 4 * fs.length + sumTot fs := rfl
      have := (ha.node.self fs[j] (List.getElem_mem hj')).len
      exact ⟨ha.node.off j hj', by omega⟩) (by
      intro j _ hj
      exact ⟨_, by simp [zeros], q2.other _ _ (b1_z (es.length * 4 + 4 + 4 * j) (by omega) (by omega)) (Or.inr (by omega))⟩)
  rw [hdl, u1]
  simp only [Option.bind_some, Nat.zero_add] at u2 u3 ⊢
  have b3_hdr : Holds b3 0 (putLE 4 N) :=
    u2.other _ _ (q2.other _ _ b1_hdr (Or.inl (by rw [putLE_length]; omega))) (Or.inl (by rw [putLE_length]; omega))
  have hvl : b3.getN 4 (l.node.vi.pos - 4) = some N := by
    rw [h.node.vpos]
    have := holds_getN b3_hdr
    rw [Nat.mod_eq_of_lt (by omega)] at this
    exact this
  rw [hvl]
  simp only [Option.bind_some, Writer.seekEnd, hwk, Writer.readAll, hvk, hvc, hvd, List.drop_zero]
  have hsl : ((allPs fs).flatten.length : Int) = ((sumTot fs : Nat) : Int) := by rw [allPs_length]
  rw [hal, hsl]
  simp only [ne_eq, not_true_eq_false, if_false, pure]
  obtain ⟨w1, w2, -⟩ := Writer.write_end (w := { kind := .file, data := w.data, cur := w.data.length }) (fun _ => rfl) (allPs fs).flatten
  refine ⟨_, _, _, rfl, ⟨?_, ?_, ⟨_, rfl, ?_, ?_⟩, ?_⟩, rfl, rfl, rfl⟩
  · have hb3b : b3.bytes = b0.bytes := by rw [u2.bytes, q2.bytes, hW1.bytes]
    have hb0l : b0.bytes.len = 4 + N * 4 := by rw [← hb0]; simp [Base.new, Slice.len, zeros]
    have c0 : Clean b0 (4 + 4 * N) := by rw [← hb0]; intro d hd; cases hd
    have l0 : Below b0 (4 + 4 * N) := by rw [← hb0]; intro d hd; cases hd
    have c1 := hW1.clean _ c0 (Or.inr (by omega))
    have c2 := q2.clean _ c1 (Or.inr (by omega))
    have c3 := u2.clean _ c2 (Or.inr (by omega))
    have l1 : Below b1 (4 + 4 * N) := (hW1.mono (lo' := 0) (hi' := 4 + 4 * N) (by omega) (by omega)).belowE l0 c0
    have l2 : Below b2 (4 + 4 * N) := (q2.mono (lo' := 0) (hi' := 4 + 4 * N) (by omega) (by omega)).belowE l1 c1
    have l3 : Below b3 (4 + 4 * N) := (u2.mono (lo' := 0) (hi' := 4 + 4 * N) (by omega) (by omega)).belowE l2 c2
    refine ⟨rfl, rfl, h.node.vpos, by simp only [hlen, hN], hsm, by simp only [hlen, hN]; exact b3_hdr, ?_, ?_, ?_, ?_, ?_⟩
    · intro i hi
      by_cases hil : i < es.length
      · rw [elX_left (by omega)]
        have h1 := u2.other _ _ (q3 i (by omega) hil) (Or.inl (by rw [putLE_length]; omega))
        have hX : 4 + 4 * es.length ≤ elX es i := by unfold elX; omega
        have e1 : elX es i + vs - (4 + 4 * i) + fs.length * 4 = elX es i + 4 * fs.length + vs - (4 + 4 * i) := by omega
        rw [e1] at h1
        exact h1
      · have hj : i - es.length < fs.length := by omega
        have h1 := u3 (i - es.length) (by omega) hj
        have e0 : i = es.length + (i - es.length) := by omega
        have hX : 4 + 4 * fs.length ≤ elX fs (i - es.length) := by unfold elX; omega
        have e1 : elX (es ++ fs) i = elX fs (i - es.length) + 4 * es.length + sumTot es := by
          conv => lhs; rw [e0]
          exact elX_right _
        rw [e1]
        have e2 : es.length * 4 + 4 + 4 * (i - es.length) = 4 + 4 * i := by omega
        have e3 : elX fs (i - es.length) + vs - (4 + 4 * (i - es.length)) + sumTot es =
            elX fs (i - es.length) + 4 * es.length + sumTot es + vs - (4 + 4 * i) := by omega
        rw [e2, e3] at h1
        exact h1
    · intro e he
      rcases List.mem_append.mp he with he | he
      · exact h.node.self e he
      · exact ha.node.self e he
    · simp only [hlen, hN, hb3b, hb0l]; omega
    · simp only [hlen, hN]; exact c3
    · simp only [hlen, hN]; exact l3
  · simp only [sumTot_append]; omega
  · exact w1
  · rw [w2, allPs_append, List.flatten_append, hwd]
  · intro x hx
    rw [allPs_append] at hx
    rcases List.mem_append.mp hx with hx | hx
    · exact h.ne x hx
    · exact ha.ne x hx

end

end Fbs
