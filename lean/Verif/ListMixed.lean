import Verif.ListRange
/-!
# Lists of tables whose elements were exchanged

After `SwapAt` the offsets of a list lead to its elements in another order than that in which the elements lie in the
buffer.
-/

namespace Fbs
open CNode

/-- A list in a buffer of its own: the elements `es` lie one behind the other, the offset number `i` leads to the element
number `I[i]`. -/
structure TLX (s : Sch) (k0 : Nat) (t : Name) (vs : Nat) (c : CNode) (es : List El) (I : List Nat) : Prop where
  name   : c.name = '[' :: ']' :: t
  cpos   : c.pos = 4
  vpos   : c.vi.pos = 4
  vlen   : c.vi.vlen = es.length
  vsize  : es ≠ [] → c.vi.size = 4 * es.length + sumTot es
  small  : elEnd es < 4294967296
  hdr    : Holds c.io 0 (putLE 4 es.length)
  ilen   : I.length = es.length
  irng   : ∀ j ∈ I, j < es.length
  off    : ∀ i j, I[i]? = some j → Holds c.io (4 + 4 * i) (putLE 4 (elX es j + vs - (4 + 4 * i)))
  elt    : ∀ i e, es[i]? = some e → HoldsC c.io (cellsAt (elX es i) e.ps)
  self   : ∀ e ∈ es, SelfC s k0 t vs e.ps e.m
  len    : c.io.bytes.len ≤ 4
  clean0 : Clean c.io (4 + 4 * es.length)
  clean1 : Clean c.io (elEnd es)
  below  : Below c.io (elEnd es)
  exact  : ∀ i e, es[i]? = some e → ExactC c.io (cellsAt (elX es i) e.ps)

variable {s : Sch} {k0 : Nat} {t : Name} {vs : Nat} {c : CNode} {es : List El} {I : List Nat}

theorem TLI.mixed (h : TLI s k0 t vs c es) : TLX s k0 t vs c es (List.range es.length) := by
  refine ⟨h.name, h.cpos, h.vpos, h.vlen, h.vsize, h.small, h.hdr, List.length_range, fun j hj => List.mem_range.mp hj, ?_, h.elt, h.self, h.len,
    h.clean0, h.clean1, h.below, h.exact⟩
  intro i j hij
  obtain ⟨hi, rfl⟩ := List.getElem?_eq_some_iff.mp hij
  rw [List.length_range] at hi
  rw [List.getElem_range]
  exact h.off i hi

/-- The part of the invariant that determines what `At` and `Info` return. -/
structure XView (s : Sch) (k0 : Nat) (t : Name) (vs : Nat) (c : CNode) (es : List El) (I : List Nat) : Prop where
  name   : c.name = '[' :: ']' :: t
  vpos   : c.vi.pos = 4
  small  : elEnd es < 4294967296
  hdr    : Holds c.io 0 (putLE 4 I.length)
  ismall : I.length ≤ es.length
  irng   : ∀ j ∈ I, j < es.length
  off    : ∀ i j, I[i]? = some j → Holds c.io (4 + 4 * i) (putLE 4 (elX es j + vs - (4 + 4 * i)))
  elt    : ∀ i e, es[i]? = some e → HoldsC c.io (cellsAt (elX es i) e.ps)
  self   : ∀ e ∈ es, SelfC s k0 t vs e.ps e.m

theorem TLX.view (h : TLX s k0 t vs c es I) : XView s k0 t vs c es I :=
  ⟨h.name, h.vpos, h.small, by rw [h.ilen]; exact h.hdr, Nat.le_of_eq h.ilen, h.irng, h.off, h.elt, h.self⟩

theorem XView.listLen (h : XView s k0 t vs c es I) : c.listLen = some I.length :=
  listLen_of h.vpos (by have := h.small; have := h.ismall; unfold elEnd at *; omega) h.hdr

theorem XView.at_eq (h : XView s k0 t vs c es I) (ht : TabElt s t) {i j : Nat} {e : El} (hij : I[i]? = some j) (hi : es[j]? = some e) :
    ∃ tl, c.at_ s i = some (.ok { name := t, io := c.io, pos := elX es j + vs, tlen := tl }) := by
  have hlt := (List.getElem?_eq_some_iff.mp hij).1
  have hse := h.self e (List.mem_of_getElem? hi)
  obtain ⟨tl, htl⟩ := hse.pre _ _ (h.elt j e hi)
  have hX := elX_end hi
  have hsm := h.small
  have hism := h.ismall
  have hlen := hse.len
  refine ⟨tl, at_tab (p := 4) ht h.name h.listLen h.vpos hlt ?_ (by omega) (h.off i j hij) htl⟩
  unfold elX
  omega

theorem XView.at_some (h : XView s k0 t vs c es I) (ht : TabElt s t) (i : Int) : ∃ r, c.at_ s i = some r ∧
    ∀ e, r = .ok e → ∃ (j : Nat) (el : El), es[j]? = some el ∧ e.name = t ∧ e.io = c.io ∧ e.pos = elX es j + vs := by
  by_cases hi : i ≥ I.length ∨ i < 0
  · exact ⟨_, at_out h.name h.listLen i hi, fun e he => (by cases he)⟩
  · have hj : i.toNat < I.length := by omega
    have hjl := h.irng _ (List.getElem_mem hj)
    obtain ⟨tl, h1⟩ := h.at_eq ht (List.getElem?_eq_getElem hj) (List.getElem?_eq_getElem hjl)
    have e1 : ((i.toNat : Nat) : Int) = i := by omega
    rw [e1] at h1
    refine ⟨_, h1, ?_⟩
    intro e he
    cases he
    exact ⟨_, _, List.getElem?_eq_getElem hjl, rfl, rfl, rfl⟩

/-- `InfoSlice` of a list of tables the last of which lies last. -/
theorem XView.infoSlice (h : XView s k0 t vs c es I) (ht : TabElt s t) {n : Nat} (hn : I.length = n + 1) {j : Nat} {e : El} (hl : I[n]? = some j)
    (hj : es[j]? = some e) (k : Nat) (hk : k0 ≤ k) :
    infoSliceF s (k + 1) c = some { pos := 4, size := elX es j + tot e.ps - 4, vlen := I.length } := by
  obtain ⟨g, hg, hb, -, -, -⟩ := id ht
  have hAll : ∀ i, ∃ r, c.at_ s i = some r := fun i => by
    obtain ⟨r, h1, -⟩ := h.at_some ht i; exact ⟨r, h1⟩
  let A : Int → Except Err CNode := fun i => (c.at_ s i).getD (.error .notFound)
  have hA : ∀ i, c.at_ s i = some (A i) := by
    intro i
    obtain ⟨r, hr⟩ := hAll i
    show c.at_ s i = some ((c.at_ s i).getD _)
    rw [hr]; rfl
  have hI : ∀ i e, A i = .ok e → infoF s k (some e) = some ((infoF s k (some e)).getD {}) := by
    intro i e he
    obtain ⟨r, h1, h2⟩ := h.at_some ht i
    have : r = .ok e := by
      have h3 := hA i
      rw [h1] at h3
      injection h3 with h3
      rw [h3, he]
    obtain ⟨j, el, h4, h5, h6, h7⟩ := h2 e this
    rw [(h.self el (List.mem_of_getElem? h4)).info _ _ (h.elt j el h4) k hk e h5 h6 h7]
    rfl
  have key := infoSlice_gen (k := k) h.name hg hb h.listLen A hA (fun e => (infoF s k (some e)).getD {}) hI
  rw [key]
  congr 1
  obtain ⟨tl, h1⟩ := h.at_eq ht hl hj
  have e1 : ((n : Nat) : Int) = (I.length : Int) - 1 := by omega
  rw [e1] at h1
  have hlast : A ((I.length : Int) - 1) = .ok { name := t, io := c.io, pos := elX es j + vs, tlen := tl } := by
    have h3 := hA ((I.length : Int) - 1)
    rw [h1] at h3
    injection h3 with h3
    exact h3.symm
  rw [hlast]
  simp only
  have hse := h.self _ (List.mem_of_getElem? hj)
  rw [hse.info _ _ (h.elt _ _ hj) k hk { name := t, io := c.io, pos := elX es j + vs, tlen := tl } rfl rfl rfl]
  simp only [Option.getD_some]
  have hl1 := hse.len
  have hX : elX es j = 4 + 4 * es.length + sumTot (es.take j) := rfl
  have hism := h.ismall
  have hm := hse.mpos
  rw [if_neg (by omega)]
  unfold growInfo
  rw [if_pos (by simp only [h.vpos]; omega)]
  simp only [VInfo.mk.injEq, h.vpos, and_true, true_and]
  omega

theorem TLX.vlenTotal (h : TLX s k0 t vs c es I) (hne : es ≠ []) (k : Nat) :
    c.vlenTotal s k = some { c with vi := ⟨4, 4 * es.length + sumTot es, es.length⟩ } := by
  have hp := h.vpos
  have hv := h.vlen
  unfold CNode.vlenTotal
  have hpos : 0 < es.length := List.length_pos_iff.mpr hne
  have hsz := h.vsize hne
  rw [if_neg (by omega)]
  simp only [Option.bind_eq_bind, Option.bind_some, pure]
  rw [if_neg (by omega), ← hsz, ← hp, ← hv]

/-- Appending a table. -/
theorem TLX.append (h : TLX s k0 t vs c es I) (hes : es ≠ []) (ht : TabElt s t) (hvs : (s.fields t).length * 2 + 4 = vs) {f : CNode} {e : El}
    (hf : TSrc s k0 t vs f e) (hsm : elEnd (es ++ [e]) < 4294967296) (k : Nat) (hk : k0 ≤ k) :
    ∃ c', c.setTableAt s (k + 1) es.length f = some (c', none) ∧ TLX s k0 t vs c' (es ++ [e]) (I ++ [es.length]) := by
  have hv := h.vlen
  have hel := hf.self.len
  have hm := hf.self.mpos
  have hE := elEnd_append (es := es) e
  have hEnd : elEnd es = 4 + 4 * es.length + sumTot es := rfl
  have hlen := h.len
  unfold CNode.setTableAt
  rw [if_neg (by omega), h.vlenTotal hes (k + 1)]
  simp only [Option.bind_eq_bind, Option.bind_some]
  rw [hf.name, hvs]
  simp only [if_true]
  rw [hf.elmSize (k + 1) (by omega)]
  simp only [Option.bind_some]
  have hptr : (4 : Int) + (es.length : Int) * 4 = ((4 + 4 * es.length : Nat) : Int) := by omega
  have htot : (4 * es.length + sumTot es : Int) = ((4 * es.length + sumTot es : Nat) : Int) := by omega
  have hilen := h.ilen
  have htd : (4 : Int) + ((4 * es.length + sumTot es : Nat) : Int) + 4 = ((elEnd es + 4 : Nat) : Int) := by omega
  have hbody : max (0 : Int) ((e.m : Int) + (vs : Int)) = ((e.m + vs : Nat) : Int) := by omega
  rw [hptr, htot, hbody, if_neg (by omega), Int.toNat_natCast]
  -- space for the new offset
  generalize hc0 : ({ name := c.name, io := c.io, pos := c.pos, size := c.size, tlen := c.tlen, vi := ⟨4, ((4 * es.length + sumTot es : Nat) : Int), es.length⟩ } : CNode) = c0
  have hn0 : c0.name = '[' :: ']' :: t := by rw [← hc0]; exact h.name
  have hio0 : c0.io = c.io := by rw [← hc0]
  have hvi0 : c0.vi = ⟨4, ((4 * es.length + sumTot es : Nat) : Int), es.length⟩ := by rw [← hc0]
  have hps0 : c0.pos = 4 := by rw [← hc0]; exact h.cpos
  have hir : c0.inRoot = some false := inRoot_false (by rw [hio0]; exact h.hdr) (by omega)
  generalize hb1 : c.io.insertSpace (4 + 4 * es.length) 4 true = b1
  have hins : ∀ F, c0.insertSpace s F (4 + 4 * es.length) 4 true = some { c0 with io := b1 } := by
    intro F
    rw [CNode.insertSpace_out hir, isList_of_name hn0, hio0, hb1, hvi0]
    simp only [Option.bind_eq_bind, Option.bind_some, Bool.false_eq_true, if_false, if_true]
    rw [if_neg (by omega)]; rfl
  rw [hins]
  simp only [Option.bind_some]
  have b1_bytes : b1.bytes = c.io.bytes := by
    rw [← hb1, (insertSpace_diffs h.clean0 true).1, if_neg (by omega)]
  have b1_lt : ∀ x w, Holds c.io x w → x + w.length ≤ 4 + 4 * es.length → Holds b1 x w := by
    intro x w hw hx; rw [← hb1]; exact holds_insertSpace_lt h.clean0 hw hx
  have b1_ge : ∀ x w, Holds c.io x w → 4 + 4 * es.length ≤ x → Holds b1 (x + 4) w := by
    intro x w hw hx; rw [← hb1]; exact holds_insertSpace_ge h.clean0 hw hx
  have b1_new : Holds b1 (4 + 4 * es.length) (zeros 4) := by rw [← hb1]; exact holds_insertSpace_new h.clean0 (by omega)
  have b1_c1 : Clean b1 (8 + 4 * es.length) := by
    rw [← hb1]
    refine clean_insertSpace h.clean0 (Or.inr ⟨by omega, ?_, Or.inl (by omega)⟩)
    have : 8 + 4 * es.length - 4 = 4 + 4 * es.length := by omega
    rw [this]; exact h.clean0
  have b1_c2 : Clean b1 (elEnd es + 4) := by
    rw [← hb1]
    exact clean_insertSpace h.clean0 (Or.inr ⟨by omega, by rw [Nat.add_sub_cancel]; exact h.clean1, Or.inl (by omega)⟩)
  have b1_bel : Below b1 (elEnd es + 4) := by
    rw [← hb1]; exact below_insert4 h.clean0 (by omega) h.below (by omega)
  -- the existing offsets grow by four
  obtain ⟨b2, h2e, h2w, h2o⟩ := addOffs_eq (p := 4) (d := 4) (fun i => elX es ((I[i]?).getD 0) + vs - (4 + 4 * i)) es.length 0
    { c0 with io := b1 } (by simp only [hvi0]; rfl) (by
      intro j hj1 hj2
      have hjl : j < I.length := by omega
      have hij := List.getElem?_eq_getElem hjl
      have hjr := h.irng _ (List.getElem_mem hjl)
      have hX := elX_end (List.getElem?_eq_getElem hjr)
      have hsl := (h.self _ (List.getElem_mem hjr)).len
      rw [hij, Option.getD_some]
      exact ⟨b1_lt _ _ (h.off j _ hij) (by rw [putLE_length]; omega), by omega⟩)
  simp only [Nat.zero_add, Nat.mul_zero, Nat.add_zero] at h2w h2o
  rw [show ((4 : Nat) : Int) = 4 from rfl] at h2e
  rw [h2e]
  simp only [Option.bind_some, hvi0]
  have hoffv : (4 : Int) + ((4 * es.length + sumTot es : Nat) : Int) + 4 + (vs : Int) - (4 + (es.length : Int) * 4) =
      ((elEnd es + 4 + vs - (4 + 4 * es.length) : Nat) : Int) := by omega
  rw [hoffv, u32_nat _ (by omega), hptr, putN_nat]
  simp only [Option.bind_some]
  rw [if_pos (by omega), htd, if_neg (by omega)]
  generalize hb3 : b2.updateU (4 + 4 * es.length) 4 (putLE 4 (elEnd es + 4 + vs - (4 + 4 * es.length))) = b3
  have hW3 : Within b2 b3 (4 + 4 * es.length) (8 + 4 * es.length) := by
    rw [← hb3]
    have := within_updateU (b := b2) (off := 4 + 4 * es.length) (putLE_length 4 (elEnd es + 4 + vs - (4 + 4 * es.length))) (by omega)
    have e : 4 + 4 * es.length + 4 = 8 + 4 * es.length := by omega
    rw [e] at this
    exact this
  have b2_new : Holds b2 (4 + 4 * es.length) (zeros 4) := h2w.other _ _ b1_new (Or.inr (Nat.le_refl _))
  have b3_off : Holds b3 (4 + 4 * es.length) (putLE 4 (elEnd es + 4 + vs - (4 + 4 * es.length))) := by
    rw [← hb3]; exact holds_put4 b2_new (by simp [zeros]) _
  have h2w' : Within b1 b3 4 (8 + 4 * es.length) := h2w.trans hW3 (by omega) (by omega)
  have b3_bel : Below b3 (elEnd es + 4) := by
    by_cases he : 8 + 4 * es.length = elEnd es + 4
    · rw [← he]; exact h2w'.belowE (by rw [he]; exact b1_bel) b1_c1
    · exact h2w'.below _ b1_bel (by omega)
  have b3_c1 : Clean b3 (8 + 4 * es.length) := h2w'.clean _ b1_c1 (Or.inr (Nat.le_refl _))
  have b3_c2 : Clean b3 (elEnd es + 4) := h2w'.clean _ b1_c2 (Or.inr (by omega))
  have b3_bytes : b3.bytes = c.io.bytes := by rw [h2w'.bytes, b1_bytes]
  have b1_hdr := b1_lt _ _ h.hdr (by rw [putLE_length]; omega)
  have b3_hdr : Holds b3 0 (putLE 4 es.length) := h2w'.other _ _ b1_hdr (Or.inl (by rw [putLE_length]; omega))
  -- space for the element: nothing is there
  generalize hc3 : ({ name := c0.name, io := b3, pos := c0.pos, size := c0.size, tlen := c0.tlen, vi := ⟨4, ((4 * es.length + sumTot es : Nat) : Int), es.length⟩ } : CNode) = c3
  have hn3 : c3.name = '[' :: ']' :: t := by rw [← hc3]; exact hn0
  have hio3 : c3.io = b3 := by rw [← hc3]
  have hvi3 : c3.vi = ⟨4, ((4 * es.length + sumTot es : Nat) : Int), es.length⟩ := by rw [← hc3]
  have hps3 : c3.pos = 4 := by rw [← hc3]; exact hps0
  have hir3 : c3.inRoot = some false := inRoot_false (by rw [hio3]; exact b3_hdr) (by omega)
  rw [Int.toNat_natCast, Int.toNat_natCast]
  obtain ⟨b4_bytes, b4_diffs⟩ := insertSpace_end (b := b3) (pos := elEnd es + 4) (size := e.m + vs)
    (by rw [b3_bytes]; omega) b3_bel b3_c2
  generalize hb4 : b3.insertSpace (elEnd es + 4) (e.m + vs) false = b4
  rw [hb4] at b4_bytes b4_diffs
  have hins3 : ∀ F, c3.insertSpace s F (elEnd es + 4) (e.m + vs) false = some { c3 with io := b4 } := by
    intro F
    rw [CNode.insertSpace_out hir3, isList_of_name hn3, hio3, hb4, hvi3]
    simp only [Option.bind_eq_bind, Option.bind_some, Bool.false_eq_true, if_false, if_true]
    rw [if_neg (by omega)]; rfl
  rw [hins3]
  simp only [Option.bind_some, hvi3]
  -- the count
  have hz : (4 : Int) - 4 = ((0 : Nat) : Int) := by omega
  rw [hz, putN_nat]
  simp only [Option.bind_some]
  generalize hb5 : b4.updateU 0 4 (putLE 4 (es.length + 1)) = b5
  have hW5 : Within b4 b5 0 4 := by rw [← hb5]; exact within_updateU (putLE_length _ _) (by omega)
  have b4_of : ∀ x w, Holds b3 x w → Holds b4 x w := fun x w hw => holds_congr b4_bytes b4_diffs hw
  have b5_hdr : Holds b5 0 (putLE 4 (es.length + 1)) := by
    rw [← hb5]; exact holds_put4 (b4_of _ _ b3_hdr) (putLE_length _ _) _
  have b5_of : ∀ x w, Holds b3 x w → 4 ≤ x → Holds b5 x w := fun x w hw hx => hW5.other _ _ (b4_of x w hw) (Or.inr hx)
  have b5_bytes : b5.bytes = c.io.bytes := by rw [hW5.bytes, b4_bytes, b3_bytes]
  have b4_bel : Below b4 (elEnd es + 4) := by unfold Below; rw [b4_diffs]; exact b3_bel
  have b4_c1 : Clean b4 (8 + 4 * es.length) := by unfold Clean; rw [b4_diffs]; exact b3_c1
  have b4_c2 : Clean b4 (elEnd es + 4) := by unfold Clean; rw [b4_diffs]; exact b3_c2
  have b5_bel : Below b5 (elEnd es + 4) := hW5.below _ b4_bel (by omega)
  have b5_c1 : Clean b5 (8 + 4 * es.length) := hW5.clean _ b4_c1 (Or.inr (by omega))
  have b5_c2 : Clean b5 (elEnd es + 4) := hW5.clean _ b4_c2 (Or.inr (by omega))
  -- the element
  have hsp : (f.pos : Int) - (vs : Int) = ((f.pos - vs : Nat) : Int) := by have := hf.vpos; omega
  have hsz : (e.m : Int) + (vs : Int) = ((tot e.ps : Nat) : Int) := by omega
  rw [hsp, hsz, copyI_zero]
  simp only [Option.bind_some]
  obtain ⟨pd, hcp, hpd⟩ := copy_reads (b := b5) (dst := elEnd es + 4) hf.mem (by rw [b5_bytes]; omega)
  rw [hcp]
  have hne := reads_ne hf.mem
  have b6_elt : HoldsC (b5.apps pd) (cellsAt (elEnd es + 4) e.ps) :=
    apps_same hpd hne (fun cc hcc => noCut_end (by rw [b5_bytes]; omega) b5_bel b5_c2 (cellsAt_mem hcc).1)
  have b6_of : ∀ x w, Holds b5 x w → x + w.length ≤ elEnd es + 4 → Holds (b5.apps pd) x w :=
    fun x w hw hx => apps_other hpd hw (Or.inl hx)
  have b6_c1 : Clean (b5.apps pd) (8 + 4 * es.length) := apps_clean hpd b5_c1 (Or.inl (by omega))
  have b6_c2 : Clean (b5.apps pd) (elEnd (es ++ [e])) := by
    refine apps_clean hpd ?_ (Or.inr (by omega))
    intro d hd
    have g1 := b5_bel d hd
    have g2 := b5_c2 d hd
    unfold Straddles at g2 ⊢
    omega
  have b6_bel : Below (b5.apps pd) (elEnd (es ++ [e])) :=
    apps_below hpd hne (fun d hd => by have := b5_bel d hd; omega) (by omega)
  generalize hb6 : b5.apps pd = b6
  rw [hb6] at b6_elt b6_of b6_c1 b6_c2 b6_bel
  have b6_bytes : b6.bytes = c.io.bytes := by rw [← hb6]; exact b5_bytes
  have hlen1 : (es ++ [e]).length = es.length + 1 := by simp
  have b6_hdr : Holds b6 0 (putLE 4 (es ++ [e]).length) := by
    rw [hlen1]; exact b6_of _ _ b5_hdr (by rw [putLE_length]; omega)
  have hIlen1 : (I ++ [es.length]).length = es.length + 1 := by simp [hilen]
  have b6_off : ∀ i j, (I ++ [es.length])[i]? = some j → Holds b6 (4 + 4 * i) (putLE 4 (elX (es ++ [e]) j + vs - (4 + 4 * i))) := by
    intro i j hij
    have hi := (List.getElem?_eq_some_iff.mp hij).1
    rw [hIlen1] at hi
    by_cases hlast : i = es.length
    · subst hlast
      rw [List.getElem?_append_right (by omega), hilen, Nat.sub_self] at hij
      cases hij
      rw [elX_append (Nat.le_refl _), elX_last]
      exact b6_of _ _ (b5_of _ _ b3_off (by omega)) (by rw [putLE_length]; omega)
    · have hlt : i < es.length := by omega
      rw [List.getElem?_append_left (by omega)] at hij
      have hjr := h.irng _ (List.mem_of_getElem? hij)
      rw [elX_append (by omega)]
      have hX : 4 + 4 * es.length ≤ elX es j := by unfold elX; omega
      have := h2o i (by omega) hlt
      rw [hij, Option.getD_some] at this
      have e3 : elX es j + vs - (4 + 4 * i) + 4 = elX es j + 4 + vs - (4 + 4 * i) := by omega
      rw [e3] at this
      exact b6_of _ _ (b5_of _ _ (hW3.other _ _ this (Or.inl (by rw [putLE_length]; omega))) (by omega)) (by rw [putLE_length]; omega)
  have b6_el : ∀ i x, (es ++ [e])[i]? = some x → HoldsC b6 (cellsAt (elX (es ++ [e]) i) x.ps) := by
    intro i x hx
    by_cases hlt : i < es.length
    · rw [List.getElem?_append_left hlt] at hx
      rw [elX_append (by omega), cellsAt_shift]
      intro cc hcc
      obtain ⟨c1, hc1, rfl⟩ := List.mem_map.mp hcc
      have hmem := cellsAt_mem hc1
      have hX := elX_end hx
      have hX2 : 4 + 4 * es.length ≤ elX es i := by unfold elX; omega
      have g1 := b1_ge _ _ (h.elt i x hx c1 hc1) (by omega)
      have g3 := h2w'.other _ _ g1 (Or.inr (by omega))
      exact b6_of _ _ (b5_of _ _ g3 (by omega)) (by simp only; omega)
    · rw [List.getElem?_append_right (by omega)] at hx
      have hi0 : i = es.length := by
        by_contra hne
        rw [List.getElem?_eq_none (by simp; omega)] at hx
        cases hx
      subst hi0
      rw [Nat.sub_self] at hx
      cases hx
      rw [elX_append (Nat.le_refl _), elX_last]
      exact b6_elt
  have hself : ∀ x ∈ es ++ [e], SelfC s k0 t vs x.ps x.m := by
    intro x hx
    rcases List.mem_append.mp hx with hx | hx
    · exact h.self x hx
    · rw [List.mem_singleton.mp hx]; exact hf.self
  generalize hc6 : ({ name := c3.name, io := b6, pos := c3.pos, size := c3.size, tlen := c3.tlen, vi := ⟨4, ((4 * es.length + sumTot es : Nat) : Int), es.length⟩ } : CNode) = c6
  have hirng : ∀ j ∈ I ++ [es.length], j < (es ++ [e]).length := by
    intro j hj
    rw [hlen1]
    rcases List.mem_append.mp hj with hj | hj
    · have := h.irng j hj; omega
    · rw [List.mem_singleton.mp hj]; omega
  have hview : XView s k0 t vs c6 (es ++ [e]) (I ++ [es.length]) := by
    rw [← hc6]
    exact ⟨hn3, rfl, hsm, by rw [hIlen1, ← hlen1]; exact b6_hdr, by rw [hIlen1, hlen1]; omega, hirng, b6_off, b6_el, hself⟩
  have hio6 : c6.io = b6 := by rw [← hc6]
  unfold CNode.refresh
  rw [hview.infoSlice ht (n := es.length) hIlen1 (j := es.length) (e := e) (by rw [List.getElem?_append_right (by omega), hilen, Nat.sub_self]; rfl)
    (by rw [List.getElem?_append_right (by omega), Nat.sub_self]; rfl) k hk]
  simp only [Option.bind_eq_bind, Option.bind_some, pure]
  refine ⟨_, rfl, ?_⟩
  refine ⟨hview.name, by rw [← hc6]; exact hps3, rfl, by simp only [hIlen1, hlen1], ?_, hsm, ?_, by rw [hIlen1, hlen1], hirng, ?_, ?_, hself, ?_, ?_, ?_, ?_, ?_⟩
  · intro _
    simp only
    rw [elX_append (Nat.le_refl _), elX_last]
    have e5 : elEnd (es ++ [e]) = 4 + 4 * (es ++ [e]).length + sumTot (es ++ [e]) := rfl
    omega
  · simp only [hio6]; exact b6_hdr
  · simp only [hio6]; exact b6_off
  · simp only [hio6]; exact b6_el
  · simp only [hio6, b6_bytes]; exact hlen
  · simp only [hio6, hlen1]
    have e4 : 4 + 4 * (es.length + 1) = 8 + 4 * es.length := by omega
    rw [e4]; exact b6_c1
  · simp only [hio6]; exact b6_c2
  · simp only [hio6]; exact b6_bel
  · simp only [hio6]
    intro i x hx
    by_cases hlt : i < es.length
    · rw [List.getElem?_append_left hlt] at hx
      rw [elX_append (by omega), cellsAt_shift]
      intro cc hcc
      obtain ⟨c1, hc1, rfl⟩ := List.mem_map.mp hcc
      have hmem := cellsAt_mem hc1
      have hX := elX_end hx
      have hX2 : 4 + 4 * es.length ≤ elX es i := by unfold elX; omega
      have hne1 := (h.elt i x hx c1 hc1).1
      have hl1 : 0 < c1.2.length := List.length_pos_iff.mpr hne1
      have g1 : Exact1 b1 (c1.1 + 4, c1.2) := by
        rw [← hb1]; exact exact_insertSpace_ge h.clean0 (by omega) (h.exact i x hx c1 hc1) (by omega)
      have g3 := h2w'.exact _ g1 hne1 (Or.inr (by simp only; omega))
      have g4 := hW5.exact _ (exact_congr b4_diffs g3) hne1 (Or.inr (by simp only; omega))
      rw [← hb6]
      exact exact_apps_other hpd g4 (Or.inl (by simp only; omega))
    · rw [List.getElem?_append_right (by omega)] at hx
      have hi0 : i = es.length := by
        by_contra hne
        rw [List.getElem?_eq_none (by simp; omega)] at hx
        cases hx
      subst hi0
      rw [Nat.sub_self] at hx
      cases hx
      rw [elX_append (Nat.le_refl _), elX_last, ← hb6]
      refine exact_apps_same hpd hne ?_
      intro d hd
      have g1 := b5_bel d hd
      have g2 := b5_c2 d hd
      unfold Straddles at g2
      omega

/-- Exchanging two elements. -/
theorem TLX.swap (h : TLX s k0 t vs c es I) (ht : TabElt s t) {i j : Nat} (hi : i < I.length) (hj : j < I.length) (hne : i ≠ j) :
    ∃ c', c.swapAt s i j = some (c', none) ∧ TLX s k0 t vs c' es (swapL I i j) := by
  obtain ⟨a, ha⟩ : ∃ a, I[i]? = some a := ⟨_, List.getElem?_eq_getElem hi⟩
  obtain ⟨z, hz⟩ : ∃ z, I[j]? = some z := ⟨_, List.getElem?_eq_getElem hj⟩
  have hilen := h.ilen
  have hra := h.irng a (List.mem_of_getElem? ha)
  have hrz := h.irng z (List.mem_of_getElem? hz)
  have hoa := h.off i a ha
  have hoz := h.off j z hz
  have hXa := elX_end (List.getElem?_eq_getElem hra)
  have hXz := elX_end (List.getElem?_eq_getElem hrz)
  have hsa := (h.self _ (List.getElem_mem hra)).len
  have hsz := (h.self _ (List.getElem_mem hrz)).len
  have hsa0 := (h.self _ (List.getElem_mem hra)).mpos
  have hsm := h.small
  have hEnd : elEnd es = 4 + 4 * es.length + sumTot es := rfl
  have hXge : ∀ k, 4 + 4 * es.length ≤ elX es k := fun k => by unfold elX; omega
  have hga := hXge a
  have hgz := hXge z
  have l4 : ∀ v, (putLE 4 v).length = 4 := fun v => putLE_length _ _
  generalize hb1 : c.io.updateU (4 + 4 * i) 4 (putLE 4 (elX es z + vs - (4 + 4 * i))) = b1
  generalize hb2 : b1.updateU (4 + 4 * j) 4 (putLE 4 (elX es a + vs - (4 + 4 * j))) = b2
  have W1 : Within c.io b1 (4 + 4 * i) (4 + 4 * i + 4) := by rw [← hb1]; exact within_updateU (l4 _) (by omega)
  have W2 : Within b1 b2 (4 + 4 * j) (4 + 4 * j + 4) := by rw [← hb2]; exact within_updateU (l4 _) (by omega)
  have hother : ∀ x w, Holds c.io x w → Out (4 + 4 * i) (4 + 4 * i + 4) x w.length →
      Out (4 + 4 * j) (4 + 4 * j + 4) x w.length → Holds b2 x w :=
    fun x w h0 h1 h2 => W2.other _ _ (W1.other _ _ h0 h1) h2
  have hni : Holds b2 (4 + 4 * i) (putLE 4 (elX es z + vs - (4 + 4 * i))) :=
    W2.other _ _ (by rw [← hb1]; exact holds_put4 hoa (l4 _) _) (by rw [l4]; omega)
  have hnj : Holds b2 (4 + 4 * j) (putLE 4 (elX es a + vs - (4 + 4 * j))) := by
    rw [← hb2]; exact holds_put4 (W1.other _ _ hoz (by rw [l4]; omega)) (l4 _) _
  refine ⟨{ c with io := b2 }, ?_, ?_⟩
  · unfold CNode.swapAt
    rw [isList_of_name h.name, h.view.listLen, not_direct ht h.name]
    simp only [Option.bind_eq_bind, Option.bind_some, Bool.not_true, Bool.false_eq_true, if_false]
    rw [if_neg (by omega), if_neg (by omega), if_neg (by rw [h.name]; simp)]
    have e1 : c.vi.pos + (i : Int) * 4 = ((4 + 4 * i : Nat) : Int) := by rw [h.vpos]; omega
    have e2 : c.vi.pos + (j : Int) * 4 = ((4 + 4 * j : Nat) : Int) := by rw [h.vpos]; omega
    rw [e1, e2, u32_of_holds hoa (by omega), u32_of_holds hoz (by omega)]
    simp only [Option.bind_some]
    have f1 : (((elX es z + vs - (4 + 4 * j) : Nat) : Int) - (((4 + 4 * i : Nat) : Int) - ((4 + 4 * j : Nat) : Int))) =
        ((elX es z + vs - (4 + 4 * i) : Nat) : Int) := by omega
    have f2 : (((elX es a + vs - (4 + 4 * i) : Nat) : Int) - (((4 + 4 * j : Nat) : Int) - ((4 + 4 * i : Nat) : Int))) =
        ((elX es a + vs - (4 + 4 * j) : Nat) : Int) := by omega
    rw [f1, f2, u32_nat _ (by omega), u32_nat _ (by omega), putN_nat]
    simp only [Option.bind_some]
    rw [putN_nat, hb1]
    simp only [Option.bind_some]
    rw [hb2]
    rfl
  · refine ⟨h.name, h.cpos, h.vpos, h.vlen, h.vsize, h.small, ?_, by rw [swapL_length]; exact hilen, fun k hk => h.irng k (swapL_mem hk), ?_, ?_, h.self, ?_,
      ?_, ?_, ?_, ?_⟩
    · exact hother _ _ h.hdr (by rw [l4]; unfold Out; omega) (by rw [l4]; unfold Out; omega)
    · intro k x hk
      rw [swapL_get I hi hj] at hk
      by_cases h1 : k = j
      · subst h1
        rw [if_pos rfl, ha] at hk
        cases hk; exact hnj
      · rw [if_neg h1] at hk
        by_cases h2 : k = i
        · subst h2
          rw [if_pos rfl, hz] at hk
          cases hk; exact hni
        · rw [if_neg h2] at hk
          exact hother _ _ (h.off k x hk) (by rw [l4]; unfold Out; omega) (by rw [l4]; unfold Out; omega)
    · intro k e hk cc hcc
      have hm := cellsAt_mem hcc
      have hg := hXge k
      exact hother _ _ (h.elt k e hk cc hcc) (by unfold Out; omega) (by unfold Out; omega)
    · show b2.bytes.len ≤ 4
      rw [W2.bytes, W1.bytes]; exact h.len
    · exact W2.clean _ (W1.clean _ h.clean0 (by omega)) (by omega)
    · exact W2.clean _ (W1.clean _ h.clean1 (by omega)) (by omega)
    · exact W2.below _ (W1.below _ h.below (by omega)) (by omega)
    · intro k e hk cc hcc
      have hm := cellsAt_mem hcc
      have hg := hXge k
      have hne := (h.elt k e hk cc hcc).1
      exact W2.exact _ (W1.exact _ (h.exact k e hk cc hcc) hne (by omega)) hne (by omega)

theorem TLX.swap_none (h : TLX s k0 t vs c es I) {i j : Nat} (hij : I.length ≤ i ∨ I.length ≤ j ∨ i = j) : ∃ e, c.swapAt s i j = some (c, e) := by
  unfold CNode.swapAt
  rw [isList_of_name h.name, h.view.listLen]
  simp only [Option.bind_eq_bind, Option.bind_some, Bool.not_true, Bool.false_eq_true, if_false]
  by_cases h1 : I.length ≤ i ∨ I.length ≤ j
  · rw [if_pos (by omega)]
    exact ⟨_, rfl⟩
  · rw [if_neg (by omega), if_pos (by omega)]
    exact ⟨_, rfl⟩

theorem holdsC_ne {b : Base} {x : Nat} {ps : List Bytes} (hC : HoldsC b (cellsAt x ps)) : ∀ w ∈ ps, w ≠ [] := by
  induction ps generalizing x with
  | nil => intro w hw; cases hw
  | cons v ps ih =>
    intro w hw
    rcases List.mem_cons.mp hw with rfl | hw
    · exact (hC (x, w) (List.mem_cons_self ..)).1
    · exact ih (fun cc hcc => hC cc (List.mem_cons_of_mem _ hcc)) w hw

theorem TLX.pieces_ne (h : TLX s k0 t vs c es I) {i : Nat} {e : El} (hi : es[i]? = some e) : ∀ w ∈ e.ps, w ≠ [] :=
  holdsC_ne (h.elt i e hi)

/-- An element of such a list is a table that can be stored. -/
theorem TLX.src (h : TLX s k0 t vs c es I) {j : Nat} {e : El} (hj : es[j]? = some e) (tl : Nat) :
    TSrc s k0 t vs { name := t, io := c.io, pos := elX es j + vs, tlen := tl } e := by
  have hs := h.self e (List.mem_of_getElem? hj)
  refine ⟨rfl, by simp only; omega, ?_, hs, Or.inr ⟨by simp only; omega, ?_⟩⟩
  · simp only [Nat.add_sub_cancel]
    exact exact_reads (h.exact j e hj) (h.pieces_ne hj)
  · intro k hk
    exact ⟨_, hs.info _ _ (h.elt j e hj) k hk _ rfl rfl rfl⟩

/-! ## sub-lists -/

/-- A list of tables: the element number `i` is stored at `L[i].1`. -/
structure GView (s : Sch) (k0 : Nat) (t : Name) (vs : Nat) (c : CNode) (L : List (Nat × El)) : Prop where
  name   : c.name = '[' :: ']' :: t
  vpos   : c.vi.pos = 4
  small  : 4 * L.length < 4294967296
  hdr    : Holds c.io 0 (putLE 4 L.length)
  rng    : ∀ q ∈ L, 4 + 4 * L.length ≤ q.1 ∧ q.1 + tot q.2.ps < 4294967296
  off    : ∀ i q, L[i]? = some q → Holds c.io (4 + 4 * i) (putLE 4 (q.1 + vs - (4 + 4 * i)))
  elt    : ∀ q ∈ L, HoldsC c.io (cellsAt q.1 q.2.ps)
  self   : ∀ q ∈ L, SelfC s k0 t vs q.2.ps q.2.m
  exact  : ∀ q ∈ L, ExactC c.io (cellsAt q.1 q.2.ps)

section
variable {L : List (Nat × El)}

theorem GView.listLen (h : GView s k0 t vs c L) : c.listLen = some L.length :=
  listLen_of h.vpos (by have := h.small; omega) h.hdr

theorem GView.at_eq (h : GView s k0 t vs c L) (ht : TabElt s t) {i : Nat} {q : Nat × El} (hi : L[i]? = some q) :
    ∃ tl, c.at_ s i = some (.ok { name := t, io := c.io, pos := q.1 + vs, tlen := tl }) := by
  have hlt := (List.getElem?_eq_some_iff.mp hi).1
  have hm := List.mem_of_getElem? hi
  have hse := h.self q hm
  obtain ⟨tl, htl⟩ := hse.pre _ _ (h.elt q hm)
  have hr := h.rng q hm
  have hlen := hse.len
  exact ⟨tl, at_tab (p := 4) ht h.name h.listLen h.vpos hlt (by omega) (by omega) (h.off i q hi) htl⟩

theorem GView.infoSlice (h : GView s k0 t vs c L) (ht : TabElt s t) (k : Nat) (hk : k0 ≤ k) :
    ∃ r, infoSliceF s (k + 1) c = some r ∧ r.pos = 4 := by
  obtain ⟨g, hg, hb, -, -, -⟩ := id ht
  have hAt : ∀ i, ∃ r, c.at_ s i = some r ∧ ∀ e, r = .ok e → ∃ q ∈ L, e.name = t ∧ e.io = c.io ∧ e.pos = q.1 + vs := by
    intro i
    by_cases hi : i ≥ L.length ∨ i < 0
    · exact ⟨_, at_out h.name h.listLen i hi, fun e he => (by cases he)⟩
    · have hj : i.toNat < L.length := by omega
      obtain ⟨tl, h1⟩ := h.at_eq ht (List.getElem?_eq_getElem hj)
      have e1 : ((i.toNat : Nat) : Int) = i := by omega
      rw [e1] at h1
      refine ⟨_, h1, ?_⟩
      intro e he
      cases he
      exact ⟨_, List.getElem_mem hj, rfl, rfl, rfl⟩
  let A : Int → Except Err CNode := fun i => (c.at_ s i).getD (.error .notFound)
  have hA : ∀ i, c.at_ s i = some (A i) := by
    intro i
    obtain ⟨r, hr, -⟩ := hAt i
    show c.at_ s i = some ((c.at_ s i).getD _)
    rw [hr]; rfl
  have hI : ∀ i e, A i = .ok e → infoF s k (some e) = some ((infoF s k (some e)).getD {}) := by
    intro i e he
    obtain ⟨r, h1, h2⟩ := hAt i
    have : r = .ok e := by
      have h3 := hA i
      rw [h1] at h3
      injection h3 with h3
      rw [h3, he]
    obtain ⟨q, h4, h5, h6, h7⟩ := h2 e this
    rw [(h.self q h4).info _ _ (h.elt q h4) k hk e h5 h6 h7]
    rfl
  have key := infoSlice_gen (k := k) h.name hg hb h.listLen A hA (fun e => (infoF s k (some e)).getD {}) hI
  refine ⟨_, key, ?_⟩
  unfold growInfo
  repeat' split
  all_goals exact h.vpos

/-- An element of such a list is a table that can be stored. -/
theorem GView.src (h : GView s k0 t vs c L) {q : Nat × El} (hq : q ∈ L) (tl : Nat) :
    TSrc s k0 t vs { name := t, io := c.io, pos := q.1 + vs, tlen := tl } q.2 := by
  have hs := h.self q hq
  refine ⟨rfl, by simp only; omega, ?_, hs, Or.inr ⟨by simp only; omega, ?_⟩⟩
  · simp only [Nat.add_sub_cancel]
    exact exact_reads (h.exact q hq) (holdsC_ne (h.elt q hq))
  · intro k hk
    exact ⟨_, hs.info _ _ (h.elt q hq) k hk _ rfl rfl rfl⟩

end

theorem TLX.atWithBegin (h : TLX s k0 t vs c es I) (ht : TabElt s t) {i j : Nat} {e : El} (hij : I[i]? = some j) (hj : es[j]? = some e) :
    ∃ tl, c.atWithBegin s i = some (.ok ({ name := t, io := c.io, pos := elX es j + vs, tlen := tl }, (elX es j : Int))) := by
  obtain ⟨tl, h1⟩ := h.view.at_eq ht hij hj
  refine ⟨tl, ?_⟩
  unfold CNode.atWithBegin
  rw [h1]
  simp only [Option.bind_eq_bind, Option.bind_some]
  rw [not_direct ht h.name]
  simp only [Option.bind_some, Bool.false_eq_true, if_false]
  rw [(h.self e (List.mem_of_getElem? hj)).vtl _ _ (h.elt j e hj) { name := t, io := c.io, pos := elX es j + vs, tlen := tl } rfl rfl]
  simp only [Option.bind_some, pure]
  congr 4
  omega

/-- The elements looked at lie between number `lo'` and number `hi'` (not included). -/
theorem TLX.dataRange (h : TLX s k0 t vs c es I) (ht : TabElt s t) (k : Nat) (hk : k0 ≤ k) (m : Nat) :
    ∀ i lo hi, i + m ≤ I.length → lo < hi → hi ≤ es.length → ∃ lo' hi', c.dataRange s k i m ((elX es lo : Int), (elX es hi : Int)) = some ((elX es lo' : Int), (elX es hi' : Int)) ∧
      lo' ≤ lo ∧ hi ≤ hi' ∧ hi' ≤ es.length ∧ ∀ i', i ≤ i' → i' < i + m → ∀ j, I[i']? = some j → lo' ≤ j ∧ j < hi' := by
  induction m with
  | zero => intro i lo hi _ _ hh; exact ⟨lo, hi, rfl, Nat.le_refl _, Nat.le_refl _, hh, fun i' h1 h2 => by omega⟩
  | succ m ih =>
    intro i lo hi hi1 hlh hhi
    have hi' : i < I.length := by omega
    obtain ⟨j, hij⟩ : ∃ j, I[i]? = some j := ⟨_, List.getElem?_eq_getElem hi'⟩
    have hjr := h.irng j (List.mem_of_getElem? hij)
    obtain ⟨e, he⟩ : ∃ e, es[j]? = some e := ⟨_, List.getElem?_eq_getElem hjr⟩
    obtain ⟨tl, h1⟩ := h.atWithBegin ht hij he
    have hs := h.self e (List.mem_of_getElem? he)
    have hlen := hs.len
    have hX := elX_succ he
    obtain ⟨lo', hi', r1, r2, r3, r4, r5⟩ := ih (i + 1) (min lo j) (max hi (j + 1)) (by omega) (by omega) (by omega)
    refine ⟨lo', hi', ?_, by omega, by omega, r4, ?_⟩
    · unfold CNode.dataRange
      rw [h1]
      simp only [Option.bind_eq_bind, Option.bind_some]
      rw [hs.info _ _ (h.elt j e he) k hk { name := t, io := c.io, pos := elX es j + vs, tlen := tl } rfl rfl rfl]
      simp only [Option.bind_some]
      have e1 : min (elX es lo : Int) (elX es j : Int) = (elX es (min lo j) : Int) := by
        by_cases hle : lo ≤ j
        · have := elX_mono (es := es) hle
          rw [Nat.min_eq_left hle]; omega
        · have := elX_mono (es := es) (show j ≤ lo by omega)
          rw [Nat.min_eq_right (by omega)]; omega
      have e2 : max (elX es hi : Int) (((elX es j + vs : Nat) : Int) + (e.m : Int)) = (elX es (max hi (j + 1)) : Int) := by
        by_cases hle : hi ≤ j + 1
        · have := elX_mono (es := es) hle
          rw [Nat.max_eq_right hle]; omega
        · have := elX_mono (es := es) (show j + 1 ≤ hi by omega)
          rw [Nat.max_eq_left (by omega)]; omega
      rw [e1, e2]
      exact r1
    · intro i' g1 g2 j' hj'
      by_cases hii : i' = i
      · subst hii
        rw [hij] at hj'
        cases hj'
        omega
      · exact r5 i' (by omega) (by omega) j' hj'

/-- The sub-list of a list whose elements were exchanged: every element lies somewhere in the new buffer, in the order of
the offsets. -/
theorem TLX.newRange (h : TLX s k0 t vs c es I) (ht : TabElt s t) (hvs : 0 < vs) (k : Nat) (hk : k0 ≤ k) (a cnt : Nat) (hc : 0 < cnt)
    (hac : a + cnt ≤ es.length) :
    ∃ c' L, c.newRange s (k + 1) a ((a : Int) + cnt - 1) = some (some c') ∧ GView s k0 t vs c' L ∧ L.length = cnt ∧
      ∀ i q, L[i]? = some q → ∃ j, I[a + i]? = some j ∧ es[j]? = some q.2 := by
  have hsm := h.small
  have hil := h.ilen
  have hEnd : elEnd es = 4 + 4 * es.length + sumTot es := rfl
  have hIdx : ∀ i, i < cnt → ∃ j e, I[a + i]? = some j ∧ es[j]? = some e := by
    intro i hi
    have h1 : a + i < I.length := by omega
    have h2 := h.irng _ (List.getElem_mem h1)
    exact ⟨_, _, List.getElem?_eq_getElem h1, List.getElem?_eq_getElem h2⟩
  obtain ⟨j0, e0, hj0, he0⟩ := hIdx 0 hc
  rw [Nat.add_zero] at hj0
  obtain ⟨tl, h1⟩ := h.atWithBegin ht hj0 he0
  have hs0 := h.self e0 (List.mem_of_getElem? he0)
  have hl0 := hs0.len
  have hX0 := elX_succ he0
  have hjr := h.irng j0 (List.mem_of_getElem? hj0)
  unfold CNode.newRange
  rw [if_neg (by omega), h.view.listLen]
  simp only [Option.bind_eq_bind, Option.bind_some]
  rw [if_neg (by omega)]
  have ecnt : ((a : Int) + cnt - 1 - a + 1).toNat = cnt := by omega
  rw [Int.toNat_natCast, ecnt]
  generalize hjx : (fun (i : Nat) => (I[a + i]?).getD 0) = jx
  have hjx' : ∀ i, i < cnt → I[a + i]? = some (jx i) := by
    intro i hi
    obtain ⟨j, e, h2, -⟩ := hIdx i hi
    rw [← hjx]
    simp only
    rw [h2]; rfl
  -- the offsets
  have hoff : ((List.range cnt).mapM fun (i : Nat) => c.u32 (c.vi.pos + ((a + i : Nat) : Int) * 4)) =
      some ((List.range cnt).map fun (i : Nat) => elX es (jx i) + vs - (4 + 4 * (a + i))) := by
    apply mapM_eq
    intro i hi
    rw [List.mem_range] at hi
    obtain ⟨j, e, h2, h3⟩ := hIdx i hi
    have h4 := hjx' i hi
    rw [h2] at h4
    cases h4
    have := h.off (a + i) _ h2
    have hX := elX_end h3
    have hsl := (h.self _ (List.mem_of_getElem? h3)).len
    have e1 : c.vi.pos + ((a + i : Nat) : Int) * 4 = ((4 + 4 * (a + i) : Nat) : Int) := by rw [h.vpos]; omega
    rw [e1]
    exact u32_of_holds this (by omega)
  rw [hoff]
  simp only [Option.bind_some]
  rw [h1]
  simp only [Option.bind_some]
  rw [hs0.info _ _ (h.elt j0 e0 he0) (k + 1) (by omega) { name := t, io := c.io, pos := elX es j0 + vs, tlen := tl } rfl rfl rfl]
  simp only [Option.bind_some]
  have e2 : max (-1 : Int) (((elX es j0 + vs : Nat) : Int) + (e0.m : Int)) = (elX es (j0 + 1) : Int) := by omega
  obtain ⟨lo, hi, r1, r2, r3, r4, r5⟩ := h.dataRange ht (k + 1) (by omega) (cnt - 1) (a + 1) j0 (j0 + 1) (by omega) (by omega) (by omega)
  rw [e2, r1]
  simp only [Option.bind_some]
  have hX1 := elX_mono (es := es) r2
  have hX2 := elX_mono (es := es) r3
  rw [if_pos (by omega)]
  have hin : ∀ i, i < cnt → ∀ j, I[a + i]? = some j → lo ≤ j ∧ j < hi := by
    intro i hi j hj
    by_cases hi0 : i = 0
    · subst hi0
      rw [Nat.add_zero, hj0] at hj
      cases hj
      omega
    · exact r5 (a + i) (by omega) (by omega) j hj
  -- the elements taken over
  generalize hes' : (es.drop lo).take (hi - lo) = es'
  have hl' : es'.length = hi - lo := by rw [← hes', List.length_take, List.length_drop]; omega
  have hget : ∀ i, i < hi - lo → es'[i]? = es[lo + i]? := by
    intro i hi
    rw [← hes', List.getElem?_take_of_lt hi, List.getElem?_drop]
  have htake : ∀ i, i ≤ hi - lo → sumTot (es.take (lo + i)) = sumTot (es.take lo) + sumTot (es'.take i) := by
    intro i hi
    rw [sumTot_take_add, ← hes', List.take_take, Nat.min_eq_left hi]
  have hXe : ∀ i, i ≤ hi - lo → elX es (lo + i) = elX es lo + sumTot (es'.take i) := by
    intro i hi; unfold elX; rw [htake i hi]; omega
  have hXend : elX es hi = elX es lo + sumTot es' := by
    have := hXe (hi - lo) (Nat.le_refl _)
    rw [List.take_of_length_le (by omega)] at this
    rw [← this]
    congr 1; omega
  have hle : sumTot es' ≤ sumTot es := by
    have := sumTot_take_le es hi
    have h2 := htake (hi - lo) (Nat.le_refl _)
    rw [List.take_of_length_le (show es'.length ≤ hi - lo by omega), show lo + (hi - lo) = hi by omega] at h2
    omega
  have hsmall : 4 + 4 * cnt + sumTot es' < 4294967296 := by omega
  -- the new offsets
  generalize hf : (fun (i : Nat) => 4 + 4 * cnt + (elX es (jx i) - elX es lo) + vs - (4 + 4 * i)) = f
  have hpos : ∀ i, i < cnt → ∃ e, es[jx i]? = some e ∧ elX es lo ≤ elX es (jx i) ∧ elX es (jx i) + tot e.ps ≤ elX es hi := by
    intro i hi'
    obtain ⟨j, e, h2, h3⟩ := hIdx i hi'
    have h4 := hjx' i hi'
    rw [h2] at h4
    cases h4
    have h5 := hin i hi' _ h2
    have h6 := elX_mono (es := es) h5.1
    have h7 := elX_mono (es := es) (show jx i + 1 ≤ hi by omega)
    have h8 := elX_succ h3
    exact ⟨e, h3, h6, by omega⟩
  have hw : ((List.map (fun (o : Nat) => putLE 4 (Fbs.u32 ((o : Int) - (((I.length : Int) - a - cnt) * 4 + ((elX es lo : Int) - (c.vi.pos + I.length * 4))))))
      ((List.range cnt).map fun (i : Nat) => elX es (jx i) + vs - (4 + 4 * (a + i)))).flatten) =
      ((List.range cnt).map fun (i : Nat) => putLE 4 (f i)).flatten := by
    rw [List.map_map]
    congr 1
    apply List.map_congr_left
    intro i hi'
    rw [List.mem_range] at hi'
    obtain ⟨e, h3, h4, h5⟩ := hpos i hi'
    have e7 := h.vpos
    have e8 : elX es (jx i) = 4 + 4 * es.length + sumTot (es.take (jx i)) := rfl
    have e10 := (h.self _ (List.mem_of_getElem? h3)).len
    have e6 : (((elX es (jx i) + vs - (4 + 4 * (a + i)) : Nat) : Int) - (((I.length : Int) - a - cnt) * 4 + ((elX es lo : Int) - (c.vi.pos + I.length * 4)))) =
        ((f i : Nat) : Int) := by
      rw [← hf]; simp only; omega
    simp only [Function.comp_apply]
    rw [e6, u32_nat _ (by rw [← hf]; simp only; omega)]
  rw [hw, init_updateU _ _ (4 * cnt) (flat4_length _ _)]
  generalize hb0 : (({ bytes := ⟨zeros 4, []⟩, diffs := [⟨4, ⟨((List.range cnt).map fun (i : Nat) => putLE 4 (f i)).flatten, []⟩⟩] } : Base)) = b0
  have b0d : b0.diffs = [⟨4, ⟨((List.range cnt).map fun (i : Nat) => putLE 4 (f i)).flatten, []⟩⟩] := by rw [← hb0]
  have b0b : b0.bytes.len = 4 := by rw [← hb0]; rfl
  have b0end : ∀ d ∈ b0.diffs, d.off = 4 ∧ d.sl.len = 4 * cnt := by
    intro d hd
    rw [b0d, List.mem_singleton] at hd
    rw [hd]; exact ⟨rfl, flat4_length _ _⟩
  have b0cl : Clean b0 (4 + 4 * cnt) := by
    intro d hd; have := b0end d hd; unfold Straddles; omega
  have b0bel : Below b0 (4 + 4 * cnt) := by
    intro d hd; have := b0end d hd; omega
  have b0w : Holds b0 4 ((List.range cnt).map fun (i : Nat) => putLE 4 (f i)).flatten := by
    refine ⟨?_, ?_, ?_⟩
    · intro hh; have := flat4_length f cnt; rw [hh] at this; simp at this; omega
    · rw [noCut_iff, flat4_length]
      rintro e (he | ⟨d, hd, he⟩)
      · omega
      · have := b0end d hd; omega
    · intro j hj
      rw [content_eq, b0d]
      have hcv : lastOf (fun d : Diff => d.covers (4 + j)) [(⟨4, ⟨((List.range cnt).map fun (i : Nat) => putLE 4 (f i)).flatten, []⟩⟩ : Diff)] =
          some ⟨4, ⟨((List.range cnt).map fun (i : Nat) => putLE 4 (f i)).flatten, []⟩⟩ := by
        have : (⟨4, ⟨((List.range cnt).map fun (i : Nat) => putLE 4 (f i)).flatten, []⟩⟩ : Diff).covers (4 + j) = true := by
          rw [covers_iff]; simp only [Slice.len]; omega
        cases hlo : lastOf (fun d : Diff => d.covers (4 + j)) [(⟨4, ⟨((List.range cnt).map fun (i : Nat) => putLE 4 (f i)).flatten, []⟩⟩ : Diff)] with
        | none =>
          have h9 := lastOf_none.mp hlo _ (List.mem_singleton_self _)
          rw [this] at h9; cases h9
        | some d => rw [List.mem_singleton.mp (lastOf_some hlo).1]
      rw [hcv]
      simp only
      congr 1; omega
  -- copying
  have hR : Reads c.io.dup (elX es lo) (allPs es') := by
    apply exact_reads
    · intro cc hcc
      obtain ⟨i, e, hie, hm⟩ := (cells_allPs _ _).mp hcc
      have hil : i < hi - lo := by have := (List.getElem?_eq_some_iff.mp hie).1; omega
      rw [← hXe i (by omega)] at hm
      exact exact_dup (h.exact (lo + i) e (by rw [← hget i hil]; exact hie) cc hm)
    · intro w hw
      obtain ⟨e, he, hwe⟩ := List.mem_flatMap.mp hw
      obtain ⟨i, hie⟩ := List.getElem?_of_mem he
      have hil : i < hi - lo := by have := (List.getElem?_eq_some_iff.mp hie).1; omega
      rw [hget i hil] at hie
      exact h.pieces_ne hie w hwe
  have e11 : (elX es hi : Int) - (elX es lo : Int) = ((tot (allPs es') : Nat) : Int) := by
    rw [tot_allPs]; omega
  have e12 : (4 : Int) + (cnt : Int) * 4 = ((4 + 4 * cnt : Nat) : Int) := by omega
  rw [e11, e12, copyI_zero]
  obtain ⟨pd, hcp, hpd⟩ := copy_reads (b := b0) (dst := 4 + 4 * cnt) hR (by omega)
  rw [hcp]
  simp only [Option.bind_some]
  have hne := reads_ne hR
  have b1_elt : HoldsC (b0.apps pd) (cellsAt (4 + 4 * cnt) (allPs es')) :=
    apps_same hpd hne (fun cc hcc => noCut_end (by omega) b0bel b0cl (cellsAt_mem hcc).1)
  have b1_off := apps_other hpd b0w (Or.inl (by rw [flat4_length]; omega))
  have b1_ex : ExactC (b0.apps pd) (cellsAt (4 + 4 * cnt) (allPs es')) := by
    apply exact_apps_same hpd hne
    intro d hd; have := b0end d hd; omega
  have b1_b : (b0.apps pd).bytes.len = 4 := b0b
  have b1_lo : ∀ d ∈ (b0.apps pd).diffs, 4 ≤ d.off := by
    intro d hd
    rcases List.mem_append.mp hd with hd | hd
    · have := b0end d hd; omega
    · have hm : diffCell d ∈ cellsAt (4 + 4 * cnt) (allPs es') := by rw [← hpd]; exact List.mem_map_of_mem hd
      have := cellsAt_mem hm
      simp only [diffCell] at this; omega
  generalize hb1 : b0.apps pd = b1 at *
  -- the count
  have hlen4 : (⟨putLE 4 cnt, []⟩ : Slice).len = b1.bytes.len := by rw [b1_b]; exact putLE_length _ _
  have hof : ∀ x w, Holds b1 x w → 4 ≤ x → Holds { b1 with bytes := (⟨putLE 4 cnt, []⟩ : Slice) } x w :=
    fun x w hw hx => holds_setBytes hlen4 hw (by omega)
  generalize hL : ((List.range cnt).map fun i => (4 + 4 * cnt + (elX es (jx i) - elX es lo), (es[jx i]?).getD ⟨[], 0⟩)) = L
  have hLl : L.length = cnt := by rw [← hL]; simp
  have hLm : ∀ i q, L[i]? = some q → i < cnt ∧ es[jx i]? = some q.2 ∧ q.1 = 4 + 4 * cnt + (elX es (jx i) - elX es lo) := by
    intro i q hq
    have hi' : i < cnt := by have := (List.getElem?_eq_some_iff.mp hq).1; omega
    rw [← hL, List.getElem?_map, List.getElem?_range hi'] at hq
    cases hq
    obtain ⟨e, he, -⟩ := hpos i hi'
    refine ⟨hi', ?_, rfl⟩
    simp only
    rw [he]; rfl
  have hview : GView s k0 t vs { name := c.name, io := { b1 with bytes := (⟨putLE 4 cnt, []⟩ : Slice) }, pos := 4, vi := { pos := 4 } } L := by
    refine ⟨h.name, rfl, by omega, ?_, ?_, ?_, ?_, ?_, ?_⟩
    · rw [hLl]
      refine ⟨putLE4_ne _, ?_, ?_⟩
      · rw [noCut_iff, putLE_length]
        rintro e (he | ⟨d, hd, he⟩)
        · simp only [Slice.len, putLE_length] at he; omega
        · have := b1_lo d hd; omega
      · intro j hj
        rw [putLE_length] at hj
        rw [content_eq]
        have : lastOf (fun d : Diff => d.covers j) b1.diffs = none := by
          rw [lastOf_none]
          intro d hd
          have := b1_lo d hd
          rw [Bool.eq_false_iff, ne_eq, covers_iff]; omega
        simp only [Nat.zero_add, this]
    · intro q hq
      obtain ⟨i, hi'⟩ := List.getElem?_of_mem hq
      obtain ⟨h2, h3, h4⟩ := hLm i q hi'
      obtain ⟨e, h5, h6, h7⟩ := hpos i h2
      rw [h3] at h5
      cases h5
      rw [hLl]; omega
    · intro i q hq
      obtain ⟨h2, h3, h4⟩ := hLm i q hq
      have := holds_sub b1_off (4 * i) 4 (by omega) (by rw [flat4_length]; omega)
      rw [flat4 f cnt i h2, ← hf] at this
      rw [h4]
      exact hof _ _ this (by omega)
    · intro q hq cc hcc
      obtain ⟨i, hi'⟩ := List.getElem?_of_mem hq
      obtain ⟨h2, h3, h4⟩ := hLm i q hi'
      have hm := cellsAt_mem hcc
      have h5 := hin i h2 _ (hjx' i h2)
      refine hof _ _ (b1_elt cc ((cells_allPs _ _).mpr ⟨jx i - lo, q.2, ?_, ?_⟩)) (by omega)
      · rw [hget _ (by omega), show lo + (jx i - lo) = jx i by omega]; exact h3
      · have h6 := hXe (jx i - lo) (by omega)
        rw [show lo + (jx i - lo) = jx i by omega] at h6
        rw [h4, h6, Nat.add_sub_cancel_left] at hcc
        exact hcc
    · intro q hq
      obtain ⟨i, hi'⟩ := List.getElem?_of_mem hq
      exact h.self _ (List.mem_of_getElem? (hLm i q hi').2.1)
    · intro q hq cc hcc
      obtain ⟨i, hi'⟩ := List.getElem?_of_mem hq
      obtain ⟨h2, h3, h4⟩ := hLm i q hi'
      have h5 := hin i h2 _ (hjx' i h2)
      refine b1_ex cc ((cells_allPs _ _).mpr ⟨jx i - lo, q.2, ?_, ?_⟩)
      · rw [hget _ (by omega), show lo + (jx i - lo) = jx i by omega]; exact h3
      · have h6 := hXe (jx i - lo) (by omega)
        rw [show lo + (jx i - lo) = jx i by omega] at h6
        rw [h4, h6, Nat.add_sub_cancel_left] at hcc
        exact hcc
  obtain ⟨r, hr, hr4⟩ := hview.infoSlice ht k hk
  unfold CNode.refresh
  simp only [initList]
  rw [hr]
  simp only [Option.bind_eq_bind, Option.bind_some, pure]
  refine ⟨_, L, rfl, ?_, hLl, ?_⟩
  · exact ⟨hview.name, hr4, hview.small, hview.hdr, hview.rng, hview.off, hview.elt, hview.self, hview.exact⟩
  · intro i q hq
    obtain ⟨h2, h3, -⟩ := hLm i q hq
    exact ⟨_, hjx' i h2, h3⟩

end Fbs
