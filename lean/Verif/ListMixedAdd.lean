import Verif.ListMixed
/-!
# Adding lists whose elements were exchanged

`Add` takes the last element of both lists for the one that lies last.  If it is, the result is the concatenation.
-/

namespace Fbs
open CNode

variable {s : Sch} {k0 : Nat} {t : Name} {vs : Nat} {c : CNode} {es : List El} {I : List Nat}

/-- Some offset leads to the element that lies first, and the last offset leads to the element that lies last. -/
def Tail (es : List El) (I : List Nat) : Prop := 0 ∈ I ∧ I[es.length - 1]? = some (es.length - 1)

theorem TLX.dup (h : TLX s k0 t vs c es I) : TLX s k0 t vs { c with io := c.io.dup } es I :=
  ⟨h.name, h.cpos, h.vpos, h.vlen, h.vsize, h.small, holds_dup h.hdr, h.ilen, h.irng, fun i j hi => holds_dup (h.off i j hi),
    fun i e hi x hx => holds_dup (h.elt i e hi x hx), h.self, h.len, clean_dup h.clean0, clean_dup h.clean1,
    below_dup h.below, fun i e hi x hx => exact_dup (h.exact i e hi x hx)⟩

theorem XView.infoTail (h : XView s k0 t vs c es I) (ht : TabElt s t) (hil : I.length = es.length) (hes : es ≠ []) (hT : Tail es I) (k : Nat) (hk : k0 ≤ k) :
    infoSliceF s (k + 1) c = some { pos := 4, size := 4 * es.length + sumTot es, vlen := es.length } := by
  have hpos : 0 < es.length := List.length_pos_iff.mpr hes
  have hg := List.getElem?_eq_getElem (show es.length - 1 < es.length by omega)
  rw [h.infoSlice ht (n := es.length - 1) (by omega) hT.2 hg k hk, hil]
  have h1 := elX_succ hg
  have h2 : elX es (es.length - 1 + 1) = 4 + 4 * es.length + sumTot es := by
    rw [show es.length - 1 + 1 = es.length by omega]
    unfold elX
    rw [List.take_length]
  congr 2
  omega

theorem TLX.refresh (h : TLX s k0 t vs c es I) (ht : TabElt s t) (hes : es ≠ []) (hT : Tail es I) (k : Nat) (hk : k0 ≤ k) :
    ∃ c', c.refresh s (k + 1) = some c' ∧ c'.io = c.io ∧ TLX s k0 t vs c' es I := by
  unfold CNode.refresh
  rw [h.view.infoTail ht h.ilen hes hT k hk]
  exact ⟨_, rfl, rfl, h.name, h.cpos, rfl, rfl, fun _ => rfl, h.small, h.hdr, h.ilen, h.irng, h.off, h.elt, h.self, h.len,
    h.clean0, h.clean1, h.below, h.exact⟩

theorem TLX.dupList (h : TLX s k0 t vs c es I) (ht : TabElt s t) (hes : es ≠ []) (hT : Tail es I) (k : Nat) (hk : k0 ≤ k) :
    ∃ c', c.dupList s (k + 1) = some c' ∧ c'.io = c.io.dup ∧ TLX s k0 t vs c' es I := by
  obtain ⟨c', h1, h2, h3⟩ := h.dup.refresh ht hes hT k hk
  exact ⟨c', h1, h2, h3⟩

/-! ## the elements as nodes -/

theorem XView.allFrom (h : XView s k0 t vs c es I) (ht : TabElt s t) (m i : Nat) (hm : i + m ≤ I.length) :
    ∃ ns : List CNode, c.allFrom s i m = some ns ∧ ns.length = m ∧
      ∀ j, j < m → ∃ x tl, I[i + j]? = some x ∧ x < es.length ∧ ns[j]? = some { name := t, io := c.io, pos := elX es x + vs, tlen := tl } := by
  induction m generalizing i with
  | zero => exact ⟨[], rfl, rfl, fun j hj => by omega⟩
  | succ m ih =>
    obtain ⟨ns, h1, h2, h3⟩ := ih (i + 1) (by omega)
    have hg := List.getElem?_eq_getElem (show i < I.length by omega)
    have hr := h.irng _ (List.mem_of_getElem? hg)
    obtain ⟨tl, h4⟩ := h.at_eq ht hg (List.getElem?_eq_getElem hr)
    refine ⟨{ name := t, io := c.io, pos := elX es I[i] + vs, tlen := tl } :: ns, ?_, by simp [h2], ?_⟩
    · unfold CNode.allFrom
      rw [h4, h1]
      rfl
    · intro j hj
      cases j with
      | zero => exact ⟨_, tl, hg, hr, rfl⟩
      | succ j =>
        obtain ⟨x, tl', h5, h6, h7⟩ := h3 j (by omega)
        rw [show i + 1 + j = i + (j + 1) by omega] at h5
        exact ⟨x, tl', h5, h6, by rw [List.getElem?_cons_succ, h7]⟩

/-- The scan for the smallest position finds one. -/
theorem minPos_scan (full : List VInfo) (l : List VInfo) : ∀ (pre : List VInfo) (i : Nat) (p : Int) (idx : Nat) (v : VInfo), full = pre ++ l → pre.length = i + 1 →
    full[idx]? = some v → v.pos = p → (∀ w ∈ pre, p ≤ w.pos) →
    ∃ (r : Nat) (v : VInfo), maxPosScan false l (i + 1) p idx = (r : Int) ∧ full[r]? = some v ∧ ∀ w ∈ full, v.pos ≤ w.pos := by
  induction l with
  | nil =>
    intro pre i p idx v h1 h2 h3 h4 h5
    rw [List.append_nil] at h1
    subst h1 h4
    exact ⟨idx, v, rfl, h3, h5⟩
  | cons u l ih =>
    intro pre i p idx v h1 h2 h3 h4 h5
    have hfull : full = (pre ++ [u]) ++ l := by rw [h1]; simp
    unfold maxPosScan
    simp only [Bool.false_eq_true, if_false, Nat.add_one_ne_zero]
    by_cases hlt : u.pos < p
    · rw [if_pos (by simpa using hlt)]
      refine ih (pre ++ [u]) (i + 1) u.pos (i + 1) u hfull (by simp [h2]) ?_ rfl ?_
      · rw [h1, List.getElem?_append_right (by omega), h2]; simp
      · intro w hw
        rcases List.mem_append.mp hw with hw | hw
        · have := h5 w hw; omega
        · rw [List.mem_singleton.mp hw]; exact Int.le_refl _
    · rw [if_neg (by simpa using hlt)]
      refine ih (pre ++ [u]) (i + 1) p idx v hfull (by simp [h2]) h3 h4 ?_
      intro w hw
      rcases List.mem_append.mp hw with hw | hw
      · exact h5 w hw
      · rw [List.mem_singleton.mp hw]; omega

/-- The element found for the smallest position is the one that lies first. -/
theorem TLX.firstIdx (h : TLX s k0 t vs c es I) (ht : TabElt s t) (h0 : 0 ∈ I) (k : Nat) :
    ∃ i0 : Nat, c.indexOnMaxPos s k false = some (i0 : Int) ∧ I[i0]? = some 0 := by
  have hil := h.ilen
  obtain ⟨ns, h1, h2, h3⟩ := h.view.allFrom ht es.length 0 (by omega)
  have hall : c.all s = some ns := by unfold CNode.all; rw [h.view.listLen, h.vlen]; exact h1
  have hpos : 0 < es.length := by rw [← hil]; exact List.length_pos_of_mem h0
  unfold CNode.indexOnMaxPos
  rw [hall]
  simp only [Option.bind_eq_bind, Option.bind_some, Bool.false_eq_true, if_false, pure, Option.some.injEq]
  cases ns with
  | nil => simp at h2; omega
  | cons n ns =>
    rw [List.map_cons]
    unfold maxPosScan
    simp only [if_true, Bool.false_eq_true, if_false]
    obtain ⟨r, v, q1, q2, q3⟩ := minPos_scan (({ pos := n.pos } : VInfo) :: ns.map fun e => { pos := e.pos }) (ns.map fun e => { pos := e.pos }) [{ pos := n.pos }] 0
      n.pos 0 { pos := n.pos } rfl rfl rfl rfl (by intro w hw; rw [List.mem_singleton.mp hw]; exact Int.le_refl _)
    refine ⟨r, q1, ?_⟩
    rw [← List.map_cons (f := fun (e : CNode) => ({ pos := e.pos } : VInfo))] at q2 q3
    rw [List.getElem?_map] at q2
    cases hr : (n :: ns)[r]? with
    | none => rw [hr] at q2; cases q2
    | some nr =>
      rw [hr] at q2
      cases q2
      have hrl := (List.getElem?_eq_some_iff.mp hr).1
      obtain ⟨x, tl, x1, x2, x3⟩ := h3 r (by omega)
      rw [hr] at x3
      cases x3
      rw [Nat.zero_add] at x1
      obtain ⟨z, hz⟩ := List.getElem?_of_mem h0
      have hzl := (List.getElem?_eq_some_iff.mp hz).1
      obtain ⟨y, tl', y1, y2, y3⟩ := h3 z (by omega)
      rw [Nat.zero_add, hz] at y1
      cases y1
      have h6 := q3 _ (List.mem_map_of_mem (List.mem_of_getElem? y3))
      simp only at h6
      rw [x1]
      by_cases hx0 : x = 0
      · rw [hx0]
      · have hg := List.getElem?_eq_getElem hpos
        have g1 := elX_succ hg
        have g2 := (h.self _ (List.mem_of_getElem? hg)).len
        have g3 := (h.self _ (List.mem_of_getElem? hg)).mpos
        have g4 := elX_mono (es := es) (show 0 + 1 ≤ x by omega)
        omega

/-- The index of the element that ends last is an index of the list. -/
theorem TLX.lastIdx (h : TLX s k0 t vs c es I) (ht : TabElt s t) (hne : es ≠ []) (k : Nat) (hk : k0 ≤ k) :
    ∃ j : Nat, c.indexOnMaxPos s k true = some (j : Int) ∧ j < es.length := by
  have hil := h.ilen
  obtain ⟨ns, h1, h2, h3⟩ := h.view.allFrom ht es.length 0 (by omega)
  have hall : c.all s = some ns := by unfold CNode.all; rw [h.view.listLen, h.vlen]; exact h1
  have hpos : 0 < es.length := List.length_pos_iff.mpr hne
  obtain ⟨is, h4⟩ := mapM_some (fun e => infoF s k (some e)) ns (fun e he => by
    obtain ⟨j, hj⟩ := List.getElem?_of_mem he
    have hjl : j < es.length := by rw [← h2]; exact (List.getElem?_eq_some_iff.mp hj).1
    obtain ⟨x, tl, -, hx, h5⟩ := h3 j hjl
    rw [hj] at h5
    injection h5 with h5
    have hg := List.getElem?_eq_getElem hx
    simp only [(h.self _ (List.mem_of_getElem? hg)).info _ _ (h.elt _ _ hg) k hk e (by rw [h5]) (by rw [h5]) (by rw [h5])]
    rfl)
  have h5 : is.length = ns.length := mapM_length h4
  unfold CNode.indexOnMaxPos
  rw [hall]
  simp only [Option.bind_eq_bind, Option.bind_some, if_true, h4, pure, Option.some.injEq]
  cases is with
  | nil => simp at h5; omega
  | cons v is =>
    unfold maxPosScan
    simp only [if_true]
    have := maxPos_true is 0 (v.pos + v.size) 0 (by omega) (by omega)
    simp only [Int.natCast_zero] at this ⊢
    refine ⟨(maxPosScan true is (0 + 1) (v.pos + v.size) 0).toNat, by omega, ?_⟩
    simp only [List.length_cons] at h5
    omega

/-- Opening a gap of `D` bytes behind the offsets and correcting the offsets; `jx` are the numbers of the elements. -/
structure OpenedX (vs : Nat) (c : CNode) (es : List El) (jx : Nat → Nat) (D : Nat) (b : Base) : Prop where
  bytes  : b.bytes = c.io.bytes
  hdr    : Holds b 0 (putLE 4 es.length)
  off    : ∀ j, j < es.length → Holds b (4 + 4 * j) (putLE 4 (elX es (jx j) + vs - (4 + 4 * j) + D))
  head   : Reads b 4 [packed (fun j => elX es (jx j) + vs - (4 + 4 * j) + D) es.length]
  elt    : ∀ i e, es[i]? = some e → HoldsC b (cellsAt (elX es i + D) e.ps)
  exact  : ∀ i e, es[i]? = some e → ExactC b (cellsAt (elX es i + D) e.ps)
  gap    : b.NoCut (4 + 4 * es.length) D
  clean0 : Clean b (4 + 4 * es.length + D)
  clean1 : Clean b (elEnd es + D)
  below  : Below b (elEnd es + D)

/-- The number of the element an offset leads to. -/
def numOf (I : List Nat) (i : Nat) : Nat := (I[i]?).getD 0

theorem numOf_get {i : Nat} (hi : i < I.length) : I[i]? = some (numOf I i) := by
  unfold numOf
  rw [List.getElem?_eq_getElem hi]; rfl

theorem TLX.opened (h : TLX s k0 t vs c es I) (hne : es ≠ []) {D : Nat} (hD : elEnd es + vs + D < 4294967296) :
    ∃ b1 b, (∀ F, c.insertSpace s F (4 + 4 * es.length) D false = some { c with io := b1 }) ∧
      ({ c with io := b1 } : CNode).inRoot = some false ∧
      ({ c with io := b1 } : CNode).moveOffs D = some { c with io := b } ∧ OpenedX vs c es (numOf I) D b := by
  have hpos : 0 < es.length := List.length_pos_iff.mpr hne
  have hlen := h.len
  have hE : elEnd es = 4 + 4 * es.length + sumTot es := rfl
  have hir : c.inRoot = some false := inRoot_false h.hdr (by rw [h.cpos]; omega)
  generalize hb1 : c.io.insertSpace (4 + 4 * es.length) D false = b1
  have hins : ∀ F, c.insertSpace s F (4 + 4 * es.length) D false = some { c with io := b1 } := by
    intro F
    rw [CNode.insertSpace_out hir, isList_of_name h.name, hb1, h.vpos]
    simp only [Option.bind_eq_bind, Option.bind_some, Bool.false_eq_true, if_false, if_true]
    rw [if_neg (by omega)]; rfl
  have hdf := insertSpace_diffs (b := c.io) (size := D) h.clean0 false
  have b1_bytes : b1.bytes = c.io.bytes := by
    rw [← hb1, hdf.1, if_neg (by omega)]
  have b1_lt : ∀ x w, Holds c.io x w → x + w.length ≤ 4 + 4 * es.length → Holds b1 x w := by
    intro x w hw hx; rw [← hb1]; exact holds_insertSpace_lt h.clean0 hw hx
  have b1_ge : ∀ x w, Holds c.io x w → 4 + 4 * es.length ≤ x → Holds b1 (x + D) w := by
    intro x w hw hx; rw [← hb1]; exact holds_insertSpace_ge h.clean0 hw hx
  have b1_ex : ∀ cc : Nat × Bytes, Exact1 c.io cc → 4 + 4 * es.length ≤ cc.1 → Exact1 b1 (cc.1 + D, cc.2) := by
    intro cc hc hx; rw [← hb1]; exact exact_insertSpace_ge h.clean0 (by omega) hc hx
  have b1_gap : b1.NoCut (4 + 4 * es.length) D := by rw [← hb1]; exact noCut_insertSpace h.clean0
  have b1_c0 : Clean b1 (4 + 4 * es.length + D) := by
    rw [← hb1]
    exact clean_insertSpace h.clean0 (Or.inr ⟨Nat.le_refl _, by rw [Nat.add_sub_cancel]; exact h.clean0, Or.inl (by omega)⟩)
  have b1_c1 : Clean b1 (elEnd es + D) := by
    rw [← hb1]
    exact clean_insertSpace h.clean0 (Or.inr ⟨by omega, by rw [Nat.add_sub_cancel]; exact h.clean1, Or.inl (by omega)⟩)
  have b1_bel : Below b1 (elEnd es + D) := by
    intro d hd
    rw [← hb1, hdf.2, if_neg (by omega)] at hd
    simp only [List.nil_append, Bool.false_eq_true, if_false, List.append_nil, List.mem_map] at hd
    obtain ⟨d0, h0, rfl⟩ := hd
    have := h.below d0 h0
    unfold shiftD
    split
    · simp only; omega
    · omega
  have b1_hdr : Holds b1 0 (putLE 4 es.length) := b1_lt _ _ h.hdr (by rw [putLE_length]; omega)
  have hfst : 0 < sumTot es := by
    obtain ⟨e, he⟩ := List.exists_mem_of_ne_nil es hne
    obtain ⟨i, hi⟩ := List.getElem?_of_mem he
    have h1 := sumTot_take_succ hi
    have h2 := sumTot_take_le es (i + 1)
    have h3 := (h.self e he).len
    have h4 := (h.self e he).mpos
    omega
  have hsm := h.small
  obtain ⟨b, hm1, hm2, hm3, hm5, hm4⟩ := moveOffs_eq (c := { c with io := b1 }) (n := es.length) (d := D)
    (fun j => elX es (numOf I j) + vs - (4 + 4 * j)) h.vpos hpos (listLen_of h.vpos (by omega) b1_hdr) (by
      intro j hj
      have hjI := numOf_get (I := I) (i := j) (by rw [h.ilen]; exact hj)
      refine ⟨b1_lt _ _ (h.off j _ hjI) (by rw [putLE_length]; omega), ?_⟩
      have := elX_end (List.getElem?_eq_getElem (h.irng _ (List.mem_of_getElem? hjI)))
      omega)
  refine ⟨b1, b, hins, ?_, hm1, ?_⟩
  · exact inRoot_false b1_hdr (by simp only [h.cpos]; omega)
  · refine ⟨by rw [hm2.bytes, b1_bytes], ?_, hm4, hm3, ?_, ?_, ?_, ?_, ?_, ?_⟩
    · exact hm2.other _ _ b1_hdr (Or.inl (by rw [putLE_length]; omega))
    · intro i e hi
      rw [cellsAt_shift]
      intro cc hcc
      obtain ⟨c1, hc1, rfl⟩ := List.mem_map.mp hcc
      have hmem := cellsAt_mem hc1
      have hX2 : 4 + 4 * es.length ≤ elX es i := by unfold elX; omega
      exact hm2.other _ _ (b1_ge _ _ (h.elt i e hi c1 hc1) (by omega)) (Or.inr (by omega))
    · intro i e hi
      rw [cellsAt_shift]
      intro cc hcc
      obtain ⟨c1, hc1, rfl⟩ := List.mem_map.mp hcc
      have hmem := cellsAt_mem hc1
      have hX2 : 4 + 4 * es.length ≤ elX es i := by unfold elX; omega
      exact hm2.exact _ (b1_ex _ (h.exact i e hi c1 hc1) (by omega)) (h.elt i e hi c1 hc1).1 (Or.inr (by simp only; omega))
    · exact hm5 _ _ b1_gap (Nat.le_refl _)
    · exact hm2.clean _ b1_c0 (Or.inr (by omega))
    · exact hm2.clean _ b1_c1 (Or.inr (by omega))
    · exact hm2.below _ b1_bel (by omega)

theorem Tail.cat {fs : List El} {J : List Nat} (hT : Tail es I) (hU : Tail fs J) (hil : I.length = es.length) (hjl : J.length = fs.length)
    (hfe : fs ≠ []) : Tail (es ++ fs) (I ++ J.map (es.length + ·)) := by
  have hpos : 0 < fs.length := List.length_pos_iff.mpr hfe
  refine ⟨List.mem_append_left _ hT.1, ?_⟩
  rw [List.length_append, List.getElem?_append_right (by omega), hil, List.getElem?_map, show es.length + fs.length - 1 - es.length = fs.length - 1 by omega, hU.2]
  simp only [Option.map_some, Option.some.injEq]
  omega

/-- `addTableList` on two non-empty lists the last elements of which lie last. -/
theorem TLX.addTables {a : CNode} {fs : List El} {J : List Nat} (h : TLX s k0 t vs c es I) (ha : TLX s k0 t vs a fs J) (ht : TabElt s t)
    (hT : Tail es I) (hU : Tail fs J) (hne : es ≠ []) (hfe : fs ≠ []) (hsm : elEnd (es ++ fs) + vs < 4294967296) (k : Nat) (hk : k0 ≤ k) :
    ∃ c' a', c.addTableList s (k + 1) a = some (c', a', none) ∧ TLX s k0 t vs c' (es ++ fs) (I ++ J.map (es.length + ·)) := by
  have hil := h.ilen
  have hjl := ha.ilen
  have hpos : 0 < es.length := List.length_pos_iff.mpr hne
  have hfpos : 0 < fs.length := List.length_pos_iff.mpr hfe
  have hcat := elEnd_cat (es := es) fs
  have hE : elEnd es = 4 + 4 * es.length + sumTot es := rfl
  have hF : elEnd fs = 4 + 4 * fs.length + sumTot fs := rfl
  unfold CNode.addTableList
  rw [ha.view.listLen, h.view.listLen, hil, hjl]
  simp only [Option.bind_eq_bind, Option.bind_some]
  rw [if_neg (by omega), if_neg (by omega), h.vlenTotal hne]
  simp only [Option.bind_some]
  -- the destination with fresh values
  have h1 : TLX s k0 t vs { c with vi := ⟨4, 4 * es.length + sumTot es, es.length⟩ } es I :=
    ⟨h.name, h.cpos, rfl, rfl, fun _ => rfl, h.small, h.hdr, h.ilen, h.irng, h.off, h.elt, h.self, h.len, h.clean0,
      h.clean1, h.below, h.exact⟩
  obtain ⟨c1, hc1, hio1, H⟩ := h1.refresh ht hne hT k hk
  simp only at hc1 hio1
  rw [hc1]
  simp only [Option.bind_some]
  obtain ⟨i0, hi0, hi0'⟩ := H.firstIdx ht hT.1 (k + 1)
  rw [hi0]
  simp only [Option.bind_some]
  obtain ⟨tl0, hfirst⟩ := H.view.at_eq ht hi0' (List.getElem?_eq_getElem hpos)
  rw [hfirst]
  simp only [Option.bind_some]
  obtain ⟨jq, hjq, hjqlt⟩ := H.lastIdx ht hne (k + 1) (by omega)
  rw [hjq]
  simp only [Option.bind_some]
  obtain ⟨tll, hlast⟩ := H.view.at_eq ht (numOf_get (I := I) (i := jq) (by omega)) (List.getElem?_eq_getElem (H.irng _ (List.mem_of_getElem? (numOf_get (I := I) (i := jq) (by omega)))))
  rw [hlast]
  simp only [Option.bind_some]
  have hg0 := List.getElem?_eq_getElem hpos
  rw [(H.self _ (List.mem_of_getElem? hg0)).vtl _ _ (H.elt _ _ hg0) { name := t, io := c1.io, pos := elX es 0 + vs, tlen := tl0 } rfl rfl]
  simp only [Option.bind_some]
  rw [H.view.listLen, hil]
  simp only [Option.bind_some]
  -- the source
  obtain ⟨a1, ha1, haio1, A1⟩ := ha.dupList ht hfe hU k hk
  rw [ha1]
  simp only [Option.bind_some]
  obtain ⟨a2, ha2, haio2, A⟩ := A1.refresh ht hfe hU k hk
  rw [ha2]
  simp only [Option.bind_some]
  obtain ⟨jm, hjm, hjmlt⟩ := A.lastIdx ht hfe (k + 1) (by omega)
  rw [hjm]
  simp only [Option.bind_some]
  have hjI := numOf_get (I := J) (i := jm) (by omega)
  have hgm := List.getElem?_eq_getElem (A.irng _ (List.mem_of_getElem? hjI))
  obtain ⟨tlm, halast⟩ := A.view.at_eq ht hjI hgm
  rw [halast]
  simp only [Option.bind_some]
  obtain ⟨k0', hk0, hk0'⟩ := A.firstIdx ht hU.1 (k + 1)
  rw [hk0]
  simp only [Option.bind_some]
  have hgf := List.getElem?_eq_getElem hfpos
  obtain ⟨tlf, hafirst⟩ := A.view.at_eq ht hk0' hgf
  rw [hafirst]
  simp only [Option.bind_some]
  rw [(A.self _ (List.mem_of_getElem? hgm)).info _ _ (A.elt _ _ hgm) (k + 1) (by omega)
    { name := t, io := a2.io, pos := elX fs (numOf J jm) + vs, tlen := tlm } rfl rfl rfl]
  simp only [Option.bind_some]
  rw [A.view.listLen, hjl]
  simp only [Option.bind_some]
  rw [(A.self _ (List.mem_of_getElem? hgf)).vtl _ _ (A.elt _ _ hgf) { name := t, io := a2.io, pos := elX fs 0 + vs, tlen := tlf } rfl rfl]
  simp only [Option.bind_some, H.vpos, H.vsize hne, A.vpos, A.vsize hfe, A.vlen]
  have hx0 : elX es 0 = 4 + 4 * es.length := by simp [elX, sumTot]
  have hy0 : elX fs 0 = 4 + 4 * fs.length := by simp [elX, sumTot]
  have e1 : ((elX fs 0 + vs : Nat) : Int) - (vs : Int) = ((4 + 4 * fs.length : Nat) : Int) := by omega
  have e2 : (4 : Int) + (4 * (es.length : Int) + (sumTot es : Int)) - (((elX es 0 + vs : Nat) : Int) - (vs : Int)) = ((sumTot es : Nat) : Int) := by omega
  have e3 : (4 : Int) + 4 * (es.length : Int) = ((4 + 4 * es.length : Nat) : Int) := by omega
  have e4 : ((4 + 4 * fs.length : Nat) : Int) + (4 + (4 * (es.length : Int) + (sumTot es : Int))) - (((elX es 0 + vs : Nat) : Int) - (vs : Int)) =
    ((4 + 4 * fs.length + sumTot es : Nat) : Int) := by omega
  have e5 : (4 : Int) + (4 * (fs.length : Int) + (sumTot fs : Int)) - ((4 + 4 * fs.length : Nat) : Int) = ((tot (allPs fs) : Nat) : Int) := by
    rw [tot_allPs]; omega
  have e6 : (4 : Int) + (4 * (es.length : Int) + (sumTot es : Int)) + ((fs.length * 4 : Nat) : Int) = ((elEnd es + 4 * fs.length : Nat) : Int) := by omega
  simp only [e1, e2, e3, e4, e5, e6, Int.toNat_natCast]
  rw [if_neg (by omega)]
  obtain ⟨ab1, ab, hA1, hA2, hA3, OA⟩ := A.opened hfe (D := sumTot es) (by omega)
  rw [hA1]
  simp only [Option.bind_some, hA2, Bool.false_eq_true, if_false, hA3]
  obtain ⟨cb1, cb, hC1, hC2, hC3, OC⟩ := H.opened hne (D := fs.length * 4) (by omega)
  rw [hC1]
  simp only [Option.bind_some, hC2, Bool.false_eq_true, if_false, hC3]
  have hz : c1.vi.pos - 4 = ((0 : Nat) : Int) := by rw [H.vpos]; rfl
  rw [hz, putN_nat]
  simp only [Option.bind_some]
  have hW := within_updateU (b := cb) (off := 0) (putLE_length 4 (es.length + fs.length)) (by omega)
  generalize hb1 : cb.updateU 0 4 (putLE 4 (es.length + fs.length)) = b1
  rw [hb1] at hW
  have b1_hdr : Holds b1 0 (putLE 4 (es.length + fs.length)) := by rw [← hb1]; exact holds_put4 OC.hdr (putLE_length _ _) _
  have b1_bytes : b1.bytes = c1.io.bytes := by rw [hW.bytes, OC.bytes]
  have b1_gap : b1.NoCut (4 + 4 * es.length) (fs.length * 4) := by
    rw [← hb1]; exact noCut_updateU (putLE_length _ _) OC.gap (by omega)
  have hlen := H.len
  have hvp : a2.vi.pos = ((4 : Nat) : Int) := A.vpos
  -- the offsets
  have hpk := packed_length (fun j => elX fs (numOf J j) + vs - (4 + 4 * j) + sumTot es) fs.length
  have hpt : tot [packed (fun j => elX fs (numOf J j) + vs - (4 + 4 * j) + sumTot es) fs.length] = fs.length * 4 := by simp [tot, hpk]; omega
  rw [hvp, copyI_zero]
  simp only [Option.bind_some]
  obtain ⟨pd1, hcp1, hpd1⟩ := copy_reads (b := b1) (dst := 4 + 4 * es.length) OA.head (by rw [b1_bytes]; omega)
  rw [hpt] at hcp1
  rw [hcp1]
  have hne1 := reads_ne OA.head
  have b2_head := apps_same hpd1 hne1 (fun cc hcc => by
    simp only [cellsAt, List.mem_singleton] at hcc
    subst hcc
    simp only [hpk]
    have : 4 * fs.length = fs.length * 4 := by omega
    rw [this]; exact b1_gap)
  have b2_of : ∀ x w, Holds b1 x w → x + w.length ≤ 4 + 4 * es.length ∨ 4 + 4 * es.length + fs.length * 4 ≤ x → Holds (b1.apps pd1) x w :=
    fun x w hw hx => apps_other hpd1 hw (by rw [hpt]; exact hx)
  have hfst : 0 < sumTot es := by
    have h1 := sumTot_take_succ hg0
    have h2 := sumTot_take_le es (0 + 1)
    have h3 := (H.self _ (List.mem_of_getElem? hg0)).len
    have h4 := (H.self _ (List.mem_of_getElem? hg0)).mpos
    omega
  have b1_bel : Below b1 (elEnd es + fs.length * 4) := hW.below _ OC.below (by omega)
  have b1_c0 : Clean b1 (4 + 4 * es.length + fs.length * 4) := hW.clean _ OC.clean0 (Or.inr (by omega))
  have b1_c1 : Clean b1 (elEnd es + fs.length * 4) := hW.clean _ OC.clean1 (Or.inr (by omega))
  have b2_bel : Below (b1.apps pd1) (elEnd es + fs.length * 4) := apps_below hpd1 hne1 b1_bel (by rw [hpt]; omega)
  have b2_c0 : Clean (b1.apps pd1) (4 + 4 * es.length + fs.length * 4) := apps_clean hpd1 b1_c0 (Or.inr (by rw [hpt]; exact Nat.le_refl _))
  have b2_c1 : Clean (b1.apps pd1) (elEnd es + fs.length * 4) := apps_clean hpd1 b1_c1 (Or.inr (by rw [hpt]; omega))
  have b1_ex : ∀ cc : Nat × Bytes, Exact1 cb cc → cc.2 ≠ [] → 4 + 4 * es.length + fs.length * 4 ≤ cc.1 → Exact1 (b1.apps pd1) cc :=
    fun cc hx hn hge => exact_apps_other hpd1 (hW.exact cc hx hn (Or.inr (by omega))) (Or.inr (by rw [hpt]; exact hge))
  have b2_bytes : (b1.apps pd1).bytes = c1.io.bytes := b1_bytes
  generalize hb2 : b1.apps pd1 = b2
  rw [hb2] at b2_head b2_of b2_bel b2_c0 b2_c1 b1_ex b2_bytes
  -- the elements
  have hne2 : ∀ w ∈ allPs fs, w ≠ [] := by
    intro w hw
    obtain ⟨e, he, hwe⟩ := List.mem_flatMap.mp hw
    obtain ⟨i, hie⟩ := List.getElem?_of_mem he
    exact A.pieces_ne hie w hwe
  have hreads : Reads ab (4 + 4 * fs.length + sumTot es) (allPs fs) := by
    refine exact_reads ?_ hne2
    intro cc hcc
    obtain ⟨i, e, hi, hm⟩ := (cells_allPs _ fs).mp hcc
    have := OA.exact i e hi
    have e7 : elX fs i + sumTot es = 4 + 4 * fs.length + sumTot es + sumTot (fs.take i) := by unfold elX; omega
    rw [e7] at this
    exact this cc hm
  rw [copyI_zero]
  simp only [Option.bind_some]
  have hend : elEnd es + 4 * fs.length = elEnd es + fs.length * 4 := by omega
  rw [hend]
  obtain ⟨pd2, hcp2, hpd2⟩ := copy_reads (b := b2) (dst := elEnd es + fs.length * 4) hreads (by rw [b2_bytes]; omega)
  rw [hcp2]
  have htp := tot_allPs fs
  have b3_elt : HoldsC (b2.apps pd2) (cellsAt (elEnd es + fs.length * 4) (allPs fs)) :=
    apps_same hpd2 hne2 (fun cc hcc => noCut_end (by rw [b2_bytes]; omega) b2_bel b2_c1 (cellsAt_mem hcc).1)
  have b3_ex : ExactC (b2.apps pd2) (cellsAt (elEnd es + fs.length * 4) (allPs fs)) := by
    refine exact_apps_same hpd2 hne2 ?_
    intro d hd
    have g1 := b2_bel d hd
    have g2 := b2_c1 d hd
    unfold Straddles at g2
    omega
  have b3_of : ∀ x w, Holds b2 x w → x + w.length ≤ elEnd es + fs.length * 4 → Holds (b2.apps pd2) x w :=
    fun x w hw hx => apps_other hpd2 hw (Or.inl hx)
  have b3_exo : ∀ cc : Nat × Bytes, Exact1 b2 cc → cc.1 < elEnd es + fs.length * 4 → Exact1 (b2.apps pd2) cc :=
    fun cc hx hlt => exact_apps_other hpd2 hx (Or.inl hlt)
  have b3_c0 : Clean (b2.apps pd2) (4 + 4 * es.length + fs.length * 4) := apps_clean hpd2 b2_c0 (Or.inl (by omega))
  have b3_c1 : Clean (b2.apps pd2) (elEnd (es ++ fs)) := by
    refine apps_clean hpd2 ?_ (Or.inr (by omega))
    intro d hd
    have g1 := b2_bel d hd
    have g2 := b2_c1 d hd
    unfold Straddles at g2 ⊢
    omega
  have b3_bel : Below (b2.apps pd2) (elEnd (es ++ fs)) :=
    apps_below hpd2 hne2 (fun d hd => by have := b2_bel d hd; omega) (by omega)
  have b3_bytes : (b2.apps pd2).bytes = c1.io.bytes := b2_bytes
  generalize hb3 : b2.apps pd2 = b3
  rw [hb3] at b3_elt b3_ex b3_of b3_exo b3_c0 b3_c1 b3_bel b3_bytes
  have hl3 : (es ++ fs).length = es.length + fs.length := List.length_append
  have b3_hdr : Holds b3 0 (putLE 4 (es ++ fs).length) := by
    rw [hl3]
    exact b3_of _ _ (b2_of _ _ b1_hdr (Or.inl (by rw [putLE_length]; omega))) (by rw [putLE_length]; omega)
  have hl4 : (I ++ J.map (es.length + ·)).length = (es ++ fs).length := by simp [hil, hjl]
  have hrng4 : ∀ j ∈ I ++ J.map (es.length + ·), j < (es ++ fs).length := by
    intro j hj
    rw [hl3]
    rcases List.mem_append.mp hj with hj | hj
    · have := h.irng j hj; omega
    · obtain ⟨j', hj', rfl⟩ := List.mem_map.mp hj
      have := ha.irng j' hj'; omega
  have b3_off : ∀ i j, (I ++ J.map (es.length + ·))[i]? = some j → Holds b3 (4 + 4 * i) (putLE 4 (elX (es ++ fs) j + vs - (4 + 4 * i))) := by
    intro i j hij
    have hi := (List.getElem?_eq_some_iff.mp hij).1
    rw [hl4, hl3] at hi
    by_cases hlt : i < es.length
    · rw [List.getElem?_append_left (by omega)] at hij
      have hjr := h.irng j (List.mem_of_getElem? hij)
      have hnum := numOf_get (I := I) (i := i) (by omega)
      rw [hij] at hnum
      injection hnum with hnum
      rw [elX_left (by omega)]
      have hX : 4 + 4 * es.length ≤ elX es j := by unfold elX; omega
      have g := OC.off i hlt
      rw [← hnum] at g
      have e8 : elX es j + vs - (4 + 4 * i) + fs.length * 4 = elX es j + 4 * fs.length + vs - (4 + 4 * i) := by omega
      rw [e8] at g
      exact b3_of _ _ (b2_of _ _ (hW.other _ _ g (Or.inr (by omega))) (Or.inl (by rw [putLE_length]; omega))) (by rw [putLE_length]; omega)
    · rw [List.getElem?_append_right (by omega), List.getElem?_map, hil] at hij
      obtain ⟨p, rfl⟩ : ∃ p, i = es.length + p := ⟨i - es.length, by omega⟩
      rw [Nat.add_sub_cancel_left] at hij
      have hp : p < fs.length := by omega
      have hnum := numOf_get (I := J) (i := p) (by omega)
      rw [hnum] at hij
      simp only [Option.map_some, Option.some.injEq] at hij
      subst hij
      rw [elX_right]
      have hX : 4 + 4 * fs.length ≤ elX fs (numOf J p) := by unfold elX; omega
      have g := holds_sub (b2_head _ (List.mem_singleton.mpr rfl)) (4 * p) 4 (by omega) (by simp only [hpk]; omega)
      simp only at g
      rw [packed_sub _ hp] at g
      have e8 : elX fs (numOf J p) + vs - (4 + 4 * p) + sumTot es = elX fs (numOf J p) + 4 * es.length + sumTot es + vs - (4 + 4 * (es.length + p)) := by omega
      rw [e8] at g
      have e9 : 4 + 4 * es.length + 4 * p = 4 + 4 * (es.length + p) := by omega
      rw [e9] at g
      exact b3_of _ _ g (by rw [putLE_length]; omega)
  have cellsL : ∀ i x, i < es.length → es[i]? = some x → ∀ cc ∈ cellsAt (elX (es ++ fs) i) x.ps,
      cc ∈ cellsAt (elX es i + fs.length * 4) x.ps ∧ 4 + 4 * es.length + fs.length * 4 ≤ cc.1 ∧
        cc.1 + cc.2.length ≤ elEnd es + fs.length * 4 := by
    intro i x hi hx cc hcc
    rw [elX_left (by omega)] at hcc
    have hmem := cellsAt_mem hcc
    have hX := elX_end hx
    have hX2 : 4 + 4 * es.length ≤ elX es i := by unfold elX; omega
    have e8 : elX es i + fs.length * 4 = elX es i + 4 * fs.length := by omega
    exact ⟨by rw [e8]; exact hcc, by omega, by omega⟩
  have cellsR : ∀ j x, fs[j]? = some x → ∀ cc ∈ cellsAt (elX (es ++ fs) (es.length + j)) x.ps,
      cc ∈ cellsAt (elEnd es + fs.length * 4) (allPs fs) := by
    intro j x hx cc hcc
    rw [elX_right] at hcc
    refine (cells_allPs _ fs).mpr ⟨j, x, hx, ?_⟩
    have e8 : elX fs j + 4 * es.length + sumTot es = elEnd es + fs.length * 4 + sumTot (fs.take j) := by unfold elX; omega
    rw [← e8]; exact hcc
  have split : ∀ i x, (es ++ fs)[i]? = some x → (i < es.length ∧ es[i]? = some x) ∨ ∃ j, i = es.length + j ∧ fs[j]? = some x := by
    intro i x hx
    by_cases hlt : i < es.length
    · rw [List.getElem?_append_left hlt] at hx; exact Or.inl ⟨hlt, hx⟩
    · rw [List.getElem?_append_right (by omega)] at hx
      exact Or.inr ⟨i - es.length, by omega, hx⟩
  have b3_el : ∀ i x, (es ++ fs)[i]? = some x → HoldsC b3 (cellsAt (elX (es ++ fs) i) x.ps) := by
    intro i x hx cc hcc
    rcases split i x hx with ⟨hlt, hx'⟩ | ⟨j, rfl, hx'⟩
    · obtain ⟨g1, g2, g3⟩ := cellsL i x hlt hx' cc hcc
      exact b3_of _ _ (b2_of _ _ (hW.other _ _ (OC.elt i x hx' cc g1) (Or.inr (by omega))) (Or.inr g2)) g3
    · exact b3_elt cc (cellsR j x hx' cc hcc)
  have hself : ∀ x ∈ es ++ fs, SelfC s k0 t vs x.ps x.m := by
    intro x hx
    rcases List.mem_append.mp hx with hx | hx
    · exact h.self x hx
    · exact ha.self x hx
  have hview : XView s k0 t vs { name := c1.name, io := b3, pos := c1.pos, size := c1.size, tlen := c1.tlen, vi := c1.vi } (es ++ fs) (I ++ J.map (es.length + ·)) :=
    ⟨H.name, H.vpos, by omega, by rw [hl4]; exact b3_hdr, Nat.le_of_eq hl4, hrng4, b3_off, b3_el, hself⟩
  have hne4 : es ++ fs ≠ [] := by simp [hne]
  unfold CNode.refresh
  rw [hview.infoTail ht hl4 hne4 (Tail.cat hT hU hil hjl hfe) k hk]
  simp only [Option.bind_eq_bind, Option.bind_some, pure]
  refine ⟨_, _, rfl, ?_⟩
  refine ⟨H.name, H.cpos, rfl, rfl, fun _ => rfl, by omega, b3_hdr, hl4, hrng4, b3_off, b3_el, hself, ?_, ?_, b3_c1, b3_bel, ?_⟩
  · simp only [b3_bytes]; exact hlen
  · rw [hl3]
    have e8 : 4 + 4 * (es.length + fs.length) = 4 + 4 * es.length + fs.length * 4 := by omega
    rw [e8]; exact b3_c0
  · intro i x hx cc hcc
    rcases split i x hx with ⟨hlt, hx'⟩ | ⟨j, rfl, hx'⟩
    · obtain ⟨g1, g2, g3⟩ := cellsL i x hlt hx' cc hcc
      have hn := (OC.elt i x hx' cc g1).1
      have hl : 0 < cc.2.length := List.length_pos_iff.mpr hn
      exact b3_exo _ (b1_ex _ (OC.exact i x hx' cc g1) hn g2) (by omega)
    · exact b3_ex cc (cellsR j x hx' cc hcc)

/-- `Add` on such lists; the destination may be empty. -/
theorem TLX.add {a : CNode} {fs : List El} {J : List Nat} (h : TLX s k0 t vs c es I) (ha : TLX s k0 t vs a fs J) (ht : TabElt s t)
    (hT : es ≠ [] → Tail es I) (hU : Tail fs J) (hfe : fs ≠ []) (hsm : elEnd (es ++ fs) + vs < 4294967296) (k : Nat) (hk : k0 ≤ k) :
    ∃ c' a', c.add s (k + 1) a = some (c', a', none) ∧ TLX s k0 t vs c' (es ++ fs) (I ++ J.map (es.length + ·)) := by
  have hfpos : 0 < fs.length := List.length_pos_iff.mpr hfe
  have hlist : ∃ c' a', c.addTableList s (k + 1) a = some (c', a', none) ∧ TLX s k0 t vs c' (es ++ fs) (I ++ J.map (es.length + ·)) := by
    by_cases hne : es = []
    · subst hne
      obtain rfl : I = [] := List.length_eq_zero_iff.mp h.ilen
      have hJ : J.map (([] : List El).length + ·) = J := by simp
      rw [hJ, List.nil_append, List.nil_append]
      unfold CNode.addTableList
      rw [ha.view.listLen, h.view.listLen, ha.ilen]
      simp only [Option.bind_eq_bind, Option.bind_some]
      rw [if_neg (by omega)]
      simp only [List.length_nil, if_true]
      obtain ⟨a1, h1, h2, h3⟩ := ha.dupList ht hfe hU k hk
      rw [h1]
      simp only [Option.bind_some]
      have hd := h3.dup
      have hv : XView s k0 t vs { name := c.name, io := a1.io.dup, pos := c.pos, size := c.size, tlen := c.tlen, vi := { c.vi with pos := a1.vi.pos } } fs J :=
        ⟨h.name, h3.vpos, h3.small, by rw [h3.ilen]; exact hd.hdr, Nat.le_of_eq h3.ilen, h3.irng, hd.off, hd.elt, h3.self⟩
      unfold CNode.refresh
      rw [hv.infoTail ht h3.ilen hfe hU k hk]
      simp only [pure]
      refine ⟨_, _, rfl, ?_⟩
      exact ⟨h.name, h.cpos, rfl, rfl, fun _ => rfl, h3.small, hd.hdr, h3.ilen, h3.irng, hd.off, hd.elt, h3.self, hd.len,
        hd.clean0, hd.clean1, hd.below, hd.exact⟩
    · exact h.addTables ha ht (hT hne) hU hne hfe hsm k hk
  obtain ⟨c', a', h1, h2⟩ := hlist
  refine ⟨c', a', ?_, h2⟩
  have hj0 := numOf_get (I := J) (i := 0) (by rw [ha.ilen]; exact hfpos)
  obtain ⟨tl, h3⟩ := ha.view.at_eq ht hj0 (List.getElem?_eq_getElem (ha.irng _ (List.mem_of_getElem? hj0)))
  simp only [Int.natCast_zero] at h3
  obtain ⟨g, hg, g1, g2, g3, g4⟩ := ht
  unfold CNode.add
  rw [inRoot_false h.hdr (by rw [h.cpos]; omega)]
  simp only [Option.bind_eq_bind, Option.bind_some, Bool.false_eq_true, if_false]
  rw [h3]
  simp only [Option.bind_some]
  rw [hg]
  simp only [Option.bind_some, g1, g2, g3, g4, Bool.or_false, Bool.false_eq_true, if_false, if_true]
  exact h1

end Fbs
