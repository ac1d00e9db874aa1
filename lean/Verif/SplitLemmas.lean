import Verif.Split
import Verif.ListAdd
import Verif.Message
import Verif.CellReads
/-!
# Lemmas about lists whose data area is written elsewhere
-/

namespace Fbs
open CNode

/-! ## merged tables -/

theorem holdsC_one {b : Base} {x : Nat} {ps : List Bytes} (hne : ∀ w ∈ ps, w ≠ []) (h : HoldsC b (cellsAt x [ps.flatten])) :
    HoldsC b (cellsAt x ps) := by
  have h0 : Holds b x ps.flatten := h (x, ps.flatten) (by simp [cellsAt])
  clear h
  -- generalise over the part already passed
  have key : ∀ (qs : List Bytes) (pre : Bytes) (W : Bytes), (∀ w ∈ qs, w ≠ []) → W = pre ++ qs.flatten → Holds b x W →
      HoldsC b (cellsAt (x + pre.length) qs) := by
    intro qs
    induction qs with
    | nil => intro pre W _ _ _ c hc; cases hc
    | cons w qs ih =>
      intro pre W hq hW hH c hc
      have hw := hq w (List.mem_cons_self ..)
      have hl : 0 < w.length := List.length_pos_iff.mpr hw
      rcases List.mem_cons.mp hc with rfl | hc
      · have := holds_sub hH pre.length w.length hl (by rw [hW]; simp)
        rw [hW, List.drop_append_of_le_length (Nat.le_refl _), List.drop_length, List.nil_append, List.flatten_cons,
          List.take_append_of_le_length (Nat.le_refl _), List.take_length] at this
        exact this
      · have := ih (pre ++ w) W (fun v hv => hq v (List.mem_cons_of_mem _ hv)) (by rw [hW]; simp) hH
        rw [List.length_append, ← Nat.add_assoc] at this
        exact this c hc
  have := key ps [] ps.flatten hne rfl h0
  simpa using this

theorem SelfC.merge {s : Sch} {k0 : Nat} {t : Name} {vs m : Nat} {ps : List Bytes} (h : SelfC s k0 t vs ps m)
    (hne : ∀ w ∈ ps, w ≠ []) : SelfC s k0 t vs [ps.flatten] m := by
  refine ⟨?_, h.mpos, fun b x hb => h.pre b x (holdsC_one hne hb), fun b x hb => h.info b x (holdsC_one hne hb),
    fun b x hb => h.vtl b x (holdsC_one hne hb)⟩
  have := h.len
  rw [← this]
  simp [tot]

theorem Carries.merge {s : Sch} {nm : Name} {ps : List Bytes} {cur : Nat → Option Bytes} {vo : Nat → Nat} (h : Carries s nm ps cur vo)
    (hne : ∀ w ∈ ps, w ≠ []) : Carries s nm [ps.flatten] cur vo := by
  have hin : ∀ i w, InP ps i w → InP [ps.flatten] i w := fun i w hi b x hb => hi b x (holdsC_one hne hb)
  obtain ⟨ht, ha, hf⟩ := h
  refine ⟨⟨hin _ _ ht.vl, ?_, ?_, hin _ _ ht.soff⟩, ha, ?_⟩
  · obtain ⟨n, hn⟩ := ht.tl
    exact ⟨n, hin _ _ hn⟩
  · intro i hi
    exact ⟨(ht.slot i hi).1, hin _ _ (ht.slot i hi).2⟩
  · intro i hi w hw
    exact ⟨(hf i hi w hw).1, hin _ _ (hf i hi w hw).2⟩

theorem holds_flatten {b : Base} {x : Nat} {w : Bytes} (h : Holds b x w) : Holds b.flatten x w := by
  obtain ⟨h1, h2⟩ := holds_flattened h
  exact holds_congr (b := Base.new ⟨b.flatten.bytes.data, []⟩) rfl rfl (holds_flat h.1 h2 h1)

theorem spells_flatten {b : Base} {x : Nat} {w : Bytes} (hne : w ≠ []) (h : b.content.Spells x w) : Holds b.flatten x w := by
  have hl : 0 < w.length := List.length_pos_iff.mpr hne
  have h1 : ∀ k, k < w.length → b.flatten.bytes.data[x + k]? = w[k]? ∧ x + k < b.lenBuf := by
    intro k hk
    have hs := h k hk
    have hlt : x + k < b.lenBuf := by
      apply Nat.lt_of_not_le
      intro hle
      rw [content_none_of_ge b _ hle, List.getElem?_eq_getElem hk] at hs
      cases hs
    refine ⟨?_, hlt⟩
    rw [(flatten_bytes b).2]
    simp only [ByteMap.fill]
    rw [if_pos hlt, hs, List.getElem?_eq_getElem hk]
    rfl
  have h2 := (h1 (w.length - 1) (by omega)).2
  have h3 := (flatten_bytes b).1
  exact holds_congr (b := Base.new ⟨b.flatten.bytes.data, []⟩) rfl rfl (holds_flat hne (fun k hk => (h1 k hk).1) (by omega))

/-- Nothing of the buffer lies behind `x`. -/
theorem lenBuf_upto {b : Base} {x : Nat} (hlen : b.bytes.len ≤ x) (hb : Below b x) (hc : Clean b x) : b.lenBuf ≤ x := by
  rw [lenBuf_eq, maxEnd_le_iff]
  refine ⟨hlen, ?_⟩
  intro d hd
  have h1 := hb d hd
  have h2 := hc d hd
  unfold Straddles at h2
  omega

/-- The table in one piece after `Merge`. -/
theorem rep_merged {s : Sch} {nm : Name} (hT : InlTab s nm) {c : CNode} {cur : Nat → Option Bytes} (h : Rep s nm c cur none)
    (hne : ∃ i, i < (s.fields nm).length ∧ cur i ≠ none)
    (hab : ∀ i fd, (s.fields nm)[i]? = some fd → cur i = none → fd.grp ≠ ftStruct →
      fieldWidth s fd ≤ dataLen (s.fields nm).length cur) :
    ∃ vo, c.pos = 4 + 2 * (s.fields nm).length ∧
      TSrc s 3 nm (4 + 2 * (s.fields nm).length) { c with io := c.io.flatten } ⟨[c.io.flatten.bytes.data], dataLen (s.fields nm).length cur⟩ ∧
      Carries s nm [c.io.flatten.bytes.data] cur vo := by
  obtain ⟨ps, vo, h1, h2, h3⟩ := rep_src hT h hne hab
  have hpne := reads_ne h1.mem
  have hself := h1.self.merge hpne
  have hcar := h3.merge hpne
  have hlen := hself.len
  have hmpos := hself.mpos
  have hF : ps.flatten ≠ [] := by
    intro h0
    rw [h0] at hlen
    simp [tot] at hlen
    omega
  have hB := spells_flatten hF h2
  obtain ⟨t, vo', fx, hI, hV, hcur, -, -, -, ht, -, hsz⟩ := h.ex
  have htd : t = dataLen (s.fields nm).length cur := by
    rw [ht]; unfold dataLen
    congr 2
    apply List.map_congr_left
    intro i hi
    have hi' := List.mem_range.mp hi
    rw [hcur i _ (List.getElem?_eq_getElem hi') (hT.inl _ (List.getElem_mem hi')).1]
  have hup := lenBuf_upto hI.len hV hI.clean
  have hbl := (flatten_bytes c.io).1
  have hEq : c.io.flatten.bytes.data = ps.flatten := by
    have hs := hB.2.2
    simp only [tot, List.map_cons, List.map_nil, List.sum_cons, List.sum_nil, Nat.add_zero] at hlen
    apply List.ext_getElem?
    intro k
    by_cases hk : k < ps.flatten.length
    · have := hs k hk
      rw [Nat.zero_add] at this
      exact this
    · rw [List.getElem?_eq_none (by omega), List.getElem?_eq_none (by omega)]
  refine ⟨vo, hI.pos, ?_, by rw [hEq]; exact hcar⟩
  rw [hEq]
  refine ⟨hI.name, by simp only [hI.pos]; omega, ?_, hself, Or.inr ⟨by simp only [hsz]; omega, ?_⟩⟩
  · simp only [hI.pos, Nat.sub_self]
    exact reads_one hB
  · intro k hk
    refine ⟨_, hself.info _ 0 ?_ k hk _ hI.name rfl (by simp only [hI.pos]; omega)⟩
    intro cc hcc
    simp only [cellsAt, List.mem_singleton] at hcc
    rw [hcc]
    exact hB

/-! ## writers -/

namespace Writer

/-- The next `Write` goes to the end. -/
def AtEnd (w : Writer) : Prop := w.kind = .file → w.cur = w.data.length

theorem putAt_end (d bs : Bytes) : putAt d d.length bs = d ++ bs := by
  unfold putAt
  split
  · rename_i h; rw [h, List.append_nil]
  · have e : d.length + bs.length - d.length = bs.length := by omega
    rw [e]
    unfold copyAt
    have : (d ++ zeros bs.length).length = d.length + bs.length := by simp [zeros]
    rw [this]
    simp [zeros]

theorem write_end {w : Writer} (h : w.AtEnd) (bs : Bytes) :
    (w.write bs).kind = w.kind ∧ (w.write bs).data = w.data ++ bs ∧ (w.write bs).AtEnd := by
  unfold write
  cases hk : w.kind with
  | file =>
    simp only
    refine ⟨trivial, by rw [h hk, putAt_end], ?_⟩
    intro _
    simp only [h hk, putAt_end, List.length_append]
  | buffer => simp only; exact ⟨trivial, trivial, fun h => by simp at h⟩
  | sink => simp only; exact ⟨trivial, trivial, fun h => by simp at h⟩

end Writer

theorem takeI_eq {bs : Slice} {n : Nat} (h : n ≤ bs.len) : CList.takeI bs n = some (bs.data.take n) := by
  unfold CList.takeI Slice.takeTo
  simp only [Slice.len] at h
  have h1 : ¬ ((n : Int) < 0) := by omega
  have h2 : n ≤ bs.cap := by unfold Slice.cap; omega
  simp only [h1, if_false, Int.toNat_natCast, h2, if_true, Option.bind_eq_bind, Option.bind_some, pure, Slice.arr]
  rw [List.take_append_of_le_length h]

/-- Reading a cell and cutting it off. -/
theorem holds_take {b : Base} {x : Nat} {w : Bytes} (h : Holds b x w) (req : Nat) :
    (b.Ri (x : Int) req).bind (fun bs => CList.takeI bs (w.length : Int)) = some w := by
  obtain ⟨h1, h2⟩ := holds_read h req
  unfold Base.Ri
  rw [if_neg (by omega), Option.bind_some, Int.toNat_natCast, takeI_eq h1, h2]

/-! ## writing the data area -/

section
variable {s : Sch} {k0 : Nat} {t : Name} {vs : Nat} {c : CNode} {es : List El}

theorem TView.flatten (h : TView s k0 t vs c es) : TView s k0 t vs { c with io := c.io.flatten } es :=
  ⟨h.name, h.vpos, h.small, holds_flatten h.hdr, fun i hi => holds_flatten (h.off i hi),
    fun i e hi cc hcc => holds_flatten (h.elt i e hi cc hcc), h.self⟩

/-- In the merged list every element is in one piece. -/
theorem TView.one (h : TView s k0 t vs c es) {i : Nat} {e : El} (hi : es[i]? = some e) :
    Holds c.io.flatten (elX es i) e.ps.flatten := by
  have hs := h.self e (List.mem_of_getElem? hi)
  refine spells_flatten ?_ (holdsC_spells (h.elt i e hi))
  intro h0
  have h1 := hs.len
  have h2 := hs.mpos
  rw [← tot_flatten, h0] at h1
  simp at h1
  omega

theorem writeElems_eq (h : TView s k0 t vs c es) (k : Nat) (hk : k0 ≤ k) (hm : ∀ i e, es[i]? = some e → Holds c.io (elX es i) e.ps.flatten)
    (n : Nat) : ∀ (i : Nat) (ns : List CNode) (l : CList) (w : Writer), i + n = es.length → ns.length = n →
      (∀ j, j < n → ∃ tl, ns[j]? = some { name := t, io := c.io, pos := elX es (i + j) + vs, tlen := tl }) →
      l.node = c → l.w = some w → w.AtEnd →
      ∃ l' w', l.writeElems s k vs i ns = some l' ∧ l'.node = c ∧ l'.w = some w' ∧ w'.AtEnd ∧ w'.kind = w.kind ∧
        w'.data = w.data ++ (allPs (es.drop i)).flatten ∧ l'.dLen = l.dLen + sumTot (es.drop i) := by
  induction n with
  | zero =>
    intro i ns l w hin hns hj hl hw ha
    have : ns = [] := List.length_eq_zero_iff.mp hns
    subst this
    rw [List.drop_of_length_le (by omega)]
    exact ⟨l, w, rfl, hl, hw, ha, rfl, by simp [allPs], by simp [sumTot]⟩
  | succ n ih =>
    intro i ns l w hin hns hj hl hw ha
    cases ns with
    | nil => simp at hns
    | cons e0 r =>
      have hi : i < es.length := by omega
      have hget := List.getElem?_eq_getElem hi
      obtain ⟨tl, h0⟩ := hj 0 (by omega)
      simp only [List.getElem?_cons_zero, Option.some.injEq, Nat.add_zero] at h0
      subst h0
      have hself := h.self _ (List.mem_of_getElem? hget)
      have hlen := hself.len
      have hfl := tot_flatten es[i].ps
      have hinf := hself.info _ _ (h.elt i _ hget) k hk { name := t, io := c.io, pos := elX es i + vs, tlen := tl } rfl rfl rfl
      have hrd := holds_take (hm i _ hget) ((es[i].m : Int) + vs).toNat
      have e1 : ((elX es i + vs : Nat) : Int) - (vs : Int) = ((elX es i : Nat) : Int) := by omega
      have e2 : (es[i].m : Int) + (vs : Int) = ((es[i].ps.flatten.length : Nat) : Int) := by omega
      unfold CList.writeElems
      simp only [Option.bind_eq_bind, hinf, Option.bind_some, e1, hl, hw]
      rw [e2] at hrd ⊢
      rw [← Option.bind_assoc, hrd, Option.bind_some]
      obtain ⟨w1, w2, w3⟩ := Writer.write_end ha es[i].ps.flatten
      obtain ⟨l', w', r1, r2, r3, r4, r5, r6, r7⟩ := ih (i + 1) r
        { node := c, w := some (w.write es[i].ps.flatten), dCur := i, dLen := l.dLen + (es[i].ps.flatten.length : Nat) } _
        (by omega) (by simpa using hns) (by
          intro j hj'
          obtain ⟨tl', h5⟩ := hj (j + 1) (by omega)
          refine ⟨tl', ?_⟩
          rw [List.getElem?_cons_succ] at h5
          rw [h5, show i + 1 + j = i + (j + 1) by omega]) rfl rfl w3
      refine ⟨l', w', r1, r2, r3, r4, by rw [r5, w1], ?_, ?_⟩
      · have e3 : allPs (es.drop i) = es[i].ps ++ allPs (es.drop (i + 1)) := by rw [List.drop_eq_getElem_cons hi]; rfl
        rw [r6, w2, List.append_assoc, e3, List.flatten_append]
      · rw [r7]
        conv => rhs; rw [List.drop_eq_getElem_cons hi]
        simp only [sumTot, List.map_cons, List.sum_cons]
        omega

/-- The first `n` bytes, found again. -/
theorem holds_prefix {bs : Bytes} {n x : Nat} {w : Bytes} {sp sp' : Bytes} {b : Base} (hb : b.bytes = ⟨bs, sp⟩) (hd : b.diffs = [])
    (h : Holds b x w) (hx : x + w.length ≤ n) : Holds (Base.new ⟨bs.take n, sp'⟩) x w := by
  have h1 : ∀ k, k < w.length → bs[x + k]? = w[k]? := by
    intro k hk
    have := h.2.2 k hk
    rw [content_eq, hd, hb] at this
    exact this
  have hl : 0 < w.length := List.length_pos_iff.mpr h.1
  have h2 : x + (w.length - 1) < bs.length := by
    have := h1 (w.length - 1) (by omega)
    rw [List.getElem?_eq_getElem (show w.length - 1 < w.length by omega)] at this
    exact (List.getElem?_eq_some_iff.mp this).1
  refine holds_flat h.1 ?_ (by rw [List.length_take]; omega)
  intro k hk
  rw [List.getElem?_take, if_pos (by omega), h1 k hk]

/-- list.go 43-81 on a list with elements. -/
theorem writeDataAll_eq (h : TView s k0 t vs c es) (ht : TabElt s t) (hvs : (s.fields t).length * 2 + 4 = vs) (hne : es ≠ [])
    (hv : c.vi.vlen = es.length) (k : Nat) (hk : k0 ≤ k) (l : CList) (hl : l.node = c) {w : Writer} (hw : l.w = some w) (ha : w.AtEnd)
    (hd : l.dLen = 0) :
    ∃ l' w', l.writeDataAll s k = some (l', none) ∧
      l'.node = { c with io := Base.new ⟨c.io.flatten.bytes.data.take (4 + 4 * es.length), []⟩ } ∧ l'.w = some w' ∧ w'.AtEnd ∧ w'.kind = w.kind ∧
      w'.data = w.data ++ (allPs es).flatten ∧ l'.dLen = sumTot es := by
  have hpos : 0 < es.length := List.length_pos_iff.mpr hne
  obtain ⟨g, hg, hb, hb2, hb3, hb4⟩ := id ht
  have hF := h.flatten
  have hget := List.getElem?_eq_getElem hpos
  obtain ⟨tl, hat⟩ := hF.at_eq ht hget
  obtain ⟨ns, n1, n2, n3⟩ := hF.allFrom ht es.length 0 (by omega)
  have hself := h.self _ (List.mem_of_getElem? hget)
  have hinf := hself.info _ _ (hF.elt 0 _ hget) k hk { name := t, io := c.io.flatten, pos := elX es 0 + vs, tlen := tl } rfl rfl rfl
  unfold CList.writeDataAll
  rw [hl, if_neg (by omega)]
  simp only [Option.bind_eq_bind, pure]
  have hat' : CNode.at_ s { c with io := c.io.flatten } (0 : Int) = some (.ok { name := t, io := c.io.flatten, pos := elX es 0 + vs, tlen := tl }) := hat
  rw [hat']
  simp only [Option.bind_some, hinf, hg, CNode.countOfField, hvs]
  obtain ⟨l', w', r1, r2, r3, r4, r5, r6, r7⟩ := writeElems_eq (c := { c with io := c.io.flatten }) hF k hk (fun i e hi => h.one hi) es.length 0 ns
    { l with node := { c with io := c.io.flatten } } w (by omega) n2 n3 rfl hw ha
  have hall : CNode.all s { c with io := c.io.flatten } = some ns := by
    unfold CNode.all; rw [hF.listLen]; simp only [hv]; exact n1
  simp only [hb4, Bool.not_true, Bool.false_eq_true, if_false, hall, Option.bind_some]
  rw [r1]
  simp only [Option.bind_some, r2]
  have e1 : ((elX es 0 + vs : Nat) : Int) - (vs : Int) = ((4 + 4 * es.length : Nat) : Int) := by
    unfold elX; simp [sumTot]
  have hlast := h.off (es.length - 1) (by omega)
  have hR : (c.io.flatten.Ri ((0 : Nat) : Int) (4 + 4 * es.length)).bind (fun bs => CList.takeI bs ((4 + 4 * es.length : Nat) : Int)) =
      some (c.io.flatten.bytes.data.take (4 + 4 * es.length)) := by
    unfold Base.Ri
    rw [if_neg (by omega), Option.bind_some, Int.toNat_natCast]
    have hle := (holds_flattened hlast).1
    rw [putLE_length] at hle
    have hRd : (c.io.flatten.R 0 (4 + 4 * es.length)).data = c.io.flatten.bytes.data := by
      rw [R_data, ← R_data c.io.flatten 0 0]; exact R_flatten c.io
    rw [takeI_eq (by unfold Slice.len; rw [hRd]; omega), hRd]
  rw [e1, ← Option.bind_assoc, Int.toNat_natCast]
  rw [show ((0 : Nat) : Int) = 0 from rfl] at hR
  rw [hR]
  simp only [Option.bind_some]
  refine ⟨_, w', rfl, rfl, r3, r4, r5, by simpa using r6, ?_⟩
  simp only [r7, hd, List.drop_zero]
  omega

end

end Fbs
