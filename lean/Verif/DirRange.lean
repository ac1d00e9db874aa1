import Verif.ListRange
/-!
# Sub-lists of lists of scalars and structs

`New(OptRange)` puts the elements over a window of zeros of four bytes per element.
-/

namespace Fbs
open CNode

theorem U_zeros (b : Base) (off size : Nat) : b.U off size = b.updateU off size (zeros size) := by
  have : copyAt (zeros size) 0 (zeros size) = zeros size := by
    have := copyAt_zeros (zeros size)
    simpa [zeros] using this
  unfold Base.U Base.updateU
  rw [this]; rfl

/-- The last segment covering a place in a piece that was copied is that piece. -/
theorem lastOf_apps {ds pd : List Diff} {x0 : Nat} {ps : List Bytes} (hds : pd.map diffCell = cellsAt x0 ps)
    (hne : ∀ w ∈ ps, w ≠ []) {c : Nat × Bytes} (hc : c ∈ cellsAt x0 ps) {i : Nat} (hi : i < c.2.length) :
    ∃ d, lastOf (fun d => d.covers (c.1 + i)) (ds ++ pd) = some d ∧ diffCell d = c := by
  have hm : c ∈ pd.map diffCell := by rw [hds]; exact hc
  obtain ⟨d, h1, h2⟩ := List.mem_map.mp hm
  have hcov : d.covers (c.1 + i) = true := by
    rw [covers_iff]
    rw [← h2] at hi ⊢
    simp only [diffCell, Slice.len] at *
    omega
  rw [lastOf_append]
  cases hl : lastOf (fun d => d.covers (c.1 + i)) pd with
  | none =>
    have := lastOf_none.mp hl d h1
    rw [hcov] at this; cases this
  | some d' =>
    refine ⟨d', rfl, ?_⟩
    obtain ⟨h3, h4⟩ := lastOf_some hl
    have hm' : diffCell d' ∈ cellsAt x0 ps := by rw [← hds]; exact List.mem_map_of_mem h3
    rw [covers_iff] at h4
    have hne' := cellsAt_ne hne hm'
    have hnec := cellsAt_ne hne hc
    rcases Nat.lt_or_ge c.1 (diffCell d').1 with hlt | hge
    · exact (cellsAt_unique hc hm' (by omega) (by simp only [diffCell, Slice.len] at *; omega) hne').symm
    · exact cellsAt_unique hm' hc hge (by
        simp only [diffCell, Slice.len] at *
        by_contra hcon
        have hl2 : 0 < c.2.length := by omega
        omega) hnec

/-- A list in the form `New(OptRange)` leaves it: the count in the first bytes, behind it a window of zeros
with the pieces `ps` on top. -/
structure SubL (t : Name) (c : CNode) (n : Nat) (ps : List Bytes) : Prop where
  name  : c.name = '[' :: ']' :: t
  vpos  : c.vi.pos = 4
  bytes : c.io.bytes = ⟨putLE 4 n, []⟩
  lo    : ∀ d ∈ c.io.diffs, 4 ≤ d.off
  piece : ∀ cc ∈ cellsAt 4 ps, ∀ i, i < cc.2.length → ∀ req, (c.io.R (cc.1 + i) req).data = cc.2.drop i
  cont  : ∀ cc ∈ cellsAt 4 ps, ∀ i, i < cc.2.length → c.io.content (cc.1 + i) = cc.2[i]?

theorem listLen_low {c : CNode} {n : Nat} (hn : n < 4294967296) (hv : c.vi.pos = 4) (hb : c.io.bytes = ⟨putLE 4 n, []⟩)
    (hlo : ∀ d ∈ c.io.diffs, 4 ≤ d.off) : c.listLen = some n := by
  have hh : Holds c.io 0 (putLE 4 n) := by
    refine ⟨putLE4_ne _, ?_, ?_⟩
    · rw [noCut_iff, putLE_length]
      rintro e (he | ⟨d, hd, he⟩)
      · rw [hb] at he; simp only [Slice.len, putLE_length] at he; omega
      · have := hlo d hd; omega
    · intro j hj
      rw [putLE_length] at hj
      rw [content_eq]
      have : lastOf (fun d : Diff => d.covers j) c.io.diffs = none := by
        rw [lastOf_none]
        intro d hd
        have := hlo d hd
        rw [Bool.eq_false_iff, ne_eq, covers_iff]; omega
      simp only [Nat.zero_add, this, hb]
  unfold CNode.listLen CNode.u32
  rw [hv]
  have := holds_getN hh
  rw [Nat.mod_eq_of_lt (by omega)] at this
  exact this

theorem SubL.listLen {t : Name} {c : CNode} {n : Nat} {ps : List Bytes} (h : SubL t c n ps) (hn : n < 4294967296) :
    c.listLen = some n := listLen_low hn h.vpos h.bytes h.lo

variable {s : Sch} {t : Name} {sz : Nat}

theorem isDirect_dir (hd : DirElt s t sz) {c : CNode} (hn : c.name = '[' :: ']' :: t) : c.isDirect s = some true := by
  obtain ⟨g, hg, hb⟩ := hd.grp
  unfold CNode.isDirect
  have : c.name.drop 2 = t := by rw [hn]; rfl
  rw [this, hg]
  simp only [Option.bind_eq_bind, Option.bind_some, pure, hb]

theorem atWithBegin_direct (hd : DirElt s t sz) {c : CNode} {n p : Nat} (hn : c.name = '[' :: ']' :: t) (hl : c.listLen = some n)
    (hp : c.vi.pos = (p : Int)) {i : Nat} (hi : i < n) :
    c.atWithBegin s i = some (.ok ({ name := t, io := c.io, pos := p + i * sz }, ((p + i * sz : Nat) : Int))) := by
  have h1 := at_direct hd hn hl (by omega) (i : Int)
  rw [if_neg (by omega)] at h1
  have e : (c.vi.pos + (i : Int) * (sz : Int)).toNat = p + i * sz := by
    rw [hp, ← Int.natCast_mul, ← Int.natCast_add]; rfl
  rw [e] at h1
  unfold CNode.atWithBegin
  rw [h1]
  simp only [Option.bind_eq_bind, Option.bind_some]
  rw [isDirect_dir hd hn]
  simp only [Option.bind_some, if_true, pure]

theorem dataRange_direct (hd : DirElt s t sz) {c : CNode} {n p : Nat} (hn : c.name = '[' :: ']' :: t) (hl : c.listLen = some n)
    (hp : c.vi.pos = (p : Int)) (k x m : Nat) :
    ∀ i, i + m ≤ n → x ≤ p + i * sz →
      c.dataRange s (k + 1) i m ((x : Int), ((p + i * sz : Nat) : Int)) = some ((x : Int), ((p + (i + m) * sz : Nat) : Int)) := by
  induction m with
  | zero => intro i _ _; rfl
  | succ m ih =>
    intro i hi hx
    have e0 : (i + 1) * sz = i * sz + sz := by rw [Nat.add_mul, Nat.one_mul]
    unfold CNode.dataRange
    rw [atWithBegin_direct hd hn hl hp (show i < n by omega)]
    simp only [Option.bind_eq_bind, Option.bind_some]
    rw [infoF_direct hd k rfl]
    simp only [Option.bind_some]
    have e1 : min (x : Int) ((p + i * sz : Nat) : Int) = x := by omega
    have e2 : max ((p + i * sz : Nat) : Int) (((p + i * sz : Nat) : Int) + (sz : Int)) = ((p + (i + 1) * sz : Nat) : Int) := by omega
    rw [e1, e2, ih (i + 1) (by omega) (by omega)]
    have e3 : i + 1 + m = i + (m + 1) := by omega
    rw [e3]

/-- `New(OptRange)` on a list of scalars or structs, given the pieces its elements are read in. -/
theorem newRange_direct (hd : DirElt s t sz) {c : CNode} {n p : Nat} (hn : c.name = '[' :: ']' :: t) (hl : c.listLen = some n)
    (hnn : n < 4294967296) (hp : c.vi.pos = (p : Int)) (k a cnt : Nat) (hc : 0 < cnt) (hac : a + cnt ≤ n)
    (hoff : ∀ i, i < cnt → ∃ v, c.u32 ((p + 4 * (a + i) : Nat) : Int) = some v)
    {ps : List Bytes} (hR : Reads c.io.dup (p + a * sz) ps) (ht : tot ps = cnt * sz) :
    ∃ c', c.newRange s (k + 2) a ((a : Int) + cnt - 1) = some (some c') ∧ SubL t c' cnt ps := by
  unfold CNode.newRange
  rw [if_neg (by omega), hl]
  simp only [Option.bind_eq_bind, Option.bind_some]
  rw [if_neg (by omega)]
  have ecnt : ((a : Int) + cnt - 1 - a + 1).toNat = cnt := by omega
  rw [Int.toNat_natCast, ecnt]
  obtain ⟨offs, ho⟩ := mapM_some (fun (i : Nat) => c.u32 (c.vi.pos + ((a + i : Nat) : Int) * 4)) (List.range cnt) (fun i hi => by
    obtain ⟨v, hv⟩ := hoff i (List.mem_range.mp hi)
    have e1 : c.vi.pos + ((a + i : Nat) : Int) * 4 = ((p + 4 * (a + i) : Nat) : Int) := by rw [hp]; omega
    simp only [e1, hv]; rfl)
  rw [ho]
  simp only [Option.bind_some]
  rw [atWithBegin_direct hd hn hl hp (show a < n by omega)]
  simp only [Option.bind_some]
  rw [infoF_direct hd (k + 1) rfl]
  simp only [Option.bind_some]
  have e0 : (a + 1) * sz = a * sz + sz := by rw [Nat.add_mul, Nat.one_mul]
  have e2 : max (-1 : Int) (((p + a * sz : Nat) : Int) + (sz : Int)) = ((p + (a + 1) * sz : Nat) : Int) := by omega
  rw [e2, dataRange_direct hd hn hl hp (k + 1) (p + a * sz) (cnt - 1) (a + 1) (by omega) (by omega)]
  have e3 : a + 1 + (cnt - 1) = a + cnt := by omega
  rw [e3]
  simp only [Option.bind_some]
  rw [if_neg (by omega)]
  have e4 : ((p + (a + cnt) * sz : Nat) : Int) - ((p + a * sz : Nat) : Int) = ((tot ps : Nat) : Int) := by
    rw [ht, Nat.add_mul]; omega
  rw [e4, U_zeros, init_updateU _ _ (4 * cnt) (by simp [zeros])]
  have e5 : (4 : Int) = ((4 : Nat) : Int) := rfl
  rw [e5, copyI_zero]
  obtain ⟨pd, hcp, hpd⟩ := copy_reads (b := ({ bytes := ⟨zeros 4, []⟩, diffs := [⟨4, ⟨zeros (4 * cnt), []⟩⟩] } : Base)) (dst := 4) hR (by simp [Slice.len, zeros])
  rw [hcp]
  simp only [Option.bind_some]
  have hne := reads_ne hR
  generalize hc1 : (({ initList c.name with io := { ({ bytes := ⟨zeros 4, []⟩, diffs := [⟨4, ⟨zeros (4 * cnt), []⟩⟩] } : Base).apps pd with bytes := ⟨putLE 4 cnt, []⟩ } } : CNode)) = c1
  have hlo : ∀ d ∈ c1.io.diffs, 4 ≤ d.off := by
    rw [← hc1]
    intro d hd'
    rcases List.mem_append.mp hd' with hd' | hd'
    · rw [List.mem_singleton.mp hd']; exact Nat.le_refl _
    · have hm : diffCell d ∈ cellsAt 4 ps := by rw [← hpd]; exact List.mem_map_of_mem hd'
      exact (cellsAt_mem hm).1
  have hby : c1.io.bytes = ⟨putLE 4 cnt, []⟩ := by rw [← hc1]
  have hv1 : c1.vi.pos = 4 := by rw [← hc1]; rfl
  have hnm : c1.name = '[' :: ']' :: t := by rw [← hc1]; exact hn
  have hll : c1.listLen = some cnt := listLen_low (by omega) hv1 hby hlo
  obtain ⟨v, h1, h2, h3⟩ := LI.refresh hd hnm hll (by omega) k
  rw [h1]
  refine ⟨_, rfl, hnm, by simp only; omega, hby, hlo, ?_, ?_⟩
  · intro cc hcc i hi req
    rw [R_data]
    obtain ⟨d, h4, h5⟩ := lastOf_apps (ds := [⟨4, ⟨zeros (4 * cnt), []⟩⟩]) hpd hne hcc hi
    have h6 : lastOf (fun d => d.covers (cc.1 + i)) c1.io.diffs = some d := by rw [← hc1]; exact h4
    simp only
    rw [writerR_cover h6]
    have e6 : d.off = cc.1 := congrArg Prod.fst h5
    have e7 : d.sl.data = cc.2 := congrArg Prod.snd h5
    simp only [e6, e7]
    rw [Nat.add_sub_cancel_left]
  · intro cc hcc i hi
    obtain ⟨d, h4, h5⟩ := lastOf_apps (ds := [⟨4, ⟨zeros (4 * cnt), []⟩⟩]) hpd hne hcc hi
    have h6 : lastOf (fun d => d.covers (cc.1 + i)) c1.io.diffs = some d := by rw [← hc1]; exact h4
    simp only
    rw [content_eq, h6]
    have e6 : d.off = cc.1 := congrArg Prod.fst h5
    have e7 : d.sl.data = cc.2 := congrArg Prod.snd h5
    simp only [e6, e7]
    rw [Nat.add_sub_cancel_left]

/-! ## sources -/

/-- Pieces of one element each. -/
theorem reads_elts {src : Base} {x : Nat} {es : List Bytes}
    (h : ∀ i e, es[i]? = some e → e.length = sz ∧ e ≠ [] ∧ (src.R (x + i * sz) 0).data = e) : Reads src x es := by
  induction es generalizing x with
  | nil => trivial
  | cons w es ih =>
    obtain ⟨h1, h2, h3⟩ := h 0 w rfl
    rw [Nat.zero_mul, Nat.add_zero] at h3
    refine ⟨h2, by rw [h3, List.take_of_length_le (by rw [tot_cons]; omega)], ?_⟩
    rw [h1]
    apply ih
    intro i e hi
    obtain ⟨h4, h5, h6⟩ := h (i + 1) e hi
    refine ⟨h4, h5, ?_⟩
    rw [show x + sz + i * sz = x + (i + 1) * sz by rw [Nat.add_mul, Nat.one_mul]; omega]
    exact h6

theorem dup_R_data (b : Base) (x : Nat) : ∀ d, lastOf (fun d => d.covers x) b.diffs = some d →
    (b.dup.R x 0).data = d.sl.data.drop (x - d.off) := by
  intro d hd
  have : lastOf (fun d => d.covers x) b.dup.diffs = some (dupD d) := by
    have : b.dup.diffs = b.diffs.map dupD := rfl
    rw [this]
    have hm : ∀ l : List Diff, lastOf (fun d => d.covers x) (l.map dupD) = (lastOf (fun d => d.covers x) l).map dupD := by
      intro l
      induction l with
      | nil => rfl
      | cons a l ih =>
        rw [List.map_cons, lastOf_cons, lastOf_cons, ih]
        have hc : (dupD a).covers x = a.covers x := rfl
        rw [hc]
        cases lastOf (fun d => d.covers x) l <;> cases a.covers x <;> rfl
    rw [hm, hd]; rfl
  rw [R_data, writerR_cover this]
  rfl

/-- Reading an element of a list in a buffer of its own returns that element and nothing else. -/
theorem LI.readElt {c : CNode} {es : List Bytes} (h : LI t sz c es) (hsz : 0 < sz) {i : Nat} {e : Bytes} (hi : es[i]? = some e) :
    (c.io.dup.R (4 + i * sz) 0).data = e := by
  have hw := h.wid e (List.mem_of_getElem? hi)
  have hH := h.elt i e hi
  have h4 := h.tile.1
  have hcont := hH.2.2 0 (by omega)
  rw [content_eq] at hcont
  simp only [Nat.add_zero] at hcont
  cases hl : lastOf (fun d => d.covers (4 + i * sz)) c.io.diffs with
  | none =>
    rw [hl] at hcont
    simp only at hcont
    rw [List.getElem?_eq_none (by unfold Slice.len at h4; omega), List.getElem?_eq_getElem (by omega)] at hcont
    cases hcont
  | some d =>
    rw [dup_R_data _ _ d hl]
    obtain ⟨hm, hcov⟩ := lastOf_some hl
    rw [covers_iff] at hcov
    rcases h.tile.2 d hm with h5 | ⟨j, h5, h6⟩
    · omega
    · have hij : j = i := by
        rw [h5, h6] at hcov
        have h7 : j * sz < (i + 1) * sz := by rw [Nat.add_mul, Nat.one_mul]; omega
        have h8 : i * sz < (j + 1) * sz := by rw [Nat.add_mul, Nat.one_mul]; omega
        have := Nat.lt_of_mul_lt_mul_right h7
        have := Nat.lt_of_mul_lt_mul_right h8
        omega
      subst hij
      rw [h5, Nat.sub_self, List.drop_zero]
      have hr := (holds_read hH 0).2
      rw [R_data, writerR_cover hl, h5, Nat.sub_self] at hr
      simp only [List.drop_zero] at hr
      rw [List.take_of_length_le (by unfold Slice.len at h6; omega)] at hr
      exact hr

theorem LI.reads {c : CNode} {es : List Bytes} (h : LI t sz c es) (hsz : 0 < sz) (a cnt : Nat) :
    Reads c.io.dup (4 + a * sz) ((es.drop a).take cnt) := by
  apply reads_elts (sz := sz)
  intro i e hi
  have hi' : es[a + i]? = some e := by
    by_cases hlt : i < cnt
    · rw [List.getElem?_take_of_lt hlt, List.getElem?_drop] at hi; exact hi
    · rw [List.getElem?_take_eq_none (by omega)] at hi; cases hi
  have hw := h.wid e (List.mem_of_getElem? hi')
  refine ⟨hw, ?_, ?_⟩
  · intro h0; rw [h0] at hw; simp at hw; omega
  · have := h.readElt hsz hi'
    rw [show 4 + a * sz + i * sz = 4 + (a + i) * sz by rw [Nat.add_mul]; omega]
    exact this

theorem tot_uniform {es : List Bytes} (h : ∀ e ∈ es, e.length = sz) : tot es = es.length * sz := by
  induction es with
  | nil => simp [tot]
  | cons w es ih =>
    rw [tot_cons, ih (fun e he => h e (List.mem_cons_of_mem _ he)), h w (List.mem_cons_self ..), List.length_cons, Nat.add_mul, Nat.one_mul]
    omega

/-- A cell of uniform pieces. -/
theorem cellsAt_uniform {x : Nat} {es : List Bytes} (h : ∀ e ∈ es, e.length = sz) {i : Nat} {e : Bytes} (hi : es[i]? = some e) :
    (x + i * sz, e) ∈ cellsAt x es := by
  induction es generalizing x i with
  | nil => cases hi
  | cons w es ih =>
    cases i with
    | zero => cases hi; simp [cellsAt]
    | succ i =>
      have := ih (x := x + w.length) (fun e he => h e (List.mem_cons_of_mem _ he)) hi
      rw [h w (List.mem_cons_self ..)] at this
      rw [cellsAt, h w (List.mem_cons_self ..), show x + (i + 1) * sz = x + sz + i * sz by rw [Nat.add_mul, Nat.one_mul]; omega]
      exact List.mem_cons_of_mem _ this

end Fbs
