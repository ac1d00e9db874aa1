import Verif.ListTable
/-!
# Adding one list of tables to another
-/

namespace Fbs
open CNode

/-! ## copies of a buffer -/

/-- The copy of a segment made by `Dup`. -/
def dupD (d : Diff) : Diff := ⟨d.off, ⟨d.sl.data, zeros d.sl.spare.length⟩⟩

theorem dup_edge {b : Base} {e : Nat} (h : b.dup.Edge e) : b.Edge e := by
  rcases h with h | ⟨d, hd, he⟩
  · exact Or.inl h
  · obtain ⟨d0, h0, rfl⟩ := List.mem_map.mp hd
    exact Or.inr ⟨d0, h0, he⟩

theorem dup_content (b : Base) : b.dup.content = b.content := by
  unfold Base.content contentOf Base.dup
  simp only [List.foldl_map]

theorem holds_dup {b : Base} {x : Nat} {w : Bytes} (h : Holds b x w) : Holds b.dup x w := by
  obtain ⟨h1, h2, h3⟩ := h
  refine ⟨h1, ?_, by rw [dup_content]; exact h3⟩
  rw [noCut_iff] at h2 ⊢
  exact fun e he => h2 e (dup_edge he)

theorem clean_dup {b : Base} {x : Nat} (h : Clean b x) : Clean b.dup x := by
  intro d hd
  obtain ⟨d0, h0, rfl⟩ := List.mem_map.mp hd
  exact h d0 h0

theorem below_dup {b : Base} {x : Nat} (h : Below b x) : Below b.dup x := by
  intro d hd
  obtain ⟨d0, h0, rfl⟩ := List.mem_map.mp hd
  exact h d0 h0

theorem exact_dup {b : Base} {c : Nat × Bytes} (h : Exact1 b c) : Exact1 b.dup c := by
  obtain ⟨⟨d, hd, he⟩, hu⟩ := h
  refine ⟨⟨dupD d, List.mem_map.mpr ⟨d, hd, rfl⟩, he⟩, ?_⟩
  intro d' hd' hc
  obtain ⟨d0, h0, rfl⟩ := List.mem_map.mp hd'
  exact hu d0 h0 hc

theorem mapM_length {α β : Type} {f : α → Option β} {l : List α} {r : List β} (h : l.mapM f = some r) :
    r.length = l.length := by
  induction l generalizing r with
  | nil => cases h; rfl
  | cons a l ih =>
    rw [List.mapM_cons] at h
    cases ha : f a with
    | none => rw [ha] at h; cases h
    | some b =>
      cases hl : l.mapM f with
      | none => rw [ha, hl] at h; cases h
      | some bs => rw [ha, hl] at h; cases h; simp [ih hl]

theorem mapM_eq {α β : Type} {f : α → Option β} {g : α → β} {l : List α} (h : ∀ a ∈ l, f a = some (g a)) :
    l.mapM f = some (l.map g) := by
  induction l with
  | nil => rfl
  | cons a l ih =>
    rw [List.mapM_cons, h a (List.mem_cons_self ..), ih (fun x hx => h x (List.mem_cons_of_mem _ hx))]
    rfl

variable {s : Sch} {k0 : Nat} {t : Name} {vs : Nat} {c : CNode} {es : List El}

/-- The representation only depends on the buffer and on the cached values. -/
theorem TLI.dup (h : TLI s k0 t vs c es) : TLI s k0 t vs { c with io := c.io.dup } es :=
  ⟨h.name, h.cpos, h.vpos, h.vlen, h.vsize, h.small, holds_dup h.hdr, fun i hi => holds_dup (h.off i hi),
    fun i e hi x hx => holds_dup (h.elt i e hi x hx), h.self, h.len, clean_dup h.clean0, clean_dup h.clean1,
    below_dup h.below, fun i e hi x hx => exact_dup (h.exact i e hi x hx)⟩

theorem TLI.refresh (h : TLI s k0 t vs c es) (ht : TabElt s t) (k : Nat) (hk : k0 ≤ k) :
    ∃ c', c.refresh s (k + 1) = some c' ∧ c'.io = c.io ∧ TLI s k0 t vs c' es := by
  unfold CNode.refresh
  rw [h.view.infoSlice ht k hk]
  refine ⟨_, rfl, rfl, h.name, h.cpos, rfl, rfl, fun hne => ?_, h.small, h.hdr, h.off, h.elt, h.self, h.len,
    h.clean0, h.clean1, h.below, h.exact⟩
  simp only [if_neg hne]

theorem TLI.dupList (h : TLI s k0 t vs c es) (ht : TabElt s t) (k : Nat) (hk : k0 ≤ k) :
    ∃ c', c.dupList s (k + 1) = some c' ∧ c'.io = c.io.dup ∧ TLI s k0 t vs c' es := by
  obtain ⟨c', h1, h2, h3⟩ := h.dup.refresh ht k hk
  exact ⟨c', h1, h2, h3⟩

/-! ## the elements as nodes -/

theorem TView.allFrom (h : TView s k0 t vs c es) (ht : TabElt s t) (m i : Nat) (hm : i + m ≤ es.length) :
    ∃ ns : List CNode, c.allFrom s i m = some ns ∧ ns.length = m ∧
      ∀ j, j < m → ∃ tl, ns[j]? = some { name := t, io := c.io, pos := elX es (i + j) + vs, tlen := tl } := by
  induction m generalizing i with
  | zero => exact ⟨[], rfl, rfl, fun j hj => by omega⟩
  | succ m ih =>
    obtain ⟨ns, h1, h2, h3⟩ := ih (i + 1) (by omega)
    obtain ⟨tl, h4⟩ := h.at_eq ht (List.getElem?_eq_getElem (show i < es.length by omega))
    refine ⟨{ name := t, io := c.io, pos := elX es i + vs, tlen := tl } :: ns, ?_, by simp [h2], ?_⟩
    · unfold CNode.allFrom
      rw [h4, h1]
      rfl
    · intro j hj
      cases j with
      | zero => exact ⟨tl, rfl⟩
      | succ j =>
        obtain ⟨tl', h5⟩ := h3 j (by omega)
        refine ⟨tl', ?_⟩
        rw [List.getElem?_cons_succ, h5]
        have : i + 1 + j = i + (j + 1) := by omega
        rw [this]

theorem maxPos_false (l : List VInfo) (i : Nat) (p idx : Int) (h : ∀ v ∈ l, ¬ v.pos < p) :
    maxPosScan false l (i + 1) p idx = idx := by
  induction l generalizing i with
  | nil => rfl
  | cons v l ih =>
    unfold maxPosScan
    have := h v (List.mem_cons_self ..)
    simp only [Bool.false_eq_true, if_false, Nat.add_one_ne_zero]
    rw [if_neg (by simpa using this)]
    exact ih (i + 1) (fun w hw => h w (List.mem_cons_of_mem _ hw))

theorem maxPos_true (l : List VInfo) (i : Nat) (p idx : Int) (h1 : 0 ≤ idx) (h2 : idx ≤ i) :
    0 ≤ maxPosScan true l (i + 1) p idx ∧ maxPosScan true l (i + 1) p idx ≤ i + l.length := by
  induction l generalizing i p idx with
  | nil => exact ⟨h1, by simpa [maxPosScan] using h2⟩
  | cons v l ih =>
    unfold maxPosScan
    simp only [if_true, Nat.add_one_ne_zero, if_false, List.length_cons]
    split
    · have := ih (i + 1) (v.pos + v.size) ((i + 1 : Nat) : Int) (by omega) (by omega)
      push_cast at this ⊢
      omega
    · have := ih (i + 1) p idx h1 (by omega)
      push_cast at this ⊢
      omega

theorem elX_mono {i j : Nat} (h : i ≤ j) : elX es i ≤ elX es j := by
  unfold elX
  have h1 : es.take i = (es.take j).take i := by rw [List.take_take, Nat.min_eq_left h]
  rw [h1]
  have := sumTot_take_le (es.take j) i
  omega

/-- The first element has the smallest position. -/
theorem TLI.firstIdx (h : TLI s k0 t vs c es) (ht : TabElt s t) (hne : es ≠ []) (k : Nat) :
    c.indexOnMaxPos s k false = some 0 := by
  obtain ⟨ns, h1, h2, h3⟩ := h.view.allFrom ht es.length 0 (by omega)
  have hall : c.all s = some ns := by unfold CNode.all; rw [h.listLen, h.vlen]; exact h1
  have hpos : 0 < es.length := List.length_pos_iff.mpr hne
  unfold CNode.indexOnMaxPos
  rw [hall]
  simp only [Option.bind_eq_bind, Option.bind_some, Bool.false_eq_true, if_false, pure, Option.some.injEq]
  obtain ⟨tl, h4⟩ := h3 0 hpos
  cases ns with
  | nil => simp at h4
  | cons n ns =>
    simp only [List.getElem?_cons_zero, Option.some.injEq] at h4
    rw [List.map_cons]
    unfold maxPosScan
    simp only [if_true]
    refine maxPos_false _ 0 _ _ ?_
    intro v hv
    obtain ⟨n', hn', rfl⟩ := List.mem_map.mp hv
    obtain ⟨j, hj⟩ := List.getElem?_of_mem hn'
    have hjl := (List.getElem?_eq_some_iff.mp hj).1
    obtain ⟨tl', h5⟩ := h3 (j + 1) (by rw [← h2]; simp; omega)
    rw [List.getElem?_cons_succ, hj] at h5
    injection h5 with h5
    subst h5 h4
    have := elX_mono (es := es) (i := 0 + 0) (j := 0 + (j + 1)) (by omega)
    simp only [Bool.false_eq_true, if_false]
    omega

/-- The index of the element that ends last is an index of the list. -/
theorem TLI.lastIdx (h : TLI s k0 t vs c es) (ht : TabElt s t) (hne : es ≠ []) (k : Nat) (hk : k0 ≤ k) :
    ∃ j : Nat, c.indexOnMaxPos s k true = some (j : Int) ∧ j < es.length := by
  obtain ⟨ns, h1, h2, h3⟩ := h.view.allFrom ht es.length 0 (by omega)
  have hall : c.all s = some ns := by unfold CNode.all; rw [h.listLen, h.vlen]; exact h1
  have hpos : 0 < es.length := List.length_pos_iff.mpr hne
  obtain ⟨is, h4⟩ := mapM_some (fun e => infoF s k (some e)) ns (fun e he => by
    obtain ⟨j, hj⟩ := List.getElem?_of_mem he
    have hjl : j < es.length := by rw [← h2]; exact (List.getElem?_eq_some_iff.mp hj).1
    obtain ⟨tl, h5⟩ := h3 j hjl
    rw [hj] at h5
    injection h5 with h5
    have hg := List.getElem?_eq_getElem (show 0 + j < es.length by omega)
    simp only [(h.self _ (List.mem_of_getElem? hg)).info _ _ (h.elt _ _ hg) k hk e (by rw [h5]) (by rw [h5]) (by rw [h5])]
    rfl)
  have h5 : is.length = ns.length := mapM_length h4
  unfold CNode.indexOnMaxPos
  rw [hall]
  simp only [Option.bind_eq_bind, Option.bind_some, if_true, h4, pure, Option.some.injEq]
  cases is with
  | nil => simp at h5; omega
  | cons v is =>
    unfold maxPosScan
    simp only [if_true]
    have := maxPos_true is 0 (v.pos + v.size) 0 (by omega) (by omega)
    simp only [Int.natCast_zero] at this ⊢
    refine ⟨(maxPosScan true is (0 + 1) (v.pos + v.size) 0).toNat, by omega, ?_⟩
    simp only [List.length_cons] at h5
    omega

/-! ## moving all offsets of a list -/

/-- `n` numbers of four bytes. -/
def packed (G : Nat → Nat) (n : Nat) : Bytes := ((List.range n).map fun i => putLE 4 (G i)).flatten

theorem packed_succ (G : Nat → Nat) (n : Nat) : packed G (n + 1) = packed G n ++ putLE 4 (G n) := by
  unfold packed
  rw [List.range_succ]
  simp

theorem packed_length (G : Nat → Nat) (n : Nat) : (packed G n).length = 4 * n := by
  induction n with
  | zero => rfl
  | succ n ih => rw [packed_succ, List.length_append, ih, putLE_length]; omega

theorem packed_get (G : Nat → Nat) {n j k : Nat} (hj : j < n) (hk : k < 4) :
    (packed G n)[4 * j + k]? = (putLE 4 (G j))[k]? := by
  induction n with
  | zero => omega
  | succ n ih =>
    rw [packed_succ]
    by_cases h : j < n
    · rw [List.getElem?_append_left (by rw [packed_length]; omega)]
      exact ih h
    · have : j = n := by omega
      subst this
      rw [List.getElem?_append_right (by rw [packed_length]; omega), packed_length]
      congr 1; omega

theorem packed_sub (G : Nat → Nat) {n j : Nat} (hj : j < n) : ((packed G n).drop (4 * j)).take 4 = putLE 4 (G j) := by
  apply List.ext_getElem?
  intro k
  by_cases hk : k < 4
  · rw [List.getElem?_take_of_lt hk, List.getElem?_drop, packed_get G hj hk]
  · rw [List.getElem?_eq_none (by rw [List.length_take]; omega), List.getElem?_eq_none (by rw [putLE_length]; omega)]

/-- A part of an update window that was a cell before. -/
theorem holds_updateU_part {b : Base} {off : Nat} {w v u : Bytes} {i : Nat} (h : Holds b (off + i) v) (hu : u.length = v.length)
    (hi : i + v.length ≤ w.length) (hw : (w.drop i).take v.length = u) : Holds (b.updateU off w.length w) (off + i) u := by
  obtain ⟨h1, h2, -⟩ := h
  have hl : 0 < v.length := List.length_pos_iff.mpr h1
  refine ⟨by intro h0; rw [h0] at hu; simp at hu; omega, ?_, ?_⟩
  · rw [noCut_iff] at h2 ⊢
    intro e he
    rw [hu]
    rcases edge_updateU rfl he with h | h | h
    · exact h2 e h
    · omega
    · omega
  · intro k hk
    rw [updateU_content b off w.length w rfl, put_apply, if_pos (by omega), ← hw, List.getElem?_take_of_lt (by omega),
      List.getElem?_drop]
    congr 1; omega

/-- The update window itself is read in one piece. -/
theorem reads_updateU {b : Base} {off : Nat} {w : Bytes} (hne : w ≠ []) : Reads (b.updateU off w.length w) off [w] := by
  have hl : 0 < w.length := List.length_pos_iff.mpr hne
  refine ⟨hne, ?_, trivial⟩
  have hcov : (⟨off, ⟨w, []⟩⟩ : Diff).covers off = true := by rw [covers_iff]; simp only [Slice.len]; omega
  have hlast : lastOf (fun d => d.covers off) (b.updateU off w.length w).diffs = some ⟨off, ⟨w, []⟩⟩ := by
    rw [updateU_struct b off w.length w rfl]
    simp only
    rw [lastOf_append, lastOf_singleton, if_pos hcov]
    rfl
  rw [R_data, writerR_cover hlast]
  simp [tot]

theorem moveOffs_eq {n d : Nat} (F : Nat → Nat) (hp : c.vi.pos = 4) (hn : 0 < n) (hl : c.listLen = some n)
    (ho : ∀ j, j < n → Holds c.io (4 + 4 * j) (putLE 4 (F j)) ∧ F j + d < 4294967296) :
    ∃ b, c.moveOffs d = some { c with io := b } ∧ Within c.io b 4 (4 + 4 * n) ∧
      Reads b 4 [packed (fun j => F j + d) n] ∧ (∀ x m, c.io.NoCut x m → 4 + 4 * n ≤ x → b.NoCut x m) ∧
      ∀ j, j < n → Holds b (4 + 4 * j) (putLE 4 (F j + d)) := by
  have hpl := packed_length (fun j => F j + d) n
  refine ⟨c.io.updateU 4 (n * 4) (packed (fun j => F j + d) n), ?_, ?_, ?_, ?_, ?_⟩
  · unfold CNode.moveOffs
    rw [hl]
    simp only [Option.bind_eq_bind, Option.bind_some]
    rw [mapM_eq (g := F)]
    · simp only [Option.bind_some]
      rw [if_neg (by omega), hp]
      congr 3
      unfold packed
      rw [List.map_map]
      congr 1
      apply List.map_congr_left
      intro j hj
      have := (ho j (List.mem_range.mp hj)).2
      simp only [Function.comp]
      have e : ((F j : Nat) : Int) + (d : Int) = ((F j + d : Nat) : Int) := by omega
      rw [e, u32_nat _ this]
    · intro j hj
      obtain ⟨h1, h2⟩ := ho j (List.mem_range.mp hj)
      have e : c.vi.pos + (j : Int) * 4 = ((4 + 4 * j : Nat) : Int) := by omega
      unfold CNode.u32
      rw [e, holds_getN h1, Nat.mod_eq_of_lt (by omega)]
  · have e : 4 + 4 * n = 4 + n * 4 := by omega
    rw [e]
    exact within_updateU (by omega) (by omega)
  · have e : n * 4 = (packed (fun j => F j + d) n).length := by omega
    rw [e]
    exact reads_updateU (by intro h0; rw [h0] at hpl; simp at hpl; omega)
  · intro x m hx hge
    exact noCut_updateU (by omega) hx (by omega)
  · intro j hj
    have e : n * 4 = (packed (fun j => F j + d) n).length := by omega
    rw [e]
    refine holds_updateU_part (ho j hj).1 (by rw [putLE_length, putLE_length]) (by rw [putLE_length]; omega) ?_
    rw [putLE_length, packed_sub _ hj]

/-! ## concatenation -/

theorem elX_left {fs : List El} {i : Nat} (hi : i ≤ es.length) : elX (es ++ fs) i = elX es i + 4 * fs.length := by
  unfold elX
  rw [List.take_append_of_le_length hi, List.length_append]
  omega

theorem elX_right {fs : List El} (j : Nat) :
    elX (es ++ fs) (es.length + j) = elX fs j + 4 * es.length + sumTot es := by
  unfold elX
  rw [List.take_append, List.take_of_length_le (by omega), sumTot_append, List.length_append]
  have : es.length + j - es.length = j := by omega
  rw [this]
  omega

theorem elEnd_cat (fs : List El) : elEnd (es ++ fs) = elEnd es + 4 * fs.length + sumTot fs := by
  unfold elEnd
  rw [sumTot_append, List.length_append]
  omega

/-- All pieces of a list in order. -/
def allPs (es : List El) : List Bytes := es.flatMap El.ps

theorem tot_allPs (es : List El) : tot (allPs es) = sumTot es := by
  induction es with
  | nil => rfl
  | cons e es ih =>
    have : allPs (e :: es) = e.ps ++ allPs es := rfl
    rw [this]
    simp only [sumTot, List.map_cons, List.sum_cons] at ih ⊢
    rw [← ih]
    simp [tot]

/-- The cells of the elements one after the other. -/
theorem cells_allPs (x : Nat) {cc : Nat × Bytes} : ∀ (es : List El), cc ∈ cellsAt x (allPs es) ↔
    ∃ i e, es[i]? = some e ∧ cc ∈ cellsAt (x + sumTot (es.take i)) e.ps := by
  intro es
  induction es generalizing x with
  | nil => simp [allPs, cellsAt]
  | cons e es ih =>
    have : allPs (e :: es) = e.ps ++ allPs es := rfl
    rw [this, cellsAt_append, List.mem_append, ih]
    constructor
    · rintro (h | ⟨i, e', h1, h2⟩)
      · exact ⟨0, e, rfl, by simpa [sumTot] using h⟩
      · refine ⟨i + 1, e', by simpa using h1, ?_⟩
        simpa [sumTot, Nat.add_assoc] using h2
    · rintro ⟨i, e', h1, h2⟩
      cases i with
      | zero =>
        simp only [List.getElem?_cons_zero, Option.some.injEq] at h1
        subst h1
        exact Or.inl (by simpa [sumTot] using h2)
      | succ i =>
        exact Or.inr ⟨i, e', by simpa using h1, by simpa [sumTot, Nat.add_assoc] using h2⟩

theorem TLI.pieces_ne (h : TLI s k0 t vs c es) : ∀ w ∈ allPs es, w ≠ [] := by
  intro w hw
  obtain ⟨e, he, hwe⟩ := List.mem_flatMap.mp hw
  obtain ⟨i, hi⟩ := List.getElem?_of_mem he
  have hel := h.elt i e hi
  have : ∀ (x : Nat) (ps : List Bytes), w ∈ ps → ∃ y, (y, w) ∈ cellsAt x ps := by
    intro x ps
    induction ps generalizing x with
    | nil => intro h0; cases h0
    | cons v ps ih =>
      intro h0
      rcases List.mem_cons.mp h0 with rfl | h0
      · exact ⟨x, List.mem_cons_self ..⟩
      · obtain ⟨y, hy⟩ := ih (x + v.length) h0
        exact ⟨y, List.mem_cons_of_mem _ hy⟩
  obtain ⟨y, hy⟩ := this (elX es i) e.ps hwe
  exact (hel _ hy).1

/-- Opening a gap of `D` bytes behind the offsets and correcting the offsets. -/
structure Opened (vs : Nat) (c : CNode) (es : List El) (D : Nat) (b : Base) : Prop where
  bytes  : b.bytes = c.io.bytes
  hdr    : Holds b 0 (putLE 4 es.length)
  off    : ∀ j, j < es.length → Holds b (4 + 4 * j) (putLE 4 (elX es j + vs - (4 + 4 * j) + D))
  head   : Reads b 4 [packed (fun j => elX es j + vs - (4 + 4 * j) + D) es.length]
  elt    : ∀ i e, es[i]? = some e → HoldsC b (cellsAt (elX es i + D) e.ps)
  exact  : ∀ i e, es[i]? = some e → ExactC b (cellsAt (elX es i + D) e.ps)
  gap    : b.NoCut (4 + 4 * es.length) D
  clean0 : Clean b (4 + 4 * es.length + D)
  clean1 : Clean b (elEnd es + D)
  below  : Below b (elEnd es + D)

theorem TLI.opened (h : TLI s k0 t vs c es) (hne : es ≠ []) {D : Nat} (hD : elEnd es + vs + D < 4294967296) :
    ∃ b1 b, (∀ F, c.insertSpace s F (4 + 4 * es.length) D false = some { c with io := b1 }) ∧
      ({ c with io := b1 } : CNode).inRoot = some false ∧
      ({ c with io := b1 } : CNode).moveOffs D = some { c with io := b } ∧ Opened vs c es D b := by
  have hpos : 0 < es.length := List.length_pos_iff.mpr hne
  have hlen := h.len
  have hE : elEnd es = 4 + 4 * es.length + sumTot es := rfl
  have hir : c.inRoot = some false := inRoot_false h.hdr (by rw [h.cpos]; omega)
  generalize hb1 : c.io.insertSpace (4 + 4 * es.length) D false = b1
  have hins : ∀ F, c.insertSpace s F (4 + 4 * es.length) D false = some { c with io := b1 } := by
    intro F
    rw [CNode.insertSpace_out hir, isList_of_name h.name, hb1, h.vpos]
    simp only [Option.bind_eq_bind, Option.bind_some, Bool.false_eq_true, if_false, if_true]
    rw [if_neg (by omega)]; rfl
  have hdf := insertSpace_diffs (b := c.io) (size := D) h.clean0 false
  have b1_bytes : b1.bytes = c.io.bytes := by
    rw [← hb1, hdf.1, if_neg (by omega)]
  have b1_lt : ∀ x w, Holds c.io x w → x + w.length ≤ 4 + 4 * es.length → Holds b1 x w := by
    intro x w hw hx; rw [← hb1]; exact holds_insertSpace_lt h.clean0 hw hx
  have b1_ge : ∀ x w, Holds c.io x w → 4 + 4 * es.length ≤ x → Holds b1 (x + D) w := by
    intro x w hw hx; rw [← hb1]; exact holds_insertSpace_ge h.clean0 hw hx
  have b1_ex : ∀ cc : Nat × Bytes, Exact1 c.io cc → 4 + 4 * es.length ≤ cc.1 → Exact1 b1 (cc.1 + D, cc.2) := by
    intro cc hc hx; rw [← hb1]; exact exact_insertSpace_ge h.clean0 (by omega) hc hx
  have b1_gap : b1.NoCut (4 + 4 * es.length) D := by rw [← hb1]; exact noCut_insertSpace h.clean0
  have b1_c0 : Clean b1 (4 + 4 * es.length + D) := by
    rw [← hb1]
    exact clean_insertSpace h.clean0 (Or.inr ⟨Nat.le_refl _, by rw [Nat.add_sub_cancel]; exact h.clean0, Or.inl (by omega)⟩)
  have b1_c1 : Clean b1 (elEnd es + D) := by
    rw [← hb1]
    exact clean_insertSpace h.clean0 (Or.inr ⟨by omega, by rw [Nat.add_sub_cancel]; exact h.clean1, Or.inl (by omega)⟩)
  have b1_bel : Below b1 (elEnd es + D) := by
    intro d hd
    rw [← hb1, hdf.2, if_neg (by omega)] at hd
    simp only [List.nil_append, Bool.false_eq_true, if_false, List.append_nil, List.mem_map] at hd
    obtain ⟨d0, h0, rfl⟩ := hd
    have := h.below d0 h0
    unfold shiftD
    split
    · simp only; omega
    · omega
  have b1_hdr : Holds b1 0 (putLE 4 es.length) := b1_lt _ _ h.hdr (by rw [putLE_length]; omega)
  have hfst : 0 < sumTot es := by
    obtain ⟨e, he⟩ := List.exists_mem_of_ne_nil es hne
    obtain ⟨i, hi⟩ := List.getElem?_of_mem he
    have h1 := sumTot_take_succ hi
    have h2 := sumTot_take_le es (i + 1)
    have h3 := (h.self e he).len
    have h4 := (h.self e he).mpos
    omega
  have hsm := h.small
  obtain ⟨b, hm1, hm2, hm3, hm5, hm4⟩ := moveOffs_eq (c := { c with io := b1 }) (n := es.length) (d := D)
    (fun j => elX es j + vs - (4 + 4 * j)) h.vpos hpos (listLen_of h.vpos (by omega) b1_hdr) (by
      intro j hj
      refine ⟨b1_lt _ _ (h.off j hj) (by rw [putLE_length]; omega), ?_⟩
      have := elX_end (List.getElem?_eq_getElem hj)
      omega)
  refine ⟨b1, b, hins, ?_, hm1, ?_⟩
  · exact inRoot_false b1_hdr (by simp only [h.cpos]; omega)
  · refine ⟨by rw [hm2.bytes, b1_bytes], ?_, hm4, hm3, ?_, ?_, ?_, ?_, ?_, ?_⟩
    · exact hm2.other _ _ b1_hdr (Or.inl (by rw [putLE_length]; omega))
    · intro i e hi
      rw [cellsAt_shift]
      intro cc hcc
      obtain ⟨c1, hc1, rfl⟩ := List.mem_map.mp hcc
      have hmem := cellsAt_mem hc1
      have hX2 : 4 + 4 * es.length ≤ elX es i := by unfold elX; omega
      exact hm2.other _ _ (b1_ge _ _ (h.elt i e hi c1 hc1) (by omega)) (Or.inr (by omega))
    · intro i e hi
      rw [cellsAt_shift]
      intro cc hcc
      obtain ⟨c1, hc1, rfl⟩ := List.mem_map.mp hcc
      have hmem := cellsAt_mem hc1
      have hX2 : 4 + 4 * es.length ≤ elX es i := by unfold elX; omega
      exact hm2.exact _ (b1_ex _ (h.exact i e hi c1 hc1) (by omega)) (h.elt i e hi c1 hc1).1 (Or.inr (by simp only; omega))
    · exact hm5 _ _ b1_gap (Nat.le_refl _)
    · exact hm2.clean _ b1_c0 (Or.inr (by omega))
    · exact hm2.clean _ b1_c1 (Or.inr (by omega))
    · exact hm2.below _ b1_bel (by omega)

/-- `addTableList` on two non-empty lists. -/
theorem TLI.addTables {a : CNode} {fs : List El} (h : TLI s k0 t vs c es) (ha : TLI s k0 t vs a fs) (ht : TabElt s t)
    (hne : es ≠ []) (hfe : fs ≠ []) (hsm : elEnd (es ++ fs) + vs < 4294967296) (k : Nat) (hk : k0 ≤ k) :
    ∃ c' a', c.addTableList s (k + 1) a = some (c', a', none) ∧ TLI s k0 t vs c' (es ++ fs) := by
  have hpos : 0 < es.length := List.length_pos_iff.mpr hne
  have hfpos : 0 < fs.length := List.length_pos_iff.mpr hfe
  have hcat := elEnd_cat (es := es) fs
  have hE : elEnd es = 4 + 4 * es.length + sumTot es := rfl
  have hF : elEnd fs = 4 + 4 * fs.length + sumTot fs := rfl
  unfold CNode.addTableList
  rw [ha.listLen, h.listLen]
  simp only [Option.bind_eq_bind, Option.bind_some]
  rw [if_neg (by omega), if_neg (by omega), h.vlenTotal ht k hk]
  simp only [Option.bind_some]
  -- the destination with fresh values
  have h1 : TLI s k0 t vs { c with vi := ⟨4, if es = [] then 0 else 4 * es.length + sumTot es, es.length⟩ } es :=
    ⟨h.name, h.cpos, rfl, rfl, fun hn => by simp only [if_neg hn], h.small, h.hdr, h.off, h.elt, h.self, h.len, h.clean0,
      h.clean1, h.below, h.exact⟩
  obtain ⟨c1, hc1, hio1, H⟩ := h1.refresh ht k hk
  simp only at hc1 hio1
  rw [hc1]
  simp only [Option.bind_some]
  rw [H.firstIdx ht hne]
  simp only [Option.bind_some]
  obtain ⟨tl0, hfirst⟩ := H.view.at_eq ht (List.getElem?_eq_getElem hpos)
  rw [Int.natCast_zero] at hfirst
  rw [hfirst]
  simp only [Option.bind_some]
  obtain ⟨jl, hjl, hjlt⟩ := H.lastIdx ht hne (k + 1) (by omega)
  rw [hjl]
  simp only [Option.bind_some]
  obtain ⟨tll, hlast⟩ := H.view.at_eq ht (List.getElem?_eq_getElem hjlt)
  rw [hlast]
  simp only [Option.bind_some]
  have hg0 := List.getElem?_eq_getElem hpos
  rw [(H.self _ (List.mem_of_getElem? hg0)).vtl _ _ (H.elt _ _ hg0) { name := t, io := c1.io, pos := elX es 0 + vs, tlen := tl0 } rfl rfl]
  simp only [Option.bind_some]
  rw [H.listLen]
  simp only [Option.bind_some]
  -- the source
  obtain ⟨a1, ha1, haio1, A1⟩ := ha.dupList ht k hk
  rw [ha1]
  simp only [Option.bind_some]
  obtain ⟨a2, ha2, haio2, A⟩ := A1.refresh ht k hk
  rw [ha2]
  simp only [Option.bind_some]
  obtain ⟨jm, hjm, hjmlt⟩ := A.lastIdx ht hfe (k + 1) (by omega)
  rw [hjm]
  simp only [Option.bind_some]
  have hgm := List.getElem?_eq_getElem hjmlt
  obtain ⟨tlm, halast⟩ := A.view.at_eq ht hgm
  rw [halast]
  simp only [Option.bind_some]
  rw [A.firstIdx ht hfe]
  simp only [Option.bind_some]
  have hgf := List.getElem?_eq_getElem hfpos
  obtain ⟨tlf, hafirst⟩ := A.view.at_eq ht hgf
  rw [Int.natCast_zero] at hafirst
  rw [hafirst]
  simp only [Option.bind_some]
  rw [(A.self _ (List.mem_of_getElem? hgm)).info _ _ (A.elt _ _ hgm) (k + 1) (by omega)
    { name := t, io := a2.io, pos := elX fs jm + vs, tlen := tlm } rfl rfl rfl]
  simp only [Option.bind_some]
  rw [A.listLen]
  simp only [Option.bind_some]
  rw [(A.self _ (List.mem_of_getElem? hgf)).vtl _ _ (A.elt _ _ hgf) { name := t, io := a2.io, pos := elX fs 0 + vs, tlen := tlf } rfl rfl]
  simp only [Option.bind_some, H.vpos, H.vsize hne, A.vpos, A.vsize hfe, A.vlen]
  have hx0 : elX es 0 = 4 + 4 * es.length := by simp [elX, sumTot]
  have hy0 : elX fs 0 = 4 + 4 * fs.length := by simp [elX, sumTot]
  have e1 : ((elX fs 0 + vs : Nat) : Int) - (vs : Int) = ((4 + 4 * fs.length : Nat) : Int) := by omega
  have e2 : (4 : Int) + (4 * (es.length : Int) + (sumTot es : Int)) - (((elX es 0 + vs : Nat) : Int) - (vs : Int)) = ((sumTot es : Nat) : Int) := by omega
  have e3 : (4 : Int) + 4 * (es.length : Int) = ((4 + 4 * es.length : Nat) : Int) := by omega
  have e4 : ((4 + 4 * fs.length : Nat) : Int) + (4 + (4 * (es.length : Int) + (sumTot es : Int))) - (((elX es 0 + vs : Nat) : Int) - (vs : Int)) =
    ((4 + 4 * fs.length + sumTot es : Nat) : Int) := by omega
  have e5 : (4 : Int) + (4 * (fs.length : Int) + (sumTot fs : Int)) - ((4 + 4 * fs.length : Nat) : Int) = ((tot (allPs fs) : Nat) : Int) := by
    rw [tot_allPs]; omega
  have e6 : (4 : Int) + (4 * (es.length : Int) + (sumTot es : Int)) + ((fs.length * 4 : Nat) : Int) = ((elEnd es + 4 * fs.length : Nat) : Int) := by omega
  simp only [e1, e2, e3, e4, e5, e6, Int.toNat_natCast]
  rw [if_neg (by omega)]
  obtain ⟨ab1, ab, hA1, hA2, hA3, OA⟩ := A.opened hfe (D := sumTot es) (by omega)
  rw [hA1]
  simp only [Option.bind_some, hA2, Bool.false_eq_true, if_false, hA3]
  obtain ⟨cb1, cb, hC1, hC2, hC3, OC⟩ := H.opened hne (D := fs.length * 4) (by omega)
  rw [hC1]
  simp only [Option.bind_some, hC2, Bool.false_eq_true, if_false, hC3]
  have hz : c1.vi.pos - 4 = ((0 : Nat) : Int) := by rw [H.vpos]; rfl
  rw [hz, putN_nat]
  simp only [Option.bind_some]
  have hW := within_updateU (b := cb) (off := 0) (putLE_length 4 (es.length + fs.length)) (by omega)
  generalize hb1 : cb.updateU 0 4 (putLE 4 (es.length + fs.length)) = b1
  rw [hb1] at hW
  have b1_hdr : Holds b1 0 (putLE 4 (es.length + fs.length)) := by rw [← hb1]; exact holds_put4 OC.hdr (putLE_length _ _) _
  have b1_bytes : b1.bytes = c1.io.bytes := by rw [hW.bytes, OC.bytes]
  have b1_gap : b1.NoCut (4 + 4 * es.length) (fs.length * 4) := by
    rw [← hb1]; exact noCut_updateU (putLE_length _ _) OC.gap (by omega)
  have hlen := H.len
  have hvp : a2.vi.pos = ((4 : Nat) : Int) := A.vpos
  -- the offsets
  have hpk := packed_length (fun j => elX fs j + vs - (4 + 4 * j) + sumTot es) fs.length
  have hpt : tot [packed (fun j => elX fs j + vs - (4 + 4 * j) + sumTot es) fs.length] = fs.length * 4 := by simp [tot, hpk]; omega
  rw [hvp, copyI_zero]
  simp only [Option.bind_some]
  obtain ⟨pd1, hcp1, hpd1⟩ := copy_reads (b := b1) (dst := 4 + 4 * es.length) OA.head (by rw [b1_bytes]; omega)
  rw [hpt] at hcp1
  rw [hcp1]
  have hne1 := reads_ne OA.head
  have b2_head := apps_same hpd1 hne1 (fun cc hcc => by
    simp only [cellsAt, List.mem_singleton] at hcc
    subst hcc
    simp only [hpk]
    have : 4 * fs.length = fs.length * 4 := by omega
    rw [this]; exact b1_gap)
  have b2_of : ∀ x w, Holds b1 x w → x + w.length ≤ 4 + 4 * es.length ∨ 4 + 4 * es.length + fs.length * 4 ≤ x → Holds (b1.apps pd1) x w :=
    fun x w hw hx => apps_other hpd1 hw (by rw [hpt]; exact hx)
  have hfst : 0 < sumTot es := by
    have h1 := sumTot_take_succ hg0
    have h2 := sumTot_take_le es (0 + 1)
    have h3 := (H.self _ (List.mem_of_getElem? hg0)).len
    have h4 := (H.self _ (List.mem_of_getElem? hg0)).mpos
    omega
  have b1_bel : Below b1 (elEnd es + fs.length * 4) := hW.below _ OC.below (by omega)
  have b1_c0 : Clean b1 (4 + 4 * es.length + fs.length * 4) := hW.clean _ OC.clean0 (Or.inr (by omega))
  have b1_c1 : Clean b1 (elEnd es + fs.length * 4) := hW.clean _ OC.clean1 (Or.inr (by omega))
  have b2_bel : Below (b1.apps pd1) (elEnd es + fs.length * 4) := apps_below hpd1 hne1 b1_bel (by rw [hpt]; omega)
  have b2_c0 : Clean (b1.apps pd1) (4 + 4 * es.length + fs.length * 4) := apps_clean hpd1 b1_c0 (Or.inr (by rw [hpt]; exact Nat.le_refl _))
  have b2_c1 : Clean (b1.apps pd1) (elEnd es + fs.length * 4) := apps_clean hpd1 b1_c1 (Or.inr (by rw [hpt]; omega))
  have b1_ex : ∀ cc : Nat × Bytes, Exact1 cb cc → cc.2 ≠ [] → 4 + 4 * es.length + fs.length * 4 ≤ cc.1 → Exact1 (b1.apps pd1) cc :=
    fun cc hx hn hge => exact_apps_other hpd1 (hW.exact cc hx hn (Or.inr (by omega))) (Or.inr (by rw [hpt]; exact hge))
  have b2_bytes : (b1.apps pd1).bytes = c1.io.bytes := b1_bytes
  generalize hb2 : b1.apps pd1 = b2
  rw [hb2] at b2_head b2_of b2_bel b2_c0 b2_c1 b1_ex b2_bytes
  -- the elements
  have hreads : Reads ab (4 + 4 * fs.length + sumTot es) (allPs fs) := by
    refine exact_reads ?_ A.pieces_ne
    intro cc hcc
    obtain ⟨i, e, hi, hm⟩ := (cells_allPs _ fs).mp hcc
    have := OA.exact i e hi
    have e7 : elX fs i + sumTot es = 4 + 4 * fs.length + sumTot es + sumTot (fs.take i) := by unfold elX; omega
    rw [e7] at this
    exact this cc hm
  rw [copyI_zero]
  simp only [Option.bind_some]
  have hend : elEnd es + 4 * fs.length = elEnd es + fs.length * 4 := by omega
  rw [hend]
  obtain ⟨pd2, hcp2, hpd2⟩ := copy_reads (b := b2) (dst := elEnd es + fs.length * 4) hreads (by rw [b2_bytes]; omega)
  rw [hcp2]
  have hne2 := A.pieces_ne
  have htp := tot_allPs fs
  have b3_elt : HoldsC (b2.apps pd2) (cellsAt (elEnd es + fs.length * 4) (allPs fs)) :=
    apps_same hpd2 hne2 (fun cc hcc => noCut_end (by rw [b2_bytes]; omega) b2_bel b2_c1 (cellsAt_mem hcc).1)
  have b3_ex : ExactC (b2.apps pd2) (cellsAt (elEnd es + fs.length * 4) (allPs fs)) := by
    refine exact_apps_same hpd2 hne2 ?_
    intro d hd
    have g1 := b2_bel d hd
    have g2 := b2_c1 d hd
    unfold Straddles at g2
    omega
  have b3_of : ∀ x w, Holds b2 x w → x + w.length ≤ elEnd es + fs.length * 4 → Holds (b2.apps pd2) x w :=
    fun x w hw hx => apps_other hpd2 hw (Or.inl hx)
  have b3_exo : ∀ cc : Nat × Bytes, Exact1 b2 cc → cc.1 < elEnd es + fs.length * 4 → Exact1 (b2.apps pd2) cc :=
    fun cc hx hlt => exact_apps_other hpd2 hx (Or.inl hlt)
  have b3_c0 : Clean (b2.apps pd2) (4 + 4 * es.length + fs.length * 4) := apps_clean hpd2 b2_c0 (Or.inl (by omega))
  have b3_c1 : Clean (b2.apps pd2) (elEnd (es ++ fs)) := by
    refine apps_clean hpd2 ?_ (Or.inr (by omega))
    intro d hd
    have g1 := b2_bel d hd
    have g2 := b2_c1 d hd
    unfold Straddles at g2 ⊢
    omega
  have b3_bel : Below (b2.apps pd2) (elEnd (es ++ fs)) :=
    apps_below hpd2 hne2 (fun d hd => by have := b2_bel d hd; omega) (by omega)
  have b3_bytes : (b2.apps pd2).bytes = c1.io.bytes := b2_bytes
  generalize hb3 : b2.apps pd2 = b3
  rw [hb3] at b3_elt b3_ex b3_of b3_exo b3_c0 b3_c1 b3_bel b3_bytes
  have hl3 : (es ++ fs).length = es.length + fs.length := List.length_append
  have b3_hdr : Holds b3 0 (putLE 4 (es ++ fs).length) := by
    rw [hl3]
    exact b3_of _ _ (b2_of _ _ b1_hdr (Or.inl (by rw [putLE_length]; omega))) (by rw [putLE_length]; omega)
  have b3_off : ∀ i, i < (es ++ fs).length → Holds b3 (4 + 4 * i) (putLE 4 (elX (es ++ fs) i + vs - (4 + 4 * i))) := by
    intro i hi
    rw [hl3] at hi
    by_cases hlt : i < es.length
    · rw [elX_left (by omega)]
      have hX : 4 + 4 * es.length ≤ elX es i := by unfold elX; omega
      have g := OC.off i hlt
      have e8 : elX es i + vs - (4 + 4 * i) + fs.length * 4 = elX es i + 4 * fs.length + vs - (4 + 4 * i) := by omega
      rw [e8] at g
      exact b3_of _ _ (b2_of _ _ (hW.other _ _ g (Or.inr (by omega))) (Or.inl (by rw [putLE_length]; omega))) (by rw [putLE_length]; omega)
    · obtain ⟨j, rfl⟩ : ∃ j, i = es.length + j := ⟨i - es.length, by omega⟩
      have hj : j < fs.length := by omega
      rw [elX_right]
      have hX : 4 + 4 * fs.length ≤ elX fs j := by unfold elX; omega
      have g := holds_sub (b2_head _ (List.mem_singleton.mpr rfl)) (4 * j) 4 (by omega) (by simp only [hpk]; omega)
      simp only at g
      rw [packed_sub _ hj] at g
      have e8 : elX fs j + vs - (4 + 4 * j) + sumTot es = elX fs j + 4 * es.length + sumTot es + vs - (4 + 4 * (es.length + j)) := by omega
      rw [e8] at g
      have e9 : 4 + 4 * es.length + 4 * j = 4 + 4 * (es.length + j) := by omega
      rw [e9] at g
      exact b3_of _ _ g (by rw [putLE_length]; omega)
  have cellsL : ∀ i x, i < es.length → es[i]? = some x → ∀ cc ∈ cellsAt (elX (es ++ fs) i) x.ps,
      cc ∈ cellsAt (elX es i + fs.length * 4) x.ps ∧ 4 + 4 * es.length + fs.length * 4 ≤ cc.1 ∧
        cc.1 + cc.2.length ≤ elEnd es + fs.length * 4 := by
    intro i x hi hx cc hcc
    rw [elX_left (by omega)] at hcc
    have hmem := cellsAt_mem hcc
    have hX := elX_end hx
    have hX2 : 4 + 4 * es.length ≤ elX es i := by unfold elX; omega
    have e8 : elX es i + fs.length * 4 = elX es i + 4 * fs.length := by omega
    exact ⟨by rw [e8]; exact hcc, by omega, by omega⟩
  have cellsR : ∀ j x, fs[j]? = some x → ∀ cc ∈ cellsAt (elX (es ++ fs) (es.length + j)) x.ps,
      cc ∈ cellsAt (elEnd es + fs.length * 4) (allPs fs) := by
    intro j x hx cc hcc
    rw [elX_right] at hcc
    refine (cells_allPs _ fs).mpr ⟨j, x, hx, ?_⟩
    have e8 : elX fs j + 4 * es.length + sumTot es = elEnd es + fs.length * 4 + sumTot (fs.take j) := by unfold elX; omega
    rw [← e8]; exact hcc
  have split : ∀ i x, (es ++ fs)[i]? = some x → (i < es.length ∧ es[i]? = some x) ∨ ∃ j, i = es.length + j ∧ fs[j]? = some x := by
    intro i x hx
    by_cases hlt : i < es.length
    · rw [List.getElem?_append_left hlt] at hx; exact Or.inl ⟨hlt, hx⟩
    · rw [List.getElem?_append_right (by omega)] at hx
      exact Or.inr ⟨i - es.length, by omega, hx⟩
  have b3_el : ∀ i x, (es ++ fs)[i]? = some x → HoldsC b3 (cellsAt (elX (es ++ fs) i) x.ps) := by
    intro i x hx cc hcc
    rcases split i x hx with ⟨hlt, hx'⟩ | ⟨j, rfl, hx'⟩
    · obtain ⟨g1, g2, g3⟩ := cellsL i x hlt hx' cc hcc
      exact b3_of _ _ (b2_of _ _ (hW.other _ _ (OC.elt i x hx' cc g1) (Or.inr (by omega))) (Or.inr g2)) g3
    · exact b3_elt cc (cellsR j x hx' cc hcc)
  have hself : ∀ x ∈ es ++ fs, SelfC s k0 t vs x.ps x.m := by
    intro x hx
    rcases List.mem_append.mp hx with hx | hx
    · exact h.self x hx
    · exact ha.self x hx
  have hview : TView s k0 t vs { name := c1.name, io := b3, pos := c1.pos, size := c1.size, tlen := c1.tlen, vi := c1.vi } (es ++ fs) :=
    ⟨H.name, H.vpos, by omega, b3_hdr, b3_off, b3_el, hself⟩
  unfold CNode.refresh
  rw [hview.infoSlice ht k hk]
  simp only [Option.bind_eq_bind, Option.bind_some, pure]
  refine ⟨_, _, rfl, ?_⟩
  refine ⟨H.name, H.cpos, rfl, rfl, fun hn => by simp only; rw [if_neg hn], by omega, b3_hdr, b3_off, b3_el, hself, ?_, ?_, b3_c1, b3_bel, ?_⟩
  · simp only [b3_bytes]; exact hlen
  · rw [hl3]
    have e8 : 4 + 4 * (es.length + fs.length) = 4 + 4 * es.length + fs.length * 4 := by omega
    rw [e8]; exact b3_c0
  · intro i x hx cc hcc
    rcases split i x hx with ⟨hlt, hx'⟩ | ⟨j, rfl, hx'⟩
    · obtain ⟨g1, g2, g3⟩ := cellsL i x hlt hx' cc hcc
      have hn := (OC.elt i x hx' cc g1).1
      have hl : 0 < cc.2.length := List.length_pos_iff.mpr hn
      exact b3_exo _ (b1_ex _ (OC.exact i x hx' cc g1) hn g2) (by omega)
    · exact b3_ex cc (cellsR j x hx' cc hcc)

end Fbs
