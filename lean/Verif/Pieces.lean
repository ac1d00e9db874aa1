import Verif.ListDirect
/-!
# Copying data that is stored in several pieces
-/

namespace Fbs
open CNode

/-- All the cells are stored. -/
def HoldsC (b : Base) (cs : List (Nat × Bytes)) : Prop := ∀ c ∈ cs, Holds b c.1 c.2

/-- Total length of the pieces. -/
def tot (ps : List Bytes) : Nat := (ps.map List.length).sum

theorem tot_cons (w : Bytes) (ps : List Bytes) : tot (w :: ps) = w.length + tot ps := by
  simp [tot]

theorem tot_flatten (ps : List Bytes) : ps.flatten.length = tot ps := by
  simp [tot, List.length_flatten]

/-- The pieces laid out one after the other from `x`. -/
def cellsAt : Nat → List Bytes → List (Nat × Bytes)
  | _, [] => []
  | x, w :: ps => (x, w) :: cellsAt (x + w.length) ps

theorem cellsAt_mem {x : Nat} {ps : List Bytes} {c : Nat × Bytes} (h : c ∈ cellsAt x ps) :
    x ≤ c.1 ∧ c.1 + c.2.length ≤ x + tot ps := by
  induction ps generalizing x with
  | nil => cases h
  | cons w ps ih =>
    rw [tot_cons]
    rcases List.mem_cons.mp h with rfl | h
    · exact ⟨Nat.le_refl _, by simp only; omega⟩
    · have := ih h; omega

theorem cellsAt_shift (x k : Nat) (ps : List Bytes) :
    cellsAt (x + k) ps = (cellsAt x ps).map fun c => (c.1 + k, c.2) := by
  induction ps generalizing x with
  | nil => rfl
  | cons w ps ih =>
    simp only [cellsAt, List.map_cons]
    rw [← ih, Nat.add_right_comm]

/-- The bytes of the pieces are the content. -/
theorem holdsC_spells {b : Base} {x : Nat} {ps : List Bytes} (h : HoldsC b (cellsAt x ps)) :
    b.content.Spells x ps.flatten := by
  induction ps generalizing x with
  | nil => intro k hk; simp at hk
  | cons w ps ih =>
    have h1 := h (x, w) (List.mem_cons_self ..)
    have h2 := ih (x := x + w.length) (fun c hc => h c (List.mem_cons_of_mem _ hc))
    intro k hk
    rw [List.flatten_cons]
    by_cases hkw : k < w.length
    · rw [List.getElem?_append_left hkw]; exact h1.2.2 k hkw
    · rw [List.getElem?_append_right (by omega)]
      rw [List.flatten_cons, List.length_append] at hk
      have := h2 (k - w.length) (by omega)
      rw [← this]
      congr 1
      omega

/-- A cell inside one of the pieces. -/
theorem holdsC_sub {b : Base} {cs : List (Nat × Bytes)} (h : HoldsC b cs) {c : Nat × Bytes} (hc : c ∈ cs) (i n : Nat) (hn : 0 < n)
    (hi : i + n ≤ c.2.length) : Holds b (c.1 + i) ((c.2.drop i).take n) :=
  holds_sub (h c hc) i n hn hi

/-! ## appending one segment -/

/-- The buffer with one more segment. -/
def Base.app (b : Base) (d : Diff) : Base := { b with diffs := b.diffs ++ [d] }

theorem edge_app {b : Base} {d : Diff} {e : Nat} (h : (b.app d).Edge e) :
    b.Edge e ∨ e = d.off ∨ e = d.off + d.sl.len := by
  rcases h with h | ⟨d0, hd, he⟩
  · exact Or.inl (Or.inl h)
  · simp only [Base.app, List.mem_append, List.mem_singleton] at hd
    rcases hd with hd | rfl
    · exact Or.inl (Or.inr ⟨d0, hd, he⟩)
    · rcases he with he | he
      · exact Or.inr (Or.inl he.symm)
      · exact Or.inr (Or.inr he.symm)

theorem content_app (b : Base) (d : Diff) : (b.app d).content = b.content.put d.off d.sl.data := by
  unfold Base.content Base.app
  simp only
  rw [contentOf_snoc]

theorem holds_app_same {b : Base} {d : Diff} (hne : d.sl.data ≠ []) (hc : b.NoCut d.off d.sl.len) :
    Holds (b.app d) d.off d.sl.data := by
  refine ⟨hne, ?_, ?_⟩
  · rw [noCut_iff] at hc ⊢
    intro e he
    rcases edge_app he with h | h | h
    · exact hc e h
    · omega
    · simp only [Slice.len] at h; omega
  · intro k hk
    rw [content_app, put_apply, if_pos (by omega)]
    congr 1; omega

theorem holds_app_other {b : Base} {d : Diff} {x : Nat} {v : Bytes} (hv : Holds b x v)
    (hd : x + v.length ≤ d.off ∨ d.off + d.sl.len ≤ x) : Holds (b.app d) x v := by
  refine ⟨hv.1, ?_, ?_⟩
  · have hc := hv.2.1
    rw [noCut_iff] at hc ⊢
    intro e he
    rcases edge_app he with h | h | h
    · exact hc e h
    · omega
    · omega
  · intro k hk
    rw [content_app, put_apply, if_neg (by simp only [Slice.len] at hd; omega)]
    exact hv.2.2 k hk

theorem clean_app {b : Base} {d : Diff} {x : Nat} (h : Clean b x) (hx : x ≤ d.off ∨ d.off + d.sl.len ≤ x) :
    Clean (b.app d) x := by
  intro d0 hd
  simp only [Base.app, List.mem_append, List.mem_singleton] at hd
  rcases hd with hd | rfl
  · exact h d0 hd
  · unfold Straddles; omega

theorem below_app {b : Base} {d : Diff} {x : Nat} (h : Below b x) (hx : d.off < x) : Below (b.app d) x := by
  intro d0 hd
  simp only [Base.app, List.mem_append, List.mem_singleton] at hd
  rcases hd with hd | rfl
  · exact h d0 hd
  · exact hx

/-! ## appending segments one after the other -/

def Base.apps (b : Base) (ds : List Diff) : Base := { b with diffs := b.diffs ++ ds }

theorem apps_cons (b : Base) (d : Diff) (ds : List Diff) : b.apps (d :: ds) = (b.app d).apps ds := by
  simp [Base.apps, Base.app]

theorem apps_nil (b : Base) : b.apps [] = b := by simp [Base.apps]

def diffCell (d : Diff) : Nat × Bytes := (d.off, d.sl.data)

theorem apps_other {b : Base} {ds : List Diff} {x0 : Nat} {ps : List Bytes} (hds : ds.map diffCell = cellsAt x0 ps)
    {x : Nat} {v : Bytes} (hv : Holds b x v) (hd : x + v.length ≤ x0 ∨ x0 + tot ps ≤ x) : Holds (b.apps ds) x v := by
  induction ds generalizing b x0 ps with
  | nil => rw [apps_nil]; exact hv
  | cons d ds ih =>
    cases ps with
    | nil => cases hds
    | cons w ps =>
      rw [tot_cons] at hd
      simp only [List.map_cons, cellsAt, List.cons.injEq] at hds
      obtain ⟨h1, h2⟩ := hds
      have e1 : d.off = x0 := congrArg Prod.fst h1
      have e2 : d.sl.data = w := congrArg Prod.snd h1
      rw [apps_cons]
      exact ih h2 (holds_app_other hv (by simp only [Slice.len, e1, e2]; omega)) (by omega)

theorem apps_clean {b : Base} {ds : List Diff} {x0 : Nat} {ps : List Bytes} (hds : ds.map diffCell = cellsAt x0 ps)
    {x : Nat} (hv : Clean b x) (hd : x ≤ x0 ∨ x0 + tot ps ≤ x) : Clean (b.apps ds) x := by
  induction ds generalizing b x0 ps with
  | nil => rw [apps_nil]; exact hv
  | cons d ds ih =>
    cases ps with
    | nil => cases hds
    | cons w ps =>
      rw [tot_cons] at hd
      simp only [List.map_cons, cellsAt, List.cons.injEq] at hds
      obtain ⟨h1, h2⟩ := hds
      have e1 : d.off = x0 := congrArg Prod.fst h1
      have e2 : d.sl.data = w := congrArg Prod.snd h1
      rw [apps_cons]
      exact ih h2 (clean_app hv (by simp only [Slice.len, e1, e2]; omega)) (by omega)

theorem apps_below {b : Base} {ds : List Diff} {x0 : Nat} {ps : List Bytes} (hds : ds.map diffCell = cellsAt x0 ps)
    (hne : ∀ w ∈ ps, w ≠ []) {x : Nat} (hv : Below b x) (hd : x0 + tot ps ≤ x) : Below (b.apps ds) x := by
  intro d hmem
  rcases List.mem_append.mp hmem with hm | hm
  · exact hv d hm
  · have hm2 : diffCell d ∈ cellsAt x0 ps := by rw [← hds]; exact List.mem_map_of_mem hm
    have hb := cellsAt_mem hm2
    have hl : 0 < (diffCell d).2.length := by
      apply List.length_pos_iff.mpr
      clear hds hb hm hmem hv hd
      induction ps generalizing x0 with
      | nil => cases hm2
      | cons w ps ih =>
        rcases List.mem_cons.mp hm2 with h | h
        · rw [h]; exact hne w (List.mem_cons_self ..)
        · exact ih (fun w hw => hne w (List.mem_cons_of_mem _ hw)) h
    simp only [diffCell] at hb hl
    omega

/-- The pieces can be appended behind everything that is stored. -/
theorem apps_same {b : Base} {ds : List Diff} {x0 : Nat} {ps : List Bytes} (hds : ds.map diffCell = cellsAt x0 ps)
    (hne : ∀ w ∈ ps, w ≠ []) (hc : ∀ c ∈ cellsAt x0 ps, b.NoCut c.1 c.2.length) : HoldsC (b.apps ds) (cellsAt x0 ps) := by
  induction ds generalizing b x0 ps with
  | nil => rw [← hds]; intro c hc; cases hc
  | cons d ds ih =>
    cases ps with
    | nil => cases hds
    | cons w ps =>
      simp only [List.map_cons, cellsAt, List.cons.injEq] at hds
      obtain ⟨h1, h2⟩ := hds
      have e1 : d.off = x0 := congrArg Prod.fst h1
      have e2 : d.sl.data = w := congrArg Prod.snd h1
      have hw : d.sl.len = w.length := by simp only [Slice.len, e2]
      rw [apps_cons]
      have hcw := hc (x0, w) (List.mem_cons_self ..)
      intro c hcm
      rcases List.mem_cons.mp hcm with rfl | hcm
      · simp only
        have := holds_app_same (b := b) (d := d) (by rw [e2]; exact hne w (List.mem_cons_self ..))
          (by rw [e1, hw]; exact hcw)
        rw [e1, e2] at this
        exact apps_other h2 this (Or.inl (Nat.le_refl _))
      · refine ih h2 (fun w hw => hne w (List.mem_cons_of_mem _ hw)) ?_ c hcm
        intro c' hc'
        have hb := cellsAt_mem hc'
        have hcc := hc c' (List.mem_cons_of_mem _ hc')
        rw [noCut_iff] at hcc ⊢
        intro e he
        rcases edge_app he with h | h | h
        · exact hcc e h
        · omega
        · omega

/-- Nothing is stored at or behind `x`: every range from there is free of edges. -/
theorem noCut_end {b : Base} {x : Nat} (hlen : b.bytes.len ≤ x) (hb : Below b x) (hcl : Clean b x) {y n : Nat} (hy : x ≤ y) :
    b.NoCut y n := by
  rw [noCut_iff]
  rintro e (he | ⟨d, hd, he⟩)
  · omega
  · have h1 := hb d hd
    have h2 := hcl d hd
    unfold Straddles at h2
    omega

/-! ## the pieces a copy reads -/

/-- Reading `src` from `x` piece by piece, as `Copy` does, returns the pieces `ps`. -/
def Reads (src : Base) : Nat → List Bytes → Prop
  | _, [] => True
  | x, w :: ps => w ≠ [] ∧ (src.R x 0).data.take (tot (w :: ps)) = w ∧ Reads src (x + w.length) ps

theorem reads_ne {src : Base} {x : Nat} {ps : List Bytes} (h : Reads src x ps) : ∀ w ∈ ps, w ≠ [] := by
  induction ps generalizing x with
  | nil => intro w hw; cases hw
  | cons v ps ih =>
    intro w hw
    rcases List.mem_cons.mp hw with rfl | hw
    · exact h.1
    · exact ih h.2.2 w hw

theorem reads_one {src : Base} {x : Nat} {w : Bytes} (h : Holds src x w) : Reads src x [w] := by
  refine ⟨h.1, ?_, trivial⟩
  have := (holds_read h 0).2
  simpa [tot] using this

theorem copyLoop_reads {src : Base} {so dst done : Nat} {ps : List Bytes} (h : Reads src (so + done) ps) (ds : List Diff) :
    ∃ pd : List Diff, Base.copyLoop (fun p n => src.R p n) so dst done (tot ps) ds = ds ++ pd ∧
      pd.map diffCell = cellsAt (done + dst) ps := by
  induction ps generalizing done ds with
  | nil =>
    refine ⟨[], ?_, rfl⟩
    rw [Base.copyLoop, if_pos (show tot [] = 0 from rfl), List.append_nil]
  | cons w ps ih =>
    obtain ⟨h1, h2, h3⟩ := h
    have hwl : 0 < w.length := List.length_pos_iff.mpr h1
    have htc := tot_cons w ps
    have hR : (src.R (so + done) (tot (w :: ps))).data = (src.R (so + done) 0).data := by rw [R_data, R_data]
    have hcd : (Base.clip (src.R (so + done) (tot (w :: ps))) (tot (w :: ps))).data = w := by
      rw [clip_data, hR]; exact h2
    have hcl : (Base.clip (src.R (so + done) (tot (w :: ps))) (tot (w :: ps))).len = w.length := by
      simp only [Slice.len, hcd]
    have hne : (src.R (so + done) (tot (w :: ps))).len ≠ 0 := by
      intro h0
      rw [Base.clip_len, h0] at hcl
      omega
    rw [Base.copyLoop]
    rw [if_neg (by omega), if_neg hne, hcl]
    have hrest : tot (w :: ps) - w.length = tot ps := by omega
    rw [hrest]
    obtain ⟨pd, e1, e2⟩ := ih (done := done + w.length) (by rw [← Nat.add_assoc]; exact h3)
      (ds ++ [⟨done + dst, Base.clip (src.R (so + done) (tot (w :: ps))) (tot (w :: ps))⟩])
    refine ⟨⟨done + dst, Base.clip (src.R (so + done) (tot (w :: ps))) (tot (w :: ps))⟩ :: pd, ?_, ?_⟩
    · rw [e1, List.append_assoc]; rfl
    · simp only [List.map_cons, cellsAt]
      rw [e2]
      have : diffCell ⟨done + dst, Base.clip (src.R (so + done) (tot (w :: ps))) (tot (w :: ps))⟩ = (done + dst, w) := by
        simp only [diffCell, hcd]
      rw [this]
      congr 2
      omega

/-- A copy to a place with no initial bytes at or behind it. -/
theorem copy_reads {b src : Base} {so dst : Nat} {ps : List Bytes} (h : Reads src so ps) (hlen : b.bytes.len ≤ dst) :
    ∃ pd : List Diff, b.copy (fun p n => src.R p n) so (tot ps) dst 0 = b.apps pd ∧ pd.map diffCell = cellsAt dst ps := by
  obtain ⟨pd, h1, h2⟩ := copyLoop_reads (dst := dst) (done := 0) (by rw [Nat.add_zero]; exact h) (b.copyExtend dst 0).diffs
  refine ⟨pd, ?_, by rw [Nat.zero_add] at h2; exact h2⟩
  unfold Base.copy
  simp only
  rw [h1, copyExtend_zero_diffs, if_neg (by omega), List.nil_append]
  rfl

/-! ## inserting space behind everything -/

theorem insertSpace_end {b : Base} {pos size : Nat} (hlen : b.bytes.len ≤ pos) (hb : Below b pos) (hcl : Clean b pos) :
    (b.insertSpace pos size false).bytes = b.bytes ∧ (b.insertSpace pos size false).diffs = b.diffs := by
  obtain ⟨h1, h2⟩ := insertSpace_diffs (size := size) hcl false
  rw [h1, h2, if_neg (by omega), if_neg (by omega)]
  refine ⟨rfl, ?_⟩
  have e : b.diffs.map (shiftD pos size) = b.diffs.map id := by
    apply List.map_congr_left
    intro d hd
    have := hb d hd
    unfold shiftD
    rw [if_neg (by omega)]; rfl
  simp [e]

theorem holds_congr {b b' : Base} (h1 : b'.bytes = b.bytes) (h2 : b'.diffs = b.diffs) {x : Nat} {w : Bytes}
    (h : Holds b x w) : Holds b' x w := by
  obtain ⟨a, c, d⟩ := h
  refine ⟨a, ?_, ?_⟩
  · unfold Base.NoCut at c ⊢; rw [h1, h2]; exact c
  · unfold Base.content at d ⊢; rw [h1, h2]; exact d

/-! ## segments that are exactly one cell -/

/-- The cell is a segment of its own, and no other segment covers its start. -/
def Exact1 (b : Base) (c : Nat × Bytes) : Prop :=
  (∃ d ∈ b.diffs, diffCell d = c) ∧ ∀ d ∈ b.diffs, d.covers c.1 = true → diffCell d = c

def ExactC (b : Base) (cs : List (Nat × Bytes)) : Prop := ∀ c ∈ cs, Exact1 b c

theorem exact_read {b : Base} {c : Nat × Bytes} (h : Exact1 b c) (hne : c.2 ≠ []) : (b.R c.1 0).data = c.2 := by
  obtain ⟨⟨d, hd, he⟩, hu⟩ := h
  have hl : 0 < c.2.length := List.length_pos_iff.mpr hne
  have hcov : d.covers c.1 = true := by
    rw [covers_iff, ← he]
    rw [← he] at hl
    simp only [diffCell, Slice.len] at *; omega
  rw [R_data]
  cases hl2 : lastOf (fun d => d.covers c.1) b.diffs with
  | none =>
    have := lastOf_none.mp hl2 d hd
    rw [hcov] at this; cases this
  | some d' =>
    obtain ⟨h1, h2⟩ := lastOf_some hl2
    have h3 := hu d' h1 h2
    rw [writerR_cover hl2]
    have e1 : d'.off = c.1 := congrArg Prod.fst h3
    have e2 : d'.sl.data = c.2 := congrArg Prod.snd h3
    simp only [e1, e2, Nat.sub_self, List.drop_zero]

theorem exact_reads {b : Base} {x : Nat} {ps : List Bytes} (h : ExactC b (cellsAt x ps)) (hne : ∀ w ∈ ps, w ≠ []) :
    Reads b x ps := by
  induction ps generalizing x with
  | nil => trivial
  | cons w ps ih =>
    have hw := hne w (List.mem_cons_self ..)
    refine ⟨hw, ?_, ih (fun c hc => h c (List.mem_cons_of_mem _ hc)) (fun v hv => hne v (List.mem_cons_of_mem _ hv))⟩
    rw [exact_read (h (x, w) (List.mem_cons_self ..)) hw]
    simp only
    rw [List.take_of_length_le (by rw [tot_cons]; omega)]

theorem dPrefix_keep {b : Base} {off size : Nat} {d : Diff} (h : d ∈ b.diffs) (hc : d.covers off = false) :
    d ∈ b.dPrefix off size := by
  unfold Base.dPrefix Base.D
  cases hl : lastIndexOf (fun d => d.covers off) b.diffs with
  | none =>
    simp only [List.dropLast_concat]
    split
    · exact List.mem_append_left _ h
    · exact h
  | some sn =>
    obtain ⟨d0, hd0, hcov⟩ := lastIndexOf_lt hl
    simp only [hd0]
    have hsn : sn < b.diffs.length := (List.getElem?_eq_some_iff.mp hd0).1
    split
    · simp only [List.dropLast_concat]; exact h
    · simp only [List.dropLast_concat]
      rw [insertOr_of_le (by rw [List.length_set]; omega)]
      have hset : d ∈ b.diffs.set sn ⟨d0.off, ⟨d0.sl.data.take (off + size - d0.off),
          d0.sl.data.drop (off + size - d0.off) ++ d0.sl.spare⟩⟩ := by
        obtain ⟨i, hi⟩ := List.getElem?_of_mem h
        apply List.mem_of_getElem? (i := i)
        rw [List.getElem?_set_ne]
        · exact hi
        · rintro rfl
          rw [hi] at hd0; cases hd0
          rw [hcov] at hc; cases hc
      rw [List.append_assoc, List.mem_append, List.mem_append]
      rw [← List.take_append_drop (sn + 1) (b.diffs.set sn _), List.mem_append] at hset
      rcases hset with h | h
      · exact Or.inl h
      · exact Or.inr (Or.inr h)

theorem exact_updateU {b : Base} {off size : Nat} {w : Bytes} (hw : w.length = size) (hs : 0 < size) {c : Nat × Bytes} (h : Exact1 b c) (hne : c.2 ≠ [])
    (hd : c.1 + c.2.length ≤ off ∨ off + size ≤ c.1) : Exact1 (b.updateU off size w) c := by
  obtain ⟨⟨d, hdm, he⟩, hu⟩ := h
  have hl : 0 < c.2.length := List.length_pos_iff.mpr hne
  rw [updateU_struct b off size w hw]
  have e1 : d.off = c.1 := congrArg Prod.fst he
  have e2 : d.sl.len = c.2.length := congrArg (List.length ∘ Prod.snd) he
  refine ⟨⟨d, List.mem_append_left _ (dPrefix_keep hdm ?_), he⟩, ?_⟩
  · rw [Bool.eq_false_iff, ne_eq, covers_iff]; omega
  · intro d' hd' hcov
    rw [covers_iff] at hcov
    simp only [List.mem_append, List.mem_singleton] at hd'
    rcases hd' with hd' | rfl
    · rcases dPrefix_sub hd' with h1 | h1 | ⟨d0, h1, h2, h3, h4⟩
      · exact hu d' h1 (by rw [covers_iff]; exact hcov)
      · omega
      · have h5 := hu d0 h1 (by rw [covers_iff]; omega)
        have e3 : d0.off = c.1 := congrArg Prod.fst h5
        have e4 : d0.sl.len = c.2.length := congrArg (List.length ∘ Prod.snd) h5
        rw [covers_iff] at h2
        omega
    · simp only [Slice.len, hw] at hcov; omega

theorem exact_insertSpace_lt {b : Base} {pos size : Nat} (hcl : Clean b pos) (hlen : b.bytes.len ≤ pos) {cr : Bool} {c : Nat × Bytes}
    (h : Exact1 b c) (hne : c.2 ≠ []) (hx : c.1 + c.2.length ≤ pos) : Exact1 (b.insertSpace pos size cr) c := by
  obtain ⟨⟨d, hdm, he⟩, hu⟩ := h
  obtain ⟨-, h2⟩ := insertSpace_diffs (size := size) hcl cr
  have hl : 0 < c.2.length := List.length_pos_iff.mpr hne
  have e1 : d.off = c.1 := congrArg Prod.fst he
  unfold Exact1
  rw [h2, if_neg (by omega), List.nil_append]
  constructor
  · refine ⟨d, List.mem_append_left _ (List.mem_map.mpr ⟨d, hdm, ?_⟩), he⟩
    unfold shiftD; rw [if_neg (by omega)]
  · intro d' hd' hcov
    rw [covers_iff] at hcov
    rcases List.mem_append.mp hd' with hd' | hd'
    · obtain ⟨d0, h0, rfl⟩ := List.mem_map.mp hd'
      unfold shiftD at hcov ⊢
      split at hcov
      · simp only at hcov; omega
      · rename_i hge
        rw [if_neg hge]
        exact hu d0 h0 (by rw [covers_iff]; exact hcov)
    · split at hd'
      · simp only [List.mem_singleton] at hd'; subst hd'; simp only at hcov; omega
      · cases hd'

theorem exact_insertSpace_ge {b : Base} {pos size : Nat} (hcl : Clean b pos) (hlen : b.bytes.len ≤ pos) {cr : Bool} {c : Nat × Bytes}
    (h : Exact1 b c) (hx : pos ≤ c.1) : Exact1 (b.insertSpace pos size cr) (c.1 + size, c.2) := by
  obtain ⟨⟨d, hdm, he⟩, hu⟩ := h
  obtain ⟨-, h2⟩ := insertSpace_diffs (size := size) hcl cr
  have e1 : d.off = c.1 := congrArg Prod.fst he
  have e2 : d.sl.data = c.2 := congrArg Prod.snd he
  unfold Exact1
  rw [h2, if_neg (by omega), List.nil_append]
  constructor
  · refine ⟨⟨d.off + size, d.sl⟩, List.mem_append_left _ (List.mem_map.mpr ⟨d, hdm, ?_⟩), ?_⟩
    · unfold shiftD; rw [if_pos (by omega)]
    · simp only [diffCell, e1, e2]
  · intro d' hd' hcov
    rw [covers_iff] at hcov
    simp only at hcov
    rcases List.mem_append.mp hd' with hd' | hd'
    · obtain ⟨d0, h0, rfl⟩ := List.mem_map.mp hd'
      have hst := hcl d0 h0
      unfold Straddles at hst
      unfold shiftD at hcov ⊢
      split at hcov
      · rename_i hge
        rw [if_pos hge]
        simp only at hcov
        have h5 := hu d0 h0 (by rw [covers_iff]; omega)
        have e3 : d0.off = c.1 := congrArg Prod.fst h5
        have e4 : d0.sl.data = c.2 := congrArg Prod.snd h5
        simp only [diffCell, e3, e4]
      · omega
    · split at hd'
      · simp only [List.mem_singleton] at hd'; subst hd'
        simp only [Slice.make, Slice.len, zeros, List.length_replicate] at hcov; omega
      · cases hd'

theorem exact_congr {b b' : Base} (h2 : b'.diffs = b.diffs) {c : Nat × Bytes} (h : Exact1 b c) : Exact1 b' c := by
  unfold Exact1 at *; rw [h2]; exact h

theorem exact_apps_other {b : Base} {ds : List Diff} {x0 : Nat} {ps : List Bytes} (hds : ds.map diffCell = cellsAt x0 ps)
    {c : Nat × Bytes} (h : Exact1 b c) (hd : c.1 < x0 ∨ x0 + tot ps ≤ c.1) : Exact1 (b.apps ds) c := by
  obtain ⟨⟨d, hdm, he⟩, hu⟩ := h
  refine ⟨⟨d, List.mem_append_left _ hdm, he⟩, ?_⟩
  intro d' hd' hcov
  rcases List.mem_append.mp hd' with hd' | hd'
  · exact hu d' hd' hcov
  · have hm : diffCell d' ∈ cellsAt x0 ps := by rw [← hds]; exact List.mem_map_of_mem hd'
    have := cellsAt_mem hm
    rw [covers_iff] at hcov
    simp only [diffCell, Slice.len] at *
    omega

/-- Cells of one layout do not overlap. -/
theorem cellsAt_unique {x : Nat} {ps : List Bytes} {a c : Nat × Bytes} (ha : a ∈ cellsAt x ps) (hc : c ∈ cellsAt x ps)
    (h1 : a.1 ≤ c.1) (h2 : c.1 < a.1 + a.2.length) (hne : c.2 ≠ []) : a = c := by
  have hl : 0 < c.2.length := List.length_pos_iff.mpr hne
  induction ps generalizing x with
  | nil => cases ha
  | cons w ps ih =>
    rcases List.mem_cons.mp ha with ha' | ha'
    · rcases List.mem_cons.mp hc with hc' | hc'
      · rw [ha', hc']
      · have := cellsAt_mem hc'
        rw [ha'] at h2
        simp only at h2
        omega
    · rcases List.mem_cons.mp hc with hc' | hc'
      · have := cellsAt_mem ha'
        rw [hc'] at h1 h2 hl
        simp only at h1 h2 hl
        omega
      · exact ih ha' hc'

theorem exact_apps_same {b : Base} {ds : List Diff} {x0 : Nat} {ps : List Bytes} (hds : ds.map diffCell = cellsAt x0 ps)
    (hne : ∀ w ∈ ps, w ≠ []) (hb : ∀ d ∈ b.diffs, d.off + d.sl.len ≤ x0 ∨ x0 + tot ps ≤ d.off) : ExactC (b.apps ds) (cellsAt x0 ps) := by
  intro c hc
  have hcne : c.2 ≠ [] := by
    clear hds hb
    induction ps generalizing x0 with
    | nil => cases hc
    | cons w ps ih =>
      rcases List.mem_cons.mp hc with rfl | hc
      · exact hne w (List.mem_cons_self ..)
      · exact ih (fun v hv => hne v (List.mem_cons_of_mem _ hv)) hc
  have hl : 0 < c.2.length := List.length_pos_iff.mpr hcne
  have hcm := cellsAt_mem hc
  constructor
  · have : c ∈ ds.map diffCell := by rw [hds]; exact hc
    obtain ⟨d, h1, h2⟩ := List.mem_map.mp this
    exact ⟨d, List.mem_append_right _ h1, h2⟩
  · intro d' hd' hcov
    rw [covers_iff] at hcov
    rcases List.mem_append.mp hd' with hd' | hd'
    · have := hb d' hd'; omega
    · have hm : diffCell d' ∈ cellsAt x0 ps := by rw [← hds]; exact List.mem_map_of_mem hd'
      exact cellsAt_unique hm hc hcov.1 hcov.2 hcne

theorem cellsAt_ne {x : Nat} {ps : List Bytes} (hne : ∀ w ∈ ps, w ≠ []) {c : Nat × Bytes} (hc : c ∈ cellsAt x ps) : c.2 ≠ [] := by
  induction ps generalizing x with
  | nil => cases hc
  | cons w ps ih =>
    rcases List.mem_cons.mp hc with rfl | hc
    · exact hne w (List.mem_cons_self ..)
    · exact ih (fun v hv => hne v (List.mem_cons_of_mem _ hv)) hc

theorem cellsAt_append (x : Nat) (a c : List Bytes) : cellsAt x (a ++ c) = cellsAt x a ++ cellsAt (x + tot a) c := by
  induction a generalizing x with
  | nil => rfl
  | cons w a ih => simp only [List.cons_append, cellsAt, ih, tot_cons, Nat.add_assoc]

end Fbs
