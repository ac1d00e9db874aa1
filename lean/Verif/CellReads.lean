import Verif.TableNest
import Verif.TabInline
/-!
# Reading a table built by `Init` and `SetFieldAt` piece by piece

`Copy` takes a table over in the pieces `R` returns. When every segment of the journal is one cell of the table
those pieces are unions of cells, so every cell arrives in one piece.
-/

namespace Fbs
open CNode

/-- The positions `[0, T)` of the buffer are divided into the cells `K`, and every segment is one of them or lies behind. -/
structure Cells (b : Base) (T : Nat) (K : Nat → Nat → Prop) : Prop where
  seg  : ∀ d ∈ b.diffs, K d.off d.sl.len ∨ T ≤ d.off
  uniq : ∀ x l x' l', K x l → K x' l' → x ≤ x' → x' < x + l → x = x' ∧ l = l'
  pos  : ∀ x l, K x l → 0 < l
  next : ∀ x l, K x l → x + l = T ∨ ∃ l', K (x + l) l'
  base : b.bytes.len = T ∨ ∃ l, K b.bytes.len l
  has  : ∀ x l, K x l → (b.content x).isSome

/-- A boundary between cells. -/
def Border (T : Nat) (K : Nat → Nat → Prop) (x : Nat) : Prop := x = T ∨ ∃ l, K x l

section
variable {b : Base} {T : Nat} {K : Nat → Nat → Prop}

theorem Cells.le (h : Cells b T K) {x l : Nat} (hx : K x l) (hb : ∀ x l, K x l → x + l ≤ T) {y : Nat} (hy : Border T K y)
    (h1 : x < y) (h2 : y < x + l) : False := by
  rcases hy with rfl | ⟨l', hy⟩
  · have := hb x l hx; omega
  · have := h.uniq x l y l' hx hy (by omega) h2; omega

theorem Cells.edge (h : Cells b T K) {e : Nat} (he : b.Edge e) : Border T K e ∨ T ≤ e := by
  rcases he with rfl | ⟨d, hd, rfl | rfl⟩
  · exact Or.inl h.base
  · rcases h.seg d hd with h1 | h1
    · exact Or.inl (Or.inr ⟨_, h1⟩)
    · exact Or.inr h1
  · rcases h.seg d hd with h1 | h1
    · exact Or.inl (h.next _ _ h1)
    · exact Or.inr (by omega)

/-- One read at a boundary returns whole cells, as they are. -/
theorem Cells.read (h : Cells b T K) (hb : ∀ x l, K x l → x + l ≤ T) {x l : Nat} (hx : K x l) :
    (b.R x 0).data ≠ [] ∧ Border T K (x + (b.R x 0).data.length) ∧ x + (b.R x 0).data.length ≤ T ∧
      Holds b x (b.R x 0).data := by
  have hsome := h.has x l hx
  have hl := h.pos x l hx
  have hbl : b.bytes.len ≤ T := by
    rcases h.base with h1 | ⟨l', h1⟩
    · omega
    · have := hb _ _ h1; omega
  -- it is enough to know the length and that nothing is cut
  have key : ∀ n, (b.R x 0).data.length = n → 0 < n → b.NoCut x n → Border T K (x + n) → x + n ≤ T →
      (b.R x 0).data ≠ [] ∧ Border T K (x + (b.R x 0).data.length) ∧ x + (b.R x 0).data.length ≤ T ∧
        Holds b x (b.R x 0).data := by
    intro n hn h0 hc hB hT
    obtain ⟨-, h2⟩ := R_spells hc hsome
    have e : (b.R x n).data = (b.R x 0).data := by rw [R_data, R_data]
    rw [e, List.take_of_length_le (by omega)] at h2
    have hne : (b.R x 0).data ≠ [] := fun hh => by rw [hh] at hn; simp at hn; omega
    exact ⟨hne, by rw [hn]; exact hB, by omega, hne, by rw [hn]; exact hc, h2⟩
  cases hlo : lastOf (fun d => d.covers x) b.diffs with
  | some d =>
    obtain ⟨hd, hcov⟩ := lastOf_some hlo
    rw [covers_iff] at hcov
    have hxT := hb x l hx
    obtain ⟨e1, e2⟩ := h.uniq _ _ _ _ ((h.seg d hd).resolve_right (by omega)) hx hcov.1 hcov.2
    refine key l ?_ hl ?_ (h.next x l hx) (hb x l hx)
    · rw [R_data, writerR_cover hlo]
      simp only [Slice.len] at e2
      simp only [List.length_drop]; omega
    · rw [noCut_iff]
      intro e he hh
      rcases h.edge he with h1 | h1
      · exact h.le hx hb h1 hh.1 hh.2
      · omega
  | none =>
    have hx' : x < b.bytes.len := by
      rw [content_eq, hlo] at hsome
      simp only [Option.isSome_iff_ne_none, ne_eq, List.getElem?_eq_none_iff] at hsome
      simp only [Slice.len]; omega
    have hst := lt_stop hx'
    have hsl := stop_le b x
    have hnc : ∀ d ∈ b.diffs, ¬ (d.off ≤ x ∧ x < d.off + d.sl.len) := by
      intro d hd hh
      rw [lastOf_none] at hlo
      have := hlo d hd
      rw [← covers_iff, this] at hh; cases hh
    have hstop : ∀ d ∈ b.diffs, x < d.off → b.stop x ≤ d.off := by
      intro d hd hlt
      unfold Base.stop
      split <;> rename_i heq
      · have := minOffset_none heq d hd; simp at this; omega
      · have := (minOffset_some heq).2 d hd (by simpa using hlt); omega
    have hBst : Border T K (b.stop x) := by
      unfold Base.stop
      split <;> rename_i heq
      · exact h.base
      · obtain ⟨⟨d, hd, -, h2⟩, -⟩ := minOffset_some heq
        rename_i m
        rcases Nat.le_total b.bytes.len m with hm | hm
        · rw [Nat.min_eq_left hm]; exact h.base
        · rw [Nat.min_eq_right hm]
          rcases h.seg d hd with h3 | h3
          · rw [← h2]; exact Or.inr ⟨_, h3⟩
          · exact Or.inl (by omega)
    refine key (b.stop x - x) ?_ (by omega) ?_ (by rw [Nat.add_sub_cancel' (by omega)]; exact hBst) (by omega)
    · rw [R_data, writerR_uncovered hlo (by omega)]
      simp only [List.length_drop, List.length_take]
      simp only [Slice.len] at hsl; omega
    · rw [noCut_iff]
      rintro e (he | ⟨d, hd, he | he⟩) hh
      · omega
      · have := hstop d hd (by omega); omega
      · have h1 := hnc d hd
        have h2 : x < d.off := by omega
        have := hstop d hd h2
        omega

/-- The whole rest, read piece by piece. -/
theorem Cells.reads (h : Cells b T K) (hb : ∀ x l, K x l → x + l ≤ T) (n : Nat) : ∀ x, T - x ≤ n → x ≤ T → Border T K x →
    ∃ ps, Reads b x ps ∧ x + tot ps = T ∧ HoldsC b (cellsAt x ps) ∧
      ∀ y w, K y w.length → x ≤ y → b.content.Spells y w → InP ps (y - x) w := by
  induction n with
  | zero =>
    intro x h1 h2 _
    have : x = T := by omega
    subst this
    refine ⟨[], trivial, by simp [tot], ?_, ?_⟩
    · intro c hc; cases hc
    · intro y w hy hxy
      have := hb y _ hy
      have := h.pos y _ hy
      omega
  | succ n ih =>
    intro x h1 h2 hB
    rcases hB with rfl | ⟨l, hx⟩
    · exact ih x (by omega) (Nat.le_refl _) (Or.inl rfl)
    obtain ⟨r1, r2, r3, r4⟩ := h.read hb hx
    generalize hw0 : (b.R x 0).data = w0 at r1 r2 r3 r4
    have hl0 : 0 < w0.length := List.length_pos_iff.mpr r1
    obtain ⟨ps, p1, p2, p3, p4⟩ := ih (x + w0.length) (by omega) r3 r2
    refine ⟨w0 :: ps, ⟨r1, ?_, p1⟩, by rw [tot_cons]; omega, ?_, ?_⟩
    · rw [hw0, List.take_of_length_le (by rw [tot_cons]; omega)]
    · intro c hc
      rcases List.mem_cons.mp hc with rfl | hc
      · exact r4
      · exact p3 c hc
    · intro y w hy hxy hs b' x' hb'
      have hwl := h.pos y _ hy
      by_cases hin : y < x + w0.length
      · have hend : y + w.length ≤ x + w0.length := by
          by_contra hc
          exact h.le hy hb r2 hin (by omega)
        have h0 := hb' (x', w0) (List.mem_cons_self ..)
        have hsub := holds_sub h0 (y - x) w.length hwl (by simp only; omega)
        have : (w0.drop (y - x)).take w.length = w := by
          apply List.ext_getElem?
          intro k
          by_cases hk : k < w.length
          · rw [List.getElem?_take_of_lt hk, List.getElem?_drop, ← r4.2.2 _ (by omega), ← hs k hk]
            congr 1; omega
          · rw [List.getElem?_eq_none_iff.mpr (by rw [List.length_take]; omega), List.getElem?_eq_none_iff.mpr (by omega)]
        simp only [this] at hsub
        exact hsub
      · have := p4 y w hy (by omega) hs b' (x' + w0.length) (fun c hc => hb' c (List.mem_cons_of_mem _ hc))
        rw [show x' + (y - x) = x' + w0.length + (y - (x + w0.length)) by omega]
        exact this

end

/-! ## tables with scalar and struct fields only -/

/-- Length of the data of a table with these field values. -/
def dataLen (n : Nat) (cur : Nat → Option Bytes) : Nat :=
  4 + ((List.range n).map (fun i => ((cur i).map List.length).getD 0)).sum

/-- Behind a cell comes the next one, or the end. -/
theorem cellsAt_next {x : Nat} {ps : List Bytes} {q : Nat × Bytes} (hq : q ∈ cellsAt x ps) :
    q.1 + q.2.length = x + tot ps ∨ ∃ q' ∈ cellsAt x ps, q'.1 = q.1 + q.2.length := by
  induction ps generalizing x with
  | nil => cases hq
  | cons w ps ih =>
    rw [tot_cons]
    rcases List.mem_cons.mp hq with rfl | hq
    · cases ps with
      | nil => exact Or.inl (by simp [tot])
      | cons v ps => exact Or.inr ⟨(x + w.length, v), by simp [cellsAt], rfl⟩
    · rcases ih hq with h1 | ⟨q', h1, h2⟩
      · exact Or.inl (by omega)
      · exact Or.inr ⟨q', List.mem_cons_of_mem _ h1, h2⟩

/-- The cells of the table and of what is stored behind it. -/
def AllCell (n t : Nat) (vo : Nat → Nat) (fx : Nat → Option Bytes) (ps : List Bytes) (x l : Nat) : Prop :=
  TI.Cell n vo fx x l ∨ TI.TailCell n t (cellsAt 0 ps) x l

/-- The cells of the table and of what is stored behind it divide it. -/
theorem TI.cells {nm : Name} {n t : Nat} {c : CNode} {vo : Nat → Nat} {fx : Nat → Option Bytes} (h : TI nm n c t vo fx)
    {ps : List Bytes} {z : Nat} (hC : TI.Cellular n t c.io vo fx (cellsAt 0 ps) z) (hps : ∀ q ∈ cellsAt 0 ps, Holds c.io (4 + 2 * n + t + q.1) q.2) :
    Cells c.io (4 + 2 * n + t + tot ps) (AllCell n t vo fx ps) ∧ ∀ x l, AllCell n t vo fx ps x l → x + l ≤ 4 + 2 * n + t + tot ps := by
  have ht4 := h.t4
  have hbehind : (4 + 2 * n + t = 4 + 2 * n + t + tot ps ∨ ∃ l, AllCell n t vo fx ps (4 + 2 * n + t) l) := by
    cases ps with
    | nil => exact Or.inl (by simp [tot])
    | cons w ps => exact Or.inr ⟨w.length, Or.inr ⟨(0, w), by simp [cellsAt], by simp, rfl⟩⟩
  have hfirst : (8 + 2 * n = 4 + 2 * n + t + tot ps ∨ ∃ l, AllCell n t vo fx ps (8 + 2 * n) l) := by
    by_cases h4 : t = 4
    · subst h4
      have e : 8 + 2 * n = 4 + 2 * n + 4 := by omega
      rw [e]; exact hbehind
    · obtain ⟨i, w, g1, g2, g3, g4⟩ := hC.tile 4 (by omega) (by omega)
      have := (h.fld i g1 w g2).1
      exact Or.inr ⟨w.length, Or.inl (Or.inr (Or.inr (Or.inr (Or.inr ⟨i, w, g1, g2, by omega, rfl⟩))))⟩
  have hsome : ∀ {x : Nat} {w : Bytes}, Holds c.io x w → (c.io.content x).isSome := by
    intro x w hw
    have hl := List.length_pos_iff.mpr hw.1
    have := hw.2.2 0 hl
    rw [Nat.add_zero] at this
    rw [this, List.getElem?_eq_getElem hl]; rfl
  have hcl : ∀ x l, TI.Cell n vo fx x l → x + l ≤ 4 + 2 * n + t := by
    rintro x l (h1 | h1 | ⟨i, hi, h1⟩ | h1 | ⟨i, w, h1, h2, h3⟩)
    · omega
    · omega
    · omega
    · omega
    · have := (h.fld i h1 w h2).2.1; omega
  refine ⟨⟨?_, ?_, ?_, ?_, ?_, ?_⟩, ?_⟩
  · intro d hd
    rcases hC.seg d hd with h1 | h1 | h1
    · exact Or.inl (Or.inl h1)
    · exact Or.inl (Or.inr h1)
    · rw [tailSum_cellsAt] at h1; exact Or.inr h1.1
  · rintro x l x' l' (h1 | ⟨q, q1, q2, q3⟩) (h2 | ⟨p, p1, p2, p3⟩) h3 h4
    · exact h.cell_eq h1 h2 h3 h4
    · have := hcl x l h1; omega
    · have := hcl x' l' h2
      have hpos : 0 < l' := by
        rcases h2 with h1 | h1 | ⟨i, -, h1⟩ | h1 | ⟨i, w, h1, h2, h3⟩
        · omega
        · omega
        · omega
        · omega
        · have := List.length_pos_iff.mpr (h.fld i h1 w h2).2.2.1; omega
      omega
    · have := cellsAt_unique q1 p1 (by omega) (by omega) (hps p p1).1
      subst this
      omega
  · rintro x l ((h1 | h1 | ⟨i, -, h1⟩ | h1 | ⟨i, w, h1, h2, h3⟩) | ⟨q, q1, q2, q3⟩)
    · omega
    · omega
    · omega
    · omega
    · have := List.length_pos_iff.mpr (h.fld i h1 w h2).2.2.1; omega
    · have := List.length_pos_iff.mpr (hps q q1).1; omega
  · rintro x l ((h1 | h1 | ⟨i, hi, h1⟩ | h1 | ⟨i, w, h1, h2, h3⟩) | ⟨q, q1, q2, q3⟩)
    · exact Or.inr ⟨2, Or.inl (Or.inr (Or.inl (by omega)))⟩
    · by_cases hn : n = 0
      · exact Or.inr ⟨4, Or.inl (Or.inr (Or.inr (Or.inr (Or.inl (by omega)))))⟩
      · exact Or.inr ⟨2, Or.inl (Or.inr (Or.inr (Or.inl ⟨0, by omega, by omega, rfl⟩)))⟩
    · by_cases hn : i + 1 = n
      · exact Or.inr ⟨4, Or.inl (Or.inr (Or.inr (Or.inr (Or.inl (by omega)))))⟩
      · exact Or.inr ⟨2, Or.inl (Or.inr (Or.inr (Or.inl ⟨i + 1, by omega, by omega, rfl⟩)))⟩
    · rw [show x + l = 8 + 2 * n by omega]; exact hfirst
    · obtain ⟨f1, f2, f3⟩ := h.fld i h1 w h2
      have hwl := List.length_pos_iff.mpr f3.1
      by_cases he : vo i + w.length = t
      · rw [show x + l = 4 + 2 * n + t by omega]; exact hbehind
      · obtain ⟨j, v, g1, g2, g3, g4⟩ := hC.tile (vo i + w.length) (by omega) (by omega)
        have hij : i ≠ j := by rintro rfl; rw [h2] at g2; cases g2; omega
        have hvl := List.length_pos_iff.mpr (h.fld j g1 v g2).2.2.1
        have := h.disj i j h1 g1 hij w v h2 g2
        exact Or.inr ⟨v.length, Or.inl (Or.inr (Or.inr (Or.inr (Or.inr ⟨j, v, g1, g2, by omega, rfl⟩))))⟩
    · rcases cellsAt_next q1 with h1 | ⟨q', h1, h2⟩
      · exact Or.inl (by omega)
      · exact Or.inr ⟨q'.2.length, Or.inr ⟨q', h1, by omega, rfl⟩⟩
  · rw [hC.base]; exact hfirst
  · rintro x l ((h1 | h1 | ⟨i, hi, h1⟩ | h1 | ⟨i, w, h1, h2, h3⟩) | ⟨q, q1, q2, q3⟩)
    · rw [h1.1]; exact hsome h.vl
    · rw [h1.1]; exact hsome h.tl
    · rw [h1.1]; exact hsome (h.slot i hi)
    · rw [h1.1]; exact hsome h.soff
    · rw [h3.1]; exact hsome (h.fld i h1 w h2).2.2
    · rw [q2]; exact hsome (hps q q1)
  · rintro x l (h1 | ⟨q, q1, q2, q3⟩)
    · have := hcl x l h1; omega
    · have := cellsAt_mem q1; omega

/-- Wherever the pieces are stored, they are a table with these field values. -/
structure Carries (s : Sch) (nm : Name) (ps : List Bytes) (cur : Nat → Option Bytes) (vo : Nat → Nat) : Prop where
  tab : InlPs s nm ps vo
  abs : ∀ i, i < (s.fields nm).length → cur i = none → vo i = 0
  fld : ∀ i, i < (s.fields nm).length → ∀ w, cur i = some w → vo i ≠ 0 ∧ InP ps (4 + 2 * (s.fields nm).length + vo i) w

theorem Carries.absent {s : Sch} {nm : Name} {ps : List Bytes} {cur : Nat → Option Bytes} {vo : Nat → Nat} (h : Carries s nm ps cur vo)
    (hT : InlTab s nm) {b : Base} {x : Nat} {c : CNode} (hb : HoldsC b (cellsAt x ps)) (hn : c.name = nm) (hio : c.io = b)
    (hp : c.pos = x + (4 + 2 * (s.fields nm).length)) {i : Nat} (hi : i < (s.fields nm).length) (hc : cur i = none) :
    c.fieldAt s i = some none := by
  unfold CNode.fieldAt
  rw [hn, hT.nst, h.tab.isZero hT hb hio hp hi, h.abs i hi hc]
  rfl

theorem Carries.present {s : Sch} {nm : Name} {ps : List Bytes} {cur : Nat → Option Bytes} {vo : Nat → Nat} (h : Carries s nm ps cur vo)
    (hT : InlTab s nm) {b : Base} {x : Nat} {c : CNode} (hb : HoldsC b (cellsAt x ps)) (hn : c.name = nm) (hio : c.io = b)
    (hp : c.pos = x + (4 + 2 * (s.fields nm).length)) {i : Nat} (hi : i < (s.fields nm).length) {w : Bytes} (hc : cur i = some w) :
    ∃ nd, c.fieldAt s i = some (some nd) ∧ nd.name = ((s.fields nm)[i]).tname ∧ Holds nd.io nd.pos w := by
  obtain ⟨h0, h1⟩ := h.fld i hi w hc
  have hg := (hT.inl _ (List.getElem_mem hi)).1
  have hfT : c.fieldT s (i : Int) = (s.fields nm)[i] := by
    unfold CNode.fieldT
    rw [if_neg (by omega), hn, Int.toNat_natCast, List.getElem?_eq_getElem hi]; rfl
  have hH : Holds c.io (c.pos + vo i) w := by
    have := h1 b x hb
    rw [hio, hp, Nat.add_assoc]; exact this
  unfold CNode.fieldAt
  rw [hn, hT.nst, h.tab.isZero hT hb hio hp hi, hfT, h.tab.vtab hT hb hio hp hi]
  simp only [Option.bind_eq_bind, Option.bind_some, h0, decide_false, Bool.false_eq_true, if_false]
  by_cases hstr : ((s.fields nm)[i]).grp = ftStruct
  · rw [if_pos (by rw [hstr]; decide)]
    exact ⟨_, rfl, rfl, hH⟩
  · obtain ⟨f1, f2, f3, f4, f5, f6⟩ := inlGrp_flags hg hstr
    simp only [f1, f2, f3, f4, f5, f6, if_true, Bool.false_eq_true, if_false]
    exact ⟨_, rfl, rfl, hH⟩

/-- A table built by `Init` and settings of its scalar and struct fields can be stored in lists and fields. -/
theorem rep_src {s : Sch} {nm : Name} (hT : InlTab s nm) {c : CNode} {cur : Nat → Option Bytes} (h : Rep s nm c cur none)
    (hne : ∃ i, i < (s.fields nm).length ∧ cur i ≠ none)
    (hab : ∀ i fd, (s.fields nm)[i]? = some fd → cur i = none → fd.grp ≠ ftStruct →
      fieldWidth s fd ≤ dataLen (s.fields nm).length cur) :
    ∃ ps vo, TSrc s 3 nm (4 + 2 * (s.fields nm).length) c ⟨ps, dataLen (s.fields nm).length cur⟩ ∧
      c.io.content.Spells 0 ps.flatten ∧ Carries s nm ps cur vo := by
  obtain ⟨t, vo, fx, hI, hV, hcur, hN, hB, hW, ht, hCel, hsz⟩ := h.ex
  have hC := hCel trivial
  have hfc : ∀ i, i < (s.fields nm).length → fx i = cur i := by
    intro i hi
    exact hcur i _ (List.getElem?_eq_getElem hi) (hT.inl _ (List.getElem_mem hi)).1
  have htd : t = dataLen (s.fields nm).length cur := by
    rw [ht]; unfold dataLen
    congr 2
    apply List.map_congr_left
    intro i hi
    rw [hfc i (List.mem_range.mp hi)]
  rw [← htd] at hab ⊢
  obtain ⟨hcs, hbd⟩ := hI.cells (ps := []) hC (fun q hq => by cases hq)
  simp only [show tot [] = 0 from rfl, Nat.add_zero] at hcs hbd
  obtain ⟨ps, p1, p2, p3, p4⟩ := hcs.reads hbd (4 + 2 * (s.fields nm).length + t) 0 (by omega) (by omega)
    (Or.inr ⟨2, Or.inl (Or.inl ⟨rfl, rfl⟩)⟩)
  have hin : ∀ x w, TI.Cell (s.fields nm).length vo fx x w.length → Holds c.io x w → InP ps x w := by
    intro x w h1 h2
    have := p4 x w (Or.inl h1) (by omega) h2.2.2
    rwa [Nat.sub_zero] at this
  have hps : InlPs s nm ps vo := by
    refine ⟨hin _ _ (Or.inl ⟨rfl, putLE_length ..⟩) hI.vl, ⟨t, hin _ _ (Or.inr (Or.inl ⟨rfl, putLE_length ..⟩)) hI.tl⟩, ?_,
      hin _ _ (Or.inr (Or.inr (Or.inr (Or.inl ⟨rfl, putLE_length ..⟩)))) hI.soff⟩
    intro i hi
    exact ⟨hI.vo_lt hi, hin _ _ (Or.inr (Or.inr (Or.inl ⟨i, hi, rfl, putLE_length ..⟩))) (hI.slot i hi)⟩
  have ht4 := hI.t4
  have hm : extMax (exts s nm vo) = t := by
    refine extMax_eq ?_ ?_
    · intro e he
      unfold exts at he
      obtain ⟨i, hi, rfl⟩ := List.mem_map.mp he
      rw [List.mem_range] at hi
      have hfi : (s.fields nm)[i]? = some (s.fields nm)[i] := List.getElem?_eq_getElem hi
      rw [hfi]
      simp only [Option.getD_some]
      unfold fieldExt
      split
      · omega
      · rename_i hh
        cases hfx : fx i with
        | none =>
          have h0 := hI.abs i hi hfx
          have := hab i _ hfi (by rw [← hfc i hi]; exact hfx) (fun hg => hh ⟨hg, h0⟩)
          omega
        | some w =>
          have h1 := (hI.fld i hi w hfx).2.1
          have h2 := hW i _ w hfi hfx
          omega
    · rcases hC.last with h4 | ⟨i, w, g1, g2, g3⟩
      · exfalso
        obtain ⟨i, hi, hcu⟩ := hne
        rw [← hfc i hi] at hcu
        cases hfx : fx i with
        | none => exact hcu hfx
        | some w =>
          obtain ⟨g1, g2, g3⟩ := hI.fld i hi w hfx
          have := List.length_pos_iff.mpr g3.1
          omega
      · unfold exts
        refine List.mem_map.mpr ⟨i, List.mem_range.mpr g1, ?_⟩
        have hfi : (s.fields nm)[i]? = some (s.fields nm)[i] := List.getElem?_eq_getElem g1
        rw [hfi]
        simp only [Option.getD_some]
        unfold fieldExt
        have h1 := (hI.fld i g1 w g2).1
        have h2 := hW i _ w hfi g2
        rw [if_neg (by omega)]
        omega
  have hself := hps.selfC hT hm (by omega) (by omega)
  refine ⟨ps, vo, ⟨hI.name, by rw [hI.pos]; exact Nat.le_refl _, by rw [hI.pos, Nat.sub_self]; exact p1, hself, Or.inr ⟨by omega, ?_⟩⟩, holdsC_spells p3, hps, ?_, ?_⟩
  · intro k hk
    exact ⟨_, hself.info c.io 0 p3 k hk c hI.name rfl (by rw [hI.pos, Nat.zero_add])⟩
  · intro i hi hc
    exact hI.abs i hi (by rw [hfc i hi]; exact hc)
  · intro i hi w hc
    have hfx : fx i = some w := by rw [hfc i hi]; exact hc
    obtain ⟨g1, g2, g3⟩ := hI.fld i hi w hfx
    exact ⟨by omega, hin _ _ (Or.inr (Or.inr (Or.inr (Or.inr ⟨i, w, hi, hfx, rfl, rfl⟩)))) g3⟩

end Fbs
