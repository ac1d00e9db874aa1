import Verif.NodeLemmas
/-!
# Cells: byte strings stored without an internal segment boundary

`Holds b x w`: the bytes `w` are stored at `x` and no segment starts or ends strictly inside them, so that a
single `R(x)` returns all of them.  The lemmas say how the editing operations act on cells.
-/

namespace Fbs

/-- `e` is the start or end of a segment, or the end of the initial bytes. -/
def Base.Edge (b : Base) (e : Nat) : Prop :=
  b.bytes.len = e ∨ ∃ d ∈ b.diffs, d.off = e ∨ d.off + d.sl.len = e

theorem noCut_iff (b : Base) (x n : Nat) : b.NoCut x n ↔ ∀ e, b.Edge e → ¬ (x < e ∧ e < x + n) := by
  unfold Base.NoCut Base.Edge
  constructor
  · rintro ⟨h1, h2⟩ e (rfl | ⟨d, hd, rfl | rfl⟩)
    · exact h2
    · exact (h1 d hd).1
    · exact (h1 d hd).2
  · intro h
    exact ⟨fun d hd => ⟨h _ (Or.inr ⟨d, hd, Or.inl rfl⟩), h _ (Or.inr ⟨d, hd, Or.inr rfl⟩)⟩, h _ (Or.inl rfl)⟩

def Holds (b : Base) (x : Nat) (w : Bytes) : Prop :=
  w ≠ [] ∧ b.NoCut x w.length ∧ b.content.Spells x w

/-- No segment straddles position `x`. -/
def Clean (b : Base) (x : Nat) : Prop := ∀ d ∈ b.diffs, ¬ Straddles x d

theorem holds_read {b : Base} {x : Nat} {w : Bytes} (h : Holds b x w) (req : Nat) :
    w.length ≤ (b.R x req).len ∧ (b.R x req).data.take w.length = w := by
  obtain ⟨hne, hc, hs⟩ := h
  have hl : 0 < w.length := List.length_pos_iff.mpr hne
  have h0 : (b.content x).isSome := by
    have := hs 0 hl
    rw [Nat.add_zero] at this
    rw [this, List.getElem?_eq_getElem hl]; rfl
  obtain ⟨h1, h2⟩ := R_spells hc h0
  have hd : (b.R x req).data = (b.R x w.length).data := by rw [R_data, R_data]
  have hlen : (b.R x req).len = (b.R x w.length).len := by simp only [Slice.len, hd]
  refine ⟨by rw [hlen]; exact h1, ?_⟩
  rw [hd]
  have hll : ((b.R x w.length).data.take w.length).length = w.length := by
    rw [List.length_take]; simp only [Slice.len] at h1; omega
  apply List.ext_getElem?
  intro k
  by_cases hk : k < w.length
  · have := h2 k (by rw [hll]; exact hk)
    rw [← this, hs k hk]
  · rw [List.getElem?_eq_none (by omega), List.getElem?_eq_none (by omega)]

theorem holds_getLE {b : Base} {x k v : Nat} (h : Holds b x (putLE k v)) (req : Nat) :
    getLE k (b.R x req).data = some (v % 256 ^ k) := by
  obtain ⟨h1, h2⟩ := holds_read h req
  rw [putLE_length] at h1 h2
  unfold getLE
  simp only [Slice.len] at h1
  rw [if_pos h1, h2, leVal_putLE]

theorem holds_getN {b : Base} {x k v : Nat} (h : Holds b x (putLE k v)) :
    b.getN k x = some (v % 256 ^ k) := by
  unfold Base.getN Base.Ri
  rw [if_neg (by omega)]
  simp only [Option.bind_eq_bind, Option.bind_some, Int.toNat_natCast]
  exact holds_getLE h k

/-- Any cell of `k` bytes is read as its little-endian value. -/
theorem holds_getN' {b : Base} {x : Nat} {w : Bytes} (h : Holds b x w) :
    b.getN w.length x = some (leVal w) := by
  obtain ⟨h1, h2⟩ := holds_read h w.length
  unfold Base.getN Base.Ri getLE
  rw [if_neg (by omega)]
  simp only [Option.bind_eq_bind, Option.bind_some, Int.toNat_natCast]
  simp only [Slice.len] at h1
  rw [if_pos h1, h2]

/-- A part of a cell is a cell. -/
theorem holds_sub {b : Base} {x : Nat} {w : Bytes} (h : Holds b x w) (i n : Nat) (hn : 0 < n)
    (hi : i + n ≤ w.length) : Holds b (x + i) ((w.drop i).take n) := by
  obtain ⟨hne, hc, hs⟩ := h
  have hl : ((w.drop i).take n).length = n := by rw [List.length_take, List.length_drop]; omega
  refine ⟨by intro he; rw [he] at hl; simp at hl; omega, ?_, ?_⟩
  · rw [hl, noCut_iff]
    rw [noCut_iff] at hc
    intro e he hh
    exact hc e he ⟨by omega, by omega⟩
  · intro k hk
    rw [hl] at hk
    rw [Nat.add_assoc, hs (i + k) (by omega), List.getElem?_take_of_lt (by omega), List.getElem?_drop]

/-! ## U -/

theorem dPrefix_mem {b : Base} {off size : Nat} {d : Diff} (h : d ∈ b.dPrefix off size) :
    (∀ e, d.off = e ∨ d.off + d.sl.len = e → b.Edge e ∨ e = off ∨ e = off + size) ∧
    (d ∈ b.diffs ∨ (off ≤ d.off ∧ d.off + d.sl.len = off + size) ∨
      (∃ d0 ∈ b.diffs, d0.off ≤ d.off ∧ d.off + d.sl.len ≤ d0.off + d0.sl.len)) := by
  unfold Base.dPrefix at h
  unfold Base.D at h
  cases hl : lastIndexOf (fun d => d.covers off) b.diffs with
  | none =>
    simp only [hl, List.dropLast_concat] at h
    split at h
    · rename_i hc
      simp only [List.mem_append, List.mem_singleton] at h
      rcases h with h | rfl
      · exact ⟨fun e he => Or.inl (Or.inr ⟨d, h, he⟩), Or.inl h⟩
      · have hlen : ((b.bytes.arr.take (off + size)).drop off).length = size := by
          rw [List.length_drop, List.length_take]
          have : b.bytes.arr.length = b.bytes.cap := by simp [Slice.arr, Slice.cap]
          omega
        refine ⟨fun e he => ?_, Or.inr (Or.inl ?_)⟩
        · simp only [Slice.len, hlen] at he
          rcases he with he | he
          · exact Or.inr (Or.inl he.symm)
          · exact Or.inr (Or.inr he.symm)
        · simp only [Slice.len, hlen]; exact ⟨Nat.le_refl _, trivial⟩
    · exact ⟨fun e he => Or.inl (Or.inr ⟨d, h, he⟩), Or.inl h⟩
  | some sn =>
    obtain ⟨d0, hd0, hcov⟩ := lastIndexOf_lt hl
    rw [covers_iff] at hcov
    simp only [hl, hd0] at h
    have hmem0 : d0 ∈ b.diffs := List.mem_of_getElem? hd0
    have hsn : sn < b.diffs.length := (List.getElem?_eq_some_iff.mp hd0).1
    split at h
    · simp only [List.dropLast_concat] at h
      exact ⟨fun e he => Or.inl (Or.inr ⟨d, h, he⟩), Or.inl h⟩
    · rename_i hlt
      simp only [List.dropLast_concat] at h
      rw [insertOr_of_le (by rw [List.length_set]; omega)] at h
      simp only [List.mem_append, List.mem_singleton, or_assoc] at h
      have hbefore : ∀ e : Diff, e = ⟨d0.off, ⟨d0.sl.data.take (off + size - d0.off),
          d0.sl.data.drop (off + size - d0.off) ++ d0.sl.spare⟩⟩ →
          (∀ x, e.off = x ∨ e.off + e.sl.len = x → b.Edge x ∨ x = off ∨ x = off + size) ∧
          (e ∈ b.diffs ∨ (off ≤ e.off ∧ e.off + e.sl.len = off + size) ∨
            (∃ d0 ∈ b.diffs, d0.off ≤ e.off ∧ e.off + e.sl.len ≤ d0.off + d0.sl.len)) := by
        rintro e rfl
        have hl2 : (d0.sl.data.take (off + size - d0.off)).length = off + size - d0.off := by
          rw [List.length_take]; simp only [Slice.len] at hlt hcov; omega
        refine ⟨?_, Or.inr (Or.inr ⟨d0, hmem0, Nat.le_refl _, ?_⟩)⟩
        · rintro x (rfl | rfl)
          · exact Or.inl (Or.inr ⟨d0, hmem0, Or.inl rfl⟩)
          · right; right; simp only [Slice.len, hl2]; omega
        · simp only [Slice.len, hl2]; simp only [Slice.len] at hlt; omega
      have hset : ∀ e, e ∈ b.diffs.set sn ⟨d0.off, ⟨d0.sl.data.take (off + size - d0.off),
          d0.sl.data.drop (off + size - d0.off) ++ d0.sl.spare⟩⟩ →
          (∀ x, e.off = x ∨ e.off + e.sl.len = x → b.Edge x ∨ x = off ∨ x = off + size) ∧
          (e ∈ b.diffs ∨ (off ≤ e.off ∧ e.off + e.sl.len = off + size) ∨
            (∃ d0 ∈ b.diffs, d0.off ≤ e.off ∧ e.off + e.sl.len ≤ d0.off + d0.sl.len)) := by
        intro e he
        rcases List.mem_or_eq_of_mem_set he with he | he
        · exact ⟨fun x hx => Or.inl (Or.inr ⟨e, he, hx⟩), Or.inl he⟩
        · exact hbefore e he
      rcases h with h | h | h
      · exact hset d (List.mem_of_mem_take h)
      · subst h
        have hl3 : (d0.sl.data.drop (off - d0.off + size)).length = d0.sl.len - (off - d0.off + size) := by
          rw [List.length_drop]; rfl
        refine ⟨?_, Or.inr (Or.inr ⟨d0, hmem0, by simp only; omega, ?_⟩)⟩
        · rintro x (rfl | rfl)
          · exact Or.inr (Or.inr rfl)
          · left; right
            refine ⟨d0, hmem0, Or.inr ?_⟩
            simp only [Slice.len, List.length_drop] at *; omega
        · simp only [Slice.len, List.length_drop] at *; omega
      · exact hset d (List.mem_of_mem_drop h)

theorem updateU_struct (b : Base) (off size : Nat) (w : Bytes) (hw : w.length = size) :
    b.updateU off size w = { bytes := b.bytes, diffs := b.dPrefix off size ++ [⟨off, ⟨w, []⟩⟩], seekCur := b.seekCur } := by
  subst hw; exact updateU_diffs b off w

theorem edge_updateU {b : Base} {off size : Nat} {w : Bytes} (hw : w.length = size) {e : Nat}
    (h : (b.updateU off size w).Edge e) : b.Edge e ∨ e = off ∨ e = off + size := by
  rw [updateU_struct b off size w hw] at h
  rcases h with h | ⟨d, hd, he⟩
  · exact Or.inl (Or.inl h)
  · simp only [List.mem_append, List.mem_singleton] at hd
    rcases hd with hd | rfl
    · exact (dPrefix_mem hd).1 e he
    · simp only [Slice.len] at he
      rcases he with he | he
      · exact Or.inr (Or.inl he.symm)
      · exact Or.inr (Or.inr (by omega))

theorem clean_updateU {b : Base} {off size : Nat} {w : Bytes} (hw : w.length = size) {x : Nat}
    (h : Clean b x) (hx : x ≤ off ∨ off + size ≤ x) : Clean (b.updateU off size w) x := by
  rw [updateU_struct b off size w hw]
  intro d hd
  simp only [List.mem_append, List.mem_singleton] at hd
  unfold Straddles
  rcases hd with hd | rfl
  · rcases (dPrefix_mem hd).2 with h1 | ⟨h1, h2⟩ | ⟨d0, h1, h2, h3⟩
    · exact h d h1
    · omega
    · have := h d0 h1; unfold Straddles at this; omega
  · simp only [Slice.len]; omega

theorem holds_updateU_same {b : Base} {off : Nat} {w : Bytes} (hne : w ≠ []) (hc : b.NoCut off w.length) :
    Holds (b.updateU off w.length w) off w := by
  refine ⟨hne, ?_, ?_⟩
  · rw [noCut_iff] at hc ⊢
    intro e he
    rcases edge_updateU rfl he with h | h | h
    · exact hc e h
    · omega
    · omega
  · intro k hk
    rw [updateU_content b off w.length w rfl, put_apply, if_pos (by omega)]
    congr 1; omega

theorem noCut_updateU {b : Base} {off size x n : Nat} {w : Bytes} (hw : w.length = size) (h : b.NoCut x n)
    (hd : x + n ≤ off ∨ off + size ≤ x ∨ (x = off ∧ n = size)) : (b.updateU off size w).NoCut x n := by
  rw [noCut_iff] at h ⊢
  intro e he
  rcases edge_updateU hw he with h' | h' | h'
  · exact h e h'
  · omega
  · omega

theorem holds_updateU_other {b : Base} {off size x : Nat} {w v : Bytes} (hw : w.length = size) (h : Holds b x v)
    (hd : x + v.length ≤ off ∨ off + size ≤ x) : Holds (b.updateU off size w) x v := by
  obtain ⟨hne, hc, hs⟩ := h
  refine ⟨hne, noCut_updateU hw hc (by omega), ?_⟩
  intro k hk
  rw [updateU_content b off size w hw, put_apply, if_neg (by omega)]
  exact hs k hk

/-! ## insertSpace -/

theorem insertSpace_diffs {b : Base} {pos size : Nat} (hcl : Clean b pos) (cr : Bool) :
    (b.insertSpace pos size cr).bytes = (if b.bytes.len > pos then ⟨b.bytes.data.take pos, []⟩ else b.bytes) ∧
    (b.insertSpace pos size cr).diffs =
      (if b.bytes.len > pos then [⟨pos + size, ⟨b.bytes.data.drop pos, b.bytes.spare⟩⟩] else []) ++
      b.diffs.map (shiftD pos size) ++ (if cr then [⟨pos, .make size⟩] else []) := by
  constructor
  · rfl
  · unfold Base.insertSpace
    rw [split_none hcl]
    simp only [insertOr_zero]
    have : (b.diffs.map fun d => if d.off ≥ pos then (⟨d.off + size, d.sl⟩ : Diff) else d) = b.diffs.map (shiftD pos size) := rfl
    rw [this]
    split <;> split <;> simp

theorem edge_insertSpace {b : Base} {pos size : Nat} (hcl : Clean b pos) {cr : Bool} {e : Nat}
    (h : (b.insertSpace pos size cr).Edge e) :
    e = pos ∨ e = pos + size ∨ (b.Edge e ∧ e ≤ pos) ∨ (∃ e0, b.Edge e0 ∧ pos ≤ e0 ∧ e = e0 + size) := by
  obtain ⟨h1, h2⟩ := insertSpace_diffs (size := size) hcl cr
  unfold Base.Edge at h
  rw [h1, h2] at h
  rcases h with h | ⟨d, hd, he⟩
  · split at h
    · left; simp only [Slice.len, List.length_take] at *; omega
    · right; right; left; exact ⟨Or.inl h, by omega⟩
  · simp only [List.mem_append, List.mem_map] at hd
    rcases hd with (hd | ⟨d0, hd0, rfl⟩) | hd
    · split at hd
      · rename_i hlt
        simp only [List.mem_singleton] at hd
        subst hd
        simp only [Slice.len, List.length_drop] at *
        rcases he with he | he
        · exact Or.inr (Or.inl he.symm)
        · right; right; right
          exact ⟨b.bytes.len, Or.inl rfl, by simp only [Slice.len]; omega, by simp only [Slice.len]; omega⟩
      · simp at hd
    · have hst := hcl d0 hd0
      unfold Straddles at hst
      unfold shiftD at he
      split at he
      · rename_i hge
        right; right; right
        simp only at he
        rcases he with he | he
        · exact ⟨d0.off, Or.inr ⟨d0, hd0, Or.inl rfl⟩, hge, he.symm⟩
        · exact ⟨d0.off + d0.sl.len, Or.inr ⟨d0, hd0, Or.inr rfl⟩, by omega, by omega⟩
      · right; right; left
        exact ⟨Or.inr ⟨d0, hd0, he⟩, by rcases he with he | he <;> omega⟩
    · split at hd
      · simp only [List.mem_singleton] at hd
        subst hd
        simp only [Slice.make, Slice.len, zeros, List.length_replicate] at he
        rcases he with he | he
        · exact Or.inl he.symm
        · exact Or.inr (Or.inl he.symm)
      · simp at hd

theorem clean_amo {b : Base} {pos : Nat} (h : Clean b pos) : AtMostOneStraddle pos b.diffs := by
  unfold AtMostOneStraddle
  exact Or.inl h

theorem holds_insertSpace_lt {b : Base} {pos size x : Nat} {w : Bytes} (hcl : Clean b pos) {cr : Bool}
    (h : Holds b x w) (hx : x + w.length ≤ pos) : Holds (b.insertSpace pos size cr) x w := by
  obtain ⟨hne, hc, hs⟩ := h
  have hl : 0 < w.length := List.length_pos_iff.mpr hne
  refine ⟨hne, ?_, ?_⟩
  · rw [noCut_iff] at hc ⊢
    intro e he
    rcases edge_insertSpace hcl he with h | h | ⟨h, h'⟩ | ⟨e0, h0, h', h''⟩
    · omega
    · omega
    · exact hc e h
    · omega
  · intro k hk
    have key : (b.insertSpace pos size false).content (x + k) = w[k]? := by
      rw [insertSpace_core b pos size (clean_amo hcl) (x + k) (Or.inl (by omega))]
      unfold ByteMap.openGap
      rw [if_pos (by omega)]
      exact hs k hk
    cases cr with
    | false => exact key
    | true =>
      rw [insertSpace_create, put_apply, if_neg (by omega)]
      exact key

theorem holds_insertSpace_ge {b : Base} {pos size x : Nat} {w : Bytes} (hcl : Clean b pos) {cr : Bool}
    (h : Holds b x w) (hx : pos ≤ x) : Holds (b.insertSpace pos size cr) (x + size) w := by
  obtain ⟨hne, hc, hs⟩ := h
  have hl : 0 < w.length := List.length_pos_iff.mpr hne
  refine ⟨hne, ?_, ?_⟩
  · rw [noCut_iff] at hc ⊢
    intro e he
    rcases edge_insertSpace hcl he with h | h | ⟨h, h'⟩ | ⟨e0, h0, h', h''⟩
    · omega
    · omega
    · omega
    · have := hc e0 h0; omega
  · intro k hk
    have key : (b.insertSpace pos size false).content (x + size + k) = w[k]? := by
      rw [insertSpace_core b pos size (clean_amo hcl) _ (Or.inr (by omega))]
      unfold ByteMap.openGap
      rw [if_neg (by omega), if_neg (by omega)]
      have : x + size + k - size = x + k := by omega
      rw [this]
      exact hs k hk
    cases cr with
    | false => exact key
    | true =>
      rw [insertSpace_create, put_apply, if_neg (by simp only [zeros, List.length_replicate]; omega)]
      exact key

/-- The inserted space has no edge inside, and its ends are clean. -/
theorem noCut_insertSpace {b : Base} {pos size : Nat} (hcl : Clean b pos) {cr : Bool} :
    (b.insertSpace pos size cr).NoCut pos size := by
  rw [noCut_iff]
  intro e he
  rcases edge_insertSpace hcl he with h | h | ⟨h, h'⟩ | ⟨e0, h0, h', h''⟩ <;> omega

theorem holds_insertSpace_new {b : Base} {pos size : Nat} (hcl : Clean b pos) (hs : 0 < size) :
    Holds (b.insertSpace pos size true) pos (zeros size) := by
  have hl : (zeros size).length = size := by simp [zeros]
  refine ⟨by intro h; rw [h] at hl; simp at hl; omega, ?_, ?_⟩
  · rw [hl]; exact noCut_insertSpace hcl
  · intro k hk
    rw [insertSpace_create, put_apply, if_pos (by omega)]
    congr 1; omega

theorem clean_insertSpace {b : Base} {pos size x : Nat} (hcl : Clean b pos) {cr : Bool}
    (h : (x ≤ pos ∧ Clean b x) ∨ (pos + size ≤ x ∧ Clean b (x - size) ∧
      (b.bytes.len ≤ pos ∨ x = pos + size ∨ b.bytes.len + size ≤ x))) :
    Clean (b.insertSpace pos size cr) x := by
  obtain ⟨-, h2⟩ := insertSpace_diffs (size := size) hcl cr
  intro d hd
  rw [h2] at hd
  simp only [List.mem_append, List.mem_map] at hd
  unfold Straddles
  rcases hd with (hd | ⟨d0, hd0, rfl⟩) | hd
  · split at hd
    · simp only [List.mem_singleton] at hd
      subst hd
      -- the bytes after `pos` become one segment
      rename_i hlt
      simp only [Slice.len, List.length_drop] at *
      omega
    · simp at hd
  · have hst := hcl d0 hd0
    have h3 : x ≤ pos ∧ ¬ Straddles x d0 ∨ pos + size ≤ x ∧ ¬ Straddles (x - size) d0 := by
      rcases h with ⟨a, b⟩ | ⟨a, b, -⟩
      · exact Or.inl ⟨a, b d0 hd0⟩
      · exact Or.inr ⟨a, b d0 hd0⟩
    unfold Straddles at h3 hst
    unfold shiftD
    split
    · simp only; omega
    · omega
  · split at hd
    · simp only [List.mem_singleton] at hd
      subst hd
      simp only [Slice.make, Slice.len, zeros, List.length_replicate]
      omega
    · simp at hd

/-! ## Copy of one piece -/

theorem copyLoop_one (rd : Nat → Nat → Slice) (srcOff dst size : Nat) (hs : 0 < size)
    (h : size ≤ (rd srcOff size).len) (ds : List Diff) :
    Base.copyLoop rd srcOff dst 0 size ds = ds ++ [⟨dst, Base.clip (rd srcOff size) size⟩] := by
  have hc : (Base.clip (rd srcOff size) size).len = size := by rw [Base.clip_len]; omega
  rw [Base.copyLoop]
  simp only [Nat.add_zero]
  rw [if_neg (by omega), if_neg (by omega), hc, Nat.sub_self, Base.copyLoop, if_pos rfl, Nat.zero_add]

/-- The piece a one-piece copy appends. -/
theorem clip_holds {src : Base} {x : Nat} {w : Bytes} (h : Holds src x w) (req : Nat) :
    (Base.clip (src.R x req) w.length).data = w := by
  rw [clip_data]; exact (holds_read h req).2

theorem copy_one {b src : Base} {srcOff dst ext : Nat} {w : Bytes} (h : Holds src srcOff w) :
    ∃ sp, b.copy (fun p n => src.R p n) srcOff w.length dst ext =
      { b with diffs := (b.copyExtend dst ext).diffs ++ [⟨dst, ⟨w, sp⟩⟩] } := by
  have hl : 0 < w.length := List.length_pos_iff.mpr h.1
  have hr := holds_read h w.length
  refine ⟨(Base.clip (src.R srcOff w.length) w.length).spare, ?_⟩
  have key := copyLoop_one (fun p n => src.R p n) srcOff dst w.length hl hr.1 (b.copyExtend dst ext).diffs
  have e : Base.clip (src.R srcOff w.length) w.length =
      ⟨w, (Base.clip (src.R srcOff w.length) w.length).spare⟩ := by
    have := clip_holds h w.length
    cases hc : Base.clip (src.R srcOff w.length) w.length with
    | mk d sp => rw [hc] at this; simp only at this; rw [this]
  rw [e] at key
  unfold Base.copy
  simp only
  rw [key]
  rfl

/-- `copyExtend` without extension only adds edges at the destination and at the end of the bytes. -/
theorem edge_copyExtend_zero {b : Base} {dst e : Nat}
    (h : (b.copyExtend dst 0).Edge e) : b.Edge e ∨ e = dst := by
  rcases h with h | ⟨d, hd, he⟩
  · exact Or.inl (Or.inl h)
  · unfold Base.copyExtend at hd
    simp only [Nat.add_zero] at hd
    have hmap : ∀ (l : List Diff), (l.map fun d => if d.off ≥ dst then (⟨d.off, d.sl⟩ : Diff) else d) = l := by
      intro l
      have : (fun d : Diff => if d.off ≥ dst then (⟨d.off, d.sl⟩ : Diff) else d) = id := by
        funext d; split <;> rfl
      rw [this, List.map_id]
    rw [hmap] at hd
    split at hd
    · rename_i hlt
      rw [insertOr_zero] at hd
      simp only [List.mem_append, List.mem_singleton] at hd
      rcases hd with rfl | hd
      · simp only [Slice.len, List.length_drop] at *
        rcases he with he | he
        · exact Or.inr he.symm
        · exact Or.inl (Or.inl (by simp only [Slice.len]; omega))
      · exact Or.inl (Or.inr ⟨d, hd, he⟩)
    · exact Or.inl (Or.inr ⟨d, hd, he⟩)

theorem edge_copy_zero {b src : Base} {srcOff dst e : Nat} {w : Bytes} (h : Holds src srcOff w)
    (he : (b.copy (fun p n => src.R p n) srcOff w.length dst 0).Edge e) :
    b.Edge e ∨ e = dst ∨ e = dst + w.length := by
  obtain ⟨sp, hc⟩ := copy_one (b := b) (dst := dst) (ext := 0) h
  rw [hc] at he
  rcases he with he | ⟨d, hd, he⟩
  · exact Or.inl (Or.inl he)
  · simp only [List.mem_append, List.mem_singleton] at hd
    rcases hd with hd | rfl
    · rcases edge_copyExtend_zero (Or.inr ⟨d, hd, he⟩) with h | h
      · exact Or.inl h
      · exact Or.inr (Or.inl h)
    · simp only [Slice.len] at he
      rcases he with he | he
      · exact Or.inr (Or.inl he.symm)
      · exact Or.inr (Or.inr he.symm)

theorem content_copy_zero {b src : Base} {srcOff dst : Nat} {w : Bytes} (h : Holds src srcOff w) :
    (b.copy (fun p n => src.R p n) srcOff w.length dst 0).content = b.content.put dst w := by
  obtain ⟨sp, hc⟩ := copy_one (b := b) (dst := dst) (ext := 0) h
  rw [hc]
  unfold Base.content
  simp only
  rw [contentOf_snoc]
  have := copyExtend_zero b dst
  unfold Base.content at this
  rw [← this]
  rfl

theorem holds_copy_same {b src : Base} {srcOff dst : Nat} {w : Bytes} (h : Holds src srcOff w)
    (hc : b.NoCut dst w.length) : Holds (b.copy (fun p n => src.R p n) srcOff w.length dst 0) dst w := by
  refine ⟨h.1, ?_, ?_⟩
  · rw [noCut_iff] at hc ⊢
    intro e he
    rcases edge_copy_zero h he with h' | h' | h'
    · exact hc e h'
    · omega
    · omega
  · intro k hk
    rw [content_copy_zero h, put_apply, if_pos (by omega)]
    congr 1; omega

theorem holds_copy_other {b src : Base} {srcOff dst x : Nat} {w v : Bytes} (h : Holds src srcOff w)
    (hv : Holds b x v) (hd : x + v.length ≤ dst ∨ dst + w.length ≤ x) :
    Holds (b.copy (fun p n => src.R p n) srcOff w.length dst 0) x v := by
  refine ⟨hv.1, ?_, ?_⟩
  · have hc := hv.2.1
    rw [noCut_iff] at hc ⊢
    intro e he
    rcases edge_copy_zero h he with h' | h' | h'
    · exact hc e h'
    · omega
    · omega
  · intro k hk
    rw [content_copy_zero h, put_apply, if_neg (by omega)]
    exact hv.2.2 k hk

theorem clean_copy_zero {b src : Base} {srcOff dst x : Nat} {w : Bytes} (h : Holds src srcOff w)
    (hx : Clean b x) (hd : x ≤ dst ∨ dst + w.length ≤ x) (hb : b.bytes.len ≤ x ∨ x ≤ dst) :
    Clean (b.copy (fun p n => src.R p n) srcOff w.length dst 0) x := by
  obtain ⟨sp, hc⟩ := copy_one (b := b) (dst := dst) (ext := 0) h
  rw [hc]
  intro d hmem
  simp only [List.mem_append, List.mem_singleton] at hmem
  unfold Straddles
  rcases hmem with hmem | rfl
  · unfold Base.copyExtend at hmem
    simp only [Nat.add_zero] at hmem
    have hmap : ∀ (l : List Diff), (l.map fun d => if d.off ≥ dst then (⟨d.off, d.sl⟩ : Diff) else d) = l := by
      intro l
      have : (fun d : Diff => if d.off ≥ dst then (⟨d.off, d.sl⟩ : Diff) else d) = id := by
        funext d; split <;> rfl
      rw [this, List.map_id]
    rw [hmap] at hmem
    split at hmem
    · rw [insertOr_zero] at hmem
      simp only [List.mem_append, List.mem_singleton] at hmem
      rcases hmem with rfl | hmem
      · simp only [Slice.len, List.length_drop] at *; omega
      · exact hx d hmem
    · exact hx d hmem
  · simp only [Slice.len]; omega

end Fbs
