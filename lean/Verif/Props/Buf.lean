import Verif.BufOps2
/-!
# Properties of the default (journaled) buffer

Observations are made through the API: `b.byte x` is the first byte of `R(x)`, `b.R x n` is
`R(x, Size(n))`, `b.lenBuf` is `LenBuf()`.
-/

namespace Fbs.Props
open Fbs

/-- Eight initial bytes with four pending, partly overlapping writes (one leaves a hole). -/
def sample : Base :=
  { bytes := ⟨[10, 11, 12, 13, 14, 15, 16, 17], [0, 0]⟩,
    diffs := [⟨2, ⟨[1, 2, 3, 4], []⟩⟩, ⟨3, ⟨[5, 6], [7]⟩⟩, ⟨12, ⟨[8], []⟩⟩] }

/-! ## C01 Flatten -/

/-- C01: `Flatten` keeps every byte (holes become zero), the length, and empties the journal; every
read afterwards is contiguous to the end of the buffer. -/
theorem flatten_preserves (b : Base) :
    (∀ x v, b.byte x = some v → b.flatten.byte x = some v) ∧
    (∀ x, b.byte x = none → b.flatten.byte x = if x < b.lenBuf then some 0 else none) ∧
    b.flatten.lenBuf = b.lenBuf ∧
    b.flatten.diffs = [] ∧
    (∀ x req, (b.flatten.R x req).len = b.lenBuf - x) := by
  have hl := (flatten_bytes b).1
  refine ⟨?_, ?_, ?_, rfl, ?_⟩
  · intro x v h
    rw [byte_eq_content] at h ⊢
    have hx : x < b.lenBuf := by
      by_cases hx : x < b.lenBuf
      · exact hx
      · rw [content_none_of_ge b x (by omega)] at h; simp at h
    rw [flatten_content, ByteMap.fill, if_pos hx, h]; rfl
  · intro x h
    rw [byte_eq_content] at h ⊢
    rw [flatten_content, ByteMap.fill, h]; rfl
  · rw [lenBuf_eq b.flatten]; exact hl
  · intro x req
    simp only [Slice.len]
    rw [R_data]
    by_cases hx : b.flatten.bytes.len < x
    · rw [writerR_beyond (by rfl) hx]
      simp only [Slice.len] at hx
      simp only [Slice.nil, List.length_nil]; omega
    · rw [writerR_uncovered (by rfl) (by omega)]
      have : b.flatten.stop x = b.flatten.bytes.len := rfl
      simp only [this, Slice.len, List.length_drop, List.length_take]
      omega

example : sample.lenBuf = 13 ∧ sample.byte 3 = some 5 ∧ sample.byte 9 = none ∧
    sample.flatten.byte 3 = some 5 ∧ sample.flatten.byte 9 = some 0 := by decide

/-! ## C03 WriteAt -/

/-- C03: a positioned write is read back exactly and touches nothing else. -/
theorem writeAt_reads_back (b : Base) (p : Bytes) (i : Nat) :
    (b.writeAt p i).2 = p.length ∧
    (∀ k, k < p.length → (b.writeAt p i).1.byte (i + k) = p[k]?) ∧
    (∀ x, x < i ∨ i + p.length ≤ x → (b.writeAt p i).1.byte x = b.byte x) ∧
    (b.writeAt p i).1.lenBuf = max b.lenBuf (i + p.length) := by
  refine ⟨rfl, ?_, ?_, writeAt_lenBuf b p i⟩
  · intro k hk
    rw [byte_eq_content, writeAt_content, put_apply, if_pos (by omega)]
    congr 1; omega
  · intro x hx
    rw [byte_eq_content, byte_eq_content, writeAt_content, put_apply, if_neg (by omega)]

/-- C03: a sized read of the range just written returns exactly the written bytes. -/
theorem writeAt_R (b : Base) (p : Bytes) (i : Nat) (h : p ≠ []) :
    ((b.writeAt p i).1.R i p.length).data = p := by
  rw [R_data]
  have : lastOf (fun d => d.covers i) (b.writeAt p i).1.diffs = some ⟨i, ⟨p, []⟩⟩ := by
    simp only [Base.writeAt]
    rw [lastOf_append, lastOf_singleton, if_pos]
    · rfl
    · rw [covers_iff]
      have := List.length_pos_iff.mpr h
      simp only [Slice.len]; omega
  rw [writerR_cover this]; simp

example : (sample.writeAt [9, 9, 9] 4).1.byte 5 = some 9 ∧ (sample.writeAt [9, 9, 9] 4).1.byte 3 = some 5 := by decide

/-! ## C04 update windows -/

/-- C04: filling the window returned by `U(off, size)` changes exactly those bytes. -/
theorem updateU_exact (b : Base) (off : Nat) (w : Bytes) :
    (∀ k, k < w.length → (b.updateU off w.length w).byte (off + k) = w[k]?) ∧
    (∀ x, x < off ∨ off + w.length ≤ x → (b.updateU off w.length w).byte x = b.byte x) ∧
    (b.updateU off w.length w).lenBuf = max b.lenBuf (off + w.length) := by
  refine ⟨?_, ?_, updateU_lenBuf b off _ w (Nat.le_refl _)⟩
  · intro k hk
    rw [byte_eq_content, updateU_content b off _ w rfl, put_apply, if_pos (by omega)]
    congr 1; omega
  · intro x hx
    rw [byte_eq_content, byte_eq_content, updateU_content b off _ w rfl, put_apply, if_neg (by omega)]

/-- C04: before it is filled, the window reads as zeros (not as the previous contents). -/
theorem U_zeroes (b : Base) (off size k : Nat) (hk : k < size) : (b.U off size).byte (off + k) = some 0 := by
  rw [byte_eq_content]
  unfold Base.U
  rw [D_setLast_content b off size _ (by simp [Slice.len, Slice.make, zeros]), put_apply]
  simp only [Slice.make, zeros, List.length_replicate]
  rw [if_pos (by omega), List.getElem?_replicate, if_pos (by omega)]

example : (sample.updateU 3 1 [42]).byte 3 = some 42 ∧ (sample.updateU 3 1 [42]).byte 4 = some 6 ∧
    (sample.updateU 3 1 [42]).byte 2 = some 1 := by decide

/-! ## C05 histories -/

/-- The concrete buffer denotes the abstract one. -/
def Rel (b : Base) (a : AbsBuf) : Prop := b.byte = a.map ∧ b.lenBuf = a.len ∧ b.seekCur = a.cur

/-- One step preserves the correspondence. -/
theorem step_refines (b : Base) (a : AbsBuf) (op : BufOp) (h : Rel b a) : Rel (b.step op) (a.step op) := by
  obtain ⟨h1, h2, h3⟩ := h
  have hc : b.content = a.map := by rw [← h1]; funext x; rw [byte_eq_content]
  have hb : ∀ b' : Base, b'.byte = b'.content := fun b' => funext (byte_eq_content b')
  cases op with
  | writeAt p i =>
    exact ⟨by rw [hb]; simp only [Base.step, AbsBuf.step, writeAt_content, hc],
      by simp only [Base.step, AbsBuf.step, writeAt_lenBuf, h2], h3⟩
  | write p =>
    refine ⟨?_, ?_, ?_⟩
    · rw [hb]
      have := writeAt_content b p b.seekCur
      rw [hc, h3] at this
      simpa only [Base.step, AbsBuf.step, Base.write, Base.content, h3] using this
    · have := writeAt_lenBuf b p b.seekCur
      rw [h2, h3] at this
      simpa only [Base.step, AbsBuf.step, Base.write, Base.lenBuf, h3] using this
    · simp [Base.step, AbsBuf.step, Base.write, Base.writeAt, h3]
  | update off w =>
    refine ⟨?_, ?_, ?_⟩
    · rw [hb]; simp only [Base.step, AbsBuf.step, updateU_content b off _ w rfl, hc]
    · simp only [Base.step, AbsBuf.step, updateU_lenBuf b off _ w (Nat.le_refl _), h2]
    · simp only [Base.step, AbsBuf.step, Base.updateU, D_setLast, h3]
  | flatten =>
    refine ⟨?_, ?_, h3⟩
    · rw [hb]; funext x
      simp only [Base.step, AbsBuf.step, flatten_content, hc, h2]
    · have := (flatten_preserves b).2.2.1
      simp only [Base.step, AbsBuf.step, this, h2]
  | dedup =>
    exact ⟨by rw [hb]; simp only [Base.step, AbsBuf.step, dedup_content, hc],
      by simp only [Base.step, AbsBuf.step, dedup_lenBuf, h2], h3⟩

/-- C05: any editing history on a buffer opened on `init` equals the byte-map semantics. -/
theorem history_refines (init : Slice) (ops : List BufOp) :
    Rel (ops.foldl Base.step (Base.new init))
      (ops.foldl AbsBuf.step { map := ByteMap.ofBytes init.data, len := init.data.length, cur := 0 }) := by
  have h0 : Rel (Base.new init) { map := ByteMap.ofBytes init.data, len := init.data.length, cur := 0 } :=
    ⟨funext (byte_eq_content _), rfl, rfl⟩
  revert h0
  generalize Base.new init = b
  generalize ({ map := ByteMap.ofBytes init.data, len := init.data.length, cur := 0 } : AbsBuf) = a
  intro h
  induction ops generalizing b a with
  | nil => exact h
  | cons op ops ih => exact ih _ _ (step_refines b a op h)

example : ([BufOp.write [1, 2, 3], .update 1 [9], .dedup, .writeAt [7] 6, .flatten, .write [5]].foldl Base.step
    (Base.new ⟨[0, 0], []⟩)).flatten.bytes.data = [1, 9, 3, 5, 0, 0, 7] := by decide

/-! ## C06 Dedup -/

/-- C06: `Dedup` is invisible to readers and only removes segments. -/
theorem dedup_invisible (b : Base) :
    b.dedup.byte = b.byte ∧ b.dedup.lenBuf = b.lenBuf ∧ b.dedup.diffs.Sublist b.diffs := by
  refine ⟨?_, dedup_lenBuf b, ?_⟩
  · funext x; rw [byte_eq_content, byte_eq_content, dedup_content]
  · rw [dedup_diffs]
    induction b.diffs with
    | nil => exact List.Sublist.slnil
    | cons d l ih =>
      simp only [dd]
      split
      · exact ih.cons d
      · exact ih.cons_cons d

/-- C06: exactly the segments covered by a *later* segment are dropped. -/
theorem dedup_drops (b : Base) (i : Nat) (d : Diff) (hi : b.diffs[i]? = some d) :
    (∃ j e, i < j ∧ b.diffs[j]? = some e ∧ e.off ≤ d.off ∧ d.off + d.sl.len ≤ e.off + e.sl.len) ↔
      Base.dedupPred b.diffs i = true := by
  unfold Base.dedupPred
  rw [hi]
  simp only [List.any_eq_true, Bool.and_eq_true, decide_eq_true_eq]
  constructor
  · rintro ⟨j, e, hj, he, h1, h2⟩
    refine ⟨e, ?_, h1, h2⟩
    apply List.mem_of_getElem? (i := j - (i + 1))
    rw [List.getElem?_drop]
    rw [← he]; congr 1; omega
  · rintro ⟨e, he, h1, h2⟩
    obtain ⟨j, hj⟩ := List.mem_iff_getElem?.mp he
    rw [List.getElem?_drop] at hj
    exact ⟨i + 1 + j, e, by omega, hj, h1, h2⟩

example : ({ bytes := ⟨[0], []⟩, diffs := [⟨2, ⟨[1], []⟩⟩, ⟨1, ⟨[4, 5, 6], []⟩⟩] } : Base).dedup.diffs.length = 1 := by
  decide

/-! ## C07-C09 merging -/

/-- C09: a two-segment merge succeeds exactly when the ranges overlap or touch, and is then the overlay
of the second over the first. -/
theorem mergeStable_overlay (d s : Diff) :
    (d.mergeStable s = none ↔ (d.off + d.sl.len < s.off ∨ s.off + s.sl.len < d.off)) ∧
    ∀ r, d.mergeStable s = some r →
      r.off = min d.off s.off ∧ r.off + r.sl.len = max (d.off + d.sl.len) (s.off + s.sl.len) ∧
      ∀ m : ByteMap, m.put r.off r.sl.data = (m.put d.off d.sl.data).put s.off s.sl.data := by
  constructor
  · rw [mergeStable_none]; unfold Touch; omega
  · intro r h
    obtain ⟨h1, h2, -, -, h3⟩ := mergeStable_some h
    exact ⟨h1, h2, h3⟩

example : Diff.mergeStable ⟨2, ⟨[1, 2], []⟩⟩ ⟨3, ⟨[7, 8], []⟩⟩ = some ⟨2, ⟨[1, 7, 8], []⟩⟩ := by decide

/-- C08: `MergeDiffs` returns (it is a total function), never increases the number of segments, and no
two segments of the result overlap or touch. -/
theorem mergeDiffs_fixpoint (b : Base) :
    b.mergeDiffs.diffs.length ≤ b.diffs.length ∧
    b.mergeDiffs.diffs.Pairwise (fun a b => a.off + a.sl.len < b.off ∨ b.off + b.sl.len < a.off) := by
  refine ⟨mergeLoop_length _, ?_⟩
  apply (mergeLoop_pairwise b.diffs).imp
  intro a b h
  rw [mergeStable_none] at h
  unfold Touch at h; omega

/-- C07 (partial): a byte on which all pending writes covering it agree (in particular a byte covered by
at most one pending write) is preserved by `MergeDiffs`.  Missing: bytes overwritten with different
values; see `mergeDiffs_fails`. -/
theorem mergeDiffs_preserves_partial (b : Base) (x : Nat) (v : UInt8)
    (h : ∀ d ∈ b.diffs, d.off ≤ x → x < d.off + d.sl.len → d.sl.data[x - d.off]? = some v) :
    b.mergeDiffs.byte x = b.byte x := by
  rw [byte_eq_content, byte_eq_content]
  have h' : ∀ d ∈ b.diffs, d.covers x = true → d.at x = some v := by
    intro d hd hc; have := (covers_iff d x).mp hc; exact h d hd this.1 this.2
  obtain ⟨h1, h2⟩ := mergeLoop_agree b.diffs x (some v) h'
  show contentOf (ByteMap.ofBytes b.bytes.data) (Base.mergeLoop b.diffs) x = _
  unfold Base.content
  rw [contentOf_agree h1, contentOf_agree h', h2]

/-- C07 (partial): whatever the overlaps, `MergeDiffs` never makes a byte readable or unreadable. -/
theorem mergeDiffs_coverage_partial (b : Base) (x : Nat) :
    (b.mergeDiffs.byte x).isSome = (b.byte x).isSome := by
  rw [byte_eq_content, byte_eq_content]
  have key : ∀ (bb : Base), (bb.content x).isSome =
      (bb.diffs.any (fun d => d.covers x) || decide (x < bb.bytes.data.length)) := by
    intro bb
    rw [content_eq]
    cases hl : lastOf (fun d => d.covers x) bb.diffs with
    | some d =>
      obtain ⟨h1, h2⟩ := lastOf_some hl
      have h3 : bb.diffs.any (fun d => d.covers x) = true := List.any_eq_true.mpr ⟨d, h1, h2⟩
      have h4 := (covers_iff d x).mp h2
      simp only [Slice.len] at h4
      rw [h3]
      simp only [Bool.true_or]
      rw [List.getElem?_eq_getElem (by omega)]; rfl
    | none =>
      have h3 : bb.diffs.any (fun d => d.covers x) = false := by
        rw [List.any_eq_false]; intro d hd; rw [lastOf_none.mp hl d hd]; simp
      rw [h3]
      simp only [Bool.false_or]
      by_cases hx : x < bb.bytes.data.length
      · rw [List.getElem?_eq_getElem hx]; simp [hx]
      · rw [List.getElem?_eq_none (by omega)]; simp [hx]
  rw [key, key]
  have := mergeLoop_any b.diffs x
  simp only [Base.mergeDiffs]
  rw [this]
  rfl

/-- C07 fails in general: three writes `[0,2)`, `[4,6)`, then `[1,5)`; byte 4 was last written by the
third, after `MergeDiffs` the second one shows. -/
theorem mergeDiffs_fails : ∃ (b : Base) (x : Nat), b.byte x = some 3 ∧ b.mergeDiffs.byte x = some 2 := by
  refine ⟨{ bytes := ⟨[0, 0, 0, 0, 0, 0], []⟩,
            diffs := [⟨0, ⟨[1, 1], []⟩⟩, ⟨4, ⟨[2, 2], []⟩⟩, ⟨1, ⟨[3, 3, 3, 3], []⟩⟩] }, 4, by decide, ?_⟩
  decide +kernel

/-! ## C10 interval predicates -/

/-- C10: `Include(pos)` is membership in the half-open range. -/
theorem include_iff (d : Diff) (pos : Nat) : d.incl pos = true ↔ d.off ≤ pos ∧ pos < d.off + d.sl.len := incl_iff d pos

/-- C10: `Included(pos,size)`: the segment *starts* inside `[pos, pos+size)`. -/
theorem included_iff (d : Diff) (pos size : Nat) : d.included pos size = true ↔ pos ≤ d.off ∧ d.off < pos + size := by
  unfold Diff.included
  rw [Bool.and_eq_true, decide_eq_true_eq, decide_eq_true_eq]; omega

/-- C10: `Inner(pos,size)`: `[pos, pos+size)` lies inside the segment (and `pos` itself does). -/
theorem inner_iff (d : Diff) (pos size : Nat) (hs : 0 < size) :
    d.inner pos size = true ↔ ∀ x, pos ≤ x → x < pos + size → d.off ≤ x ∧ x < d.off + d.sl.len := by
  unfold Diff.inner
  by_cases h : d.incl pos = true
  · simp only [h, Bool.not_true, Bool.false_eq_true, if_false, decide_eq_true_eq]
    rw [incl_iff] at h
    constructor
    · intro hh x h1 h2; omega
    · intro hh; have := hh (pos + size - 1) (by omega) (by omega); omega
  · simp only [h]
    simp only [Bool.not_false, if_true, Bool.false_eq_true, false_iff]
    intro hh
    exact h ((incl_iff d pos).mpr (hh pos (Nat.le_refl _) (by omega)))

/-- C10 (partial): `Innerd(pos,size)` is "the segment lies inside `[pos, pos+size)`" only when the ends
differ. -/
theorem innerd_iff_partial (d : Diff) (pos size : Nat) (hne : d.off + d.sl.len ≠ pos + size) :
    d.innerd pos size = true ↔ pos ≤ d.off ∧ d.off + d.sl.len ≤ pos + size := by
  unfold Diff.innerd
  split
  · simp; omega
  · simp only [decide_eq_true_eq]; omega

/-- C10 fails for `Innerd` at the boundary: a segment filling the range exactly is not recognised. -/
theorem innerd_fails : ∃ d : Diff, d.off = 2 ∧ d.off + d.sl.len = 2 + 3 ∧ d.innerd 2 3 = false :=
  ⟨⟨2, ⟨[1, 2, 3], []⟩⟩, by decide⟩

example : Diff.incl ⟨2, ⟨[1, 2], []⟩⟩ 3 = true ∧ Diff.incl ⟨2, ⟨[1, 2], []⟩⟩ 4 = false := by decide

/-! ## C11 sized reads -/

/-- C11 (partial): if no edge of a pending write lies strictly inside the range and its first byte is
readable, `R(off, Size(n))` returns at least `n` bytes and the first `n` are the current ones. -/
theorem R_sized_partial (b : Base) (off n : Nat) (hc : b.NoCut off n) (h0 : (b.byte off).isSome) :
    n ≤ (b.R off n).len ∧ ∀ k, k < n → (b.R off n).data[k]? = b.byte (off + k) := by
  rw [byte_eq_content] at h0
  obtain ⟨h1, h2⟩ := R_spells hc h0
  refine ⟨h1, fun k hk => ?_⟩
  rw [byte_eq_content, h2 k (by simp only [List.length_take]; simp only [Slice.len] at h1; omega),
    List.getElem?_take, if_pos hk]

/-- C11 (partial): if no pending write starts strictly inside an earlier one, every byte `R` returns (for
any requested size) is current. -/
theorem R_never_stale_partial (b : Base) (h : NoLateStart b.diffs) (off n k : Nat) (hk : k < (b.R off n).len) :
    (b.R off n).data[k]? = b.byte (off + k) := by
  rw [byte_eq_content]; exact R_current h off n k hk

/-- C11 fails in general: a later write inside an earlier one is not seen by a sized read starting
before it. -/
theorem R_sized_fails : ∃ (b : Base) (off n k : Nat), k < n ∧ n ≤ (b.R off n).len ∧
    (b.R off n).data[k]? = some 1 ∧ b.byte (off + k) = some 9 := by
  refine ⟨{ bytes := ⟨[], []⟩, diffs := [⟨0, ⟨[1, 1, 1, 1], []⟩⟩, ⟨2, ⟨[9], []⟩⟩] }, 0, 4, 2, ?_⟩
  decide

example : Base.NoCut { bytes := ⟨[1, 2, 3, 4, 5, 6, 7, 8], []⟩, diffs := [⟨4, ⟨[1, 2, 3, 4], []⟩⟩] } 4 4 := by
  simp [Base.NoCut, Slice.len]

/-! ## C12 LenBuf -/

/-- C12: nothing at or beyond `LenBuf` is readable, and `LenBuf` is the end of the initial bytes or of a
pending write. -/
theorem lenBuf_exact (b : Base) :
    (∀ x, b.lenBuf ≤ x → b.byte x = none) ∧
    (b.lenBuf = b.bytes.len ∨ ∃ d ∈ b.diffs, b.lenBuf = d.off + d.sl.len) ∧
    b.bytes.len ≤ b.lenBuf ∧ (∀ d ∈ b.diffs, d.off + d.sl.len ≤ b.lenBuf) := by
  refine ⟨fun x hx => by rw [byte_eq_content]; exact content_none_of_ge b x hx, ?_, ?_, ?_⟩
  · rw [lenBuf_eq]; exact maxEnd_attained _ _
  · rw [lenBuf_eq]; exact le_maxEnd _ _
  · intro d hd; rw [lenBuf_eq]; exact mem_le_maxEnd _ _ d hd

/-- C12: if every pending write is non-empty, the last byte before `LenBuf` is readable. -/
theorem lenBuf_tight (b : Base) (hne : ∀ d ∈ b.diffs, 0 < d.sl.len) (h0 : 0 < b.lenBuf) :
    (b.byte (b.lenBuf - 1)).isSome := by
  rw [byte_eq_content]
  unfold Base.content
  rw [contentOf_or]
  rcases (lenBuf_exact b).2.1 with h | ⟨d, hd, h⟩
  · have : b.lenBuf - 1 < b.bytes.data.length := by simp only [Slice.len] at h; omega
    simp only [ByteMap.ofBytes]
    rw [List.getElem?_eq_getElem this]
    simp
  · have hd0 := hne d hd
    have hc : lastOf (fun d => d.covers (b.lenBuf - 1)) b.diffs ≠ none := by
      intro hn
      have := lastOf_none.mp hn d hd
      rw [covers_false] at this; omega
    unfold segVal
    rw [contentOf_eq]
    cases hl : lastOf (fun d => d.covers (b.lenBuf - 1)) b.diffs with
    | none => exact absurd hl hc
    | some e =>
      have := (covers_iff _ _).mp (lastOf_some hl).2
      simp only [Slice.len] at this
      simp only
      rw [List.getElem?_eq_getElem (by omega)]; rfl

example : sample.lenBuf = 13 ∧ (sample.byte 12).isSome = true := by decide

/-! ## C13 inserting space -/

/-- C13 (partial): with at most one pending write straddling the insertion point, inserting `size` zero
bytes at `pos` shifts the tail.  Missing: two or more straddling writes, see `insertBuf_fails`. -/
theorem insertBuf_shifts_partial (b : Base) (pos size : Nat) (h : AtMostOneStraddle pos b.diffs) :
    (∀ x, x < pos → (b.insertSpace pos size true).byte x = b.byte x) ∧
    (∀ k, k < size → (b.insertSpace pos size true).byte (pos + k) = some 0) ∧
    (∀ x, pos ≤ x → (b.insertSpace pos size true).byte (x + size) = b.byte x) := by
  have key : ∀ x, (b.insertSpace pos size true).byte x =
      if pos ≤ x ∧ x < pos + size then some 0 else b.content.openGap pos size x := by
    intro x
    rw [byte_eq_content, insertSpace_create, put_apply]
    simp only [zeros, List.length_replicate]
    by_cases hx : pos ≤ x ∧ x < pos + size
    · rw [if_pos hx, if_pos hx, List.getElem?_replicate, if_pos (by omega)]
    · rw [if_neg hx, if_neg hx]; exact insertSpace_core b pos size h x (by omega)
  refine ⟨?_, ?_, ?_⟩
  · intro x hx; rw [key, if_neg (by omega), ByteMap.openGap, if_pos hx, byte_eq_content]
  · intro k hk; rw [key, if_pos (by omega)]
  · intro x hx
    rw [key, if_neg (by omega), ByteMap.openGap, if_neg (by omega), if_neg (by omega), byte_eq_content]
    congr 1; omega

/-- C13 (partial): without creation (`InsertSpace(.., false)`) the same holds outside the gap. -/
theorem insertSpace_shifts_partial (b : Base) (pos size : Nat) (h : AtMostOneStraddle pos b.diffs) :
    (∀ x, x < pos → (b.insertSpace pos size false).byte x = b.byte x) ∧
    (∀ x, pos ≤ x → (b.insertSpace pos size false).byte (x + size) = b.byte x) := by
  refine ⟨?_, ?_⟩
  · intro x hx
    rw [byte_eq_content, insertSpace_core b pos size h x (Or.inl hx), ByteMap.openGap, if_pos hx, byte_eq_content]
  · intro x hx
    rw [byte_eq_content, insertSpace_core b pos size h _ (Or.inr (by omega)), ByteMap.openGap, if_neg (by omega),
      if_neg (by omega), byte_eq_content]
    congr 1; omega

/-- C13 fails with two straddling writes: the byte at 3 (value 2, from the second write) should move to
5, but the first write shows there. -/
theorem insertBuf_fails : ∃ (b : Base) (pos size x : Nat), pos ≤ x ∧
    b.byte x = some 2 ∧ (b.insertSpace pos size true).byte (x + size) = some 1 := by
  refine ⟨{ bytes := ⟨[], []⟩, diffs := [⟨0, ⟨[1, 1, 1, 1], []⟩⟩, ⟨0, ⟨[2, 2, 2, 2], []⟩⟩] }, 2, 2, 3, ?_⟩
  decide

example : AtMostOneStraddle 3 sample.diffs := by
  refine Or.inr ⟨[], ⟨2, ⟨[1, 2, 3, 4], []⟩⟩, [⟨3, ⟨[5, 6], [7]⟩⟩, ⟨12, ⟨[8], []⟩⟩], rfl, ?_, ?_, ?_⟩ <;>
    simp [Straddles, Slice.len]

/-! ## C14, C15 Copy -/

/-- C14: copying without extension from a source that reads faithfully on the range (see `R_faithful`:
every byte of the range readable and no write starting inside an earlier one) overwrites exactly the
destination range. -/
theorem copy_exact (dst src : Base) (srcOff size at_ : Nat) (hs : NoLateStart src.diffs)
    (hd : ∀ x, srcOff ≤ x → x < srcOff + size → (src.byte x).isSome) :
    (∀ k, k < size → (dst.copy (fun p n => src.R p n) srcOff size at_ 0).byte (at_ + k) = src.byte (srcOff + k)) ∧
    (∀ x, x < at_ ∨ at_ + size ≤ x →
      (dst.copy (fun p n => src.R p n) srcOff size at_ 0).byte x = dst.byte x) := by
  have hf := R_faithful hs srcOff (srcOff + size) (fun x h1 h2 => by rw [← byte_eq_content]; exact hd x h1 h2)
  have key := copy_content dst (fun p n => src.R p n) src.content srcOff size at_ 0 hf
  refine ⟨?_, ?_⟩
  · intro k hk
    rw [byte_eq_content, key, if_pos (by omega), byte_eq_content]; congr 1; omega
  · intro x hx
    rw [byte_eq_content, key, if_neg (by omega), copyExtend_zero, byte_eq_content]

/-- C15 (partial): copying with extension moves the tail up, provided no pending write of the
destination straddles the destination offset.  Missing: straddling writes, see `copy_extend_fails`. -/
theorem copy_extend_partial (dst src : Base) (srcOff size at_ ext : Nat) (hs : NoLateStart src.diffs)
    (hd : ∀ x, srcOff ≤ x → x < srcOff + size → (src.byte x).isSome)
    (hn : ∀ d ∈ dst.diffs, ¬ Straddles at_ d) (hse : size ≤ ext) :
    (∀ x, x < at_ → (dst.copy (fun p n => src.R p n) srcOff size at_ ext).byte x = dst.byte x) ∧
    (∀ k, k < size → (dst.copy (fun p n => src.R p n) srcOff size at_ ext).byte (at_ + k) = src.byte (srcOff + k)) ∧
    (∀ x, at_ ≤ x → (dst.copy (fun p n => src.R p n) srcOff size at_ ext).byte (x + ext) = dst.byte x) := by
  have hf := R_faithful hs srcOff (srcOff + size) (fun x h1 h2 => by rw [← byte_eq_content]; exact hd x h1 h2)
  have key := copy_content dst (fun p n => src.R p n) src.content srcOff size at_ ext hf
  refine ⟨?_, ?_, ?_⟩
  · intro x hx
    rw [byte_eq_content, key, if_neg (by omega), copyExtend_content dst at_ ext hn x (Or.inl hx), ByteMap.openGap,
      if_pos hx, byte_eq_content]
  · intro k hk
    rw [byte_eq_content, key, if_pos (by omega), byte_eq_content]; congr 1; omega
  · intro x hx
    rw [byte_eq_content, key, if_neg (by omega), copyExtend_content dst at_ ext hn _ (Or.inr (by omega)),
      ByteMap.openGap, if_neg (by omega), if_neg (by omega), byte_eq_content]
    congr 1; omega

/-- C15 fails when a pending write straddles the destination: its tail is not moved. -/
theorem copy_extend_fails : ∃ (dst src : Base) (x : Nat), 1 ≤ x ∧ dst.byte x = some 3 ∧
    (dst.copy (fun p n => src.R p n) 0 1 1 1).byte (x + 1) = none := by
  refine ⟨{ bytes := ⟨[], []⟩, diffs := [⟨0, ⟨[1, 2, 3], []⟩⟩] }, { bytes := ⟨[9], []⟩ }, 2, ?_⟩
  decide +kernel

example : (Base.copy { bytes := ⟨[1, 2, 3], []⟩ } (fun p n => Base.R { bytes := ⟨[8, 9], []⟩ } p n) 0 2 1 2).flatten.bytes.data
    = [1, 8, 9, 2, 3] := by decide +kernel

/-! ## C16 Read / ReadAt -/

/-- C16 (partial): on a flattened buffer `ReadAt` never panics, fills `p` with the current bytes, but
reports the whole remaining length as `n`. -/
theorem readAt_flat_partial (b : Base) (p : Bytes) (i : Nat) (h : b.diffs = []) :
    b.readAt p i = some (copyAt p 0 (b.bytes.data.drop i), b.bytes.len - i) := by
  have hR : ∀ req, (b.R i req).data = b.bytes.data.drop i := by
    intro req
    rw [R_data]
    by_cases hx : b.bytes.len < i
    · rw [writerR_beyond (by rw [h]; rfl) hx, List.drop_eq_nil_of_le (Nat.le_of_lt hx)]; rfl
    · rw [writerR_uncovered (by rw [h]; rfl) (by omega)]
      have : b.stop i = b.bytes.len := by unfold Base.stop; rw [h]; rfl
      simp [this, Slice.len]
  have hlen : ∀ req, (b.R i req).len = b.bytes.len - i := by
    intro req; simp only [Slice.len]; rw [hR]; simp
  unfold Base.readAt
  simp only [hlen]
  unfold Slice.takeTo
  rw [if_pos]
  · simp only [Option.bind_eq_bind, Option.bind_some, Slice.arr, hR]
    have : (List.drop i b.bytes.data ++ (b.R i (b.bytes.len - i)).spare).take (b.bytes.len - i) = b.bytes.data.drop i := by
      rw [List.take_append_of_le_length (by simp [Slice.len]), List.take_of_length_le (by simp [Slice.len])]
    rw [this]; rfl
  · simp only [Slice.cap]; have := hlen (b.bytes.len - i); simp only [Slice.len] at this ⊢; omega

/-- C16 (partial): hence `n ≤ len(p)` holds exactly when `p` is at least as long as the rest. -/
theorem readAt_contract_partial (b : Base) (p : Bytes) (i : Nat) (h : b.diffs = []) (hp : b.bytes.len - i ≤ p.length) :
    ∃ p' n, b.readAt p i = some (p', n) ∧ n ≤ p.length ∧ p'.take n = b.bytes.data.drop i := by
  refine ⟨_, _, readAt_flat_partial b p i h, hp, ?_⟩
  simp only [Slice.len] at hp ⊢
  simp only [copyAt, List.take_zero, List.nil_append, Nat.sub_zero, List.length_drop, Nat.zero_add]
  rw [List.take_of_length_le (l := b.bytes.data.drop i) (by simpa using hp), List.take_append_of_le_length (by simp),
    List.take_of_length_le (by simp)]

/-- C16 fails: `ReadAt` with a short destination returns `n > len(p)`. -/
theorem readAt_fails : ∃ (b : Base) (p p' : Bytes) (n : Nat), b.readAt p 0 = some (p', n) ∧ p.length < n := by
  refine ⟨{ bytes := ⟨[1, 2, 3, 4], []⟩ }, [0, 0], [1, 2], 4, ?_⟩
  decide

/-- C16 fails: consequently two successive two-byte `Read`s of a four-byte buffer deliver only the first
two bytes; the second call returns nothing. -/
theorem read_skips_fails : ∃ (b b' b'' : Base) (p₁ p₂ : Bytes) (n₁ n₂ : Nat),
    b.flatten.bytes.data = [1, 2, 3, 4] ∧
    b.read [0, 0] = some (b', p₁, n₁) ∧ p₁ = [1, 2] ∧
    b'.read [0, 0] = some (b'', p₂, n₂) ∧ n₂ = 0 ∧ p₂ = [0, 0] := by
  refine ⟨{ bytes := ⟨[1, 2, 3, 4], []⟩ }, _, _, _, _, _, _, by decide, rfl, by decide, rfl, by decide, by decide⟩

/-! ## C28 segment list helpers -/

/-- C28: `insert` puts the new elements at the index and keeps the others in order; it fails exactly when
the index is out of range. -/
theorem insert_spec {α : Type} (l : List α) (i : Nat) (xs : List α) :
    (insertAt l i xs = none ↔ l.length < i) ∧
    ∀ r, insertAt l i xs = some r → r = l.take i ++ xs ++ l.drop i ∧ r.length = l.length + xs.length := by
  unfold insertAt
  split
  · simp; omega
  · simp only [reduceCtorEq, false_iff, Option.some.injEq]
    refine ⟨by omega, ?_⟩
    rintro r rfl
    refine ⟨rfl, ?_⟩
    simp only [List.length_append, List.length_take, List.length_drop]; omega

/-- C28: `moveLast` keeps all elements, moves the chosen one to the end and keeps the others in order. -/
theorem moveLast_spec {α : Type} (l : List α) (i : Nat) (a : α) (h : l[i]? = some a) :
    moveLast l i = some (l.take i ++ l.drop (i + 1) ++ [a]) ∧
    ∀ r, moveLast l i = some r → r.Perm l := by
  have hlt : i < l.length := (List.getElem?_eq_some_iff.mp h).1
  have hs := list_split_at h
  have hm : moveLast l i = some (l.take i ++ l.drop (i + 1) ++ [a]) := by
    unfold moveLast
    by_cases he : l.length = i + 1
    · have : l.drop (i + 1) = [] := List.drop_eq_nil_of_le (by omega)
      rw [if_pos he, this, List.append_nil]
      congr 1
      rw [this] at hs; exact hs
    · rw [if_neg he, if_neg (by omega)]
      simp only [h]
  refine ⟨hm, ?_⟩
  intro r hr
  rw [hm] at hr
  injection hr with hr
  rw [← hr]
  conv => rhs; rw [hs]
  rw [List.append_assoc]
  exact List.Perm.append_left _ (List.perm_append_comm)

/-- C28: `minOffset` is the least offset among the segments satisfying the predicate, if any. -/
theorem minOffset_least (p : Diff → Bool) (ds : List Diff) :
    (minOffset p ds = none → ∀ d ∈ ds, p d = false) ∧
    (∀ m, minOffset p ds = some m →
      (∃ d ∈ ds, p d = true ∧ d.off = m) ∧ ∀ d ∈ ds, p d = true → m ≤ d.off) :=
  ⟨minOffset_none, fun _ h => minOffset_some h⟩

example : minOffset (fun d => decide (d.off > 2)) sample.diffs = some 3 ∧
    moveLast [1, 2, 3, 4] 1 = some [1, 3, 4, 2] ∧ insertAt [1, 2] 1 [7, 8] = some [1, 7, 8, 2] := by decide

end Fbs.Props
