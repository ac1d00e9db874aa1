import Verif.BufOps2
import Verif.Codec
/-! # Reading back what was just written -/
namespace Fbs

/-- Reading at the start of the last segment returns exactly that segment. -/
theorem R_last (b : Base) (ds : List Diff) (d : Diff) (x req : Nat) (h : b.diffs = ds ++ [d])
    (h1 : d.off ≤ x) (h2 : x < d.off + d.sl.len) : (b.R x req).data = d.sl.data.drop (x - d.off) := by
  rw [R_data]
  have : lastOf (fun d => d.covers x) b.diffs = some d := by
    rw [h, lastOf_append, lastOf_singleton, if_pos ((covers_iff d x).mpr ⟨h1, h2⟩)]; rfl
  rw [writerR_cover this]

theorem copyAt_zeros (w : Bytes) : copyAt (zeros w.length) 0 w = w := by
  simp [copyAt, zeros]

theorem updateU_diffs (b : Base) (off : Nat) (w : Bytes) :
    b.updateU off w.length w = { bytes := b.bytes, diffs := b.dPrefix off w.length ++ [⟨off, ⟨w, []⟩⟩], seekCur := b.seekCur } := by
  unfold Base.updateU
  rw [D_setLast, copyAt_zeros]

/-- A window just filled is read back exactly. -/
theorem updateU_R (b : Base) (off : Nat) (w : Bytes) (req : Nat) (h : w ≠ []) :
    ((b.updateU off w.length w).R off req).data = w := by
  have hl := List.length_pos_iff.mpr h
  rw [R_last (b.updateU off w.length w) (b.dPrefix off w.length) ⟨off, ⟨w, []⟩⟩ off req (by rw [updateU_diffs])
    (Nat.le_refl _) (by simp only [Slice.len]; omega)]
  simp

end Fbs
