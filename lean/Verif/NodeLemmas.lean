import Verif.NodeEdit
import Verif.BufRead
import Verif.Codec
import Verif.FbSpec
/-!
# Reading nodes in flat buffers
-/

namespace Fbs

theorem R_flat (s : Slice) (x req : Nat) : ((Base.new s).R x req).data = s.data.drop x := by
  rw [R_data]
  by_cases h : x ≤ s.len
  · rw [writerR_uncovered (b := Base.new s) (by rfl) h]
    have : (Base.new s).stop x = s.len := rfl
    rw [this]
    simp only [Base.new, Slice.len, List.take_length]
  · have h' : (Base.new s).bytes.len < x := Nat.lt_of_not_le h
    rw [writerR_beyond (b := Base.new s) (by rfl) h']
    simp only [Slice.len] at h
    simp only [Slice.nil]
    rw [List.drop_eq_nil_of_le (by omega)]

theorem lenBuf_flat (s : Slice) : (Base.new s).lenBuf = s.data.length := rfl

theorem getN_flat (s : Slice) (k x : Nat) :
    (Base.new s).getN k x = if x + k ≤ s.data.length ∨ k = 0 then some (Fb.le s.data k x) else none := by
  unfold Base.getN Base.Ri
  rw [if_neg (by omega)]
  simp only [Option.bind_eq_bind, Option.bind_some, getLE, R_flat, Int.toNat_natCast, Fb.le, List.length_drop]
  by_cases h : x + k ≤ s.data.length ∨ k = 0
  · rw [if_pos h, if_pos (by omega)]
  · rw [if_neg h, if_neg (by omega)]

theorem getN_neg (b : Base) (k : Nat) (x : Int) (h : x < 0) : b.getN k x = none := by
  simp [Base.getN, Base.Ri, h]

theorem le_lt (buf : Bytes) (k x : Nat) : Fb.le buf k x < 256 ^ k := by
  unfold Fb.le
  have h := leVal_lt ((buf.drop x).take k)
  have : ((buf.drop x).take k).length ≤ k := List.length_take_le _ _
  exact Nat.lt_of_lt_of_le h (Nat.pow_le_pow_right (by omega) this)

end Fbs
