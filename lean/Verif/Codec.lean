import Verif.Go
/-! # Lemmas on the little-endian codec -/
namespace Fbs

theorem putLE_length (k n : Nat) : (putLE k n).length = k := by
  induction k generalizing n with
  | zero => rfl
  | succ k ih => simp [putLE, ih]

theorem leVal_putLE (k n : Nat) : leVal (putLE k n) = n % 256 ^ k := by
  induction k generalizing n with
  | zero => simp [putLE, leVal, Nat.mod_one]
  | succ k ih =>
    simp only [putLE, leVal, ih]
    have h1 : (UInt8.ofNat (n % 256)).toNat = n % 256 := by
      rw [UInt8.toNat_ofNat']; omega
    rw [h1, Nat.pow_succ, Nat.mul_comm (256 ^ k) 256, Nat.mod_mul]

theorem leVal_lt (l : Bytes) : leVal l < 256 ^ l.length := by
  induction l with
  | nil => simp [leVal]
  | cons a l ih =>
    simp only [leVal, List.length_cons, Nat.pow_succ]
    have := a.toNat_lt
    omega

theorem putLE_leVal (l : Bytes) : putLE l.length (leVal l) = l := by
  induction l with
  | nil => rfl
  | cons a l ih =>
    simp only [List.length_cons, putLE, leVal]
    have h0 := a.toNat_lt
    have h1 : (a.toNat + 256 * leVal l) % 256 = a.toNat := by omega
    have h2 : (a.toNat + 256 * leVal l) / 256 = leVal l := by omega
    rw [h1, h2, ih]
    congr 1
    exact UInt8.ofNat_toNat

theorem getLE_append (k n : Nat) (l : Bytes) : getLE k (putLE k n ++ l) = some (n % 256 ^ k) := by
  unfold getLE
  rw [if_pos (by simp [putLE_length])]
  rw [List.take_append_of_le_length (by simp [putLE_length]), List.take_of_length_le (by simp [putLE_length]),
    leVal_putLE]

theorem getLE_putLE (k n : Nat) : getLE k (putLE k n) = some (n % 256 ^ k) := by
  simpa using getLE_append k n []

theorem pow256 (k : Nat) : 256 ^ k = 2 ^ (8 * k) := by
  rw [Nat.pow_mul]

end Fbs

namespace Fbs

theorem putLE_getElem? (k n i : Nat) (h : i < k) :
    (putLE k n)[i]? = some (UInt8.ofNat (n / 256 ^ i % 256)) := by
  induction k generalizing n i with
  | zero => omega
  | succ k ih =>
    cases i with
    | zero => simp [putLE]
    | succ i =>
      simp only [putLE, List.getElem?_cons_succ]
      rw [ih _ _ (by omega), Nat.div_div_eq_div_mul, Nat.pow_succ, Nat.mul_comm (256 ^ i)]

end Fbs
