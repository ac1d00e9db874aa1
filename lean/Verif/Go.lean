/-!
# Go primitives used by the model

* A run-time panic is `none` in the `Option` monad (`Go`).
* A Go byte slice is modelled at *value level* by its visible bytes (`data`) and the bytes lying in its
  spare capacity (`spare`).  Sharing between slices is not visible here; it is modelled in `Verif.Heap`.
* `flatbuffers.GetUintN` / `WriteUintN` are the little-endian codecs `getLE` / `putLE`.
-/

namespace Fbs

/-- Result of a Go computation that may panic (`none`). -/
abbrev Go := Option

abbrev Bytes := List UInt8

/-- `n` zero bytes, Go `make([]byte, n)`. -/
def zeros (n : Nat) : Bytes := List.replicate n 0

/-- A Go byte slice seen as a value: `len = data.length`, `cap = data.length + spare.length`. -/
structure Slice where
  data  : Bytes
  spare : Bytes := []
deriving DecidableEq, Repr

namespace Slice

/-- Go `len(s)`. -/
def len (s : Slice) : Nat := s.data.length
/-- Go `cap(s)`. -/
def cap (s : Slice) : Nat := s.data.length + s.spare.length
/-- Everything reachable by re-slicing: the visible bytes followed by the spare capacity. -/
def arr (s : Slice) : Bytes := s.data ++ s.spare

/-- The nil slice. -/
def nil : Slice := ⟨[], []⟩

/-- Go `make([]byte, n)`. -/
def make (n : Nat) : Slice := ⟨zeros n, []⟩

/-- Go `make([]byte, n, c)` (panics when `c < n`). -/
def makeCap (n c : Nat) : Go Slice := if n ≤ c then some ⟨zeros n, zeros (c - n)⟩ else none

/-- Go `s[lo:]`. Panics when `lo > len(s)`. -/
def dropFrom (s : Slice) (lo : Nat) : Go Slice :=
  if lo ≤ s.len then some ⟨s.data.drop lo, s.spare⟩ else none

/-- Go `s[:hi]`.  `hi` may reach into the spare capacity; panics when `hi > cap(s)`. -/
def takeTo (s : Slice) (hi : Nat) : Go Slice :=
  if hi ≤ s.cap then some ⟨s.arr.take hi, s.arr.drop hi⟩ else none

/-- Go `s[lo:hi]`. -/
def sub (s : Slice) (lo hi : Nat) : Go Slice :=
  if lo ≤ hi ∧ hi ≤ s.cap then some ⟨(s.arr.take hi).drop lo, s.arr.drop hi⟩ else none

/-- Go `s[lo:hi:max]`. -/
def sub3 (s : Slice) (lo hi max : Nat) : Go Slice :=
  if lo ≤ hi ∧ hi ≤ max ∧ max ≤ s.cap then
    some ⟨(s.arr.take hi).drop lo, (s.arr.take max).drop hi⟩ else none

end Slice

/-- Go `copy(dst[at:], src)` on the bytes `dst`: overwrite as much as fits. -/
def copyAt (dst : Bytes) (pos : Nat) (src : Bytes) : Bytes :=
  dst.take pos ++ src.take (dst.length - pos) ++ dst.drop (pos + src.length)

/-- `loncha.LastIndexOf`: index of the last element satisfying `p` (`none` = error). -/
def lastIndexOf {α : Type} (p : α → Bool) : List α → Option Nat
  | [] => none
  | a :: l =>
    match lastIndexOf p l with
    | some n => some (n + 1)
    | none => if p a then some 0 else none

/-- `loncha.IndexOf`: index of the first element satisfying `p` (`none` = error). -/
def indexOf {α : Type} (p : α → Bool) : List α → Option Nat
  | [] => none
  | a :: l => if p a then some 0 else (indexOf p l).map (· + 1)

/-- `loncha.Delete(&l, pred)` where `pred` receives the index: keeps, in order, the elements whose index
does not satisfy the predicate.  `k` is the index of the head of the list. -/
def deleteIdx {α : Type} (pred : Nat → Bool) (k : Nat) : List α → List α
  | [] => []
  | a :: l => if pred k then deleteIdx pred (k + 1) l else a :: deleteIdx pred (k + 1) l

/-- The `k`-byte little-endian encoding of `n` (truncating, like Go's conversion to `uintN`). -/
def putLE : Nat → Nat → Bytes
  | 0, _ => []
  | k + 1, n => UInt8.ofNat (n % 256) :: putLE k (n / 256)

/-- Value of a little-endian byte string. -/
def leVal : Bytes → Nat
  | [] => 0
  | a :: l => a.toNat + 256 * leVal l

/-- `flatbuffers.GetUintN(s)` with `N = 8*k`: panics (index out of range) when the slice is too short. -/
def getLE (k : Nat) (s : Bytes) : Go Nat :=
  if k ≤ s.length then some (leVal (s.take k)) else none

end Fbs
