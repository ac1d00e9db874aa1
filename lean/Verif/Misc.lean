import Verif.Buf
/-!
# Small pure functions of query/base
-/

namespace Fbs

/-- base.go 760-772 `calcBufSize`. -/
def calcBufSize (req : Nat) : Nat :=
  let i := req / 4096
  let i := if i % 4096 ≠ 0 then i + 1 else i
  let i := if i = 0 then i + 1 else i
  i * 4096

/-- Insertion by offset; used to model `sort.Slice` (base.go 1287-1289).  The library is assumed to return
a permutation sorted by offset; the order among equal offsets is unspecified in Go and fixed here. -/
def insertByOff (d : Diff) : List Diff → List Diff
  | [] => [d]
  | e :: l => if d.off < e.off then d :: e :: l else e :: insertByOff d l

def sortByOff (l : List Diff) : List Diff := l.foldr insertByOff []

/-- base.go 1275-1292 `AddRDiff`: `none` = ERR_OVERWARP_DIFF (nothing changed). -/
def addRDiff (rds : List Diff) (d : Diff) : Option (List Diff) :=
  let pred := match lastIndexOf (fun e => decide (e.off < d.off)) rds with
    | some n => rds[n]?
    | none => none
  match pred with
  | some e => if e.off + e.sl.len > d.off then none else some (sortByOff (rds ++ [d]))
  | none => some (sortByOff (rds ++ [d]))

/-- common.go 376-385 `Len`: the argument is `info.Pos + info.Size`. -/
def roundUp8 (size : Nat) : Nat := if size % 8 = 0 then size else size + (8 - size % 8)

section list
variable {α : Type}

/-- list.go 1040-1048: the loop of `SearchIndex` on the state `(i, j)`; `at_ h` is `node.At(h)` (`none` =
error). -/
def searchLoop (at_ : Nat → Option α) (fn : α → Bool) (i j : Nat) : Nat :=
  if i < j then
    let h := (i + j) / 2
    match at_ h with
    | some c => if !fn c then searchLoop at_ fn (h + 1) j else searchLoop at_ fn i h
    | none => searchLoop at_ fn i h
  else i
termination_by j - i

/-- list.go 1038-1051 `SearchIndex`. -/
def searchIndex (at_ : Nat → Option α) (n : Nat) (fn : α → Bool) : Nat := searchLoop at_ fn 0 n

/-- list.go 364-369: the loop of `Select` over indices `i, i+1, ..., i+k-1`. -/
def selectFrom (at_ : Nat → Option α) (fn : α → Bool) (i : Nat) : Nat → List α
  | 0 => []
  | k + 1 =>
    match at_ i with
    | some m => if fn m then m :: selectFrom at_ fn (i + 1) k else selectFrom at_ fn (i + 1) k
    | none => selectFrom at_ fn (i + 1) k

/-- list.go 358-370 `Select`; `n` is the cached `ValueInfo.VLen`. -/
def select (at_ : Nat → Option α) (n : Nat) (fn : α → Bool) : List α := selectFrom at_ fn 0 n

/-- list.go 375-381: the loop of `Find`. -/
def findFrom (at_ : Nat → Option α) (fn : α → Bool) (i : Nat) : Nat → Option α
  | 0 => none
  | k + 1 =>
    match at_ i with
    | some m => if fn m then some m else findFrom at_ fn (i + 1) k
    | none => findFrom at_ fn (i + 1) k

/-- list.go 373-382 `Find` (`none` = nil). -/
def find (at_ : Nat → Option α) (n : Nat) (fn : α → Bool) : Option α := findFrom at_ fn 0 n

/-- list.go 385-387 `All`. -/
def all (at_ : Nat → Option α) (n : Nat) : List α := select at_ n (fun _ => true)

end list

/-! ## scalars (template/genny/root.go 131-261, common.go 425-603, node.go 199-313) -/

/-- Go conversion of an integer to an unsigned `8*k`-bit integer. -/
def wrapU (k : Nat) (v : Int) : Nat := (v % (2 ^ (8 * k) : Nat)).toNat

/-- Go conversion of an unsigned `8*k`-bit value to the signed type of the same size. -/
def wrapS (k : Nat) (n : Nat) : Int := if n < 2 ^ (8 * k - 1) then n else (n : Int) - (2 ^ (8 * k) : Nat)

/-- A scalar node: its buffer, position and size (`NewNode2(NewBase(make([]byte, size)), 0, true)`). -/
structure ScalarNode where
  base : Base
  pos  : Nat
  size : Nat

/-- `FromUintN` / `FromFloatN` (bit pattern) / `FromByte`: root.go 142-261, the setters common.go 440-603
(the name and size checks pass by construction). -/
def fromU (k n : Nat) : ScalarNode :=
  { base := (Base.new (.make k)).updateU 0 k (putLE k n), pos := 0, size := k }

/-- `FromIntN`: two's complement encoding (flatbuffers `WriteIntN`). -/
def fromS (k : Nat) (v : Int) : ScalarNode := fromU k (wrapU k v)

/-- `FromBool`: flatbuffers `WriteBool` writes 1 or 0. -/
def fromBool (v : Bool) : ScalarNode := fromU 1 (if v then 1 else 0)

/-- `node.UintN()`: `flatbuffers.GetUintN(node.R(node.Pos, Size(k)))`. -/
def ScalarNode.getU (n : ScalarNode) (k : Nat) : Go Nat := getLE k (n.base.R n.pos k).data

/-- `node.IntN()`. -/
def ScalarNode.getS (n : ScalarNode) (k : Nat) : Go Int := (n.getU k).map (wrapS k)

/-- `node.Bool()`: flatbuffers `GetBool` is `buf[0] == 1`. -/
def ScalarNode.getBool (n : ScalarNode) : Go Bool := (n.getU 1).map (fun b => decide (b = 1))

/-- A setter applied to an existing scalar node (common.go 425-603): overwrite through an update window. -/
def ScalarNode.setU (s : ScalarNode) (v : Nat) : ScalarNode :=
  { s with base := s.base.updateU s.pos s.size (putLE s.size v) }

end Fbs
