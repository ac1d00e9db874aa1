import Verif.ListEdit
import Verif.Misc
/-!
# Sorting a list

`SortBy` hands the list to Go's `sort.Sort`, which calls `Len` once and afterwards nothing but `Less` and `Swap`.  The
algorithm is not part of the repository: it is left open as a tree of such calls.
-/

namespace Fbs

/-- What an algorithm of Go's package `sort` does to its argument once it knows the length: comparisons, on the outcome of
which it depends what follows, and exchanges. -/
inductive SortAlg where
  | done
  /-- `data.Less(i, j)` -/
  | less (i j : Nat) (k : Bool → SortAlg)
  /-- `data.Swap(i, j)` -/
  | swap (i j : Nat) (k : SortAlg)

namespace CNode

/-- The calls on a list: list.go 1005 `Swap` ignores the error of `SwapAt`, list.go 1006 `Less` calls the function given to
`SortBy`, which sees the list as it is at that moment. -/
def sortRun (s : Sch) (less : CNode → Nat → Nat → Go Bool) : SortAlg → CNode → Go CNode
  | .done, c => some c
  | .less i j k, c => do
    let b ← less c i j
    sortRun s less (k b) c
  | .swap i j k, c => do
    let (c, _) ← c.swapAt s i j
    sortRun s less k c

/-- list.go 1009-1020 `SortBy`; `alg n` is what `sort.Sort` does with `n` elements.  The field `lessFn`, restored at the
end, is the parameter `less`. -/
def sortBy (s : Sch) (alg : Nat → SortAlg) (less : CNode → Nat → Nat → Go Bool) (c : CNode) : Go (CNode × Option Err) := do
  if !(← c.isList) then return (c, some .noSupport)
  let n ← c.listLen
  let c ← sortRun s less (alg n) c
  return (c, none)

/-- `sort.IsSorted` of Go: for i := n - 1; i > 0; i-- { if Less(i, i-1) return false }. -/
def sortedFrom (less : CNode → Nat → Nat → Go Bool) (c : CNode) : Nat → Go Bool
  | 0 => some true
  | i + 1 => do
    if ← less c (i + 1) i then return false
    sortedFrom less c i

/-- list.go 1023-1034 `IsSorted`. -/
def isSorted (less : CNode → Nat → Nat → Go Bool) (c : CNode) : Go Bool := do
  if !(← c.isList) then return false
  let n ← c.listLen
  sortedFrom less c (n - 1)

/-- list.go 1038-1051 `SearchIndex` on a node. -/
def search (s : Sch) (c : CNode) (n : Nat) (fn : CNode → Bool) : Nat :=
  searchIndex (fun h => match c.at_ s h with
    | some (.ok e) => some e
    | _ => none) n fn

/-- A comparison as callers write it: `a.FieldAt(k).Uint…() < b.FieldAt(k).Uint…()` for the elements `a` and `b` (cf.
base_test.go 1851-1855). -/
def lessField (s : Sch) (k w : Nat) (c : CNode) (i j : Nat) : Go Bool := do
  match ← c.at_ s i, ← c.at_ s j with
  | .ok a, .ok b => return decide ((← scalar w (← a.fieldAt s k)) < (← scalar w (← b.fieldAt s k)))
  | _, _ => none

end CNode

/-- `insertionSort` of Go (package sort, zsortinterface.go), the inner loop: for j := i; j > 0 && Less(j, j-1); j-- {
Swap(j, j-1) }, then `k`. -/
def insertInner : Nat → SortAlg → SortAlg
  | 0, k => k
  | j + 1, k => .less (j + 1) j fun b => if b then .swap (j + 1) j (insertInner j k) else k

/-- The outer loop: for i := i; i < i + c; i++. -/
def insertOuter (i : Nat) : Nat → SortAlg
  | 0 => .done
  | c + 1 => insertInner i (insertOuter (i + 1) c)

/-- `insertionSort(data, 0, n)`, which is what `sort.Sort` comes to for short arguments. -/
def insertionSort (n : Nat) : SortAlg := insertOuter 1 (n - 1)

end Fbs
