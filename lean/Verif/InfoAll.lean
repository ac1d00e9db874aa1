import Verif.Info
/-!
# Inspection with values (info/info.go 219-304 `FetchAll`)

As in `Verif.Info`: positions are `uint32`, the order of `range info.Nest` is an oracle.  The arguments of
`Debugf` are evaluated whether or not logging is enabled, so the slices taken there can panic; what is
printed is not modelled.
-/

namespace Fbs.Inspect
open Fbs

/-- The slice `buf[lo:hi]` can be taken. -/
def sliceOk (capb lo hi : Nat) : Bool := decide (lo ≤ hi ∧ hi ≤ capb)

/-- `uint64(int32)` of the four bytes with the unsigned value `x`. -/
def signExt (x : Nat) : Nat := if x < 2147483648 then x else x + 18446744073709551616 - M32

/-- info.go 231-246: a scalar as it is put into `Table`. -/
def scalarVal (n x : Nat) : Nat := if n = 4 then signExt x else x

/-- One iteration of info.go 226-280: the new length, the position of a nested value, what is appended to `Table`. -/
def allField (buf : Bytes) (capb top len v : Nat) (o : Opt) : Go (Nat × Option Nat × List Nat) :=
  let pos := (top + v) % M32
  match fieldKind o with
  | .scalar n => do
    let x ← getLE n (buf.drop pos)
    if sliceOk capb pos ((pos + n) % M32) then
      return (max len ((pos + n) % M32), none, [scalarVal n x])
    else none
  | .vector => do
    let off ← rd32 buf pos
    let vLen ← rd32 buf ((pos + off) % M32)
    let start := (pos + off + 4) % M32
    let ptrLast := (start + (vLen + M32 - 1) % M32 * 4) % M32
    let x ← rd32 buf ptrLast
    return (len, some ((ptrLast + x) % M32), [])
  | .nest => do
    let x ← rd32 buf pos
    return (len, some ((x + pos) % M32), [0])
  | .string => do
    let off ← rd32 buf pos
    let sLen ← rd32 buf ((pos + off) % M32)
    if sliceOk capb ((pos + off + 4) % M32) ((pos + off + 4 + sLen) % M32) then
      return (max len ((pos + off + 4 + sLen) % M32), none, [sLen])
    else none

/-- info.go 226-280: all fields. -/
def allFields (buf : Bytes) (capb top : Nat) (maps : List Opt) :
    Nat → Nat → List Nat → Go (Nat × List (Nat × Nat) × List Nat)
  | _, len, [] => some (len, [], [])
  | idx, len, v :: vs =>
    match maps[idx]? with
    | none => none
    | some o =>
      match allField buf capb top len v o with
      | none => none
      | some (len', p, t) =>
        match allFields buf capb top maps (idx + 1) len' vs with
        | none => none
        | some (r, nest, t') => some (r, (match p with | some q => [(idx, q)] | none => []) ++ nest, t ++ t')

/-- info.go 33-50 `Fbs` with `Table`. -/
inductive InfoV where
  | mk (top length : Nat) (table : List Nat) (childs : List (Nat × InfoV))

def InfoV.top : InfoV → Nat | .mk t _ _ _ => t
def InfoV.length : InfoV → Nat | .mk _ l _ _ => l
def InfoV.table : InfoV → List Nat | .mk _ _ t _ => t
def InfoV.childs : InfoV → List (Nat × InfoV) | .mk _ _ _ c => c

abbrev FetchV := List Nat → Nat → Nat → Go InfoV

/-- info.go 286-301: visit the nested objects in the given order. -/
def visitV (kids : List FetchV) (path : List Nat) : Nat → List (Nat × Nat) → Go (Nat × List (Nat × InfoV))
  | len, [] => some (len, [])
  | len, (i, pos) :: rest =>
    match kids[i]? with
    | none => none
    | some k =>
      match k (path ++ [i]) pos len with
      | none => none
      | some n =>
        match visitV kids path (max len n.length) rest with
        | none => none
        | some (r, cs) => some (r, (i, n) :: cs)

/-- info.go 282-283: the slices of the vtable and of the table printed there. -/
def dumpOk (buf : Bytes) (capb top : Nat) : Go Bool := do
  let vOffset ← rd32 buf top
  let vPos := (top + M32 - vOffset) % M32
  let vLen ← rd16 buf vPos
  let tLen ← rd16 buf (vPos + 2)
  return sliceOk capb vPos ((vPos + vLen) % M32) && sliceOk capb top ((top + tLen) % M32)

/-- info.go 219-304 `FetchAll` after `FetchVtable`, with an empty `Table`, given the inspection of nested values. -/
def allBody (buf : Bytes) (capb : Nat) (ord : List Nat → List (Nat × Nat) → List (Nat × Nat)) (maps : List Opt)
    (kids : List FetchV) : FetchV := fun path top len =>
  match fetchVtable buf top with
  | none => none
  | some vt =>
    match allFields buf capb top maps 0 len vt with
    | none => none
    | some (len1, nest, table) =>
      match dumpOk buf capb top with
      | some true =>
        match visitV kids path len1 (ord path nest) with
        | none => none
        | some (len2, cs) => some (.mk top len2 table cs)
      | _ => none

mutual
/-- info.go 291-292: the inspection of a value described by the `Nest` of an option. -/
def fetchV (buf : Bytes) (capb : Nat) (ord : List Nat → List (Nat × Nat) → List (Nat × Nat)) : Opt → FetchV
  | .mk _ _ nest => allBody buf capb ord nest (fetchKidsV buf capb ord nest)
def fetchKidsV (buf : Bytes) (capb : Nat) (ord : List Nat → List (Nat × Nat) → List (Nat × Nat)) : List Opt → List FetchV
  | [] => []
  | o :: os => fetchV buf capb ord o :: fetchKidsV buf capb ord os
end

/-- `FetchVtable` and `FetchAll` on a new `Fbs` with `Top` and `Length` set as in `GetFbsInfo` (info.go 88-98). -/
def getAll (buf : Bytes) (capb : Nat) (ord : List Nat → List (Nat × Nat) → List (Nat × Nat)) (maps : List Opt)
    (top : Nat) : Go InfoV :=
  allBody buf capb ord maps (fetchKidsV buf capb ord maps) [] top top

/-- info.go 185: what `FetchTable` appends to `Table`, the lengths of the strings. -/
def stringLens (buf : Bytes) (top : Nat) (maps : List Opt) : Nat → List Nat → Go (List Nat)
  | _, [] => some []
  | idx, v :: vs => do
    let o ← maps[idx]?
    let r ← stringLens buf top maps (idx + 1) vs
    match fieldKind o with
    | .string => do
      let off ← rd32 buf ((top + v) % M32)
      let sLen ← rd32 buf (((top + v) % M32 + off) % M32)
      return sLen :: r
    | _ => return r

/-- `GetFbsInfo` followed by `FetchAll` (info.go 88-98, 219-304): the `Table` afterwards and the length.  When
`FetchTable` has put something into `Table`, `FetchAll` returns at once (221-223); otherwise it goes on from the
length found, and the entries of `Nest` are replaced by the same entries. -/
def infoThenAll (buf : Bytes) (capb : Nat) (ord ord' : List Nat → List (Nat × Nat) → List (Nat × Nat)) (maps : List Opt)
    (top : Nat) : Go (List Nat × Nat) := do
  let n ← getFbsInfo buf capb ord maps top
  let vt ← fetchVtable buf top
  let t ← stringLens buf top maps 0 vt
  if t.length > 0 then return (t, n.length)
  else do
    let n' ← allBody buf capb ord' maps (fetchKidsV buf capb ord' maps) [] top n.length
    return (n'.table, n'.length)

end Fbs.Inspect
