import Verif.Go
/-!
# Buffer inspection (info/info.go)

All positions are `uint32`: sums are reduced modulo 2^32.  `Table` (a list of string lengths) and the
`S*` members are not kept; the reads they perform are (they can panic).  The order in which
`for i, pos := range info.Nest` visits the map is an oracle, one permutation for every nested object.
-/

namespace Fbs.Inspect
open Fbs

def M32 : Nat := 4294967296

/-- info.go 52-61 `OptionType` / `Option` (`Key` omitted). -/
inductive Opt where
  | mk (size : Int) (isVector : Bool) (nest : List Opt)

def Opt.size : Opt → Int | .mk s _ _ => s
def Opt.isVector : Opt → Bool | .mk _ v _ => v
def Opt.nest : Opt → List Opt | .mk _ _ n => n

/-- info.go 23-31 -/
inductive Kind where
  | scalar (size : Nat)
  | vector
  | nest
  | string
deriving DecidableEq, Repr

/-- info.go 63-82 `GetFieldType`. -/
def fieldKind (o : Opt) : Kind :=
  if o.size = 1 then .scalar 1
  else if o.size = 2 then .scalar 2
  else if o.size = 4 then .scalar 4
  else if o.size = 8 then .scalar 8
  else if o.isVector then .vector
  else if o.nest.length > 0 then .nest
  else .string

/-- `flatbuffers.GetUint32(buf[pos:])` -/
def rd32 (buf : Bytes) (pos : Nat) : Go Nat := getLE 4 (buf.drop pos)
/-- `flatbuffers.GetVOffsetT(buf[pos:])` -/
def rd16 (buf : Bytes) (pos : Nat) : Go Nat := getLE 2 (buf.drop pos)

/-- info.go 130-132: read `n` entries from `cur`. -/
def rdEntries (buf : Bytes) (cur : Nat) : Nat → Go (List Nat)
  | 0 => some []
  | n + 1 => do
    let v ← rd16 buf cur
    let r ← rdEntries buf (cur + 2) n
    return v :: r

/-- info.go 107-135 `FetchVtable`.  The loop `cur < VPos+VLen; cur += 2` runs `(VLen - 3) / 2` times; its
bound does not wrap because `buf[VPos:]` was read before (buffers below 4 GiB). -/
def fetchVtable (buf : Bytes) (top : Nat) : Go (List Nat) := do
  let vOffset ← rd32 buf top
  let vPos := (top + M32 - vOffset) % M32
  let sOffset ← rd32 buf ((top + 4) % M32)
  let _ ← if sOffset < buf.length then rd32 buf sOffset else some 0
  let vLen ← rd16 buf vPos
  let _tLen ← rd16 buf (vPos + 2)
  rdEntries buf (vPos + 4) ((vLen - 3) / 2)

/-- One iteration of info.go 144-190: the new length and, for nested values, the position.
`capb` is `cap(buf)` (line 164 slices 64 bytes). -/
def scanField (buf : Bytes) (capb top len v : Nat) (o : Opt) : Go (Nat × Option Nat) :=
  let pos := (top + v) % M32
  match fieldKind o with
  | .scalar n => some (max len ((pos + n) % M32), none)
  | .vector => do
    let off ← rd32 buf pos
    let vLen ← rd32 buf ((pos + off) % M32)
    let start := (pos + off + 4) % M32
    let ptrLast := (start + (vLen + M32 - 1) % M32 * 4) % M32
    if start ≤ (start + 64) % M32 ∧ (start + 64) % M32 ≤ capb then
      let x ← rd32 buf ptrLast
      return (len, some ((ptrLast + x) % M32))
    else none
  | .nest => do
    let x ← rd32 buf pos
    return (len, some ((x + pos) % M32))
  | .string => do
    let off ← rd32 buf pos
    let sLen ← rd32 buf ((pos + off) % M32)
    return (max len ((pos + off + 4 + sLen) % M32), none)

/-- info.go 144-190: all fields; the nested ones are returned as (index, position). -/
def scanFields (buf : Bytes) (capb top : Nat) (maps : List Opt) : Nat → Nat → List Nat → Go (Nat × List (Nat × Nat))
  | _, len, [] => some (len, [])
  | idx, len, v :: vs =>
    match maps[idx]? with
    | none => none
    | some o =>
      match scanField buf capb top len v o with
      | none => none
      | some (len', p) =>
        match scanFields buf capb top maps (idx + 1) len' vs with
        | none => none
        | some (r, nest) => some (r, (match p with | some q => [(idx, q)] | none => []) ++ nest)

/-- info.go 33-50 `Fbs` (the observable part). -/
inductive Info where
  | mk (top length : Nat) (childs : List (Nat × Info))

def Info.length : Info → Nat | .mk _ l _ => l
def Info.top : Info → Nat | .mk t _ _ => t
def Info.childs : Info → List (Nat × Info) | .mk _ _ c => c

/-- A nested inspection: path (identifies the object, for the oracle), position, starting length. -/
abbrev Fetch := List Nat → Nat → Nat → Go Info

/-- info.go 192-205: visit the nested objects in the given order. -/
def visit (kids : List Fetch) (path : List Nat) : Nat → List (Nat × Nat) → Go (Nat × List (Nat × Info))
  | len, [] => some (len, [])
  | len, (i, pos) :: rest =>
    match kids[i]? with
    | none => none
    | some k =>
      match k (path ++ [i]) pos len with
      | none => none
      | some n =>
        match visit kids path (max len n.length) rest with
        | none => none
        | some (r, cs) => some (r, (i, n) :: cs)

/-- info.go 107-209 `FetchVtable` followed by `FetchTable`, given the inspection of nested values. -/
def fetchBody (buf : Bytes) (capb : Nat) (ord : List Nat → List (Nat × Nat) → List (Nat × Nat)) (maps : List Opt)
    (kids : List Fetch) : Fetch := fun path top len =>
  match fetchVtable buf top with
  | none => none
  | some vt =>
    match scanFields buf capb top maps 0 len vt with
    | none => none
    | some (len1, nest) =>
      match visit kids path len1 (ord path nest) with
      | none => none
      | some (len2, cs) => some (.mk top len2 cs)

mutual
/-- The inspection of a value described by the `Nest` of an option. -/
def fetch (buf : Bytes) (capb : Nat) (ord : List Nat → List (Nat × Nat) → List (Nat × Nat)) : Opt → Fetch
  | .mk _ _ nest => fetchBody buf capb ord nest (fetchKids buf capb ord nest)
def fetchKids (buf : Bytes) (capb : Nat) (ord : List Nat → List (Nat × Nat) → List (Nat × Nat)) : List Opt → List Fetch
  | [] => []
  | o :: os => fetch buf capb ord o :: fetchKids buf capb ord os
end

/-- info.go 88-98 `GetFbsInfo`. -/
def getFbsInfo (buf : Bytes) (capb : Nat) (ord : List Nat → List (Nat × Nat) → List (Nat × Nat)) (maps : List Opt)
    (top : Nat) : Go Info :=
  fetchBody buf capb ord maps (fetchKids buf capb ord maps) [] top top

/-- info.go 84-86 `GetFbsRootInfo`. -/
def getFbsRootInfo (buf : Bytes) (capb : Nat) (ord : List Nat → List (Nat × Nat) → List (Nat × Nat)) (maps : List Opt) :
    Go Info := do
  let top ← rd32 buf 0
  getFbsInfo buf capb ord maps top

end Fbs.Inspect
