import Verif.Buf
import Verif.Types
/-!
# Nodes: tables, structs, unions, and list headers (query/base/node.go, common.go, list.go)

A `CNode` is a `CommonNode` whose `Node` is not nil, together with the value of its buffer.  A
`CommonNode` with a nil `Node` (an absent field) is `none`.

Simplifications
* Buffers are byte buffers (`Base`, no reader) with `checkBoundary = true` (as set by NewBaseImpl).
* Only the handle an operation is called on is followed: in Go the buffer object is shared between the
  nodes of a tree, and `InsertSpace` gives the receiver a new buffer object.
* Log calls are no-ops (their closures run only when logging is enabled).
* `Info` follows offsets and need not terminate on arbitrary buffers, so it takes a fuel argument; when
  the fuel is used up the result is `none`.
* Values cached in the *argument* node (`fNode.Node.Size`, `elm.Node.Size`) are not written back.
* `InsertSpace` on a buffer with a root node (`InRoot`) also patches the ancestors; that needs the walk over
  the whole message and is modelled in `Tree.lean` and `NodeEdit.lean`.
-/

namespace Fbs

/-- One field of a table or struct, from the generated maps `All_IdxToName`, `All_IdxToTypeGroup`,
`All_IdxToType` (util.go 195-197): the *type* name, the type group, the type number if basic. -/
structure FieldT where
  tname : Name
  grp   : Nat
  ty    : Option Ty := none

/-- `TypeToSize[node.IdxToType[i]]` (a missing key is 0). -/
def FieldT.size (f : FieldT) : Nat := (f.ty.map typeToSize).getD 0

/-- The package-level maps.  An unregistered name has no fields. -/
structure Sch extends Reg where
  fields : Name → List FieldT := fun _ => []
  /-- util.go 357 `RootName` -/
  root : Name := []

/-- node.go 26-30 `ValueInfo` (and 33 `Info`). -/
structure VInfo where
  pos  : Int := 0
  size : Int := 0
  vlen : Nat := 0
deriving DecidableEq, Repr

/-- common.go 17-25 `CommonNode` with node.go 12-23 `Node`, `NodeList` flattened into it. -/
structure CNode where
  name : Name
  io   : Base
  pos  : Nat
  size : Int := -1
  tlen : Nat := 0
  vi   : VInfo := {}

inductive Err where
  | invalidIndex | invalidType | noSupport | notFound
deriving DecidableEq, Repr

namespace Base

/-- `b.R(pos, Size(req))` with a computed `pos`: a negative one makes `b.bytes[off:]` panic
(base.go 557-592). -/
def Ri (b : Base) (pos : Int) (req : Nat) : Go Slice :=
  if pos < 0 then none else some (b.R pos.toNat req)

/-- `flatbuffers.GetUintN(b.R(pos, Size(k)))`, `N = 8 k`. -/
def getN (b : Base) (k : Nat) (pos : Int) : Go Nat := do
  let s ← b.Ri pos k
  getLE k s.data

end Base

/-- Go `int` sum of the sizes of the first `n` fields: the loops common.go 47-49, 241-247, 1146-1149. -/
def sumSize (fs : List FieldT) : Nat := fs.foldl (fun a f => a + f.size) 0

namespace CNode

def R (c : CNode) (pos : Int) (req : Nat) : Go Slice := c.io.Ri pos req
def u16 (c : CNode) (pos : Int) : Go Nat := c.io.getN 2 pos
def u32 (c : CNode) (pos : Int) : Go Nat := c.io.getN 4 pos

/-- node.go 69-76: check that the entries of the vtable can be read. -/
def preLoop (b : Base) (cur : Int) : Nat → Go Unit
  | 0 => some ()
  | n + 1 => do
    let s ← b.Ri cur 2
    if s.len < 2 then none
    preLoop b (cur + 2) n

/-- node.go 62-77 `preLoadVtable`: the new `TLen`.  `vLen` entries: `cur` runs from `vPos+4` while
`cur < vPos+vLen`. -/
def preLoad (b : Base) (pos : Nat) : Go Nat := do
  let vOffset ← b.getN 4 pos
  let vPos : Int := (pos : Int) - vOffset
  let vLen ← b.getN 2 vPos
  let tLen ← b.getN 2 (vPos + 2)
  preLoop b (vPos + 4) ((vLen - 3) / 2)
  return tLen

/-- node.go 45-56 `NewNode`. -/
def newNode (name : Name) (b : Base) (pos : Nat) : Go CNode := do
  let t ← preLoad b pos
  return { name := name, io := b, pos := pos, tlen := t }

/-- node.go 317-332 `VirtualTable`: the absolute position of the field, or `pos` itself. -/
def vtab (c : CNode) (idx : Int) : Go Nat := do
  let voff ← c.u32 c.pos
  let vPos : Int := (c.pos : Int) - voff
  if (c.io.lenBuf : Int) ≤ vPos + 4 + idx * 2 then return c.pos
  let tOffset ← c.u16 (vPos + 4 + idx * 2)
  return c.pos + tOffset

/-- node.go 311-314 `VirtualTableIsZero`. -/
def isZero (c : CNode) (idx : Int) : Go Bool := do
  let p ← c.vtab idx
  return p == c.pos

/-- node.go 335-339 `TableLen`. -/
def tableLen (c : CNode) : Go Nat := do
  let voff ← c.u32 c.pos
  c.u16 ((c.pos : Int) - voff + 2)

/-- node.go 341-345 `VirtualTableLen`. -/
def vtableLen (c : CNode) : Go Nat := do
  let voff ← c.u32 c.pos
  c.u16 ((c.pos : Int) - voff)

/-- node.go 347-353 `Table`; -1 when absent. -/
def table (c : CNode) (idx : Int) : Go Int := do
  let pos ← c.vtab idx
  if ← c.isZero idx then return -1
  let off ← c.u32 pos
  return (pos : Int) + off

/-- node.go 114-130 `ValueInfoPosList`. -/
def infoPosList (c : CNode) (idx : Int) : Go VInfo := do
  let vPos ← c.vtab idx
  if ← c.isZero idx then return {}
  let vLenOff ← c.u32 vPos
  let vLen ← c.u32 (vPos + vLenOff)
  return { pos := vPos + vLenOff + 4, size := 0, vlen := vLen }

/-- `node.IdxToTypeGroup[idx]` etc.; a missing key yields the zero value. -/
def fieldT (s : Sch) (c : CNode) (idx : Int) : FieldT :=
  if idx < 0 then ⟨[], 0, none⟩ else ((s.fields c.name)[idx.toNat]?).getD ⟨[], 0, none⟩

/-- common.go 227-229 `CountOfField`. -/
def countOfField (s : Sch) (c : CNode) : Nat := (s.fields c.name).length

/-- common.go 232-307 `FieldAt`.  `none` inside = a `CommonNode` whose `Node` is nil. -/
def fieldAt (s : Sch) (c : CNode) (idx : Int) : Go (Option CNode) := do
  let f := c.fieldT s idx
  if s.isStruct c.name then
    return some { name := f.tname, io := c.io, pos := c.pos + sumSize ((s.fields c.name).take idx.toNat) }
  if ← c.isZero idx then return none
  if isFieldStruct f.grp then
    let p ← c.vtab idx
    return some { name := f.tname, io := c.io, pos := p }
  else if isFieldUnion f.grp then
    let p ← c.table idx
    if p < 0 then none
    let n ← newNode f.tname c.io p.toNat
    return some n
  else if isFieldBytes f.grp then
    let v ← c.infoPosList idx
    return some { name := f.tname, io := c.io, pos := v.pos.toNat, size := v.vlen,
                  vi := { pos := v.pos, size := v.vlen, vlen := v.vlen } }
  else if isFieldSlice f.grp then
    let v ← c.infoPosList idx
    let n ← newNode f.tname c.io c.pos
    return some { n with vi := v }
  else if isFieldTable f.grp then
    let p ← c.table idx
    if p < 0 then none
    let n ← newNode f.tname c.io p.toNat
    return some n
  else if isFieldBasicType f.grp then
    let p ← c.vtab idx
    return some { name := f.tname, io := c.io, pos := p, size := f.size }
  else return none

/-- node.go 207-301: the scalar accessors of width `k` (0 for a nil node). -/
def scalar (k : Nat) (c : Option CNode) : Go Nat :=
  match c with
  | none => some 0
  | some c => c.io.getN k c.pos

/-- node.go 303-308 `Bytes`: `R(pos, Size(n))[:n]`. -/
def bytes (c : Option CNode) : Go Bytes :=
  match c with
  | none => some []
  | some c =>
    if c.size < 0 then none
    else do
      let r ← c.R c.pos c.size.toNat
      let t ← r.takeTo c.size.toNat
      return t.data

/-- common.go 124-127 `CanFollow`. -/
def canFollow (s : Sch) (c : CNode) (idx : Int) : Go Bool := do
  let f ← c.fieldAt s (idx - 1)
  let t ← scalar 1 f
  return decide (t > 0)

/-- common.go 130-152 `FollowUnion`: outer `none` panic, inner `none` the nil result, then the alias and
the node.  `Byte() - 1` is computed modulo 256. -/
def followUnion (s : Sch) (c : CNode) (idx : Int) : Go (Option (Name × Option CNode)) := do
  let f ← c.fieldAt s (idx - 1)
  let t ← scalar 1 f
  let k := (t + 255) % 256
  match ((s.unions (c.fieldT s idx).tname).getD [])[k]? with
  | none => return none
  | some alias_ =>
    let u ← c.fieldAt s idx
    return some (alias_, u.map fun n => { n with name := alias_ })

/-- common.go 318-331 `IsList`; panics on a one-character name. -/
def isList (c : CNode) : Go Bool :=
  if c.name = [] ∧ c.vi.vlen > 0 then some true
  else if c.name.length < 2 then none
  else some (decide (c.name.take 2 = "[]".toList))

/-- list.go 390-392 `VLen`, 1064-1068 `Count`. -/
def listLen (c : CNode) : Go Nat := c.u32 (c.vi.pos - 4)

/-- common.go 39-52: `Info().Size` of a scalar or struct node (`none` = neither). -/
def directSize (s : Sch) (name : Name) : Go (Option Nat) := do
  let g ← getTypeGroup s.toReg name
  if isFieldBasicType g then return some (sizeOfName name)
  if s.isStruct name then return some (sumSize (s.fields name))
  return none

/-- `GetUint32(ptr)` then `NewNode` at the target (list.go 323-328). -/
def atTable (s : Name) (c : CNode) (ptr : Int) : Go (Except Err CNode) := do
  let off ← c.u32 ptr
  let nPos : Int := ptr + off
  let r ← c.R nPos 4
  if r.len = 0 then return .error .notFound
  let n ← newNode s c.io nPos.toNat
  return .ok n

/-- list.go 280-342 `At`. -/
def at_ (s : Sch) (c : CNode) (i : Int) : Go (Except Err CNode) := do
  if !(← c.isList) then return .error .noSupport
  let n ← c.listLen
  if i ≥ n ∨ i < 0 then return .error .invalidIndex
  if c.name.length < 2 then none
  let tName := c.name.drop 2
  let g ← getTypeGroup s.toReg tName
  if isFieldBasicType g || isFieldStruct g then
    let size ← directSize s tName
    let size ← size
    let ptr := if i > 0 then c.vi.pos + i * size else c.vi.pos + i * 4
    if ptr < 0 then none
    return .ok { name := tName, io := c.io, pos := ptr.toNat }
  else c.atTable tName (c.vi.pos + i * 4)

/-- list.go 358-387 `Select` with the constant true / `All`: the elements found below the *cached* length. -/
def allFrom (s : Sch) (c : CNode) (i : Nat) : Nat → Go (List CNode)
  | 0 => some []
  | n + 1 => do
    let e ← c.at_ s i
    let r ← c.allFrom s (i + 1) n
    match e with
    | .ok e => return e :: r
    | .error _ => return r

def all (s : Sch) (c : CNode) : Go (List CNode) := do
  -- list.go 361: the stored length is read (and may panic), but not used
  let _ ← c.listLen
  c.allFrom s 0 c.vi.vlen

end CNode

open CNode

/-- common.go 54-58: keep the largest extent. -/
def growInfo (acc v : VInfo) : VInfo :=
  if acc.pos + acc.size < v.pos + v.size then { acc with size := v.pos + v.size - acc.pos } else acc

/-- list.go 1236-1259: scan for the extreme extent (`t`) or the smallest position; `cur` is the index. -/
def maxPosScan (t : Bool) : List (VInfo) → Nat → Int → Int → Int
  | [], _, _, idx => idx
  | v :: l, i, pos, idx =>
    let e := if t then v.pos + v.size else v.pos
    if i = 0 then maxPosScan t l (i + 1) e i
    else if (if t then e > pos else e < pos) then maxPosScan t l (i + 1) e i
    else maxPosScan t l (i + 1) pos idx

mutual
/-- common.go 28-60 `Info` (`fuel` bounds the depth of the traversal). -/
def infoF (s : Sch) : Nat → Option CNode → Go VInfo
  | 0, _ => none
  | _ + 1, none => some {}
  | k + 1, some c => do
    match ← directSize s c.name with
    | some n => return { pos := c.pos, size := n, vlen := 0 }
    | none => (List.range (s.fields c.name).length).foldlM (fun acc (i : Nat) => do
        let v ← valueInfoF s k c i
        return growInfo acc v) { pos := c.pos, size := -1, vlen := 0 }

/-- common.go 63-121 `ValueInfo` of a table field (the struct case is `structValueInfo`). -/
def valueInfoF (s : Sch) : Nat → CNode → Nat → Go VInfo
  | 0, _, _ => none
  | k + 1, c, idx => do
    let f := c.fieldT s idx
    if isFieldStruct f.grp then
      let p ← c.vtab idx
      let n ← c.fieldAt s idx
      let i ← infoF s k n
      return { pos := p, size := i.size, vlen := 0 }
    else if isFieldUnion f.grp then
      let p ← c.table idx
      if ← c.canFollow s idx then
        match ← c.followUnion s idx with
        | none => none
        | some (_, n) => do
          let i ← infoF s k n
          return { pos := p, size := i.size, vlen := 0 }
      else return { pos := p, size := 0, vlen := 0 }
    else if isFieldBytes f.grp then
      let v ← c.infoPosList idx
      match ← c.fieldAt s idx with
      | none => none
      | some n => do
        let i ← infoSliceF s k n
        return { v with size := i.size }
    else if isFieldSlice f.grp then
      let v ← c.infoPosList idx
      match ← c.fieldAt s idx with
      | none => return v
      | some n => do
        let i ← infoSliceF s k n
        return { v with size := i.size }
    else if isFieldTable f.grp then
      let p ← c.table idx
      let n ← c.fieldAt s idx
      let i ← infoF s k n
      return { pos := p, size := i.size, vlen := 0 }
    else if isFieldBasicType f.grp then
      let p ← c.vtab idx
      return { pos := p, size := f.size, vlen := 0 }
    else return { pos := c.pos, size := 0, vlen := 0 }

/-- list.go 395-433 `InfoSlice`. -/
def infoSliceF (s : Sch) : Nat → CNode → Go VInfo
  | 0, _ => none
  | k + 1, c => do
    if c.name.length < 2 then none
    let tName := c.name.drop 2
    let g ← getTypeGroup s.toReg tName
    let v ← (if isFieldBasicType g then
        some { pos := c.vi.pos, size := (c.vi.vlen : Int) * sizeOfName tName, vlen := 0 }
      else do
        let n ← c.listLen
        let last ← c.at_ s ((n : Int) - 1)
        let v ← match last with
          | .ok e => infoF s k (some e)
          | .error _ => some {}
        -- list.go 414-422: indexOnMaxPos(true) and a warning; evaluated because it may panic
        let es ← c.all s
        let is ← es.mapM (fun e => infoF s k (some e))
        let _ ← match ← c.at_ s (maxPosScan true is 0 0 (-1)) with
          | .ok e => infoF s k (some e)
          | .error _ => some {}
        return v)
    let vlen ← c.listLen
    let size : Int := if vlen = 0 then 0 else -1
    return growInfo { pos := c.vi.pos, size := size, vlen := vlen } v
end

/-- common.go 65-72: `ValueInfo(idx)` of a struct. -/
def structValueInfo (s : Sch) (c : CNode) (idx : Nat) : VInfo :=
  (List.range idx).foldl (fun (v : VInfo) (i : Nat) => { v with pos := v.pos + v.size, size := (c.fieldT s i).size })
    { pos := c.pos, size := 0, vlen := 0 }

end Fbs
