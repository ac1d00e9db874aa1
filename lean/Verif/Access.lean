import Verif.NodeEdit
import Verif.ListEdit
/-!
# The generated code around nodes (template/genny/*.go) and the typed setters (query/base/common.go)
-/

namespace Fbs
namespace CNode

/-- template/genny/root.go 110-121 `WithHeader` (example/query2/root.go 114-125): an 8-byte header with the
position of the root table is put in front, unless `InRoot` says that there is one. -/
def withHeader (c : CNode) : Go CNode := do
  if ← c.inRoot then return c
  let b ← c.io.copyI (Base.new ⟨putLE 4 (c.pos + 8) ++ zeros 4, []⟩) 0 8 0 8
  return { c with io := b, pos := c.pos + 8 }

/-- common.go 361-374 `OpenByBuf` with template/genny/root.go 63-70: the root of a message. -/
def openByBuf (root : Name) (buf : Slice) : Go CNode := do
  let off ← getLE 4 buf.data
  newNode root (Base.new buf) off

/-- The bytes a caller takes out after `WithHeader()`, `Flatten()` and `R(0)` (base_test.go 187-215). -/
def finish (c : CNode) : Go Bytes := do
  let c ← c.withHeader
  return ((c.io.flatten).R 0).data

/-- common.go 377-386 `Len`: the extent of the table, rounded up to a multiple of 8 (Go's `%` truncates, so a
negative extent would be rounded differently; the model follows it with `Int.tmod`). -/
def len (s : Sch) (fuel : Nat) (c : CNode) : Go Int := do
  let i ← infoF s fuel (some c)
  let size := i.pos + i.size
  if size.tmod 8 = 0 then return size
  return size + (8 - size.tmod 8)

/-- template/genny/root.go 105-108 `HasNext`. -/
def hasNext (s : Sch) (fuel : Nat) (c : CNode) : Go Bool := do
  let n ← c.len s fuel
  return decide ((c.io.lenBuf : Int) + 4 < n)

/-- common.go 425-603 `SetBool` ... `SetFloat64` (the twelve functions differ in the name `nm` and the width
`k`; the bits of the value are `v`): the value is written into `U(Pos, Size)`, so a window shorter than `k`
panics.  The second component is the returned error. -/
def setTyped (nm : Name) (k : Nat) (c : CNode) (v : Nat) : Go (CNode × Option Err) :=
  if c.name ≠ nm then some (c, some .invalidType)
  else if c.size ≤ 0 then some (c, some .invalidType)
  else if c.size < k then none
  else some ({ c with io := c.io.updateU c.pos c.size.toNat (putLE k v) }, none)

/-- What `NewResultType()` in template/genny/field.go makes (`ResultType` is chosen by the generator): a
`CommonNode` or `List` without name and node (root.go 35-52), a union without node (union.go 24-26), a table
or struct (node.go 132-140), or a list (list.go 10-18). -/
inductive Res where
  | common
  | union (u : Name)
  | node (n : Name)
  | list (n : Name)

/-- The value put into an absent field by the accessor.  A result without node is refused by `SetFieldAt` if
its name is not that of the field; otherwise `fNode.Node` (common.go 1161, 1216, 1209) is read through a nil
pointer: panic. -/
def fillField (s : Sch) (fuel : Nat) (c : CNode) (idx : Int) : Res → Go CNode
  | .common => if ((s.fields c.name).length : Int) ≤ idx ∨ c.isSameType s idx { name := [], io := Base.new .nil, pos := 0 } = false then some c else none
  | .union u => if ((s.fields c.name).length : Int) ≤ idx ∨ c.isSameType s idx { name := u, io := Base.new .nil, pos := 0 } = false then some c else none
  | .node n => do
    let v ← init s n
    let (c, _) ← c.setFieldAt s fuel idx v
    return c
  | .list n => do
    let (c, _) ← c.setFieldAt s fuel idx (initList n)
    return c

/-- template/genny/field.go 24-40: the generated accessor of a field; the node as it is afterwards and the
result (`none`: its `Node` is nil). -/
def getter (s : Sch) (fuel : Nat) (c : CNode) (idx : Int) (r : Res) : Go (CNode × Option CNode) := do
  match ← c.fieldAt s idx with
  | some n => return (c, some n)
  | none =>
    let c ← c.fillField s fuel idx r
    let n ← c.fieldAt s idx
    return (c, n)

/-- template/genny/root.go 85-99 `Next` on a buffer without reader, with base.go 517-539: the new buffer has
no bytes and no journal (or `b.bytes[:skip]` panics). -/
def rootNext (s : Sch) (fuel : Nat) (c : CNode) : Go CNode := do
  let start ← c.len s fuel
  if (c.io.lenBuf : Int) < start then return c
  if start < 0 then none
  let nb : Slice ← (if c.io.bytes.len > start.toNat then c.io.bytes.takeTo 0
    else do
      let t ← c.io.bytes.takeTo start.toNat
      t.dropFrom start.toNat)
  let off ← getLE 4 ((Base.new nb).R 0 4).data
  newNode [] (Base.new nb) off

/-- template/genny/node.go 102-104 `CountOfField`: the number of fields of built-in scalar type
(`SetNodeNameFields`, 31-34, enters only those into `IdxToType`). -/
def genCount (s : Sch) (n : Name) : Nat := ((s.fields n).filter fun f => (nameToType f.tname).isSome).length

/-- template/genny/node.go 114-121 `Equal`: the fields `i`, `i+1`, ... (`n` of them). -/
def genEqualFrom (s : Sch) (fuel : Nat) (c d : CNode) : Nat → Nat → Go Bool
  | _, 0 => some true
  | i, n + 1 => do
    let f ← c.fieldAt s i
    let g ← d.fieldAt s i
    if ← equalF s fuel ((c.fieldT s i).tname, f) ((d.fieldT s i).tname, g) then genEqualFrom s fuel c d (i + 1) n
    else return false

def genEqual (s : Sch) (fuel : Nat) (c d : CNode) : Go Bool := genEqualFrom s fuel c d 0 (genCount s c.name)

end CNode
end Fbs
