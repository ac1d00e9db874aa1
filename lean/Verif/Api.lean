import Verif.Access
import Verif.Misc
/-!
# Unmarshalling, roots, unions, generated lists, the choice of the backend (node.go, common.go, util.go,
option.go, template/genny/*.go)
-/

namespace Fbs

/-! ## Unmarshal -/

/-- The contents of a Go variable of a scalar type (its bits), of type `[]byte`, or of any other type. -/
inductive DVal where
  | num (bits : Nat)
  | bytes (b : Bytes)
  | other (k : Nat)
deriving DecidableEq, Repr

/-- A field of the Go struct to be filled: the value of its `fbs` tag, its type (`[]uint8` for a byte slice),
whether it is exported, its contents.  A field of interface type (which takes any value) is not modelled. -/
structure DField where
  tag : Option Name
  ty  : Name
  exported : Bool := true
  val : DVal
deriving DecidableEq

/-- node.go 207-301: the methods `reflect` finds under the name of a scalar type: the Go type of the result
and the width.  Any other name has no such method (the zero `Value` is called: panic). -/
def scalarMethod (n : Name) : Option (Name × Nat) :=
  if n = "Bool".toList then some ("bool".toList, 1)
  else if n = "Byte".toList then some ("uint8".toList, 1)
  else if n = "Int8".toList then some ("int8".toList, 1)
  else if n = "Int16".toList then some ("int16".toList, 2)
  else if n = "Int32".toList then some ("int32".toList, 4)
  else if n = "Int64".toList then some ("int64".toList, 8)
  else if n = "Uint8".toList then some ("uint8".toList, 1)
  else if n = "Uint16".toList then some ("uint16".toList, 2)
  else if n = "Uint32".toList then some ("uint32".toList, 4)
  else if n = "Uint64".toList then some ("uint64".toList, 8)
  else if n = "Float32".toList then some ("float32".toList, 4)
  else if n = "Float64".toList then some ("float64".toList, 8)
  else none

/-- The bits of the Go value made of the bits stored: a `bool` is true for 1 only (`flatbuffers.GetBool`). -/
def goBits (ty : Name) (v : Nat) : Nat := if ty = "bool".toList then (if v = 1 then 1 else 0) else v

/-- common.go 391-412: the function called for a field of the Go struct.  `ix` is `All_NameToIdx[node.Name]`.
`rv.SetBytes` and `rv.Set` panic if the type does not fit or the field is not exported. -/
def unmarshalField (s : Sch) (ix : Name → Option Nat) (c : CNode) (f : DField) : Go DField :=
  match f.tag with
  | none => some f
  | some t =>
    match ix t with
    | none => some f
    | some i =>
      let fd := c.fieldT s i
      if isFieldStruct fd.grp then some f
      else if isFieldUnion fd.grp then some f
      else if isFieldBytes fd.grp then do
        match ← c.fieldAt s i with
        | none => none
        | some n =>
          let b ← CNode.bytes (some n)
          if f.ty ≠ "[]uint8".toList ∨ f.exported = false then none
          return { f with val := .bytes b }
      else if isFieldBasicType fd.grp then do
        let n ← c.fieldAt s i
        let (ty, k) ← scalarMethod fd.tname
        let v ← CNode.scalar k n
        if f.ty ≠ ty ∨ f.exported = false then none
        return { f with val := .num (goBits ty v) }
      else some f

/-- What is given to `Unmarshal`. -/
inductive Dst where
  | notPtr
  | notStruct
  | struct (fs : List DField)
deriving DecidableEq

/-- node.go 160-185 `unmarshal` with common.go 389-413 `Unmarshal`: the error, or the Go struct afterwards. -/
def unmarshal (s : Sch) (ix : Name → Option Nat) (c : CNode) : Dst → Go (Except Err (List DField))
  | .notPtr => some (.error .noSupport)
  | .notStruct => some (.error .invalidType)
  | .struct fs => do
    let r ← fs.mapM (unmarshalField s ix c)
    return .ok r

/-! ## roots -/

/-- util.go 360-364 `SetRootName`. -/
def setRootName (cur s : Name) : Name := if cur.length = 0 then s else cur

/-- template/genny/root.go 53-67: the root name after messages with these root types were opened, in this order. -/
def rootNameAfter (l : List Name) : Name := l.foldl setRootName []

namespace CNode

/-- common.go 1020-1026 `IsRoot`. -/
def isRoot (s : Sch) (c : CNode) : Bool := decide (s.root = c.name)

/-- template/genny/node.go 152-158 `Root` with root.go 69-77 `toRoot`; `rt` is the root type of the package of
the node.  `none` inside is the error. -/
def root (rt : Name) (c : CNode) : Go (Option CNode) := do
  if !(← c.inRoot) then return none
  let p ← c.u32 0
  let r ← newNode rt c.io p
  return some r

/-! ## unions -/

/-- template/genny/union-alias.go 14-22: the member `a` of a union; nothing is checked. -/
def asMember (a : Name) (u : Option CNode) : Option CNode := u.map fun n => { n with name := a }

/-! ## the lists of offsets -/

/-- list.go 584-593 `oldMovOffToTable`: the offsets `i`, `i+1`, ... (`n` of them), one at a time. -/
def oldMoveFrom (c : CNode) (size : Int) (i : Nat) : Nat → Go CNode
  | 0 => some c
  | n + 1 => do
    let o ← c.u32 (c.vi.pos + i * 4)
    let b ← c.io.putN 4 (c.vi.pos + i * 4) (Fbs.u32 (o + size))
    oldMoveFrom { c with io := b } size (i + 1) n

def oldMoveOffs (c : CNode) (size : Int) : Go CNode := do
  let n ← c.listLen
  c.oldMoveFrom size 0 n

end CNode

/-! ## generated lists (template/genny/list.go) -/

namespace genList

/-- What a generated function hands out: a nil pointer, or a node, the `CommonNode` of which may be nil. -/
inductive Ptr (α : Type) where
  | nil
  | node (c : Option α)

variable {α : Type}

/-- list.go 24-28 `At` on `At` of package base: the result and whether there is an error. -/
def at_ (base : Int → Except Err α) (i : Int) : Ptr α × Option Err :=
  match base i with
  | .ok a => (.node (some a), none)
  | .error e => (.node none, some e)

/-- list.go 30-36 `AtWihoutError`. -/
def atNoErr (base : Int → Except Err α) (i : Int) : Ptr α :=
  match (at_ base i).2 with
  | some _ => .nil
  | none => (at_ base i).1

/-- list.go 53-55 `First`. -/
def first (base : Int → Except Err α) : Ptr α × Option Err := at_ base 0

/-- list.go 57-59 `Last`; `n` is the cached length. -/
def last (base : Int → Except Err α) (n : Nat) : Ptr α × Option Err := at_ base ((n : Int) - 1)

/-- `At` of package base as the loops use it. -/
def elem (base : Int → Except Err α) (i : Nat) : Option α :=
  match base i with
  | .ok a => some a
  | .error _ => none

/-- list.go 61-70 `Select`. -/
def select (base : Int → Except Err α) (n : Nat) (fn : Ptr α → Bool) : List (Ptr α) :=
  (Fbs.select (elem base) n fun a => fn (.node (some a))).map fun a => .node (some a)

/-- list.go 72-78 `Find`. -/
def find (base : Int → Except Err α) (n : Nat) (fn : Ptr α → Bool) : Ptr α :=
  .node (Fbs.find (elem base) n fun a => fn (.node (some a)))

/-- list.go 80-82 `All`. -/
def all (base : Int → Except Err α) (n : Nat) : List (Ptr α) := select base n fun _ => true

/-- list.go 97-108 `Search`; `m` is the stored length. -/
def search (base : Int → Except Err α) (m : Nat) (fn : Ptr α → Bool) : Ptr α :=
  let i := Fbs.searchIndex (elem base) m fun a => fn (.node (some a))
  if i < m then (at_ base i).1 else .node none

/-- list.go 110-120 `SearchIndex`. -/
def searchIndex (base : Int → Except Err α) (m : Nat) (fn : Ptr α → Bool) : Int :=
  let i := Fbs.searchIndex (elem base) m fun a => fn (.node (some a))
  if i < m then i else -1

end genList

/-! ## the choice of the backend (option.go, common.go 343-374) -/

inductive Backend where
  | base | noLayer | doubleLayer
deriving DecidableEq, Repr

/-- option.go 15-28 `SetDefaultBase`: the new default. -/
def setDefaultBase (name : Name) : Backend :=
  if name = "NoLayer".toList then .noLayer
  else if name = "DobuleLayer".toList then .doubleLayer
  else .base

/-- common.go 346-348, 363-365: the default after `Open` with options of these names. -/
def applyOpts (cur : Backend) : List Name → Backend
  | [] => cur
  | o :: _ => setDefaultBase o

/-- The backends of the messages opened one after the other, each with its options, and the default after that. -/
def openAll (cur : Backend) : List (List Name) → List Backend × Backend
  | [] => ([], cur)
  | o :: l =>
    let b := applyOpts cur o
    let (r, e) := openAll b l
    (b :: r, e)

/-! ## SearchInfo (common.go 156-193, list.go 436-450) -/

namespace CNode

/-- One call of the function given to `SearchInfo`: name of the node, field (-1: the node itself), extent. -/
structure Found where
  name : Name
  idx  : Int
  info : VInfo
deriving DecidableEq

mutual
/-- common.go 156-193 `SearchInfo`: the calls in order; `fuel` bounds the depth.  A node is its name and, if there is
one, its place.  Without a place the extent is empty and looking at a leaf panics. -/
def searchF (s : Sch) (cond : VInfo → Bool) : Nat → Name × Option CNode → Go (List Found)
  | 0, _ => none
  | k + 1, (nm, c) => do
    let info ← infoF s k c
    if !(cond info) then return []
    let r ← collect (fun (i : Nat) =>
      match c with
      | none => if (s.fields nm).isEmpty then some [] else none
      | some c => searchAt s cond k c i) (List.range (s.fields nm).length)
    return ⟨nm, -1, info⟩ :: r

/-- common.go 165-192: one field. -/
def searchAt (s : Sch) (cond : VInfo → Bool) : Nat → CNode → Nat → Go (List Found)
  | 0, _, _ => none
  | k + 1, c, i =>
    let fd := c.fieldT s i
    if c.isLeafAt s i then do
      let v ← (if s.isStruct c.name then some (structValueInfo s c i) else valueInfoF s k c i)
      return if cond v then [⟨c.name, i, v⟩] else []
    else if isFieldStruct fd.grp then do
      let f ← c.fieldAt s i
      searchF s cond k (fd.tname, f)
    else do
      let u ← (if isFieldUnion fd.grp then c.canFollow s i else some false)
      if u then
        match ← c.followUnion s i with
        | none => none
        | some (a, n) => searchF s cond k (a, n)
      else if isFieldSlice fd.grp then do
        let f ← c.fieldAt s i
        searchSliceF s cond k (fd.tname, f)
      else if isFieldTable fd.grp then do
        let f ← c.fieldAt s i
        searchF s cond k (fd.tname, f)
      else return []

/-- list.go 436-456 `SearchInfoSlice` (457-470 is never reached: every element is a `Searcher`). -/
def searchSliceF (s : Sch) (cond : VInfo → Bool) : Nat → Name × Option CNode → Go (List Found)
  | 0, _ => none
  | k + 1, (nm, c) => do
    let info ← infoF s k c
    if !(cond info) then return []
    match c with
    | none => none
    | some c => do
      let es ← c.all s
      let r ← collect (fun (e : CNode) => searchF s cond k (e.name, some e)) es
      return ⟨nm, -1, info⟩ :: r
end

end CNode
end Fbs
