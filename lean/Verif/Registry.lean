import Verif.Node
import Verif.GenCmd
/-!
# Registration of the generated types (query/base/util.go, template/genny/node.go, field.go, union-alias.go)

The generated packages register their types while their package variables are initialised, one call per
variable; Go fixes the order of the calls by file names and dependencies, which the model leaves open: a
history of registrations is any list of events.
-/

namespace Fbs

/-- A Go map; `[]` is both the nil map and the empty one. -/
abbrev GoMap (κ α : Type) := List (κ × α)

namespace GoMap
variable {κ α : Type} [DecidableEq κ]

/-- `m[k]` with its `ok`. -/
def get (m : GoMap κ α) (k : κ) : Option α := (m.find? fun p => p.1 = k).map (·.2)

/-- `m[k] = v` -/
def set (m : GoMap κ α) (k : κ) (v : α) : GoMap κ α :=
  if (m.get k).isSome then m.map fun p => if p.1 = k then (k, v) else p else m ++ [(k, v)]

end GoMap

/-- util.go 193-198, 322-327: the package variables filled by registration (`IsStructName` and `UnionAlias` are
in `reg`).  The maps of a name are those of the generated package, which `SetIdxToType` etc. (275-288) enter. -/
structure Registry where
  reg      : Reg := {}
  types    : Name → GoMap Nat Ty := fun _ => []
  groups   : Name → GoMap Nat Nat := fun _ => []
  names    : Name → GoMap Nat Name := fun _ => []
  idx      : Name → GoMap Name Nat := fun _ => []
  /-- `requestNameFields`: node, type, number -/
  requests : List (Name × Name × Nat) := []

/-- One initialised package variable of generated code. -/
inductive Event where
  /-- node.go 25 `SetNameIsStrunct("NodeName", ToBool("IsStruct"))` -/
  | struct (n flag : Name)
  /-- union-alias.go 11 `SetAlias("UnionName", "AliasName")` -/
  | member (u a : Name)
  /-- field.go 22 `SetNodeNameFields("NodeName", "FieldName", "FieldType", FieldNum)` -/
  | field (n f ty : Name) (num : Nat)
deriving DecidableEq, Repr

namespace Registry

/-- util.go 190-192 `ToBool` -/
def toBool (s : Name) : Bool := s = "true".toList || s = "True".toList

/-- Replace the map of one name. -/
def upd {α : Type} (f : Name → α) (n : Name) (v : α) : Name → α := fun m => if m = n then v else f m

/-- node.go 27-48 `SetNodeNameFields` with 49-71. -/
def setField (r : Registry) (n f ty : Name) (num : Nat) : Go Registry := do
  let r := { r with requests := r.requests ++ [(n, ty, num)] }
  let r := match nameToType ty with
    | some t => { r with types := upd r.types n ((r.types n).set num t) }
    | none => r
  let r := { r with names := upd r.names n ((r.names n).set num ty) }
  let grp ← getTypeGroup r.reg ty
  let r := { r with groups := upd r.groups n ((r.groups n).set num grp) }
  let r := { r with names := upd r.names n ((r.names n).set num ty) }
  return { r with idx := upd r.idx n ((r.idx n).set f num) }

def step (r : Registry) : Event → Go Registry
  | .struct n flag => some (if toBool flag then { r with reg := r.reg.setStruct n } else r)
  | .member u a => some { r with reg := r.reg.setAlias u a }
  | .field n f ty num => r.setField n f ty num

def run (r : Registry) : List Event → Go Registry
  | [] => some r
  | e :: es => do (← r.step e).run es

/-- util.go 345-352: one request.  `All_IdxToTypeGroup[...]` of an unregistered name is nil: panic. -/
def applyOne (r : Registry) (q : Name × Name × Nat) : Go Registry := do
  let grp ← getTypeGroup r.reg q.2.1
  if (r.groups q.1).isEmpty then none
  return { r with groups := upd r.groups q.1 ((r.groups q.1).set q.2.2 grp) }

def applyAll (r : Registry) : List (Name × Name × Nat) → Go Registry
  | [] => some r
  | q :: qs => do (← r.applyOne q).applyAll qs

/-- util.go 339-355 `ApplyRequestNameFields`; `loncha.Delete` is assumed to call its argument once for every
element, in order, and to remove those for which it returns true (here: all). -/
def apply (r : Registry) : Go Registry := do
  let r ← r.applyAll r.requests
  return { r with requests := [] }

/-- The registered types as the nodes see them. -/
def toSch (r : Registry) : Sch :=
  { r.reg with fields := fun n => (List.range (r.groups n).length).map fun k =>
      ⟨((r.names n).get k).getD [], ((r.groups n).get k).getD 0, (r.types n).get k⟩ }

end Registry

namespace Gen

/-- How genny writes a parameter into a string of the template: with its first letter in upper case (assumption,
taken from the generated code checked in under example/query2, e.g. `"Int32"` for `FieldType=int32`). -/
def capFirst : Name → Name
  | [] => []
  | c :: s => c.toUpper :: s

/-- The registrations made by one generated file. -/
def eventsOf (c : Cmd) : List Event :=
  match c.template with
  | .node => [.struct (capFirst c.nodeName) (if c.isStruct then "True".toList else "False".toList)]
  | .field => [.field (capFirst c.nodeName) (capFirst c.fieldName) (capFirst c.fieldType) (c.fieldNum.getD 0)]
  | .unionAlias => c.extra.map fun a => .member (capFirst c.nodeName) (capFirst a)
  | _ => []

end Gen
end Fbs
