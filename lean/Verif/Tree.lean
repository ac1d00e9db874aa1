import Verif.Node
/-!
# Walking over a message: `TraverseInfo`, `AllTree`, `FindTree` (query/base/common.go)
-/

namespace Fbs
namespace CNode

/-- common.go 196-224 `IsLeafAt`. -/
def isLeafAt (s : Sch) (c : CNode) (j : Nat) : Bool :=
  let g := (c.fieldT s j).grp
  if isFieldStruct g then false
  else if isFieldUnion g then false
  else if isFieldBytes g then true
  else if isFieldSlice g then false
  else if isFieldTable g then false
  else isFieldBasicType g

/-- One call of the function given to `TraverseInfo` (common.go 614, 641, 661). -/
structure Visit where
  node   : CNode
  idx    : Nat
  parent : Int
  child  : Int
  size   : Int

/-- Go `for` loop collecting the calls made by its iterations. -/
def collect (f : α → Go (List β)) : List α → Go (List β)
  | [] => some []
  | a :: l => do
    let x ← f a
    let y ← collect f l
    return x ++ y

mutual
/-- common.go 606-652 `TraverseInfo`: the calls in order, for the condition that is always true (the
condition only decides about the call, not about the walk); `fuel` bounds the depth. -/
def traverseF (s : Sch) : Nat → CNode → Go (List Visit)
  | 0, _ => none
  | k + 1, c => collect (fun (i : Nat) => traverseAt s k c i) (List.range (s.fields c.name).length)

/-- common.go 608-651: one field. -/
def traverseAt (s : Sch) : Nat → CNode → Nat → Go (List Visit)
  | 0, _, _ => none
  | k + 1, c, i =>
    let g := (c.fieldT s i).grp
    if c.isLeafAt s i then do
      let v ← (if s.isStruct c.name then some (structValueInfo s c i) else valueInfoF s k c i)
      return [⟨c, i, c.pos, v.pos, v.size⟩]
    else if isFieldUnion g then do
      match ← c.followUnion s i with
      | some (_, some n) => do
        let v ← c.vtab i
        let t ← c.table i
        let r ← (if (v : Int) = t then some [] else traverseF s k n)
        return ⟨c, i, c.pos, n.pos, -1⟩ :: r
      | _ => return []
    else do
      let f ← c.fieldAt s i
      if isFieldSlice g then
        match f with
        | none => none
        | some n => do
          let r ← traverseSliceF s k n
          return ⟨c, i, c.pos, n.vi.pos, -1⟩ :: r
      else
        match f with
        | none => return []
        | some n => do
          let r ← (if isFieldTable g then do
              let v ← c.vtab i
              let t ← c.table i
              if (v : Int) = t then return [] else traverseF s k n
            else traverseF s k n)
          return ⟨c, i, c.pos, n.pos, -1⟩ :: r

/-- common.go 655-672 `TraverseInfoSlice` (673-687 is never reached: every element is a `Searcher`). -/
def traverseSliceF (s : Sch) : Nat → CNode → Go (List Visit)
  | 0, _ => none
  | k + 1, c => do
    let es ← c.all s
    collect (fun (p : CNode × Nat) => do
      let r ← traverseF s k p.1
      return ⟨c, p.2, c.vi.pos, p.1.pos, -1⟩ :: r) es.zipIdx
end

/-- common.go 701-711 `Tree.Pos`; a nil `Node` gives -1. -/
def treePos : Option CNode → Int
  | none => -1
  | some c => if c.vi.pos > 0 then c.vi.pos else c.pos

/-- common.go 713-722 `Tree.Size`. -/
def treeSize : Option CNode → Int
  | none => -1
  | some c => if c.vi.pos > 0 then c.vi.size else c.size

/-- common.go 798-803: does the tree stand at the position `p`? -/
def standsAt (p : Int) : Option CNode → Bool
  | none => false
  | some c => if c.vi.pos > 0 then c.vi.pos = p else (c.pos : Int) = p

/-- `loncha.IndexOf(trees, ...)` (common.go 797-804): the first tree standing at `p`.  The node of a tree
is nil where `At` failed; looking at it panics. -/
def parentIdx (p : Int) : List (Option (Option CNode)) → Nat → Go (Option Nat)
  | [], _ => some none
  | none :: _, _ => none
  | some o :: l, i => if standsAt p o then some (some i) else parentIdx p l (i + 1)

/-- The trees made by `AllTree` in order of creation; the first is the node itself.  `par` is the index of
the parent.  The children of a tree are the trees whose parent it is, in order. -/
structure Forest where
  node : List (Option (Option CNode))
  par  : List (Option Nat)

/-- common.go 784-792: the node of a tree. -/
def treeNode (s : Sch) (v : Visit) : Go (Option (Option CNode)) :=
  if v.node.vi.pos > 0 then do
    match ← v.node.at_ s v.idx with
    | .ok e => return some (some e)
    | .error _ => return none
  else do
    let f ← v.node.fieldAt s v.idx
    return some f

/-- common.go 754-812 `AllTree`. -/
def allTree (s : Sch) (fuel : Nat) (c : CNode) : Go Forest := do
  let vs ← traverseF s fuel c
  let ns ← vs.mapM (treeNode s)
  let ns := some (some c) :: ns
  let ps ← vs.mapM (fun v => parentIdx v.parent ns 0)
  return ⟨ns, none :: ps⟩

namespace Forest

/-- `tree.Childs` of tree `j`. -/
def childs (t : Forest) (j : Nat) : List Nat :=
  (List.range t.par.length).filter (fun i => (t.par[i]?).join = some j)

/-- common.go 816-826 `findtree`: the trees below `j`, each before its children (`fuel` bounds the depth). -/
def below (t : Forest) : Nat → Nat → List Nat
  | 0, _ => []
  | k + 1, j => (t.childs j).flatMap (fun i => i :: below t k i)

/-- What `FindTree` (common.go 828-840) delivers, as indices; every tree is reached from one parent only,
so no path is longer than the number of trees. -/
def find (t : Forest) (cond : Nat → Bool) : List Nat := (t.below t.node.length 0).filter cond

/-- The node of tree `i`. -/
def at_ (t : Forest) (i : Nat) : Option CNode := ((t.node[i]?).join).join

end Forest

end CNode
end Fbs
