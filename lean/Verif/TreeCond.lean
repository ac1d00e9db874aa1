import Verif.Tree
/-!
# `TraverseInfo` with any condition (query/base/common.go 605-687)
-/

namespace Fbs
namespace CNode

/-- common.go 612-614, 637-639, 660-662: the function is called if the condition holds for the positions and the size. -/
def callIf (cond : Int → Int → Int → Bool) (v : Visit) : List Visit := if cond v.parent v.child v.size then [v] else []

mutual
/-- common.go 606-652 `TraverseInfo` with the condition `condFn`; `fuel` bounds the depth. -/
def traverseCF (s : Sch) (cond : Int → Int → Int → Bool) : Nat → CNode → Go (List Visit)
  | 0, _ => none
  | k + 1, c => collect (fun (i : Nat) => traverseCAt s cond k c i) (List.range (s.fields c.name).length)

/-- common.go 608-651: one field.  The condition is asked before the walk goes on, and does not decide about that. -/
def traverseCAt (s : Sch) (cond : Int → Int → Int → Bool) : Nat → CNode → Nat → Go (List Visit)
  | 0, _, _ => none
  | k + 1, c, i =>
    let g := (c.fieldT s i).grp
    if c.isLeafAt s i then do
      let v ← (if s.isStruct c.name then some (structValueInfo s c i) else valueInfoF s k c i)
      return callIf cond ⟨c, i, c.pos, v.pos, v.size⟩
    else if isFieldUnion g then do
      match ← c.followUnion s i with
      | some (_, some n) => do
        let v ← c.vtab i
        let t ← c.table i
        let r ← (if (v : Int) = t then some [] else traverseCF s cond k n)
        return callIf cond ⟨c, i, c.pos, n.pos, -1⟩ ++ r
      | _ => return []
    else do
      let f ← c.fieldAt s i
      if isFieldSlice g then
        match f with
        | none => none
        | some n => do
          let r ← traverseCSliceF s cond k n
          return callIf cond ⟨c, i, c.pos, n.vi.pos, -1⟩ ++ r
      else
        match f with
        | none => return []
        | some n => do
          let r ← (if isFieldTable g then do
              let v ← c.vtab i
              let t ← c.table i
              if (v : Int) = t then return [] else traverseCF s cond k n
            else traverseCF s cond k n)
          return callIf cond ⟨c, i, c.pos, n.pos, -1⟩ ++ r

/-- common.go 655-672 `TraverseInfoSlice`. -/
def traverseCSliceF (s : Sch) (cond : Int → Int → Int → Bool) : Nat → CNode → Go (List Visit)
  | 0, _ => none
  | k + 1, c => do
    let es ← c.all s
    collect (fun (p : CNode × Nat) => do
      let r ← traverseCF s cond k p.1
      return callIf cond ⟨c, p.2, c.vi.pos, p.1.pos, -1⟩ ++ r) es.zipIdx
end

end CNode
end Fbs
