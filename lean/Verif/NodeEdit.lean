import Verif.Tree
/-!
# Editing and comparing nodes (query/base/common.go)

`setFieldAt` etc. return the node as the caller sees it afterwards (with its new buffer).
-/

namespace Fbs

namespace Base

/-- `flatbuffers.WriteUintN(b.U(pos, k), v)`; a negative offset panics in `D` (base.go 736). -/
def putN (b : Base) (k : Nat) (pos : Int) (v : Nat) : Go Base :=
  if pos < 0 then none else some (b.updateU pos.toNat k (putLE k v))

/-- base.go 675-710 `Copy` with computed (possibly negative) arguments.  A negative source offset makes
`src.R` panic; a negative destination makes `b.bytes[dstOff:]` panic.  A negative `extend` moves the later
segments down (a segment that would start before offset 0 is not modelled: `none`). -/
def copyI (b : Base) (src : Base) (srcOff size dstOff ext : Int) : Go Base :=
  if dstOff < 0 then none
  else if 0 < size ∧ srcOff < 0 then none
  else if 0 ≤ ext then
    some (b.copy (fun p n => src.R p n) srcOff.toNat size.toNat dstOff.toNat ext.toNat)
  else if (b.copyExtend dstOff.toNat 0).diffs.any
      (fun d => decide (d.off ≥ dstOff.toNat) && decide (d.off < (-ext).toNat)) then none
  else
    let b' := b.copyExtend dstOff.toNat 0
    let ds := b'.diffs.map (fun d => if d.off ≥ dstOff.toNat then ⟨d.off - (-ext).toNat, d.sl⟩ else d)
    some { b' with diffs := copyLoop (fun p n => src.R p n) srcOff.toNat dstOff.toNat 0 size.toNat ds }

end Base

namespace CNode

/-- common.go 857-869 `InRoot`. -/
def inRoot (c : CNode) : Go Bool := do
  let pos ← c.u16 0
  let r ← c.R pos 4
  if r.len < 4 then return false
  if c.pos < 8 then return false
  let o ← c.u32 pos
  return pos != o

/-- common.go 939-972 `movePosOnList`. -/
def movePosOnList (s : Sch) (c : CNode) (i : Int) (size : Nat) : Go CNode := do
  if !(← c.isList) then return c
  if i ≥ c.vi.vlen ∨ i < 0 then return c
  if c.name.length < 2 then none
  let g ← getTypeGroup s.toReg (c.name.drop 2)
  if isFieldBasicType g then return c
  let off ← c.u32 (c.vi.pos + i * 4)
  let b ← c.io.putN 4 (c.vi.pos + i * 4) (off + size)
  return { c with io := b }

/-- common.go 974-1017 `movePos` (the write wraps modulo 2^32 in `putLE 4`). -/
def movePos (s : Sch) (c : CNode) (idx : Int) (pos size : Nat) : Go CNode := do
  if ← c.isList then c.movePosOnList s idx size
  else if s.isStruct c.name then return c
  else
    let g := (c.fieldT s idx).grp
    if isFieldUnion g || isFieldTable g || isFieldSlice g || isFieldBytes g then
      let cPos ← c.vtab idx
      let nextOff ← c.u32 cPos
      if cPos + nextOff < pos then return c
      let b ← c.io.putN 4 cPos (nextOff + size)
      return { c with io := b }
    else return c

/-- common.go 842-854 `root`, `RootCommon`. -/
def rootCommon (s : Sch) (c : CNode) : Go CNode := do
  let p ← c.u32 0
  newNode s.root c.io p

/-- common.go 903-908: the trees `InsertSpace` asks for: those behind `pos` whose parent is not. -/
def crosses (t : Forest) (pos : Nat) (i : Nat) : Bool :=
  match ((t.par)[i]?).join with
  | none => false
  | some j =>
    match t.at_ i, t.at_ j with
    | some a, some b => decide (treePos (some b) ≤ pos) && decide ((pos : Int) ≤ treePos (some a))
    | _, _ => false

/-- common.go 911-935: the loop over the trees found; `nb` is the new buffer, shared by all of them. -/
def moveTrees (s : Sch) (c : CNode) (t : Forest) (pos size : Nat) : List Nat → Base → Go Base
  | [], nb => some nb
  | i :: l, nb =>
    match (t.par[i]?).join with
    | none => none
    | some j =>
      match t.at_ j with
      | none => none
      | some p =>
        if p.name = c.name ∧ p.pos = c.pos then moveTrees s c t pos size l nb
        else do
          let p' ← ({ p with io := nb } : CNode).movePos s ((t.childs j).idxOf i) pos size
          moveTrees s c t pos size l p'.io

/-- common.go 878-937 `InsertSpace` (872-875 `InsertBuf` is `isCreate = true`).  The trees are those of the
buffer before the insertion. -/
def insertSpace (s : Sch) (fuel : Nat) (c : CNode) (pos size : Nat) (isCreate : Bool) : Go CNode := do
  let nb := c.io.insertSpace pos size isCreate
  let nb ← (if ← c.inRoot then do
      let r ← c.rootCommon s
      let t ← r.allTree s fuel
      c.moveTrees s t pos size (t.find (crosses t pos)) nb
    else some nb)
  if ← c.isList then
    if c.vi.pos > pos then return { c with io := nb, vi := { c.vi with pos := c.vi.pos + size } }
    else return { c with io := nb }
  else if c.pos > pos then return { c with io := nb, pos := c.pos + size }
  else return { c with io := nb }

/-- `InsertSpace` outside a message. -/
theorem insertSpace_out {s : Sch} {fuel : Nat} {c : CNode} (h : c.inRoot = some false) (pos size : Nat) (cr : Bool) :
    c.insertSpace s fuel pos size cr = (do
      let nb := c.io.insertSpace pos size cr
      if ← c.isList then
        if c.vi.pos > pos then return { c with io := nb, vi := { c.vi with pos := c.vi.pos + size } }
        else return { c with io := nb }
      else if c.pos > pos then return { c with io := nb, pos := c.pos + size }
      else return { c with io := nb }) := by
  unfold insertSpace
  rw [h]
  rfl

/-- common.go 1051-1057: the spare capacity reserved for the fields. -/
def initExt (fs : List FieldT) : Nat :=
  fs.foldl (fun a f => a + if isFieldBasicType f.grp then f.size else 4) 0

/-- common.go 1029-1069 `Init`: `node.R` returns the buffer itself, so the header is written in place. -/
def init (s : Sch) (name : Name) : Go CNode := do
  let g ← getTypeGroup s.toReg name
  let fs := s.fields name
  let (vLen, tLen, ext) :=
    if s.isStruct name then (0, sumSize fs, 0)
    else if isFieldSlice g then (0, 4, 0)
    else (4 + fs.length * 2, 4, initExt fs)
  if tLen < 4 then none
  let bs := copyAt (zeros (tLen + vLen)) vLen (putLE 4 vLen)
  let bs := if vLen > 0 then copyAt (copyAt bs 0 (putLE 2 vLen)) 2 (putLE 2 tLen) else bs
  return { name := name, io := Base.new ⟨bs, zeros ext⟩, pos := vLen }

/-- common.go 1250-1266 `FromBytes`, list.go 1071-1086 `FromByteList`. -/
def fromBytes (bs : Bytes) : CNode :=
  { name := "[]byte".toList, io := Base.new ⟨putLE 4 bs.length ++ bs, []⟩, pos := 4,
    vi := { pos := 4, size := bs.length, vlen := bs.length % 4294967296 } }

/-- template/genny/root.go 142-241 `FromByte` ... `FromUint64`: a scalar of `k` bytes called `name`. -/
def fromScalar (name : Name) (k v : Nat) : CNode :=
  { name := name, io := (Base.new ⟨zeros k, []⟩).updateU 0 k (putLE k v), pos := 0, size := k }

/-- common.go 1092-1107: shift the offsets of the variable-length fields stored after the insertion. -/
def shiftFields (s : Sch) (idx wPos size : Nat) : List Nat → CNode → Go CNode
  | [], c => some c
  | i :: l, c => do
    let g := (c.fieldT s i).grp
    if i = idx then shiftFields s idx wPos size l c
    else if !isFieldSlice g && (isFieldBasicType g || isFieldStruct g) then shiftFields s idx wPos size l c
    else
      let t ← c.table i
      if t ≥ wPos then
        let c' ← c.movePos s i wPos size
        shiftFields s idx wPos size l c'
      else shiftFields s idx wPos size l c

/-- common.go 1071-1117 `insertVTable`. -/
def insertVTable (s : Sch) (fuel : Nat) (c : CNode) (idx size : Nat) : Go (CNode × Nat) := do
  let tl ← c.tableLen
  let c ← ({ c with tlen := tl } : CNode).insertSpace s fuel (c.pos + tl) size true
  let voff ← c.u32 c.pos
  let vPos : Int := (c.pos : Int) - voff
  let b ← c.io.putN 2 (vPos + 4 + (idx : Int) * 2) tl
  let b ← b.putN 2 (vPos + 2) ((tl + size) % 65536)
  let wPos := c.pos + tl
  let c ← shiftFields s idx wPos size (List.range (s.fields c.name).length) { c with io := b }
  return (c, wPos)

/-- common.go 1121-1130 `IsSameType`. -/
def isSameType (s : Sch) (c : CNode) (idx : Int) (f : CNode) : Bool :=
  if (c.fieldT s idx).tname = f.name then true
  else isFieldUnion (c.fieldT s idx).grp &&
    ((s.unions (c.fieldT s idx).tname).getD []).any (fun a => decide (a = f.name))

/-- common.go 1159-1186: a vector field. -/
def setSlice (s : Sch) (fuel : Nat) (c : CNode) (idx : Nat) (f : CNode) : Go CNode := do
  let fsize ← (if f.size ≤ 0 then do
      let i ← infoSliceF s fuel f
      if i.size < 0 then none
      return i.size
    else some f.size)
  let (c, o) ← (if ← c.isZero idx then do
      let (c, wPos) ← c.insertVTable s fuel idx 4
      let b ← c.io.putN 4 wPos 4
      let t ← preLoad b c.pos
      return ({ c with io := b, tlen := t }, (0 : Int))
    else do
      let i ← valueInfoF s fuel c idx
      return (c, i.size))
  let dst ← c.table idx
  let b ← c.io.copyI f.io (f.vi.pos - 4) (f.vi.size + 4) dst (fsize - o)
  return { c with io := b }

/-- common.go 1188-1211: a scalar or struct field. -/
def setScalar (s : Sch) (fuel : Nat) (c : CNode) (idx : Nat) (f : CNode) : Go CNode := do
  let g := (c.fieldT s idx).grp
  let size ← (if isFieldStruct g then do
      let i ← infoF s fuel (some f)
      return i.size
    else some ((c.fieldT s idx).size : Int))
  let t ← preLoad c.io c.pos
  let c : CNode := { c with tlen := t }
  if !(← c.isZero idx) then
    let p ← c.vtab idx
    let b ← c.io.copyI f.io f.pos size p 0
    return { c with io := b }
  if size < 0 then none
  let (c, wPos) ← c.insertVTable s fuel idx size.toNat
  let b ← c.io.copyI f.io f.pos size wPos 0
  let t ← preLoad b c.pos
  return { c with io := b, tlen := t }

/-- common.go 1213-1244: a table or union field. -/
def setTable (s : Sch) (fuel : Nat) (c : CNode) (idx : Nat) (f : CNode) : Go CNode := do
  let fsize ← (if f.size ≤ 0 then do
      let i ← infoF s fuel (some f)
      if i.size ≤ 0 then none
      return i.size
    else some f.size)
  let vSize : Nat := (s.fields f.name).length * 2 + 4
  let o ← valueInfoF s fuel c idx
  if ← c.isZero idx then
    let (c, wPos) ← c.insertVTable s fuel idx 4
    let c ← c.insertSpace s fuel (wPos + 4) (vSize + fsize.toNat) true
    let b ← c.io.putN 4 wPos (vSize + 4)
    let b ← b.copyI f.io ((f.pos : Int) - vSize) (fsize + vSize) (wPos + 4) (fsize + vSize)
    let t ← preLoad b c.pos
    return { c with io := b, tlen := t }
  else
    let ext := max 0 (fsize - o.size)
    let p ← c.table idx
    let b ← c.io.copyI f.io ((f.pos : Int) - vSize) (fsize + vSize) (p - vSize) ext
    return { c with io := b }

/-- common.go 1133-1246 `SetFieldAt`. -/
def setFieldAt (s : Sch) (fuel : Nat) (c : CNode) (idx : Int) (f : CNode) : Go (CNode × Option Err) := do
  if ((s.fields c.name).length : Int) ≤ idx then return (c, some .invalidIndex)
  if !c.isSameType s idx f then return (c, some .invalidType)
  if s.isStruct c.name ∧ 0 < (s.fields c.name).length then
    let p := c.pos + sumSize ((s.fields c.name).take idx.toNat)
    let b ← c.io.copyI f.io f.pos (c.fieldT s idx.toNat).size p 0
    return ({ c with io := b }, none)
  let g := (c.fieldT s idx).grp
  if isFieldSlice g then
    let c ← c.setSlice s fuel idx.toNat f
    return (c, none)
  else if isFieldStruct g || isFieldBasicType g then
    let c ← c.setScalar s fuel idx.toNat f
    return (c, none)
  else if isFieldUnion g || isFieldTable g then
    let c ← c.setTable s fuel idx.toNat f
    return (c, none)
  else return (c, some .noSupport)

end CNode

/-- common.go 1358-1379: compare `size` bytes of two scalar fields; a nil field panics. -/
def equalScalar (size : Nat) (f1 f2 : Option CNode) : Go Bool :=
  match f1, f2 with
  | some a, some b => do
    let ra ← a.R a.pos 0
    if ra.len < size then return false
    let rb ← b.R b.pos 0
    if rb.len < size then return false
    let ra ← a.R a.pos size
    let ta ← ra.takeTo size
    let rb ← b.R b.pos size
    let tb ← rb.takeTo size
    return ta.data == tb.data
  | _, _ => none

/-- A `CommonNode` for comparison: its name, and the node unless it is nil. -/
abbrev Handle := Name × Option CNode

mutual
/-- common.go 1317-1382 `Equal` (`fuel` bounds the depth). -/
def equalF (s : Sch) : Nat → Handle → Handle → Go Bool
  | 0, _, _ => none
  | k + 1, (n1, o1), (n2, o2) =>
    match o1 with
    | some c1 =>
      if c1.vi.pos > 0 then
        match o2 with
        | some c2 => equalList s k c1 c2 0 c1.vi.vlen
        | none =>
          if c1.vi.vlen = 0 then some true
          else do
            match ← c1.at_ s 0 with
            | .error _ => return false
            | .ok _ =>
              -- `(*List)(n2).At(0)`: `IsList` looks at the name only, then `VLen` dereferences nil
              if n2.length < 2 then none
              else if n2.take 2 = "[]".toList then none
              else return false
      else equalFields s k (n1, o1) (n2, o2) 0 (s.fields n1).length
    | none => equalFields s k (n1, o1) (n2, o2) 0 (s.fields n1).length

/-- common.go 1323-1336. -/
def equalList (s : Sch) : Nat → CNode → CNode → Nat → Nat → Go Bool
  | 0, _, _, _, _ => none
  | _ + 1, _, _, _, 0 => some true
  | k + 1, c1, c2, i, n + 1 => do
    match ← c1.at_ s i with
    | .error _ => return false
    | .ok e1 =>
      match ← c2.at_ s i with
      | .error _ => return false
      | .ok e2 =>
        if ← equalF s k (e1.name, some e1) (e2.name, some e2) then equalList s k c1 c2 (i + 1) n
        else return false

/-- common.go 1341-1381. -/
def equalFields (s : Sch) : Nat → Handle → Handle → Nat → Nat → Go Bool
  | 0, _, _, _, _ => none
  | _ + 1, _, _, _, 0 => some true
  | k + 1, (n1, o1), (n2, o2), i, n + 1 => do
    let t1 := ((s.fields n1)[i]?).getD ⟨[], 0, none⟩
    let t2 := ((s.fields n2)[i]?).getD ⟨[], 0, none⟩
    if t1.grp ≠ t2.grp then return false
    -- a method call on a nil node panics
    let c1 ← o1
    let c2 ← o2
    let ok ← (if isFieldUnion t1.grp then do
        let u1 ← c1.followUnion s i
        let u1 ← u1
        let u2 ← c2.followUnion s i
        let u2 ← u2
        equalF s k u1 u2
      else if !isFieldBasicType t1.grp then do
        let f1 ← c1.fieldAt s i
        let f2 ← c2.fieldAt s i
        equalF s k (t1.tname, f1) (t2.tname, f2)
      else do
        let f1 ← c1.fieldAt s i
        let f2 ← c2.fieldAt s i
        equalScalar t1.size f1 f2)
    if ok then equalFields s k (n1, o1) (n2, o2) (i + 1) n else return false
end

end Fbs
