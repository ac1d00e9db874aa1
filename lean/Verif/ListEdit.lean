import Verif.NodeEdit
/-!
# Editing lists (query/base/list.go)

Operations return the list as the caller sees it afterwards.  The simplifications of `Verif.Node` apply.
The two operands of `add` are different lists (`l.Add(l)` is not modelled: its source changes while it is
being read).
-/

namespace Fbs
namespace CNode

/-- list.go 908-914 `InitList` on a fresh list. -/
def initList (name : Name) : CNode :=
  { name := name, io := Base.new ⟨zeros 4, []⟩, pos := 4, vi := { pos := 4 } }

/-- list.go 520-531 `vlenTotal`: refresh the cached values of a list that looks empty. -/
def vlenTotal (s : Sch) (fuel : Nat) (c : CNode) : Go CNode := do
  let c ← (if c.vi.pos = 0 ∨ c.vi.vlen = 0 ∨ c.vi.size = 0 then do
      let i ← infoSliceF s fuel c
      return { c with vi := i }
    else some c)
  if c.vi.vlen = 0 then return { c with vi := { c.vi with size := 0 } }
  else return c

/-- `node.NodeList.ValueInfo = ValueInfo(node.InfoSlice())`. -/
def refresh (s : Sch) (fuel : Nat) (c : CNode) : Go CNode := do
  let i ← infoSliceF s fuel c
  return { c with vi := i }

/-- `if elm.Node.Size <= 0 { elm.Node.Size = elm.Info().Size }` (list.go 770-772, 807-809). -/
def elmSize (s : Sch) (fuel : Nat) (elm : CNode) : Go Int := do
  if elm.size ≤ 0 then
    let i ← infoF s fuel (some elm)
    return i.size
  else return elm.size

/-- list.go 761-791 `setStructAt`. -/
def setStructAt (s : Sch) (fuel : Nat) (c : CNode) (idx : Int) (elm : CNode) : Go (CNode × Option Err) := do
  if idx > c.vi.vlen then return (c, some .invalidIndex)
  let c ← c.vlenTotal s fuel
  let esize ← elmSize s fuel elm
  let ptr := c.vi.pos + idx * esize
  let ext := if (c.vi.vlen : Int) = idx then esize else 0
  let b ← c.io.copyI elm.io elm.pos esize ptr ext
  let b ← (if (c.vi.vlen : Int) = idx then b.putN 4 (c.vi.pos - 4) (c.vi.vlen + 1) else some b)
  let c ← ({ c with io := b } : CNode).refresh s fuel
  return (c, none)

/-- list.go 561-565 and 845-849: add `d` to the offsets `i`, `i+1`, ... (`n` of them). -/
def addOffs (c : CNode) (d : Int) : Nat → Nat → Go CNode
  | _, 0 => some c
  | i, n + 1 => do
    let off ← c.u32 (c.vi.pos + i * 4)
    let b ← c.io.putN 4 (c.vi.pos + i * 4) (Fbs.u32 (off + d))
    addOffs { c with io := b } d (i + 1) n

/-- list.go 793-880 `setTableAt` (the `overwrite` at its end concerns the other backends). -/
def setTableAt (s : Sch) (fuel : Nat) (c : CNode) (idx : Int) (elm : CNode) : Go (CNode × Option Err) := do
  if idx > c.vi.vlen then return (c, some .invalidIndex)
  let c ← c.vlenTotal s fuel
  let vSize : Nat := (s.fields elm.name).length * 2 + 4
  if (c.vi.vlen : Int) = idx then
    let esize ← elmSize s fuel elm
    let body := max 0 (esize + vSize)
    let ptr := c.vi.pos + idx * 4
    if ptr < 0 then none
    let total := c.vi.size
    let vlen := c.vi.vlen
    let c ← c.insertSpace s fuel ptr.toNat 4 true
    -- updateOffsetToTable (list.go 556-572)
    let c ← c.addOffs 4 0 vlen
    let toData := c.vi.pos + total + 4
    let b ← c.io.putN 4 (c.vi.pos + idx * 4) (Fbs.u32 (toData + vSize - (c.vi.pos + idx * 4)))
    let c : CNode := { c with io := b }
    let c ← (if body > 0 then (if toData < 0 then none else c.insertSpace s fuel toData.toNat body.toNat false) else some c)
    let b ← c.io.putN 4 (c.vi.pos - 4) (vlen + 1)
    let b ← b.copyI elm.io ((elm.pos : Int) - vSize) (esize + vSize) toData 0
    let c ← ({ c with io := b } : CNode).refresh s fuel
    return (c, none)
  else
    match ← c.at_ s idx with
    | .error _ => none
    | .ok o =>
      let oi ← infoF s fuel (some o)
      let esize ← elmSize s fuel elm
      let body := max 0 (esize - oi.size)
      let vlen := c.vi.vlen
      let toData : Int := (o.pos : Int) - vSize
      let c ← (if body > 0 then do
          if toData < 0 then none
          let c ← c.insertSpace s fuel toData.toNat body.toNat false
          c.addOffs body (idx.toNat + 1) (vlen - (idx.toNat + 1))
        else some c)
      let b ← c.io.putN 4 (c.vi.pos - 4) vlen
      let b ← b.copyI elm.io ((elm.pos : Int) - vSize) (esize + vSize) toData 0
      let c ← ({ c with io := b } : CNode).refresh s fuel
      return (c, none)

/-- list.go 885-905 `SetAt`. -/
def setAt (s : Sch) (fuel : Nat) (c : CNode) (idx : Int) (elm : CNode) : Go (CNode × Option Err) := do
  if idx > c.vi.vlen then return (c, some .invalidIndex)
  let g ← getTypeGroup s.toReg elm.name
  if isFieldBasicType g || isFieldStruct g then c.setStructAt s fuel idx elm
  else if isFieldUnion g then return (c, some .noSupport)
  else if isFieldTable g then c.setTableAt s fuel idx elm
  else return (c, some .noSupport)

/-- list.go 920-934 `isDirect`. -/
def isDirect (s : Sch) (c : CNode) : Go Bool := do
  let g ← getTypeGroup s.toReg (c.name.drop 2)
  return isFieldBasicType g || isFieldStruct g

/-- list.go 957-1002 `SwapAt` on the default backend.  `U` hands out fresh zeroed windows, so in the direct
case the three `copy` calls exchange two blocks of zeros. -/
def swapAt (s : Sch) (c : CNode) (i j : Int) : Go (CNode × Option Err) := do
  if !(← c.isList) then return (c, some .noSupport)
  let n ← c.listLen
  if i ≥ n ∨ j ≥ n then return (c, some .invalidIndex)
  if i = j then return (c, none)
  if c.name.length < 2 then none
  if ← c.isDirect s then
    -- offsetOf: First() fails on an empty list, Info() of the nil element panics
    if n = 0 then none
    let size ← directSize s (c.name.drop 2)
    let size ← size
    let b := c.io.flatten
    let iPtr := c.vi.pos + i * size
    let jPtr := c.vi.pos + j * size
    if iPtr < 0 ∨ jPtr < 0 then none
    return ({ c with io := (b.U iPtr.toNat size).U jPtr.toNat size }, none)
  else
    let iPtr := c.vi.pos + i * 4
    let jPtr := c.vi.pos + j * 4
    let iOff ← c.u32 iPtr
    let jOff ← c.u32 jPtr
    let b ← c.io.putN 4 iPtr (Fbs.u32 ((jOff : Int) - (iPtr - jPtr)))
    let b ← b.putN 4 jPtr (Fbs.u32 ((iOff : Int) - (jPtr - iPtr)))
    return ({ c with io := b }, none)

/-- list.go 533-543 `addStructList`: append the elements of the source one by one. -/
def addElms (s : Sch) (fuel : Nat) (c : CNode) : List CNode → Go (CNode × Option Err)
  | [] => some (c, none)
  | e :: es => do
    let n ← c.listLen
    let (c, err) ← c.setStructAt s fuel n e
    match err with
    | some x => return (c, some x)
    | none => c.addElms s fuel es

/-- list.go 1233-1261 `indexOnMaxPos`. -/
def indexOnMaxPos (s : Sch) (fuel : Nat) (c : CNode) (t : Bool) : Go Int := do
  let es ← c.all s
  let is ← (if t then es.mapM (fun e => infoF s fuel (some e)) else some (es.map fun e => { pos := e.pos }))
  return maxPosScan t is 0 0 (-1)

/-- list.go 595-631 `movOffToTable` (the default; 583-593 does the same one offset at a time).  With no
element the pointer comparison at the end panics. -/
def moveOffs (c : CNode) (size : Int) : Go CNode := do
  let n ← c.listLen
  let offs ← (List.range n).mapM (fun (i : Nat) => c.u32 (c.vi.pos + i * 4))
  if n = 0 ∨ c.vi.pos < 0 then none
  let w := (offs.map fun (o : Nat) => putLE 4 (Fbs.u32 (o + size))).flatten
  return { c with io := c.io.updateU c.vi.pos.toNat (n * 4) w }

/-- list.go 258-268 `dup`.  The copy shares its `NodeList` with the original, so the original is given the
new buffer and values too. -/
def dupList (s : Sch) (fuel : Nat) (c : CNode) : Go CNode :=
  ({ c with io := c.io.dup } : CNode).refresh s fuel

/-- list.go 633-759 `addTableList` with one source list; returns the list and, because of the sharing in
`dup`, the source as it is afterwards.  The dumpers only format strings. -/
def addTableList (s : Sch) (fuel : Nat) (c a : CNode) : Go (CNode × CNode × Option Err) := do
  let na ← a.listLen
  if na = 0 then return (c, a, none)
  let nc ← c.listLen
  if nc = 0 then
    let a ← a.dupList s fuel
    let c ← ({ c with io := a.io.dup, vi := { c.vi with pos := a.vi.pos } } : CNode).refresh s fuel
    return (c, a, none)
  let c ← c.vlenTotal s fuel
  let vlen := c.vi.vlen
  let c ← c.refresh s fuel
  let i0 ← c.indexOnMaxPos s fuel false
  let first ← c.at_ s i0
  let i1 ← c.indexOnMaxPos s fuel true
  let _ ← c.at_ s i1
  match first with
  | .error e => return (c, a, some e)
  | .ok first =>
    let dataEnd := c.vi.pos + c.vi.size
    let vt ← first.vtableLen
    let vtableStart := (first.pos : Int) - vt
    let n ← c.listLen
    let headerEnd := c.vi.pos + 4 * n
    let a ← a.dupList s fuel
    let a ← a.refresh s fuel
    let j1 ← a.indexOnMaxPos s fuel true
    match ← a.at_ s j1 with
    | .error e => return (c, a, some e)
    | .ok alast =>
      let j0 ← a.indexOnMaxPos s fuel false
      match ← a.at_ s j0 with
      | .error e => return (c, a, some e)
      | .ok afirst =>
        let _ ← infoF s fuel (some alast)
        let aDataEnd := a.vi.pos + a.vi.size
        let aVlen := a.vi.vlen
        let m ← a.listLen
        let aHdr := m * 4
        let avt ← afirst.vtableLen
        let avTableStart := (afirst.pos : Int) - avt
        let d := dataEnd - vtableStart
        if avTableStart < 0 ∨ d < 0 ∨ headerEnd < 0 then none
        let a ← a.insertSpace s fuel avTableStart.toNat d.toNat false
        let a ← (if ← a.inRoot then some a else a.moveOffs d)
        let c ← c.insertSpace s fuel headerEnd.toNat aHdr false
        let c ← (if ← c.inRoot then some c else c.moveOffs aHdr)
        let b ← c.io.putN 4 (c.vi.pos - 4) (vlen + aVlen)
        let b ← b.copyI a.io a.vi.pos aHdr headerEnd 0
        let b ← b.copyI a.io (avTableStart + dataEnd - vtableStart) (aDataEnd - avTableStart) (dataEnd + aHdr) 0
        let c ← ({ c with io := b } : CNode).refresh s fuel
        return (c, a, none)

/-- list.go 474-499 `Add`; returns the list and the source afterwards. -/
def add (s : Sch) (fuel : Nat) (c a : CNode) : Go (CNode × CNode × Option Err) := do
  if ← c.inRoot then return (c, a, some .noSupport)
  match ← a.at_ s 0 with
  | .error e => return (c, a, some e)
  | .ok e =>
    let g ← getTypeGroup s.toReg e.name
    if isFieldBasicType g || isFieldStruct g then
      let es ← a.all s
      let (c, err) ← c.addElms s fuel es
      return (c, a, err)
    else if isFieldUnion g then return (c, a, some .noSupport)
    else if isFieldTable g then c.addTableList s fuel a
    else return (c, a, some .noSupport)

/-- list.go 1263-1277 `atWithBegin`: the element and where its data begins. -/
def atWithBegin (s : Sch) (c : CNode) (i : Int) : Go (Except Err (CNode × Int)) := do
  match ← c.at_ s i with
  | .error e => return .error e
  | .ok e =>
    if ← c.isDirect s then return .ok (e, e.pos)
    else
      let v ← e.vtableLen
      return .ok (e, (e.pos : Int) - v)

/-- list.go 1159-1179: the smallest beginning and the largest end of the elements from `i`. -/
def dataRange (s : Sch) (fuel : Nat) (c : CNode) : Nat → Nat → Int × Int → Go (Int × Int)
  | _, 0, r => some r
  | i, n + 1, (dStart, dEnd) => do
    match ← c.atWithBegin s i with
    | .error _ => c.dataRange s fuel (i + 1) n (dStart, dEnd)
    | .ok (e, begin_) =>
      let inf ← infoF s fuel (some e)
      c.dataRange s fuel (i + 1) n (min dStart begin_, max dEnd (e.pos + inf.size))

/-- list.go 1116-1231 `New(OptRange(start, last))`; `none` inside = nil.  The offsets are written into the
window handed out by `U` after the data has been copied behind it, which is the same as before; the count
is written through `R` into the first four bytes of the new buffer. -/
def newRange (s : Sch) (fuel : Nat) (c : CNode) (start last : Int) : Go (Option CNode) := do
  if last < start ∨ start < 0 then return none
  let n ← c.listLen
  if (n : Int) ≤ start then return none
  let idx := start.toNat
  let cnt := (last - start + 1).toNat
  let offs ← (List.range cnt).mapM (fun (i : Nat) => c.u32 (c.vi.pos + ((idx + i : Nat) : Int) * 4))
  match ← c.atWithBegin s idx with
  | .error _ => none
  | .ok (e, begin_) =>
    let inf ← infoF s fuel (some e)
    let (dStart, dEnd) ← c.dataRange s fuel (idx + 1) (cnt - 1) (begin_, max (-1) (e.pos + inf.size))
    let skip := ((n : Int) - idx - cnt) * 4 + (dStart - (c.vi.pos + n * 4))
    let sub := initList c.name
    let b ← (if (e.pos : Int) ≠ begin_ then
        (sub.io.updateU 4 (4 * cnt) ((offs.map fun (o : Nat) => putLE 4 (Fbs.u32 ((o : Int) - skip))).flatten)).copyI
          c.io.dup dStart (dEnd - dStart) (4 + cnt * 4) 0
      else (sub.io.U 4 (4 * cnt)).copyI c.io.dup dStart (dEnd - dStart) 4 0)
    let b : Base := { b with bytes := ⟨putLE 4 cnt, []⟩ }
    let sub ← ({ sub with io := b } : CNode).refresh s fuel
    return some sub

end CNode
end Fbs
