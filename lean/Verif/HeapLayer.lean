import Verif.Heap
/-!
# The in-place backends (query/base/directreader.go)

`NoLayer` and `DoubleLayer` are `BaseImpl`s with some methods replaced; a handle of either kind is the
same memory-level buffer `HBase`.  Methods that are not replaced (`WriteAt`, `C`, `Flatten`, `Dedup`,
`MergeDiffs`, `LenBuf`) are those of `Verif.Heap`.
-/

namespace Fbs
namespace HBase

/-- directreader.go 103-116 `NoLayer.R(off, Size(req))`. -/
def nlR (b : HBase) (off req : Nat) : Win :=
  match lastIndexOf (fun d : HDiff => decide (d.off ≤ off) && decide (off + min 1 req ≤ d.off + d.w.len))
      b.diffs with
  | some sn =>
    match b.diffs[sn]? with
    | some d => ⟨d.w.arr, d.w.off + (off - d.off), d.w.len - (off - d.off), d.w.cap - (off - d.off)⟩
    | none => .nil
  | none => b.R off req

/-- directreader.go 119-150 `NoLayer.D` followed by 153-163 `NoLayer.U`: the window handed to the caller
(it may be longer than `size`).  `DEFAULT_BUF_CAP` = 512 (base.go 20).  `moveLast` cannot fail: the index
was just found. -/
def nlU (m : Mem) (b : HBase) (off size : Nat) : Go (Mem × HBase × Win) :=
  match lastIndexOf (fun d : HDiff => decide (d.off ≤ off) && decide (off < d.off + d.w.cap)) b.diffs with
  | some sn =>
    match b.diffs[sn]? with
    | none => none
    | some d =>
      if d.off = off then
        match moveLast b.diffs sn with
        | none => none
        | some ds =>
          if d.w.cap < size then
            let (m, w) := m.alloc (.make size)
            some (m, { b with diffs := ds.dropLast ++ [⟨d.off, w⟩] }, w)
          else if d.w.len < size then
            let w : Win := ⟨d.w.arr, d.w.off, size, size⟩
            some (m, { b with diffs := ds.dropLast ++ [⟨d.off, w⟩] }, w)
          else some (m, { b with diffs := ds }, d.w)
      else
        match d.w.sub (off - d.off) (off - d.off + size) with
        | none => none
        | some w => some (m, b, w)
  | none =>
    if off + size ≤ b.bytes.len then
      some (m, b, ⟨b.bytes.arr, b.bytes.off + off, b.bytes.len - off, b.bytes.cap - off⟩)
    else if off + size ≤ b.bytes.cap then
      some (m, { b with bytes := { b.bytes with len := off + size } },
        ⟨b.bytes.arr, b.bytes.off + off, size, b.bytes.cap - off⟩)
    else
      let (m, w) := m.alloc ⟨zeros size, zeros (max 512 size - size)⟩
      some (m, { b with diffs := b.diffs ++ [⟨off, w⟩] }, w)

/-- `copy(b.U(off, len(v)), v)` / `flatbuffers.WriteUintN(b.U(off, N), v)` on a `NoLayer`. -/
def nlUpdate (m : Mem) (b : HBase) (off : Nat) (v : Bytes) : Go (Mem × HBase) := do
  let (m, b, w) ← b.nlU m off v.length
  return (m.copyTo w 0 v, b)

/-- directreader.go 85-101 `NoLayer.insertSpace`. -/
def nlInsertSpace (m : Mem) (b : HBase) (pos size : Nat) (isCreate : Bool) : Mem × HBase :=
  let (m1, n) := b.insertSpace m pos size isCreate
  if n.lenBuf ≥ pos + size then (m1, n) else b.insertSpace m1 pos size true

/-- base.go 268-306 `Diff.Merge`: merges `s` into `d`. -/
def merge (m : Mem) (d s : HDiff) : Go (Mem × HDiff) :=
  let incl : Bool := d.covers s.off
  -- `Inner`
  if incl && decide (s.off + s.w.len ≤ d.off + d.w.len) then
    some (m.copyTo d.w (s.off - d.off) (m.read s.w), d)
  else if incl && decide (d.off + d.w.cap > s.off + s.w.len) then
    -- the copy stops at the end of the visible bytes of `d`
    some (m.copyTo d.w (s.off - d.off) (m.read s.w), d)
  else
    let nlen := max (d.off + d.w.len) (s.off + s.w.len) - min d.off s.off
    let (m, n) := m.alloc ⟨zeros nlen, zeros nlen⟩
    if incl then
      let m := m.copyTo n 0 (m.read d.w)
      some (m.copyTo n (s.off - d.off) (m.read s.w), ⟨d.off, n⟩)
    else if d.off > s.off then
      -- the merged bytes are dropped: only the offset of `d` changes
      let m := m.copyTo n (d.off - s.off) (m.read d.w)
      some (m.copyTo n 0 (m.read s.w), ⟨s.off, d.w⟩)
    else
      let m := m.copyTo n 0 (m.read d.w)
      some (m.copyTo n (s.off - d.off) (m.read s.w), ⟨d.off, n⟩)

/-- directreader.go 213-216: merge every later segment into the first. -/
def dlMergeInto (m : Mem) (d : HDiff) : List HDiff → Go (Mem × HDiff)
  | [] => some (m, d)
  | s :: l => do
    let (m, d) ← merge m d s
    dlMergeInto m d l

/-- directreader.go 203-219 `DoubleLayer.mergeDiffs` (no reader): the merged segments stay in the
journal. -/
def dlMerge (m : Mem) (b : HBase) : Go (Mem × HBase) :=
  match b.diffs with
  | d :: s :: l => do
    let (m, d') ← dlMergeInto m d (s :: l)
    return (m, { b with diffs := d' :: s :: l })
  | _ => some (m, b)

/-- directreader.go 188-199 `NewDoubleLayer` of a `BaseImpl`. -/
def newDoubleLayer (m : Mem) (b : HBase) : Mem × HBase :=
  if b.diffs.length > 0 then b.flatten m else (m, b)

/-- directreader.go 287-292 `DoubleLayer.R`. -/
def dlR (m : Mem) (b : HBase) (off req : Nat) : Go (Mem × HBase × Win) := do
  let (m, b) ← b.dlMerge m
  return (m, b, b.nlR off req)

/-- directreader.go 309-313 `DoubleLayer.U`. -/
def dlU (m : Mem) (b : HBase) (off size : Nat) : Go (Mem × HBase × Win) := do
  let (m, b) ← b.dlMerge m
  b.nlU m off size

/-- `copy(b.U(off, len(v)), v)` on a `DoubleLayer`. -/
def dlUpdate (m : Mem) (b : HBase) (off : Nat) (v : Bytes) : Go (Mem × HBase) := do
  let (m, b, w) ← b.dlU m off v.length
  return (m.copyTo w 0 v, b)

/-- directreader.go 315-320 `DoubleLayer.Copy`. -/
def dlCopy (m : Mem) (b : HBase) (rd : Nat → Nat → Win) (srcOff size dstOff extend : Nat) :
    Go (Mem × HBase) :=
  (b.copy rd srcOff size dstOff extend).dlMerge m

/-- directreader.go 225-284 `DoubleLayer.insertSpace`; the result is a plain `BaseImpl`. -/
def dlInsertSpace (m : Mem) (b : HBase) (pos size : Nat) : Go (Mem × HBase) := do
  let (m, b) ← b.dlMerge m
  match b.diffs with
  | [] =>
    let blen := max size (size + b.bytes.len - pos)
    let (m, w) := m.alloc (.make blen)
    let b' : HBase := { bytes := b.bytes, diffs := [⟨pos, w⟩] }
    if b.bytes.len ≤ pos then return (m, b')
    else
      let src ← b.bytes.dropFrom pos
      return (m.copyTo { w with len := size } 0 (m.read src), b')
  | d :: ds =>
    if d.covers pos then
      -- `diff.bytes[:pos]` is relative to the segment; it panics beyond the capacity
      let pre ← d.w.takeTo pos
      if pre.cap - pre.len ≥ size then
        let w ← d.w.takeTo (d.w.len + size)
        let src ← w.dropFrom (pos - d.off)
        -- Go `copy` handles overlapping memory like `memmove`
        let m := m.copyTo w (pos - d.off + size) (m.read src)
        let m := m.copyTo w (pos - d.off) (zeros size)
        return (m, { bytes := b.bytes, diffs := ⟨d.off, w⟩ :: ds })
      else
        let (m, n) := m.alloc ⟨zeros (d.w.len + size), zeros d.w.len⟩
        let m := m.copyTo n 0 ((m.read d.w).take (pos - d.off))
        let m := m.copyTo n (pos - d.off + size) ((m.read d.w).drop (pos - d.off))
        return (m, { bytes := b.bytes, diffs := ⟨d.off, n⟩ :: ds })
    else if d.off > pos then
      let (m, n) := m.alloc ⟨zeros (d.w.len + size), zeros (d.w.len + size)⟩
      let m := m.copyTo n size (m.read d.w)
      return (m, { bytes := b.bytes, diffs := ⟨pos, n⟩ :: ds })
    else
      let (m, n) := m.alloc ⟨zeros (pos - d.off + size), zeros (pos - d.off + size)⟩
      let m := m.copyTo n 0 (m.read d.w)
      return (m, { bytes := b.bytes, diffs := ⟨d.off, n⟩ :: ds })

end HBase
end Fbs
