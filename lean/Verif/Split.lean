import Verif.ListEdit
/-!
# Lists whose data area is written elsewhere (query/base/list.go 16-255)

A `CommonList` keeps the count and the offsets of a list of tables in its buffer and hands the elements to an
`io.Writer`.  The writer is the program's; three kinds are modelled: a file opened for reading and writing
(`os.File`: one cursor, `Seek`, `WriteAt`), a `bytes.Buffer` (writes at the end, reads from the front) and
something that can only be written.  Writes succeed.  The simplifications of `Verif.Node` apply.
-/

namespace Fbs

inductive WKind where
  | file | buffer | sink
deriving DecidableEq, Repr

/-- An `io.Writer`: for a file all bytes and the cursor; for the others the bytes not yet read. -/
structure Writer where
  kind : WKind
  data : Bytes := []
  cur  : Nat := 0
deriving DecidableEq, Repr

namespace Writer

/-- The bytes of a file after writing `bs` at `pos` (the gap behind the end is filled with zeros). -/
def putAt (d : Bytes) (pos : Nat) (bs : Bytes) : Bytes :=
  if bs = [] then d else copyAt (d ++ zeros (pos + bs.length - d.length)) pos bs

/-- `io.Writer.Write`. -/
def write (w : Writer) (bs : Bytes) : Writer :=
  match w.kind with
  | .file => { w with data := putAt w.data w.cur bs, cur := w.cur + bs.length }
  | _ => { w with data := w.data ++ bs }

/-- `io.WriterAt.WriteAt`; `none` = not an `io.WriterAt`. -/
def writeAt (w : Writer) (pos : Nat) (bs : Bytes) : Option Writer :=
  match w.kind with
  | .file => some { w with data := putAt w.data pos bs }
  | _ => none

/-- `io.Seeker.Seek(0, io.SeekEnd)`; `none` = not an `io.Seeker`. -/
def seekEnd (w : Writer) : Option Writer :=
  match w.kind with
  | .file => some { w with cur := w.data.length }
  | _ => none

/-- `io.Seeker.Seek(0, io.SeekStart)`, for programs. -/
def seekStart (w : Writer) : Writer :=
  match w.kind with
  | .file => { w with cur := 0 }
  | _ => w

/-- What reading until EOF returns; `none` = not an `io.Reader`. -/
def readAll (w : Writer) : Option (Writer × Bytes) :=
  match w.kind with
  | .file => some ({ w with cur := max w.cur w.data.length }, w.data.drop w.cur)
  | .buffer => some ({ w with data := [] }, w.data)
  | .sink => none

end Writer

/-- list.go 17-22 `CommonList`; `w = none` is a nil `dataW`. -/
structure CList where
  node : CNode
  w    : Option Writer := none
  dCur : Int := 0
  dLen : Int := 0

/-- Errors of `Add`: ERR_NO_SUPPORT, ERR_INVLIAD_WRITE_SIZE. -/
inductive AddErr where
  | noSupport | writeSize
deriving DecidableEq, Repr

namespace CList
open CNode

/-- list.go 30-34 `SetDataWriter`. -/
def setDataWriter (l : CList) (w : Writer) : CList := { l with dCur := 0, w := some w, dLen := 0 }

/-- Go `bs[:size]`. -/
def takeI (bs : Slice) (size : Int) : Go Bytes := do
  if size < 0 then none
  let r ← bs.takeTo size.toNat
  return r.data

/-- list.go 64-71: the loop over the elements. -/
def writeElems (s : Sch) (fuel : Nat) (vSize : Nat) (l : CList) : Nat → List CNode → Go CList
  | _, [] => some l
  | i, elm :: r => do
    let pos : Int := (elm.pos : Int) - vSize
    let inf ← infoF s fuel (some elm)
    let size : Int := inf.size + vSize
    let bs ← l.node.io.Ri pos size.toNat
    let bs ← takeI bs size
    let w ← l.w
    writeElems s fuel vSize { l with w := some (w.write bs), dCur := i, dLen := l.dLen + size } (i + 1) r

/-- list.go 43-81 `WriteDataAll` (`Count` is the cached length). -/
def writeDataAll (s : Sch) (fuel : Nat) (l : CList) : Go (CList × Option Err) := do
  if l.node.vi.vlen = 0 then return (l, none)
  let l : CList := { l with node := { l.node with io := l.node.io.flatten } }
  match ← l.node.at_ s 0 with
  | .error e => return (l, some e)
  | .ok first =>
    let vSize := first.countOfField s * 2 + 4
    let _ ← infoF s fuel (some first)
    let g ← getTypeGroup s.toReg first.name
    if !isFieldTable g then return (l, some .noSupport)
    let es ← l.node.all s
    let l ← l.writeElems s fuel vSize 0 es
    let cut : Int := (first.pos : Int) - vSize
    let bs ← l.node.io.Ri 0 cut.toNat
    let bs ← takeI bs cut
    return ({ l with node := { l.node with io := Base.new ⟨bs, []⟩ } }, none)

/-- list.go 84-90 `At`. -/
def at_ (s : Sch) (l : CList) (i : Int) : Go (Except Err CNode) :=
  match l.w with
  | none => l.node.at_ s i
  | some _ => some (.error .noSupport)

/-- list.go 118-122 `dataStart`. -/
def dataStart (l : CList) : Go Int := do
  let n ← l.node.listLen
  return l.node.vi.pos + n * 4

/-- list.go 147-158: `WriteAt` for every segment of the element. -/
def writeDiffs (w : Writer) (base : Int) : List Diff → Go Writer
  | [] => some w
  | d :: r => do
    if base + d.off < 0 then none
    let w ← w.writeAt (base + d.off).toNat d.sl.data
    writeDiffs w base r

/-- list.go 125-168 `WriteElm`. -/
def writeElm (l : CList) (elm : CNode) (pos size : Int) : Go CList := do
  let w ← l.w
  if l.node.io.diffs = [] then
    let bs ← elm.io.Ri pos size.toNat
    let bs ← takeI bs size
    let hd := l.node.io.R 0 (pos + size).toNat
    let io ← (if (hd.len : Int) ≥ pos + size then do
        let h ← takeI hd (pos + size)
        return Base.new ⟨h, []⟩
      else some l.node.io)
    return { l with node := { l.node with io := io }, w := some (w.write bs), dLen := l.dLen + size }
  let start ← l.dataStart
  let wStart := start + l.dLen
  let w ← (if w.kind = .file then do
      if l.dLen < 0 then none
      let w ← w.writeAt l.dLen.toNat (elm.io.R 0).data
      writeDiffs w (l.dLen + pos) elm.io.diffs
    else some w)
  let keep := l.node.io.diffs.filter fun d =>
    !(decide (wStart + pos + size ≤ d.off + d.sl.len) || decide (wStart ≤ d.off))
  return { l with node := { l.node with io := { l.node.io with diffs := keep } }, w := some w, dLen := l.dLen + size }

/-- list.go 93-116 `SetAt` (the error of `List.SetAt` is ignored). -/
def setAt (s : Sch) (fuel : Nat) (l : CList) (i : Int) (elm : CNode) : Go (CList × Option Err) := do
  match l.w with
  | none =>
    let (n, e) ← l.node.setAt s fuel i elm
    return ({ l with node := n }, e)
  | some _ =>
    if (l.node.vi.vlen : Int) ≠ i then return (l, some .noSupport)
    let vSize := elm.countOfField s * 2 + 4
    let inf ← infoF s fuel (some elm)
    let elm := { elm with size := inf.size }
    let pos : Int := (elm.pos : Int) - vSize
    let size : Int := inf.size + vSize
    let (n, _) ← l.node.setAt s fuel i elm
    let l ← ({ l with node := n } : CList).writeElm elm pos size
    return ({ l with dCur := i }, none)

/-- list.go 201-206 and 210-213: write the offsets `i`, `i+1`, ... of `src`, each plus `d`, from `at_` on. -/
def writeOffs (src : CNode) (d : Int) (io : Base) (to : Nat) : Nat → Nat → Go Base
  | _, 0 => some io
  | i, n + 1 => do
    let off ← src.u32 (src.vi.pos + i * 4)
    writeOffs src d (io.updateU (to + i * 4) 4 (putLE 4 (Fbs.u32 (off + d)))) to (i + 1) n

/-- list.go 172-248 `Add`: the new list, and the writers of the operands afterwards (the new list shares the
writer of `dst`); on an error there is no new list. -/
def add (s : Sch) (dst src : CList) : Go (Except (AddErr × CList × CList) (CList × CList × CList)) := do
  if dst.node.name ≠ src.node.name then return .error (.noSupport, dst, src)
  let g ← getTypeGroup s.toReg dst.node.name
  if !isFieldTable g then return .error (.noSupport, dst, src)
  match dst.w, src.w with
  | some dw, some sw =>
    let dn ← dst.node.listLen
    let sn ← src.node.listLen
    let newLen := Fbs.u32 (dn + sn)
    let io := (Base.new ⟨zeros (4 + newLen * 4), []⟩).updateU 0 4 (putLE 4 newLen)
    let io ← writeOffs dst.node (sn * 4) io 4 0 dn
    let io ← writeOffs src.node dst.dLen io (dn * 4 + 4) 0 sn
    let vi := dst.node.vi
    let vl ← io.getN 4 (vi.pos - 4)
    let nl : CList := { node := { name := dst.node.name, io := io, pos := 4, vi := { vi with vlen := vl, size := vi.size + src.node.vi.size - 4 } }, dCur := dst.dCur + src.dCur, dLen := dst.dLen + src.dLen }
    match dw.seekEnd with
    | none => return .error (.noSupport, dst, src)
    | some dw =>
      match sw.readAll with
      | none => return .error (.noSupport, { dst with w := some dw }, src)
      | some (sw, bs) =>
        let dw := dw.write bs
        let dst := { dst with w := some dw }
        let src := { src with w := some sw }
        if (bs.length : Int) ≠ src.dLen then return .error (.writeSize, dst, src)
        return .ok ({ nl with w := some dw }, dst, src)
  | _, _ => return .error (.noSupport, dst, src)

end CList
end Fbs
