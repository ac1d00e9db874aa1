import Verif.Misc
/-!
# Buffers over a reader (query/base/base.go, query/base/io.go)

The reader behind a `BaseImpl` is the `ReaderAt` wrapper of io.go around the caller's reader, which is
either random access (`io.ReaderAt`, e.g. a file) or a plain sequential `io.Reader`.

Simplifications:
* Random access reads follow the `io.ReaderAt` contract: as many bytes as there are, with an error exactly
  when fewer than asked for; no other I/O errors.  Nothing is written behind the bytes read.
* Sequential reads deliver everything that is left (`io.ReadAtLeast` loops over short reads).
* A loaded segment is its visible bytes and its capacity; the bytes in its spare capacity are zero, since
  nothing ever writes there.
* Sequential use only: `seekCur` (base.go 390-412) is not part of this model.
-/

namespace Fbs

/-- The caller's reader. -/
inductive Src where
  /-- random access -/
  | file (s : Bytes)
  /-- sequential; `rest` is what has not been consumed -/
  | seq (rest : Bytes)

/-- Errors a load can end with. -/
inductive RErr where
  | ok
  /-- `io.EOF`, `io.ErrUnexpectedEOF`, ... -/
  | eof
  /-- io.go 25-28 `ErrorMustRead` -/
  | mustRead (off size : Nat)
deriving DecidableEq, Repr

def RErr.isOk : RErr → Bool
  | .ok => true
  | _ => false

/-- io.go 60-82 `ReaderAt.ReadAt(buf, off)` with `len(buf) = n` and `orig = nil`: the bytes put into the
buffer.  `r.cur` is always 0: the receiver is a copy, so `r.cur += n` (io.go 78) is lost. -/
def Src.readAt (src : Src) (n off : Nat) : Src × Bytes × RErr :=
  match src with
  | .file s =>
    let d := (s.drop off).take n
    (src, d, if d.length < n then .eof else .ok)
  | .seq rest =>
    if 0 < off then (src, [], .mustRead 0 off)
    else
      let d := rest.take n
      (.seq (rest.drop n), d, if d.length < n then .eof else .ok)

/-- A loaded segment (base.go 188-191 `Diff` in `RDiffs`). -/
structure RDiff where
  off : Nat
  data : Bytes
  cap : Nat
deriving DecidableEq, Repr

/-- base.go 168-179 `BaseImpl` with a reader: `bytes` is `arr[:len:cap]`. -/
structure SBase where
  src : Src
  arr : Bytes
  len : Nat
  cap : Nat
  rdiffs : List RDiff := []
  diffs : List Diff := []

/-- `bytes` as a slice together with the journal. -/
def SBase.base (b : SBase) : Base :=
  { bytes := ⟨b.arr.take b.len, (b.arr.take b.cap).drop b.len⟩, diffs := b.diffs }

/-- base.go 433-452 `NewBaseImplByIO(rio, cap, nil)` with a reader that is not a `ReaderAt` of io.go. -/
def SBase.open (src : Src) (cap : Nat) : SBase := { src := src, arr := zeros cap, len := 0, cap := cap }

/-- base.go 1287-1289 `sort.Slice` by offset.  Go leaves the order among equal offsets open; here they keep
their order, which is what its insertion sort does on up to twelve elements.  The theorems that hold for all
inputs only use that the result is a permutation sorted by offset. -/
def insertR (d : RDiff) : List RDiff → List RDiff
  | [] => [d]
  | e :: l => if d.off ≤ e.off then d :: e :: l else e :: insertR d l

def sortR (l : List RDiff) : List RDiff := l.foldr insertR []

/-- base.go 1275-1292 `AddRDiff`; the caller ignores the error, the list is then unchanged. -/
def addR (rds : List RDiff) (d : RDiff) : List RDiff :=
  let pred := match lastIndexOf (fun e => decide (e.off < d.off)) rds with
    | some n => rds[n]?
    | none => none
  match pred with
  | some e => if e.off + e.data.length > d.off then rds else sortR (rds ++ [d])
  | none => sortR (rds ++ [d])

/-- base.go 798-802 `smaller`: index and segment. -/
def smallerR (rds : List RDiff) (off : Nat) : Option (Nat × RDiff) :=
  match lastIndexOf (fun e => decide (e.off ≤ off)) rds with
  | some n => (rds[n]?).map (fun d => (n, d))
  | none => none

/-- base.go 804-812 `requireSize` and `capLimit`.  The list is sorted (`AddRDiff`), so the differences are
not negative. -/
def requireR (rds : List RDiff) (sm : Option (Nat × RDiff)) (off size : Nat) : Nat × Nat :=
  match sm with
  | some (n, d) =>
    match rds[n + 1]? with
    | some e => (min size (e.off - d.off), e.off - off)
    | none => (size, 0)
  | none =>
    match rds with
    | e :: _ => (min size (e.off - off), 0)
    | [] => (size, 0)

namespace SBase

/-- base.go 787-793: the branch of `loadBuf` that extends `bytes`. -/
def loadBytes (b : SBase) (off size : Nat) : SBase × RErr :=
  let r := b.src.readAt (off + size - b.len) b.len
  let arr := copyAt b.arr b.len r.2.1
  ({ b with src := r.1, arr := arr, len := if 0 < r.2.1.length then b.len + r.2.1.length else off + size }, r.2.2)

/-- base.go 774-868 `loadBuf`.  `none`: panic, or no return within `fuel` nested calls and jumps. -/
def loadBuf : Nat → SBase → Nat → Nat → Option (SBase × RErr)
  | 0, _, _, _ => none
  | fuel + 1, b, off, size =>
    if off + size ≤ b.cap ∧ b.len < off + size then some (b.loadBytes off size)
    else
      let b := { b with cap := b.len }
      let sm := smallerR b.rdiffs off
      let (req, capLimit) := requireR b.rdiffs sm off size
      match sm with
      | some (n, d) =>
        if d.off + d.cap ≥ off + req then
          -- EXPAND_AND_READ_DIFF, base.go 849-866
          let start := d.off + d.data.length
          if off + req < start then none
          else
            let want := off + req - start
            let r := b.src.readAt want start
            let data := d.data ++ r.2.1
            let data := if 0 < r.2.1.length then data else d.data ++ zeros want
            let b := { b with src := r.1, rdiffs := b.rdiffs.set n { d with data := data } }
            match r.2.2 with
            | .mustRead o s =>
              -- the result of the nested load is dropped
              match loadBuf fuel b o s with
              | none => none
              | some (b, _) => some (b, r.2.2)
            | e => some (b, e)
        else
          -- base.go 819-821
          let b := if d.off + d.cap ≥ off ∧ d.off + d.data.length ≤ off then
              { b with rdiffs := b.rdiffs.set n { d with cap := off - d.off } }
            else b
          loadNew fuel b off size req capLimit
      | none => loadNew fuel b off size req capLimit
where
  /-- base.go 824-846: load into a new segment. -/
  loadNew : Nat → SBase → Nat → Nat → Nat → Nat → Option (SBase × RErr)
  | 0, _, _, _, _, _ => none
  | fuel + 1, b, off, size, req, capLimit =>
    let ncap := calcBufSize (max size 512)
    let ncap := if size ≠ req then req else ncap
    let ncap := if 0 < capLimit ∧ capLimit < ncap then capLimit else ncap
    let n := min req ncap
    let r := b.src.readAt n off
    match r.2.2 with
    | .mustRead o s =>
      -- base.go 838-840: load the gap, then try again
      match loadBuf fuel { b with src := r.1 } o s with
      | none => none
      | some (b, _) => loadNew fuel b off size req capLimit
    | e =>
      let data := if 0 < r.2.1.length then r.2.1 else zeros n
      some ({ b with src := r.1, rdiffs := addR b.rdiffs ⟨off, data, ncap⟩ }, e)

/-- base.go 613-655 `readerR(off, Size(req))` without parent: the visible bytes of the returned slice.
`fuel` as in `loadBuf`. -/
def readerR (fuel : Nat) (b : SBase) (off req : Nat) : Option (SBase × Bytes) :=
  match lastIndexOf (fun d : RDiff => decide (d.off ≤ off) && decide (off + req ≤ d.off + d.data.length))
      b.rdiffs with
  | some n => (b.rdiffs[n]?).map (fun d => (b, d.data.drop (off - d.off)))
  | none =>
    if off + req > b.len then
      match loadBuf fuel b off req with
      | none => none
      | some (b, e) =>
        if off + max 1 req ≤ b.len then some (b, (b.arr.take b.len).drop off)
        else if e.isOk = false then some (b, [])
        else
          match lastIndexOf (fun d : RDiff => decide (d.off ≤ off) && decide (d.off + d.data.length > off))
              b.rdiffs with
          | some n => (b.rdiffs[n]?).map (fun d => (b, d.data.drop (off - d.off)))
          | none => none
    else some (b, (b.arr.take b.len).drop off)

/-- base.go 548-555 `R(off, Size(req))`. -/
def R (fuel : Nat) (b : SBase) (off req : Nat) : Option (SBase × Bytes) :=
  let w := (b.base.writerR off).data
  if w.length = 0 then b.readerR fuel off req else some (b, w)

/-- A sequence of reads. -/
def reads (fuel : Nat) (b : SBase) : List (Nat × Nat) → Option (SBase × List Bytes)
  | [] => some (b, [])
  | (off, req) :: l => do
    let (b, r) ← b.R fuel off req
    let (b, rs) ← reads fuel b l
    return (b, r :: rs)

/-- base.go 414-423 `WriteAt`. -/
def writeAt (b : SBase) (p : Bytes) (i : Nat) : SBase := { b with diffs := b.diffs ++ [⟨i, ⟨p, []⟩⟩] }

/-- base.go 871-895 `LenBuf` without parent. -/
def lenBuf (b : SBase) : Nat :=
  b.diffs.foldl (fun m d => if d.off + d.sl.len > m then d.off + d.sl.len else m)
    (b.rdiffs.foldl (fun m d => if d.off + d.data.length > m then d.off + d.data.length else m) b.len)

/-- base.go 948-967 `Flatten`: the loaded segments are neither copied nor removed. -/
def flatten (b : SBase) : SBase :=
  let n := copyAt (zeros b.lenBuf) 0 (b.arr.take b.len)
  let n := b.diffs.foldl (fun n d => copyAt n d.off d.sl.data) n
  { b with arr := n, len := n.length, cap := n.length, diffs := [] }

end SBase

/-! ## Chained messages -/

/-- A buffer made by `Next` (base.go 517-539): its slice `bytes` is a window of the root's array; its reader
is a `ReaderAt` with `orig` = node `parent` and `offFromOrig` = `off`. -/
structure SNode where
  parent : Nat
  off : Nat
  start : Nat
  len : Nat
  cap : Nat
deriving DecidableEq, Repr

/-- The root (node 0) and the nodes made from it; node `i+1` is `kids[i]`.  Only unmodified buffers: the
journals and the `RDiffs` of the kids are empty. -/
structure SChain where
  root : SBase
  kids : List SNode := []

namespace SChain

/-- The window `bytes` of a node: start, length, capacity. -/
def win (c : SChain) : Nat → Option (Nat × Nat × Nat)
  | 0 => some (0, c.root.len, c.root.cap)
  | i + 1 => (c.kids[i]?).map (fun k => (k.start, k.len, k.cap))

def setLen (c : SChain) (i n : Nat) : SChain :=
  match i with
  | 0 => { c with root := { c.root with len := n } }
  | i + 1 => { c with kids := c.kids.modify i (fun k => { k with len := n }) }

/-- `offFromOrig` of the reader of a node (0 for the root). -/
def offOf (c : SChain) : Nat → Nat
  | 0 => 0
  | i + 1 => match c.kids[i]? with
    | some k => k.off
    | none => 0

/-- base.go 517-539 `Next(skip)` of node `i`, with 433-452 `NewBaseImplByIO`. -/
def next (c : SChain) (i skip : Nat) : Go SChain := do
  let (start, len, cap) ← c.win i
  let off := c.offOf i + skip
  if len > skip then return { c with kids := c.kids ++ [⟨i, off, start, 0, cap⟩] }
  else if skip > cap then none
  else
    let c' := if cap > skip then c.setLen i skip else c
    return { c' with kids := c'.kids ++ [⟨i, off, start + skip, 0, cap - skip⟩] }

/-- base.go 594-616: `readerR` goes to the root, adding up the offsets; `k` bounds the number of steps
(parents have smaller numbers). -/
def rootOff (c : SChain) : Nat → Nat → Nat → Option Nat
  | _, 0, off => some off
  | 0, _ + 1, _ => none
  | k + 1, i + 1, off =>
    match c.kids[i]? with
    | some n => c.rootOff k n.parent (n.off + off)
    | none => none

/-- base.go 548-555 `R(off, Size(req))` of a node. -/
def R (fuel : Nat) (c : SChain) (i off req : Nat) : Option (SChain × Bytes) :=
  match i with
  | 0 => (c.root.R fuel off req).map (fun r => ({ c with root := r.1 }, r.2))
  | j + 1 =>
    match c.kids[j]? with
    | none => none
    | some k =>
      if off < k.len then some (c, ((c.root.arr.drop k.start).take k.len).drop off)
      else
        match c.rootOff (j + 1) (j + 1) off with
        | none => none
        | some x => (c.root.readerR fuel x req).map (fun r => ({ c with root := r.1 }, r.2))

end SChain
end Fbs
