import Verif.Go
/-!
# Value-level model of `BaseImpl` (query/base/base.go)

`Base` is a `BaseImpl` without an attached reader (`r == nil`, `RDiffs` empty); buffers opened on a
reader are modelled in `Verif.Stream`.  The fields `dirties` and `checkBoundary` are not modelled (they
never influence the bytes).  Offsets are `Nat`: a negative offset makes every read panic in Go, callers
that can compute negative offsets check this themselves (see `Verif.Node`).
-/

namespace Fbs

/-- base.go 188-191 `Diff`: a journal segment. -/
structure Diff where
  off : Nat
  sl  : Slice
deriving DecidableEq, Repr

namespace Diff

/-- base.go 198-200 `Diff.len`. -/
def len (d : Diff) : Nat := d.sl.len

/-- base.go 202-204 `Diff.cap`. -/
def cap (d : Diff) : Nat := d.sl.cap

/-- One past the last byte, the recurring Go expression `d.Offset+len(d.bytes)`. -/
def fin (d : Diff) : Nat := d.off + d.sl.len

/-- base.go 215-217 `Diff.Include` (Go compares `pos <= Offset+len-1` over `int`). -/
def incl (d : Diff) (pos : Nat) : Bool :=
  decide (d.off ≤ pos) && decide ((pos : Int) ≤ (d.off : Int) + d.sl.len - 1)

/-- base.go 219-221 `Diff.Included`. -/
def included (d : Diff) (pos size : Nat) : Bool :=
  decide (pos ≤ d.off) && decide ((d.off : Int) ≤ (pos : Int) + size - 1)

/-- base.go 224-229 `Diff.Inner`. -/
def inner (d : Diff) (pos size : Nat) : Bool :=
  if !d.incl pos then false else decide (pos + size ≤ d.off + d.sl.len)

/-- base.go 231-240 `Diff.Innerd`. -/
def innerd (d : Diff) (pos size : Nat) : Bool :=
  if pos > d.off then false else decide (d.off + d.sl.len < pos + size)

/-- base.go 243-266 `Diff.MergeStable`: `none` = returns false (receiver untouched),
`some d'` = returns true with the receiver replaced by `d'`. -/
def mergeStable (d s : Diff) : Option Diff :=
  if d.off + d.sl.len < s.off then none
  else if s.off + s.sl.len < d.off then none
  else
    let off := min d.off s.off
    let loff := max (d.off + d.sl.len) (s.off + s.sl.len)
    let n := zeros (loff - off)
    let n := copyAt n (d.off - off) d.sl.data
    let n := copyAt n (s.off - off) s.sl.data
    some ⟨off, ⟨n, []⟩⟩

/-- base.go 309-318 `Diff.Equal`. -/
def equal (d s : Diff) : Bool := d.off == s.off && d.sl.data == s.sl.data

/-- The test `Offset <= off && off < Offset+len(bytes)` used by writerR, C and D
(base.go 561, 662, 716). -/
def covers (d : Diff) (x : Nat) : Bool := decide (d.off ≤ x) && decide (x < d.off + d.sl.len)

end Diff

/-! ## helpers on the segment list (base.go 1188-1273) -/

/-- base.go 1213-1219: one iteration of `Diffs.minOffset`; `none` = -1. -/
def minStep (p : Diff → Bool) (acc : Option Nat) (d : Diff) : Option Nat :=
  if p d then
    match acc with
    | none => some d.off
    | some m => if d.off < m then some d.off else some m
  else acc

/-- base.go 1208-1223 `Diffs.minOffset`; `none` = -1. -/
def minOffset (p : Diff → Bool) (ds : List Diff) : Option Nat := ds.foldl (minStep p) none

/-- base.go 1225-1252 `Diffs.moveLast` (`none` = error, the list is then returned unchanged). -/
def moveLast {α : Type} (l : List α) (idx : Nat) : Option (List α) :=
  if l.length = idx + 1 then some l
  else if l.length ≤ idx then none
  else match l[idx]? with
    | none => none
    | some a => some (l.take idx ++ l.drop (idx + 1) ++ [a])

/-- base.go 1254-1273 `Diffs.insert` (`none` = error; callers ignore the error and keep the old list). -/
def insertAt {α : Type} (l : List α) (idx : Nat) (xs : List α) : Option (List α) :=
  if idx > l.length then none else some (l.take idx ++ xs ++ l.drop idx)

/-- `x, _ = insert(...)`: on error the old list is kept. -/
def insertOr {α : Type} (l : List α) (idx : Nat) (xs : List α) : List α :=
  (insertAt l idx xs).getD l

/-- base.go 168-179 `BaseImpl` (without reader). -/
structure Base where
  bytes   : Slice
  diffs   : List Diff := []
  seekCur : Nat := 0
deriving DecidableEq, Repr

namespace Base

/-- base.go 426-430 `NewBaseImpl`. -/
def new (buf : Slice) : Base := { bytes := buf }

/-- base.go 557-592 `writerR`.  A nil slice and an empty slice are identified.  No slice expression can
panic: each is guarded by the test before it. -/
def writerR (b : Base) (off : Nat) : Slice :=
  match lastIndexOf (fun d => d.covers off) b.diffs with
  | some n =>
    match b.diffs[n]? with
    | some d => ⟨d.sl.data.drop (off - d.off), d.sl.spare⟩
    | none => .nil
  | none =>
    if b.bytes.len < off then .nil
    else if b.diffs.isEmpty then ⟨b.bytes.data.drop off, b.bytes.spare⟩
    else
      match minOffset (fun d => decide (d.off > off)) b.diffs with
      | none => ⟨b.bytes.data.drop off, b.bytes.spare⟩
      | some m =>
        let hi := min (off + (b.bytes.len - off)) m
        ⟨(b.bytes.data.take hi).drop off, b.bytes.data.drop hi ++ b.bytes.spare⟩

/-- base.go 613-655 `readerR` when there is no reader, hence no parent and no `RDiffs`: `loadBuf`
(774-777) fails with ERR_READ_BUFFER, so either `nil` or the visible bytes are returned. -/
def readerR (b : Base) (off req : Nat) : Slice :=
  if off + req > b.bytes.len then
    if off + max 1 req ≤ b.bytes.len then ⟨b.bytes.data.drop off, b.bytes.spare⟩ else .nil
  else ⟨b.bytes.data.drop off, b.bytes.spare⟩

/-- base.go 548-555 `R(off, Size(req))`; without the option `req = 0` (105-130). -/
def R (b : Base) (off : Nat) (req : Nat := 0) : Slice :=
  let r := b.writerR off
  if r.len = 0 then b.readerR off req else r

/-- base.go 871-895 `LenBuf` (no reader). -/
def lenBuf (b : Base) : Nat :=
  if b.diffs.length < 1 then b.bytes.len
  else b.diffs.foldl (fun m d => if d.off + d.sl.len > m then d.off + d.sl.len else m) b.bytes.len

/-- base.go 414-423 `WriteAt`: appends a private copy; returns `n`, never an error. -/
def writeAt (b : Base) (p : Bytes) (i : Nat) : Base × Nat :=
  ({ b with diffs := b.diffs ++ [⟨i, ⟨p, []⟩⟩] }, p.length)

/-- base.go 407-412 `Write`. -/
def write (b : Base) (p : Bytes) : Base × Nat :=
  let r := b.writeAt p b.seekCur
  ({ r.1 with seekCur := b.seekCur + r.2 }, r.2)

/-- base.go 397-405 `ReadAt`: the destination `p` is replaced by the first component; the second is the
returned `n` (the error is always nil).  `R(...)[:l]` cannot panic: it is the same call as before, with
`Size(l)`, so it has at least `l` bytes (see `Props`). -/
def readAt (b : Base) (p : Bytes) (i : Nat) : Go (Bytes × Nat) := do
  let l := (b.R i p.length).len
  let s ← (b.R i l).takeTo l
  return (copyAt p 0 s.data, l)

/-- base.go 390-395 `Read`. -/
def read (b : Base) (p : Bytes) : Go (Base × Bytes × Nat) := do
  let (p', n) ← b.readAt p b.seekCur
  return ({ b with seekCur := b.seekCur + n }, p', n)

/-- base.go 713-750 `D`.  The returned pointer is the last segment of the new journal. -/
def D (b : Base) (off size : Nat) : Base :=
  match lastIndexOf (fun d => d.covers off) b.diffs with
  | some sn =>
    match b.diffs[sn]? with
    | none => b
    | some d =>
      if d.off + d.sl.len ≤ off + size then
        { b with diffs := b.diffs ++ [⟨off, .nil⟩] }
      else
        let after : Diff := ⟨off + size, ⟨d.sl.data.drop (off - d.off + size), d.sl.spare⟩⟩
        let before : Diff := ⟨d.off, ⟨d.sl.data.take (off + size - d.off),
          d.sl.data.drop (off + size - d.off) ++ d.sl.spare⟩⟩
        let ds := b.diffs.set sn before
        let ds := insertOr ds (sn + 1) [after]
        { b with diffs := ds ++ [⟨off, .nil⟩] }
  | none =>
    let ds :=
      if b.bytes.len > off ∧ b.bytes.cap > off + size then
        b.diffs ++ [⟨off, ⟨(b.bytes.arr.take (off + size)).drop off, b.bytes.arr.drop (off + size)⟩⟩]
      else b.diffs
    { b with diffs := ds ++ [⟨off, .nil⟩] }

/-- Assignment `diff.bytes = s` through the pointer returned by `D`. -/
def setLast (b : Base) (s : Slice) : Base :=
  { b with diffs := b.diffs.dropLast ++ (match b.diffs.getLast? with
      | some d => [⟨d.off, s⟩]
      | none => []) }

/-- base.go 753-758 `U`: the caller receives the fresh zeroed buffer of the last segment. -/
def U (b : Base) (off size : Nat) : Base := (b.D off size).setLast (.make size)

/-- `copy(b.U(off, size), w)` / `flatbuffers.WriteUintN(b.U(off, size), v)`: the window is fresh, so
filling it is an assignment to the last segment. -/
def updateU (b : Base) (off size : Nat) (w : Bytes) : Base :=
  (b.D off size).setLast ⟨copyAt (zeros size) 0 w, []⟩

/-- base.go 659-672 `C` (the Go slice expression `src[:size]` panics if `size > cap(src)`). -/
def C (b : Base) (off size : Nat) (src : Slice) : Go Base := do
  let s ← src.takeTo size
  match lastIndexOf (fun d => d.covers off) b.diffs with
  | some sn =>
    match b.diffs[sn]? with
    | some d =>
      if d.off = off ∧ d.sl.len = size then
        return { b with diffs := b.diffs.set sn ⟨d.off, s⟩ }
      else return (b.D off size).setLast s
    | none => return (b.D off size).setLast s
  | none => return (b.D off size).setLast s

/-- base.go 677-687: first half of `Copy`, making room at `dstOff`. -/
def copyExtend (b : Base) (dstOff extend : Nat) : Base :=
  let ds :=
    if b.bytes.len > dstOff then
      insertOr b.diffs 0 [⟨dstOff, ⟨b.bytes.data.drop dstOff, b.bytes.spare⟩⟩]
    else b.diffs
  { b with diffs := ds.map (fun d => if d.off ≥ dstOff then ⟨d.off + extend, d.sl⟩ else d) }

/-- base.go 702-704: clip the source piece to the remaining size (keeps the capacity). -/
def clip (s : Slice) (rest : Nat) : Slice :=
  if s.len > rest then ⟨s.data.take rest, s.data.drop rest ++ s.spare⟩ else s

theorem clip_len (s : Slice) (rest : Nat) : (clip s rest).len = min s.len rest := by
  unfold clip
  split
  · simp only [Slice.len, List.length_take] at *; omega
  · omega

/-- base.go 689-708: the copy loop, `done = srcPtr - srcOff`, `rest = size - done`.  `rd` is `src.R`
(`srcPtr`, requested size); the source is a different object, so it does not change during the loop. -/
def copyLoop (rd : Nat → Nat → Slice) (srcOff dstOff : Nat) (done rest : Nat) (ds : List Diff) : List Diff :=
  if rest = 0 then ds
  else if (rd (srcOff + done) rest).len = 0 then ds
  else copyLoop rd srcOff dstOff (done + (clip (rd (srcOff + done) rest) rest).len)
      (rest - (clip (rd (srcOff + done) rest) rest).len)
      (ds ++ [⟨done + dstOff, clip (rd (srcOff + done) rest) rest⟩])
termination_by rest
decreasing_by rw [clip_len]; omega

/-- base.go 675-710 `Copy`. -/
def copy (b : Base) (rd : Nat → Nat → Slice) (srcOff size dstOff extend : Nat) : Base :=
  let b := b.copyExtend dstOff extend
  { b with diffs := copyLoop rd srcOff dstOff 0 size b.diffs }

/-- base.go 953-967 `FlattenWithLen` (its argument has no effect); 948-950 `Flatten`. -/
def flatten (b : Base) : Base :=
  let n := zeros b.lenBuf
  let n := copyAt n 0 b.bytes.data
  let n := b.diffs.foldl (fun n d => copyAt n d.off d.sl.data) n
  { b with bytes := ⟨n, []⟩, diffs := [] }

/-- base.go 972-983: the deletion test of `Dedup` for index `i`. -/
def dedupPred (ds : List Diff) (i : Nat) : Bool :=
  match ds[i]? with
  | none => false
  | some di =>
    -- `LastIndexOf` over `j` with `i < j`; an index found this way is positive
    ((ds.drop (i + 1)).any fun dj =>
      decide (dj.off ≤ di.off) && decide (dj.off + dj.sl.len ≥ di.off + di.sl.len))

/-- base.go 970-984 `Dedup`. -/
def dedup (b : Base) : Base := { b with diffs := deleteIdx (dedupPred b.diffs) 0 b.diffs }

/-- base.go 928-933: merge the segments after `idx` into segment `idx`; collects which were merged. -/
def mergeInto (d : Diff) : List Diff → Diff × List Diff × Bool
  | [] => (d, [], false)
  | s :: l =>
    match d.mergeStable s with
    | some d' => ((mergeInto d' l).1, (mergeInto d' l).2.1, true)
    | none => ((mergeInto d l).1, s :: (mergeInto d l).2.1, (mergeInto d l).2.2)

/-- base.go 917-945 `mergeDiffsOf`: `none` = returned false. -/
def mergeDiffsOf (ds : List Diff) (idx : Nat) : Option (List Diff) :=
  match ds[idx]? with
  | none => none
  | some d =>
    let m := mergeInto d (ds.drop (idx + 1))
    if m.2.2 then some (ds.take idx ++ m.1 :: m.2.1) else none

/-- base.go 909-914: the `for` loop from index `i`; `none` = loop ran to its end without a merge. -/
def mergeScan (ds : List Diff) (i : Nat) : Option (List Diff) :=
  if i + 1 < ds.length then
    match mergeDiffsOf ds i with
    | some ds' => some ds'
    | none => mergeScan ds (i + 1)
  else none
termination_by ds.length - i

/-- `deleteIdxs` removes at least one segment. -/
theorem mergeInto_length (d : Diff) (l : List Diff) :
    (mergeInto d l).2.1.length ≤ l.length ∧
    ((mergeInto d l).2.2 = true → (mergeInto d l).2.1.length < l.length) := by
  induction l generalizing d with
  | nil => simp [mergeInto]
  | cons s l ih =>
    simp only [mergeInto]
    cases h : d.mergeStable s with
    | none =>
      have := ih d
      simp only [List.length_cons]
      exact ⟨by omega, fun hm => by have := this.2 hm; omega⟩
    | some d' =>
      have := ih d'
      simp only [List.length_cons]
      exact ⟨by omega, fun _ => by omega⟩

theorem mergeDiffsOf_length {ds : List Diff} {i : Nat} {ds' : List Diff}
    (h : mergeDiffsOf ds i = some ds') : ds'.length < ds.length := by
  unfold mergeDiffsOf at h
  cases hi : ds[i]? with
  | none => simp [hi] at h
  | some d =>
    simp only [hi] at h
    have hl := mergeInto_length d (ds.drop (i + 1))
    have hlt : i < ds.length := (List.getElem?_eq_some_iff.mp hi).1
    split at h
    · rename_i hm
      have := hl.2 hm
      injection h with h
      subst h
      simp only [List.length_append, List.length_take, List.length_cons, List.length_drop] at *
      omega
    · exact absurd h (by simp)

theorem mergeScan_length {ds : List Diff} {i : Nat} {ds' : List Diff}
    (h : mergeScan ds i = some ds') : ds'.length < ds.length := by
  fun_induction mergeScan ds i with
  | case1 i _ _ hm => injection h with h; subst h; exact mergeDiffsOf_length hm
  | case2 i _ _ ih => exact ih h
  | case3 => simp at h

/-- base.go 907-915 `mergeDiffs`: restart after every successful merge. -/
def mergeLoop (ds : List Diff) : List Diff :=
  match _h : mergeScan ds 0 with
  | some ds' => mergeLoop ds'
  | none => ds
termination_by ds.length
decreasing_by exact mergeScan_length (by assumption)

/-- base.go 903-905 `MergeDiffs`. -/
def mergeDiffs (b : Base) : Base := { b with diffs := mergeLoop b.diffs }

/-- base.go 1057-1065: split straddling segments; `l` are the remaining segments of the *old* journal,
`i` their index in it, `nd` the journal under construction. -/
def splitStraddling (pos : Nat) : Nat → List Diff → List Diff → List Diff
  | _, [], nd => nd
  | i, d :: l, nd =>
    if d.off < pos ∧ d.incl pos then
      splitStraddling pos (i + 1) l (insertOr nd (i + 1)
        [⟨d.off, ⟨d.sl.data.take (pos - d.off), []⟩⟩,
         ⟨pos, ⟨d.sl.data.drop (pos - d.off), d.sl.spare⟩⟩])
    else splitStraddling pos (i + 1) l nd

/-- base.go 1047-1083 `insertSpace` (1044-1046 `insertBuf` is `isCreate = true`).  The result is a new
object; the receiver is not modified. -/
def insertSpace (b : Base) (pos size : Nat) (isCreate : Bool) : Base :=
  let nd := splitStraddling pos 0 b.diffs b.diffs
  let nd := nd.map (fun d => if d.off ≥ pos then ⟨d.off + size, d.sl⟩ else d)
  let nb : Slice := if b.bytes.len > pos then ⟨b.bytes.data.take pos, []⟩ else b.bytes
  let nd := if b.bytes.len > pos then
      insertOr nd 0 [⟨pos + size, ⟨b.bytes.data.drop pos, b.bytes.spare⟩⟩] else nd
  let nd := if isCreate then nd ++ [⟨pos, .make size⟩] else nd
  { bytes := nb, diffs := nd }

/-- base.go 455-481 `Dup` (no reader): bytes and segments are copied; spare capacity is zeroed. -/
def dup (b : Base) : Base :=
  { bytes := ⟨b.bytes.data, []⟩,
    diffs := b.diffs.map fun d => ⟨d.off, ⟨d.sl.data, zeros d.sl.spare.length⟩⟩ }

/-- base.go 998-1014 `BufInfo`: (len, cap) of the bytes and of the whole buffer. -/
def bufInfo (b : Base) : (Nat × Nat) × (Nat × Nat) :=
  ((b.bytes.len, b.bytes.cap),
    b.diffs.foldl (fun (m : Nat × Nat) d =>
      (if d.sl.len + d.off > m.1 then d.off + d.sl.len else m.1,
       if d.sl.cap + d.off > m.2 then d.off + d.sl.cap else m.2)) (b.bytes.len, b.bytes.cap))

/-- base.go 1090-1116 `Equal`. -/
def equal (b c : Base) : Bool :=
  b.bytes.data == c.bytes.data &&
  (b.diffs.length == c.diffs.length && (b.diffs.zip c.diffs).all fun (x, y) => x.equal y)

end Base
end Fbs
