import Verif.Buf
/-!
# Memory-level model of the buffers (query/base/base.go)

Here a Go byte slice is a window into an array of a memory shared by all buffers, so that two slices can
overlap.  `Mem` is the list of all byte arrays ever allocated (arrays are never freed; their length never
changes).  Each operation is a translation of the same Go lines as its value-level counterpart in
`Verif.Buf`, now saying which memory is allocated and which existing memory is written.

Simplifications: as in `Verif.Buf` (no reader).  The journal `b.Diffs` is a value owned by its buffer: no
modelled operation makes two buffers share the array of journal entries (`Dup` and `insertSpace` copy it).
-/

namespace Fbs

/-- All byte arrays; the index is the address of an array. -/
abbrev Mem := List Bytes

/-- A Go byte slice: `len` bytes visible from `off` in array `arr`, `cap` bytes reachable by re-slicing. -/
structure Win where
  arr : Nat
  off : Nat
  len : Nat
  cap : Nat
deriving DecidableEq, Repr

namespace Win

/-- Go `s[lo:]`. -/
def dropFrom (w : Win) (lo : Nat) : Go Win :=
  if lo ≤ w.len then some ⟨w.arr, w.off + lo, w.len - lo, w.cap - lo⟩ else none

/-- Go `s[:hi]`. -/
def takeTo (w : Win) (hi : Nat) : Go Win :=
  if hi ≤ w.cap then some ⟨w.arr, w.off, hi, w.cap⟩ else none

/-- Go `s[lo:hi]`. -/
def sub (w : Win) (lo hi : Nat) : Go Win :=
  if lo ≤ hi ∧ hi ≤ w.cap then some ⟨w.arr, w.off + lo, hi - lo, w.cap - lo⟩ else none

/-- Go `s[lo:hi:max]`. -/
def sub3 (w : Win) (lo hi max : Nat) : Go Win :=
  if lo ≤ hi ∧ hi ≤ max ∧ max ≤ w.cap then some ⟨w.arr, w.off + lo, hi - lo, max - lo⟩ else none

/-- The nil slice. -/
def nil : Win := ⟨0, 0, 0, 0⟩

end Win

namespace Mem

/-- The bytes of the capacity of a slice. -/
def capBytes (m : Mem) (w : Win) : Bytes := (((m[w.arr]?).getD []).drop w.off).take w.cap

/-- What a slice shows. -/
def read (m : Mem) (w : Win) : Bytes := (m.capBytes w).take w.len

/-- The slice as a value (visible bytes and spare capacity). -/
def sl (m : Mem) (w : Win) : Slice := ⟨(m.capBytes w).take w.len, (m.capBytes w).drop w.len⟩

/-- A slice whose array exists and which stays inside it (every slice a Go program can hold); the nil
slice has no array. -/
def Ok (m : Mem) (w : Win) : Prop :=
  w.len ≤ w.cap ∧ (w.cap = 0 ∨ (w.arr < m.length ∧ w.off + w.cap ≤ ((m[w.arr]?).getD []).length))

/-- Go `make([]byte, n, c)` or a literal: a new array holding `data ++ spare`. -/
def alloc (m : Mem) (s : Slice) : Mem × Win := (m ++ [s.arr], ⟨m.length, 0, s.len, s.cap⟩)

/-- Go `copy(w[at:], src)`: writes into the array of `w`. -/
def copyTo (m : Mem) (w : Win) (pos : Nat) (src : Bytes) : Mem :=
  m.modify w.arr (fun a => a.take (w.off + pos) ++ src.take (w.len - pos) ++
    a.drop (w.off + pos + min src.length (w.len - pos)))

end Mem

/-- base.go 188-191 `Diff`. -/
structure HDiff where
  off : Nat
  w : Win
deriving DecidableEq, Repr

/-- base.go 168-179 `BaseImpl` (without reader). -/
structure HBase where
  bytes : Win
  diffs : List HDiff := []
  seekCur : Nat := 0
deriving DecidableEq, Repr

/-- The segment as a value. -/
def HDiff.val (m : Mem) (d : HDiff) : Diff := ⟨d.off, m.sl d.w⟩

/-- The buffer as a value. -/
def HBase.val (m : Mem) (b : HBase) : Base :=
  { bytes := m.sl b.bytes, diffs := b.diffs.map (HDiff.val m), seekCur := b.seekCur }

/-- base.go 561, 662, 716. -/
def HDiff.covers (d : HDiff) (x : Nat) : Bool := decide (d.off ≤ x) && decide (x < d.off + d.w.len)

/-- base.go 1208-1223 `Diffs.minOffset`; `none` = -1. -/
def hMinOffset (p : HDiff → Bool) (ds : List HDiff) : Option Nat :=
  ds.foldl (fun acc d => if p d then
      match acc with
      | none => some d.off
      | some k => if d.off < k then some d.off else some k
    else acc) none

namespace HBase

/-- base.go 426-430 `NewBaseImpl`: the caller's slice is used as it is. -/
def new (w : Win) : HBase := { bytes := w }

/-- base.go 557-592 `writerR`: the returned slice shares the memory of the buffer. -/
def writerR (b : HBase) (off : Nat) : Win :=
  match lastIndexOf (fun d => d.covers off) b.diffs with
  | some n =>
    match b.diffs[n]? with
    | some d => ⟨d.w.arr, d.w.off + (off - d.off), d.w.len - (off - d.off), d.w.cap - (off - d.off)⟩
    | none => .nil
  | none =>
    if b.bytes.len < off then .nil
    else
      let all : Win := ⟨b.bytes.arr, b.bytes.off + off, b.bytes.len - off, b.bytes.cap - off⟩
      if b.diffs.isEmpty then all
      else
        match hMinOffset (fun d => decide (d.off > off)) b.diffs with
        | none => all
        | some k => { all with len := min (off + (b.bytes.len - off)) k - off }

/-- base.go 613-655 `readerR` without reader (see `Base.readerR`). -/
def readerR (b : HBase) (off req : Nat) : Win :=
  let all : Win := ⟨b.bytes.arr, b.bytes.off + off, b.bytes.len - off, b.bytes.cap - off⟩
  if off + req > b.bytes.len then
    if off + max 1 req ≤ b.bytes.len then all else .nil
  else all

/-- base.go 548-555 `R`. -/
def R (b : HBase) (off req : Nat) : Win :=
  let r := b.writerR off
  if r.len = 0 then b.readerR off req else r

/-- base.go 871-895 `LenBuf`. -/
def lenBuf (b : HBase) : Nat :=
  if b.diffs.length < 1 then b.bytes.len
  else b.diffs.foldl (fun m d => if d.off + d.w.len > m then d.off + d.w.len else m) b.bytes.len

/-- base.go 414-423 `WriteAt`: a new array with a copy of `p`. -/
def writeAt (m : Mem) (b : HBase) (p : Bytes) (i : Nat) : Mem × HBase :=
  let (m, w) := m.alloc (.make p.length)
  let m := m.copyTo w 0 p
  (m, { b with diffs := b.diffs ++ [⟨i, w⟩] })

/-- base.go 407-412 `Write`. -/
def write (m : Mem) (b : HBase) (p : Bytes) : Mem × HBase :=
  let (m, c) := b.writeAt m p b.seekCur
  (m, { c with seekCur := b.seekCur + p.length })

/-- base.go 713-750 `D`: only slice headers change. -/
def D (b : HBase) (off size : Nat) : HBase :=
  match lastIndexOf (fun d => d.covers off) b.diffs with
  | some sn =>
    match b.diffs[sn]? with
    | none => b
    | some d =>
      if d.off + d.w.len ≤ off + size then { b with diffs := b.diffs ++ [⟨off, .nil⟩] }
      else
        let after : HDiff := ⟨off + size, ⟨d.w.arr, d.w.off + (off - d.off + size),
          d.w.len - (off - d.off + size), d.w.cap - (off - d.off + size)⟩⟩
        let before : HDiff := ⟨d.off, { d.w with len := off + size - d.off }⟩
        let ds := b.diffs.set sn before
        let ds := insertOr ds (sn + 1) [after]
        { b with diffs := ds ++ [⟨off, .nil⟩] }
  | none =>
    let ds :=
      if b.bytes.len > off ∧ b.bytes.cap > off + size then
        b.diffs ++ [⟨off, ⟨b.bytes.arr, b.bytes.off + off, size, b.bytes.cap - off⟩⟩]
      else b.diffs
    { b with diffs := ds ++ [⟨off, .nil⟩] }

/-- Assignment `diff.bytes = s` through the pointer returned by `D`. -/
def setLast (b : HBase) (w : Win) : HBase :=
  { b with diffs := b.diffs.dropLast ++ (match b.diffs.getLast? with
      | some d => [⟨d.off, w⟩]
      | none => []) }

/-- base.go 753-758 `U`: the new window is returned to the caller. -/
def U (m : Mem) (b : HBase) (off size : Nat) : Mem × HBase × Win :=
  let (m, w) := m.alloc (.make size)
  (m, (b.D off size).setLast w, w)

/-- `copy(b.U(off, size), v)`. -/
def updateU (m : Mem) (b : HBase) (off size : Nat) (v : Bytes) : Mem × HBase :=
  let (m, b, w) := b.U m off size
  (m.copyTo w 0 v, b)

/-- base.go 659-672 `C`: the caller's slice becomes part of the buffer. -/
def C (b : HBase) (off size : Nat) (src : Win) : Go HBase := do
  let s ← src.takeTo size
  match lastIndexOf (fun d => d.covers off) b.diffs with
  | some sn =>
    match b.diffs[sn]? with
    | some d =>
      if d.off = off ∧ d.w.len = size then
        return { b with diffs := b.diffs.set sn ⟨d.off, s⟩ }
      else return (b.D off size).setLast s
    | none => return (b.D off size).setLast s
  | none => return (b.D off size).setLast s

/-- base.go 677-687: first half of `Copy`. -/
def copyExtend (b : HBase) (dstOff extend : Nat) : HBase :=
  let ds :=
    if b.bytes.len > dstOff then
      insertOr b.diffs 0 [⟨dstOff, ⟨b.bytes.arr, b.bytes.off + dstOff, b.bytes.len - dstOff,
        b.bytes.cap - dstOff⟩⟩]
    else b.diffs
  { b with diffs := ds.map (fun d => if d.off ≥ dstOff then ⟨d.off + extend, d.w⟩ else d) }

/-- base.go 702-704. -/
def clip (w : Win) (rest : Nat) : Win := if w.len > rest then { w with len := rest } else w

theorem clip_len (w : Win) (rest : Nat) : (clip w rest).len = min w.len rest := by
  unfold clip
  split
  · simp only; omega
  · omega

/-- base.go 689-708: the slices returned by the source are stored without copying. -/
def copyLoop (rd : Nat → Nat → Win) (srcOff dstOff : Nat) (done rest : Nat) (ds : List HDiff) :
    List HDiff :=
  if rest = 0 then ds
  else if (rd (srcOff + done) rest).len = 0 then ds
  else copyLoop rd srcOff dstOff (done + (clip (rd (srcOff + done) rest) rest).len)
      (rest - (clip (rd (srcOff + done) rest) rest).len)
      (ds ++ [⟨done + dstOff, clip (rd (srcOff + done) rest) rest⟩])
termination_by rest
decreasing_by rw [clip_len]; omega

/-- base.go 675-710 `Copy`; `rd` is `src.R`. -/
def copy (b : HBase) (rd : Nat → Nat → Win) (srcOff size dstOff extend : Nat) : HBase :=
  let b := b.copyExtend dstOff extend
  { b with diffs := copyLoop rd srcOff dstOff 0 size b.diffs }

/-- base.go 953-967 `FlattenWithLen`, 948-950 `Flatten`: everything is copied into one new array. -/
def flatten (m : Mem) (b : HBase) : Mem × HBase :=
  let (m, w) := m.alloc (.make b.lenBuf)
  let m := m.copyTo w 0 (m.read b.bytes)
  let m := b.diffs.foldl (fun (m : Mem) d => m.copyTo w d.off (m.read d.w)) m
  (m, { b with bytes := w, diffs := [] })

/-- base.go 972-983. -/
def dedupPred (ds : List HDiff) (i : Nat) : Bool :=
  match ds[i]? with
  | none => false
  | some di =>
    ((ds.drop (i + 1)).any fun dj =>
      decide (dj.off ≤ di.off) && decide (dj.off + dj.w.len ≥ di.off + di.w.len))

/-- base.go 970-984 `Dedup`. -/
def dedup (b : HBase) : HBase := { b with diffs := deleteIdx (dedupPred b.diffs) 0 b.diffs }

/-- base.go 243-266 `Diff.MergeStable`: the union is built in a new array. -/
def mergeStable (m : Mem) (d s : HDiff) : Option (Mem × HDiff) :=
  if d.off + d.w.len < s.off then none
  else if s.off + s.w.len < d.off then none
  else
    let off := min d.off s.off
    let loff := max (d.off + d.w.len) (s.off + s.w.len)
    let (m, w) := m.alloc (.make (loff - off))
    let m := m.copyTo w (d.off - off) (m.read d.w)
    let m := m.copyTo w (s.off - off) (m.read s.w)
    some (m, ⟨off, w⟩)

/-- base.go 928-933. -/
def mergeInto (m : Mem) (d : HDiff) : List HDiff → Mem × HDiff × List HDiff × Bool
  | [] => (m, d, [], false)
  | s :: l =>
    match mergeStable m d s with
    | some (m', d') =>
      ((mergeInto m' d' l).1, (mergeInto m' d' l).2.1, (mergeInto m' d' l).2.2.1, true)
    | none =>
      ((mergeInto m d l).1, (mergeInto m d l).2.1, s :: (mergeInto m d l).2.2.1, (mergeInto m d l).2.2.2)

/-- base.go 917-945 `mergeDiffsOf`. -/
def mergeDiffsOf (m : Mem) (ds : List HDiff) (idx : Nat) : Option (Mem × List HDiff) :=
  match ds[idx]? with
  | none => none
  | some d =>
    let r := mergeInto m d (ds.drop (idx + 1))
    if r.2.2.2 then some (r.1, ds.take idx ++ r.2.1 :: r.2.2.1) else none

/-- base.go 909-914. -/
def mergeScan (m : Mem) (ds : List HDiff) (i : Nat) : Option (Mem × List HDiff) :=
  if i + 1 < ds.length then
    match mergeDiffsOf m ds i with
    | some r => some r
    | none => mergeScan m ds (i + 1)
  else none
termination_by ds.length - i

theorem mergeInto_length (m : Mem) (d : HDiff) (l : List HDiff) :
    (mergeInto m d l).2.2.1.length ≤ l.length ∧
    ((mergeInto m d l).2.2.2 = true → (mergeInto m d l).2.2.1.length < l.length) := by
  induction l generalizing m d with
  | nil => simp [mergeInto]
  | cons s l ih =>
    simp only [mergeInto]
    cases h : mergeStable m d s with
    | none =>
      have := ih m d
      simp only [List.length_cons]
      exact ⟨by omega, fun hm => by have := this.2 hm; omega⟩
    | some r =>
      have := ih r.1 r.2
      simp only [List.length_cons]
      exact ⟨by omega, fun _ => by omega⟩

theorem mergeDiffsOf_length {m : Mem} {ds : List HDiff} {i : Nat} {r : Mem × List HDiff}
    (h : mergeDiffsOf m ds i = some r) : r.2.length < ds.length := by
  unfold mergeDiffsOf at h
  cases hi : ds[i]? with
  | none => simp [hi] at h
  | some d =>
    simp only [hi] at h
    have hl := mergeInto_length m d (ds.drop (i + 1))
    have hlt : i < ds.length := (List.getElem?_eq_some_iff.mp hi).1
    split at h
    · rename_i hm
      have := hl.2 hm
      injection h with h
      subst h
      simp only [List.length_append, List.length_take, List.length_cons, List.length_drop] at *
      omega
    · exact absurd h (by simp)

theorem mergeScan_length {m : Mem} {ds : List HDiff} {i : Nat} {r : Mem × List HDiff}
    (h : mergeScan m ds i = some r) : r.2.length < ds.length := by
  fun_induction mergeScan m ds i with
  | case1 i _ _ hm => injection h with h; subst h; exact mergeDiffsOf_length hm
  | case2 i _ _ ih => exact ih h
  | case3 => simp at h

/-- base.go 907-915 `mergeDiffs`. -/
def mergeLoop (m : Mem) (ds : List HDiff) : Mem × List HDiff :=
  match _h : mergeScan m ds 0 with
  | some r => mergeLoop r.1 r.2
  | none => (m, ds)
termination_by ds.length
decreasing_by exact mergeScan_length (by assumption)

/-- base.go 903-905 `MergeDiffs`. -/
def mergeDiffs (m : Mem) (b : HBase) : Mem × HBase :=
  ((mergeLoop m b.diffs).1, { b with diffs := (mergeLoop m b.diffs).2 })

/-- base.go 1057-1065. -/
def splitStraddling (pos : Nat) : Nat → List HDiff → List HDiff → List HDiff
  | _, [], nd => nd
  | i, d :: l, nd =>
    if d.off < pos ∧ d.covers pos then
      splitStraddling pos (i + 1) l (insertOr nd (i + 1)
        [⟨d.off, ⟨d.w.arr, d.w.off, pos - d.off, pos - d.off⟩⟩,
         ⟨pos, ⟨d.w.arr, d.w.off + (pos - d.off), d.w.len - (pos - d.off), d.w.cap - (pos - d.off)⟩⟩])
    else splitStraddling pos (i + 1) l nd

/-- base.go 1047-1083 `insertSpace`: the new object shares the memory of the old one. -/
def insertSpace (m : Mem) (b : HBase) (pos size : Nat) (isCreate : Bool) : Mem × HBase :=
  let nd := splitStraddling pos 0 b.diffs b.diffs
  let nd := nd.map (fun d => if d.off ≥ pos then ⟨d.off + size, d.w⟩ else d)
  let nb : Win := if b.bytes.len > pos then ⟨b.bytes.arr, b.bytes.off, pos, pos⟩ else b.bytes
  let nd := if b.bytes.len > pos then
      insertOr nd 0 [⟨pos + size, ⟨b.bytes.arr, b.bytes.off + pos, b.bytes.len - pos, b.bytes.cap - pos⟩⟩]
    else nd
  if isCreate then
    let (m, w) := m.alloc (.make size)
    (m, { bytes := nb, diffs := nd ++ [⟨pos, w⟩] })
  else (m, { bytes := nb, diffs := nd })

/-- base.go 464-468: the loop of `Dup` over the journal. -/
def dupDiffs (m : Mem) : List HDiff → Mem × List HDiff
  | [] => (m, [])
  | d :: l =>
    let (m1, w) := m.alloc ⟨zeros d.w.len, zeros (d.w.cap - d.w.len)⟩
    let m2 := m1.copyTo w 0 (m1.read d.w)
    ((dupDiffs m2 l).1, ⟨d.off, w⟩ :: (dupDiffs m2 l).2)

/-- base.go 455-481 `Dup`. -/
def dup (m : Mem) (b : HBase) : Mem × HBase :=
  let (m1, w) := m.alloc (.make b.bytes.len)
  let m2 := m1.copyTo w 0 (m1.read b.bytes)
  ((dupDiffs m2 b.diffs).1, { bytes := w, diffs := (dupDiffs m2 b.diffs).2 })

end HBase
end Fbs
