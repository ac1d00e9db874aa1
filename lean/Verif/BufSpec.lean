import Verif.Buf
/-!
# Specification of a byte buffer

A buffer is a partial map from offsets to bytes.  Nothing here refers to segments or journals except
`content`, which says what the journal is meant to denote: the last writer wins.
-/

namespace Fbs

/-- A partial map from offsets to bytes. -/
abbrev ByteMap := Nat → Option UInt8

namespace ByteMap

/-- The bytes of a string, at offset 0. -/
def ofBytes (l : Bytes) : ByteMap := fun x => l[x]?

/-- Write `w` at `off`. -/
def put (m : ByteMap) (off : Nat) (w : Bytes) : ByteMap :=
  fun x => if off ≤ x ∧ x < off + w.length then w[x - off]? else m x

/-- Move everything at or after `pos` up by `n`, leaving a hole. -/
def openGap (m : ByteMap) (pos n : Nat) : ByteMap :=
  fun x => if x < pos then m x else if x < pos + n then none else m (x - n)

/-- Fill the holes below `len` with zeros (and drop everything at or after `len`). -/
def fill (m : ByteMap) (len : Nat) : ByteMap :=
  fun x => if x < len then some ((m x).getD 0) else none

/-- The bytes `off .. off+n-1` are all defined and spell `w`. -/
def Spells (m : ByteMap) (off : Nat) (w : Bytes) : Prop :=
  ∀ k, k < w.length → m (off + k) = w[k]?

end ByteMap

/-- What a journal over an underlying map denotes: segments are applied in order. -/
def contentOf (m : ByteMap) (ds : List Diff) : ByteMap :=
  ds.foldl (fun m d => m.put d.off d.sl.data) m

/-- What a buffer denotes. -/
def Base.content (b : Base) : ByteMap := contentOf (ByteMap.ofBytes b.bytes.data) b.diffs

/-- The observation "read the byte at `x`" through the API: first byte of `R(x)`. -/
def Base.byte (b : Base) (x : Nat) : Option UInt8 := (b.R x).data.head?

/-- No edge of a segment (start or end), nor the end of the initial bytes, lies strictly inside
`(off, off+n)`. -/
def Base.NoCut (b : Base) (off n : Nat) : Prop :=
  (∀ d ∈ b.diffs, ¬ (off < d.off ∧ d.off < off + n) ∧
      ¬ (off < d.off + d.sl.len ∧ d.off + d.sl.len < off + n)) ∧
  ¬ (off < b.bytes.len ∧ b.bytes.len < off + n)

end Fbs

namespace Fbs

/-- Abstract buffer: the byte map, the length, and the position of the sequential cursor. -/
structure AbsBuf where
  map : ByteMap
  len : Nat
  cur : Nat

/-- Editing operations of the public API on one buffer. -/
inductive BufOp where
  /-- `WriteAt(p, i)` -/
  | writeAt (p : Bytes) (i : Nat)
  /-- `Write(p)` -/
  | write (p : Bytes)
  /-- fill the window `U(off, len(w))` with `w` -/
  | update (off : Nat) (w : Bytes)
  /-- `Flatten()` -/
  | flatten
  /-- `Dedup()` -/
  | dedup

/-- Specification of one operation. -/
def AbsBuf.step (a : AbsBuf) : BufOp → AbsBuf
  | .writeAt p i => { a with map := a.map.put i p, len := max a.len (i + p.length) }
  | .write p => { map := a.map.put a.cur p, len := max a.len (a.cur + p.length), cur := a.cur + p.length }
  | .update off w => { a with map := a.map.put off w, len := max a.len (off + w.length) }
  | .flatten => { a with map := a.map.fill a.len }
  | .dedup => a

/-- The modelled operation. -/
def Base.step (b : Base) : BufOp → Base
  | .writeAt p i => (b.writeAt p i).1
  | .write p => (b.write p).1
  | .update off w => b.updateU off w.length w
  | .flatten => b.flatten
  | .dedup => b.dedup

end Fbs
