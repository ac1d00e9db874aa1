import Verif.Go
/-!
# Specification: the flatbuffers wire format

Written from the flatbuffers internals documentation, independently of the model.  Positions are offsets
into the whole buffer.
-/

namespace Fbs.Fb
open Fbs

/-- Unsigned little-endian integer of `k` bytes at `pos`. -/
def le (buf : Bytes) (k pos : Nat) : Nat := leVal ((buf.drop pos).take k)

/-- Signed 32-bit offset stored at the start of a table: table position minus vtable position. -/
def soffset (buf : Bytes) (t : Nat) : Int :=
  if le buf 4 t < 2147483648 then le buf 4 t else (le buf 4 t : Int) - 4294967296

/-- Position of the vtable. -/
def vtablePos (buf : Bytes) (t : Nat) : Int := (t : Int) - soffset buf t

/-- Length in bytes of the vtable. -/
def vtableLen (buf : Bytes) (t : Nat) : Nat := le buf 2 (vtablePos buf t).toNat

/-- The table and its vtable lie inside the buffer and the vtable has a legal length. -/
def TableOk (buf : Bytes) (t : Nat) : Prop :=
  t + 4 ≤ buf.length ∧ 0 ≤ vtablePos buf t ∧ (vtablePos buf t).toNat + 4 ≤ buf.length ∧
  4 ≤ vtableLen buf t ∧ vtableLen buf t % 2 = 0 ∧
  (vtablePos buf t).toNat + vtableLen buf t ≤ buf.length

/-- Position of field `i` of the table at `t`; `none` = absent (slot beyond the vtable, or 0). -/
def fieldPos (buf : Bytes) (t i : Nat) : Option Nat :=
  if 4 + 2 * i + 2 ≤ vtableLen buf t then
    let o := le buf 2 ((vtablePos buf t).toNat + 4 + 2 * i)
    if o = 0 then none else some (t + o)
  else none

/-- Next multiple of `a` (`a > 0`). -/
def alignUp (x a : Nat) : Nat := (x + a - 1) / a * a

/-- Offset of field `i` of a struct whose fields have the given sizes (all scalars: the alignment is the
size); `cur` is the first free byte. -/
def structOff : List Nat → Nat → Nat → Nat
  | [], _, cur => cur
  | s :: _, 0, cur => alignUp cur s
  | s :: l, i + 1, cur => structOff l i (alignUp cur s + s)

end Fbs.Fb

namespace Fbs.Fb
open Fbs

/-- The position an unsigned offset stored at `p` points to. -/
def follow (buf : Bytes) (p : Nat) : Nat := p + le buf 4 p

/-- The byte vector (string) whose offset is stored at `p`. -/
def bytesAt (buf : Bytes) (p : Nat) : Bytes :=
  (buf.drop (follow buf p + 4)).take (le buf 4 (follow buf p))

/-- It lies inside the buffer. -/
def BytesOk (buf : Bytes) (p : Nat) : Prop :=
  p + 4 ≤ buf.length ∧ follow buf p + 4 + le buf 4 (follow buf p) ≤ buf.length

end Fbs.Fb
