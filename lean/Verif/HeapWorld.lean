import Verif.HeapFoot
/-!
# Histories over shared memory

A world is a memory and the buffers living in it; buffers may share memory (views, copies).  A history is
any list of operations on any of them.
-/

namespace Fbs

/-- Operations on one buffer.  Byte strings are slices the caller has just allocated and does not keep. -/
inductive HOp where
  | writeAt (p : Bytes) (i : Nat)
  | write (p : Bytes)
  /-- fill the window `U(off, len(v))` -/
  | update (off : Nat) (v : Bytes)
  /-- `C(off, size, src)` -/
  | c (off size : Nat) (src : Bytes)
  /-- `Copy` from a new default buffer over `src` -/
  | copyIn (src : Bytes) (srcOff size dstOff extend : Nat)
  | flatten
  | dedup
  | mergeDiffs
  /-- `insertSpace`; the result replaces the buffer -/
  | insertSpace (pos size : Nat) (create : Bool)
  /-- `Dup`; the result replaces the buffer -/
  | dup
  /-- fill the window `NoLayer.U(off, len(v))` in place -/
  | nlUpdate (off : Nat) (v : Bytes)
  /-- `NoLayer.insertSpace`; the result replaces the buffer -/
  | nlInsertSpace (pos size : Nat) (create : Bool)
  /-- `DoubleLayer.mergeDiffs` (what `DoubleLayer.R` does before reading) -/
  | dlMerge
  /-- fill the window `DoubleLayer.U(off, len(v))` -/
  | dlUpdate (off : Nat) (v : Bytes)
  /-- `DoubleLayer.insertSpace`; the result replaces the buffer -/
  | dlInsertSpace (pos size : Nat)

/-- The operation writes into memory the buffer already has. -/
def HOp.inPlace : HOp → Bool
  | .nlUpdate .. => true
  | .dlMerge => true
  | .dlUpdate .. => true
  | .dlInsertSpace .. => true
  | _ => false

/-- One operation on one buffer. -/
def HBase.opStep (m : Mem) (b : HBase) : HOp → Go (Mem × HBase)
  | .writeAt p i => some (b.writeAt m p i)
  | .write p => some (b.write m p)
  | .update off v => some (b.updateU m off v.length v)
  | .c off size src => do
    let (m, w) := m.alloc ⟨src, []⟩
    let b ← b.C off size w
    return (m, b)
  | .copyIn src so size d ext =>
    let (m, w) := m.alloc ⟨src, []⟩
    some (m, b.copy (HBase.new w).R so size d ext)
  | .flatten => some (b.flatten m)
  | .dedup => some (m, b.dedup)
  | .mergeDiffs => some (b.mergeDiffs m)
  | .insertSpace pos size c => some (b.insertSpace m pos size c)
  | .dup => some (b.dup m)
  | .nlUpdate off v => b.nlUpdate m off v
  | .nlInsertSpace pos size c => some (b.nlInsertSpace m pos size c)
  | .dlMerge => b.dlMerge m
  | .dlUpdate off v => b.dlUpdate m off v
  | .dlInsertSpace pos size => b.dlInsertSpace m pos size

/-- The memory and the buffers in it. -/
structure World where
  mem : Mem
  objs : List HBase

/-- Operations on a world. -/
inductive WOp where
  /-- `NewBaseImpl` over a new slice with some spare capacity -/
  | mk (data spare : Bytes)
  /-- operate on buffer `j` -/
  | on (j : Nat) (op : HOp)
  /-- operate on buffer `j`, keeping it and adding the result as a further buffer
  (`insertSpace`, `Dup`, `NewNoLayer`) -/
  | view (j : Nat) (op : HOp)
  /-- `objs[j].Copy(objs[k], srcOff, size, dstOff, extend)`, two different buffers -/
  | copy (j k srcOff size dstOff extend : Nat)

/-- The buffer an operation is performed on. -/
def WOp.target : WOp → Option Nat
  | .on j _ => some j
  | .copy j .. => some j
  | _ => none

def WOp.inPlace : WOp → Bool
  | .on _ op => op.inPlace
  | .view _ op => op.inPlace
  | _ => false

/-- One operation. -/
def World.step (w : World) : WOp → Go World
  | .mk data spare =>
    let (m, s) := w.mem.alloc ⟨data, spare⟩
    some ⟨m, w.objs ++ [HBase.new s]⟩
  | .on j op => do
    let b ← w.objs[j]?
    let (m, b') ← b.opStep w.mem op
    return ⟨m, w.objs.set j b'⟩
  | .view j op => do
    let b ← w.objs[j]?
    let (m, b') ← b.opStep w.mem op
    return ⟨m, w.objs ++ [b']⟩
  | .copy j k so size d ext =>
    if j = k then none
    else do
      let b ← w.objs[j]?
      let s ← w.objs[k]?
      return ⟨w.mem, w.objs.set j (b.copy s.R so size d ext)⟩

/-- A history. -/
def World.run (w : World) : List WOp → Go World
  | [] => some w
  | op :: l => do
    let w ← w.step op
    w.run l

/-- Every buffer is made of slices inside existing arrays. -/
def World.Ok (w : World) : Prop := ∀ b ∈ w.objs, b.Ok w.mem

end Fbs
