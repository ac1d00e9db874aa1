import Verif.Stream
import Verif.NodeEdit
import Verif.Access
/-!
# Reading a message that lies in a stream (query/base/common.go 344-358 `Open`)

The accessors of nodes, written so that they can be run on any buffer: as programs that read.  A read of a stream buffer
changes the buffer (it loads), so the buffer is handed on from read to read.

Simplifications: those of `Node` (but for the reader) and of `Stream`; a program sees of the slice returned by `R` only
what it uses of it.
-/

namespace Fbs

/-- A program that reads a buffer. -/
inductive Rd (α : Type) where
  | ret (a : α)
  | panic
  /-- `R(pos, Size(req))`, of the result of which the first `want` bytes are looked at (fewer if there are fewer) -/
  | read (pos : Int) (req want : Nat) (k : Bytes → Rd α)
  /-- `ShouldCheckBound() && LenBuf() <= x` -/
  | past (x : Int) (k : Bool → Rd α)

namespace Rd

def bind {α β : Type} : Rd α → (α → Rd β) → Rd β
  | ret a, f => f a
  | panic, _ => panic
  | read p r w k, f => read p r w fun d => (k d).bind f
  | past x k, f => past x fun b => (k b).bind f

instance : Monad Rd where
  pure := ret
  bind := bind

/-- On a buffer in memory. -/
def runM {α : Type} (b : Base) : Rd α → Go α
  | ret a => some a
  | panic => none
  | read pos req want k => do
    let s ← b.Ri pos req
    runM b (k (s.data.take want))
  | past x k => runM b (k (decide ((b.lenBuf : Int) ≤ x)))

/-- On a buffer over a stream; `bound` is `checkBoundary` (false after `Next`, base.go 524). -/
def runS {α : Type} (fuel : Nat) (bound : Bool) : Rd α → SBase → Option (SBase × α)
  | ret a, b => some (b, a)
  | panic, _ => none
  | read pos req want k, b =>
    if pos < 0 then none
    else match b.R fuel pos.toNat req with
      | none => none
      | some (b, d) => runS fuel bound (k (d.take want)) b
  | past x k, b => runS fuel bound (k (bound && decide ((b.lenBuf : Int) ≤ x))) b

/-- A computation that reads nothing. -/
def ofGo {α : Type} : Go α → Rd α
  | some a => ret a
  | none => panic

end Rd

/-- A `CNode` without the buffer. -/
structure SHand where
  name : Name
  pos  : Nat
  size : Int := -1
  tlen : Nat := 0
  vi   : VInfo := {}

/-- The node on a buffer in memory. -/
def SHand.on (h : SHand) (b : Base) : CNode := { name := h.name, io := b, pos := h.pos, size := h.size, tlen := h.tlen, vi := h.vi }

namespace SHand

/-- `flatbuffers.GetUintN(R(pos, Size(k)))`. -/
def getN (k : Nat) (pos : Int) : Rd Nat := .read pos k k fun d => match getLE k d with
  | some v => .ret v
  | none => .panic

/-- node.go 69-76: every entry is read twice. -/
def preLoop (cur : Int) : Nat → Rd Unit
  | 0 => .ret ()
  | n + 1 => .read cur 2 2 fun d =>
    if d.length < 2 then .panic
    else do
      let _ ← getN 2 cur
      preLoop (cur + 2) n

/-- node.go 62-77 `preLoadVtable`. -/
def preLoad (pos : Nat) : Rd Nat := do
  let vOffset ← getN 4 pos
  let vPos : Int := (pos : Int) - vOffset
  let vLen ← getN 2 vPos
  let tLen ← getN 2 (vPos + 2)
  preLoop (vPos + 4) ((vLen - 3) / 2)
  return tLen

/-- node.go 45-56 `NewNode`. -/
def newNode (name : Name) (pos : Nat) : Rd SHand := do
  let t ← preLoad pos
  return { name := name, pos := pos, tlen := t }

/-- common.go 344-358 `Open` (the capacity given is ignored: 352 takes 512) and 361-375 `OpenByBuf`, as far as they read. -/
def openRoot (root : Name) : Rd SHand := do
  let off ← getN 4 0
  newNode root off

/-- node.go 317-332 `VirtualTable`; an entry that is 0 is read twice (327). -/
def vtab (h : SHand) (idx : Int) : Rd Nat := do
  let voff ← getN 4 h.pos
  let vPos : Int := (h.pos : Int) - voff
  .past (vPos + 4 + idx * 2) fun out =>
    if out then .ret h.pos
    else do
      let tOffset ← getN 2 (vPos + 4 + idx * 2)
      if tOffset = 0 then
        let _ ← getN 2 (vPos + 4 + idx * 2)
        return h.pos + tOffset
      else return h.pos + tOffset

/-- node.go 311-314 `VirtualTableIsZero`. -/
def isZero (h : SHand) (idx : Int) : Rd Bool := do
  let p ← h.vtab idx
  return p == h.pos

/-- node.go 347-353 `Table`. -/
def table (h : SHand) (idx : Int) : Rd Int := do
  let pos ← h.vtab idx
  if ← h.isZero idx then return -1
  let off ← getN 4 pos
  return (pos : Int) + off

/-- node.go 114-130 `ValueInfoPosList`. -/
def infoPosList (h : SHand) (idx : Int) : Rd VInfo := do
  let vPos ← h.vtab idx
  if ← h.isZero idx then return {}
  let vLenOff ← getN 4 vPos
  let vLen ← getN 4 (vPos + vLenOff)
  return { pos := vPos + vLenOff + 4, size := 0, vlen := vLen }

def fieldT (s : Sch) (h : SHand) (idx : Int) : FieldT :=
  if idx < 0 then ⟨[], 0, none⟩ else ((s.fields h.name)[idx.toNat]?).getD ⟨[], 0, none⟩

/-- common.go 232-307 `FieldAt`. -/
def fieldAt (s : Sch) (h : SHand) (idx : Int) : Rd (Option SHand) := do
  let f := h.fieldT s idx
  if s.isStruct h.name then
    return some { name := f.tname, pos := h.pos + sumSize ((s.fields h.name).take idx.toNat) }
  if ← h.isZero idx then return none
  if isFieldStruct f.grp then
    let p ← h.vtab idx
    return some { name := f.tname, pos := p }
  else if isFieldUnion f.grp then
    let p ← h.table idx
    if p < 0 then .panic
    else
      let n ← newNode f.tname p.toNat
      return some n
  else if isFieldBytes f.grp then
    let v ← h.infoPosList idx
    return some { name := f.tname, pos := v.pos.toNat, size := v.vlen, vi := { pos := v.pos, size := v.vlen, vlen := v.vlen } }
  else if isFieldSlice f.grp then
    let v ← h.infoPosList idx
    let n ← newNode f.tname h.pos
    return some { n with vi := v }
  else if isFieldTable f.grp then
    let p ← h.table idx
    if p < 0 then .panic
    else
      let n ← newNode f.tname p.toNat
      return some n
  else if isFieldBasicType f.grp then
    let p ← h.vtab idx
    return some { name := f.tname, pos := p, size := f.size }
  else return none

/-- node.go 207-301: the scalar accessors of width `k`, other than `Int8`. -/
def scalar (k : Nat) : Option SHand → Rd Nat
  | none => .ret 0
  | some h => getN k h.pos

/-- node.go 255-261 `Int8`: the read has no size. -/
def int8 : Option SHand → Rd Nat
  | none => .ret 0
  | some h => .read h.pos 0 1 fun d => match getLE 1 d with
    | some v => .ret v
    | none => .panic

/-- node.go 303-308 `Bytes`, where the spare capacity of the slice does not help. -/
def bytes : Option SHand → Rd Bytes
  | none => .ret []
  | some h =>
    if h.size < 0 then .panic
    else .read h.pos h.size.toNat h.size.toNat fun d => if d.length < h.size.toNat then .panic else .ret d

/-- common.go 130-152 `FollowUnion`. -/
def followUnion (s : Sch) (h : SHand) (idx : Int) : Rd (Option (Name × Option SHand)) := do
  let f ← h.fieldAt s (idx - 1)
  let t ← scalar 1 f
  let k := (t + 255) % 256
  match ((s.unions (h.fieldT s idx).tname).getD [])[k]? with
  | none => return none
  | some alias_ =>
    let u ← h.fieldAt s idx
    return some (alias_, u.map fun n => { n with name := alias_ })

/-- list.go 390-392 `VLen`, 1064-1068 `Count`. -/
def listLen (h : SHand) : Rd Nat := getN 4 (h.vi.pos - 4)

/-- list.go 323-328. -/
def atTable (t : Name) (ptr : Int) : Rd (Except Err SHand) := do
  let off ← getN 4 ptr
  let nPos : Int := ptr + off
  .read nPos 4 4 fun d =>
    if d.length = 0 then .ret (.error .notFound)
    else do
      let n ← newNode t nPos.toNat
      return .ok n

/-- common.go 318-331 `IsList`. -/
def isList (h : SHand) : Go Bool :=
  if h.name = [] ∧ h.vi.vlen > 0 then some true
  else if h.name.length < 2 then none
  else some (decide (h.name.take 2 = "[]".toList))

/-- list.go 280-342 `At`. -/
def at_ (s : Sch) (h : SHand) (i : Int) : Rd (Except Err SHand) := do
  if !(← Rd.ofGo h.isList) then return .error .noSupport
  let n ← h.listLen
  if i ≥ n ∨ i < 0 then return .error .invalidIndex
  if h.name.length < 2 then .panic
  else
    let tName := h.name.drop 2
    let g ← Rd.ofGo (getTypeGroup s.toReg tName)
    if isFieldBasicType g || isFieldStruct g then
      let size ← Rd.ofGo (CNode.directSize s tName)
      let size ← Rd.ofGo size
      let ptr := if i > 0 then h.vi.pos + i * size else h.vi.pos + i * 4
      if ptr < 0 then .panic
      else return .ok { name := tName, pos := ptr.toNat }
    else atTable tName (h.vi.pos + i * 4)

/-- The width of a number: that of the field, or of the type. -/
def width (h : SHand) : Nat := if 0 ≤ h.size then h.size.toNat else sizeOfName h.name

end SHand

/-- Calls on the nodes obtained so far, the first of which is the root.  The accessors of generated code are typed: calls that
do not fit the type of the node are not programs (here: they panic). -/
inductive Call where
  /-- `nodes[x].FieldAt(i)` -/
  | field (x i : Nat)
  /-- `nodes[x].FollowUnion(i)` -/
  | union (x i : Nat)
  /-- `nodes[x].At(j)` -/
  | elem (x : Nat) (j : Int)
  /-- `nodes[x].Count()` -/
  | count (x : Nat)
  /-- the number, by the accessor of its type -/
  | num (x : Nat)
  /-- `nodes[x].Bytes()` -/
  | str (x : Nat)

/-- What is seen. -/
inductive Seen where
  | num (n : Nat)
  | str (d : Bytes)
  | node (there : Bool)
deriving DecidableEq, Repr

/-- The node a call is made on: `none` if there is none, or it is nil. -/
def nodeOf (env : List (Option SHand)) (x : Nat) : Option SHand := (env[x]?).join

def runCalls (s : Sch) : List Call → List (Option SHand) → Rd (List Seen)
  | [], _ => .ret []
  | .field x i :: l, env => match nodeOf env x with
    | none => .panic
    | some h =>
      if i < (s.fields h.name).length then do
        let r ← h.fieldAt s i
        let t ← runCalls s l (env ++ [r])
        return .node r.isSome :: t
      else .panic
  | .union x i :: l, env => match nodeOf env x with
    | none => .panic
    | some h =>
      if 0 < i ∧ i < (s.fields h.name).length ∧ (h.fieldT s i).grp = ftUnion then do
        let r ← h.followUnion s i
        let u := r.bind (·.2)
        let t ← runCalls s l (env ++ [u])
        return .node u.isSome :: t
      else .panic
  | .elem x j :: l, env => match nodeOf env x with
    | none => .panic
    | some h =>
      if h.name.take 2 = "[]".toList ∧ h.name ≠ "[]byte".toList then do
        let r ← h.at_ s j
        let e := match r with
          | .ok e => some e
          | .error _ => none
        let t ← runCalls s l (env ++ [e])
        return .node e.isSome :: t
      else .panic
  | .count x :: l, env => match nodeOf env x with
    | none => .panic
    | some h =>
      if h.name.take 2 = "[]".toList ∧ h.name ≠ "[]byte".toList then do
        let n ← h.listLen
        let t ← runCalls s l env
        return .num n :: t
      else .panic
  | .num x :: l, env => match nodeOf env x with
    | none => .panic
    | some h =>
      if h.name.take 2 ≠ "[]".toList ∧ 0 < h.width then do
        let n ← if h.name = "Int8".toList then SHand.int8 (some h) else SHand.scalar h.width (some h)
        let t ← runCalls s l env
        return .num n :: t
      else .panic
  | .str x :: l, env => match nodeOf env x with
    | none => .panic
    | some h =>
      if h.name = "[]byte".toList then do
        let d ← SHand.bytes (some h)
        let t ← runCalls s l env
        return .str d :: t
      else .panic

/-- A message opened, and calls. -/
def openCalls (s : Sch) (root : Name) (l : List Call) : Rd (List Seen) := do
  let h ← SHand.openRoot root
  runCalls s l [some h]

end Fbs
