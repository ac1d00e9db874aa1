import Verif.Props.Deep
import Verif.Props.EditIn
/-!
# Editing opened messages: lists of tables, orders of settings, tables that share a virtual table (C97)
-/
namespace Fbs.Props
open Fbs CNode

/-- A root `RR` with a list of tables `TT { a: int32; b: int32; n: SS; }`, each with a table `SS { x: int32; }`. -/
def rowSch : Sch where
  fields := fun n =>
    if n = "RR".toList then [⟨"[]TT".toList, ftSlice ||| ftTable, none⟩]
    else if n = "TT".toList then [⟨"Int32".toList, ftBasic4, some .int32⟩, ⟨"Int32".toList, ftBasic4, some .int32⟩, ⟨"SS".toList, ftTable, none⟩]
    else if n = "SS".toList then [⟨"Int32".toList, ftBasic4, some .int32⟩]
    else []
  root := "RR".toList

def rowNum (i n : Nat) : Setting := ⟨i, CNode.fromScalar "Int32".toList 4 n, putLE 4 n⟩

def rowElem (a x : Nat) : Val := .tab "TT".toList [rowNum 0 a] (.table 2 false (.tab "SS".toList [rowNum 0 x] .none [])) []

def rowVal : Val := .tab "RR".toList [] (.list 0 false "TT".toList (.cons false (rowElem 1 11) (.cons false (rowElem 2 22) (.cons false (rowElem 3 33) .nil)))) []

/-- The numbers of all elements. -/
def rowRead (r : CNode) : Option (List (List (Option Nat))) := do
  let l ← r.fieldAt rowSch (0 : Nat)
  let l ← l
  let es ← l.all rowSch
  es.mapM fun e => do
    let a ← e.fieldAt rowSch (0 : Nat)
    let b ← e.fieldAt rowSch (1 : Nat)
    let n ← e.fieldAt rowSch (2 : Nat)
    let x ← (match n with | none => some none | some n => n.fieldAt rowSch (0 : Nat))
    return [CNode.scalar 4 a, CNode.scalar 4 b, CNode.scalar 4 x]

/-- Open a message, set the second number of an element to 7, save it: the numbers before and after. -/
def rowEdit (d : Bytes) (i : Nat) : Option (List (List (Option Nat)) × Bool × List (List (Option Nat))) := do
  let r ← CNode.openByBuf "RR".toList ⟨d, []⟩
  let x ← rowRead r
  let l ← r.fieldAt rowSch (0 : Nat)
  let l ← l
  let es ← l.all rowSch
  let e ← es[i]?
  let (e, er) ← e.setFieldAt rowSch 9 1 (CNode.fromScalar "Int32".toList 4 7)
  let d ← e.finish
  let r' ← CNode.openByBuf "RR".toList ⟨d, []⟩
  let y ← rowRead r'
  return (x, er.isNone, y)

/-- The same for the message made from the value. -/
def rowTry (i : Nat) : Option (List (List (Option Nat)) × Bool × List (List (Option Nat))) := do
  let c ← rowVal.node rowSch 20
  let d ← c.finish
  rowEdit d i

/-! A field of any element of the list is set: every field of every element reads what it should. -/

example : rowTry 0 = some ([[some 1, some 0, some 11], [some 2, some 0, some 22], [some 3, some 0, some 33]], true,
    [[some 1, some 7, some 11], [some 2, some 0, some 22], [some 3, some 0, some 33]]) := by decide +kernel

example : rowTry 1 = some ([[some 1, some 0, some 11], [some 2, some 0, some 22], [some 3, some 0, some 33]], true,
    [[some 1, some 0, some 11], [some 2, some 7, some 22], [some 3, some 0, some 33]]) := by decide +kernel

example : rowTry 2 = some ([[some 1, some 0, some 11], [some 2, some 0, some 22], [some 3, some 0, some 33]], true,
    [[some 1, some 0, some 11], [some 2, some 0, some 22], [some 3, some 7, some 33]]) := by decide +kernel

/-- A message of two elements that share a virtual table, as other flatbuffers programs write it. -/
def sharedBytes : Bytes := [14, 0, 0, 0, 0, 0, 0, 0,  6, 0, 8, 0, 4, 0,  6, 0, 0, 0, 4, 0, 0, 0,
  2, 0, 0, 0, 18, 0, 0, 0, 22, 0, 0, 0,  10, 0, 8, 0, 4, 0, 0, 0, 0, 0,  10, 0, 0, 0, 1, 0, 0, 0,  18, 0, 0, 0, 2, 0, 0, 0]

/-- C97 is violated by tables that share a virtual table: with a field of the first set, nothing of the second is found
any more (its virtual table is looked for 4 bytes too late); with a field of the second set, the first has it too. -/
theorem edit_shared_fails :
    rowEdit sharedBytes 0 = some ([[some 1, some 0, some 0], [some 2, some 0, some 0]], true, [[some 1, some 7, some 0], [some 0, none, some 0]]) ∧
    rowEdit sharedBytes 1 = some ([[some 1, some 0, some 0], [some 2, some 0, some 0]], true, [[some 1, some 18, some 0], [some 2, some 7, some 0]]) :=
  ⟨by decide +kernel, by decide +kernel⟩

/-! ## the order of settings -/

/-- A root of three numbers and a byte vector. -/
def vecSch : Sch where
  fields := fun n =>
    if n = "RR".toList then [⟨"Int32".toList, ftBasic4, some .int32⟩, ⟨"Int32".toList, ftBasic4, some .int32⟩, ⟨"Int32".toList, ftBasic4, some .int32⟩,
      ⟨"[]byte".toList, ftSlice ||| ftBasic1, none⟩]
    else []
  root := "RR".toList

/-- The numbers and the bytes of a root. -/
def vecRead (r : CNode) : Option (List (Option Nat) × Option Bytes) := do
  let l ← (List.range 3).mapM (fun (i : Nat) => do
    match ← r.fieldAt vecSch i with
    | none => return none
    | some f => return ← CNode.scalar 4 (some f))
  let f ← r.fieldAt vecSch (3 : Nat)
  return (l, CNode.bytes f)

/-- A message with the first two numbers and eight bytes is opened and set: what the root reads, then and after saving. -/
def vecEdit (ops : List Setting) : Option ((List (Option Nat) × Option Bytes) × (List (Option Nat) × Option Bytes)) := do
  let c ← build vecSch 9 "RR".toList ([rowNum 0 1, rowNum 1 2, ⟨3, fromBytes [65, 66, 67, 68, 69, 70, 71, 72], []⟩])
  let d ← c.finish
  let r ← CNode.openByBuf "RR".toList ⟨d, []⟩
  let r ← runSets vecSch 9 r ops
  let x ← vecRead r
  let d ← r.finish
  let r ← CNode.openByBuf "RR".toList ⟨d, []⟩
  let y ← vecRead r
  return (x, y)

/-- The third number first, then the other two: all is as set. -/
example : vecEdit [rowNum 2 3, rowNum 0 7, rowNum 1 8] = some (([some 7, some 8, some 3], some [65, 66, 67, 68, 69, 70, 71, 72]),
    ([some 7, some 8, some 3], some [65, 66, 67, 68, 69, 70, 71, 72])) := by decide +kernel

/-- C97 is violated: with the two numbers that are there set before the one that is not, reading the vector, which was not
touched, panics. -/
theorem edit_order_fails : vecEdit [rowNum 0 7, rowNum 1 8, rowNum 2 3] = some (([some 7, some 8, some 3], none), ([some 7, some 8, some 3], none)) := by
  decide +kernel

end Fbs.Props
