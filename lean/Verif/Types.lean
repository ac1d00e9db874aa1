import Verif.Go
/-!
# Type registry and symbol tables (query/base/util.go)

A Go string is a list of characters, one per byte (`s[2:]` drops two bytes; the names that occur are
ASCII).  The package-level maps are fields of an explicit registry.
-/

namespace Fbs

/-- A Go string, one `Char` per byte. -/
abbrev Name := List Char

/-- util.go 20-33: type numbers, in the order of the `iota` block. -/
inductive Ty where
  | bool | byte | int8 | int16 | int32 | int64 | uint8 | uint16 | uint32 | uint64 | float32 | float64
deriving DecidableEq, Repr

/-- util.go 35-45: the `FieldType...` bits. -/
def ftNone : Nat := 1
def ftStruct : Nat := 2
def ftTable : Nat := 4
def ftUnion : Nat := 8
def ftSlice : Nat := 16
def ftBasic1 : Nat := 32
def ftBasic2 : Nat := 64
def ftBasic4 : Nat := 128
def ftBasic8 : Nat := 256
/-- util.go 149. -/
def ftBasic : Nat := 32 ||| 64 ||| 128 ||| 256

/-- util.go 60-85 `NameToType`, including the misspelt keys "unt8"/"Unt8". -/
def nameTable : List (Name × Ty) :=
  [("bool".toList, .bool), ("byte".toList, .byte), ("int8".toList, .int8), ("int16".toList, .int16),
   ("int32".toList, .int32), ("int64".toList, .int64), ("unt8".toList, .uint8), ("uint16".toList, .uint16),
   ("uint32".toList, .uint32), ("uint64".toList, .uint64), ("float32".toList, .float32),
   ("float64".toList, .float64),
   ("Bool".toList, .bool), ("Byte".toList, .byte), ("Int8".toList, .int8), ("Int16".toList, .int16),
   ("Int32".toList, .int32), ("Int64".toList, .int64), ("Unt8".toList, .uint8), ("Uint16".toList, .uint16),
   ("Uint32".toList, .uint32), ("Uint64".toList, .uint64), ("Float32".toList, .float32),
   ("Float64".toList, .float64)]

/-- util.go 127-132 `NameToTypeEnum` (`none` = -1); also the map lookup `NameToType[s]`. -/
def nameToType (s : Name) : Option Ty := nameTable.lookup s

/-- util.go 87-100 `TypeToGroup`. -/
def typeToGroup : Ty → Nat
  | .bool => ftBasic1 | .byte => ftBasic1 | .int8 => ftBasic1 | .int16 => ftBasic2 | .int32 => ftBasic4
  | .int64 => ftBasic8 | .uint8 => ftBasic1 | .uint16 => ftBasic2 | .uint32 => ftBasic4
  | .uint64 => ftBasic8 | .float32 => ftBasic4 | .float64 => ftBasic8

/-- util.go 102-115 `TypeToSize`. -/
def typeToSize : Ty → Nat
  | .bool => 1 | .byte => 1 | .int8 => 1 | .int16 => 2 | .int32 => 4 | .int64 => 8 | .uint8 => 1
  | .uint16 => 2 | .uint32 => 4 | .uint64 => 8 | .float32 => 4 | .float64 => 8

/-- `TypeToSize[NameToTypeEnum(s)]`: a missing key yields 0. -/
def sizeOfName (s : Name) : Nat := ((nameToType s).map typeToSize).getD 0

/-- base.go 326-331 `IsMatchBit` (group numbers are non-negative). -/
def isMatchBit (i j : Nat) : Bool := decide (i &&& j > 0)

/-- util.go 151-172. -/
def isFieldStruct (g : Nat) : Bool := isMatchBit g ftStruct
def isFieldUnion (g : Nat) : Bool := isMatchBit g ftUnion
def isFieldBytes (g : Nat) : Bool := isMatchBit g ftSlice && isMatchBit g ftBasic1
def isFieldSlice (g : Nat) : Bool := isMatchBit g ftSlice
def isFieldTable (g : Nat) : Bool := isMatchBit g ftTable
def isFieldBasicType (g : Nat) : Bool := isMatchBit g ftBasic

/-- The package-level maps filled by generated `init` code: `IsStructName` (util.go 117) and
`UnionAlias` (util.go 174). -/
structure Reg where
  isStruct : Name → Bool := fun _ => false
  unions   : Name → Option (List Name) := fun _ => none

/-- util.go 290-320 `GetTypeGroup`; `none` = panic (`s[2:]` with `len(s) < 2`). -/
def getTypeGroup (r : Reg) (s : Name) : Go Nat :=
  match nameToType s with
  | some t => some (typeToGroup t)
  | none =>
    if (r.unions s).isSome then some ftUnion
    else if s.take 6 = "[]byte".toList then some (ftSlice ||| ftBasic1)
    else
      let result := if s.take 2 = "[]".toList then ftSlice else 0
      if s.length < 2 then none
      else match nameToType (s.drop 2) with
        | some t => some (result ||| typeToGroup t)
        | none => if r.isStruct s then some (result ||| ftStruct) else some (result ||| ftTable)

/-- util.go 119-125 `SetNameIsStrunct(name, true)`. -/
def Reg.setStruct (r : Reg) (n : Name) : Reg := { r with isStruct := fun m => if m = n then true else r.isStruct m }

/-- util.go 176-184 `SetAlias`. -/
def Reg.setAlias (r : Reg) (u a : Name) : Reg :=
  { r with unions := fun m => if m = u then some ((r.unions u).getD [] ++ [a]) else r.unions m }

/-! ## symbols (util.go 200-273) -/

/-- util.go 200-202: `IdxNames` and `Name2Idx`. -/
structure Symbols where
  names : List Name := []
  idx   : Name → Option Nat := fun _ => none

/-- util.go 204-220 `AddName`. -/
def Symbols.add (t : Symbols) (s : Name) : Symbols :=
  match t.idx s with
  | some _ => t
  | none =>
    let names := t.names ++ [s]
    match indexOf (fun x => decide (x = s)) names with
    | none => { t with names := names }
    | some i => { names := names, idx := fun m => if m = s then some i else t.idx m }

/-- util.go 222-228 `Symbol` (-1 when missing). -/
def Symbols.symbol (t : Symbols) (s : Name) : Int :=
  match t.idx s with
  | some i => i
  | none => -1

/-- util.go 230-235 `SymbolToString`. -/
def Symbols.toStr (t : Symbols) (i : Nat) : Name := if i ≥ t.names.length then [] else (t.names[i]?).getD []

/-- Go conversion `uint32(i)`. -/
def u32 (i : Int) : Nat := (i % 4294967296).toNat

/-- util.go 237-246 `NodeFieldSynmbol`.  The test `nidx < 0 || fidx < 0` on `uint32` is never true, so no
error is returned. -/
def Symbols.nodeFieldSymbol (t : Symbols) (node field : Name) : Nat :=
  (u32 (t.symbol node) * 65536 % 4294967296 + u32 (t.symbol field)) % 4294967296

/-- util.go 248-265 `SymbolToNames`; `none` = ERR_INVALID_INDEX. -/
def Symbols.toNames (t : Symbols) (i : Nat) : Option (Name × Name) :=
  let node := t.toStr (i / 65536)
  if node = [] then none
  else
    let field := t.toStr (i - i / 65536 * 65536)
    if field = [] then none else some (node, field)

/-- util.go 267-273. -/
def isSameTable (i j : Nat) : Bool := decide (i / 65536 = j / 65536)
def isSameField (i j : Nat) : Bool := decide (i - i / 65536 * 65536 = j - j / 65536 * 65536)

end Fbs
