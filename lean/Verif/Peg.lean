import Verif.Types
/-!
# The schema parser (fbsparser/fbs.peg, the generated fbs.peg.go, parser.go)

The generated code is a packrat-free PEG recogniser that records tokens; `Execute` then runs the actions of
the tokens of the successful derivation in order, with `text` the most recent captured text.  A rule is
modelled as a function from the remaining characters to `none` (the rule fails, position and tokens are
restored) or the tokens and the remaining characters.  Only text captures and actions are kept as tokens
(the others are ignored by `Execute`).  The end of the list is the end symbol, which no Go string contains.
-/

namespace Fbs.Peg
open Fbs

/-- fbs.peg.go 544-619: the actions of the grammar. -/
inductive Action where
  | setNameSpace | extractStruct (isTable : Bool) | setTypeName | newExtractField | newExtractFieldWithValue
  | fieldName | newUnion | unionName | enumName | setRootType
  | setType (s : Name) | setTypeText | setRepeated (s : Name)
deriving DecidableEq, Repr

inductive Tok where
  | text (s : Name)
  | act (a : Action)
deriving DecidableEq, Repr

abbrev Rule := Name → Option (List Tok × Name)

/-! ## PEG operators (shape of the generated code, fbs.peg.go 626-690) -/

def seq (p q : Rule) : Rule := fun s =>
  match p s with
  | none => none
  | some (a, r) =>
    match q r with
    | none => none
    | some (b, r') => some (a ++ b, r')

def alt (p q : Rule) : Rule := fun s =>
  match p s with
  | some x => some x
  | none => q s

infixr:65 " ⋄ " => seq
infixr:60 " // " => alt

/-- One character of a class. -/
def cls (f : Char → Bool) : Rule
  | [] => none
  | c :: r => if f c then some ([], r) else none

/-- A literal. -/
def lit : Name → Rule
  | [], s => some ([], s)
  | _ :: _, [] => none
  | c :: l, d :: s => if d = c then lit l s else none

def act (a : Action) : Rule := fun s => some ([.act a], s)

/-- `<p>`: captured text. -/
def text (p : Rule) : Rule := fun s =>
  match p s with
  | none => none
  | some (a, r) => some (a ++ [.text (s.take (s.length - r.length))], r)

/-- `p*` with a bound on the number of rounds. -/
def manyN (p : Rule) : Nat → Rule
  | 0, s => some ([], s)
  | n + 1, s =>
    match p s with
    | none => some ([], s)
    | some (a, r) =>
      match manyN p n r with
      | none => none
      | some (b, r') => some (a ++ b, r')

/-- `p*`.  Every repeated rule of the grammar consumes a character, so as many rounds as characters
suffice. -/
def many (p : Rule) : Rule := fun s => manyN p s.length s

/-- `p+` -/
def many1 (p : Rule) : Rule := p ⋄ many p

/-- `!p` -/
def notP (p : Rule) : Rule := fun s =>
  match p s with
  | none => some ([], s)
  | some _ => none

def anyC : Rule := cls fun _ => true

def isDigit (c : Char) : Bool := '0' ≤ c && c ≤ '9'
/-- fbs.peg 104: `[a-zA-Z_]` -/
def isIdent0 (c : Char) : Bool := ('a' ≤ c && c ≤ 'z') || ('A' ≤ c && c ≤ 'Z') || c = '_'
/-- fbs.peg 104: `[a-zA-Z0-9_]` -/
def isIdent (c : Char) : Bool := isIdent0 c || isDigit c
/-- fbs.peg 25, 61: `[A-z0-9_.\-]` -/
def isPath (c : Char) : Bool := ('A' ≤ c && c ≤ 'z') || isDigit c || c = '_' || c = '.' || c = '-'

/-! ## the grammar -/

/-- fbs.peg 114 -/
def endOfLine : Rule := lit ['\r', '\n'] // lit ['\n'] // lit ['\r']
/-- fbs.peg 113 -/
def space : Rule := lit [' '] // lit ['\t'] // endOfLine
/-- fbs.peg 112 -/
def comment : Rule := lit ['/', '/'] ⋄ many (notP endOfLine ⋄ anyC) ⋄ endOfLine
/-- fbs.peg 111 -/
def spaceComment : Rule := space // comment
/-- fbs.peg 110 -/
def spacing : Rule := many spaceComment
/-- fbs.peg 104 -/
def ident : Rule := text (cls isIdent0 ⋄ many (cls isIdent))
/-- fbs.peg 115 -/
def endOfFile : Rule := notP anyC
/-- fbs.peg 109 -/
def onlyComment : Rule := spacing ⋄ lit [';']
/-- `<[^c]*>` -/
def until0 (c : Char) : Rule := text (many (cls (· ≠ c)))
/-- `<[^c]+>` -/
def until1 (c : Char) : Rule := text (many1 (cls (· ≠ c)))
/-- fbs.peg 37 -/
def metadata : Rule := lit ['('] ⋄ until0 ')' ⋄ lit [')']
/-- fbs.peg 41: `<[ \t]*>` -/
def blanks : Rule := text (many (cls fun c => c = ' ' || c = '\t'))
/-- fbs.peg 98 -/
def integerConstant : Rule := text (many1 (cls isDigit)) // lit "true".toList // lit "false".toList
/-- fbs.peg 102, as generated (fbs.peg.go 3367): the last class is what the generator made of
`<[+-]> <[0-9]+>` -/
def floatConstantExp : Rule :=
  text (many (cls (· = '-')) ⋄ many1 (cls isDigit) ⋄ anyC ⋄ many1 (cls isDigit)) ⋄
  text (cls (· = 'e') // cls (· = 'E')) ⋄
  text (many1 (cls fun c => ('+' ≤ c && c ≤ ']') || c = ' '))
/-- fbs.peg 100 -/
def floatConstant : Rule :=
  text (many (cls (· = '-')) ⋄ many1 (cls isDigit) ⋄ anyC ⋄ cls isDigit) // floatConstantExp
/-- fbs.peg 96 -/
def scalar : Rule := integerConstant // floatConstant

/-- fbs.peg 71-91: the built-in type names in the order of the alternatives, with the Go name they set. -/
def basicNames : List (Name × Name) :=
  [("bool".toList, "bool".toList), ("int8".toList, "int8".toList), ("uint8".toList, "uint8".toList),
   ("int16".toList, "int16".toList), ("uint16".toList, "uint16".toList), ("int32".toList, "int32".toList),
   ("uint32".toList, "uint32".toList), ("int64".toList, "int64".toList), ("uint64".toList, "uint64".toList),
   ("float32".toList, "float32".toList), ("float64".toList, "float64".toList), ("byte".toList, "uint8".toList),
   ("ubyte".toList, "uint8".toList), ("short".toList, "int16".toList), ("ushort".toList, "uint16".toList),
   ("int".toList, "int32".toList), ("uint".toList, "uint32".toList), ("float".toList, "float".toList),
   ("long".toList, "int64".toList), ("ulong".toList, "uint64".toList), ("double".toList, "float64".toList)]

/-- fbs.peg 71-91 -/
def basicType : List (Name × Name) → Rule
  | [] => fun _ => none
  | (kw, go) :: l => (lit kw ⋄ spacing ⋄ act (.setType go)) // basicType l

/-- fbs.peg 71-94; the number bounds the nesting of `[`. -/
def typeN : Nat → Rule
  | 0 => fun _ => none
  | n + 1 =>
    basicType basicNames //
    (lit "string".toList ⋄ spacing ⋄ act (.setRepeated "byte".toList)) //
    (ident ⋄ spacing ⋄ act .setTypeText) //
    (lit ['['] ⋄ typeN n ⋄ lit [']'] ⋄ spacing ⋄ act (.setRepeated []))

/-- fbs.peg 71-94 `type` -/
def type : Rule := fun s => typeN (s.length + 1) s

/-- fbs.peg 43 -/
def fieldType : Rule := ident ⋄ act .fieldName
/-- fbs.peg 40-41 -/
def fieldDecl : Rule :=
  (spacing ⋄ fieldType ⋄ lit [':'] ⋄ type ⋄ many metadata ⋄ lit [';'] ⋄ spacing ⋄ act .newExtractField) //
  (spacing ⋄ fieldType ⋄ lit [':'] ⋄ type ⋄ blanks ⋄ lit ['='] ⋄ blanks ⋄ scalar ⋄ many metadata ⋄ lit [';'] ⋄
    spacing ⋄ act .newExtractFieldWithValue)
/-- fbs.peg 35 -/
def typename : Rule := ident ⋄ act .setTypeName
/-- fbs.peg 31, 33 -/
def structBody (kw : Name) (isTable : Bool) : Rule :=
  lit kw ⋄ spacing ⋄ typename ⋄ spacing ⋄ many metadata ⋄ lit ['{'] ⋄ many1 fieldDecl ⋄ lit ['}'] ⋄ spacing ⋄
    act (.extractStruct isTable)
/-- fbs.peg 29 -/
def typeDecl : Rule := structBody "struct".toList false // structBody "table".toList true
/-- fbs.peg 59 -/
def enumFieldType : Rule := ident ⋄ act .enumName
/-- fbs.peg 56-57 -/
def enumField : Rule :=
  (enumFieldType ⋄ spacing ⋄ act .newExtractField) //
  (enumFieldType ⋄ spacing ⋄ lit ['='] ⋄ spacing ⋄ integerConstant ⋄ spacing)
/-- fbs.peg 48-49 -/
def enumFields : Rule := (spacing ⋄ enumField ⋄ lit [',']) // (spacing ⋄ enumField)
/-- fbs.peg 45-46 -/
def enumDecl : Rule :=
  (lit "enum".toList ⋄ spacing ⋄ ident ⋄ spacing ⋄ many metadata ⋄ lit ['{'] ⋄ enumFields ⋄ lit ['}'] ⋄ spacing) //
  (lit "enum".toList ⋄ spacing ⋄ ident ⋄ lit [':'] ⋄ type ⋄ spacing ⋄ many metadata ⋄ lit ['{'] ⋄ enumFields ⋄
    lit ['}'] ⋄ spacing)
/-- fbs.peg 54 -/
def unionName : Rule := ident ⋄ act .unionName
/-- fbs.peg 52 -/
def unionDecl : Rule :=
  lit "union".toList ⋄ spacing ⋄ unionName ⋄ spacing ⋄ many metadata ⋄ lit ['{'] ⋄ many1 enumFields ⋄ lit ['}'] ⋄
    spacing ⋄ act .newUnion
/-- fbs.peg 25 -/
def namespaceDecl : Rule :=
  lit "namespace".toList ⋄ spacing ⋄ text (many1 (cls isPath)) ⋄ act .setNameSpace ⋄ lit [';'] ⋄ spacing
/-- fbs.peg 61 -/
def rootDecl : Rule :=
  lit "root_type".toList ⋄ spacing ⋄ text (many1 (cls isPath)) ⋄ act .setRootType ⋄ lit [';'] ⋄ spacing
/-- fbs.peg 63 -/
def fileExtensionDecl : Rule := lit "file_extension".toList ⋄ blanks ⋄ until1 ';' ⋄ lit [';'] ⋄ spacing
/-- fbs.peg 65 -/
def fileIdentifierDecl : Rule := lit "file_identifier".toList ⋄ blanks ⋄ until1 ';' ⋄ lit [';'] ⋄ spacing
/-- fbs.peg 67 -/
def attributeDecl : Rule := lit "attribute".toList ⋄ blanks ⋄ until1 ';' ⋄ lit [';'] ⋄ spacing
/-- fbs.peg 69 -/
def rpcDecl : Rule := lit "rpc_service".toList ⋄ blanks ⋄ ident ⋄ lit ['{'] ⋄ until1 '}' ⋄ lit ['}'] ⋄ spacing
/-- fbs.peg 27 -/
def includeDecl : Rule := lit "include".toList ⋄ spacing ⋄ ident ⋄ comment ⋄ lit [';'] ⋄ spacing
/-- fbs.peg 13-22 -/
def statement : Rule :=
  namespaceDecl // unionDecl // typeDecl // enumDecl // rootDecl // fileExtensionDecl // fileIdentifierDecl //
    attributeDecl // rpcDecl // onlyComment
/-- fbs.peg 9-11 -/
def schema : Rule :=
  (includeDecl ⋄ endOfFile) // (includeDecl ⋄ many1 statement ⋄ endOfFile) // (many1 statement ⋄ endOfFile)

/-! ## actions (parser.go) -/

/-- loncha `structer.FieldInfo` (name and type) -/
structure Field where
  name : Name
  type : Name
deriving DecidableEq, Repr

/-- parser.go 11-18 `StructInfo` (the `Is*` maps are not read by the generator). -/
structure StructInfo where
  pkg     : Name
  name    : Name
  isTable : Bool
  fields  : List Field
deriving DecidableEq, Repr

/-- parser.go 36-40 `Union` -/
structure Union where
  pkg     : Name
  name    : Name
  aliases : List Name
deriving DecidableEq, Repr

/-- parser.go 20-34 `Fbs` -/
structure FbsSt where
  nameSpace : Name := []
  typeName  : Name := []
  rootType  : Name := []
  structs   : List StructInfo := []
  unions    : List Union := []
  fields    : List Field := []
  fname     : Name := []
  fvalue    : Name := []
  uName     : Name := []
deriving DecidableEq, Repr

/-- Go `strings.Split(s, "_")` (never empty). -/
def splitU : Name → List Name
  | [] => [[]]
  | c :: l =>
    if c = '_' then [] :: splitU l
    else
      match splitU l with
      | [] => [[c]]
      | w :: ws => (c :: w) :: ws

/-- parser.go 215-217: lower the word and raise its first letter; `w[0]` panics on the empty word. -/
def capitalize (w : Name) : Go Name :=
  match w.map Char.toLower with
  | [] => none
  | c :: l => some (c.toUpper :: l)

/-- The words in turn. -/
def capAll : List Name → Go (List Name)
  | [] => some []
  | w :: ws =>
    match capitalize w with
    | none => none
    | some x =>
      match capAll ws with
      | none => none
      | some xs => some (x :: xs)

/-- parser.go 212-220 `toCamelCase` (ASCII letters: identifiers of the grammar are ASCII). -/
def toCamelCase (s : Name) : Go Name := (capAll (splitU s)).map List.flatten

/-- parser.go 131-210: one action; `text` is the captured text. -/
def FbsSt.run (st : FbsSt) (text : Name) : Action → Go FbsSt
  | .setNameSpace => some { st with nameSpace := text }
  | .setRootType => some { st with rootType := text }
  | .extractStruct isTable =>
    some { st with structs := st.structs ++ [⟨st.nameSpace, st.typeName, isTable, st.fields⟩], fields := [] }
  | .setTypeName => some { st with typeName := text }
  | .fieldName => (toCamelCase text).map fun n => { st with fname := n }
  | .enumName => some { st with fname := text }
  | .setType s => some { st with fvalue := s }
  | .setTypeText => some { st with fvalue := text }
  | .newExtractField => some { st with fields := st.fields ++ [⟨st.fname, st.fvalue⟩] }
  | .newExtractFieldWithValue => some { st with fields := st.fields ++ [⟨st.fname, st.fvalue⟩] }
  | .setRepeated s => some { st with fvalue := "[]".toList ++ (if s = [] then st.fvalue else s) }
  | .unionName => some { st with uName := text }
  | .newUnion =>
    some { st with unions := st.unions ++ [⟨st.nameSpace, st.uName, st.fields.map Field.name⟩], fields := [] }

/-- fbs.peg.go 539-624 `Execute`: the state and the captured text are threaded through the tokens. -/
def exec : FbsSt × Name → List Tok → Go (FbsSt × Name)
  | x, [] => some x
  | (st, _), .text s :: l => exec (st, s) l
  | (st, t), .act a :: l =>
    match st.run t a with
    | none => none
    | some st' => exec (st', t) l

/-- `Parse` followed by `Execute` on a fresh parser: `none` is a parse error or a panic. -/
def parseSchema (s : Name) : Go FbsSt :=
  match schema s with
  | none => none
  | some (toks, _) => (exec ({}, []) toks).map Prod.fst

/-- parser.go 48-65 `isUnion` -/
def FbsSt.isUnion (st : FbsSt) (s : Name) : Bool := st.unions.any fun u => u.name = s

/-- ASCII `strings.ToUpper(s) == s` -/
def isUpperStr (s : Name) : Bool := s.map Char.toUpper = s

/-- parser.go 96-124: the new fields for one field; the slices `ftype[:2]`, `ftype[:3]` panic on short
names. -/
def finField (st : FbsSt) (f : Field) : Go (List Field) :=
  if f.type.length < 2 then none
  else if f.type.take 2 = "[]".toList then
    if f.type.length < 3 then none else some [f]
  else if isUpperStr (f.type.take 1) then
    if st.isUnion f.type then some [⟨f.name ++ "Type".toList, "byte".toList⟩, f] else some [f]
  else some [f]

/-- parser.go 96-124 -/
def finFields (st : FbsSt) : List Field → Go (List Field)
  | [] => some []
  | f :: fs =>
    match finField st f with
    | none => none
    | some a =>
      match finFields st fs with
      | none => none
      | some b => some (a ++ b)

/-- parser.go 93-127 -/
def finStructs (st : FbsSt) : List StructInfo → Go (List StructInfo)
  | [] => some []
  | s :: ss =>
    match finFields st s.fields with
    | none => none
    | some a =>
      match finStructs st ss with
      | none => none
      | some b => some ({ s with fields := a } :: b)

/-- parser.go 92-129 `FinilizeForFbs`; `SearchNotTableMessage` (67-90) only sets entries of a map that the
generator does not read; its own slicing cannot panic after the first loop except on the type `[]`,
which `SetRepeated` cannot produce. -/
def FbsSt.finalize (st : FbsSt) : Go FbsSt :=
  match finStructs st st.structs with
  | none => none
  | some ss => some { st with structs := ss }

end Fbs.Peg
