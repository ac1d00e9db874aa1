import Verif.GenCmd
/-!
# The recogniser with its array of tokens (fbsparser/fbs.peg.go)

`Verif.Peg` models a rule as a function that either fails or returns the tokens of its derivation.  The generated
code works on three variables: the position, an array of tokens and the index of the next token.  `add` stores a
token at the index; a rule, a choice, a repetition or a `!` that fails sets position and index back, but the
array keeps what was stored.  After a successful `Parse` the array is cut at the index; after a failed one it is
not, and `Execute` runs the actions of everything stored.  Here every combinator does what the generated code
does.  The names of rule tokens are not kept (`Execute` ignores them), nor are `depth` and `max`, which only
serve error messages and printing.  The array grows on demand and its unused part holds zero tokens, which
`Execute` ignores: the array is the list of the tokens stored so far.
-/

namespace Fbs.Peg.Tape
open Fbs Fbs.Peg

/-- A stored token: a rule, a captured text or an action. -/
inductive TTok where
  | rule
  | text (s : Name)
  | act (a : Action)
deriving DecidableEq, Repr

/-- fbs.peg.go 634: `position`, `tree` and `tokenIndex`. -/
structure TSt where
  rest : Name
  tape : List TTok := []
  idx  : Nat := 0
deriving DecidableEq, Repr

/-- A rule of the generated code: its result and the variables afterwards. -/
abbrev TRule := TSt → Bool × TSt

/-- fbs.peg.go 422-424 and 654-661 `Add`, `add`. -/
def add (t : TTok) (st : TSt) : TSt :=
  { st with tape := st.tape.take st.idx ++ t :: st.tape.drop (st.idx + 1), idx := st.idx + 1 }

/-- `position, tokenIndex, depth = positionN, tokenIndexN, depthN`. -/
def back (old st : TSt) : TSt := { st with rest := old.rest, idx := old.idx }

/-! ## the shapes of the generated code (fbs.peg.go 689-753) -/

def tseq (p q : TRule) : TRule := fun st =>
  match p st with
  | (false, st') => (false, st')
  | (true, st') => q st'

def talt (p q : TRule) : TRule := fun st =>
  match p st with
  | (true, st') => (true, st')
  | (false, st') => q (back st st')

infixr:65 " ⋄ₜ " => tseq
infixr:60 " //ₜ " => talt

/-- One character of a class (`matchDot` for the class of all). -/
def tcls (f : Char → Bool) : TRule := fun st =>
  match st.rest with
  | [] => (false, st)
  | c :: r => if f c then (true, { st with rest := r }) else (false, st)

/-- A literal, character by character. -/
def tlit : Name → TRule
  | [], st => (true, st)
  | c :: l, st =>
    match st.rest with
    | [] => (false, st)
    | d :: s => if d = c then tlit l { st with rest := s } else (false, st)

/-- fbs.peg.go 3840-4091: an action stores its token. -/
def tact (a : Action) : TRule := fun st => (true, add (.act a) st)

/-- `add(rulePegText, position23)` after the captured part. -/
def ttext (p : TRule) : TRule := fun st =>
  match p st with
  | (false, st') => (false, st')
  | (true, st') => (true, add (.text (st.rest.take (st.rest.length - st'.rest.length))) st')

/-- `p*` with a bound on the number of rounds. -/
def tmanyN (p : TRule) : Nat → TRule
  | 0, st => (true, st)
  | n + 1, st =>
    match p st with
    | (false, st') => (true, back st st')
    | (true, st') => tmanyN p n st'

/-- `p*`: every repeated rule consumes a character, and is tried once more at the end. -/
def tmany (p : TRule) : TRule := fun st => tmanyN p (st.rest.length + 1) st

def tmany1 (p : TRule) : TRule := p ⋄ₜ tmany p

/-- `!p` -/
def tnot (p : TRule) : TRule := fun st =>
  match p st with
  | (false, st') => (true, back st st')
  | (true, st') => (false, st')

/-- A named rule: its token when it matches, position and index set back when it fails. -/
def trule (p : TRule) : TRule := fun st =>
  match p st with
  | (true, st') => (true, add .rule st')
  | (false, st') => (false, back st st')

def tany : TRule := tcls fun _ => true

/-! ## the grammar -/

/-- fbs.peg.go 3776 -/
def endOfLine : TRule := trule (tlit ['\r', '\n'] //ₜ tlit ['\n'] //ₜ tlit ['\r'])
/-- fbs.peg.go 3741 -/
def space : TRule := trule (tlit [' '] //ₜ tlit ['\t'] //ₜ endOfLine)
/-- fbs.peg.go 3697 -/
def comment : TRule := trule (tlit ['/', '/'] ⋄ₜ tmany (tnot endOfLine ⋄ₜ tany) ⋄ₜ endOfLine)
/-- fbs.peg.go 3670 -/
def spaceComment : TRule := trule (space //ₜ comment)
/-- fbs.peg.go 3650 -/
def spacing : TRule := trule (tmany spaceComment)
/-- fbs.peg.go 3551 -/
def ident : TRule := trule (ttext (tcls isIdent0 ⋄ₜ tmany (tcls isIdent)))
/-- fbs.peg.go 3816 -/
def endOfFile : TRule := trule (tnot tany)
/-- fbs.peg.go 3629 -/
def onlyComment : TRule := trule (spacing ⋄ₜ tlit [';'])
/-- `<(!c .)*>` -/
def until0 (c : Char) : TRule := ttext (tmany (tcls (· ≠ c)))
/-- `<(!c .)+>` -/
def until1 (c : Char) : TRule := ttext (tmany1 (tcls (· ≠ c)))
/-- fbs.peg.go 1246 -/
def metadata : TRule := trule (tlit ['('] ⋄ₜ until0 ')' ⋄ₜ tlit [')'])
/-- `<(' ' / '\t')*>` -/
def blanks : TRule := ttext (tmany (tcls fun c => c = ' ' || c = '\t'))
/-- fbs.peg.go 3223 -/
def integerConstant : TRule :=
  trule (ttext (tmany1 (tcls isDigit)) //ₜ tlit "true".toList //ₜ tlit "false".toList)
/-- fbs.peg.go 3367 -/
def floatConstantExp : TRule :=
  trule (ttext (tmany (tcls (· = '-')) ⋄ₜ tmany1 (tcls isDigit) ⋄ₜ tany ⋄ₜ tmany1 (tcls isDigit)) ⋄ₜ
    ttext (tcls (· = 'e') //ₜ tcls (· = 'E')) ⋄ₜ
    ttext (tmany1 (tcls fun c => ('+' ≤ c && c ≤ ']') || c = ' ')))
/-- fbs.peg.go 3304 -/
def floatConstant : TRule :=
  trule (ttext (tmany (tcls (· = '-')) ⋄ₜ tmany1 (tcls isDigit) ⋄ₜ tany ⋄ₜ tcls isDigit) //ₜ floatConstantExp)
/-- fbs.peg.go 3196 -/
def scalar : TRule := trule (integerConstant //ₜ floatConstant)

/-- fbs.peg.go 2499: the alternatives of the built-in types, then `q`. -/
def basicType (q : TRule) : List (Name × Name) → TRule
  | [] => q
  | (kw, go) :: l => (tlit kw ⋄ₜ spacing ⋄ₜ tact (.setType go)) //ₜ basicType q l

/-- fbs.peg.go 2499; the number bounds the nesting of `[`. -/
def typeN : Nat → TRule
  | 0 => fun st => (false, st)
  | n + 1 =>
    trule (basicType
      ((tlit "string".toList ⋄ₜ spacing ⋄ₜ tact (.setRepeated "byte".toList)) //ₜ
       (ident ⋄ₜ spacing ⋄ₜ tact .setTypeText) //ₜ
       (tlit ['['] ⋄ₜ typeN n ⋄ₜ tlit [']'] ⋄ₜ spacing ⋄ₜ tact (.setRepeated []))) basicNames)

/-- fbs.peg.go 2499 -/
def type : TRule := fun st => typeN (st.rest.length + 1) st

/-- fbs.peg.go 1444 -/
def fieldType : TRule := trule (ident ⋄ₜ tact .fieldName)
/-- fbs.peg.go 1294 -/
def fieldDecl : TRule :=
  trule ((spacing ⋄ₜ fieldType ⋄ₜ tlit [':'] ⋄ₜ type ⋄ₜ tmany metadata ⋄ₜ tlit [';'] ⋄ₜ spacing ⋄ₜ
      tact .newExtractField) //ₜ
    (spacing ⋄ₜ fieldType ⋄ₜ tlit [':'] ⋄ₜ type ⋄ₜ blanks ⋄ₜ tlit ['='] ⋄ₜ blanks ⋄ₜ scalar ⋄ₜ tmany metadata ⋄ₜ
      tlit [';'] ⋄ₜ spacing ⋄ₜ tact .newExtractFieldWithValue))
/-- fbs.peg.go 1226 -/
def typename : TRule := trule (ident ⋄ₜ tact .setTypeName)
/-- fbs.peg.go 1062, 1146 -/
def structBody (kw : Name) (isTable : Bool) : TRule :=
  trule (tlit kw ⋄ₜ spacing ⋄ₜ typename ⋄ₜ spacing ⋄ₜ tmany metadata ⋄ₜ tlit ['{'] ⋄ₜ tmany1 fieldDecl ⋄ₜ
    tlit ['}'] ⋄ₜ spacing ⋄ₜ tact (.extractStruct isTable))
/-- fbs.peg.go 1035 -/
def typeDecl : TRule := trule (structBody "struct".toList false //ₜ structBody "table".toList true)
/-- fbs.peg.go 1776 -/
def enumFieldType : TRule := trule (ident ⋄ₜ tact .enumName)
/-- fbs.peg.go 1727 -/
def enumField : TRule :=
  trule ((enumFieldType ⋄ₜ spacing ⋄ₜ tact .newExtractField) //ₜ
    (enumFieldType ⋄ₜ spacing ⋄ₜ tlit ['='] ⋄ₜ spacing ⋄ₜ integerConstant ⋄ₜ spacing))
/-- fbs.peg.go 1590 -/
def enumFields : TRule := trule ((spacing ⋄ₜ enumField ⋄ₜ tlit [',']) //ₜ (spacing ⋄ₜ enumField))
/-- fbs.peg.go 1464 -/
def enumDecl : TRule :=
  trule ((tlit "enum".toList ⋄ₜ spacing ⋄ₜ ident ⋄ₜ spacing ⋄ₜ tmany metadata ⋄ₜ tlit ['{'] ⋄ₜ enumFields ⋄ₜ
      tlit ['}'] ⋄ₜ spacing) //ₜ
    (tlit "enum".toList ⋄ₜ spacing ⋄ₜ ident ⋄ₜ tlit [':'] ⋄ₜ type ⋄ₜ spacing ⋄ₜ tmany metadata ⋄ₜ tlit ['{'] ⋄ₜ
      enumFields ⋄ₜ tlit ['}'] ⋄ₜ spacing))
/-- fbs.peg.go 1707 -/
def unionName : TRule := trule (ident ⋄ₜ tact .unionName)
/-- fbs.peg.go 1627 -/
def unionDecl : TRule :=
  trule (tlit "union".toList ⋄ₜ spacing ⋄ₜ unionName ⋄ₜ spacing ⋄ₜ tmany metadata ⋄ₜ tlit ['{'] ⋄ₜ
    tmany1 enumFields ⋄ₜ tlit ['}'] ⋄ₜ spacing ⋄ₜ tact .newUnion)
/-- fbs.peg.go 829 -/
def namespaceDecl : TRule :=
  trule (tlit "namespace".toList ⋄ₜ spacing ⋄ₜ ttext (tmany1 (tcls isPath)) ⋄ₜ tact .setNameSpace ⋄ₜ tlit [';'] ⋄ₜ
    spacing)
/-- fbs.peg.go 1796 -/
def rootDecl : TRule :=
  trule (tlit "root_type".toList ⋄ₜ spacing ⋄ₜ ttext (tmany1 (tcls isPath)) ⋄ₜ tact .setRootType ⋄ₜ tlit [';'] ⋄ₜ
    spacing)
/-- fbs.peg.go 1944 -/
def fileExtensionDecl : TRule :=
  trule (tlit "file_extension".toList ⋄ₜ blanks ⋄ₜ until1 ';' ⋄ₜ tlit [';'] ⋄ₜ spacing)
/-- fbs.peg.go 2088 -/
def fileIdentifierDecl : TRule :=
  trule (tlit "file_identifier".toList ⋄ₜ blanks ⋄ₜ until1 ';' ⋄ₜ tlit [';'] ⋄ₜ spacing)
/-- fbs.peg.go 2236 -/
def attributeDecl : TRule :=
  trule (tlit "attribute".toList ⋄ₜ blanks ⋄ₜ until1 ';' ⋄ₜ tlit [';'] ⋄ₜ spacing)
/-- fbs.peg.go 2360 -/
def rpcDecl : TRule :=
  trule (tlit "rpc_service".toList ⋄ₜ blanks ⋄ₜ ident ⋄ₜ tlit ['{'] ⋄ₜ until1 '}' ⋄ₜ tlit ['}'] ⋄ₜ spacing)
/-- fbs.peg.go 977 -/
def includeDecl : TRule :=
  trule (tlit "include".toList ⋄ₜ spacing ⋄ₜ ident ⋄ₜ comment ⋄ₜ tlit [';'] ⋄ₜ spacing)
/-- fbs.peg.go 754 -/
def statement : TRule :=
  trule (namespaceDecl //ₜ unionDecl //ₜ typeDecl //ₜ enumDecl //ₜ rootDecl //ₜ fileExtensionDecl //ₜ
    fileIdentifierDecl //ₜ attributeDecl //ₜ rpcDecl //ₜ onlyComment)
/-- fbs.peg.go 689 -/
def schema : TRule :=
  trule ((includeDecl ⋄ₜ endOfFile) //ₜ (includeDecl ⋄ₜ tmany1 statement ⋄ₜ endOfFile) //ₜ
    (tmany1 statement ⋄ₜ endOfFile))

/-- fbs.peg.go 636-648 `Parse` on a fresh parser: whether the text is accepted, and the tokens left for
`Execute`: cut at the index on success, everything stored on failure. -/
def parse (s : Name) : Bool × List TTok :=
  match schema { rest := s } with
  | (true, st) => (true, st.tape.take st.idx)
  | (false, st) => (false, st.tape)

/-- The tokens `Execute` acts on. -/
def strip : List TTok → List Tok
  | [] => []
  | .rule :: l => strip l
  | .text s :: l => .text s :: strip l
  | .act a :: l => .act a :: strip l

/-- `Parse`, then `Execute` whatever the result: `none` is a panic. -/
def run (s : Name) : Go FbsSt := (exec ({}, []) (strip (parse s).2)).map Prod.fst

/-- main.go 285-311 `main` with the bytes of the schema file (`none` = it cannot be read): the messages about the
file and about the schema do not end the program. -/
def main (file : Option Name) (filter : Name) : Go (List Gen.Cmd) :=
  match run (file.getD []) with
  | none => none
  | some st =>
    match st.finalize with
    | none => none
    | some st' => Gen.makeGen st' filter

end Fbs.Peg.Tape
