import Verif.PegLemmas
/-!
# Specification of the schema language: concrete syntax and meaning

A schema text is described by a list of declarations with all their layout (blanks, line ends, comments),
attribute lists and default values.  `chars` is the text, the `meaning` the declarations a user expects the
parser to report.  This file does not refer to the parser rules.
-/

namespace Fbs.Schema
open Fbs Fbs.Peg

/-- Name of the Go identifier for a field: underscores removed, the first letter of each word upper case,
the others lower case. -/
def camel (up : Bool) : Name → Name
  | [] => []
  | c :: l => if c = '_' then camel true l else (if up then c.toUpper else c.toLower) :: camel false l

/-- No empty word between underscores. -/
def noEmptyWord : Bool → Name → Bool
  | atStart, [] => !atStart
  | atStart, c :: l => if c = '_' then !atStart && noEmptyWord true l else noEmptyWord false l

/-- A type as written. -/
inductive Ty where
  | basic (kw go : Name) (sp : Layout)
  | str (sp : Layout)
  | user (n : Name) (sp : Layout)
  | list (t : Ty) (sp : Layout)

def Ty.chars : Ty → Name
  | .basic kw _ sp => kw ++ layoutChars sp
  | .str sp => "string".toList ++ layoutChars sp
  | .user n sp => n ++ layoutChars sp
  | .list t sp => '[' :: (t.chars ++ (']' :: layoutChars sp))

/-- The Go type expected for it. -/
def Ty.val : Ty → Name
  | .basic _ go _ => go
  | .str _ => "[]byte".toList
  | .user n _ => n
  | .list t _ => "[]".toList ++ t.val

/-- Well-formed; a user type name does not start with a built-in type name (see C67). -/
def Ty.ok : Ty → Prop
  | .basic kw go sp => (kw, go) ∈ basicNames ∧ layoutOk sp = true
  | .str sp => layoutOk sp = true
  | .user n sp => IsIdent n ∧ (∀ b ∈ basicNames, ¬ b.1 <+: n) ∧ ¬ "string".toList <+: n ∧ layoutOk sp = true
  | .list t sp => t.ok ∧ layoutOk sp = true

/-- A default value: digits, `true` or `false`, after optional blanks. -/
structure Dflt where
  bl  : Name
  val : Name

def Dflt.ok (d : Dflt) : Prop :=
  (∀ c ∈ d.bl, c = ' ' ∨ c = '\t') ∧
  ((d.val ≠ [] ∧ ∀ c ∈ d.val, isDigit c = true) ∨ d.val = "true".toList ∨ d.val = "false".toList)

/-- A field `name:type [= default] (metadata)* ;` and the layout after it. -/
structure FieldC where
  name  : Name
  ty    : Ty
  dflt  : Option Dflt
  metas : List Name
  sp    : Layout

def FieldC.chars (f : FieldC) : Name :=
  f.name ++ (':' :: (f.ty.chars ++ ((match f.dflt with
    | none => []
    | some d => '=' :: (d.bl ++ d.val)) ++ (f.metas.flatMap metaChars ++ (';' :: layoutChars f.sp)))))

def FieldC.ok (f : FieldC) : Prop :=
  IsIdent f.name ∧ noEmptyWord true f.name = true ∧ f.ty.ok ∧ (∀ d, f.dflt = some d → d.ok) ∧
  (∀ m ∈ f.metas, ∀ c ∈ m, c ≠ ')') ∧ layoutOk f.sp = true

/-- A member of a union with the layout around it. -/
structure Member where
  sp1  : Layout
  name : Name
  sp2  : Layout

def Member.ok (m : Member) : Prop := layoutOk m.sp1 = true ∧ IsIdent m.name ∧ layoutOk m.sp2 = true

def Member.chars (m : Member) : Name := layoutChars m.sp1 ++ (m.name ++ layoutChars m.sp2)

/-- A declaration. -/
inductive Decl where
  | nameSpace (sp1 : Layout) (path : Name) (sp2 : Layout)
  | root (sp1 : Layout) (path : Name) (sp2 : Layout)
  | struct (isTable : Bool) (sp1 : Layout) (name : Name) (sp2 : Layout) (metas : List Name) (spIn : Layout)
      (first : FieldC) (rest : List FieldC) (sp3 : Layout)
  | union (sp1 : Layout) (name : Name) (sp2 : Layout) (metas : List Name) (init : List Member) (last : Member)
      (sp3 : Layout)
  /-- `file_extension`, `file_identifier` or `attribute` with its text -/
  | misc (kw : Name) (bl txt : Name) (sp : Layout)
  /-- a lone `;` -/
  | empty

def miscKeywords : List Name := ["file_extension".toList, "file_identifier".toList, "attribute".toList]

def Decl.chars : Decl → Name
  | .nameSpace sp1 p sp2 => "namespace".toList ++ (layoutChars sp1 ++ (p ++ (';' :: layoutChars sp2)))
  | .root sp1 p sp2 => "root_type".toList ++ (layoutChars sp1 ++ (p ++ (';' :: layoutChars sp2)))
  | .struct t sp1 n sp2 ms spIn f fs sp3 =>
    (if t then "table".toList else "struct".toList) ++ (layoutChars sp1 ++ (n ++ (layoutChars sp2 ++
      (ms.flatMap metaChars ++ ('{' :: (layoutChars spIn ++ (f.chars ++ (fs.flatMap FieldC.chars ++
        ('}' :: layoutChars sp3)))))))))
  | .union sp1 n sp2 ms init last sp3 =>
    "union".toList ++ (layoutChars sp1 ++ (n ++ (layoutChars sp2 ++ (ms.flatMap metaChars ++ ('{' ::
      (init.flatMap (fun m => m.chars ++ [',']) ++ (last.chars ++ ('}' :: layoutChars sp3))))))))
  | .misc kw bl txt sp => kw ++ (bl ++ (txt ++ (';' :: layoutChars sp)))
  | .empty => [';']

def Decl.ok : Decl → Prop
  | .nameSpace sp1 p sp2 => layoutOk sp1 = true ∧ (p ≠ [] ∧ ∀ c ∈ p, isPath c = true) ∧ layoutOk sp2 = true
  | .root sp1 p sp2 => layoutOk sp1 = true ∧ (p ≠ [] ∧ ∀ c ∈ p, isPath c = true) ∧ layoutOk sp2 = true
  | .struct _ sp1 n sp2 ms spIn f fs sp3 =>
    layoutOk sp1 = true ∧ IsIdent n ∧ layoutOk sp2 = true ∧ (∀ m ∈ ms, ∀ c ∈ m, c ≠ ')') ∧ layoutOk spIn = true ∧
      f.ok ∧ (∀ g ∈ fs, g.ok) ∧ layoutOk sp3 = true
  | .union sp1 n sp2 ms init last sp3 =>
    layoutOk sp1 = true ∧ IsIdent n ∧ layoutOk sp2 = true ∧ (∀ m ∈ ms, ∀ c ∈ m, c ≠ ')') ∧ (∀ m ∈ init, m.ok) ∧
      last.ok ∧ layoutOk sp3 = true
  | .misc kw bl txt sp =>
    kw ∈ miscKeywords ∧ (∀ c ∈ bl, c = ' ' ∨ c = '\t') ∧ txt ≠ [] ∧ (∀ c r, txt = c :: r → c ≠ ' ' ∧ c ≠ '\t') ∧
      (∀ c ∈ txt, c ≠ ';') ∧ layoutOk sp = true
  | .empty => True

/-- What a schema declares. -/
structure Meaning where
  nameSpace : Name := []
  rootType  : Name := []
  structs   : List StructInfo := []
  unions    : List Union := []

/-- Effect of one declaration: structs and unions belong to the name space in force. -/
def Meaning.add (m : Meaning) : Decl → Meaning
  | .nameSpace _ p _ => { m with nameSpace := p }
  | .root _ p _ => { m with rootType := p }
  | .struct t _ n _ _ _ f fs _ =>
    { m with structs := m.structs ++
        [⟨m.nameSpace, n, t, (f :: fs).map fun g => ⟨camel true g.name, g.ty.val⟩⟩] }
  | .union _ n _ _ init last _ =>
    { m with unions := m.unions ++ [⟨m.nameSpace, n, (init ++ [last]).map Member.name⟩] }
  | .misc .. => m
  | .empty => m

def meaning (ds : List Decl) : Meaning := ds.foldl Meaning.add {}

end Fbs.Schema
