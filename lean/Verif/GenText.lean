import Verif.PegTape
/-!
# The text of the generated commands (cmd/fbs-query/main.go 38-158)

`MakeGenGennies` prints a Go file with one `go:generate` line per generated file.  `Verif.GenCmd` has the lines
as records; here they are text.  `filepath.Join` with the directories `../genny/` and `../` is concatenation
(file names contain no `/`).  Copying the templates (main.go 50-72) is in `Verif.GenRun`.
-/

namespace Fbs.Gen
open Fbs Fbs.Peg

/-- Go `%d` of a natural number; the first argument bounds the number of digits. -/
def decN : Nat → Nat → Name
  | 0, n => [Char.ofNat (48 + n % 10)]
  | k + 1, n => if n < 10 then [Char.ofNat (48 + n)] else decN k (n / 10) ++ [Char.ofNat (48 + n % 10)]

def dec (n : Nat) : Name := decN n n

/-- Go `%v` of a truth value. -/
def boolText (b : Bool) : Name := if b then "true".toList else "false".toList

/-- `strings.Join(l, ",")` -/
def joinComma : List Name → Name
  | [] => []
  | [a] => a
  | a :: b :: l => a ++ (',' :: joinComma (b :: l))

/-- main.go 86, 96, 106, 114, 143, 149: the template files. -/
def Template.file : Template → Name
  | .root => "root.go".toList
  | .node => "node.go".toList
  | .list => "list.go".toList
  | .field => "field.go".toList
  | .union => "union.go".toList
  | .unionAlias => "union-alias.go".toList

/-- main.go 38 `GennyLineTemplate` with the paths of 82-86. -/
def lineStart (c : Cmd) : Name :=
  "//go:generate go run github.com/cheekybits/genny -in=../genny/".toList ++ (c.template.file ++
    (" -out=../".toList ++ (c.out ++ "  gen ".toList)))

/-- main.go 89, 100-102, 110-111, 118-133, 146, 153-154: the parameters in quotes. -/
def params (c : Cmd) : Name :=
  match c.template with
  | .root => " \"RootType=".toList ++ (c.extra.headD [] ++ "\"".toList)
  | .node => " \"NodeName=".toList ++ (c.nodeName ++ (" RootType=".toList ++ (c.extra.headD [] ++
      (" IsStruct=".toList ++ (boolText c.isStruct ++ "\"".toList)))))
  | .list => " \"NodeName=".toList ++ (c.nodeName ++ (" ListType=".toList ++ (c.extra.headD [] ++ "\"".toList)))
  | .field => " \"NodeName=".toList ++ (c.nodeName ++ (" FieldName=".toList ++ (c.fieldName ++
      (" FieldType=".toList ++ (c.fieldType ++ (" ResultType=".toList ++ (c.resultType ++
      (" FieldNum=".toList ++ (dec (c.fieldNum.getD 0) ++ (" IsStruct=".toList ++
      (boolText c.isStruct ++ "\"".toList)))))))))))
  | .union => " \"UnionName=".toList ++ (c.nodeName ++ "\"".toList)
  | .unionAlias => "\"UnionName=".toList ++ (c.nodeName ++ (" AliasName=".toList ++ (joinComma c.extra ++ "\"".toList)))

/-- main.go 88-90, 99-104, ...: one line. -/
def renderCmd (c : Cmd) : Name := lineStart c ++ (params c ++ ['\n'])

/-- main.go 73-81: what stands before the lines. -/
def headText : Name :=
  "\n\tpackage main\n\timport (\n\t\t_ \"github.com/cheekybits/genny\"\n\t)\n\t\n\t\n\n".toList

/-- main.go 40-158 `MakeGenGennies`: the text. -/
def genText (st : FbsSt) (filter : Name) : Go Name :=
  match makeGen st filter with
  | none => none
  | some cs => some (headText ++ cs.flatMap renderCmd)

/-- main.go 283-310, 207-217: the text `main` hands to `RunGenerate`. -/
def mainText (file : Option Name) (filter : Name) : Go Name :=
  match Tape.main file filter with
  | none => none
  | some cs => some (headText ++ cs.flatMap renderCmd)

end Fbs.Gen
