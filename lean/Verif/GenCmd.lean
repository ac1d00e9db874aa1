import Verif.Peg
/-!
# The generator's command list (cmd/fbs-query/main.go)

`MakeGenGennies` prints one `go:generate` line per generated file.  A line is modelled by its template, its
output file (relative to the output directory) and its parameters.  Creating directories and copying the
templates (main.go 50-72) and running the commands (171-200) are in `Verif.GenRun`.
-/

namespace Fbs.Gen
open Fbs Fbs.Peg

inductive Template where
  | root | node | list | field | union | unionAlias
deriving DecidableEq, Repr

structure Cmd where
  template : Template
  out      : Name
  nodeName : Name := []
  fieldName : Name := []
  fieldType : Name := []
  resultType : Name := []
  fieldNum : Option Nat := none
  isStruct : Bool := false
  /-- `RootType`, `ListType`, `UnionName` or `AliasName` -/
  extra : List Name := []
deriving DecidableEq, Repr

/-- main.go 304-308, 348-350: names of the declared structs. -/
def isStructName (st : FbsSt) (s : Name) : Bool := st.structs.any fun i => !i.isTable && i.name = s

/-- main.go 365-372 `IsSlice`: panics on a name shorter than two characters. -/
def isSlice (s : Name) : Go Bool := if s.length < 2 then none else some (s.take 2 = "[]".toList)

/-- `strings.ReplaceAll(s, "[]byte", "CommonNode")`; the number bounds the scan. -/
def replByteN : Nat → Name → Name
  | 0, s => s
  | _ + 1, [] => []
  | n + 1, c :: s =>
    if (c :: s).take 6 = "[]byte".toList then "CommonNode".toList ++ replByteN n ((c :: s).drop 6)
    else c :: replByteN n s

/-- main.go 160-169 `ConvResultType` -/
def convResultType (o : Name) : Name :=
  if (replByteN o.length o).length < 2 then replByteN o.length o
  else if (replByteN o.length o).take 2 = "[]".toList then (replByteN o.length o).drop 2 ++ "List".toList
  else replByteN o.length o

/-- main.go 122-130: the result type of a field. -/
def resultTypeOf (ty : Name) : Go Name :=
  if (nameToType ty).isSome then some "CommonNode".toList
  else
    match isSlice ty with
    | none => none
    | some true =>
      if (nameToType (ty.drop 2)).isSome then some "List".toList else some (convResultType ty)
    | some false => some ty

/-- main.go 115-134: the line of one field. -/
def genField (st : FbsSt) (info : StructInfo) (idx : Nat) (f : Field) : Go Cmd :=
  match resultTypeOf f.type with
  | none => none
  | some r =>
    some { template := .field, out := info.name ++ ['.'] ++ f.name ++ ".gen.go".toList, nodeName := info.name,
           fieldName := f.name, fieldType := f.type, resultType := r, fieldNum := some idx,
           isStruct := isStructName st f.type }

/-- main.go 115-134 -/
def genFields (st : FbsSt) (info : StructInfo) : Nat → List Field → Go (List Cmd)
  | _, [] => some []
  | idx, f :: fs =>
    match genField st info idx f with
    | none => none
    | some c =>
      match genFields st info (idx + 1) fs with
      | none => none
      | some cs => some (c :: cs)

/-- main.go 96-112: node and list files of a declaration. -/
def genHead (st : FbsSt) (info : StructInfo) : List Cmd :=
  [{ template := .node, out := info.name ++ ".gen.go".toList, nodeName := info.name,
     isStruct := isStructName st info.name, extra := [st.rootType] },
   { template := .list, out := info.name ++ "List.gen.go".toList, nodeName := info.name,
     extra := [info.name ++ "List".toList] }]

/-- main.go 92-136 -/
def genStructs (st : FbsSt) (filter : Name) : List StructInfo → Go (List Cmd)
  | [] => some []
  | info :: l =>
    if filter ≠ [] ∧ filter ≠ info.name then genStructs st filter l
    else
      match genFields st info 0 info.fields with
      | none => none
      | some a =>
        match genStructs st filter l with
        | none => none
        | some b => some (genHead st info ++ a ++ b)

/-- main.go 138-156 -/
def genUnions (filter : Name) : List Union → List Cmd
  | [] => []
  | u :: l =>
    if filter ≠ [] ∧ filter ≠ u.name then genUnions filter l
    else
      { template := .union, out := u.name ++ ".union.gen.go".toList, nodeName := u.name } ::
      { template := .unionAlias, out := u.name ++ ".union-alias.gen.go".toList, nodeName := u.name,
        extra := u.aliases } :: genUnions filter l

/-- main.go 40-159 `MakeGenGennies` -/
def makeGen (st : FbsSt) (filter : Name) : Go (List Cmd) :=
  match genStructs st filter st.structs with
  | none => none
  | some b => some ({ template := .root, out := "root.go".toList, extra := [st.rootType] } :: b ++ genUnions filter st.unions)

/-- main.go 290-310 `main`: parse, execute, finalise, generate.  (On a parse error `main` prints a message and
carries on with the tokens of the failed parse; that case is `none` here.) -/
def mainGen (src filter : Name) : Go (List Cmd) :=
  match parseSchema src with
  | none => none
  | some st =>
    match st.finalize with
    | none => none
    | some st' => makeGen st' filter

end Fbs.Gen
