import Verif.GenMain
/-!
# The older generator fbshelper (main.go 17-143)

`main` with its arguments, the schema file and the templates in the file system of `Verif.GenRun`.  Not modelled:
the texts printed, text/template (a parameter `Render`; it may use all that was read from the schema, which covers
`RootName` and the maps of `StructInfo`), directories that are missing (`ioutil.WriteFile` then fails silently).
`structer.LoadFile` is not part of the repository; a file that is not there is taken to be read as empty.
-/

namespace Fbs.Helper
open Fbs Fbs.Peg Fbs.Gen

/-- main.go 49, 58: what a template is filled in with. -/
inductive Item where
  | struct (s : StructInfo)
  | union (u : Union)

def Item.name : Item → Name
  | .struct s => s.name
  | .union u => u.name

/-- main.go 70-88 `FromTemplate` after the template is loaded: `none` = panic (`template.Must`, or a helper that
panics), `some none` = an error. -/
abbrev Render := Name → FbsSt → Item → Go (Option Name)

/-- `filepath.Dir` -/
def dirName (p : Name) : Name := clean (p.reverse.dropWhile (· ≠ '/')).reverse

/-- `filepath.Base` -/
def baseName (p : Name) : Name :=
  if p = [] then ['.']
  else if p.reverse.dropWhile (· = '/') = [] then ['/']
  else ((p.reverse.dropWhile (· = '/')).takeWhile (· ≠ '/')).reverse

/-- main.go 26-27: the template for unions. -/
def unionTemplate (t : Name) : Name := pjoin [dirName t, "union.".toList ++ baseName t]

/-- main.go 49-57 and 58-66: one file for each; an error is printed and the next one is done. -/
def writeItems (render : Render) (cwd : List Name) (st : FbsSt) (tmpl out : Name) : List Item → FS → Go FS
  | [], fs => some fs
  | i :: is, fs =>
    match render ((fs (resolve cwd tmpl)).getD []) st i with
    | none => none
    | some none => writeItems render cwd st tmpl out is fs
    | some (some src) =>
      writeItems render cwd st tmpl out is (fs.put (resolve cwd (pjoin [out, i.name ++ ".fbshelper.go".toList])) src)

/-- main.go 17-68 `main`; `args` are the arguments after the name of the program. -/
def main (render : Render) (cwd : List Name) (args : List Name) (fs : FS) : Outcome :=
  if args.length + 1 < 3 then .exit 0 fs
  else
    match args with
    | fbs :: tmpl :: out :: _ =>
      match Tape.run ((fs (resolve cwd fbs)).getD []) with
      | none => .panic
      | some st =>
        match st.finalize with
        | none => .panic
        | some st' =>
          match writeItems render cwd st' tmpl out (st'.structs.map .struct) fs with
          | none => .panic
          | some fs1 =>
            match writeItems render cwd st' (unionTemplate tmpl) out (st'.unions.map .union) fs1 with
            | none => .panic
            | some fs2 => .exit 0 fs2
    | _ => .panic

/-- `s[:2]` -/
def first2 (s : Name) : Go Name := if 2 ≤ s.length then some (s.take 2) else none

/-- main.go 103-110 `IsSlice` -/
def isSlice (s : Name) : Go Bool := (first2 s).map fun a => decide (a = "[]".toList)

/-- main.go 90-101 `IsMessage`, for ASCII names: `s[2:3]` panics on `[]` alone. -/
def isMessage (s : Name) : Go Bool :=
  match first2 s with
  | none => none
  | some a =>
    if a = "[]".toList then (s[2]?).map fun c => decide (c.toUpper = c)
    else (s[0]?).map fun c => decide (c.toUpper = c)

/-- main.go 116-121 `ToCamelCase` -/
def toCamel (s : Name) : Go Name :=
  match first2 s with
  | none => none
  | some a => if a = "[]".toList then toCamelCase (s.drop 2) else toCamelCase s

/-- main.go 132-143 `ToBareType`; `s[:1]` panics on `[]` alone. -/
def toBareType (s : Name) : Go Name :=
  match first2 s with
  | none => none
  | some a =>
    match (if a = "[]".toList then s.drop 2 else s) with
    | [] => none
    | c :: r => if c = '*' then some r else some (c :: r)

end Fbs.Helper
