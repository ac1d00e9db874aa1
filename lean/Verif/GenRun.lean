import Verif.GenText
import Verif.GenRead
/-!
# Running the generated commands (cmd/fbs-query/main.go 34-36, 50-72, 171-224)

`GennyMode` copies the templates to `<out>/genny`, writes the commands to `<out>/gen/tmp-gen-fbs-query.go`, calls
`go generate` on that directory and removes both directories.  The environment is modelled by a file system
without links, in which directories are created as needed and no operation on a file fails; `filepath.Clean` and
`filepath.Join` by their documentation on Unix; `go generate` by the reader of `Verif.GenRead`, running the calls
of the one file in the directory of that file (other Go files there are not looked at); genny by a function from
the template and the parameters to the file (`none` = genny fails).
-/

namespace Fbs.Gen
open Fbs Fbs.Peg Fbs.GenRead

/-- The parts of a path. -/
def splitPath : Name → List Name
  | [] => [[]]
  | c :: r =>
    if c = '/' then [] :: splitPath r
    else match splitPath r with
      | [] => [[c]]
      | w :: ws => (c :: w) :: ws

def joinSlash : List Name → Name
  | [] => []
  | [a] => a
  | a :: b :: l => a ++ ('/' :: joinSlash (b :: l))

def rooted (p : Name) : Bool := p.head? = some '/'

/-- One part in `filepath.Clean`. -/
def cleanStep (root : Bool) (st : List Name) (e : Name) : List Name :=
  if e = [] ∨ e = ['.'] then st
  else if e = ['.', '.'] then
    if st ≠ [] ∧ st.getLast? ≠ some ['.', '.'] then st.dropLast
    else if root then st
    else st ++ [e]
  else st ++ [e]

/-- `filepath.Clean` -/
def clean (p : Name) : Name :=
  let st := (splitPath p).foldl (cleanStep (rooted p)) []
  if rooted p then '/' :: joinSlash st
  else if st = [] then ['.']
  else joinSlash st

/-- `filepath.Join`: empty leading elements are dropped. -/
def pjoin : List Name → Name
  | [] => []
  | e :: l => if e = [] then pjoin l else clean (joinSlash (e :: l))

/-- One part of a path, followed in the file system. -/
def walk (d : List Name) (e : Name) : List Name :=
  if e = [] ∨ e = ['.'] then d
  else if e = ['.', '.'] then d.dropLast
  else d ++ [e]

/-- The place a path leads to from a directory. -/
def resolve (cwd : List Name) (p : Name) : List Name :=
  (splitPath p).foldl walk (if rooted p then [] else cwd)

/-- The files. -/
abbrev FS := List Name → Option Name

def FS.put (fs : FS) (p : List Name) (d : Name) : FS := fun q => if q = p then some d else fs q

/-- `os.RemoveAll` -/
def FS.removeAll (fs : FS) (p : List Name) : FS := fun q => if p <+: q then none else fs q

/-- What genny makes of a template and parameters. -/
abbrev Genny := Name → List (Name × List Name) → Option Name

/-- The embedded templates (query/template/genny-load.go 121-130), as base names. -/
def assetNames : List Name :=
  ["dummy.go".toList, "field.go".toList, "list.go".toList, "node.go".toList, "node_test.go".toList, "root.go".toList,
   "union-alias.go".toList, "union.go".toList]

/-- main.go 49-72: the templates are copied; `names` is the order in which the map is walked. -/
def copyTemplates (cwd : List Name) (data : Name → Name) (out : Name) (names : List Name) (fs : FS) : FS :=
  names.foldl (fun fs n => fs.put (resolve cwd (pjoin [pjoin [out, "genny".toList], n])) (data n)) fs

/-- Import paths of package `go/build` that mean directories. -/
def isLocal (p : Name) : Bool :=
  p = ['.'] || p = ['.', '.'] || "./".toList <+: p || "../".toList <+: p || rooted p

/-- One call, from directory `d`. -/
def runCall (genny : Genny) (d : List Name) (fs : FS) (c : Call) : Option FS :=
  match fs (resolve d c.input) with
  | none => none
  | some t =>
    match genny t c.params with
    | none => none
    | some o => some (fs.put (resolve d c.output) o)

/-- The calls one after the other; the first failure ends `go generate` (the files so far stay). -/
def runCalls (genny : Genny) (d : List Name) : FS → List Call → FS × Bool
  | fs, [] => (fs, true)
  | fs, c :: cs =>
    match runCall genny d fs c with
    | none => (fs, false)
    | some fs' => runCalls genny d fs' cs

/-- `go generate` on the directory `pat`, run in `cwd`, with the one file `tmp-gen-fbs-query.go`. -/
def goGenerate (genny : Genny) (cwd : List Name) (pat : Name) (fs : FS) : FS × Bool :=
  if isLocal pat then
    match fs (resolve cwd pat ++ ["tmp-gen-fbs-query.go".toList]) with
    | none => (fs, false)
    | some t =>
      match readText t with
      | none => (fs, false)
      | some cs => runCalls genny (resolve cwd pat) fs cs
  else (fs, false)

/-- main.go 171-200 `RunGenerate` (`isNotDryRun`); `none` = panic on an empty path. -/
def runGenerate (genny : Genny) (cwd : List Name) (dir : Name) (s : Name) (fs : FS) : Go (FS × Bool) :=
  let fs := fs.put (resolve cwd (pjoin [dir, "tmp-gen-fbs-query.go".toList])) s
  match dir with
  | [] => none
  | c :: _ =>
    let odir := if c ≠ '/' ∧ c ≠ '.' then "./".toList ++ dir else dir
    match goGenerate genny cwd odir fs with
    | (fs, false) => some (fs, false)
    | (fs, true) =>
      some ((fs.removeAll (resolve cwd dir)).removeAll (resolve cwd (pjoin [dir, "../".toList, "genny".toList])), true)

/-- main.go 207-224 `GennyMode` with the text of `MakeGenGennies`. -/
def gennyMode (genny : Genny) (cwd : List Name) (data : Name → Name) (names : List Name) (out text : Name) (fs : FS) :
    Go (FS × Bool) :=
  runGenerate genny cwd (pjoin [out, "/gen".toList]) text (copyTemplates cwd data out names fs)

end Fbs.Gen
