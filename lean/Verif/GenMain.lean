import Verif.GenRun
/-!
# The command line of fbs-query (cmd/fbs-query/main.go 257-311)

`flag.Parse` follows the documentation and the source of package flag (Go 1.14-1.22, `FlagSet.parseOne`).  Texts
printed are not modelled.  The schema file is read from the file system of `Verif.GenRun`.
-/

namespace Fbs.Gen
open Fbs Fbs.Peg

/-- main.go 259-265: the variables set by the flags. -/
structure Opts where
  filter : Name := []
  fbs : Name := []
  out : Name := []
  help : Bool := false
  verbose : Bool := false
deriving DecidableEq, Repr

/-- What `parseOne` makes of an argument. -/
inductive FlagArg where
  | stop
  | bad
  | flag (name : Name) (value : Option Name)
deriving DecidableEq, Repr

/-- The part after the dashes: a name, and a value after the first `=`. -/
def namedFlag : Name → FlagArg
  | [] => .bad
  | c :: r =>
    if c = '-' ∨ c = '=' then .bad
    else .flag (c :: r.takeWhile (· ≠ '=')) ((r.dropWhile (· ≠ '=')).head?.map fun _ => (r.dropWhile (· ≠ '=')).tail)

/-- `parseOne`: an argument that is no flag, and `--`, end the flags. -/
def flagArg : Name → FlagArg
  | '-' :: '-' :: r => if r = [] then .stop else namedFlag r
  | '-' :: r => if r = [] then .stop else namedFlag r
  | _ => .stop

/-- `strconv.ParseBool` -/
def parseBool (v : Name) : Option Bool :=
  if v ∈ ["1".toList, "t".toList, "T".toList, "TRUE".toList, "true".toList, "True".toList] then some true
  else if v ∈ ["0".toList, "f".toList, "F".toList, "FALSE".toList, "false".toList, "False".toList] then some false
  else none

/-- main.go 261-263: the flags with a text. -/
def setText (o : Opts) (name v : Name) : Option Opts :=
  if name = "filter".toList then some { o with filter := v }
  else if name = "fbs".toList then some { o with fbs := v }
  else if name = "out".toList then some { o with out := v }
  else none

/-- main.go 264-265: the flags that are on or off. -/
def setBool (o : Opts) (name : Name) (b : Bool) : Option Opts :=
  if name = "h".toList then some { o with help := b }
  else if name = "v".toList then some { o with verbose := b }
  else none

/-- A flag with its value given (or a flag that is on or off): the variables, or the exit status. -/
def setFlag (o : Opts) (name : Name) (value : Option Name) : Except Nat Opts :=
  match setBool o name true with
  | some o' =>
    match value with
    | none => .ok o'
    | some v =>
      match parseBool v with
      | none => .error 2
      | some b => .ok ((setBool o name b).getD o')
  | none =>
    match value with
    | none => .error 2
    | some v =>
      match setText o name v with
      | some o' => .ok o'
      | none => .error 2

/-- Is it a flag with a text (which may be the next argument)? -/
def isText (o : Opts) (name : Name) : Bool := (setText o name []).isSome

/-- `flag.Parse` with `ExitOnError`: the variables, or the exit status.  An unknown flag `help` exits with 0, any
other unknown flag with 2. -/
def parseFlags : List Name → Opts → Except Nat Opts
  | [], o => .ok o
  | [a], o =>
    match flagArg a with
    | .stop => .ok o
    | .bad => .error 2
    | .flag name value => if name = "help".toList then .error 0 else setFlag o name value
  | a :: b :: rest, o =>
    match flagArg a with
    | .stop => .ok o
    | .bad => .error 2
    | .flag name value =>
      if name = "help".toList then .error 0
      else if value = none ∧ isText o name then
        match setFlag o name (some b) with
        | .error e => .error e
        | .ok o' => parseFlags rest o'
      else
        match setFlag o name value with
        | .error e => .error e
        | .ok o' => parseFlags (b :: rest) o'

/-- How the program ends: with an exit status, and the files there are then; or with a panic. -/
inductive Outcome where
  | exit (status : Nat) (fs : FS)
  | panic

/-- main.go 257-311 `main`; `args` are the arguments after the name of the program (`len(os.Args)` counts the name).
Errors of `GennyMode` are printed; the exit status is 0. -/
def fbsQuery (genny : Genny) (cwd : List Name) (data : Name → Name) (names : List Name) (args : List Name) (fs : FS) :
    Outcome :=
  match parseFlags args {} with
  | .error e => .exit e fs
  | .ok o =>
    if args.length + 1 < 3 then .exit 0 fs
    else
      match mainText (if o.fbs = [] then none else fs (resolve cwd o.fbs)) o.filter with
      | none => .panic
      | some t =>
        match gennyMode genny cwd data names o.out t fs with
        | none => .panic
        | some (fs', _) => .exit 0 fs'

end Fbs.Gen
