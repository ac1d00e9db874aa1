import Verif.Types
/-!
# Logging (query/base/base.go 42-101, query/base/log.go, query/log/error.go)

`LogW` is a package variable; it holds the configured writer or, while `neoLog` runs, a private string
builder.  Text is a list of characters.  The callbacks are arbitrary state transformers.
-/

namespace Fbs

/-- What `LogW` points to: the configured writer or the `i`-th string builder created so far. -/
inductive LogDest where
  | ext
  | builder (i : Nat)
deriving DecidableEq, Repr

/-- The log-related global state. -/
structure LogSt where
  /-- base.go 45 `CurrentLogLevel` (0 error, 1 warn, 2 debug) -/
  level : Nat := 0
  /-- query/log/error.go 25 `log.CurrentLogLevel` -/
  pkgLevel : Nat := 0
  /-- log.go 24 `LogCurrentState` -/
  stLevel : Nat := 0
  stFilter : Nat := 2
  /-- base.go 46 `LogW` -/
  dest : LogDest := .ext
  /-- everything written to the configured writer -/
  out : Name := []
  /-- contents of the string builders created by `neoLog` -/
  builders : List Name := []
  /-- how many callbacks ran (ghost, incremented by callbacks under test) -/
  ran : Nat := 0
deriving DecidableEq, Repr

/-- `io.WriteString(LogW, s)` / `fmt.Fprintf(LogW, ...)`. -/
def LogSt.emit (st : LogSt) (s : Name) : LogSt :=
  match st.dest with
  | .ext => { st with out := st.out ++ s }
  | .builder i => { st with builders := st.builders.modify i (· ++ s) }

/-- base.go 85-94 / log.go 161-170: the level prefix. -/
def logPrefix (l : Nat) : Name :=
  if l = 2 then "D: ".toList else if l = 1 then "W: ".toList else if l = 0 then "E: ".toList else " ".toList

/-- base.go 78-101 `Log` (error.go 52-75 is the same code over its own variables).  The local builder is
not observable, so the text is emitted in one piece. -/
def logFn (st : LogSt) (l : Nat) (fn : LogSt → LogSt × Name) : LogSt :=
  if st.level < l then st
  else (fn st).1.emit (logPrefix l ++ (fn st).2)

/-- log.go 147-149 `FF`. -/
def ff (st : LogSt) (s : Name) : LogSt := st.emit s

/-- log.go 151-175 `neoLog`. -/
def neoLog (st : LogSt) (l : Nat) (fn : LogSt → LogSt) : LogSt :=
  if st.level < l then st
  else
    let o := st.dest
    let i := st.builders.length
    let st := { st with dest := .builder i, builders := st.builders ++ [logPrefix l] }
    let st := fn st
    let st := st.emit ((st.builders[i]?).getD [])
    { st with dest := o }

/-- log.go 31-37 `LogOptParam` after the options were applied. -/
structure Log2Param where
  level  : Nat := 0
  filter : Nat := 1
  logfns : List (LogSt → LogSt) := []
  fn     : Option (LogSt → LogSt) := none

/-- log.go 92-99: the deferred function. -/
def log2Defer (p : Log2Param) (o : Nat) (after : Option (LogSt → LogSt)) (st : LogSt) : LogSt :=
  let st := match p.fn with
    | some f => f st
    | none => st
  match after with
  | some g =>
    let st := { st with level := st.stLevel }
    let st := neoLog st p.level g
    { st with level := o }
  | none => st

/-- log.go 79-115 `Log2`: the two deferred calls run in reverse order. -/
def log2 (st : LogSt) (p : Log2Param) : LogSt :=
  let o := st.pkgLevel
  if st.stFilter &&& p.filter = 0 then log2Defer p o none st
  else
    let st := { st with level := st.stLevel }
    let st := match p.logfns with
      | f :: _ => neoLog st p.level f
      | [] => st
    let st := { st with level := o }
    log2Defer p o (p.logfns[1]?) st

/-- log.go 62-76 `L2isEnable`. -/
def l2isEnable (st : LogSt) (level filter : Nat) : Bool :=
  if st.stLevel < level then false
  else if st.stFilter &&& filter = 0 then false
  else true

end Fbs
