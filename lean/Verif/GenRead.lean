import Verif.Go
/-!
# How the commands are read (specification)

What `go generate` does with the text of a Go file, and what genny does with its last argument, after their
documentation: a line starting with `//go:generate` and a blank is a command; its words are separated by blanks
or tabs; a word in double quotes is a Go string.  The last word has the form `K=V K=V,V ...`.  A `$` starts a
variable; those, and escapes by number, count as unreadable here (`none`).  Nothing here refers to the generator.
-/

namespace Fbs.GenRead

abbrev Txt := List Char

/-- The parts between the separators. -/
def cut (c : Char) : Txt → List Txt
  | [] => [[]]
  | x :: r =>
    if x = c then [] :: cut c r
    else match cut c r with
      | [] => [[x]]
      | w :: ws => (x :: w) :: ws

/-- What is behind a prefix. -/
def strip : Txt → Txt → Option Txt
  | [], s => some s
  | _ :: _, [] => none
  | p :: ps, c :: s => if p = c then strip ps s else none

/-- Go escapes of one letter. -/
def escape : Char → Option Char
  | 'a' => some (Char.ofNat 7)
  | 'b' => some (Char.ofNat 8)
  | 'f' => some (Char.ofNat 12)
  | 'n' => some '\n'
  | 'r' => some '\r'
  | 't' => some '\t'
  | 'v' => some (Char.ofNat 11)
  | '\\' => some '\\'
  | '"' => some '"'
  | _ => none

/-- Where the reader of a command stands. -/
inductive Pos where
  | gap | word (w : Txt) | quote (w : Txt) | esc (w : Txt) | closed (w : Txt)

/-- The words of a command. -/
def words : Pos → Txt → Option (List Txt)
  | .gap, [] => some []
  | .gap, c :: r =>
    if c = ' ' ∨ c = '\t' then words .gap r
    else if c = '"' then words (.quote []) r
    else if c = '$' then none
    else words (.word [c]) r
  | .word w, [] => some [w]
  | .word w, c :: r =>
    if c = ' ' ∨ c = '\t' then (words .gap r).map (w :: ·)
    else if c = '$' then none
    else words (.word (w ++ [c])) r
  | .quote _, [] => none
  | .quote w, c :: r =>
    if c = '"' then words (.closed w) r
    else if c = '\\' then words (.esc w) r
    else if c = '$' then none
    else words (.quote (w ++ [c])) r
  | .esc _, [] => none
  | .esc w, c :: r =>
    match escape c with
    | none => none
    | some d => words (.quote (w ++ [d])) r
  | .closed w, [] => some [w]
  | .closed w, c :: r => if c = ' ' ∨ c = '\t' then (words .gap r).map (w :: ·) else none

/-- `K=V,V` -/
def readParam (s : Txt) : Option (Txt × List Txt) :=
  match cut '=' s with
  | [k, v] => some (k, cut ',' v)
  | _ => none

def readParams : List Txt → Option (List (Txt × List Txt))
  | [] => some []
  | p :: ps =>
    match readParam p, readParams ps with
    | some a, some b => some (a :: b)
    | _, _ => none

/-- A call of genny: the template, the file to write, the parameters with their values. -/
structure Call where
  input  : Txt
  output : Txt
  params : List (Txt × List Txt)
deriving DecidableEq, Repr

/-- A command that calls genny. -/
def readCall (s : Txt) : Option Call :=
  match words .gap s with
  | some [a, b, c, i, o, g, p] =>
    if a = "go".toList ∧ b = "run".toList ∧ c = "github.com/cheekybits/genny".toList ∧ g = "gen".toList then
      match strip "-in=".toList i, strip "-out=".toList o, readParams (cut ' ' p) with
      | some i, some o, some ps => some ⟨i, o, ps⟩
      | _, _, _ => none
    else none
  | _ => none

/-- The calls of the lines. -/
def readLines : List Txt → Option (List Call)
  | [] => some []
  | l :: ls =>
    match strip "//go:generate ".toList l with
    | none => readLines ls
    | some s =>
      match readCall s, readLines ls with
      | some c, some cs => some (c :: cs)
      | _, _ => none

/-- The calls of a file. -/
def readText (t : Txt) : Option (List Call) := readLines (cut '\n' t)

/-- The number a decimal numeral stands for. -/
def numeral (s : Txt) : Option Nat :=
  if s ≠ [] ∧ s.all (fun c => '0' ≤ c && c ≤ '9') then some (s.foldl (fun a c => a * 10 + (c.toNat - 48)) 0) else none

/-- The values of a parameter. -/
def Call.param (c : Call) (k : String) : Option (List Txt) := c.params.lookup k.toList

end Fbs.GenRead
