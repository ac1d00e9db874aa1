import Verif.Go
/-!
# The two goroutine pairs of the library

* `FindTree` (query/base/common.go 814-840): a producer goroutine walks the tree and sends matches into a
  channel of capacity 10; the caller receives.
* `Histories` (query/dump/histories.go): the caller appends entries and sends their indices into a channel
  of capacity 100; `streamOut` receives and prints.

Each is a transition system whose steps are the atomic actions of one goroutine; all interleavings are
covered because a step may be taken by either side whenever it is enabled.  A Go channel is a bounded FIFO
queue (a send into a full queue is not enabled); memory is sequentially consistent.
-/

namespace Fbs

/-- `n` consecutive steps of a transition relation. -/
inductive StepsN {σ : Type} (R : σ → σ → Prop) : Nat → σ → σ → Prop where
  | refl (s : σ) : StepsN R 0 s s
  | tail {n : Nat} {a b c : σ} : StepsN R n a b → R b c → StepsN R (n + 1) a c

/-- Reachability. -/
def Reach {σ : Type} (R : σ → σ → Prop) (a b : σ) : Prop := ∃ n, StepsN R n a b

/-- common.go 694-698 `Tree` (the node information is abstract). -/
inductive Rose (α : Type) where
  | node (val : α) (childs : List (Rose α))

namespace Rose
variable {α : Type}

def val : Rose α → α
  | node v _ => v

def childs : Rose α → List (Rose α)
  | node _ c => c

end Rose

/-- State of a `FindTree` call in progress. -/
structure FindSt (α : Type) where
  /-- one entry per active `findtree` call: the children it has not visited yet (common.go 818) -/
  frames : List (List (Rose α))
  /-- a value the producer is about to send (common.go 820) -/
  pending : Option (Rose α)
  /-- the channel (common.go 830) -/
  ch : List (Rose α)
  /-- common.go 835 -/
  closed : Bool
  /-- what the caller received so far -/
  rcvd : List (Rose α)
  /-- the caller observed the closed channel -/
  done : Bool
  /-- the caller stopped receiving -/
  stopped : Bool

/-- common.go 830: the capacity of the channel. -/
def findCap : Nat := 10

/-- common.go 828-838: the state right after `FindTree` returned. -/
def findInit {α : Type} (t : Rose α) : FindSt α :=
  { frames := [t.childs], pending := none, ch := [], closed := false, rcvd := [], done := false, stopped := false }

/-- common.go 816-838: the atomic steps of the producer goroutine. -/
inductive ProdStep {α : Type} (cond : Rose α → Bool) : FindSt α → FindSt α → Prop where
  /-- 818-819, 822: take the next child, evaluate the condition; the recursive call follows the send -/
  | visit (s : FindSt α) (c : Rose α) (cs : List (Rose α)) (fs : List (List (Rose α))) :
      s.frames = (c :: cs) :: fs → s.pending = none →
      ProdStep cond s { s with frames := c.childs :: cs :: fs, pending := if cond c then some c else none }
  /-- 820: `out <- child`, blocks while the queue is full -/
  | send (s : FindSt α) (c : Rose α) : s.pending = some c → s.ch.length < findCap →
      ProdStep cond s { s with pending := none, ch := s.ch ++ [c] }
  /-- end of the `for` loop: `findtree` returns to its caller -/
  | ret (s : FindSt α) (fs : List (List (Rose α))) : s.frames = [] :: fs → s.pending = none →
      ProdStep cond s { s with frames := fs }
  /-- 835: `close(ch)` -/
  | close (s : FindSt α) : s.frames = [] → s.pending = none → s.closed = false →
      ProdStep cond s { s with closed := true }

/-- The steps of a caller ranging over the returned channel. -/
inductive ConsStep {α : Type} : FindSt α → FindSt α → Prop where
  | recv (s : FindSt α) (c : Rose α) (r : List (Rose α)) : s.stopped = false → s.ch = c :: r →
      ConsStep s { s with ch := r, rcvd := s.rcvd ++ [c] }
  | seeClose (s : FindSt α) : s.stopped = false → s.ch = [] → s.closed = true → s.done = false →
      ConsStep s { s with done := true }

/-- The caller gives up. -/
inductive AbandonStep {α : Type} : FindSt α → FindSt α → Prop where
  | stop (s : FindSt α) : s.stopped = false → AbandonStep s { s with stopped := true }

/-- A search whose caller drains the channel. -/
def DrainStep {α : Type} (cond : Rose α → Bool) (s t : FindSt α) : Prop := ProdStep cond s t ∨ ConsStep s t

/-- A search whose caller may stop at any time. -/
def AnyStep {α : Type} (cond : Rose α → Bool) (s t : FindSt α) : Prop :=
  ProdStep cond s t ∨ ConsStep s t ∨ AbandonStep s t

/-! ## dump histories -/

/-- histories.go 43-46 `History`. -/
structure History where
  name : List Char
  dump : List Char
deriving DecidableEq, Repr

/-- Where the caller's goroutine is (histories.go 64-72, 151-158). -/
inductive MainPc where
  /-- about to run the next call -/
  | ready
  /-- 71: about to send the index -/
  | sending (i : Nat)
  /-- 153: about to send -1 -/
  | finSend
  /-- 155: `wg.Wait()` -/
  | waiting
  /-- 156 done -/
  | finished
deriving DecidableEq, Repr

/-- Where the `streamOut` goroutine is (histories.go 167-175). -/
inductive ConsPc where
  /-- `StreamOut` was not called -/
  | absent
  /-- 168: receiving -/
  | recv
  /-- 172: about to print entry `i` -/
  | print (i : Nat)
  /-- 174: `wg.Done()` executed -/
  | done
deriving DecidableEq, Repr

structure DumpSt where
  /-- entries the program still dumps; afterwards it calls `Finish` -/
  todo : List History
  main : MainPc
  cons : ConsPc
  logs : List History
  /-- channel of indices; `none` is -1 -/
  ch : List (Option Nat)
  closed : Bool
  out : List (List Char)

/-- histories.go 60: the capacity of the channel. -/
def dumpCap : Nat := 100

/-- histories.go 134-149 `StringBy`, with the diff library a fixed function of the two dumps;
`none`: index out of range panic. -/
def stringBy (diff : List Char → List Char → List Char) (logs : List History) (i : Nat) : Option (List Char) :=
  match logs[i]? with
  | none => none
  | some log =>
    if i = 0 then some (log.name ++ '\n' :: log.dump ++ ['\n'])
    else
      match logs[i - 1]? with
      | none => none
      | some prev => some (log.name ++ '\n' :: '\n' :: diff prev.dump log.dump ++ ['\n'])

/-- A program that (optionally) calls `StreamOut`, then dumps `es`, then calls `Finish`. -/
def dumpInit (stream : Bool) (es : List History) : DumpSt :=
  { todo := es, main := .ready, cons := if stream then .recv else .absent, logs := [], ch := [], closed := false,
    out := [] }

/-- The atomic steps of the caller. -/
inductive MainStep : DumpSt → DumpSt → Prop where
  /-- 66-70: build the entry and append it -/
  | append (s : DumpSt) (e : History) (es : List History) : s.main = .ready → s.todo = e :: es →
      MainStep s { s with todo := es, logs := s.logs ++ [e], main := .sending ((s.logs ++ [e]).length - 1) }
  /-- 71: blocks while the queue is full -/
  | send (s : DumpSt) (i : Nat) : s.main = .sending i → s.ch.length < dumpCap →
      MainStep s { s with ch := s.ch ++ [some i], main := .ready }
  /-- the program calls `Finish` -/
  | finish (s : DumpSt) : s.main = .ready → s.todo = [] → MainStep s { s with main := .finSend }
  /-- 153 -/
  | sendEnd (s : DumpSt) : s.main = .finSend → s.ch.length < dumpCap →
      MainStep s { s with ch := s.ch ++ [none], main := .waiting }
  /-- 155-156: the wait group is at zero iff `StreamOut` was not called or its goroutine finished -/
  | wait (s : DumpSt) : s.main = .waiting → (s.cons = .absent ∨ s.cons = .done) →
      MainStep s { s with main := .finished, closed := true }

/-- The atomic steps of `streamOut`. -/
inductive OutStep (diff : List Char → List Char → List Char) : DumpSt → DumpSt → Prop where
  /-- 168 -/
  | recv (s : DumpSt) (i : Nat) (r : List (Option Nat)) : s.cons = .recv → s.ch = some i :: r →
      OutStep diff s { s with ch := r, cons := .print i }
  /-- 169-170, 174 -/
  | stop (s : DumpSt) (r : List (Option Nat)) : s.cons = .recv → s.ch = none :: r →
      OutStep diff s { s with ch := r, cons := .done }
  /-- 172 -/
  | print (s : DumpSt) (i : Nat) (x : List Char) : s.cons = .print i → stringBy diff s.logs i = some x →
      OutStep diff s { s with cons := .recv, out := s.out ++ [x] }
  /-- 168: the channel was closed (the loop ends) -/
  | closed (s : DumpSt) : s.cons = .recv → s.ch = [] → s.closed = true → OutStep diff s { s with cons := .done }

def DumpStep (diff : List Char → List Char → List Char) (s t : DumpSt) : Prop := MainStep s t ∨ OutStep diff s t

end Fbs
