import Verif.Log
/-!
# Properties of logging (C61, C62)
-/

namespace Fbs.Props
open Fbs

/-- C61: above the current level nothing happens at all - the callback does not run (it could have
changed any part of the state) and nothing is printed. -/
theorem log_disabled (st : LogSt) (l : Nat) (fn : LogSt → LogSt × Name) (h : st.level < l) : logFn st l fn = st := by
  simp [logFn, h]

/-- C61: at or below the current level the callback runs exactly once and its text, with the level
prefix, is appended to the configured writer. -/
theorem log_enabled (st : LogSt) (l : Nat) (text : Name) (h : l ≤ st.level) (hd : st.dest = .ext) :
    logFn st l (fun s => ({ s with ran := s.ran + 1 }, text)) =
      { st with ran := st.ran + 1, out := st.out ++ (logPrefix l ++ text) } := by
  simp only [logFn]
  rw [if_neg (by omega)]
  simp [LogSt.emit, hd]

/-- C61: the decision, for every callback: it prints iff the level is enabled. -/
theorem log_iff (st : LogSt) (l : Nat) (hd : st.dest = .ext) :
    ((logFn st l (fun s => (s, "x".toList))).out ≠ st.out) ↔ l ≤ st.level := by
  unfold logFn
  by_cases h : st.level < l
  · simp [h]
  · rw [if_neg h]
    simp only [LogSt.emit, hd]
    constructor
    · intro _; omega
    · intro _ e
      have := congrArg List.length e
      simp at this

example : (logFn { level := 1 } 2 (fun s => ({ s with ran := 1 }, "a".toList))).ran = 0 ∧
    (logFn { level := 1 } 1 (fun s => ({ s with ran := 1 }, "a".toList))).out = "W: a".toList := by decide

/-- A callback that only logs: while `LogW` is a builder it writes to builders only, restores `LogW` and
keeps the builders that exist.  `FF` (used by `L2fmt`) is one, see `ff_wellBehaved`. -/
structure OnlyLogs (f : LogSt → LogSt) : Prop where
  out : ∀ st i, st.dest = .builder i → i < st.builders.length → (f st).out = st.out
  dest : ∀ st, (f st).dest = st.dest
  keep : ∀ st, st.builders.length ≤ (f st).builders.length

theorem ff_wellBehaved (s : Name) : OnlyLogs (fun st => ff st s) := by
  refine ⟨?_, ?_, ?_⟩
  · intro st i h _; simp [ff, LogSt.emit, h]
  · intro st; unfold ff LogSt.emit; split <;> rfl
  · intro st; unfold ff LogSt.emit; split <;> simp

theorem neoLog_out (st : LogSt) (l : Nat) (f : LogSt → LogSt) (hf : OnlyLogs f) :
    (neoLog st l f).out = st.out ∧ (neoLog st l f).dest = st.dest := by
  unfold neoLog
  split
  · exact ⟨rfl, rfl⟩
  · refine ⟨?_, rfl⟩
    let st1 : LogSt := { st with dest := .builder st.builders.length, builders := st.builders ++ [logPrefix l] }
    have hd : (f st1).dest = .builder st.builders.length := hf.dest st1
    have ho : (f st1).out = st.out := hf.out st1 _ rfl (by simp [st1])
    show ((f st1).emit _).out = st.out
    unfold LogSt.emit
    rw [hd]
    exact ho

/-- C62 fails, in the strongest form: whatever the levels, the filter and the messages, no text passed to
`Log2` ever reaches the configured writer (the builder's text is written back into the builder). -/
theorem log2_never_prints_fails (st : LogSt) (p : Log2Param) (hfn : p.fn = none)
    (hf : ∀ f ∈ p.logfns, OnlyLogs f) : (log2 st p).out = st.out := by
  unfold log2
  simp only []
  have hdef : ∀ (s : LogSt) (o : Nat) (a : Option (LogSt → LogSt)), (∀ g, a = some g → OnlyLogs g) →
      (log2Defer p o a s).out = s.out := by
    intro s o a ha
    unfold log2Defer
    rw [hfn]
    cases a with
    | none => rfl
    | some g =>
      simp only []
      exact (neoLog_out _ p.level g (ha g rfl)).1
  split
  · exact hdef _ _ _ (by simp)
  · rw [hdef _ _ _ (fun g hg => hf g (List.mem_of_getElem? hg))]
    split
    · rename_i f l he
      exact (neoLog_out _ p.level f (hf f (by rw [he]; simp))).1
    · rfl

/-- C62: concretely, an enabled message is lost. -/
theorem log2_fails : ∃ (st : LogSt) (p : Log2Param), l2isEnable st p.level p.filter = true ∧
    p.logfns.length = 1 ∧ (log2 st p).out = [] :=
  ⟨{ stLevel := 1, stFilter := 8 }, { level := 1, filter := 8, logfns := [fun st => ff st "hello".toList] }, by decide⟩

/-- C62 (partial): the level is restored provided the level of the log package equals that of the base
package before the call (the saved value is read from the other package's variable). -/
theorem log2_restores_partial (st : LogSt) (p : Log2Param) (h : st.pkgLevel = st.level) (hfn : p.fn = none) :
    (log2 st p).level = st.level := by
  unfold log2 log2Defer
  simp only [hfn]
  split
  · rfl
  · cases p.logfns[1]? <;> exact h

/-- C62 fails: otherwise the level changes. -/
theorem log2_restores_fails : ∃ (st : LogSt) (p : Log2Param), st.level = 1 ∧ (log2 st p).level = 0 :=
  ⟨{ level := 1, pkgLevel := 0 }, { level := 1, filter := 2 }, by decide⟩

/-- C62: the function given with `L2OptRun` runs exactly once, whatever the filter. -/
theorem log2_runs_once (st : LogSt) (p : Log2Param) (h : p.logfns = []) :
    (log2 st { p with fn := some fun s => { s with ran := s.ran + 1 } }).ran = st.ran + 1 := by
  unfold log2 log2Defer
  simp only [h]
  split <;> rfl

/-- C62: `L2isEnable` is the conjunction of the level and the filter tests. -/
theorem l2isEnable_iff (st : LogSt) (level filter : Nat) :
    l2isEnable st level filter = true ↔ level ≤ st.stLevel ∧ st.stFilter &&& filter ≠ 0 := by
  unfold l2isEnable
  by_cases h : st.stLevel < level
  · rw [if_pos h]; simp; omega
  · rw [if_neg h]
    by_cases h2 : st.stFilter &&& filter = 0
    · rw [if_pos h2]; simp [h2]
    · rw [if_neg h2]; simp [h2]; omega

end Fbs.Props
