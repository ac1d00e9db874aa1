import Verif.TreeCond
import Verif.Props.Tree
/-!
# C95: the condition of a walk chooses among its calls
-/

namespace Fbs.Props
open Fbs Fbs.CNode

/-- The calls the condition lets through. -/
def chosen (cond : Int → Int → Int → Bool) (l : List Visit) : List Visit := l.filter fun v => cond v.parent v.child v.size

theorem callIf_chosen (cond : Int → Int → Int → Bool) (v : Visit) (l : List Visit) : callIf cond v ++ chosen cond l = chosen cond (v :: l) := by
  unfold callIf chosen
  rw [List.filter_cons]
  split <;> simp

theorem collect_chosen {α} {cond : Int → Int → Int → Bool} {f g : α → Go (List Visit)} : ∀ (l : List α),
    (∀ a ∈ l, f a = (g a).map (chosen cond)) → collect f l = (collect g l).map (chosen cond)
  | [], _ => rfl
  | a :: l, h => by
    unfold collect
    rw [h a List.mem_cons_self, collect_chosen l fun b hb => h b (List.mem_cons_of_mem _ hb)]
    cases g a with
    | none => rfl
    | some x =>
      cases collect g l with
      | none => rfl
      | some y => simp [chosen]

/-- C95: whatever the condition, `TraverseInfo` makes the calls it makes without a condition, in the same order,
without those the condition refuses; it panics where it panics without. -/
theorem walk_cond (s : Sch) (cond : Int → Int → Int → Bool) (k : Nat) :
    (∀ c, traverseCF s cond k c = (traverseF s k c).map (List.filter fun v => cond v.parent v.child v.size)) ∧
    (∀ c i, traverseCAt s cond k c i = (traverseAt s k c i).map (chosen cond)) ∧
    (∀ c, traverseCSliceF s cond k c = (traverseSliceF s k c).map (chosen cond)) := by
  induction k with
  | zero => exact ⟨fun c => by simp [traverseCF, traverseF], fun c i => by simp [traverseCAt, traverseAt], fun c => by simp [traverseCSliceF, traverseSliceF]⟩
  | succ k ih =>
    obtain ⟨h1, h2, h3⟩ := ih
    have h1 : ∀ c, traverseCF s cond k c = (traverseF s k c).map (chosen cond) := h1
    refine ⟨fun c => ?_, fun c i => ?_, fun c => ?_⟩
    · unfold traverseCF traverseF
      exact collect_chosen _ fun i _ => h2 c i
    · unfold traverseCAt traverseAt
      simp only [Option.bind_eq_bind, pure]
      have one : ∀ v, callIf cond v = chosen cond [v] := fun v => by unfold callIf chosen; simp [List.filter_cons]
      split
      · generalize (if s.isStruct c.name = true then some (structValueInfo s c i) else valueInfoF s k c i) = o
        cases o with
        | none => rfl
        | some v => simp only [Option.bind_some, Option.map_some, one]
      split
      · cases c.followUnion s i with
        | none => rfl
        | some w =>
          match w with
          | none => rfl
          | some (a, none) => rfl
          | some (a, some n) =>
            simp only [Option.bind_some]
            cases c.vtab i with
            | none => rfl
            | some v =>
              cases c.table i with
              | none => rfl
              | some t =>
                simp only [Option.bind_some]
                split
                · simp only [Option.bind_some, Option.map_some]
                  rw [← callIf_chosen]
                  rfl
                · rw [h1]
                  cases traverseF s k n with
                  | none => rfl
                  | some r => simp only [Option.bind_some, Option.map_some, callIf_chosen]
      · cases c.fieldAt s i with
        | none => rfl
        | some f =>
          simp only [Option.bind_some]
          split
          · cases f with
            | none => rfl
            | some n =>
              simp only [h3]
              cases traverseSliceF s k n with
              | none => rfl
              | some r => simp only [Option.bind_some, Option.map_some, callIf_chosen]
          · cases f with
            | none => rfl
            | some n =>
              simp only [h1]
              split
              · cases c.vtab i with
                | none => rfl
                | some v =>
                  cases c.table i with
                  | none => rfl
                  | some t =>
                    simp only [Option.bind_some]
                    split
                    · simp only [Option.bind_some, Option.map_some]
                      rw [← callIf_chosen]
                      rfl
                    · cases traverseF s k n with
                      | none => rfl
                      | some r => simp only [Option.bind_some, Option.map_some, callIf_chosen]
              · cases traverseF s k n with
                | none => rfl
                | some r => simp only [Option.bind_some, Option.map_some, callIf_chosen]
    · unfold traverseCSliceF traverseSliceF
      simp only [Option.bind_eq_bind, pure]
      cases c.all s with
      | none => rfl
      | some es =>
        simp only [Option.bind_some]
        apply collect_chosen
        intro p _
        rw [h1]
        cases traverseF s k p.1 with
        | none => rfl
        | some r => simp only [Option.bind_some, Option.map_some, callIf_chosen]

/-- C95: a condition that refuses everything means that the function is never called. -/
theorem walk_cond_never (s : Sch) (k : Nat) (c : CNode) (l : List Visit) (h : traverseCF s (fun _ _ _ => false) k c = some l) : l = [] := by
  rw [(walk_cond s _ k).1] at h
  cases hw : traverseF s k c with
  | none => rw [hw] at h; cases h
  | some r =>
    rw [hw] at h
    simp only [Option.map_some, Option.some.injEq] at h
    rw [← h]; simp

-- a condition can let some calls through and refuse others
example : ∃ l l', traverseF treeSch 9 treeMsg = some l ∧ traverseCF treeSch (fun _ ch _ => ch > 50) 9 treeMsg = some l' ∧ 0 < l'.length ∧ l'.length < l.length :=
  ⟨_, _, rfl, rfl, by decide, by decide⟩

end Fbs.Props
