import Verif.Registry
import Verif.Props.Gen
import Mathlib.Data.List.Perm.Basic
import Mathlib.Data.List.Nodup
import Mathlib.Data.List.Induction
import Mathlib.Tactic.ByContra
/-!
# C88, C89: what nodes see after the types have been registered
-/

namespace Fbs.Props
open Fbs

/-! ## maps -/

section
variable {κ α : Type} [DecidableEq κ]

theorem gomap_get_map (m : GoMap κ α) (k k' : κ) (v : α) :
    GoMap.get (m.map fun p => if p.1 = k then (k, v) else p) k' = if k' = k then (GoMap.get m k).map (fun _ => v) else GoMap.get m k' := by
  unfold GoMap.get
  induction m with
  | nil => simp
  | cons p m ih =>
    simp only [List.map_cons, List.find?_cons]
    by_cases h1 : p.1 = k
    · subst h1
      by_cases h2 : k' = p.1
      · subst h2; simp
      · have h3 : ¬ p.1 = k' := fun h => h2 h.symm
        simp only [if_true, h2, if_false, h3, decide_false] at ih ⊢
        exact ih
    · by_cases h2 : k' = k
      · subst h2
        simp only [h1, if_false, if_true, decide_false] at ih ⊢
        exact ih
      · by_cases h3 : p.1 = k'
        · simp [h2, h3]
        · simp only [h1, h2, h3, if_false, decide_false] at ih ⊢
          exact ih

theorem gomap_get_set (m : GoMap κ α) (k k' : κ) (v : α) :
    (m.set k v).get k' = if k' = k then some v else m.get k' := by
  unfold GoMap.set
  by_cases h : (m.get k).isSome = true
  · rw [if_pos h, gomap_get_map]
    obtain ⟨w, hw⟩ := Option.isSome_iff_exists.mp h
    rw [hw]; rfl
  · rw [if_neg h]
    have h' : m.get k = none := by simpa using h
    have h1 : m.find? (fun p => p.1 = k) = none := by
      unfold GoMap.get at h'; simpa using h'
    by_cases h2 : k' = k
    · subst h2
      simp [GoMap.get, List.find?_append, h1]
    · have h3 : ¬ k = k' := fun h => h2 h.symm
      rw [if_neg h2]
      simp [GoMap.get, List.find?_append, h3]

theorem gomap_isSome (m : GoMap κ α) (k : κ) : (m.get k).isSome = true ↔ k ∈ m.map (·.1) := by
  unfold GoMap.get
  rw [Option.isSome_map, List.find?_isSome]
  simp

theorem gomap_keys_set (m : GoMap κ α) (k : κ) (v : α) :
    (m.set k v).map (·.1) = if k ∈ m.map (·.1) then m.map (·.1) else m.map (·.1) ++ [k] := by
  unfold GoMap.set
  by_cases h : (m.get k).isSome = true
  · rw [if_pos h, if_pos ((gomap_isSome m k).mp h), List.map_map]
    apply List.map_congr_left
    intro p _
    simp only [Function.comp]
    split
    · rename_i h; exact h.symm
    · rfl
  · rw [if_neg h, if_neg (fun hh => h ((gomap_isSome m k).mpr hh))]
    simp

theorem gomap_nodup_set (m : GoMap κ α) (k : κ) (v : α) (h : (m.map (·.1)).Nodup) : ((m.set k v).map (·.1)).Nodup := by
  rw [gomap_keys_set]
  split
  · exact h
  · rename_i hk
    rw [List.nodup_append]
    refine ⟨h, by simp, ?_⟩
    intro a ha b hb
    rw [List.mem_singleton] at hb
    subst hb
    exact fun e => hk (e ▸ ha)

/-- Maps with the same keys have the same length. -/
theorem gomap_length {β : Type} (m : GoMap κ α) (m' : GoMap κ β) (h : (m.map (·.1)).Nodup) (h' : (m'.map (·.1)).Nodup)
    (he : ∀ k, (m.get k).isSome = (m'.get k).isSome) : m.length = m'.length := by
  have : (m.map (·.1)).Perm (m'.map (·.1)) := by
    rw [List.perm_ext_iff_of_nodup h h']
    intro k
    rw [← gomap_isSome, ← gomap_isSome, he k]
  simpa using this.length_eq

end

/-! ## what a history declares -/

/-- The type declared last for a field of a node. -/
def declType (h : List Event) (n : Name) (k : Nat) : Option Name :=
  h.reverse.findSome? fun
    | .field n' _ ty k' => if n' = n ∧ k' = k then some ty else none
    | _ => none

/-- The number declared last for a field name of a node. -/
def declNum (h : List Event) (n f : Name) : Option Nat :=
  h.reverse.findSome? fun
    | .field n' f' _ k => if n' = n ∧ f' = f then some k else none
    | _ => none

/-- Declared to be a struct. -/
def DeclStruct (h : List Event) (n : Name) : Prop := Event.struct n "true".toList ∈ h ∨ Event.struct n "True".toList ∈ h

/-- The members declared for a union, in order. -/
def declMembers (h : List Event) (u : Name) : List Name :=
  h.filterMap fun
    | .member u' a => if u' = u then some a else none
    | _ => none

/-- Every field has one type and one number, and no type name is shorter than two characters. -/
structure Consistent (h : List Event) : Prop where
  type : ∀ n f f' t t' k, Event.field n f t k ∈ h → Event.field n f' t' k ∈ h → t = t'
  num  : ∀ n f t t' k k', Event.field n f t k ∈ h → Event.field n f t' k' ∈ h → k = k'
  long : ∀ n f t k, Event.field n f t k ∈ h → 2 ≤ t.length

theorem declType_snoc (h : List Event) (e : Event) (n : Name) (k : Nat) :
    declType (h ++ [e]) n k = match e with
      | .field n' _ ty k' => if n' = n ∧ k' = k then some ty else declType h n k
      | _ => declType h n k := by
  unfold declType
  rw [List.reverse_append, List.reverse_singleton, List.singleton_append, List.findSome?_cons]
  cases e with
  | struct => rfl
  | member => rfl
  | field n' f ty k' =>
    simp only
    by_cases hh : n' = n ∧ k' = k
    · simp [hh]
    · simp [hh]

theorem declNum_snoc (h : List Event) (e : Event) (n f : Name) :
    declNum (h ++ [e]) n f = match e with
      | .field n' f' _ k => if n' = n ∧ f' = f then some k else declNum h n f
      | _ => declNum h n f := by
  unfold declNum
  rw [List.reverse_append, List.reverse_singleton, List.singleton_append, List.findSome?_cons]
  cases e with
  | struct => rfl
  | member => rfl
  | field n' f' ty k' =>
    simp only
    by_cases hh : n' = n ∧ f' = f
    · simp [hh]
    · simp [hh]

theorem declMembers_snoc (h : List Event) (e : Event) (u : Name) :
    declMembers (h ++ [e]) u = declMembers h u ++ (match e with | .member u' a => if u' = u then [a] else [] | _ => []) := by
  unfold declMembers
  rw [List.filterMap_append]
  congr 1
  cases e with
  | struct => rfl
  | field => rfl
  | member u' a => by_cases hh : u' = u <;> simp [hh]

theorem declType_mem {h : List Event} {n : Name} {k : Nat} {ty : Name} (hd : declType h n k = some ty) : ∃ f, Event.field n f ty k ∈ h := by
  unfold declType at hd
  obtain ⟨e, he, hh⟩ := List.exists_of_findSome?_eq_some hd
  rw [List.mem_reverse] at he
  cases e with
  | struct => cases hh
  | member => cases hh
  | field n' f t k' =>
    simp only at hh
    split at hh
    · rename_i hc
      obtain ⟨rfl, rfl⟩ := hc
      cases hh
      exact ⟨f, he⟩
    · cases hh

theorem declType_of_mem {h : List Event} (hc : Consistent h) {n f ty : Name} {k : Nat} (hm : Event.field n f ty k ∈ h) : declType h n k = some ty := by
  cases hd : declType h n k with
  | none =>
    unfold declType at hd
    have := List.findSome?_eq_none_iff.mp hd _ (List.mem_reverse.mpr hm)
    simp at this
  | some t =>
    obtain ⟨f', hf'⟩ := declType_mem hd
    rw [hc.type n f' f t ty k hf' hm]

theorem declNum_of_mem {h : List Event} (hc : Consistent h) {n f ty : Name} {k : Nat} (hm : Event.field n f ty k ∈ h) : declNum h n f = some k := by
  cases hd : declNum h n f with
  | none =>
    unfold declNum at hd
    have := List.findSome?_eq_none_iff.mp hd _ (List.mem_reverse.mpr hm)
    simp at this
  | some t =>
    unfold declNum at hd
    obtain ⟨e, he, hh⟩ := List.exists_of_findSome?_eq_some hd
    rw [List.mem_reverse] at he
    cases e with
    | struct => cases hh
    | member => cases hh
    | field n' f' t' k' =>
      simp only at hh
      split at hh
      · rename_i hcc
        obtain ⟨rfl, rfl⟩ := hcc
        cases hh
        rw [hc.num _ _ _ _ _ _ he hm]
      · cases hh

/-! ## the registry after a history -/

/-- A type name of two or more characters has a group. -/
theorem group_total (r : Reg) (ty : Name) (h : 2 ≤ ty.length) : ∃ g, getTypeGroup r ty = some g := by
  unfold getTypeGroup
  cases nameToType ty with
  | some t => exact ⟨_, rfl⟩
  | none =>
    simp only
    split
    · exact ⟨_, rfl⟩
    · split
      · exact ⟨_, rfl⟩
      · rw [if_neg (by omega)]
        cases nameToType (ty.drop 2) with
        | some t => exact ⟨_, rfl⟩
        | none => simp only; split <;> exact ⟨_, rfl⟩

/-- The requests made by a history. -/
def declRequests (h : List Event) : List (Name × Name × Nat) :=
  h.filterMap fun
    | .field n _ ty k => some (n, ty, k)
    | _ => none

structure RegInv (h : List Event) (r : Registry) : Prop where
  struct : ∀ n, r.reg.isStruct n = true ↔ DeclStruct h n
  unions : ∀ u, r.reg.unions u = if declMembers h u = [] then none else some (declMembers h u)
  names  : ∀ n k, (r.names n).get k = declType h n k
  types  : ∀ n k, (r.types n).get k = (declType h n k).bind nameToType
  idx    : ∀ n f, (r.idx n).get f = declNum h n f
  groups : ∀ n k, ((r.groups n).get k).isSome = (declType h n k).isSome
  nodup  : ∀ n, ((r.groups n).map (·.1)).Nodup
  reqs   : r.requests = declRequests h

theorem reg_run_snoc (r : Registry) (h : List Event) (e : Event) : r.run (h ++ [e]) = (r.run h).bind fun r' => r'.step e := by
  induction h generalizing r with
  | nil =>
    simp only [List.nil_append, Registry.run, Option.bind_eq_bind, Option.bind_some]
    cases r.step e <;> rfl
  | cons a h ih =>
    simp only [List.cons_append, Registry.run, Option.bind_eq_bind]
    cases r.step a with
    | none => rfl
    | some r' => simp only [Option.bind_some]; exact ih r'

theorem reg_inv (h : List Event) : ∀ (_ : Consistent h), ∃ r, Registry.run {} h = some r ∧ RegInv h r := by
  induction h using List.reverseRecOn with
  | nil =>
    intro _
    refine ⟨{}, rfl, ⟨?_, ?_, ?_, ?_, ?_, ?_, ?_, rfl⟩⟩ <;> intros <;> simp [DeclStruct, declMembers, declType, declNum, GoMap.get]
  | append_singleton h e ih =>
    intro hc
    obtain ⟨r, hr, hi⟩ := ih ⟨fun n f f' t t' k a b => hc.type n f f' t t' k (by simp [a]) (by simp [b]),
      fun n f t t' k k' a b => hc.num n f t t' k k' (by simp [a]) (by simp [b]), fun n f t k a => hc.long n f t k (by simp [a])⟩
    rw [reg_run_snoc, hr, Option.bind_some]
    cases e with
    | struct n flag =>
      refine ⟨_, rfl, ?_⟩
      have hs : ∀ m, (if Registry.toBool flag then { r with reg := r.reg.setStruct n } else r).reg.isStruct m = true ↔ DeclStruct (h ++ [.struct n flag]) m := by
        intro m
        have hm : DeclStruct (h ++ [.struct n flag]) m ↔ DeclStruct h m ∨ (m = n ∧ Registry.toBool flag = true) := by
          unfold DeclStruct Registry.toBool
          simp only [List.mem_append, List.mem_singleton, Event.struct.injEq, Bool.or_eq_true, decide_eq_true_eq]
          constructor
          · rintro ((h | ⟨rfl, rfl⟩) | (h | ⟨rfl, rfl⟩)) <;> simp_all
          · rintro ((h | h) | ⟨rfl, rfl | rfl⟩) <;> simp_all
        rw [hm, ← hi.struct m]
        by_cases hb : Registry.toBool flag = true
        · rw [if_pos hb]
          simp only [Reg.setStruct, hb, and_true]
          by_cases hmn : m = n <;> simp [hmn]
        · rw [if_neg hb]; simp [hb]
      have hdt : ∀ n' k, declType (h ++ [.struct n flag]) n' k = declType h n' k := fun n' k => by rw [declType_snoc]
      have hdn : ∀ n' k, declNum (h ++ [.struct n flag]) n' k = declNum h n' k := fun n' k => by rw [declNum_snoc]
      have hdm : ∀ u, declMembers (h ++ [.struct n flag]) u = declMembers h u := fun u => by rw [declMembers_snoc]; simp
      have hdr : declRequests (h ++ [.struct n flag]) = declRequests h := by simp [declRequests]
      refine ⟨hs, ?_, ?_, ?_, ?_, ?_, ?_, ?_⟩
      all_goals (try intro _); (try intro _); (try simp only [hdt, hdn, hdm, hdr])
      · rw [← hi.unions]; split <;> rfl
      · rw [← hi.names]; split <;> rfl
      · rw [← hi.types]; split <;> rfl
      · rw [← hi.idx]; split <;> rfl
      · rw [← hi.groups]; split <;> rfl
      · rename_i m; have := hi.nodup m; split <;> exact this
      · rw [← hi.reqs]; split <;> rfl
    | member u a =>
      refine ⟨_, rfl, ?_⟩
      have hdt : ∀ n' k, declType (h ++ [.member u a]) n' k = declType h n' k := fun n' k => by rw [declType_snoc]
      have hdn : ∀ n' k, declNum (h ++ [.member u a]) n' k = declNum h n' k := fun n' k => by rw [declNum_snoc]
      have hdr : declRequests (h ++ [.member u a]) = declRequests h := by simp [declRequests]
      refine ⟨?_, ?_, ?_, ?_, ?_, ?_, hi.nodup, ?_⟩
      · intro n
        rw [show DeclStruct (h ++ [.member u a]) n ↔ DeclStruct h n by unfold DeclStruct; simp]
        exact hi.struct n
      · intro u'
        rw [declMembers_snoc]
        simp only [Reg.setAlias]
        by_cases hu : u' = u
        · subst hu
          simp only [if_true, hi.unions]
          split <;> simp_all
        · have hu' : ¬ u = u' := fun h => hu h.symm
          simp [hu, hu', hi.unions]
      · intro n k; rw [hdt]; exact hi.names n k
      · intro n k; rw [hdt]; exact hi.types n k
      · intro n k; rw [hdn]; exact hi.idx n k
      · intro n k; rw [hdt]; exact hi.groups n k
      · rw [hdr]; exact hi.reqs
    | field n f ty num =>
      obtain ⟨g, hg⟩ := group_total r.reg ty (hc.long n f ty num (by simp))
      have hold : ∀ t, declType h n num = some t → t = ty := by
        intro t ht
        obtain ⟨f', hf'⟩ := declType_mem ht
        exact hc.type n f' f t ty num (by simp [hf']) (by simp)
      have hdm : ∀ u, declMembers (h ++ [.field n f ty num]) u = declMembers h u := fun u => by rw [declMembers_snoc]; simp
      have hdr : declRequests (h ++ [.field n f ty num]) = declRequests h ++ [(n, ty, num)] := by simp [declRequests]
      have hst : ∃ r', r.step (.field n f ty num) = some r' ∧ r'.reg = r.reg ∧ r'.requests = r.requests ++ [(n, ty, num)] ∧
          (∀ m k, (r'.names m).get k = if m = n ∧ k = num then some ty else (r.names m).get k) ∧
          (∀ m k, (r'.groups m).get k = if m = n ∧ k = num then some g else (r.groups m).get k) ∧
          (∀ m k, (r'.idx m).get k = if m = n ∧ k = f then some num else (r.idx m).get k) ∧
          (∀ m k, (r'.types m).get k = if m = n ∧ k = num then (nameToType ty).or ((r.types m).get k) else (r.types m).get k) ∧
          (∀ m, ((r'.groups m).map (·.1)).Nodup) := by
        have key : ∀ {κ α : Type} [DecidableEq κ] (F : Name → GoMap κ α) (k0 : κ) (v : α) (m : Name) (k : κ),
            (Registry.upd F n ((F n).set k0 v) m).get k = if m = n ∧ k = k0 then some v else (F m).get k := by
          intro κ α _ F k0 v m k
          unfold Registry.upd
          by_cases hm : m = n
          · subst hm; rw [if_pos rfl, gomap_get_set]; simp
          · rw [if_neg hm]; simp [hm]
        simp only [Registry.step, Registry.setField]
        cases ht : nameToType ty with
        | none =>
          simp only [Option.bind_eq_bind, hg, Option.bind_some, pure]
          refine ⟨_, rfl, rfl, rfl, ?_, fun m k => key .., fun m k => key .., ?_, ?_⟩
          · intro m k
            simp only
            rw [key, key]; split <;> rfl
          · intro m k; simp
          · intro m
            simp only [Registry.upd]
            split
            · exact gomap_nodup_set _ _ _ (hi.nodup n)
            · exact hi.nodup m
        | some t =>
          simp only [Option.bind_eq_bind, hg, Option.bind_some, pure]
          refine ⟨_, rfl, rfl, rfl, ?_, fun m k => key .., fun m k => key .., ?_, ?_⟩
          · intro m k
            simp only
            rw [key, key]; split <;> rfl
          · intro m k; simp only; rw [key]; rfl
          · intro m
            simp only [Registry.upd]
            split
            · exact gomap_nodup_set _ _ _ (hi.nodup n)
            · exact hi.nodup m
      obtain ⟨r', h1, h2, h3, h4, h5, h6, h7, h8⟩ := hst
      refine ⟨r', h1, ⟨?_, ?_, ?_, ?_, ?_, ?_, h8, ?_⟩⟩
      · intro m
        rw [h2, show DeclStruct (h ++ [.field n f ty num]) m ↔ DeclStruct h m by unfold DeclStruct; simp]
        exact hi.struct m
      · intro u; rw [h2, hdm]; exact hi.unions u
      · intro m k
        rw [h4, declType_snoc, hi.names]
        simp only [eq_comm]
      · intro m k
        rw [h7, declType_snoc, hi.types]
        by_cases hh : m = n ∧ k = num
        · obtain ⟨rfl, rfl⟩ := hh
          simp only [and_self, if_true, Option.bind_some]
          cases hd : declType h m k with
          | none => cases nameToType ty <;> rfl
          | some t => rw [hold t hd]; simp
        · have hh' : ¬ (n = m ∧ num = k) := fun h => hh ⟨h.1.symm, h.2.symm⟩
          simp only [hh, hh', if_false]
      · intro m k
        rw [h6, declNum_snoc, hi.idx]
        simp only [eq_comm]
      · intro m k
        rw [h5, declType_snoc]
        by_cases hh : m = n ∧ k = num
        · obtain ⟨rfl, rfl⟩ := hh; simp
        · have hh' : ¬ (n = m ∧ num = k) := fun h => hh ⟨h.1.symm, h.2.symm⟩
          simp only [hh, hh', if_false]; exact hi.groups m k
      · rw [h3, hdr, hi.reqs]

theorem reg_applyAll (T : Name → Nat → Option Name) : ∀ (qs : List (Name × Name × Nat)) (r : Registry)
    (_ : ∀ q ∈ qs, T q.1 q.2.2 = some q.2.1 ∧ 2 ≤ q.2.1.length ∧ r.groups q.1 ≠ []) (_ : ∀ n, ((r.groups n).map (·.1)).Nodup),
    ∃ r', r.applyAll qs = some r' ∧ r'.reg = r.reg ∧ r'.names = r.names ∧ r'.types = r.types ∧ r'.idx = r.idx ∧
      (∀ m k, (∃ q ∈ qs, q.1 = m ∧ q.2.2 = k) → (r'.groups m).get k = (T m k).bind (getTypeGroup r.reg)) ∧
      (∀ m k, (¬ ∃ q ∈ qs, q.1 = m ∧ q.2.2 = k) → (r'.groups m).get k = (r.groups m).get k) ∧ ∀ n, ((r'.groups n).map (·.1)).Nodup
  | [], r, _, hn => ⟨r, rfl, rfl, rfl, rfl, rfl, fun _ _ ⟨_, hq, _⟩ => (by cases hq), fun _ _ _ => rfl, hn⟩
  | q :: qs, r, hq, hn => by
    obtain ⟨q1, q2, q3⟩ := hq q (by simp)
    obtain ⟨g, hg⟩ := group_total r.reg q.2.1 q2
    have h1 : r.applyOne q = some { r with groups := Registry.upd r.groups q.1 ((r.groups q.1).set q.2.2 g) } := by
      unfold Registry.applyOne
      rw [hg]
      simp only [Option.bind_eq_bind, Option.bind_some, List.isEmpty_iff, q3, if_false, pure]
    have hset : ∀ (m : GoMap Nat Nat) k v, m.set k v ≠ [] := by
      intro m k v he
      have := gomap_get_set m k k v
      rw [he] at this
      simp [GoMap.get] at this
    obtain ⟨r', a1, a2, a3, a4, a5, a6, a7, a8⟩ := reg_applyAll T qs { r with groups := Registry.upd r.groups q.1 ((r.groups q.1).set q.2.2 g) }
      (by
        intro p hp
        obtain ⟨p1, p2, p3⟩ := hq p (by simp [hp])
        refine ⟨p1, p2, ?_⟩
        simp only [Registry.upd]
        split
        · exact hset _ _ _
        · exact p3)
      (by
        intro n
        simp only [Registry.upd]
        split
        · exact gomap_nodup_set _ _ _ (hn q.1)
        · exact hn n)
    refine ⟨r', ?_, a2, a3, a4, a5, ?_, ?_, a8⟩
    · simp only [Registry.applyAll, h1, Option.bind_eq_bind, Option.bind_some]; exact a1
    · rintro m k ⟨p, hp, hpm, hpk⟩
      by_cases hrest : ∃ q ∈ qs, q.1 = m ∧ q.2.2 = k
      · exact a6 m k hrest
      · rw [a7 m k hrest]
        rcases List.mem_cons.mp hp with rfl | hp
        · subst hpm hpk
          simp only [Registry.upd, if_true, gomap_get_set, q1, Option.bind_some, hg]
        · exact absurd ⟨p, hp, hpm, hpk⟩ hrest
    · intro m k hno
      rw [a7 m k (fun ⟨p, hp, hh⟩ => hno ⟨p, by simp [hp], hh⟩)]
      simp only [Registry.upd]
      by_cases hm : m = q.1
      · subst hm
        rw [if_pos rfl, gomap_get_set, if_neg]
        rintro rfl
        exact hno ⟨q, by simp, rfl, rfl⟩
      · rw [if_neg hm]

/-! ## C88 -/

/-- C88: after any history of registrations and `ApplyRequestNameFields`, which never panic, each field of each
node has the declared type and number, and the group of that type in the light of all registrations. -/
theorem registry_exact (h : List Event) (hc : Consistent h) :
    ∃ r r', Registry.run {} h = some r ∧ r.apply = some r' ∧
      (∀ n, r'.reg.isStruct n = true ↔ DeclStruct h n) ∧
      (∀ u, r'.reg.unions u = if declMembers h u = [] then none else some (declMembers h u)) ∧
      (∀ n k, (r'.names n).get k = declType h n k) ∧
      (∀ n k, (r'.types n).get k = (declType h n k).bind nameToType) ∧
      (∀ n f, (r'.idx n).get f = declNum h n f) ∧
      (∀ n k, (r'.groups n).get k = (declType h n k).bind (getTypeGroup r'.reg)) ∧
      (∀ n, ((r'.groups n).map (·.1)).Nodup) ∧ r'.requests = [] := by
  obtain ⟨r, hr, hi⟩ := reg_inv h hc
  have hreq : ∀ q, q ∈ r.requests ↔ ∃ f, Event.field q.1 f q.2.1 q.2.2 ∈ h := by
    intro q
    rw [hi.reqs]
    unfold declRequests
    rw [List.mem_filterMap]
    constructor
    · rintro ⟨e, he, hq⟩
      cases e with
      | struct => cases hq
      | member => cases hq
      | field n f t k => cases hq; exact ⟨f, he⟩
    · rintro ⟨f, hf⟩
      exact ⟨_, hf, rfl⟩
  obtain ⟨r', a1, a2, a3, a4, a5, a6, a7, a8⟩ := reg_applyAll (declType h) r.requests r
    (by
      intro q hq
      obtain ⟨f, hf⟩ := (hreq q).mp hq
      refine ⟨declType_of_mem hc hf, hc.long _ _ _ _ hf, ?_⟩
      intro he
      have := hi.groups q.1 q.2.2
      rw [he, declType_of_mem hc hf] at this
      simp [GoMap.get] at this) hi.nodup
  refine ⟨r, { r' with requests := [] }, hr, ?_, ?_, ?_, ?_, ?_, ?_, ?_, a8, rfl⟩
  · unfold Registry.apply; rw [a1]; rfl
  · intro n; simp only [a2]; exact hi.struct n
  · intro u; simp only [a2]; exact hi.unions u
  · intro n k; simp only [a3]; exact hi.names n k
  · intro n k; simp only [a4]; exact hi.types n k
  · intro n k; simp only [a5]; exact hi.idx n k
  · intro n k
    simp only
    cases hd : declType h n k with
    | some ty =>
      obtain ⟨f, hf⟩ := declType_mem hd
      rw [a6 n k ⟨(n, ty, k), (hreq _).mpr ⟨f, hf⟩, rfl, rfl⟩, hd, a2]
    | none =>
      rw [a7 n k]
      · have := hi.groups n k
        rw [hd] at this
        simpa using this
      · rintro ⟨q, hq, rfl, rfl⟩
        obtain ⟨f, hf⟩ := (hreq q).mp hq
        rw [declType_of_mem hc hf] at hd
        cases hd

theorem perm_decl {h h' : List Event} (hp : h.Perm h') (hc : Consistent h) : Consistent h' :=
  ⟨fun n f f' t t' k a b => hc.type n f f' t t' k (hp.mem_iff.mpr a) (hp.mem_iff.mpr b),
   fun n f t t' k k' a b => hc.num n f t t' k k' (hp.mem_iff.mpr a) (hp.mem_iff.mpr b),
   fun n f t k a => hc.long n f t k (hp.mem_iff.mpr a)⟩

theorem perm_declType {h h' : List Event} (hp : h.Perm h') (hc : Consistent h) (n : Name) (k : Nat) : declType h' n k = declType h n k := by
  cases hd : declType h n k with
  | some t =>
    obtain ⟨f, hf⟩ := declType_mem hd
    exact declType_of_mem (perm_decl hp hc) (hp.mem_iff.mp hf)
  | none =>
    cases hd' : declType h' n k with
    | none => rfl
    | some t =>
      obtain ⟨f, hf⟩ := declType_mem hd'
      rw [declType_of_mem hc (hp.mem_iff.mpr hf)] at hd
      cases hd

/-- C88: the order of the registrations does not matter: after `ApplyRequestNameFields` the types are the same
for any two orders that agree on the members of each union. -/
theorem registry_order (h h' : List Event) (hc : Consistent h) (hp : h.Perm h') (hm : ∀ u, declMembers h u = declMembers h' u) :
    ∃ r r' : Registry, (Registry.run {} h).bind Registry.apply = some r ∧ (Registry.run {} h').bind Registry.apply = some r' ∧ r.toSch = r'.toSch := by
  obtain ⟨r0, r, a1, a2, a3, a4, a5, a6, a7, a8, a9, a10⟩ := registry_exact h hc
  obtain ⟨r0', r', b1, b2, b3, b4, b5, b6, b7, b8, b9, b10⟩ := registry_exact h' (perm_decl hp hc)
  refine ⟨r, r', by rw [a1, Option.bind_some, a2], by rw [b1, Option.bind_some, b2], ?_⟩
  have hreg : r.reg = r'.reg := by
    have e1 : r.reg.isStruct = r'.reg.isStruct := by
      funext n
      rw [Bool.eq_iff_iff, a3, b3]
      unfold DeclStruct
      rw [hp.mem_iff, hp.mem_iff]
    have e2 : r.reg.unions = r'.reg.unions := by
      funext u; rw [a4, b4, hm]
    cases hr : r.reg; cases hr' : r'.reg
    rw [hr, hr'] at e1 e2
    simp only at e1 e2
    rw [e1, e2]
  have hT := perm_declType hp hc
  have hG : ∀ n k, (r'.groups n).get k = (r.groups n).get k := by
    intro n k; rw [a8, b8, hT, hreg]
  have hlen : ∀ n, (r.groups n).length = (r'.groups n).length := fun n =>
    gomap_length _ _ (a9 n) (b9 n) (fun k => by rw [hG])
  unfold Registry.toSch
  rw [hreg]
  refine congrArg (fun f => Sch.mk r'.reg f []) ?_
  funext n
  rw [hlen n]
  apply List.map_congr_left
  intro k _
  rw [a5, b5, a6, b6, hT, hG]

/-- C88 is violated without `ApplyRequestNameFields`: a field whose struct type is registered later than the
field stays a table. -/
theorem registry_early_fails :
    ((Registry.run {} [.field "Pa".toList "F".toList "St".toList 0, .struct "St".toList "True".toList]).map fun r =>
      ((r.groups "Pa".toList).get 0, getTypeGroup r.reg "St".toList)) = some (some ftTable, some ftStruct) := by decide

/-- C88 is violated for types registered after the first node has been made: requests are applied once. -/
theorem registry_late_fails :
    (do let r ← Registry.run {} [.field "Pa".toList "F".toList "St".toList 0]
        let r ← r.apply
        let r ← r.run [.struct "St".toList "True".toList]
        let r ← r.apply
        return ((r.groups "Pa".toList).get 0, getTypeGroup r.reg "St".toList)) = some (some ftTable, some ftStruct) := by decide

/-- C88 is violated for types with a name of one character: their registration panics. -/
theorem registry_short_fails : Registry.run {} [.struct "S".toList "True".toList, .field "Pa".toList "F".toList "S".toList 0] = none := by decide

/-- A history for the theorems. -/
def regHist : List Event :=
  [.field "Pa".toList "F".toList "St".toList 0, .member "Un".toList "Pa".toList, .struct "Pa".toList "False".toList,
   .field "Pa".toList "GType".toList "Byte".toList 1, .field "St".toList "X".toList "Int32".toList 0, .field "Pa".toList "G".toList "Un".toList 2,
   .struct "St".toList "True".toList, .member "Un".toList "St".toList]

example : Consistent regHist := by
  refine ⟨?_, ?_, ?_⟩
  · intro n f f' t t' k h1 h2
    simp [regHist] at h1 h2
    rcases h1 with ⟨rfl, rfl, rfl, rfl⟩ | ⟨rfl, rfl, rfl, rfl⟩ | ⟨rfl, rfl, rfl, rfl⟩ | ⟨rfl, rfl, rfl, rfl⟩ <;> simp at h2 <;> tauto
  · intro n f t t' k k' h1 h2
    simp [regHist] at h1 h2
    rcases h1 with ⟨rfl, rfl, rfl, rfl⟩ | ⟨rfl, rfl, rfl, rfl⟩ | ⟨rfl, rfl, rfl, rfl⟩ | ⟨rfl, rfl, rfl, rfl⟩ <;> simp at h2 <;> tauto
  · intro n f t k h1
    simp [regHist] at h1
    rcases h1 with ⟨rfl, rfl, rfl, rfl⟩ | ⟨rfl, rfl, rfl, rfl⟩ | ⟨rfl, rfl, rfl, rfl⟩ | ⟨rfl, rfl, rfl, rfl⟩ <;> simp
example : declType regHist "Pa".toList 2 = some "Un".toList ∧ declMembers regHist "Un".toList = ["Pa".toList, "St".toList] := by decide

/-! ## C89 -/

open Fbs.Gen Fbs.Peg Fbs.Schema

/-- What the declarations of a schema should register. -/
def schemaEvents (st : FbsSt) : List Event :=
  st.structs.flatMap (fun i => .struct (capFirst i.name) (if isStructName st i.name then "True".toList else "False".toList) ::
    i.fields.zipIdx.map fun p => .field (capFirst i.name) (capFirst p.1.name) (capFirst p.1.type) p.2) ++
  st.unions.flatMap fun u => u.aliases.map fun a => .member (capFirst u.name) (capFirst a)

theorem genFields_events (st : FbsSt) (i : StructInfo) : ∀ (fs : List Field) (k : Nat) (cs : List Cmd), genFields st i k fs = some cs →
    cs.flatMap eventsOf = (fs.zipIdx k).map (fun p => .field (capFirst i.name) (capFirst p.1.name) (capFirst p.1.type) p.2) ∧ ∀ f ∈ fs, 2 ≤ f.type.length
  | [], k, cs, h => by simp only [genFields] at h; cases h; simp
  | f :: fs, k, cs, h => by
    simp only [genFields] at h
    cases h1 : genField st i k f with
    | none => rw [h1] at h; cases h
    | some c =>
      rw [h1] at h
      simp only at h
      cases h2 : genFields st i (k + 1) fs with
      | none => rw [h2] at h; cases h
      | some cs' =>
        rw [h2] at h
        cases h
        obtain ⟨ih1, ih2⟩ := genFields_events st i fs (k + 1) cs' h2
        unfold genField at h1
        cases h3 : resultTypeOf f.type with
        | none => rw [h3] at h1; cases h1
        | some rt =>
          rw [h3] at h1
          cases h1
          refine ⟨by rw [List.flatMap_cons, ih1]; simp [eventsOf], ?_⟩
          intro g hg
          rcases List.mem_cons.mp hg with rfl | hg
          · unfold resultTypeOf at h3
            by_cases hb : (nameToType g.type).isSome = true
            · by_contra hlt
              have : g.type.length < 2 := by omega
              match hgt : g.type, this with
              | [], _ => rw [hgt] at hb; revert hb; decide
              | [a], _ =>
                rw [hgt] at hb
                revert hb
                simp only [nameToType, imp_false]
                simp [nameTable]
            · rw [if_neg hb] at h3
              by_contra hlt
              have : isSlice g.type = none := by unfold isSlice; rw [if_pos (by omega)]
              rw [this] at h3; cases h3
          · exact ih2 g hg

theorem genStructs_events (st : FbsSt) : ∀ (l : List StructInfo) (cs : List Cmd), genStructs st [] l = some cs →
    cs.flatMap eventsOf = l.flatMap (fun i => .struct (capFirst i.name) (if isStructName st i.name then "True".toList else "False".toList) ::
      i.fields.zipIdx.map fun p => .field (capFirst i.name) (capFirst p.1.name) (capFirst p.1.type) p.2) ∧ ∀ i ∈ l, ∀ f ∈ i.fields, 2 ≤ f.type.length
  | [], cs, h => by simp only [genStructs] at h; cases h; simp
  | i :: l, cs, h => by
    simp only [genStructs, ne_eq, not_true_eq_false, false_and, if_false] at h
    cases h1 : genFields st i 0 i.fields with
    | none => rw [h1] at h; cases h
    | some a =>
      rw [h1] at h
      simp only at h
      cases h2 : genStructs st [] l with
      | none => rw [h2] at h; cases h
      | some b =>
        rw [h2] at h
        cases h
        obtain ⟨a1, a2⟩ := genFields_events st i _ _ _ h1
        obtain ⟨b1, b2⟩ := genStructs_events st l b h2
        refine ⟨?_, ?_⟩
        · rw [List.flatMap_append, List.flatMap_append, a1, b1]
          simp [genHead, eventsOf]
        · intro j hj
          rcases List.mem_cons.mp hj with rfl | hj
          · exact a2
          · exact b2 j hj

theorem genUnions_events : ∀ l : List Union, (genUnions [] l).flatMap eventsOf =
    l.flatMap fun u => u.aliases.map fun a => Event.member (capFirst u.name) (capFirst a)
  | [] => rfl
  | u :: l => by
    simp only [genUnions, ne_eq, not_true_eq_false, false_and, if_false, List.flatMap_cons, genUnions_events l]
    simp [eventsOf]

/-- The generated files register what the schema declares, in the order of the schema. -/
theorem makeGen_events (st : FbsSt) (cs : List Cmd) (h : makeGen st [] = some cs) :
    cs.flatMap eventsOf = schemaEvents st ∧ ∀ i ∈ st.structs, ∀ f ∈ i.fields, 2 ≤ f.type.length := by
  unfold makeGen at h
  cases h1 : genStructs st [] st.structs with
  | none => rw [h1] at h; cases h
  | some b =>
    rw [h1] at h
    cases h
    obtain ⟨a1, a2⟩ := genStructs_events st _ _ h1
    refine ⟨?_, a2⟩
    rw [List.flatMap_append, List.flatMap_cons, a1, genUnions_events]
    simp [eventsOf, schemaEvents]

theorem schema_field_mem (st : FbsSt) (n f t : Name) (k : Nat) : Event.field n f t k ∈ schemaEvents st ↔
    ∃ i ∈ st.structs, n = capFirst i.name ∧ ∃ fl, i.fields[k]? = some fl ∧ f = capFirst fl.name ∧ t = capFirst fl.type := by
  unfold schemaEvents
  simp only [List.mem_append, List.mem_flatMap, List.mem_cons, reduceCtorEq, false_or, List.mem_map, and_false, exists_false, or_false,
    Event.field.injEq]
  constructor
  · rintro ⟨i, hi, ⟨fl, k'⟩, hp, rfl, rfl, rfl, rfl⟩
    exact ⟨i, hi, rfl, fl, List.mk_mem_zipIdx_iff_getElem?.mp hp, rfl, rfl⟩
  · rintro ⟨i, hi, rfl, fl, hk, rfl, rfl⟩
    exact ⟨i, hi, (fl, k), List.mk_mem_zipIdx_iff_getElem?.mpr hk, rfl, rfl, rfl, rfl⟩

theorem capFirst_length (s : Name) : (capFirst s).length = s.length := by cases s <;> rfl

/-- A finalised schema whose tables and structs, the fields of each of them, and unions have different names. -/
structure Distinct (st : FbsSt) : Prop where
  structs : (st.structs.map fun i => capFirst i.name).Nodup
  fields  : ∀ i ∈ st.structs, (i.fields.map fun f => capFirst f.name).Nodup
  unions  : (st.unions.map fun u => capFirst u.name).Nodup

theorem nodup_inj {α : Type} {l : List α} {f : α → Name} (h : (l.map f).Nodup) {a b : α} (ha : a ∈ l) (hb : b ∈ l) (he : f a = f b) : a = b :=
  List.inj_on_of_nodup_map h ha hb he

theorem nodup_idx {l : List Field} {f : Field → Name} (h : (l.map f).Nodup) {i j : Nat} {a b : Field} (ha : l[i]? = some a) (hb : l[j]? = some b)
    (he : f a = f b) : i = j := by
  have h1 : (l.map f)[i]? = some (f a) := by rw [List.getElem?_map, ha]; rfl
  have h2 : (l.map f)[j]? = some (f a) := by rw [List.getElem?_map, hb, he]; rfl
  obtain ⟨p1, e1⟩ := List.getElem?_eq_some_iff.mp h1
  obtain ⟨p2, e2⟩ := List.getElem?_eq_some_iff.mp h2
  exact (List.Nodup.getElem_inj_iff h).mp (e1.trans e2.symm)

theorem schema_consistent (st : FbsSt) (hd : Distinct st) (hl : ∀ i ∈ st.structs, ∀ f ∈ i.fields, 2 ≤ f.type.length) : Consistent (schemaEvents st) := by
  refine ⟨?_, ?_, ?_⟩
  · intro n f f' t t' k h1 h2
    obtain ⟨i, hi, rfl, a, ha, rfl, rfl⟩ := (schema_field_mem ..).mp h1
    obtain ⟨j, hj, e, b, hb, rfl, rfl⟩ := (schema_field_mem ..).mp h2
    cases nodup_inj hd.structs hi hj e
    rw [ha] at hb; cases hb; rfl
  · intro n f t t' k k' h1 h2
    obtain ⟨i, hi, rfl, a, ha, rfl, rfl⟩ := (schema_field_mem ..).mp h1
    obtain ⟨j, hj, e, b, hb, e', rfl⟩ := (schema_field_mem ..).mp h2
    cases nodup_inj hd.structs hi hj e
    exact nodup_idx (hd.fields i hi) ha hb e'
  · intro n f t k h1
    obtain ⟨i, hi, rfl, a, ha, rfl, rfl⟩ := (schema_field_mem ..).mp h1
    rw [capFirst_length]
    exact hl i hi a (List.mem_of_getElem? ha)

theorem schema_declType (st : FbsSt) (hd : Distinct st) (hc : Consistent (schemaEvents st)) {i : StructInfo} (hi : i ∈ st.structs) (k : Nat) :
    declType (schemaEvents st) (capFirst i.name) k = (i.fields[k]?).map fun f => capFirst f.type := by
  cases hk : i.fields[k]? with
  | some f => exact declType_of_mem hc ((schema_field_mem ..).mpr ⟨i, hi, rfl, f, hk, rfl, rfl⟩)
  | none =>
    cases hdt : declType (schemaEvents st) (capFirst i.name) k with
    | none => rfl
    | some t =>
      obtain ⟨f, hf⟩ := declType_mem hdt
      obtain ⟨j, hj, e, b, hb, _, _⟩ := (schema_field_mem ..).mp hf
      cases nodup_inj hd.structs hi hj e
      rw [hk] at hb; cases hb

theorem schema_members (st : FbsSt) (hd : Distinct st) {u : Union} (hu : u ∈ st.unions) :
    declMembers (schemaEvents st) (capFirst u.name) = u.aliases.map capFirst := by
  have h1 : ∀ l : List StructInfo, declMembers (l.flatMap (fun i => Event.struct (capFirst i.name) (if isStructName st i.name then "True".toList else "False".toList) ::
      i.fields.zipIdx.map fun p => .field (capFirst i.name) (capFirst p.1.name) (capFirst p.1.type) p.2)) (capFirst u.name) = [] := by
    intro l
    unfold declMembers
    rw [List.filterMap_eq_nil_iff]
    intro e he
    obtain ⟨i, _, he⟩ := List.mem_flatMap.mp he
    rcases List.mem_cons.mp he with rfl | he
    · rfl
    · obtain ⟨p, _, rfl⟩ := List.mem_map.mp he; rfl
  have h2 : ∀ (v : Union), declMembers (v.aliases.map fun a => Event.member (capFirst v.name) (capFirst a)) (capFirst u.name) =
      if capFirst v.name = capFirst u.name then v.aliases.map capFirst else [] := by
    intro v
    unfold declMembers
    by_cases he : capFirst v.name = capFirst u.name
    · simp [he, List.filterMap_map]
    · simp [he, List.filterMap_map]
  have h3 : ∀ l : List Union, (l.map fun u => capFirst u.name).Nodup → 
      declMembers (l.flatMap fun u => u.aliases.map fun a => Event.member (capFirst u.name) (capFirst a)) (capFirst u.name) = 
        if u ∈ l then u.aliases.map capFirst else (declMembers (l.flatMap fun u => u.aliases.map fun a => Event.member (capFirst u.name) (capFirst a)) (capFirst u.name)) := by
    intro l
    induction l with
    | nil => intro _; simp
    | cons v l ih =>
      intro hn
      have hn' := List.nodup_cons.mp hn
      by_cases hul : u ∈ v :: l
      · rw [if_pos hul, List.flatMap_cons]
        have happ : ∀ a b, declMembers (a ++ b) (capFirst u.name) = declMembers a (capFirst u.name) ++ declMembers b (capFirst u.name) := fun a b => by
          unfold declMembers; rw [List.filterMap_append]
        rw [happ, h2]
        by_cases hvu : u = v
        · subst hvu
          rw [if_pos rfl]
          have : declMembers (l.flatMap fun u => u.aliases.map fun a => Event.member (capFirst u.name) (capFirst a)) (capFirst u.name) = [] := by
            unfold declMembers
            rw [List.filterMap_eq_nil_iff]
            intro e he
            obtain ⟨w, hw, he⟩ := List.mem_flatMap.mp he
            obtain ⟨a, _, rfl⟩ := List.mem_map.mp he
            have : ¬ capFirst w.name = capFirst u.name := by
              intro hh
              exact hn'.1 (List.mem_map.mpr ⟨w, hw, hh⟩)
            simp [this]
          rw [this, List.append_nil]
        · have hul' : u ∈ l := by rcases List.mem_cons.mp hul with h | h; exact absurd h hvu; exact h
          have hne : ¬ capFirst v.name = capFirst u.name := by
            intro hh
            exact hn'.1 (List.mem_map.mpr ⟨u, hul', hh.symm⟩)
          rw [if_neg hne, ih hn'.2, if_pos hul']; rfl
      · rw [if_neg hul]
  unfold schemaEvents
  have happ : ∀ a b, declMembers (a ++ b) (capFirst u.name) = declMembers a (capFirst u.name) ++ declMembers b (capFirst u.name) := fun a b => by
    unfold declMembers; rw [List.filterMap_append]
  rw [happ, h1, h3 _ hd.unions, if_pos hu]; rfl

theorem schema_struct (st : FbsSt) (hd : Distinct st) {i : StructInfo} (hi : i ∈ st.structs) :
    DeclStruct (schemaEvents st) (capFirst i.name) ↔ i.isTable = false := by
  have hmem : ∀ flag, Event.struct (capFirst i.name) flag ∈ schemaEvents st ↔ flag = if isStructName st i.name then "True".toList else "False".toList := by
    intro flag
    unfold schemaEvents
    simp only [List.mem_append, List.mem_flatMap, List.mem_cons, List.mem_map, reduceCtorEq, and_false, exists_false, or_false, Event.struct.injEq]
    constructor
    · rintro ⟨j, hj, e, rfl⟩
      cases nodup_inj hd.structs hi hj e; rfl
    · rintro rfl
      exact ⟨i, hi, rfl, rfl⟩
  have hname : isStructName st i.name = !i.isTable := by
    unfold isStructName
    rw [Bool.eq_iff_iff, List.any_eq_true]
    constructor
    · rintro ⟨j, hj, h⟩
      simp only [Bool.and_eq_true, decide_eq_true_eq] at h
      cases nodup_inj hd.structs hj hi (show capFirst j.name = capFirst i.name by rw [h.2])
      exact h.1
    · intro h
      exact ⟨i, hi, by simpa using h⟩
  unfold DeclStruct
  rw [hmem, hmem, hname]
  cases i.isTable <;> simp

/-- C89: from schema to types.  For the commands generated for a schema, in whatever order the generated files
are initialised (keeping the order of the members in the file of each union), the nodes see exactly the declared
tables and structs with their fields in order, and the declared unions with their members in order. -/
theorem generated_registry (st : FbsSt) (cs : List Cmd) (hg : makeGen st [] = some cs) (hd : Distinct st) (h : List Event)
    (hp : (cs.flatMap eventsOf).Perm h) (hm : ∀ u, declMembers (cs.flatMap eventsOf) u = declMembers h u) :
    ∃ r : Registry, (Registry.run {} h).bind Registry.apply = some r ∧
      (∀ i ∈ st.structs, r.toSch.isStruct (capFirst i.name) = !i.isTable ∧
        (∀ (k : Nat) (f : Field), i.fields[k]? = some f → (r.idx (capFirst i.name)).get (capFirst f.name) = some k) ∧
        ∃ gs : List Nat, gs.length = i.fields.length ∧ (∀ (k : Nat) (f : Field), i.fields[k]? = some f → gs[k]? = getTypeGroup r.reg (capFirst f.type)) ∧
          r.toSch.fields (capFirst i.name) = (i.fields.zip gs).map fun p => ⟨capFirst p.1.type, p.2, nameToType (capFirst p.1.type)⟩) ∧
      ∀ u ∈ st.unions, u.aliases ≠ [] → r.toSch.unions (capFirst u.name) = some (u.aliases.map capFirst) := by
  obtain ⟨he, hl⟩ := makeGen_events st cs hg
  rw [he] at hp hm
  have hc := schema_consistent st hd hl
  obtain ⟨r0, r, b1, b2, b3, b4, b5, b6, b7, b8, b9, b10⟩ := registry_exact h (perm_decl hp hc)
  have hT : ∀ i ∈ st.structs, ∀ k, declType h (capFirst i.name) k = (i.fields[k]?).map fun f => capFirst f.type := by
    intro i hi k
    rw [perm_declType hp hc, schema_declType st hd hc hi]
  refine ⟨r, by rw [b1, Option.bind_some, b2], ?_, ?_⟩
  · intro i hi
    have hlong : ∀ f ∈ i.fields, ∃ g, getTypeGroup r.reg (capFirst f.type) = some g := fun f hf =>
      group_total _ _ (by rw [capFirst_length]; exact hl i hi f hf)
    refine ⟨?_, ?_, i.fields.map fun f => (getTypeGroup r.reg (capFirst f.type)).getD 0, by simp, ?_, ?_⟩
    · show r.reg.isStruct _ = _
      rw [Bool.eq_iff_iff, b3]
      have : DeclStruct h (capFirst i.name) ↔ DeclStruct (schemaEvents st) (capFirst i.name) := by
        unfold DeclStruct; rw [hp.mem_iff, hp.mem_iff]
      rw [this, schema_struct st hd hi]; simp
    · intro k f hk
      rw [b7]
      exact declNum_of_mem (perm_decl hp hc) (hp.mem_iff.mp ((schema_field_mem ..).mpr ⟨i, hi, rfl, f, hk, rfl, rfl⟩))
    · intro k f hk
      obtain ⟨g, hgg⟩ := hlong f (List.mem_of_getElem? hk)
      rw [List.getElem?_map, hk, Option.map_some, hgg]; rfl
    · have hlen : (r.groups (capFirst i.name)).length = i.fields.length := by
        have := gomap_length (r.groups (capFirst i.name)) ((List.range i.fields.length).map fun k => (k, ())) (b9 _)
          (by rw [List.map_map]; simpa [Function.comp_def] using List.nodup_range) (by
            intro k
            have hr : (GoMap.get ((List.range i.fields.length).map fun k => (k, ())) k).isSome = decide (k < i.fields.length) := by
              rw [Bool.eq_iff_iff, gomap_isSome, List.map_map]; simp [Function.comp_def]
            rw [hr, b8, hT i hi]
            by_cases hk : k < i.fields.length
            · obtain ⟨g, hgg⟩ := hlong _ (List.getElem_mem hk)
              rw [List.getElem?_eq_getElem hk, Option.map_some, Option.bind_some, hgg]
              simp [hk]
            · rw [List.getElem?_eq_none (by omega)]; simp [hk])
        simpa using this
      show (List.range (r.groups (capFirst i.name)).length).map _ = _
      rw [hlen]
      apply List.ext_getElem?
      intro k
      rw [List.getElem?_map, List.getElem?_map]
      by_cases hk : k < i.fields.length
      · obtain ⟨g, hgg⟩ := hlong _ (List.getElem_mem hk)
        have hk' := List.getElem?_eq_getElem hk
        rw [List.getElem?_range hk, List.getElem?_zip_eq_some (z := (i.fields[k], g)) |>.mpr ⟨hk', by rw [List.getElem?_map, hk', Option.map_some, hgg]; rfl⟩]
        simp only [Option.map_some, b5, b6, b8, hT i hi, hk', Option.bind_some, hgg, Option.getD_some]
      · rw [List.getElem?_eq_none (by simp; omega), List.getElem?_eq_none (by simp; omega)]; rfl
  · intro u hu hne
    show r.reg.unions _ = _
    rw [b4, ← hm, schema_members st hd hu]
    rw [if_neg (by simpa using hne)]

/-- C89 from schema text to the types seen by nodes, for printable schemas: the field declared as number `k` of a
table is found at its flatbuffers slot, with its type. -/
theorem schema_registry_partial (ds : List Decl) (hne : ds ≠ []) (hd : ∀ d ∈ ds, d.ok)
    (hlen : ∀ s ∈ (meaning ds).structs, ∀ f ∈ s.fields, 2 ≤ f.type.length ∧ (f.type.take 2 = "[]".toList → 3 ≤ f.type.length))
    (hup : ∀ u ∈ (meaning ds).unions, isUpperStr (u.name.take 1) = true)
    (hvec : ∀ s ∈ (meaning ds).structs, ∀ f ∈ s.fields, ∀ u ∈ (meaning ds).unions, f.type ≠ "[]".toList ++ u.name)
    (hbr : ∀ u ∈ (meaning ds).unions, u.name.take 2 ≠ "[]".toList)
    (hdist : ∀ st', (parseSchema (ds.flatMap Decl.chars)).bind FbsSt.finalize = some st' → Distinct st') :
    ∃ cs, mainGen (ds.flatMap Decl.chars) [] = some cs ∧
      ∀ h, (cs.flatMap eventsOf).Perm h → (∀ u, declMembers (cs.flatMap eventsOf) u = declMembers h u) →
        ∃ r : Registry, (Registry.run {} h).bind Registry.apply = some r ∧
          ∀ s ∈ (meaning ds).structs, r.toSch.isStruct (capFirst s.name) = !s.isTable ∧ ∀ (k : Nat) (f : Field), s.fields[k]? = some f →
            ∃ g, getTypeGroup r.reg (capFirst f.type) = some g ∧
              (r.toSch.fields (capFirst s.name))[slotOf (twoSlots (meaning ds).unions) s.fields k f]? =
                some ⟨capFirst f.type, g, nameToType (capFirst f.type)⟩ := by
  obtain ⟨st, h1, -, h3, h4, h5⟩ := parse_print ds hne hd
  rw [← h4] at hlen hvec ⊢
  rw [← h5] at hup hvec hbr ⊢
  have hfin := (finalize_iff st).2 hlen
  obtain ⟨st', hst'⟩ := Option.isSome_iff_exists.1 hfin
  have hgen := gen_after_finalize st st' [] hst'
  obtain ⟨cs, hcs⟩ := Option.isSome_iff_exists.1 hgen
  refine ⟨cs, by simp [mainGen, h1, hst', hcs], ?_⟩
  intro h hp hm
  obtain ⟨r, r1, r2, -⟩ := generated_registry st' cs hcs (hdist st' (by rw [h1]; exact hst')) h hp hm
  refine ⟨r, r1, ?_⟩
  intro s hs
  obtain ⟨-, -, -, hsl⟩ := slots_partial st st' hst' hup hvec hbr
  obtain ⟨i, hi, e⟩ := List.getElem_of_mem hs
  obtain ⟨s', e2, e3, e4, -, e5⟩ := hsl i s (by rw [← e]; exact List.getElem?_eq_getElem hi)
  obtain ⟨q1, -, gs, q3, q4, q5⟩ := r2 s' (List.mem_of_getElem? e2)
  rw [e3, e4] at q1
  rw [e3] at q5
  refine ⟨q1, ?_⟩
  intro k f hf
  obtain ⟨e6, -⟩ := e5 k f hf
  have hslot := (List.getElem?_eq_some_iff.mp e6).1
  have hg := q4 _ _ e6
  rw [List.getElem?_eq_getElem (by omega)] at hg
  refine ⟨_, hg.symm, ?_⟩
  rw [q5, List.getElem?_map, List.getElem?_zip_eq_some (z := (f, gs[slotOf (twoSlots st.unions) s.fields k f]'(by omega))) |>.mpr
    ⟨e6, List.getElem?_eq_getElem (by omega)⟩]
  rfl

/-- A schema for the theorem. -/
def regSchema : Name :=
  "table Pa{f:St;g:Un;h:string;} struct St{x:int32;} union Un{Pa,St} root_type Pa;".toList

/-- The finalised declarations of `regSchema`. -/
def regSt : Go FbsSt := (parseSchema regSchema).bind FbsSt.finalize

-- the types seen by nodes, initialising the generated files in two orders
example : (do
    let st ← regSt
    let cs ← makeGen st []
    let a ← (Registry.run {} (cs.flatMap eventsOf)).bind Registry.apply
    let b ← (Registry.run {} (cs.reverse.flatMap eventsOf)).bind Registry.apply
    let show' := fun (r : Registry) => ((r.toSch.fields "Pa".toList).map fun f => (f.tname, f.grp, f.ty.isSome))
    return (show' a, decide (show' a = show' b), a.reg.unions "Un".toList)) =
  some ([("St".toList, ftStruct, false), ("Byte".toList, ftBasic1, true), ("Un".toList, ftUnion, false), ("[]byte".toList, ftSlice ||| ftBasic1, false)],
    true, some ["Pa".toList, "St".toList]) := by decide +kernel
example : ∀ st, regSt = some st → Distinct st := by
  have h : (regSt.map fun st => decide ((st.structs.map fun i => capFirst i.name).Nodup ∧
      (∀ i ∈ st.structs, (i.fields.map fun f => capFirst f.name).Nodup) ∧ (st.unions.map fun u => capFirst u.name).Nodup)) = some true := by decide +kernel
  intro st hst
  rw [hst] at h
  simp only [Option.map_some, Option.some.injEq, decide_eq_true_eq] at h
  exact ⟨h.1, h.2.1, h.2.2⟩

/-- C89 is violated for names in lower case: lists of them are registered under another name than the type. -/
theorem generated_lower_fails : (do
    let cs ← mainGen "table foo{a:int32;} table Bar{l:[foo];} root_type Bar;".toList []
    let r ← (Registry.run {} (cs.flatMap eventsOf)).bind Registry.apply
    return ((r.names "Bar".toList).get 0, (r.toSch.fields "Foo".toList).length, (r.toSch.fields "foo".toList).length)) =
  some (some "[]foo".toList, 1, 0) := by decide +kernel

/-- C89 is violated for names that differ in the case of the first letter only: the tables become one. -/
theorem generated_clash_fails : (do
    let cs ← mainGen "table foo{a:int32;} table Foo{b:int64;c:int8;} root_type Foo;".toList []
    let r ← (Registry.run {} (cs.flatMap eventsOf)).bind Registry.apply
    return (r.toSch.fields "Foo".toList).map fun f => f.tname) = some ["Int64".toList, "Int8".toList] := by decide +kernel

end Fbs.Props
