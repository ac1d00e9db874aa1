import Verif.GenRun
import Verif.Props.GenText
/-!
# C116: what fbs-query leaves behind
-/

namespace Fbs.Props
open Fbs Fbs.Peg Fbs.Gen Fbs.Schema Fbs.GenRead

/-! ## paths -/

theorem splitPath_ne : ∀ s : Name, splitPath s ≠ [] := by
  intro s
  induction s with
  | nil => simp [splitPath]
  | cons x r ih =>
    unfold splitPath
    split
    · simp
    · split <;> simp

theorem splitPath_none : ∀ {s : Name}, '/' ∉ s → splitPath s = [s] := by
  intro s
  induction s with
  | nil => intro; rfl
  | cons x r ih =>
    intro h
    have hx : x ≠ '/' := fun e => h (by simp [e])
    have hr : '/' ∉ r := fun e => h (by simp [e])
    simp [splitPath, hx, ih hr]

theorem splitPath_append (b : Name) : ∀ a : Name, splitPath (a ++ '/' :: b) = splitPath a ++ splitPath b := by
  intro a
  induction a with
  | nil => simp [splitPath]
  | cons x r ih =>
    by_cases hx : x = '/'
    · simp [splitPath, hx, ih]
    · obtain ⟨w, ws, e⟩ := List.exists_cons_of_ne_nil (splitPath_ne r)
      simp [splitPath, hx, ih, e]

theorem splitPath_parts : ∀ (s : Name), ∀ e ∈ splitPath s, '/' ∉ e := by
  intro s
  induction s with
  | nil => intro e he; simp [splitPath] at he; simp [he]
  | cons x r ih =>
    intro e he
    unfold splitPath at he
    split at he
    · rcases List.mem_cons.1 he with rfl | he
      · simp
      · exact ih e he
    · rename_i hx
      split at he
      · rw [List.mem_singleton.1 he]; simp; exact fun e => hx e.symm
      · rename_i w ws hw
        rcases List.mem_cons.1 he with rfl | he
        · have := ih w (by rw [hw]; simp)
          simp only [List.mem_cons, not_or]
          exact ⟨fun e => hx e.symm, this⟩
        · exact ih e (by rw [hw]; simp [he])

theorem splitPath_join : ∀ l : List Name, l ≠ [] → (∀ a ∈ l, '/' ∉ a) → splitPath (joinSlash l) = l := by
  intro l
  induction l with
  | nil => intro h; exact absurd rfl h
  | cons a l ih =>
    intro _ hs
    have ha : '/' ∉ a := hs a (by simp)
    cases l with
    | nil => exact splitPath_none ha
    | cons b l =>
      have := ih (by simp) (fun x hx => hs x (by simp [hx]))
      simp only [joinSlash]
      rw [splitPath_append, splitPath_none ha, this]
      rfl

/-- The parts kept by `clean`. -/
structure PartsOk (root : Bool) (st : List Name) : Prop where
  parts : ∀ e ∈ st, e ≠ [] ∧ e ≠ ['.'] ∧ '/' ∉ e
  up : root = true → ['.', '.'] ∉ st

theorem walk_last {x : Name} (h1 : x ≠ []) (h2 : x ≠ ['.']) (h3 : x ≠ ['.', '.']) (d : List Name) : walk d x = d ++ [x] := by
  simp [walk, h1, h2, h3]

theorem cleanStep_ok {root : Bool} {st : List Name} {e : Name} (h : PartsOk root st) (he : '/' ∉ e) :
    PartsOk root (cleanStep root st e) ∧
    ∀ base : List Name, (root = true → base = []) →
      (cleanStep root st e).foldl walk base = walk (st.foldl walk base) e := by
  unfold cleanStep
  split
  · rename_i h0
    exact ⟨h, fun base _ => by simp [walk, h0]⟩
  · rename_i h0
    have h1 : e ≠ [] := fun x => h0 (.inl x)
    have h2 : e ≠ ['.'] := fun x => h0 (.inr x)
    split
    · rename_i h3
      split
      · rename_i h4
        obtain ⟨h4, h5⟩ := h4
        refine ⟨⟨fun x hx => h.parts x ((List.dropLast_sublist _).subset hx), fun r hx => h.up r ((List.dropLast_sublist _).subset hx)⟩, ?_⟩
        intro base _
        have hl := List.dropLast_concat_getLast h4
        have hm := h.parts _ (List.getLast_mem h4)
        have hu : st.getLast h4 ≠ ['.', '.'] := fun x => h5 (by rw [List.getLast?_eq_some_getLast h4, x])
        conv => rhs; rw [← hl, List.foldl_append]
        simp only [List.foldl_cons, List.foldl_nil]
        rw [walk_last hm.1 hm.2.1 hu, h3]
        simp [walk]
      · rename_i h4
        split
        · rename_i hr
          refine ⟨h, fun base hb => ?_⟩
          have hst : st = [] := by
            by_cases hn : st = []
            · exact hn
            · exfalso
              have : st.getLast? = some ['.', '.'] := by
                by_cases hx : st.getLast? = some ['.', '.']
                · exact hx
                · exact absurd ⟨hn, hx⟩ h4
              exact h.up hr (List.mem_of_getLast? this)
          subst hst
          simp [hb hr, h3, walk]
        · rename_i hr
          refine ⟨⟨?_, fun r => absurd r hr⟩, fun base _ => by simp⟩
          intro x hx
          rcases List.mem_append.1 hx with hx | hx
          · exact h.parts x hx
          · rw [List.mem_singleton.1 hx]; exact ⟨h1, h2, he⟩
    · rename_i h3
      refine ⟨⟨?_, ?_⟩, fun base _ => by simp⟩
      · intro x hx
        rcases List.mem_append.1 hx with hx | hx
        · exact h.parts x hx
        · rw [List.mem_singleton.1 hx]; exact ⟨h1, h2, he⟩
      · intro r hx
        rcases List.mem_append.1 hx with hx | hx
        · exact h.up r hx
        · exact h3 (List.mem_singleton.1 hx).symm

theorem cleanSteps_ok {root : Bool} : ∀ (es st : List Name), PartsOk root st → (∀ e ∈ es, '/' ∉ e) →
    PartsOk root (es.foldl (cleanStep root) st) ∧
    ∀ base : List Name, (root = true → base = []) →
      (es.foldl (cleanStep root) st).foldl walk base = es.foldl walk (st.foldl walk base) := by
  intro es
  induction es with
  | nil => intro st h _; exact ⟨h, fun _ _ => rfl⟩
  | cons e es ih =>
    intro st h he
    obtain ⟨h1, h2⟩ := cleanStep_ok h (he e (by simp))
    obtain ⟨h3, h4⟩ := ih _ h1 (fun x hx => he x (by simp [hx]))
    exact ⟨h3, fun base hb => by rw [List.foldl_cons, List.foldl_cons, h4 base hb, h2 base hb]⟩

/-- The parts of a cleaned path. -/
def cleanParts (p : Name) : List Name := (splitPath p).foldl (cleanStep (rooted p)) []

theorem cleanParts_ok (p : Name) : PartsOk (rooted p) (cleanParts p) ∧
    ∀ base : List Name, (rooted p = true → base = []) → (cleanParts p).foldl walk base = (splitPath p).foldl walk base :=
  cleanSteps_ok _ _ ⟨by simp, by simp⟩ (splitPath_parts p)

theorem join_not_rooted {l : List Name} (hp : ∀ e ∈ l, e ≠ [] ∧ e ≠ ['.'] ∧ '/' ∉ e) : rooted (joinSlash l) = false := by
  cases l with
  | nil => rfl
  | cons a l =>
    obtain ⟨h1, -, h3⟩ := hp a (by simp)
    cases a with
    | nil => exact absurd rfl h1
    | cons x a =>
      have hx : x ≠ '/' := fun e => h3 (by simp [e])
      cases l <;> simp [joinSlash, rooted, hx]

/-- `filepath.Clean` keeps the place a path leads to. -/
theorem clean_resolve (cwd : List Name) (p : Name) : resolve cwd (clean p) = resolve cwd p := by
  obtain ⟨h1, h2⟩ := cleanParts_ok p
  have hs : ∀ a ∈ cleanParts p, '/' ∉ a := fun a ha => (h1.parts a ha).2.2
  unfold clean
  simp only
  cases hr : rooted p with
  | true =>
    rw [hr] at h1 h2
    have e : (splitPath p).foldl (cleanStep true) [] = cleanParts p := by unfold cleanParts; rw [hr]
    rw [if_pos rfl, e]
    have hc : resolve cwd ('/' :: joinSlash (cleanParts p)) = (cleanParts p).foldl walk [] := by
      have hrt : rooted ('/' :: joinSlash (cleanParts p)) = true := by simp [rooted]
      unfold resolve
      rw [if_pos hrt]
      by_cases hn : cleanParts p = []
      · rw [hn]; simp [joinSlash, splitPath, walk]
      · have : splitPath ('/' :: joinSlash (cleanParts p)) = [] :: cleanParts p := by
          simp [splitPath, splitPath_join _ hn hs]
        rw [this]; simp [walk]
    rw [hc, h2 [] (fun _ => rfl)]
    unfold resolve
    rw [if_pos hr]
  | false =>
    rw [hr] at h1 h2
    have e : (splitPath p).foldl (cleanStep false) [] = cleanParts p := by unfold cleanParts; rw [hr]
    rw [e]
    simp only [Bool.false_eq_true, if_false]
    have hR : resolve cwd p = (cleanParts p).foldl walk cwd := by
      rw [h2 cwd (fun h => by cases h)]; simp [resolve, hr]
    rw [hR]
    split
    · rename_i hn; rw [hn]; simp [resolve, rooted, splitPath, walk]
    · rename_i hn
      unfold resolve
      rw [join_not_rooted h1.parts, splitPath_join _ hn hs]
      simp

theorem rooted_append {a b : Name} (h : a ≠ []) : rooted (a ++ b) = rooted a := by
  cases a with
  | nil => exact absurd rfl h
  | cons x a => simp [rooted]

/-- `filepath.Join` behind a path leads on from it. -/
theorem pjoin_resolve (cwd : List Name) {p : Name} (hp : p ≠ []) (q : Name) :
    resolve cwd (pjoin [p, q]) = (splitPath q).foldl walk (resolve cwd p) := by
  simp only [pjoin, hp, if_false, joinSlash]
  rw [clean_resolve]
  unfold resolve
  rw [rooted_append hp, splitPath_append, List.foldl_append]

theorem clean_ne (p : Name) : clean p ≠ [] := by
  obtain ⟨h1, -⟩ := cleanParts_ok p
  unfold clean
  simp only
  split
  · simp
  · split
    · simp
    · rename_i hn
      have hn : cleanParts p ≠ [] := hn
      show joinSlash (cleanParts p) ≠ []
      cases hc : cleanParts p with
      | nil => exact absurd hc hn
      | cons a l =>
        have ha := (h1.parts a (by rw [hc]; simp)).1
        cases l <;> simp [joinSlash, ha]

theorem pjoin_ne {p : Name} (hp : p ≠ []) (l : List Name) : pjoin (p :: l) ≠ [] := by
  simp only [pjoin, hp, if_false]; exact clean_ne _

theorem walk_name {n : Name} (h : Safe n) (hl : 3 ≤ n.length) (d : List Name) : (splitPath n).foldl walk d = d ++ [n] := by
  rw [splitPath_none (safe_ne h (by decide))]
  simp only [List.foldl_cons, List.foldl_nil]
  exact walk_last (by rintro rfl; simp at hl) (by rintro rfl; simp at hl) (by rintro rfl; simp at hl) d

/-! ## the directory given to go generate -/

/-- No part of a path begins with a dot, but for `.` and `..`. -/
def Visible (p : Name) : Prop := ∀ e ∈ splitPath p, e.head? = some '.' → e = ['.'] ∨ e = ['.', '.']

theorem cleanSteps_mem {root : Bool} : ∀ (es st : List Name), ∀ e ∈ es.foldl (cleanStep root) st, e ∈ st ∨ e ∈ es := by
  intro es
  induction es with
  | nil => intro st e he; exact .inl he
  | cons x es ih =>
    intro st e he
    rcases ih _ e he with h | h
    · unfold cleanStep at h
      split at h
      · exact .inl h
      · split at h
        · split at h
          · exact .inl ((List.dropLast_sublist _).subset h)
          · split at h
            · exact .inl h
            · rcases List.mem_append.1 h with h | h
              · exact .inl h
              · rw [List.mem_singleton.1 h]; exact .inr (by simp)
        · rcases List.mem_append.1 h with h | h
          · exact .inl h
          · rw [List.mem_singleton.1 h]; exact .inr (by simp)
    · exact .inr (by simp [h])

/-- main.go 184-187: what `RunGenerate` gives to `go generate`. -/
def patternOf (dir : Name) : Name := if dir.head? ≠ some '/' ∧ dir.head? ≠ some '.' then "./".toList ++ dir else dir

theorem pattern_ok (cwd : List Name) (p : Name) (hv : Visible p) :
    isLocal (patternOf (clean p)) = true ∧ resolve cwd (patternOf (clean p)) = resolve cwd (clean p) := by
  unfold patternOf
  split
  · rename_i h
    refine ⟨by simp [isLocal], ?_⟩
    have hr : rooted (clean p) = false := by simpa [rooted] using h.1
    have e : "./".toList ++ clean p = ['.'] ++ '/' :: clean p := by simp
    rw [e]
    unfold resolve
    rw [splitPath_append, hr]
    simp [rooted, splitPath, walk]
  · rename_i h
    refine ⟨?_, rfl⟩
    by_cases hr : rooted (clean p) = true
    · simp [isLocal, hr]
    · have hd : (clean p).head? = some '.' := by
        by_cases hx : (clean p).head? = some '.'
        · exact hx
        · exact absurd ⟨by simpa [rooted] using hr, hx⟩ h
      obtain ⟨h1, -⟩ := cleanParts_ok p
      have hrp : rooted p = false := by
        cases hp : rooted p with
        | false => rfl
        | true =>
          have : clean p = '/' :: joinSlash (cleanParts p) := by
            unfold clean cleanParts; simp only [hp, if_true]
          exact absurd (by rw [this]; simp [rooted]) hr
      by_cases hn : cleanParts p = []
      · have : clean p = ['.'] := by
          unfold clean
          simp only [hrp, Bool.false_eq_true, if_false]
          unfold cleanParts at hn
          rw [hrp] at hn
          rw [if_pos hn]
        simp [isLocal, this]
      · have e : clean p = joinSlash (cleanParts p) := by
          have hn' := hn
          unfold clean
          simp only [hrp, Bool.false_eq_true, if_false]
          unfold cleanParts at hn' ⊢
          rw [hrp] at hn' ⊢
          rw [if_neg hn']
        rw [e] at hd ⊢
        cases hc : cleanParts p with
        | nil => exact absurd hc hn
        | cons a l =>
          have ha := h1.parts a (by rw [hc]; simp)
          have hm : a ∈ splitPath p := by
            rcases cleanSteps_mem (splitPath p) [] a (by show a ∈ cleanParts p; rw [hc]; simp) with h | h
            · simp at h
            · exact h
          have hh : a.head? = some '.' := by
            rw [hc] at hd
            cases a with
            | nil => exact absurd rfl ha.1
            | cons x a => cases l <;> simpa [joinSlash] using hd
          rcases hv a hm hh with rfl | rfl
          · exact absurd rfl ha.2.1
          · cases l with
            | nil => simp [isLocal, joinSlash]
            | cons b l => simp [isLocal, joinSlash]

/-! ## running the calls -/

theorem put_same (fs : FS) (p : List Name) (d : Name) : fs.put p d p = some d := by simp [FS.put]

theorem put_other (fs : FS) {p q : List Name} (d : Name) (h : q ≠ p) : fs.put p d q = fs q := by simp [FS.put, h]

/-- The files written by the commands. -/
def writeAll (made : Cmd → Name) (o : List Name) (fs : FS) (cs : List Cmd) : FS :=
  cs.foldl (fun fs c => fs.put (o ++ [c.out]) (made c)) fs

theorem writeAll_other (made : Cmd → Name) (o : List Name) : ∀ (cs : List Cmd) (fs : FS) (q : List Name),
    (∀ c ∈ cs, q ≠ o ++ [c.out]) → writeAll made o fs cs q = fs q := by
  intro cs
  induction cs with
  | nil => intro fs q _; rfl
  | cons c cs ih =>
    intro fs q h
    show writeAll made o (fs.put (o ++ [c.out]) (made c)) cs q = fs q
    rw [ih _ q (fun x hx => h x (by simp [hx])), put_other _ _ (h c (by simp))]

theorem writeAll_mem (made : Cmd → Name) (o : List Name) : ∀ (cs : List Cmd) (fs : FS) (c : Cmd), c ∈ cs →
    (∀ c' ∈ cs, c'.out = c.out → c' = c) → writeAll made o fs cs (o ++ [c.out]) = some (made c) := by
  intro cs
  induction cs with
  | nil => intro fs c h; cases h
  | cons x cs ih =>
    intro fs c hc hu
    show writeAll made o (fs.put (o ++ [x.out]) (made x)) cs (o ++ [c.out]) = some (made c)
    by_cases hm : c ∈ cs
    · exact ih _ c hm (fun y hy => hu y (by simp [hy]))
    · have hx : c = x := by
        rcases List.mem_cons.1 hc with h | h
        · exact h
        · exact absurd h hm
      subst hx
      rw [writeAll_other, put_same]
      intro y hy e
      have : c.out = y.out := by simpa using e
      exact hm (hu y (by simp [hy]) this.symm ▸ hy)

theorem resolve_input (o : List Name) (t : Template) :
    resolve (o ++ ["gen".toList]) ("../genny/".toList ++ t.file) = o ++ ["genny".toList, t.file] := by
  have e : "../genny/".toList ++ t.file = "..".toList ++ '/' :: ("genny".toList ++ '/' :: t.file) := by simp
  rw [e]
  unfold resolve
  rw [splitPath_append, splitPath_append, List.foldl_append, List.foldl_append,
    walk_name (safe_file t) (by cases t <;> decide)]
  have r : rooted ("..".toList ++ '/' :: ("genny".toList ++ '/' :: t.file)) = false := by simp [rooted]
  rw [r]
  have s1 : splitPath "..".toList = ["..".toList] := by decide
  have s2 : splitPath "genny".toList = ["genny".toList] := by decide
  rw [s1, s2]
  simp [walk]

theorem resolve_output (o : List Name) {c : Cmd} (h : CmdSafe c) :
    resolve (o ++ ["gen".toList]) ("../".toList ++ c.out) = o ++ [c.out] := by
  have e : "../".toList ++ c.out = "..".toList ++ '/' :: c.out := by simp
  rw [e]
  unfold resolve
  rw [splitPath_append, List.foldl_append, walk_name h.out h.long]
  have r : rooted ("..".toList ++ '/' :: c.out) = false := by simp [rooted]
  have s1 : splitPath "..".toList = ["..".toList] := by decide
  rw [r, s1]
  simp [walk]

theorem runCalls_meant (genny : Genny) (data : Name → Name) (made : Cmd → Name) (o : List Name) :
    ∀ (cs : List Cmd) (fs : FS), (∀ c ∈ cs, CmdSafe c) →
    (∀ c ∈ cs, genny (data c.template.file) (meant c).params = some (made c)) →
    (∀ t : Template, fs (o ++ ["genny".toList, t.file]) = some (data t.file)) →
    runCalls genny (o ++ ["gen".toList]) fs (cs.map meant) = (writeAll made o fs cs, true) := by
  intro cs
  induction cs with
  | nil => intro fs _ _ _; rfl
  | cons c cs ih =>
    intro fs hs hg ht
    have hc := hs c (by simp)
    have hr : runCall genny (o ++ ["gen".toList]) fs (meant c) = some (fs.put (o ++ [c.out]) (made c)) := by
      have e1 : resolve (o ++ ["gen".toList]) (meant c).input = o ++ ["genny".toList, c.template.file] := resolve_input o _
      have e2 : resolve (o ++ ["gen".toList]) (meant c).output = o ++ [c.out] := resolve_output o hc
      unfold runCall
      rw [e1, ht, e2]
      simp only
      rw [hg c (by simp)]
    simp only [List.map_cons, runCalls, hr]
    exact ih _ (fun x hx => hs x (by simp [hx])) (fun x hx => hg x (by simp [hx]))
      (fun t => by rw [put_other _ _ (by intro e; have := congrArg List.length e; simp at this)]; exact ht t)

theorem copyTemplates_spec (cwd : List Name) (data : Name → Name) {out : Name} (ho : out ≠ []) :
    ∀ (names : List Name) (fs : FS), (∀ n ∈ names, Safe n ∧ 3 ≤ n.length) →
    (∀ n ∈ names, copyTemplates cwd data out names fs (resolve cwd out ++ ["genny".toList, n]) = some (data n)) ∧
    (∀ q, ¬ resolve cwd out ++ ["genny".toList] <+: q → copyTemplates cwd data out names fs q = fs q) ∧
    (∀ n, n ∉ names → copyTemplates cwd data out names fs (resolve cwd out ++ ["genny".toList, n]) =
      fs (resolve cwd out ++ ["genny".toList, n])) := by
  intro names
  have hd : resolve cwd (pjoin [out, "genny".toList]) = resolve cwd out ++ ["genny".toList] := by
    rw [pjoin_resolve cwd ho]; exact walk_name (by decide) (by decide) _
  have hp : ∀ n, Safe n ∧ 3 ≤ n.length → resolve cwd (pjoin [pjoin [out, "genny".toList], n]) =
      resolve cwd out ++ ["genny".toList, n] := by
    intro n hn
    rw [pjoin_resolve cwd (pjoin_ne ho _), hd, walk_name hn.1 hn.2]; simp
  induction names with
  | nil => intro fs _; exact ⟨by simp, fun _ _ => rfl, fun _ _ => rfl⟩
  | cons x names ih =>
    intro fs h
    have e : copyTemplates cwd data out (x :: names) fs =
        copyTemplates cwd data out names (fs.put (resolve cwd out ++ ["genny".toList, x]) (data x)) := by
      unfold copyTemplates
      rw [List.foldl_cons, hp x (h x (by simp))]
    obtain ⟨i1, i2, i3⟩ := ih (fs.put (resolve cwd out ++ ["genny".toList, x]) (data x)) (fun n hn => h n (by simp [hn]))
    rw [e]
    refine ⟨?_, ?_, ?_⟩
    · intro n hn
      by_cases hm : n ∈ names
      · exact i1 n hm
      · rw [i3 n hm]
        rcases List.mem_cons.1 hn with rfl | hn
        · exact put_same ..
        · exact absurd hn hm
    · intro q hq
      rw [i2 q hq]
      refine put_other _ _ ?_
      rintro rfl
      exact hq ⟨[x], by simp⟩
    · intro n hn
      rw [i3 n (fun hm => hn (by simp [hm]))]
      refine put_other _ _ ?_
      intro e
      have : n = x := by simpa using e
      exact hn (by simp [this])

/-- What `GennyMode` does, up to the calls: the templates and the commands are in their places, everything else is
as before, and the calls are run from `gen` in the output directory. -/
theorem gennyMode_runs (genny : Genny) (cwd : List Name) (data : Name → Name) (names : List Name) (out : Name) (cs : List Cmd)
    (fs : FS) (hn : ∀ n, n ∈ names ↔ n ∈ assetNames) (ho : out ≠ []) (hv : Visible out) (hs : ∀ c ∈ cs, CmdSafe c) :
    ∃ G : FS, (∀ t : Template, G (resolve cwd out ++ ["genny".toList, t.file]) = some (data t.file)) ∧
      G (resolve cwd out ++ ["gen".toList, "tmp-gen-fbs-query.go".toList]) = some (headText ++ cs.flatMap renderCmd) ∧
      (∀ q, ¬ (resolve cwd out ++ ["gen".toList] <+: q ∨ resolve cwd out ++ ["genny".toList] <+: q) → G q = fs q) ∧
      gennyMode genny cwd data names out (headText ++ cs.flatMap renderCmd) fs =
        match runCalls genny (resolve cwd out ++ ["gen".toList]) G (cs.map meant) with
        | (W, false) => some (W, false)
        | (W, true) => some ((W.removeAll (resolve cwd out ++ ["gen".toList])).removeAll (resolve cwd out ++ ["genny".toList]), true) := by
  have ha : ∀ n ∈ assetNames, Safe n ∧ 3 ≤ n.length := by decide
  have hfile : ∀ t : Template, t.file ∈ assetNames := by intro t; cases t <;> decide
  generalize hO : resolve cwd out = O
  obtain ⟨k1, k2, -⟩ := copyTemplates_spec cwd data ho names fs (fun n hm => ha n ((hn n).1 hm))
  rw [hO] at k1 k2
  have hv' : Visible (joinSlash [out, "/gen".toList]) := by
    intro e he hh
    have e1 : joinSlash [out, "/gen".toList] = out ++ '/' :: "/gen".toList := rfl
    rw [e1, splitPath_append] at he
    rcases List.mem_append.1 he with he | he
    · exact hv e he hh
    · have : splitPath "/gen".toList = [[], "gen".toList] := by decide
      rw [this] at he
      simp only [List.mem_cons, List.not_mem_nil, or_false] at he
      rcases he with rfl | rfl
      · cases hh
      · exact absurd hh (by decide)
  have hdir : pjoin [out, "/gen".toList] = clean (joinSlash [out, "/gen".toList]) := by simp only [pjoin, ho, if_false]
  obtain ⟨p1, p2⟩ := pattern_ok cwd _ hv'
  rw [← hdir] at p1 p2
  have hD : resolve cwd (pjoin [out, "/gen".toList]) = O ++ ["gen".toList] := by
    rw [pjoin_resolve cwd ho, hO]
    have : splitPath "/gen".toList = [[], "gen".toList] := by decide
    rw [this]; simp [walk]
  have hdn := pjoin_ne ho ["/gen".toList]
  have hT : resolve cwd (pjoin [pjoin [out, "/gen".toList], "tmp-gen-fbs-query.go".toList]) =
      O ++ ["gen".toList, "tmp-gen-fbs-query.go".toList] := by
    rw [pjoin_resolve cwd hdn, hD, walk_name (by decide) (by decide)]; simp
  have hG : resolve cwd (pjoin [pjoin [out, "/gen".toList], "../".toList, "genny".toList]) = O ++ ["genny".toList] := by
    have e : pjoin [pjoin [out, "/gen".toList], "../".toList, "genny".toList] =
        pjoin [pjoin [out, "/gen".toList], "..//genny".toList] := by
      rfl
    rw [e, pjoin_resolve cwd hdn, hD]
    have : splitPath "..//genny".toList = ["..".toList, [], "genny".toList] := by decide
    rw [this]; simp [walk]
  generalize hdd : pjoin [out, "/gen".toList] = dir at *
  generalize hF : copyTemplates cwd data out names fs = F at *
  have hgen : goGenerate genny cwd (patternOf dir) (F.put (O ++ ["gen".toList, "tmp-gen-fbs-query.go".toList])
      (headText ++ cs.flatMap renderCmd)) = runCalls genny (O ++ ["gen".toList]) (F.put (O ++ ["gen".toList, "tmp-gen-fbs-query.go".toList])
      (headText ++ cs.flatMap renderCmd)) (cs.map meant) := by
    unfold goGenerate
    rw [if_pos p1, p2, hD, List.append_assoc]
    simp only [List.cons_append, List.nil_append]
    rw [put_same]
    simp only
    rw [cmds_read cs hs]
  refine ⟨F.put (O ++ ["gen".toList, "tmp-gen-fbs-query.go".toList]) (headText ++ cs.flatMap renderCmd), ?_, put_same .., ?_, ?_⟩
  · intro t
    rw [put_other _ _ (by intro e; have := List.append_cancel_left e; simp at this)]
    exact k1 _ ((hn _).2 (hfile t))
  · intro q hq
    rw [put_other, k2 q (fun h => hq (.inr h))]
    rintro rfl
    exact hq (.inl ⟨["tmp-gen-fbs-query.go".toList], by simp⟩)
  · unfold gennyMode runGenerate
    rw [hdd, hF]
    cases hc : dir with
    | nil => exact absurd hc hdn
    | cons x r =>
      have hpat : (if x ≠ '/' ∧ x ≠ '.' then "./".toList ++ (x :: r) else x :: r) = patternOf dir := by
        rw [hc]; simp [patternOf]
      rw [hc] at hT hD hG
      simp only
      rw [hT, hpat, hgen, hD, hG]
      generalize runCalls _ _ _ _ = w
      rcases w with ⟨W, _ | _⟩ <;> rfl

/-- C116: for every list of commands with safe names, every output directory that is not empty and has no part
beginning with a dot (but `.` and `..`), every working directory, every order of the templates and all files
before: if genny makes `made c` for every command, the run succeeds, every file whose name belongs to one command
holds what genny made for it in the output directory, `gen` and `genny` there are gone with all they held, and
all other files are as before. -/
theorem run_partial (genny : Genny) (cwd : List Name) (data : Name → Name) (names : List Name) (out : Name) (cs : List Cmd)
    (fs : FS) (made : Cmd → Name) (hn : ∀ n, n ∈ names ↔ n ∈ assetNames) (ho : out ≠ []) (hv : Visible out)
    (hs : ∀ c ∈ cs, CmdSafe c) (hg : ∀ c ∈ cs, genny (data c.template.file) (meant c).params = some (made c)) :
    ∃ fs', gennyMode genny cwd data names out (headText ++ cs.flatMap renderCmd) fs = some (fs', true) ∧
      (∀ c ∈ cs, (∀ c' ∈ cs, c'.out = c.out → c' = c) → fs' (resolve cwd out ++ [c.out]) = some (made c)) ∧
      (∀ q, resolve cwd out ++ ["gen".toList] <+: q ∨ resolve cwd out ++ ["genny".toList] <+: q → fs' q = none) ∧
      (∀ q, ¬ (resolve cwd out ++ ["gen".toList] <+: q ∨ resolve cwd out ++ ["genny".toList] <+: q) →
        (∀ c ∈ cs, q ≠ resolve cwd out ++ [c.out]) → fs' q = fs q) := by
  obtain ⟨G, g1, -, g3, g4⟩ := gennyMode_runs genny cwd data names out cs fs hn ho hv hs
  generalize resolve cwd out = O at *
  rw [runCalls_meant genny data made O cs G hs hg g1] at g4
  refine ⟨_, g4, ?_, ?_, ?_⟩
  · intro c hc hu
    have d1 : c.out ≠ "gen".toList := fun e => by have := (hs c hc).dot; rw [e] at this; revert this; decide
    have d2 : c.out ≠ "genny".toList := fun e => by have := (hs c hc).dot; rw [e] at this; revert this; decide
    have n1 : ¬ O ++ ["gen".toList] <+: O ++ [c.out] := by
      rw [List.prefix_append_right_inj]; simp; exact fun e => d1 e.symm
    have n2 : ¬ O ++ ["genny".toList] <+: O ++ [c.out] := by
      rw [List.prefix_append_right_inj]; simp; exact fun e => d2 e.symm
    unfold FS.removeAll
    rw [if_neg n2, if_neg n1]
    exact writeAll_mem made O cs _ c hc hu
  · intro q hq
    unfold FS.removeAll
    split
    · rfl
    · split
      · rfl
      · rename_i h1 h2
        rcases hq with hq | hq
        · exact absurd hq h2
        · exact absurd hq h1
  · intro q hq hne
    have n1 : ¬ O ++ ["gen".toList] <+: q := fun h => hq (.inl h)
    have n2 : ¬ O ++ ["genny".toList] <+: q := fun h => hq (.inr h)
    unfold FS.removeAll
    rw [if_neg n2, if_neg n1, writeAll_other made O cs _ q hne, g3 q hq]

/-- The commands belong to different files. -/
theorem outs_unique {cs : List Cmd} (h : (cs.map Cmd.out).Pairwise (· ≠ ·)) : ∀ c ∈ cs, ∀ c' ∈ cs, c'.out = c.out → c' = c := by
  induction cs with
  | nil => intro c hc; cases hc
  | cons x cs ih =>
    simp only [List.map_cons, List.pairwise_cons] at h
    intro c hc c' hc' e
    rcases List.mem_cons.1 hc with e1 | h1
    · rcases List.mem_cons.1 hc' with e2 | h2
      · rw [e1, e2]
      · exact absurd (by rw [← e1, e]) (h.1 _ (List.mem_map_of_mem h2))
    · rcases List.mem_cons.1 hc' with e2 | h2
      · exact absurd (by rw [← e2, e]) (h.1 _ (List.mem_map_of_mem h1))
      · exact ih h.2 c h1 c' h2 e

/-- C116 from schema text: for every printable schema whose root type has no backslash, whose commands belong to
different files (C69). -/
theorem run_schema_partial (ds : List Decl) (hne : ds ≠ []) (hd : ∀ d ∈ ds, d.ok) (hroot : '\\' ∉ (meaning ds).rootType)
    (filter : Name) (cs : List Cmd) (hcs : mainGen (ds.flatMap Decl.chars) filter = some cs)
    (hout : (cs.map Cmd.out).Pairwise (· ≠ ·)) (genny : Genny) (cwd : List Name) (data : Name → Name) (names : List Name)
    (out : Name) (fs : FS) (made : Cmd → Name) (hn : ∀ n, n ∈ names ↔ n ∈ assetNames) (ho : out ≠ []) (hv : Visible out)
    (hg : ∀ c ∈ cs, genny (data c.template.file) (meant c).params = some (made c)) :
    ∃ t fs', mainText (some (ds.flatMap Decl.chars)) filter = some t ∧
      gennyMode genny cwd data names out t fs = some (fs', true) ∧
      (∀ c ∈ cs, fs' (resolve cwd out ++ [c.out]) = some (made c)) ∧
      (∀ q, resolve cwd out ++ ["gen".toList] <+: q ∨ resolve cwd out ++ ["genny".toList] <+: q → fs' q = none) ∧
      (∀ q, ¬ (resolve cwd out ++ ["gen".toList] <+: q ∨ resolve cwd out ++ ["genny".toList] <+: q) →
        (∀ c ∈ cs, q ≠ resolve cwd out ++ [c.out]) → fs' q = fs q) := by
  have ha : Tape.main (some (ds.flatMap Decl.chars)) filter = some cs := by
    rw [(accepted_main _ filter (accepted_print ds hne hd).1).2, hcs]
  obtain ⟨fs', h1, h2, h3, h4⟩ := run_partial genny cwd data names out cs fs made hn ho hv
    (schema_cmds_safe ds hne hd hroot filter cs hcs) hg
  exact ⟨_, fs', by unfold mainText; rw [ha], h1, fun c hc => h2 c hc (outs_unique hout c hc), h3, h4⟩

/-- Paths as in the documentation of `filepath.Clean`. -/
example : String.ofList (clean "a//b/./../c/".toList) = "a/c" ∧ String.ofList (clean "/../x".toList) = "/x" ∧
    String.ofList (clean "../../a/..".toList) = "../.." ∧ String.ofList (clean "".toList) = "." ∧
    String.ofList (pjoin ["out".toList, "/gen".toList]) = "out/gen" ∧
    String.ofList (pjoin ["".toList, "/gen".toList]) = "/gen" ∧
    String.ofList (pjoin ["out/gen".toList, "../".toList, "genny".toList]) = "out/genny" := by decide

/-- A genny that copies the template. -/
def copyGenny : Genny := fun t _ => some t

/-- Non-vacuity: the sample schema in the directory `../x` of `/a/b`. -/
example : ((mainText (some (sampleDecls.flatMap Decl.chars)) []).bind fun t =>
      gennyMode copyGenny ["a".toList, "b".toList] id assetNames "../x".toList t (fun _ => none)).map
        (fun r => (r.2, (r.1 ["a".toList, "x".toList, "root.go".toList]).map String.ofList,
          r.1 ["a".toList, "x".toList, "genny".toList, "root.go".toList])) =
    some (true, some "root.go", none) := by decide +kernel

/-! ## violations -/

/-- The start of a list of commands: the root file comes first. -/
theorem makeGen_first {st : FbsSt} {filter : Name} {cs : List Cmd} (h : makeGen st filter = some cs) : cs ≠ [] := by
  unfold makeGen at h
  split at h
  · cases h
  · cases h; simp

/-- C116 is violated without `-out`: for every schema with safe names, every working directory but the root, the
templates go to the working directory but the commands to `/gen` in the root directory, from where the templates
are not found: nothing is generated, and both directories stay. -/
theorem run_no_out_fails (genny : Genny) (cwd : List Name) (data : Name → Name) (cs : List Cmd) (fs : FS)
    (hs : ∀ c ∈ cs, CmdSafe c) (hne : cs ≠ []) (hc : cwd ≠ []) (hf : ∀ n, fs ["genny".toList, n] = none) :
    ∃ fs', gennyMode genny cwd data assetNames [] (headText ++ cs.flatMap renderCmd) fs = some (fs', false) ∧
      fs' ["gen".toList, "tmp-gen-fbs-query.go".toList] = some (headText ++ cs.flatMap renderCmd) ∧
      (∀ q, ¬ ["gen".toList] <+: q → ¬ cwd ++ ["genny".toList] <+: q → fs' q = fs q) := by
  have hfile : ∀ t : Template, t.file ≠ "genny".toList := by intro t; cases t <;> decide
  have e1 : pjoin [[], "/gen".toList] = "/gen".toList := by decide
  have e2 : pjoin [[], "genny".toList] = "genny".toList := by decide
  have hd : ∀ d : List Name, resolve d "/gen".toList = ["gen".toList] := by
    intro d
    have : rooted "/gen".toList = true := by decide
    have h2 : splitPath "/gen".toList = [[], "gen".toList] := by decide
    unfold resolve; rw [this, h2]; simp [walk]
  have hk := copyTemplates_spec cwd data (out := "genny".toList ++ "/..".toList) (by simp) assetNames fs (by decide)
  have ho : resolve cwd ("genny".toList ++ "/..".toList) = cwd := by
    have h1 : rooted ("genny".toList ++ "/..".toList) = false := by decide
    have h2 : splitPath ("genny".toList ++ "/..".toList) = ["genny".toList, "..".toList] := by decide
    unfold resolve; rw [h1, h2]; simp [walk]
  have hsame : copyTemplates cwd data [] assetNames fs = copyTemplates cwd data ("genny".toList ++ "/..".toList) assetNames fs := by
    have e3 : pjoin ["genny".toList ++ "/..".toList, "genny".toList] = "genny".toList := by decide
    unfold copyTemplates; rw [e2, e3]
  rw [ho, ← hsame] at hk
  obtain ⟨-, k2, -⟩ := hk
  generalize hF : copyTemplates cwd data [] assetNames fs = F at *
  have hT : resolve cwd (pjoin ["/gen".toList, "tmp-gen-fbs-query.go".toList]) = ["gen".toList, "tmp-gen-fbs-query.go".toList] := by
    rw [pjoin_resolve cwd (by decide), hd, walk_name (by decide) (by decide)]; rfl
  refine ⟨F.put ["gen".toList, "tmp-gen-fbs-query.go".toList] (headText ++ cs.flatMap renderCmd), ?_, put_same .., ?_⟩
  · have hgo : goGenerate genny cwd "/gen".toList (F.put ["gen".toList, "tmp-gen-fbs-query.go".toList] (headText ++ cs.flatMap renderCmd)) =
        (F.put ["gen".toList, "tmp-gen-fbs-query.go".toList] (headText ++ cs.flatMap renderCmd), false) := by
      unfold goGenerate
      rw [if_pos (by decide), hd]
      simp only [List.cons_append, List.nil_append]
      rw [put_same]
      simp only
      rw [cmds_read cs hs]
      cases cs with
      | nil => exact absurd rfl hne
      | cons c cs =>
        have hr : ∀ G : FS, G ["genny".toList, c.template.file] = none → runCall genny ["gen".toList] G (meant c) = none := by
          intro G hG
          have e : resolve ["gen".toList] (meant c).input = ["genny".toList, c.template.file] := resolve_input [] _
          unfold runCall; rw [e, hG]
        simp only [List.map_cons, runCalls]
        rw [hr]
        rw [put_other _ _ (by intro e; simp at e), k2, hf]
        intro hp
        have := hp.length_le
        simp at this
        cases cwd with
        | nil => exact hc rfl
        | cons a l =>
          simp at this
          subst this
          have h5 := hp
          simp at h5
          exact hfile c.template (by simpa using h5.2.symm)
    unfold gennyMode runGenerate
    rw [e1, hF]
    have e : "/gen".toList = '/' :: "gen".toList := by decide
    rw [e] at hT hgo ⊢
    simp only [ne_eq, not_true_eq_false, false_and, if_false]
    rw [hT, hgo]
  · intro q h1 h2
    rw [put_other, k2 q h2]
    rintro rfl
    exact h1 ⟨["tmp-gen-fbs-query.go".toList], rfl⟩

/-- C116 is violated by output directories beginning with a dot, such as `.out`: `go generate` takes `.out/gen` for
the name of a package. -/
theorem run_hidden_fails (genny : Genny) (cwd : List Name) (data : Name → Name) (text : Name) (fs : FS) :
    ∃ fs', gennyMode genny cwd data assetNames ".out".toList text fs = some (fs', false) := by
  have e1 : pjoin [".out".toList, "/gen".toList] = '.' :: "out/gen".toList := by decide
  have e2 : isLocal ('.' :: "out/gen".toList) = false := by decide
  unfold gennyMode runGenerate
  rw [e1]
  simp only [ne_eq, not_true_eq_false, and_false, if_false]
  unfold goGenerate
  rw [e2]
  simp

/-- C116 is violated by files of the user in `gen` or `genny` of the output directory: a successful run deletes
them. -/
theorem run_deletes_fails (genny : Genny) (cwd : List Name) (data : Name → Name) (names : List Name) (out : Name) (cs : List Cmd)
    (fs : FS) (made : Cmd → Name) (hn : ∀ n, n ∈ names ↔ n ∈ assetNames) (ho : out ≠ []) (hv : Visible out)
    (hs : ∀ c ∈ cs, CmdSafe c) (hg : ∀ c ∈ cs, genny (data c.template.file) (meant c).params = some (made c))
    (mine : Name) (_hm : ∃ d, fs (resolve cwd out ++ ["gen".toList, mine]) = some d) :
    ∃ fs', gennyMode genny cwd data names out (headText ++ cs.flatMap renderCmd) fs = some (fs', true) ∧
      fs' (resolve cwd out ++ ["gen".toList, mine]) = none := by
  obtain ⟨fs', h1, -, h3, -⟩ := run_partial genny cwd data names out cs fs made hn ho hv hs hg
  exact ⟨fs', h1, h3 _ (.inl ⟨[mine], by simp⟩)⟩

/-- C116: a second run changes nothing. -/
theorem run_again_partial (genny : Genny) (cwd : List Name) (data : Name → Name) (names names' : List Name) (out : Name)
    (cs : List Cmd) (fs : FS) (made : Cmd → Name) (hn : ∀ n, n ∈ names ↔ n ∈ assetNames)
    (hn' : ∀ n, n ∈ names' ↔ n ∈ assetNames) (ho : out ≠ []) (hv : Visible out) (hs : ∀ c ∈ cs, CmdSafe c)
    (hg : ∀ c ∈ cs, genny (data c.template.file) (meant c).params = some (made c)) (hout : (cs.map Cmd.out).Pairwise (· ≠ ·)) :
    ∃ fs', gennyMode genny cwd data names out (headText ++ cs.flatMap renderCmd) fs = some (fs', true) ∧
      gennyMode genny cwd data names' out (headText ++ cs.flatMap renderCmd) fs' = some (fs', true) := by
  obtain ⟨f1, a1, a2, a3, a4⟩ := run_partial genny cwd data names out cs fs made hn ho hv hs hg
  obtain ⟨f2, b1, b2, b3, b4⟩ := run_partial genny cwd data names' out cs f1 made hn' ho hv hs hg
  have : f2 = f1 := by
    funext q
    by_cases hq : resolve cwd out ++ ["gen".toList] <+: q ∨ resolve cwd out ++ ["genny".toList] <+: q
    · rw [a3 q hq, b3 q hq]
    · by_cases hc : ∃ c ∈ cs, q = resolve cwd out ++ [c.out]
      · obtain ⟨c, hc, rfl⟩ := hc
        rw [a2 c hc (outs_unique hout c hc), b2 c hc (outs_unique hout c hc)]
      · exact b4 q hq (fun c hm e => hc ⟨c, hm, e⟩)
  rw [this] at b1
  exact ⟨f1, a1, b1⟩

theorem writeAll_below (made : Cmd → Name) (o : List Name) (cs : List Cmd) (fs : FS) (a b : Name) :
    writeAll made o fs cs (o ++ [a, b]) = fs (o ++ [a, b]) :=
  writeAll_other made o cs fs _ (fun c _ e => by have := congrArg List.length e; simp at this)

theorem runCalls_stop (genny : Genny) (data : Name → Name) (made : Cmd → Name) (o : List Name) (c : Cmd) (post : List Cmd)
    (hf : genny (data c.template.file) (meant c).params = none) :
    ∀ (pre : List Cmd) (fs : FS), (∀ c ∈ pre, CmdSafe c) →
    (∀ c ∈ pre, genny (data c.template.file) (meant c).params = some (made c)) →
    (∀ t : Template, fs (o ++ ["genny".toList, t.file]) = some (data t.file)) →
    runCalls genny (o ++ ["gen".toList]) fs ((pre ++ c :: post).map meant) = (writeAll made o fs pre, false) := by
  intro pre
  induction pre with
  | nil =>
    intro fs _ _ ht
    have hr : runCall genny (o ++ ["gen".toList]) fs (meant c) = none := by
      have e1 : resolve (o ++ ["gen".toList]) (meant c).input = o ++ ["genny".toList, c.template.file] := resolve_input o _
      unfold runCall
      rw [e1, ht]
      simp only
      rw [hf]
    simp only [List.nil_append, List.map_cons, runCalls, hr]
    rfl
  | cons x pre ih =>
    intro fs hs hg ht
    have hx := hs x (by simp)
    have hr : runCall genny (o ++ ["gen".toList]) fs (meant x) = some (fs.put (o ++ [x.out]) (made x)) := by
      have e1 : resolve (o ++ ["gen".toList]) (meant x).input = o ++ ["genny".toList, x.template.file] := resolve_input o _
      have e2 : resolve (o ++ ["gen".toList]) (meant x).output = o ++ [x.out] := resolve_output o hx
      unfold runCall
      rw [e1, ht, e2]
      simp only
      rw [hg x (by simp)]
    simp only [List.cons_append, List.map_cons, runCalls, hr]
    exact ih _ (fun y hy => hs y (by simp [hy])) (fun y hy => hg y (by simp [hy]))
      (fun t => by rw [put_other _ _ (by intro e; have := congrArg List.length e; simp at this)]; exact ht t)

/-- C116 is violated when genny fails: the files made before stay, the others are not made, and the directories
`gen` and `genny` stay. -/
theorem run_error_fails (genny : Genny) (cwd : List Name) (data : Name → Name) (names : List Name) (out : Name)
    (pre post : List Cmd) (c : Cmd) (fs : FS) (made : Cmd → Name) (hn : ∀ n, n ∈ names ↔ n ∈ assetNames) (ho : out ≠ [])
    (hv : Visible out) (hs : ∀ x ∈ pre ++ c :: post, CmdSafe x)
    (hg : ∀ x ∈ pre, genny (data x.template.file) (meant x).params = some (made x))
    (hf : genny (data c.template.file) (meant c).params = none) :
    ∃ fs', gennyMode genny cwd data names out (headText ++ (pre ++ c :: post).flatMap renderCmd) fs = some (fs', false) ∧
      (∀ q, ¬ (resolve cwd out ++ ["gen".toList] <+: q ∨ resolve cwd out ++ ["genny".toList] <+: q) →
        fs' q = writeAll made (resolve cwd out) fs pre q) ∧
      fs' (resolve cwd out ++ ["gen".toList, "tmp-gen-fbs-query.go".toList]) =
        some (headText ++ (pre ++ c :: post).flatMap renderCmd) ∧
      ∀ t : Template, fs' (resolve cwd out ++ ["genny".toList, t.file]) = some (data t.file) := by
  obtain ⟨G, g1, g2, g3, g4⟩ := gennyMode_runs genny cwd data names out _ fs hn ho hv hs
  rw [runCalls_stop genny data made _ c post hf pre G (fun x hx => hs x (by simp [hx])) hg g1] at g4
  refine ⟨_, g4, ?_, by rw [writeAll_below]; exact g2, fun t => by rw [writeAll_below]; exact g1 t⟩
  intro q hq
  have : ∀ (cs : List Cmd) (f g : FS), f q = g q → writeAll made (resolve cwd out) f cs q = writeAll made (resolve cwd out) g cs q := by
    intro cs
    induction cs with
    | nil => intro f g h; exact h
    | cons x cs ih =>
      intro f g h
      refine ih _ _ ?_
      simp only [FS.put]
      split
      · rfl
      · exact h
  exact this pre _ _ (g3 q hq)

end Fbs.Props
