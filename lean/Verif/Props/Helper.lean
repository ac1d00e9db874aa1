import Verif.Helper
import Verif.Props.GenRun
/-!
# C119: fbshelper writes one file for each declaration
-/

namespace Fbs.Props
open Fbs Fbs.Peg Fbs.Gen Fbs.Schema Fbs.GenRead Fbs.Helper

/-- The name of the file for a declaration. -/
def helperFile (i : Item) : Name := i.name ++ ".fbshelper.go".toList

theorem helperFile_place (cwd : List Name) {out : Name} (ho : out ≠ []) (i : Item) (hi : Safe i.name) :
    resolve cwd (pjoin [out, i.name ++ ".fbshelper.go".toList]) = resolve cwd out ++ [helperFile i] := by
  rw [pjoin_resolve cwd ho]
  refine walk_name ?_ ?_ _
  · intro c hc
    rcases List.mem_append.1 hc with h | h
    · exact hi c h
    · exact (by decide : Safe ".fbshelper.go".toList) c h
  · have : (".fbshelper.go".toList).length = 13 := by decide
    rw [List.length_append, this]; omega

/-- Where the template for unions is. -/
theorem helper_union_template (cwd : List Name) (d b : Name) (hd : d ≠ []) (hb : Safe b) (hne : b ≠ []) :
    resolve cwd (unionTemplate (d ++ '/' :: b)) = resolve cwd d ++ ["union.".toList ++ b] := by
  have hs : '/' ∉ b := safe_ne hb (by decide)
  have hr : (d ++ '/' :: b).reverse = b.reverse ++ '/' :: d.reverse := by simp
  have h1 : ∀ c ∈ b.reverse, (decide (c ≠ '/')) = true := by
    intro c hc; rw [decide_eq_true_eq]; rintro rfl; exact hs (List.mem_reverse.1 hc)
  have e1 : dirName (d ++ '/' :: b) = clean (d ++ '/' :: []) := by
    unfold dirName
    rw [hr, List.dropWhile_append_of_pos h1]
    simp
  have e2 : baseName (d ++ '/' :: b) = b := by
    have : (d ++ '/' :: b).reverse.dropWhile (· = '/') = b.reverse ++ '/' :: d.reverse := by
      rw [hr]
      cases hb' : b.reverse with
      | nil => exact absurd (List.reverse_eq_nil_iff.1 hb') hne
      | cons c r =>
        have := h1 c (by rw [hb']; simp)
        rw [decide_eq_true_eq] at this
        simp [this]
    unfold baseName
    rw [this, List.takeWhile_append_of_pos h1]
    simp [hd]
  unfold unionTemplate
  rw [e1, e2, pjoin_resolve cwd (clean_ne _), clean_resolve, walk_name]
  · congr 1
    unfold resolve
    rw [rooted_append hd, splitPath_append, List.foldl_append]
    simp [splitPath, walk]
  · intro c hc
    rcases List.mem_append.1 hc with h | h
    · exact (by decide : Safe "union.".toList) c h
    · exact hb c h
  · have : ("union.".toList).length = 6 := by decide
    rw [List.length_append, this]; omega

example : String.ofList (unionTemplate "template/helper.gotmpl".toList) = "template/union.helper.gotmpl" ∧
    String.ofList (unionTemplate "helper.gotmpl".toList) = "union.helper.gotmpl" ∧
    String.ofList (unionTemplate "/h/".toList) = "/h/union.h" ∧ String.ofList (unionTemplate "".toList) = "union.." := by
  decide +kernel

theorem writeItems_spec (render : Render) (cwd : List Name) (st : FbsSt) (tmpl out : Name) (ho : out ≠ [])
    (made : Item → Option Name) (text : Name) : ∀ (is : List Item) (fs : FS), (∀ i ∈ is, Safe i.name) →
    (∀ i ∈ is, resolve cwd tmpl ≠ resolve cwd out ++ [helperFile i]) → (fs (resolve cwd tmpl)).getD [] = text →
    (∀ i ∈ is, render text st i = some (made i)) →
    ∃ fs', writeItems render cwd st tmpl out is fs = some fs' ∧
      (∀ q, (∀ i ∈ is, made i ≠ none → q ≠ resolve cwd out ++ [helperFile i]) → fs' q = fs q) ∧
      (∀ i ∈ is, ∀ src, made i = some src → (∀ j ∈ is, j.name = i.name → made j = made i) →
        fs' (resolve cwd out ++ [helperFile i]) = some src) := by
  intro is
  induction is with
  | nil => intro fs _ _ _ _; exact ⟨fs, rfl, fun _ _ => rfl, by simp⟩
  | cons x is ih =>
    intro fs hs ht hx hr
    have hp := helperFile_place cwd ho x (hs x (by simp))
    have hr0 := hr x (by simp)
    cases hm : made x with
    | none =>
      obtain ⟨fs', a1, a2, a3⟩ := ih fs (fun i h => hs i (by simp [h])) (fun i h => ht i (by simp [h])) hx
        (fun i h => hr i (by simp [h]))
      refine ⟨fs', by rw [writeItems, hx, hr0, hm]; exact a1, fun q hq => a2 q fun i h => hq i (by simp [h]), ?_⟩
      intro i hi src he hu
      rcases List.mem_cons.1 hi with rfl | hi
      · rw [hm] at he; cases he
      · exact a3 i hi src he fun j hj => hu j (by simp [hj])
    | some s0 =>
      obtain ⟨fs', a1, a2, a3⟩ := ih (fs.put (resolve cwd out ++ [helperFile x]) s0) (fun i h => hs i (by simp [h]))
        (fun i h => ht i (by simp [h])) (by rw [put_other _ _ (ht x (by simp)), hx]) (fun i h => hr i (by simp [h]))
      refine ⟨fs', by rw [writeItems, hx, hr0, hm]; simp only; rw [hp]; exact a1, ?_, ?_⟩
      · intro q hq
        rw [a2 q fun i h => hq i (by simp [h]), put_other]
        exact hq x (by simp) (by rw [hm]; simp)
      · intro i hi src he hu
        by_cases hin : ∃ j ∈ is, j.name = i.name
        · obtain ⟨j, hj, hji⟩ := hin
          have e : helperFile j = helperFile i := by unfold helperFile; rw [hji]
          have mj : made j = made i := hu j (by simp [hj]) hji
          rw [← e]
          exact a3 j hj src (by rw [mj, he]) fun k hk hkj => by
            rw [hu k (by simp [hk]) (by rw [hkj, hji]), mj]
        · rcases List.mem_cons.1 hi with rfl | hi
          · rw [a2, put_same]
            · rw [hm] at he; exact he
            · intro j hj _ e
              refine hin ⟨j, hj, ?_⟩
              have := (List.append_inj_right e rfl)
              simp only [List.cons.injEq, and_true] at this
              exact (List.append_cancel_right this).symm
          · exact absurd ⟨i, hi, rfl⟩ hin

/-- The declarations a file is written for. -/
def helperItems (st : FbsSt) : List Item := st.structs.map .struct ++ st.unions.map .union

/-- C119: for every schema text as described by `Decl` that is finalised, with the three arguments, a named output
directory and templates that are not among the files written: the program ends with status 0, each declaration whose
name is its own and whose template gives a text has that text in `<name>.fbshelper.go`, structs by the first template
and unions by the second, and no other file is touched. Unions win over structs of the same name. Missing: an empty
name of the output directory, and a root type with a backslash. -/
theorem helper_partial (ds : List Decl) (hne : ds ≠ []) (hd : ∀ d ∈ ds, d.ok) (hroot : '\\' ∉ (meaning ds).rootType)
    (render : Render) (cwd : List Name) (fbs tmpl out : Name) (rest : List Name) (fs : FS) (ho : out ≠ [])
    (hf : fs (resolve cwd fbs) = some (ds.flatMap Decl.chars)) (st st' : FbsSt)
    (hst : parseSchema (ds.flatMap Decl.chars) = some st) (hfin : st.finalize = some st')
    (made : Item → Option Name) (ts tu : Name) (hts : fs (resolve cwd tmpl) = some ts)
    (htu : fs (resolve cwd (unionTemplate tmpl)) = some tu)
    (hnt : ∀ i ∈ helperItems st', resolve cwd tmpl ≠ resolve cwd out ++ [helperFile i] ∧
      resolve cwd (unionTemplate tmpl) ≠ resolve cwd out ++ [helperFile i])
    (hrs : ∀ s ∈ st'.structs, render ts st' (.struct s) = some (made (.struct s)))
    (hru : ∀ u ∈ st'.unions, render tu st' (.union u) = some (made (.union u))) :
    ∃ fs', Helper.main render cwd (fbs :: tmpl :: out :: rest) fs = .exit 0 fs' ∧
      (∀ i ∈ helperItems st', (∀ j ∈ helperItems st', j.name = i.name → j = i) → ∀ src, made i = some src →
        fs' (resolve cwd out ++ [helperFile i]) = some src) ∧
      (∀ u ∈ st'.unions, (∀ v ∈ st'.unions, v.name = u.name → v = u) → ∀ src, made (.union u) = some src →
        fs' (resolve cwd out ++ [u.name ++ ".fbshelper.go".toList]) = some src) ∧
      (∀ q, (∀ i ∈ helperItems st', made i ≠ none → q ≠ resolve cwd out ++ [helperFile i]) → fs' q = fs q) := by
  have hrun : Tape.run (ds.flatMap Decl.chars) = some st := by
    rw [(accepted_main _ [] (accepted_print ds hne hd).1).1, hst]
  obtain ⟨st0, h1, -, h3, h4, h5⟩ := parse_print ds hne hd
  rw [hst] at h1
  cases h1
  have hm := meaning_safe ds hd
  have safe : StSafe st' := finalize_safe hfin
    ⟨by rw [h3]; exact hm.root hroot, by rw [h4]; exact hm.structs, by rw [h5]; exact hm.unions⟩
  have ms : ∀ i ∈ st'.structs.map Item.struct, i ∈ helperItems st' := fun i h => List.mem_append_left _ h
  have mu : ∀ i ∈ st'.unions.map Item.union, i ∈ helperItems st' := fun i h => List.mem_append_right _ h
  obtain ⟨f1, a1, a2, a3⟩ := writeItems_spec render cwd st' tmpl out ho made ts (st'.structs.map .struct) fs
    (by intro i hi; obtain ⟨s, hs, rfl⟩ := List.mem_map.1 hi; exact (safe.structs s hs).1)
    (fun i hi => (hnt i (ms i hi)).1) (by rw [hts]; rfl)
    (by intro i hi; obtain ⟨s, hs, rfl⟩ := List.mem_map.1 hi; exact hrs s hs)
  have k : f1 (resolve cwd (unionTemplate tmpl)) = some tu := by
    rw [a2 _ fun i hi _ => (hnt i (ms i hi)).2, htu]
  obtain ⟨f2, b1, b2, b3⟩ := writeItems_spec render cwd st' (unionTemplate tmpl) out ho made tu (st'.unions.map .union) f1
    (by intro i hi; obtain ⟨u, hu', rfl⟩ := List.mem_map.1 hi; exact (safe.unions u hu').1)
    (fun i hi => (hnt i (mu i hi)).2) (by rw [k]; rfl)
    (by intro i hi; obtain ⟨u, hu', rfl⟩ := List.mem_map.1 hi; exact hru u hu')
  refine ⟨f2, ?_, ?_, ?_, ?_⟩
  · unfold Helper.main
    rw [if_neg (by simp only [List.length_cons]; omega)]
    simp only [hf, Option.getD_some, hrun, hfin, a1, b1]
  · intro i hi hu src he
    rcases List.mem_append.1 hi with h | h
    · rw [b2]
      · exact a3 i h src he fun j hj e => by rw [hu j (ms j hj) e]
      · intro j hj _ e
        have := (List.append_inj_right e rfl)
        simp only [List.cons.injEq, and_true] at this
        have e2 := hu j (mu j hj) (List.append_cancel_right this).symm
        obtain ⟨s, -, rfl⟩ := List.mem_map.1 h
        obtain ⟨u, -, rfl⟩ := List.mem_map.1 hj
        cases e2
    · exact b3 i h src he fun j hj e => by rw [hu j (mu j hj) e]
  · intro u hu' hv src he
    refine b3 (.union u) (List.mem_map.2 ⟨u, hu', rfl⟩) src he fun j hj e => ?_
    obtain ⟨v, hv', rfl⟩ := List.mem_map.1 hj
    rw [hv v hv' e]
  · intro q hq
    rw [b2 q fun i hi => hq i (mu i hi), a2 q fun i hi => hq i (ms i hi)]

/-- A template engine that puts the name after the template. -/
def nameRender : Render := fun t _ i => some (some (t ++ i.name))

/-- Two templates and a schema. -/
def helperFs (schema : Name) : FS := fun q =>
  if q = ["a".toList, "s.fbs".toList] then some schema
  else if q = ["a".toList, "t".toList, "h.tmpl".toList] then some "S:".toList
  else if q = ["a".toList, "t".toList, "union.h.tmpl".toList] then some "U:".toList
  else none

/-- The files made from a schema. -/
def helperMade (schema : Name) (files : List String) : Option (Nat × List (Option String)) :=
  match Helper.main nameRender ["a".toList] ["s.fbs".toList, "t/h.tmpl".toList, "o/../x".toList] (helperFs schema) with
  | .exit s fs => some (s, files.map fun f => (fs ["a".toList, "x".toList, f.toList]).map String.ofList)
  | .panic => none

/-- Non-vacuity: the sample schema. -/
example : helperMade (sampleDecls.flatMap Decl.chars) ["Root.fbshelper.go", "Index.fbshelper.go", "IndexNum.fbshelper.go"] =
    some (0, [some "S:Root", some "U:Index", none]) := by decide +kernel

/-- C119 fails: of a table and a union of one name only the union has a file. -/
theorem helper_same_fails : helperMade "union A {Bc}table A{vv:int;}root_type A;".toList ["A.fbshelper.go"] =
    some (0, [some "U:A"]) ∧
    (parseSchema "union A {Bc}table A{vv:int;}root_type A;".toList).map (fun st => (st.structs.length, st.unions.length)) =
      some (1, 1) := by decide +kernel

/-- C119 fails: with exactly two arguments the usage check passes and the program panics, whatever they are. -/
theorem helper_two_fails (render : Render) (cwd : List Name) (a b : Name) (fs : FS) :
    Helper.main render cwd [a, b] fs = .panic := rfl

/-- With fewer arguments nothing is done. -/
theorem helper_usage (render : Render) (cwd : List Name) (args : List Name) (fs : FS) (h : args.length < 2) :
    Helper.main render cwd args fs = .exit 0 fs := by
  unfold Helper.main; rw [if_pos (by omega)]

/-- C119 fails: a schema file that is not there gives status 0 and no files, whatever the templates. -/
theorem helper_status_fails (render : Render) (cwd : List Name) (fbs tmpl out : Name) (rest : List Name) (fs : FS)
    (h : fs (resolve cwd fbs) = none) : Helper.main render cwd (fbs :: tmpl :: out :: rest) fs = .exit 0 fs := by
  unfold Helper.main
  rw [if_neg (by simp only [List.length_cons]; omega)]
  have e : (Tape.run []).bind (fun st => st.finalize.map fun st' => (st'.structs.length, st'.unions.length)) = some (0, 0) := by
    decide +kernel
  simp only [h, Option.getD_none]
  cases h1 : Tape.run [] with
  | none => rw [h1] at e; cases e
  | some st =>
    rw [h1] at e
    cases h2 : st.finalize with
    | none => simp [h2] at e
    | some st' =>
      simp only [Option.bind_some, h2, Option.map_some, Option.some.injEq, Prod.mk.injEq, List.length_eq_zero_iff] at e
      simp [h2, e.1, e.2, writeItems]

/-- C119 fails: the helpers of the templates panic on every type name of one letter, and on the empty one. -/
theorem helper_short_fails (s : Name) (h : s.length < 2) :
    Helper.isSlice s = none ∧ isMessage s = none ∧ toCamel s = none ∧ toBareType s = none := by
  have : first2 s = none := by unfold first2; rw [if_neg (by omega)]
  simp [Helper.isSlice, isMessage, toCamel, toBareType, this]

/-- On longer names they say what the type is: a vector of `t` is a slice with the bare type `t`. -/
theorem helper_vector (c : Char) (t : Name) (hc : c ≠ '*') : Helper.isSlice ("[]".toList ++ c :: t) = some true ∧
    toBareType ("[]".toList ++ c :: t) = some (c :: t) ∧
    isMessage ("[]".toList ++ c :: t) = some (decide (c.toUpper = c)) ∧
    toCamel ("[]".toList ++ c :: t) = toCamelCase (c :: t) := by
  simp [Helper.isSlice, isMessage, toCamel, toBareType, first2, hc]

theorem helper_plain (c d : Char) (t : Name) (hc : c ≠ '*') (hb : c ≠ '[') : Helper.isSlice (c :: d :: t) = some false ∧
    toBareType (c :: d :: t) = some (c :: d :: t) ∧ isMessage (c :: d :: t) = some (decide (c.toUpper = c)) ∧
    toCamel (c :: d :: t) = toCamelCase (c :: d :: t) := by
  simp [Helper.isSlice, isMessage, toCamel, toBareType, first2, hc, hb]

example : Helper.isSlice "[]Root".toList = some true ∧ toBareType "[]*Ab".toList = some "Ab".toList ∧
    isMessage "int32".toList = some false ∧ toBareType "[]".toList = none ∧ isMessage "[]".toList = none := by decide

end Fbs.Props
