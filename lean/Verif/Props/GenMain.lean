import Verif.GenMain
import Verif.Props.GenRun
/-!
# C118: what the command line asks for is generated
-/

namespace Fbs.Props
open Fbs Fbs.Peg Fbs.Gen Fbs.Schema Fbs.GenRead

/-! ## specification: settings and the ways to write them -/

/-- What a user can ask for. -/
inductive FlagSetting where
  | filter (v : Name)
  | fbs (v : Name)
  | out (v : Name)
  | verbose (b : Bool)
  | help
deriving DecidableEq, Repr

/-- One setting, with one or two dashes, the value after `=` or as the next argument. -/
structure Written where
  twoDashes : Bool
  joined : Bool
  setting : FlagSetting
deriving DecidableEq, Repr

def dashes (two : Bool) : Name := if two then ['-', '-'] else ['-']

def textArgs (w : Written) (name v : Name) : List Name :=
  if w.joined then [dashes w.twoDashes ++ name ++ '=' :: v] else [dashes w.twoDashes ++ name, v]

/-- The arguments. -/
def Written.args (w : Written) : List Name :=
  match w.setting with
  | .filter v => textArgs w "filter".toList v
  | .fbs v => textArgs w "fbs".toList v
  | .out v => textArgs w "out".toList v
  | .verbose true => [dashes w.twoDashes ++ "v".toList]
  | .verbose false => [dashes w.twoDashes ++ "v=false".toList]
  | .help => [dashes w.twoDashes ++ "h".toList]

def FlagSetting.fbs? : FlagSetting → Option Name | .fbs v => some v | _ => none
def FlagSetting.out? : FlagSetting → Option Name | .out v => some v | _ => none
def FlagSetting.filter? : FlagSetting → Option Name | .filter v => some v | _ => none

/-- The value given last. -/
def lastGiven (f : FlagSetting → Option Name) (ws : List Written) : Name :=
  ((ws.filterMap fun w => f w.setting).getLast?).getD []

/-- Arguments at which the flags end: nothing, or an argument that does not begin with a dash, or `-`, or `--`. -/
def FlagsEnd (rest : List Name) : Prop :=
  rest = [] ∨ ∃ a l, rest = a :: l ∧ (a.head? ≠ some '-' ∨ a = ['-'] ∨ a = ['-', '-'])

/-! ## reading -/

def FlagSetting.apply (o : Opts) : FlagSetting → Opts
  | .filter v => { o with filter := v }
  | .fbs v => { o with fbs := v }
  | .out v => { o with out := v }
  | .verbose b => { o with verbose := b }
  | .help => { o with help := true }

theorem namedFlag_eq {name v : Name} {c : Char} (hn : name = c :: name.tail) (hc : c ≠ '-') (he : '=' ∉ name) :
    namedFlag (name ++ '=' :: v) = .flag name (some v) := by
  rw [hn] at he ⊢
  generalize name.tail = r at *
  have hc2 : c ≠ '=' := fun e => he (by simp [e])
  have hr : ∀ x ∈ r, decide (x ≠ '=') = true := fun x hx => by
    simp only [decide_eq_true_eq]; rintro rfl; exact he (by simp [hx])
  have h1 : (r ++ '=' :: v).takeWhile (· ≠ '=') = r := by
    rw [List.takeWhile_append_of_pos hr]; simp
  have h2 : (r ++ '=' :: v).dropWhile (· ≠ '=') = '=' :: v := by
    rw [List.dropWhile_append_of_pos hr]; simp
  show namedFlag (c :: (r ++ '=' :: v)) = _
  unfold namedFlag
  simp only
  rw [if_neg (by simp [hc, hc2]), h1, h2]
  rfl

theorem namedFlag_bare {name : Name} {c : Char} (hn : name = c :: name.tail) (hc : c ≠ '-') (he : '=' ∉ name) :
    namedFlag name = .flag name none := by
  rw [hn] at he ⊢
  generalize name.tail = r at *
  have hc2 : c ≠ '=' := fun e => he (by simp [e])
  have hr : ∀ x ∈ r, decide (x ≠ '=') = true := fun x hx => by
    simp only [decide_eq_true_eq]; rintro rfl; exact he (by simp [hx])
  have h1 : r.takeWhile (· ≠ '=') = r := by
    have := List.takeWhile_append_of_pos (l₂ := []) hr
    simpa using this
  have h2 : r.dropWhile (· ≠ '=') = [] := by
    have := List.dropWhile_append_of_pos (l₂ := []) hr
    simpa using this
  unfold namedFlag
  simp only
  rw [if_neg (by simp [hc, hc2]), h1, h2]
  rfl

theorem flagArg_dashes (two : Bool) {r : Name} {c : Char} (hr : r = c :: r.tail) (hc : c ≠ '-') :
    flagArg (dashes two ++ r) = namedFlag r := by
  rw [hr]
  cases two
  · show flagArg ('-' :: c :: r.tail) = _
    unfold flagArg
    split
    · rename_i h; simp at h; exact absurd h.1 hc
    · rename_i h; cases h; simp
    · rename_i h1 h2; exact absurd rfl (h2 (c :: r.tail))
  · show flagArg ('-' :: '-' :: c :: r.tail) = _
    simp [flagArg]

theorem flagsEnd_parse {rest : List Name} (h : FlagsEnd rest) (o : Opts) : parseFlags rest o = .ok o := by
  rcases h with rfl | ⟨a, l, rfl, ha⟩
  · rfl
  · have hs : flagArg a = .stop := by
      rcases ha with ha | rfl | rfl
      · cases a with
        | nil => rfl
        | cons x r =>
          have hx : x ≠ '-' := by simpa using ha
          unfold flagArg
          split
          · rename_i h; cases h; exact absurd rfl hx
          · rename_i h; cases h; exact absurd rfl hx
          · rfl
      · rfl
      · rfl
    cases l with
    | nil => unfold parseFlags; rw [hs]
    | cons b l => unfold parseFlags; rw [hs]

/-- A flag that takes no further argument. -/
theorem parse_one {a : Name} {name : Name} {value : Option Name} {o o' : Opts} (h : flagArg a = .flag name value)
    (hh : name ≠ "help".toList) (hv : ¬ (value = none ∧ isText o name = true)) (hs : setFlag o name value = .ok o')
    (rest : List Name) : parseFlags (a :: rest) o = parseFlags rest o' := by
  cases rest with
  | nil => unfold parseFlags; rw [h]; simp only; rw [if_neg hh, hs]
  | cons b l => rw [parseFlags, h]; simp only; rw [if_neg hh, if_neg hv, hs]

/-- A flag that takes the next argument. -/
theorem parse_two {a b : Name} {name : Name} {o o' : Opts} (h : flagArg a = .flag name none)
    (hh : name ≠ "help".toList) (hv : isText o name = true) (hs : setFlag o name (some b) = .ok o')
    (rest : List Name) : parseFlags (a :: b :: rest) o = parseFlags rest o' := by
  rw [parseFlags, h]; simp only; rw [if_neg hh, if_pos (by simp [hv]), hs]

theorem parse_text (w : Written) (name v : Name) (o o' : Opts) (c : Char) (hn : name = c :: name.tail) (hc : c ≠ '-')
    (he : '=' ∉ name) (hh : name ≠ "help".toList) (hv : isText o name = true) (hs : setFlag o name (some v) = .ok o')
    (rest : List Name) : parseFlags (textArgs w name v ++ rest) o = parseFlags rest o' := by
  unfold textArgs
  split
  · refine parse_one (value := some v) ?_ hh (by simp) hs rest
    rw [List.append_assoc, flagArg_dashes w.twoDashes (c := c) (by rw [hn]; rfl) hc, namedFlag_eq hn hc he]
  · refine parse_two ?_ hh hv hs rest
    rw [flagArg_dashes w.twoDashes hn hc, namedFlag_bare hn hc he]

theorem parse_written (w : Written) (o : Opts) (rest : List Name) :
    parseFlags (w.args ++ rest) o = parseFlags rest (w.setting.apply o) := by
  unfold Written.args
  cases hw : w.setting with
  | filter v => exact parse_text w "filter".toList v o _ 'f' rfl (by decide) (by decide) (by decide) rfl rfl rest
  | fbs v => exact parse_text w "fbs".toList v o _ 'f' rfl (by decide) (by decide) (by decide) rfl rfl rest
  | out v => exact parse_text w "out".toList v o _ 'o' rfl (by decide) (by decide) (by decide) rfl rfl rest
  | verbose b =>
    cases b
    · refine parse_one (name := "v".toList) (value := some "false".toList) ?_ (by decide) (by simp) rfl rest
      rw [flagArg_dashes w.twoDashes (c := 'v') rfl (by decide)]
      decide
    · refine parse_one (name := "v".toList) (value := none) ?_ (by decide) (by rintro ⟨_, h⟩; cases h) rfl rest
      rw [flagArg_dashes w.twoDashes (c := 'v') rfl (by decide)]
      decide
  | help =>
    refine parse_one (name := "h".toList) (value := none) ?_ (by decide) (by rintro ⟨_, h⟩; cases h) rfl rest
    rw [flagArg_dashes w.twoDashes (c := 'h') rfl (by decide)]
    decide

theorem parse_all (rest : List Name) (hr : FlagsEnd rest) : ∀ (ws : List Written) (o : Opts),
    parseFlags (ws.flatMap Written.args ++ rest) o = .ok (ws.foldl (fun o w => w.setting.apply o) o) := by
  intro ws
  induction ws with
  | nil => intro o; exact flagsEnd_parse hr o
  | cons w ws ih => intro o; rw [List.flatMap_cons, List.append_assoc, parse_written, ih]; rfl

theorem foldl_last (f : FlagSetting → Option Name) (g : Opts → Name)
    (hg : ∀ o s, g (s.apply o) = (f s).getD (g o)) : ∀ (ws : List Written) (o : Opts),
    g (ws.foldl (fun o w => w.setting.apply o) o) = ((ws.filterMap fun w => f w.setting).getLast?).getD (g o) := by
  intro ws
  induction ws with
  | nil => intro o; rfl
  | cons w ws ih =>
    intro o
    rw [List.foldl_cons, ih, hg, List.filterMap_cons]
    cases hf : f w.setting with
    | none => rfl
    | some x =>
      simp only [List.getLast?_cons, Option.getD_some]

/-- C118: whatever the order of the flags and the way they are written, each variable is what was given last; what
comes after the flags is ignored. -/
theorem flags_read (ws : List Written) (rest : List Name) (hr : FlagsEnd rest) :
    ∃ o, parseFlags (ws.flatMap Written.args ++ rest) {} = .ok o ∧ o.fbs = lastGiven FlagSetting.fbs? ws ∧
      o.out = lastGiven FlagSetting.out? ws ∧ o.filter = lastGiven FlagSetting.filter? ws := by
  refine ⟨_, parse_all rest hr ws {}, ?_, ?_, ?_⟩
  · exact foldl_last FlagSetting.fbs? Opts.fbs (by intro o s; cases s <;> rfl) ws {}
  · exact foldl_last FlagSetting.out? Opts.out (by intro o s; cases s <;> rfl) ws {}
  · exact foldl_last FlagSetting.filter? Opts.filter (by intro o s; cases s <;> rfl) ws {}

/-- The program after the flags. -/
theorem query_runs (genny : Genny) (cwd : List Name) (data : Name → Name) (names : List Name) (ws : List Written)
    (rest : List Name) (hr : FlagsEnd rest) (hl : 2 ≤ (ws.flatMap Written.args ++ rest).length) (fs : FS) (t : Name)
    (ht : mainText (if lastGiven FlagSetting.fbs? ws = [] then none else fs (resolve cwd (lastGiven FlagSetting.fbs? ws)))
      (lastGiven FlagSetting.filter? ws) = some t) (fs' : FS) (b : Bool)
    (hg : gennyMode genny cwd data names (lastGiven FlagSetting.out? ws) t fs = some (fs', b)) :
    fbsQuery genny cwd data names (ws.flatMap Written.args ++ rest) fs = .exit 0 fs' := by
  obtain ⟨o, h1, h2, h3, h4⟩ := flags_read ws rest hr
  unfold fbsQuery
  rw [h1]
  simp only
  rw [if_neg (by omega), h2, h4, ht, h3]
  simp only
  rw [hg]

/-- C118, from the command line to the files: for every command line whose flags name a schema file (not the name
alone: two arguments at least) and a directory, and every printable schema in that file whose root type has no
backslash and whose commands belong to different files (C69), the generated files are in the directory and every
other file is as it was. -/
theorem query_partial (ws : List Written) (rest : List Name) (hr : FlagsEnd rest)
    (hl : 2 ≤ (ws.flatMap Written.args ++ rest).length) (ds : List Decl) (hne : ds ≠ []) (hd : ∀ d ∈ ds, d.ok)
    (hroot : '\\' ∉ (meaning ds).rootType) (cs : List Cmd)
    (hcs : mainGen (ds.flatMap Decl.chars) (lastGiven FlagSetting.filter? ws) = some cs)
    (hout : (cs.map Cmd.out).Pairwise (· ≠ ·)) (genny : Genny) (cwd : List Name) (data : Name → Name) (names : List Name)
    (fs : FS) (made : Cmd → Name) (hn : ∀ n, n ∈ names ↔ n ∈ assetNames)
    (hf : lastGiven FlagSetting.fbs? ws ≠ []) (hfs : fs (resolve cwd (lastGiven FlagSetting.fbs? ws)) = some (ds.flatMap Decl.chars))
    (ho : lastGiven FlagSetting.out? ws ≠ []) (hv : Visible (lastGiven FlagSetting.out? ws))
    (hg : ∀ c ∈ cs, genny (data c.template.file) (meant c).params = some (made c)) :
    ∃ fs', fbsQuery genny cwd data names (ws.flatMap Written.args ++ rest) fs = .exit 0 fs' ∧
      (∀ c ∈ cs, fs' (resolve cwd (lastGiven FlagSetting.out? ws) ++ [c.out]) = some (made c)) ∧
      (∀ q, resolve cwd (lastGiven FlagSetting.out? ws) ++ ["gen".toList] <+: q ∨
        resolve cwd (lastGiven FlagSetting.out? ws) ++ ["genny".toList] <+: q → fs' q = none) ∧
      (∀ q, ¬ (resolve cwd (lastGiven FlagSetting.out? ws) ++ ["gen".toList] <+: q ∨
        resolve cwd (lastGiven FlagSetting.out? ws) ++ ["genny".toList] <+: q) →
        (∀ c ∈ cs, q ≠ resolve cwd (lastGiven FlagSetting.out? ws) ++ [c.out]) → fs' q = fs q) := by
  obtain ⟨t, fs', h1, h2, h3⟩ := run_schema_partial ds hne hd hroot _ cs hcs hout genny cwd data names _ fs made hn ho hv hg
  exact ⟨fs', query_runs genny cwd data names ws rest hr hl fs t (by rw [if_neg hf, hfs]; exact h1) fs' true h2, h3⟩

/-- Specification: arguments that are refused, with what follows them: an unknown flag with or without a value, a flag
without a name, a value of `-h` or `-v` that is neither true nor false, a flag that needs a value at the end. -/
inductive Refused : Name → List Name → Prop where
  | unknown {two : Bool} {name : Name} {c : Char} {rest : List Name} : name = c :: name.tail → c ≠ '-' → '=' ∉ name →
      name ∉ ["filter".toList, "fbs".toList, "out".toList, "h".toList, "v".toList, "help".toList] →
      Refused (dashes two ++ name) rest
  | unknownValue {two : Bool} {name v : Name} {c : Char} {rest : List Name} : name = c :: name.tail → c ≠ '-' → '=' ∉ name →
      name ∉ ["filter".toList, "fbs".toList, "out".toList, "h".toList, "v".toList, "help".toList] →
      Refused (dashes two ++ name ++ '=' :: v) rest
  | nameless {two : Bool} {v : Name} {rest : List Name} : Refused (dashes two ++ '=' :: v) rest
  | threeDashes {v : Name} {rest : List Name} : Refused ('-' :: '-' :: '-' :: v) rest
  | neither {two : Bool} {name v : Name} {rest : List Name} : name ∈ ["h".toList, "v".toList] →
      v ∉ ["1".toList, "t".toList, "T".toList, "TRUE".toList, "true".toList, "True".toList,
        "0".toList, "f".toList, "F".toList, "FALSE".toList, "false".toList, "False".toList] →
      Refused (dashes two ++ name ++ '=' :: v) rest
  | atEnd {two : Bool} {name : Name} : name ∈ ["filter".toList, "fbs".toList, "out".toList] →
      Refused (dashes two ++ name) []

theorem parse_bad {a : Name} {rest : List Name} (h : flagArg a = .bad) (o : Opts) : parseFlags (a :: rest) o = .error 2 := by
  cases rest with
  | nil => unfold parseFlags; rw [h]
  | cons b l => rw [parseFlags, h]

theorem parse_wrong {a : Name} {name : Name} {value : Option Name} {rest : List Name} {o : Opts}
    (h : flagArg a = .flag name value) (hh : name ≠ "help".toList) (hv : ¬ (value = none ∧ isText o name = true))
    (hs : setFlag o name value = .error 2) : parseFlags (a :: rest) o = .error 2 := by
  cases rest with
  | nil => unfold parseFlags; rw [h]; simp only; rw [if_neg hh, hs]
  | cons b l => rw [parseFlags, h]; simp only; rw [if_neg hh, if_neg hv, hs]

theorem refused_parse {a : Name} {rest : List Name} (h : Refused a rest) (o : Opts) :
    parseFlags (a :: rest) o = .error 2 := by
  cases h with
  | unknown hn hc he hu =>
    simp only [List.mem_cons, List.not_mem_nil, or_false, not_or] at hu
    obtain ⟨u1, u2, u3, u4, u5, u6⟩ := hu
    refine parse_wrong (value := none) (by rw [flagArg_dashes _ hn hc, namedFlag_bare hn hc he]) u6 ?_ ?_
    · unfold isText setText; rw [if_neg u1, if_neg u2, if_neg u3]; simp
    · unfold setFlag setBool; rw [if_neg u4, if_neg u5]
  | unknownValue hn hc he hu =>
    rename_i two name v c
    simp only [List.mem_cons, List.not_mem_nil, or_false, not_or] at hu
    obtain ⟨u1, u2, u3, u4, u5, u6⟩ := hu
    refine parse_wrong (name := name) (value := some v) ?_ u6 (by simp) ?_
    · rw [List.append_assoc, flagArg_dashes two (c := c) (by rw [hn]; rfl) hc, namedFlag_eq hn hc he]
    · have e1 : setBool o name true = none := by unfold setBool; rw [if_neg u4, if_neg u5]
      have e2 : setText o name v = none := by unfold setText; rw [if_neg u1, if_neg u2, if_neg u3]
      unfold setFlag
      rw [e1]
      simp only
      rw [e2]
  | nameless =>
    rename_i two v
    refine parse_bad ?_ o
    rw [flagArg_dashes two (c := '=') rfl (by decide)]
    rfl
  | threeDashes => exact parse_bad rfl o
  | neither hn hv =>
    rename_i two name v
    have hb : parseBool v = none := by
      simp only [List.mem_cons, List.not_mem_nil, or_false, not_or] at hv
      obtain ⟨v1, v2, v3, v4, v5, v6, v7, v8, v9, v10, v11, v12⟩ := hv
      unfold parseBool
      rw [if_neg (by simp only [List.mem_cons, List.not_mem_nil, or_false, not_or]; exact ⟨v1, v2, v3, v4, v5, v6⟩),
        if_neg (by simp only [List.mem_cons, List.not_mem_nil, or_false, not_or]; exact ⟨v7, v8, v9, v10, v11, v12⟩)]
    rw [List.append_assoc]
    simp only [List.mem_cons, List.not_mem_nil, or_false] at hn
    rcases hn with rfl | rfl
    · refine parse_wrong (name := "h".toList) (value := some v) ?_ (by decide) (by simp) ?_
      · rw [flagArg_dashes two (c := 'h') rfl (by decide)]
        exact namedFlag_eq (c := 'h') rfl (by decide) (by decide)
      · show (match parseBool v with | none => Except.error 2 | some b => _) = _
        rw [hb]
    · refine parse_wrong (name := "v".toList) (value := some v) ?_ (by decide) (by simp) ?_
      · rw [flagArg_dashes two (c := 'v') rfl (by decide)]
        exact namedFlag_eq (c := 'v') rfl (by decide) (by decide)
      · show (match parseBool v with | none => Except.error 2 | some b => _) = _
        rw [hb]
  | atEnd hn =>
    rename_i two name
    simp only [List.mem_cons, List.not_mem_nil, or_false] at hn
    rcases hn with rfl | rfl | rfl
    · unfold parseFlags
      rw [flagArg_dashes two (c := 'f') rfl (by decide), namedFlag_bare (c := 'f') rfl (by decide) (by decide)]
      rfl
    · unfold parseFlags
      rw [flagArg_dashes two (c := 'f') rfl (by decide), namedFlag_bare (c := 'f') rfl (by decide) (by decide)]
      rfl
    · unfold parseFlags
      rw [flagArg_dashes two (c := 'o') rfl (by decide), namedFlag_bare (c := 'o') rfl (by decide) (by decide)]
      rfl

/-- C118: wrong arguments among the flags are refused with status 2, and nothing is written. -/
theorem query_unknown (genny : Genny) (cwd : List Name) (data : Name → Name) (names : List Name) (ws : List Written)
    (a : Name) (rest : List Name) (fs : FS) (h : Refused a rest) :
    fbsQuery genny cwd data names (ws.flatMap Written.args ++ a :: rest) fs = .exit 2 fs := by
  have key : ∀ (ws : List Written) (o : Opts), parseFlags (ws.flatMap Written.args ++ a :: rest) o = .error 2 := by
    intro ws
    induction ws with
    | cons w ws ih => intro o; rw [List.flatMap_cons, List.append_assoc, parse_written, ih]
    | nil => intro o; exact refused_parse h o
  unfold fbsQuery
  rw [key]

/-! ## violations -/

/-- C118 is violated by `-h`: the program goes on after the help text, as if `-h` had not been given. -/
theorem query_help_fails (genny : Genny) (cwd : List Name) (data : Name → Name) (names : List Name) (ws : List Written)
    (rest : List Name) (hr : FlagsEnd rest) (hl : 2 ≤ (ws.flatMap Written.args ++ rest).length) (fs : FS) :
    fbsQuery genny cwd data names ("-h".toList :: (ws.flatMap Written.args ++ rest)) fs =
      fbsQuery genny cwd data names (ws.flatMap Written.args ++ rest) fs := by
  obtain ⟨o, h1, h2, h3, h4⟩ := flags_read ws rest hr
  obtain ⟨o', h1', h2', h3', h4'⟩ := flags_read (⟨false, false, .help⟩ :: ws) rest hr
  have e : (⟨false, false, .help⟩ :: ws : List Written).flatMap Written.args ++ rest =
      "-h".toList :: (ws.flatMap Written.args ++ rest) := rfl
  rw [e] at h1'
  have l1 : lastGiven FlagSetting.fbs? (⟨false, false, .help⟩ :: ws) = lastGiven FlagSetting.fbs? ws := rfl
  have l2 : lastGiven FlagSetting.out? (⟨false, false, .help⟩ :: ws) = lastGiven FlagSetting.out? ws := rfl
  have l3 : lastGiven FlagSetting.filter? (⟨false, false, .help⟩ :: ws) = lastGiven FlagSetting.filter? ws := rfl
  unfold fbsQuery
  rw [h1, h1']
  simp only
  have n1 : ¬ (ws.flatMap Written.args ++ rest).length + 1 < 3 := by omega
  have n2 : ¬ ("-h".toList :: (ws.flatMap Written.args ++ rest)).length + 1 < 3 := by rw [List.length_cons]; omega
  rw [if_neg n1, if_neg n2, h2, h3, h4, h2', h3', h4', l1, l2, l3]

/-- C118 is violated by one argument: `-fbs=F` alone does nothing, without an error. -/
theorem query_single_fails (genny : Genny) (cwd : List Name) (data : Name → Name) (names : List Name) (w : Written)
    (hw : w.args.length = 1) (fs : FS) : fbsQuery genny cwd data names w.args fs = .exit 0 fs := by
  have := parse_written w {} []
  rw [List.append_nil] at this
  unfold fbsQuery
  rw [this]
  show (if w.args.length + 1 < 3 then _ else _) = _
  rw [if_pos (by omega)]

/-- C118 is violated by an argument before the flags: all flags are ignored, the commands for an empty schema are
written to `/gen`, and the program ends with status 0. -/
theorem query_stray_fails (genny : Genny) (cwd : List Name) (data : Name → Name) (a : Name) (l : List Name) (hl : l ≠ [])
    (ha : a.head? ≠ some '-') (fs : FS) (hc : cwd ≠ []) (hf : ∀ n, fs ["genny".toList, n] = none) :
    ∃ fs', fbsQuery genny cwd data assetNames (a :: l) fs = .exit 0 fs' ∧
      (∃ t, fs' ["gen".toList, "tmp-gen-fbs-query.go".toList] = some t) ∧
      (∀ q, ¬ ["gen".toList] <+: q → ¬ cwd ++ ["genny".toList] <+: q → fs' q = fs q) := by
  have hs : ∀ c ∈ ([{ template := .root, out := "root.go".toList, extra := [[]] }] : List Cmd), CmdSafe c := by
    intro c hc
    rw [List.mem_singleton] at hc
    subst hc
    exact ⟨by unfold Safe; decide, by decide, by decide, by unfold Safe; decide, by unfold Safe; decide, by unfold Safe; decide,
      by unfold Safe; decide, by unfold Safe; decide, by intro h; cases h⟩
  obtain ⟨fs', h1, h2, h3⟩ := run_no_out_fails genny cwd data _ fs hs (by simp) hc hf
  refine ⟨fs', ?_, ⟨_, h2⟩, h3⟩
  refine query_runs genny cwd data assetNames [] (a :: l) (.inr ⟨a, l, rfl, .inl ha⟩) ?_ fs _ ?_ fs' false h1
  · cases l with
    | nil => exact absurd rfl hl
    | cons b l => simp
  · show mainText none [] = _
    unfold mainText
    rw [missing_file_fails]

/-- C118 is violated by the exit status: it is 0 although genny failed and files are missing. -/
theorem query_status_fails (ws : List Written) (rest : List Name) (hr : FlagsEnd rest)
    (hl : 2 ≤ (ws.flatMap Written.args ++ rest).length) (genny : Genny) (cwd : List Name) (data : Name → Name)
    (names : List Name) (fs : FS) (made : Cmd → Name) (hn : ∀ n, n ∈ names ↔ n ∈ assetNames) (pre post : List Cmd) (c : Cmd)
    (hm : mainText (if lastGiven FlagSetting.fbs? ws = [] then none else fs (resolve cwd (lastGiven FlagSetting.fbs? ws)))
      (lastGiven FlagSetting.filter? ws) = some (headText ++ (pre ++ c :: post).flatMap renderCmd))
    (ho : lastGiven FlagSetting.out? ws ≠ []) (hv : Visible (lastGiven FlagSetting.out? ws))
    (hs : ∀ x ∈ pre ++ c :: post, CmdSafe x)
    (hg : ∀ x ∈ pre, genny (data x.template.file) (meant x).params = some (made x))
    (hf : genny (data c.template.file) (meant c).params = none) :
    ∃ fs', fbsQuery genny cwd data names (ws.flatMap Written.args ++ rest) fs = .exit 0 fs' ∧
      (∀ q, ¬ (resolve cwd (lastGiven FlagSetting.out? ws) ++ ["gen".toList] <+: q ∨
        resolve cwd (lastGiven FlagSetting.out? ws) ++ ["genny".toList] <+: q) →
        fs' q = writeAll made (resolve cwd (lastGiven FlagSetting.out? ws)) fs pre q) := by
  obtain ⟨fs', h1, h2, -, -⟩ := run_error_fails genny cwd data names _ pre post c fs made hn ho hv hs hg hf
  exact ⟨fs', query_runs genny cwd data names ws rest hr hl fs _ hm fs' false h1, h2⟩

/-! ## examples -/

/-- Non-vacuity of `query_unknown`. -/
example : Refused "-ouput=x".toList [] ∧ Refused "--v=2".toList ["x".toList] ∧ Refused "-fbs".toList [] ∧ Refused "-=".toList [] :=
  ⟨.unknownValue (two := false) (name := "ouput".toList) (v := "x".toList) (c := 'o') rfl (by decide) (by decide) (by decide),
    .neither (two := true) (name := "v".toList) (v := "2".toList) (by decide) (by decide),
    .atEnd (two := false) (name := "fbs".toList) (by decide), .nameless (two := false) (v := [])⟩

/-- Ways to write flags. -/
example : (parseFlags ["-fbs".toList, "a.fbs".toList, "--out=x=y".toList, "-v".toList, "rest".toList, "-h".toList] {}).toOption =
    some { fbs := "a.fbs".toList, out := "x=y".toList, verbose := true } ∧
    (parseFlags ["-fbs".toList] {}).toOption = none ∧ (parseFlags ["-v=maybe".toList, "x".toList] {}).toOption = none ∧
    (parseFlags ["-out".toList, "-v".toList] {}).toOption = some { out := "-v".toList } := by decide

/-- Non-vacuity: from the command line to a file. -/
example : (match fbsQuery copyGenny ["a".toList, "b".toList] id assetNames
      ["-fbs=s.fbs".toList, "--out".toList, "../x".toList]
      (fun q => if q = ["a".toList, "b".toList, "s.fbs".toList] then some (sampleDecls.flatMap Decl.chars) else none) with
    | .exit s fs => some (s, (fs ["a".toList, "x".toList, "root.go".toList]).map String.ofList)
    | .panic => none) = some (0, some "root.go") := by decide +kernel

end Fbs.Props
