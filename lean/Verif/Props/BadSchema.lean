import Verif.Props.Gen
import Verif.PegStale
/-!
# C114: schemas that are accepted, and what happens to the others
-/

namespace Fbs.Props
open Fbs Fbs.Peg Fbs.Schema Fbs.Gen

/-! ## accepted schemas -/

/-- C114: the recogniser accepts exactly the texts of the grammar, and then the tokens left for `Execute` are
those of the derivation: nothing remains of alternatives that were tried and given up. -/
theorem recogniser_refines (s : Name) :
    (Tape.parse s).1 = (schema s).isSome ∧
    ∀ a r, schema s = some (a, r) → Tape.strip (Tape.parse s).2 = a := by
  obtain ⟨h0, h1⟩ := Tape.r_schema { rest := s } (Nat.le_refl _)
  cases e : schema s with
  | none =>
    obtain ⟨g, _⟩ := h0 e
    have : (Tape.parse s).1 = false := by
      unfold Tape.parse
      cases h : Tape.schema { rest := s } with
      | mk x y => rw [h] at g; simp only at g; subst g; rfl
    exact ⟨this, fun a r h => by cases h⟩
  | some x =>
    obtain ⟨a, r⟩ := x
    obtain ⟨g1, -, -, b, g4, g5⟩ := h1 a r e
    have e2 : Tape.parse s = (true, (Tape.schema { rest := s }).2.tape.take (Tape.schema { rest := s }).2.idx) := by
      unfold Tape.parse
      cases h : Tape.schema { rest := s } with
      | mk x y => rw [h] at g1; simp only at g1; subst g1; rfl
    rw [e2]
    refine ⟨rfl, fun a' r' h => ?_⟩
    simp only [Option.some.injEq, Prod.mk.injEq] at h
    rw [g4, ← h.1, ← g5]; rfl

/-- C114: on an accepted schema the parser and the generator do what `Verif.Peg` and `Verif.GenCmd` say, so
C64-C72 hold for the code with its array of tokens. -/
theorem accepted_main (s filter : Name) (h : (Tape.parse s).1 = true) :
    Tape.run s = parseSchema s ∧ Tape.main (some s) filter = mainGen s filter := by
  obtain ⟨h1, h2⟩ := recogniser_refines s
  rw [h] at h1
  obtain ⟨⟨a, r⟩, e⟩ := Option.isSome_iff_exists.1 h1.symm
  have er : Tape.run s = parseSchema s := by
    unfold Tape.run parseSchema
    rw [h2 a r e, e]
  refine ⟨er, ?_⟩
  unfold Tape.main mainGen
  rw [Option.getD_some, er]
  rfl

/-- C114: a schema text as described by `Decl` is accepted and its declarations are those generated from. -/
theorem accepted_print (ds : List Decl) (hne : ds ≠ []) (hd : ∀ d ∈ ds, d.ok) :
    (Tape.parse (ds.flatMap Decl.chars)).1 = true ∧
    ∃ st, Tape.run (ds.flatMap Decl.chars) = some st ∧ st.structs = (meaning ds).structs ∧
      st.unions = (meaning ds).unions ∧ st.rootType = (meaning ds).rootType := by
  have h1 : (Tape.parse (ds.flatMap Decl.chars)).1 = true := by
    rw [(recogniser_refines _).1, schema_spec ds hne hd]; rfl
  obtain ⟨st, g1, -, g3, g4, g5⟩ := parse_print ds hne hd
  exact ⟨h1, st, by rw [(accepted_main _ [] h1).1, g1], g4, g5, g3⟩

example : (Tape.parse (sampleDecls.flatMap Decl.chars)).1 = true := by decide +kernel

/-! ## texts with an error behind some declarations -/

/-- A text that starts with no keyword, no `;` and no layout starts no declaration. -/
theorem statement_none {s : Name} (h0 : HeadNot isLayout0 s) (hk : ∀ k ∈ keywords, ¬ k <+: s) : statement s = none := by
  have hl : ∀ k ∈ keywords, lit k s = none := fun k h => lit_none (hk k h)
  have ho : onlyComment s = none := seq_none_right (spacing_nil h0) (hl _ (by simp [keywords]))
  have hr : rpcDecl s = none := rp_none (hl _ (by simp [keywords]))
  unfold statement
  rw [alt_right (ns_none (hl _ (by simp [keywords]))), alt_right (un_none (hl _ (by simp [keywords]))),
    alt_right (ty_none (hl _ (by simp [keywords])) (hl _ (by simp [keywords]))),
    alt_right (en_none (hl _ (by simp [keywords]))), alt_right (ro_none (hl _ (by simp [keywords]))),
    alt_right (fe_none (hl _ (by simp [keywords]))), alt_right (fi_none (hl _ (by simp [keywords]))),
    alt_right (at_none (hl _ (by simp [keywords]))), alt_right hr]
  exact ho

theorem decls_then_junk (ds : List Decl) (hne : ds ≠ []) (hd : ∀ d ∈ ds, d.ok) (junk : Name)
    (hl : HeadNot isLayout0 junk) (hj : statement junk = none) :
    includeDecl (ds.flatMap Decl.chars ++ junk) = none ∧
    many1 statement (ds.flatMap Decl.chars ++ junk) = some (ds.flatMap Decl.toks, junk) := by
  have hN : ∀ es : List Decl, (∀ d ∈ es, d.ok) → HeadNot isLayout0 (es.flatMap Decl.chars ++ junk) := by
    intro es he
    cases es with
    | nil => exact hl
    | cons d es =>
      simp only [List.flatMap_cons, List.append_assoc]
      exact decl_notLayout d (he d (by simp)) _
  cases ds with
  | nil => exact absurd rfl hne
  | cons d ds =>
    simp only [List.flatMap_cons, List.append_assoc]
    refine ⟨include_none d (hd d (by simp)) _, ?_⟩
    have e1 : statement (d.chars ++ (ds.flatMap Decl.chars ++ junk)) = some (d.toks, ds.flatMap Decl.chars ++ junk) :=
      statement_spec d (hd d (by simp)) (hN ds fun x hx => hd x (by simp [hx]))
    have e2 : many statement (ds.flatMap Decl.chars ++ junk) = some (ds.flatMap Decl.toks, junk) :=
      many_items (p := statement) Decl.chars Decl.toks (rest := junk) hj ds
        (fun x hx => decl_ne x (hd x (by simp [hx])))
        (by
          intro pre x post he
          exact statement_spec x (hd x (by simp [he])) (hN post fun y hy => hd y (by simp [he, hy])))
    exact seq_some e1 e2

/-- The tokens of the declarations read before an error stay in the array; those of the rejected rest behind them
complete no declaration. -/
theorem tokens_before_error (s : Name) (a : List Tok) (c : Char) (r : Name) (hi : includeDecl s = none)
    (h : many1 statement s = some (a, c :: r)) :
    schema s = none ∧ (Tape.parse s).1 = false ∧
      ∃ stale, (∀ t ∈ stale, Tape.TTok.minor t) ∧ Tape.strip (Tape.parse s).2 = a ++ Tape.strip stale := by
  have heof : endOfFile (c :: r) = none := rfl
  have hs : schema s = none := by
    unfold schema
    rw [alt_right (seq_none_left hi), alt_right (seq_none_left hi)]
    exact seq_none_right h heof
  have hf : (Tape.parse s).1 = false := by rw [(recogniser_refines s).1, hs]; rfl
  refine ⟨hs, hf, ?_⟩
  -- the two alternatives with `include` fail and leave the index at zero
  have f1 := (Tape.ref_seq Tape.r_includeDecl Tape.r_endOfFile { rest := s } (Nat.le_refl _)).1 (seq_none_left hi)
  have f2 := (Tape.ref_seq Tape.r_includeDecl (Tape.ref_seq Tape.r_statements Tape.r_endOfFile)
    (Tape.back { rest := s } ((Tape.tseq Tape.includeDecl Tape.endOfFile) { rest := s }).2) (Nat.zero_le _)).1
    (seq_none_left hi)
  have m1 := Tape.quiet_seq Tape.q_includeDecl Tape.q_endOfFile { rest := s } 0 (Nat.le_refl _)
    (fun j t _ e => by simp at e)
  generalize hA : (Tape.tseq Tape.includeDecl Tape.endOfFile) { rest := s } = A at f1 f2 m1
  have m2 : Tape.MinorFrom 0 ((Tape.tseq Tape.includeDecl (Tape.tseq (Tape.tmany1 Tape.statement) Tape.endOfFile))
      (Tape.back { rest := s } A.2)).2.tape := by
    have k1 := (Tape.q_includeDecl (Tape.back { rest := s } A.2) 0 (Nat.zero_le _) m1.1).1
    have k2 := ((Tape.r_includeDecl (Tape.back { rest := s } A.2) (Nat.zero_le _)).1 hi).1
    unfold Tape.tseq
    generalize Tape.includeDecl (Tape.back { rest := s } A.2) = x at k1 k2
    obtain ⟨x1, x2⟩ := x
    simp only at k2; subst k2
    exact k1
  generalize hB : (Tape.tseq Tape.includeDecl (Tape.tseq (Tape.tmany1 Tape.statement) Tape.endOfFile))
    (Tape.back { rest := s } A.2) = B at f2 m2
  obtain ⟨_, g⟩ := Tape.r_statements (Tape.back (Tape.back { rest := s } A.2) B.2) (Nat.zero_le _)
  obtain ⟨g1, g2, g3, b, g4, g5⟩ := g a (c :: r) h
  have m3 := (Tape.c_statements (Tape.back (Tape.back { rest := s } A.2) B.2) 0 (Nat.zero_le _) (Nat.le_refl _)
    m2).2.2.2 g1
  generalize hC : Tape.tmany1 Tape.statement (Tape.back (Tape.back { rest := s } A.2) B.2) = C at g1 g2 g3 g4 m3
  have m4 := (Tape.q_endOfFile C.2 C.2.idx g3 m3.2).1
  obtain ⟨k, _⟩ := Tape.r_endOfFile C.2 g3
  obtain ⟨k1, k2⟩ := k (by rw [g2]; exact heof)
  have eC : (Tape.tseq (Tape.tmany1 Tape.statement) Tape.endOfFile) (Tape.back (Tape.back { rest := s } A.2) B.2) =
      (false, (Tape.endOfFile C.2).2) := by
    unfold Tape.tseq
    rw [hC]
    obtain ⟨C1, C2⟩ := C
    simp only at g1; subst g1
    simp only at k1 ⊢
    generalize Tape.endOfFile C2 = D at k1
    obtain ⟨D1, D2⟩ := D
    simp only at k1; subst k1; rfl
  have eS : (Tape.schema { rest := s }).2.tape = (Tape.endOfFile C.2).2.tape ∧
      (Tape.schema { rest := s }).1 = false := by
    unfold Tape.schema Tape.trule Tape.talt
    rw [hA]
    obtain ⟨A1, A2⟩ := A
    have := f1.1; simp only at this; subst this
    simp only at hB eC ⊢
    rw [hB]
    obtain ⟨B1, B2⟩ := B
    have := f2.1; simp only at this; subst this
    simp only at eC ⊢
    rw [eC]
    exact ⟨rfl, rfl⟩
  have eP : (Tape.parse s).2 = (Tape.endOfFile C.2).2.tape := by
    rw [← eS.1]
    unfold Tape.parse
    have := eS.2
    generalize Tape.schema { rest := s } = D at this
    obtain ⟨D1, D2⟩ := D
    simp only at this; subst this; rfl
  rw [eP, ← List.take_append_drop C.2.idx (Tape.endOfFile C.2).2.tape, Tape.strip_append, k2.2, g4, Tape.strip_append,
    g5]
  refine ⟨_, fun t ht => ?_, rfl⟩
  obtain ⟨j, hj⟩ := List.mem_iff_getElem?.1 ht
  rw [List.getElem?_drop] at hj
  exact m4 _ t (Nat.le_add_right _ _) hj

/-- C114: a schema with an error behind its first declarations is not accepted, but exactly the tables, structs and
unions declared before the error are handed to the generator (unless an action panics). -/
theorem bad_schema_keeps (ds : List Decl) (hne : ds ≠ []) (hd : ∀ d ∈ ds, d.ok) (junk : Name) (hj0 : junk ≠ [])
    (hl : HeadNot isLayout0 junk) (hj : statement junk = none) :
    (Tape.parse (ds.flatMap Decl.chars ++ junk)).1 = false ∧
    ∀ st, Tape.run (ds.flatMap Decl.chars ++ junk) = some st →
      st.structs = (meaning ds).structs ∧ st.unions = (meaning ds).unions := by
  obtain ⟨h1, h2⟩ := decls_then_junk ds hne hd junk hl hj
  cases junk with
  | nil => exact absurd rfl hj0
  | cons c r =>
    obtain ⟨-, h3, stale, hm, h4⟩ := tokens_before_error _ _ c r h1 h2
    refine ⟨h3, fun st hst => ?_⟩
    unfold Tape.run at hst
    rw [h4, exec_append] at hst
    obtain ⟨st', t', e, h⟩ := exec_decls ds hd {} [] {} ⟨rfl, rfl, rfl, rfl, rfl⟩
    rw [e, Option.bind_some] at hst
    obtain ⟨y, hy, e2⟩ := Option.map_eq_some_iff.1 hst
    obtain ⟨g1, g2⟩ := Tape.minor_exec _ hm _ _ hy
    rw [← e2, meaning, ← h.structs, ← h.unions]
    exact ⟨g1, g2⟩

/-- C114: in particular for every rest that begins with no keyword, no `;` and no layout. -/
theorem bad_schema_word (ds : List Decl) (hne : ds ≠ []) (hd : ∀ d ∈ ds, d.ok) (junk : Name) (hj0 : junk ≠ [])
    (hl : HeadNot isLayout0 junk) (hk : ∀ k ∈ keywords, ¬ k <+: junk) :
    (Tape.parse (ds.flatMap Decl.chars ++ junk)).1 = false ∧
    ∀ st, Tape.run (ds.flatMap Decl.chars ++ junk) = some st →
      st.structs = (meaning ds).structs ∧ st.unions = (meaning ds).unions :=
  bad_schema_keeps ds hne hd junk hj0 hl (statement_none hl hk)

/-- C114, violated: a schema that is not accepted ends the generator.  The text behind the table is no
declaration; the parser rejects the schema, and the files of the table are written as without it. -/
theorem bad_schema_refused_fails :
    (Tape.parse "table Ab{x:int;}oops".toList).1 = false ∧
    Tape.main (some "table Ab{x:int;}oops".toList) [] = Tape.main (some "table Ab{x:int;}".toList) [] ∧
    ((Tape.main (some "table Ab{x:int;}oops".toList) []).map fun cs => cs.map fun c => String.ofList c.out) =
      some ["root.go", "Ab.gen.go", "AbList.gen.go", "Ab.X.gen.go"] := by
  refine ⟨?_, ?_, ?_⟩ <;> decide +kernel

/-- C114, violated: even the actions of the rejected declaration are executed, here `root_type` without its
semicolon; the root file is generated for it. -/
theorem rejected_declaration_runs_fails :
    (Tape.parse "table Ab{x:int;}root_type Zz".toList).1 = false ∧
    ((Tape.main (some "table Ab{x:int;}root_type Zz".toList) []).map fun cs =>
      (cs.head?.map fun c => c.extra.map String.ofList)) = some (some ["Zz"]) := by
  constructor <;> decide +kernel

/-- Non-vacuity of `bad_schema_keeps`. -/
example : statement "oops".toList = none ∧ (Tape.run (sampleDecls.flatMap Decl.chars ++ "oops".toList)).isSome = true := by
  decide +kernel

/-! ## includes -/

/-- On this text the rule stores only rule tokens. -/
def RulesOnlyAt (P : Tape.TRule) (s : Name) : Prop := ∀ st : Tape.TSt, st.rest = s → st.idx ≤ st.tape.length →
  (∀ t ∈ st.tape, t = .rule) → ∀ t ∈ (P st).2.tape, t = .rule

/-- The rule stores only rule tokens. -/
def RulesOnly (P : Tape.TRule) : Prop := ∀ st : Tape.TSt, (∀ t ∈ st.tape, t = .rule) → ∀ t ∈ (P st).2.tape, t = .rule

theorem RulesOnly.at_ {P : Tape.TRule} (h : RulesOnly P) (s : Name) : RulesOnlyAt P s := fun st _ _ hr => h st hr

theorem add_plain {st : Tape.TSt} (h : ∀ t ∈ st.tape, t = .rule) : ∀ t ∈ (Tape.add .rule st).tape, t = .rule := by
  intro t ht
  simp only [Tape.add, List.mem_append, List.mem_cons] at ht
  rcases ht with ht | ht | ht
  · exact h t (List.mem_of_mem_take ht)
  · exact ht
  · exact h t (List.mem_of_mem_drop ht)

theorem plain_seq {P Q : Tape.TRule} (hp : RulesOnly P) (hq : RulesOnly Q) : RulesOnly (Tape.tseq P Q) := by
  intro st h
  have := hp st h
  unfold Tape.tseq
  generalize P st = x at this
  obtain ⟨b, st'⟩ := x
  cases b
  · exact this
  · exact hq _ this

theorem plain_alt {P Q : Tape.TRule} (hp : RulesOnly P) (hq : RulesOnly Q) : RulesOnly (Tape.talt P Q) := by
  intro st h
  have := hp st h
  unfold Tape.talt
  generalize P st = x at this
  obtain ⟨b, st'⟩ := x
  cases b
  · exact hq (Tape.back st st') this
  · exact this

theorem plain_rule {P : Tape.TRule} (hp : RulesOnly P) : RulesOnly (Tape.trule P) := by
  intro st h
  have := hp st h
  unfold Tape.trule
  generalize P st = x at this
  obtain ⟨b, st'⟩ := x
  cases b
  · exact this
  · exact add_plain this

theorem plain_not {P : Tape.TRule} (hp : RulesOnly P) : RulesOnly (Tape.tnot P) := by
  intro st h
  have := hp st h
  unfold Tape.tnot
  generalize P st = x at this
  obtain ⟨b, st'⟩ := x
  cases b <;> exact this

theorem plain_many {P : Tape.TRule} (hp : RulesOnly P) : RulesOnly (Tape.tmany P) := by
  have : ∀ n, RulesOnly (Tape.tmanyN P n) := by
    intro n
    induction n with
    | zero => exact fun st h => h
    | succ n ih =>
      intro st h
      have := hp st h
      unfold Tape.tmanyN
      generalize P st = x at this
      obtain ⟨b, st'⟩ := x
      cases b
      · exact this
      · exact ih _ this
  exact fun st h => this _ st h

theorem plain_cls (f : Char → Bool) : RulesOnly (Tape.tcls f) := by
  intro st h
  unfold Tape.tcls
  split
  · exact h
  · split <;> exact h

theorem plain_lit (l : Name) : RulesOnly (Tape.tlit l) := by
  induction l with
  | nil => exact fun st h => h
  | cons c l ih =>
    intro st h
    unfold Tape.tlit
    split
    · exact h
    · split
      · exact ih _ h
      · exact h

theorem plain_endOfLine : RulesOnly Tape.endOfLine :=
  plain_rule (plain_alt (plain_lit _) (plain_alt (plain_lit _) (plain_lit _)))

theorem plain_spacing : RulesOnly Tape.spacing :=
  plain_rule (plain_many (plain_rule (plain_alt
    (plain_rule (plain_alt (plain_lit _) (plain_alt (plain_lit _) plain_endOfLine)))
    (plain_rule (plain_seq (plain_lit _) (plain_seq (plain_many (plain_seq (plain_not plain_endOfLine) (plain_cls _)))
      plain_endOfLine))))))

theorem plainAt_stop {p : Rule} {P Q : Tape.TRule} {s : Name} (hr : Tape.Ref p P) (hp : RulesOnlyAt P s)
    (hs : p s = none) : RulesOnlyAt (Tape.tseq P Q) s := by
  intro st e hi h
  have := hp st e hi h
  have hf := ((hr st hi).1 (by rw [e]; exact hs)).1
  unfold Tape.tseq
  generalize P st = x at this hf
  obtain ⟨b, st'⟩ := x
  simp only at hf; subst hf
  exact this

theorem plainAt_go {p : Rule} {P Q : Tape.TRule} {s r : Name} {a : List Tok} (hr : Tape.Ref p P) (hp : RulesOnlyAt P s)
    (hs : p s = some (a, r)) (hq : RulesOnlyAt Q r) : RulesOnlyAt (Tape.tseq P Q) s := by
  intro st e hi h
  have := hp st e hi h
  obtain ⟨hf, h2, h3, -⟩ := (hr st hi).2 a r (by rw [e]; exact hs)
  unfold Tape.tseq
  generalize P st = x at this hf h2 h3
  obtain ⟨b, st'⟩ := x
  simp only at hf; subst hf
  exact hq st' h2 h3 this

theorem plainAt_alt {p : Rule} {P Q : Tape.TRule} {s : Name} (hr : Tape.Ref p P) (hp : RulesOnlyAt P s)
    (hs : p s = none) (hq : RulesOnlyAt Q s) : RulesOnlyAt (Tape.talt P Q) s := by
  intro st e hi h
  have := hp st e hi h
  obtain ⟨hf, h2⟩ := (hr st hi).1 (by rw [e]; exact hs)
  unfold Tape.talt
  generalize P st = x at this hf h2
  obtain ⟨b, st'⟩ := x
  simp only at hf; subst hf
  exact hq (Tape.back st st') e h2.1 this

theorem plainAt_rule {P : Tape.TRule} {s : Name} (hp : RulesOnlyAt P s) : RulesOnlyAt (Tape.trule P) s := by
  intro st e hi h
  have := hp st e hi h
  unfold Tape.trule
  generalize P st = x at this
  obtain ⟨b, st'⟩ := x
  cases b
  · exact this
  · exact add_plain this

/-- A rule that begins with a literal the text does not begin with. -/
theorem plainAt_lit {l s : Name} {Q : Tape.TRule} (h : lit l s = none) : RulesOnlyAt (Tape.tseq (Tape.tlit l) Q) s :=
  plainAt_stop (Tape.ref_lit l) ((plain_lit l).at_ s) h

theorem plainAt_kw {l s : Name} {Q : Tape.TRule} (h : lit l s = none) :
    RulesOnlyAt (Tape.trule (Tape.tseq (Tape.tlit l) Q)) s := plainAt_rule (plainAt_lit h)

theorem strip_plain {l : List Tape.TTok} (h : ∀ t ∈ l, t = .rule) : Tape.strip l = [] := by
  induction l with
  | nil => rfl
  | cons t l ih =>
    have := h t (by simp); subst this
    exact ih fun t ht => h t (by simp [ht])

/-- C114, violated: `include "file";` as flatbuffers writes it.  Whatever follows, the schema is not accepted and
the generator runs on a schema without any declaration: only the root file is generated. -/
theorem include_drops_schema (l : Layout) (hl : layoutOk l = true) (rest : Name) (filter : Name) :
    (Tape.parse ("include".toList ++ (layoutChars l ++ '"' :: rest))).1 = false ∧
    Tape.run ("include".toList ++ (layoutChars l ++ '"' :: rest)) = some {} ∧
    Tape.main (some ("include".toList ++ (layoutChars l ++ '"' :: rest))) filter =
      some [{ template := .root, out := "root.go".toList, extra := [[]] }] := by
  generalize hs : "include".toList ++ (layoutChars l ++ '"' :: rest) = s
  have hk : ∀ k ∈ keywords, lit k s = none := by
    intro k hk
    have h : ∀ k ∈ keywords, ¬ k <+: "include".toList ∧ ¬ "include".toList <+: k := by decide
    rw [← hs]
    exact kw_none _ (h k hk).1 (h k hk).2
  have hq : HeadNot isLayout0 ('"' :: rest) := headNot_cons (by decide)
  have e1 : lit "include".toList s = some ([], layoutChars l ++ '"' :: rest) := by rw [← hs]; exact lit_append _ _
  have e2 := spacing_spec l hl hq
  have e3 : ident ('"' :: rest) = none := rfl
  have hinc : includeDecl s = none := seq_none_right e1 (seq_none_right e2 (seq_none_left e3))
  have hst : statement s = none := by
    refine statement_none (by rw [← hs]; exact headNot_cons (by decide)) fun k h hp => ?_
    have := (lit_isSome_iff k s).2 hp
    rw [hk k h] at this; cases this
  have hno : schema s = none := by
    unfold schema
    rw [alt_right (seq_none_left hinc), alt_right (seq_none_left hinc)]
    exact seq_none_left (seq_none_left hst)
  -- the array
  have pid : RulesOnlyAt Tape.ident ('"' :: rest) := by
    intro st e hi h
    have : Tape.ident st = (false, Tape.back st st) := by
      obtain ⟨rs, tp, ix⟩ := st
      simp only at e; subst e; rfl
    rw [this]; exact h
  have pinc : RulesOnlyAt Tape.includeDecl s :=
    plainAt_rule (plainAt_go (Tape.ref_lit _) ((plain_lit _).at_ _) e1
      (plainAt_go Tape.r_spacing (plain_spacing.at_ _) e2 (plainAt_stop Tape.r_ident pid e3)))
  have pst : RulesOnlyAt Tape.statement s := by
    have a0 : RulesOnlyAt Tape.namespaceDecl s := plainAt_kw (hk _ (by simp [keywords]))
    have a1 : RulesOnlyAt Tape.unionDecl s := plainAt_kw (hk _ (by simp [keywords]))
    have a2 : RulesOnlyAt Tape.typeDecl s := plainAt_rule (plainAt_alt (Tape.r_structBody _ _)
      (plainAt_kw (hk _ (by simp [keywords]))) (seq_none_left (hk _ (by simp [keywords])))
      (plainAt_kw (hk _ (by simp [keywords]))))
    have a3 : RulesOnlyAt Tape.enumDecl s := plainAt_rule (plainAt_alt
      (p := lit "enum".toList ⋄ Peg.spacing ⋄ Peg.ident ⋄ Peg.spacing ⋄ many Peg.metadata ⋄ lit ['{'] ⋄ Peg.enumFields ⋄
        lit ['}'] ⋄ Peg.spacing)
      (Tape.ref_seq (Tape.ref_lit _) (Tape.ref_seq Tape.r_spacing (Tape.ref_seq Tape.r_ident
        (Tape.ref_seq Tape.r_spacing (Tape.ref_seq Tape.r_metas (Tape.ref_seq (Tape.ref_lit _)
          (Tape.ref_seq Tape.r_enumFields (Tape.ref_seq (Tape.ref_lit _) Tape.r_spacing))))))))
      (plainAt_lit (hk _ (by simp [keywords]))) (seq_none_left (hk _ (by simp [keywords])))
      (plainAt_lit (hk _ (by simp [keywords]))))
    have a4 : RulesOnlyAt Tape.rootDecl s := plainAt_kw (hk _ (by simp [keywords]))
    have a5 : RulesOnlyAt Tape.fileExtensionDecl s := plainAt_kw (hk _ (by simp [keywords]))
    have a6 : RulesOnlyAt Tape.fileIdentifierDecl s := plainAt_kw (hk _ (by simp [keywords]))
    have a7 : RulesOnlyAt Tape.attributeDecl s := plainAt_kw (hk _ (by simp [keywords]))
    have a8 : RulesOnlyAt Tape.rpcDecl s := plainAt_kw (hk _ (by simp [keywords]))
    have a9 : RulesOnlyAt Tape.onlyComment s := (plain_rule (plain_seq plain_spacing (plain_lit _))).at_ s
    refine plainAt_rule ?_
    refine plainAt_alt Tape.r_namespaceDecl a0 (ns_none (hk _ (by simp [keywords]))) ?_
    refine plainAt_alt Tape.r_unionDecl a1 (un_none (hk _ (by simp [keywords]))) ?_
    refine plainAt_alt Tape.r_typeDecl a2 (ty_none (hk _ (by simp [keywords])) (hk _ (by simp [keywords]))) ?_
    refine plainAt_alt Tape.r_enumDecl a3 (en_none (hk _ (by simp [keywords]))) ?_
    refine plainAt_alt Tape.r_rootDecl a4 (ro_none (hk _ (by simp [keywords]))) ?_
    refine plainAt_alt (Tape.r_misc _) a5 (fe_none (hk _ (by simp [keywords]))) ?_
    refine plainAt_alt (Tape.r_misc _) a6 (fi_none (hk _ (by simp [keywords]))) ?_
    refine plainAt_alt (Tape.r_misc _) a7 (at_none (hk _ (by simp [keywords]))) ?_
    exact plainAt_alt Tape.r_rpcDecl a8 (rp_none (hk _ (by simp [keywords]))) a9
  have psc : RulesOnlyAt Tape.schema s :=
    plainAt_rule (plainAt_alt (Tape.ref_seq Tape.r_includeDecl Tape.r_endOfFile)
      (plainAt_stop Tape.r_includeDecl pinc hinc) (seq_none_left hinc)
      (plainAt_alt (Tape.ref_seq Tape.r_includeDecl (Tape.ref_seq Tape.r_statements Tape.r_endOfFile))
        (plainAt_stop Tape.r_includeDecl pinc hinc) (seq_none_left hinc)
        (plainAt_stop Tape.r_statements (plainAt_stop Tape.r_statement pst hst) (seq_none_left hst))))
  have hf : (Tape.parse s).1 = false := by rw [(recogniser_refines s).1, hno]; rfl
  have hp : Tape.strip (Tape.parse s).2 = [] := by
    apply strip_plain
    have := psc { rest := s } rfl (Nat.le_refl _) (by simp)
    have h2 := ((Tape.r_schema { rest := s } (Nat.le_refl _)).1 hno).1
    unfold Tape.parse
    generalize Tape.schema { rest := s } = D at this h2
    obtain ⟨D1, D2⟩ := D
    simp only at h2; subst h2
    exact this
  have hrun : Tape.run s = some {} := by unfold Tape.run; rw [hp]; rfl
  refine ⟨hf, hrun, ?_⟩
  unfold Tape.main
  rw [Option.getD_some, hrun]
  rfl

/-- The ordinary case, to be compared with the same schema without its first line. -/
example : ((Tape.main (some "include \"b.fbs\";\ntable Ab{x:int;}".toList) []).map List.length,
    (Tape.main (some "table Ab{x:int;}".toList) []).map List.length) = (some 1, some 4) := by decide +kernel

/-- C114, violated: a schema file that cannot be read does not end the generator either. -/
theorem missing_file_fails (filter : Name) :
    Tape.main none filter = some [{ template := .root, out := "root.go".toList, extra := [[]] }] := by
  have h : Tape.run [] = some {} := by decide +kernel
  unfold Tape.main
  rw [Option.getD_none, h]
  rfl

end Fbs.Props
