import Verif.SchemaParse
import Verif.GenCmd
/-!
# Properties of the schema parser and the generator: C64–C68 and further ones
-/

namespace Fbs.Props
open Fbs Fbs.Peg Fbs.Schema Fbs.Gen

/-! ## C65: identifier conversion -/

/-- C65: the conversion succeeds exactly when no word between underscores is empty, and then it yields the
camel-case name. -/
theorem camel_iff (s : Name) : toCamelCase s = if noEmptyWord true s then some (camel true s) else none :=
  toCamelCase_spec s

/-- C65, missing: identifiers with a leading, trailing or double underscore. -/
theorem camel_total_partial (s : Name) (h : IsIdent s) (h0 : s.head? ≠ some '_') (h1 : s.getLast? ≠ some '_')
    (h2 : ¬ ['_', '_'] <:+: s) : (toCamelCase s).isSome = true := by
  have key : ∀ (l : Name) (b : Bool), (b = true → l ≠ [] ∧ l.head? ≠ some '_') → l.getLast? ≠ some '_' →
      ¬ ['_', '_'] <:+: l → noEmptyWord b l = true := by
    intro l
    induction l with
    | nil =>
      intro b hb _ _
      cases b with
      | true => exact absurd rfl (hb rfl).1
      | false => rfl
    | cons c l ih =>
      intro b hb hl hi
      have hi' : ¬ ['_', '_'] <:+: l := fun h => hi (h.trans (List.suffix_cons c l).isInfix)
      have hl' : l ≠ [] → l.getLast? ≠ some '_' := by
        intro hne
        cases l with
        | nil => exact absurd rfl hne
        | cons d l => simpa [List.getLast?_cons_cons] using hl
      simp only [noEmptyWord]
      by_cases hc : c = '_'
      · subst hc
        have hb' : b = false := by
          cases b with
          | false => rfl
          | true => exact absurd rfl (hb rfl).2
        have hne : l ≠ [] := by intro h; subst h; exact hl rfl
        subst hb'
        simp only [if_true, Bool.not_false, Bool.true_and]
        apply ih true _ (hl' hne) hi'
        intro _
        refine ⟨hne, fun hh => hi ?_⟩
        cases l with
        | nil => exact absurd rfl hne
        | cons d l =>
          simp at hh
          subst hh
          exact ⟨[], l, rfl⟩
      · simp only [hc, if_false]
        by_cases hne : l = []
        · subst hne; rfl
        · exact ih false (by simp) (hl' hne) hi'
  rw [camel_iff, key s true ?_ h1 h2]
  · rfl
  · intro _
    refine ⟨?_, h0⟩
    intro hs; subst hs; exact h

/-- C65 fails: `_a` is an identifier of the grammar and converting it panics. -/
theorem camel_total_fails : IsIdent "_a".toList ∧ toCamelCase "_a".toList = none := by
  refine ⟨⟨by decide, by decide⟩, by decide +kernel⟩

example : toCamelCase "file_name".toList = some "FileName".toList := by decide +kernel
example : toCamelCase "myID".toList = some "Myid".toList := by decide +kernel

/-! ## C66: parsing a printed schema -/

/-- Parser state agreeing with a meaning, between declarations. -/
structure PRel (st : FbsSt) (m : Meaning) : Prop where
  ns : st.nameSpace = m.nameSpace
  root : st.rootType = m.rootType
  structs : st.structs = m.structs
  unions : st.unions = m.unions
  clean : st.fields = []

theorem exec_members (ms : List Member) (st : FbsSt) (t : Name) :
    ∃ fn t' fs, exec (st, t) (ms.flatMap Member.toks) = some ({ st with fname := fn, fields := st.fields ++ fs }, t') ∧
      fs.map Field.name = ms.map Member.name := by
  induction ms generalizing st t with
  | nil => exact ⟨st.fname, t, [], by simp [exec], rfl⟩
  | cons m ms ih =>
    have e1 : exec (st, t) m.toks =
        some ({ st with fname := m.name, fields := st.fields ++ [⟨m.name, st.fvalue⟩] }, m.name) := rfl
    obtain ⟨fn, t', fs, e2, e3⟩ :=
      ih { st with fname := m.name, fields := st.fields ++ [⟨m.name, st.fvalue⟩] } m.name
    refine ⟨fn, t', ⟨m.name, st.fvalue⟩ :: fs, ?_, by simp [e3]⟩
    simp only [List.flatMap_cons]
    rw [exec_append, e1, Option.bind_some, e2]
    simp

/-- State after a struct or table. -/
def endStruct (st : FbsSt) (n : Name) (b : Bool) (fn fv : Name) (fs : List Field) : FbsSt :=
  { st with
    typeName := n
    fname := fn
    fvalue := fv
    structs := st.structs ++ [⟨st.nameSpace, n, b, st.fields ++ fs⟩]
    fields := [] }

/-- State after a union. -/
def endUnion (st : FbsSt) (n fn : Name) (fs : List Field) : FbsSt :=
  { st with
    uName := n
    fname := fn
    unions := st.unions ++ [⟨st.nameSpace, n, (st.fields ++ fs).map Field.name⟩]
    fields := [] }

theorem exec_decl (d : Decl) (hd : d.ok) (st : FbsSt) (t : Name) (m : Meaning) (hR : PRel st m) :
    ∃ st' t', exec (st, t) d.toks = some (st', t') ∧ PRel st' (m.add d) := by
  obtain ⟨r1, r2, r3, r4, r5⟩ := hR
  match d, hd with
  | .nameSpace _ p _, _ => exact ⟨{ st with nameSpace := p }, p, rfl, ⟨rfl, r2, r3, r4, r5⟩⟩
  | .root _ p _, _ => exact ⟨{ st with rootType := p }, p, rfl, ⟨r1, rfl, r3, r4, r5⟩⟩
  | .misc _ bl txt _, _ => exact ⟨st, txt, rfl, ⟨r1, r2, r3, r4, r5⟩⟩
  | .empty, _ => exact ⟨st, t, rfl, ⟨r1, r2, r3, r4, r5⟩⟩
  | .struct b sp1 n sp2 ms spIn f fs sp3, hd =>
    obtain ⟨-, -, -, -, -, hf, hfs, -⟩ := hd
    obtain ⟨t1, e1⟩ := exec_texts ms { st with typeName := n } n
    obtain ⟨fn, fv, t2, e2⟩ := exec_fields (f :: fs)
      (by intro g hg; rcases List.mem_cons.1 hg with h | h; · exact h ▸ hf
          · exact hfs g h) { st with typeName := n } t1
    refine ⟨endStruct st n b fn fv (decls (f :: fs)), t2, ?_, ?_⟩
    · simp only [Decl.toks]
      have e0 : ∀ l, exec (st, t) ([.text n, .act .setTypeName] ++ l) = exec ({ st with typeName := n }, n) l :=
        fun l => rfl
      rw [e0, exec_append, e1, Option.bind_some, exec_append, e2, Option.bind_some]
      rfl
    · refine ⟨r1, r2, ?_, r4, rfl⟩
      simp [Meaning.add, r1, r3, r5, decls, endStruct]
  | .union sp1 n sp2 ms init last sp3, hd =>
    obtain ⟨t1, e1⟩ := exec_texts ms { st with uName := n } n
    obtain ⟨fn, t2, fs, e2, e3⟩ := exec_members (init ++ [last]) { st with uName := n } t1
    refine ⟨endUnion st n fn fs, t2, ?_, ?_⟩
    · simp only [Decl.toks]
      have e0 : ∀ l, exec (st, t) ([.text n, .act .unionName] ++ l) = exec ({ st with uName := n }, n) l :=
        fun l => rfl
      rw [e0, exec_append, e1, Option.bind_some, exec_append, e2, Option.bind_some]
      rfl
    · refine ⟨r1, r2, r3, ?_, rfl⟩
      simp [Meaning.add, r1, r4, r5, e3, endUnion]

theorem exec_decls (ds : List Decl) (hd : ∀ d ∈ ds, d.ok) (st : FbsSt) (t : Name) (m : Meaning) (hR : PRel st m) :
    ∃ st' t', exec (st, t) (ds.flatMap Decl.toks) = some (st', t') ∧ PRel st' (ds.foldl Meaning.add m) := by
  induction ds generalizing st t m with
  | nil => exact ⟨st, t, rfl, hR⟩
  | cons d ds ih =>
    obtain ⟨st1, t1, e1, h1⟩ := exec_decl d (hd d (by simp)) st t m hR
    obtain ⟨st2, t2, e2, h2⟩ := ih (fun x hx => hd x (by simp [hx])) st1 t1 _ h1
    refine ⟨st2, t2, ?_, h2⟩
    simp only [List.flatMap_cons]
    rw [exec_append, e1, Option.bind_some, e2]

/-- Every declaration starts with a keyword. -/
theorem decl_keyword (d : Decl) (hd : d.ok) : ∃ k ∈ keywords, ∃ x, d.chars = k ++ x := by
  match d, hd with
  | .nameSpace .., _ => exact ⟨"namespace".toList, by decide, _, rfl⟩
  | .root .., _ => exact ⟨"root_type".toList, by decide, _, rfl⟩
  | .struct true .., _ => exact ⟨"table".toList, by decide, _, rfl⟩
  | .struct false .., _ => exact ⟨"struct".toList, by decide, _, rfl⟩
  | .union .., _ => exact ⟨"union".toList, by decide, _, rfl⟩
  | .misc kw .., hd =>
    refine ⟨kw, ?_, _, rfl⟩
    have h : kw = "file_extension".toList ∨ kw = "file_identifier".toList ∨ kw = "attribute".toList := by
      simpa [miscKeywords] using hd.1
    rcases h with rfl | rfl | rfl <;> decide
  | .empty, _ => exact ⟨[';'], by decide, [], rfl⟩

theorem keyword_head : ∀ k ∈ keywords, ∃ c, k.head? = some c ∧ isLayout0 c = false := by
  have : ∀ k ∈ keywords, (k.head?.map isLayout0) = some false := by decide
  intro k hk
  have := this k hk
  cases h : k.head? with
  | none => rw [h] at this; cases this
  | some c => rw [h] at this; exact ⟨c, rfl, by simpa using this⟩

theorem decl_notLayout (d : Decl) (hd : d.ok) (x : Name) : HeadNot isLayout0 (d.chars ++ x) := by
  obtain ⟨k, hk, y, e⟩ := decl_keyword d hd
  obtain ⟨c, h1, h2⟩ := keyword_head k hk
  rw [e]
  cases k with
  | nil => cases h1
  | cons d l =>
    simp at h1; subst h1
    exact headNot_cons h2

theorem decl_ne (d : Decl) (hd : d.ok) : d.chars ≠ [] := by
  obtain ⟨k, hk, y, e⟩ := decl_keyword d hd
  obtain ⟨c, h1, h2⟩ := keyword_head k hk
  rw [e]
  intro h
  rw [(List.append_eq_nil_iff.1 h).1] at h1
  cases h1

theorem decls_notLayout {ds : List Decl} (hd : ∀ d ∈ ds, d.ok) : HeadNot isLayout0 (ds.flatMap Decl.chars) := by
  cases ds with
  | nil => exact headNot_nil _
  | cons d ds => exact decl_notLayout d (hd d (by simp)) _

theorem statement_nil : statement [] = none := by
  unfold statement
  simp [alt, namespaceDecl, unionDecl, typeDecl, structBody, enumDecl, rootDecl, fileExtensionDecl,
    fileIdentifierDecl, attributeDecl, rpcDecl, onlyComment, seq, lit, spacing, many, manyN]

theorem include_none (d : Decl) (hd : d.ok) (x : Name) : includeDecl (d.chars ++ x) = none := by
  obtain ⟨k, hk, y, e⟩ := decl_keyword d hd
  rw [e, List.append_assoc]
  have h : ∀ k ∈ keywords, ¬ "include".toList <+: k ∧ ¬ k <+: "include".toList := by decide
  exact seq_none_left (kw_none _ (h k hk).1 (h k hk).2)

theorem schema_spec (ds : List Decl) (hne : ds ≠ []) (hd : ∀ d ∈ ds, d.ok) :
    schema (ds.flatMap Decl.chars) = some (ds.flatMap Decl.toks, []) := by
  cases ds with
  | nil => exact absurd rfl hne
  | cons d ds =>
    have hi := include_none d (hd d (by simp)) (ds.flatMap Decl.chars)
    have e1 : statement (d.chars ++ ds.flatMap Decl.chars) = some (d.toks, ds.flatMap Decl.chars) :=
      statement_spec d (hd d (by simp)) (decls_notLayout fun x hx => hd x (by simp [hx]))
    have e2 : many statement (ds.flatMap Decl.chars) = some (ds.flatMap Decl.toks, []) := by
      have := many_items (p := statement) Decl.chars Decl.toks (rest := []) statement_nil ds
        (fun x hx => decl_ne x (hd x (by simp [hx])))
        (by
          intro pre x post he
          have hx : x.ok := hd x (by simp [he])
          have hp : ∀ y ∈ post, y.ok := fun y hy => hd y (by simp [he, hy])
          simpa using statement_spec x (rest := post.flatMap Decl.chars) hx (decls_notLayout hp))
      simpa using this
    have e3 : endOfFile [] = some ([], []) := rfl
    have := seq_some (seq_some e1 e2) e3
    unfold schema
    simp only [List.flatMap_cons]
    rw [alt_right (seq_none_left hi), alt_right (seq_none_left hi)]
    simpa [many1] using this

/-- C66: parsing the text of a schema yields exactly its declarations, in order, whatever the layout. -/
theorem parse_print (ds : List Decl) (hne : ds ≠ []) (hd : ∀ d ∈ ds, d.ok) :
    ∃ st, parseSchema (ds.flatMap Decl.chars) = some st ∧
      st.nameSpace = (meaning ds).nameSpace ∧ st.rootType = (meaning ds).rootType ∧
      st.structs = (meaning ds).structs ∧ st.unions = (meaning ds).unions := by
  obtain ⟨st', t', e, h⟩ := exec_decls ds hd {} [] {} ⟨rfl, rfl, rfl, rfl, rfl⟩
  refine ⟨st', ?_, h.ns, h.root, h.structs, h.unions⟩
  unfold parseSchema
  rw [schema_spec ds hne hd]
  simp [e]

/-- A small schema with layout, attributes, defaults, vectors and a union. -/
def sampleDecls : List Decl :=
  [.nameSpace [.sp] "vfs_schema".toList [.eol .nl],
   .union [.sp] "Index".toList [.sp] [] [⟨[], "IndexNum".toList, []⟩] ⟨[.sp], "IndexString".toList, []⟩ [.eol .crlf],
   .struct true [.sp] "Root".toList [] ["private".toList] [.comment "c".toList .nl, .tab]
     ⟨"version".toList, .basic "int".toList "int32".toList [.sp], some ⟨[' '], "1".toList⟩, [], [.eol .nl]⟩
     [⟨"index".toList, .user "Index".toList [], none, ["key".toList], []⟩,
      ⟨"file_names".toList, .list (.str []) [], none, [], []⟩] [.eol .nl],
   .root [.sp] "Root".toList []]

example : sampleDecls.flatMap Decl.chars =
    ("namespace vfs_schema;\nunion Index {IndexNum, IndexString}\r\ntable Root(private){//c\n\tversion:int = 1;\n" ++
     "index:Index(key);file_names:[string];}\nroot_type Root;").toList := by decide +kernel

example : (meaning sampleDecls).structs =
    [⟨"vfs_schema".toList, "Root".toList, true,
      [⟨"Version".toList, "int32".toList⟩, ⟨"Index".toList, "Index".toList⟩,
       ⟨"FileNames".toList, "[][]byte".toList⟩]⟩] := by decide +kernel

example : (parseSchema (sampleDecls.flatMap Decl.chars)).map (fun st => (st.unions, st.rootType)) =
    some ([⟨"vfs_schema".toList, "Index".toList, ["IndexNum".toList, "IndexString".toList]⟩], "Root".toList) := by
  decide +kernel

/-! ## C67: user type names -/

/-- C67, missing: type names that start with a built-in type name. -/
theorem parse_user_type_partial (n : Name) (rest : Name) (hn : IsIdent n) (h1 : ∀ b ∈ basicNames, ¬ b.1 <+: n)
    (h2 : ¬ "string".toList <+: n) :
    type (n ++ (';' :: rest)) = some ([.text n, .act .setTypeText], ';' :: rest) := by
  have := type_spec (.user n []) (rest := ';' :: rest) ⟨hn, h1, h2, rfl⟩ ⟨';', rest, rfl, by simp⟩
  simpa [Fbs.Schema.Ty.chars, Ty.toks, layoutChars] using this

/-- C67 fails: a field of type `integer` (a user table) makes the whole schema unparsable, while
`Integer` works. -/
theorem parse_user_type_fails :
    parseSchema "table integer{a:int;}table T{a:integer;}".toList = none ∧
    (parseSchema "table Integer{a:int;}table T{a:Integer;}".toList).isSome = true := by
  constructor <;> decide +kernel

/-- The built-in names themselves are read as the built-in types. -/
theorem basic_type (kw go rest : Name) (h : (kw, go) ∈ basicNames) :
    type (kw ++ (';' :: rest)) = some ([.act (.setType go)], ';' :: rest) := by
  have := type_spec (.basic kw go []) (rest := ';' :: rest) ⟨h, rfl⟩ ⟨';', rest, rfl, by simp⟩
  simpa [Fbs.Schema.Ty.chars, Ty.toks, layoutChars] using this

/-! ## C64: numbering -/

/-- flatbuffers slots used by the fields before number `k`, given which types take two slots. -/
def slotsBefore (two : Name → Bool) : List Field → Nat → Nat
  | _, 0 => 0
  | [], _ + 1 => 0
  | f :: fs, k + 1 => (if two f.type then 2 else 1) + slotsBefore two fs k

/-- The slot of a field: for a union the second of its two slots (the first holds the member kind). -/
def slotOf (two : Name → Bool) (fs : List Field) (k : Nat) (f : Field) : Nat :=
  slotsBefore two fs k + (if two f.type then 1 else 0)

/-- flatbuffers: unions and vectors of unions take two slots. -/
def twoSlots (us : List Union) (ty : Name) : Bool :=
  us.any fun u => u.name = ty || "[]".toList ++ u.name = ty

theorem finFields_spec (st : FbsSt) (two : Name → Bool) : ∀ (fs out : List Field),
    (∀ f ∈ fs, finField st f = some (if two f.type then [⟨f.name ++ "Type".toList, "byte".toList⟩, f] else [f])) →
    finFields st fs = some out →
    out.length = slotsBefore two fs fs.length ∧
    ∀ (k : Nat) (f : Field), fs[k]? = some f →
      out[slotOf two fs k f]? = some f ∧
      (two f.type = true → out[slotsBefore two fs k]? = some ⟨f.name ++ "Type".toList, "byte".toList⟩) := by
  intro fs
  induction fs with
  | nil =>
    intro out _ h
    simp [finFields] at h
    subst h
    exact ⟨rfl, by intro k f h; simp at h⟩
  | cons g gs ih =>
    intro out hf h
    have hg := hf g (by simp)
    simp only [finFields, hg] at h
    cases hb : finFields st gs with
    | none => rw [hb] at h; cases h
    | some b =>
      rw [hb] at h
      simp only [Option.some.injEq] at h
      obtain ⟨i1, i2⟩ := ih b (fun f hf' => hf f (by simp [hf'])) hb
      subst h
      constructor
      · cases h2 : two g.type <;> simp [slotsBefore, h2, i1] <;> omega
      · intro k f hk
        cases k with
        | zero =>
          simp at hk
          subst hk
          cases h2 : two g.type <;> simp [slotOf, slotsBefore, h2]
        | succ k =>
          simp at hk
          obtain ⟨j1, j2⟩ := i2 k f hk
          have key : ∀ n x, b[n]? = some x →
              ((if two g.type then [⟨g.name ++ "Type".toList, "byte".toList⟩, g] else [g]) ++ b)[(if two g.type then 2 else 1) + n]? = some x := by
            intro n x hx
            cases h2 : two g.type
            · simp [Nat.add_comm 1 n, hx]
            · simp [Nat.add_comm 2 n, hx]
          refine ⟨?_, ?_⟩
          · have := key _ _ j1
            simpa [slotOf, slotsBefore, Nat.add_assoc] using this
          · intro h2
            have := key _ _ (j2 h2)
            simpa [slotsBefore] using this

theorem finStructs_spec (st : FbsSt) : ∀ (ss out : List StructInfo), finStructs st ss = some out →
    out.length = ss.length ∧ ∀ (i : Nat) (s : StructInfo), ss[i]? = some s →
      ∃ fs, finFields st s.fields = some fs ∧ out[i]? = some { s with fields := fs } := by
  intro ss
  induction ss with
  | nil =>
    intro out h
    simp [finStructs] at h
    subst h
    exact ⟨rfl, by intro i s h; simp at h⟩
  | cons x xs ih =>
    intro out h
    simp only [finStructs] at h
    split at h
    · cases h
    · rename_i a ha
      split at h
      · cases h
      · rename_i b hb
        simp only [Option.some.injEq] at h
        subst h
        obtain ⟨i1, i2⟩ := ih b hb
        refine ⟨by simp [i1], ?_⟩
        intro i s hs
        cases i with
        | zero => simp at hs; subst hs; exact ⟨a, ha, by simp⟩
        | succ i => simp at hs; simpa using i2 i s hs

theorem take_prefix {n : Nat} {l m : Name} (h : l.take n = m) (_hn : m.length = n) : m ++ l.drop n = l := by
  rw [← h]; exact List.take_append_drop n l

/-- C64, missing: unions whose name starts with a lower-case letter and vectors of unions (finalisation also
panics on type names of one character, see `finalize_iff`). -/
theorem slots_partial (st st' : FbsSt) (hfin : st.finalize = some st')
    (hup : ∀ u ∈ st.unions, isUpperStr (u.name.take 1) = true)
    (hvec : ∀ s ∈ st.structs, ∀ f ∈ s.fields, ∀ u ∈ st.unions, f.type ≠ "[]".toList ++ u.name)
    (hbr : ∀ u ∈ st.unions, u.name.take 2 ≠ "[]".toList) :
    st'.structs.length = st.structs.length ∧ st'.unions = st.unions ∧ st'.rootType = st.rootType ∧
    ∀ (i : Nat) (s : StructInfo), st.structs[i]? = some s → ∃ s', st'.structs[i]? = some s' ∧
      s'.name = s.name ∧ s'.isTable = s.isTable ∧
      s'.fields.length = slotsBefore (twoSlots st.unions) s.fields s.fields.length ∧
      ∀ (k : Nat) (f : Field), s.fields[k]? = some f →
        s'.fields[slotOf (twoSlots st.unions) s.fields k f]? = some f ∧
        (twoSlots st.unions f.type = true →
          s'.fields[slotsBefore (twoSlots st.unions) s.fields k]? = some ⟨f.name ++ "Type".toList, "byte".toList⟩) := by
  unfold FbsSt.finalize at hfin
  split at hfin
  · cases hfin
  · rename_i ss hss
    simp only [Option.some.injEq] at hfin
    subst hfin
    obtain ⟨h1, h2⟩ := finStructs_spec st _ _ hss
    refine ⟨h1, rfl, rfl, ?_⟩
    intro i s hs
    obtain ⟨fs, e1, e2⟩ := h2 i s hs
    refine ⟨_, e2, rfl, rfl, ?_⟩
    have hsm : s ∈ st.structs := List.mem_of_getElem? hs
    -- no field makes finalisation panic
    have hnp : ∀ (l o : List Field), finFields st l = some o → ∀ f ∈ l, (finField st f).isSome = true := by
      intro l
      induction l with
      | nil => intro o _ f hf; simp at hf
      | cons g gs ih =>
        intro o ho f hf
        simp only [finFields] at ho
        split at ho
        · cases ho
        · rename_i a ha
          split at ho
          · cases ho
          · rename_i b hb
            rcases List.mem_cons.1 hf with rfl | hf
            · rw [ha]; rfl
            · exact ih b hb f hf
    apply finFields_spec st (twoSlots st.unions) s.fields fs _ e1
    intro f hf
    have hsome := hnp _ _ e1 f hf
    have htwo : twoSlots st.unions f.type = st.isUnion f.type := by
      unfold twoSlots FbsSt.isUnion
      rw [Bool.eq_iff_iff]
      simp only [List.any_eq_true, Bool.or_eq_true, decide_eq_true_eq]
      constructor
      · rintro ⟨u, hu, h | h⟩
        · exact ⟨u, hu, h⟩
        · exact absurd h.symm (hvec s hsm f hf u hu)
      · rintro ⟨u, hu, h⟩
        exact ⟨u, hu, .inl h⟩
    rw [htwo]
    unfold finField at hsome ⊢
    by_cases c1 : f.type.length < 2
    · simp [c1] at hsome
    · by_cases c2 : f.type.take 2 = "[]".toList
      · have hnu : st.isUnion f.type = false := by
          cases hu : st.isUnion f.type with
          | false => rfl
          | true =>
            unfold FbsSt.isUnion at hu
            simp only [List.any_eq_true, decide_eq_true_eq] at hu
            obtain ⟨u, hu1, hu2⟩ := hu
            exact absurd (hu2 ▸ c2) (hbr u hu1)
        by_cases c3 : f.type.length < 3
        · simp only [c1, c2, c3, if_true, if_false] at hsome
          cases hsome
        · rw [hnu, if_neg c1, if_pos c2, if_neg c3]; rfl
      · rw [if_neg c1, if_neg c2]
        cases hu : st.isUnion f.type with
        | false =>
          simp only [Bool.false_eq_true, if_false]
          split <;> rfl
        | true =>
          have hup' : isUpperStr (f.type.take 1) = true := by
            unfold FbsSt.isUnion at hu
            simp only [List.any_eq_true, decide_eq_true_eq] at hu
            obtain ⟨u, hu1, hu2⟩ := hu
            exact hu2 ▸ hup u hu1
          rw [if_pos hup', if_pos rfl, if_pos rfl]

/-- When finalisation succeeds: every type name has two characters, or three if it is a vector. -/
theorem finalize_iff (st : FbsSt) : st.finalize.isSome = true ↔
    ∀ s ∈ st.structs, ∀ f ∈ s.fields, 2 ≤ f.type.length ∧ (f.type.take 2 = "[]".toList → 3 ≤ f.type.length) := by
  have h1 : ∀ f : Field, (finField st f).isSome = true ↔
      2 ≤ f.type.length ∧ (f.type.take 2 = "[]".toList → 3 ≤ f.type.length) := by
    intro f
    unfold finField
    by_cases c1 : f.type.length < 2
    · rw [if_pos c1]; simp; omega
    · rw [if_neg c1]
      by_cases c2 : f.type.take 2 = "[]".toList
      · rw [if_pos c2]
        by_cases c3 : f.type.length < 3
        · rw [if_pos c3]; simp only [c2, Option.isSome_none, Bool.false_eq_true, false_iff, true_imp_iff]; omega
        · rw [if_neg c3]; simp only [c2, Option.isSome_some, true_iff, true_imp_iff]; omega
      · rw [if_neg c2]
        have : ∀ (p q : Prop) [Decidable p] [Decidable q] (a b c : List Field),
            ((if p then (if q then some a else some b) else some c).isSome = true) := by
          intro p q _ _ a b c; split <;> (try split) <;> rfl
        simp only [this, true_iff, c2, false_imp_iff, and_true]
        omega
  have h2 : ∀ l : List Field, (finFields st l).isSome = true ↔ ∀ f ∈ l, (finField st f).isSome = true := by
    intro l
    induction l with
    | nil => simp [finFields]
    | cons g gs ih =>
      simp only [finFields, List.forall_mem_cons, ← ih]
      cases finField st g with
      | none => simp
      | some a => cases finFields st gs <;> simp
  have h3 : ∀ l : List StructInfo, (finStructs st l).isSome = true ↔
      ∀ s ∈ l, (finFields st s.fields).isSome = true := by
    intro l
    induction l with
    | nil => simp [finStructs]
    | cons g gs ih =>
      simp only [finStructs, List.forall_mem_cons, ← ih]
      cases finFields st g.fields with
      | none => simp
      | some a => cases finStructs st gs <;> simp
  have h4 : st.finalize.isSome = (finStructs st st.structs).isSome := by
    unfold FbsSt.finalize
    cases finStructs st st.structs <;> rfl
  rw [h4, h3]
  constructor
  · intro h s hs f hf; exact (h1 f).1 ((h2 _).1 (h s hs) f hf)
  · intro h s hs; exact (h2 _).2 fun f hf => (h1 f).2 (h s hs f hf)

/-- C64 fails for a union with a lower-case name: `b` gets slot 1 instead of 2. -/
theorem slots_lower_fails :
    ((parseSchema "table Ab{x:bool;}union un{Ab}table T{a:un;b:bool;}".toList).bind FbsSt.finalize).map
      (fun st => (st.structs.map StructInfo.fields)[1]?) =
      some (some [⟨"A".toList, "un".toList⟩, ⟨"B".toList, "bool".toList⟩]) ∧
    slotOf (twoSlots [⟨[], "un".toList, ["Ab".toList]⟩])
      [⟨"A".toList, "un".toList⟩, ⟨"B".toList, "bool".toList⟩] 1 ⟨"B".toList, "bool".toList⟩ = 2 := by
  constructor <;> decide +kernel

/-- C64 fails for vectors of unions. -/
theorem slots_vector_fails :
    ((parseSchema "table Ab{x:bool;}union Un{Ab}table T{a:[Un];b:bool;}".toList).bind FbsSt.finalize).map
      (fun st => (st.structs.map StructInfo.fields)[1]?) =
      some (some [⟨"A".toList, "[]Un".toList⟩, ⟨"B".toList, "bool".toList⟩]) ∧
    slotOf (twoSlots [⟨[], "Un".toList, ["Ab".toList]⟩])
      [⟨"A".toList, "[]Un".toList⟩, ⟨"B".toList, "bool".toList⟩] 1 ⟨"B".toList, "bool".toList⟩ = 2 := by
  constructor <;> decide +kernel

/-- C64 fails for type names of one character: finalisation panics. -/
theorem slots_short_fails :
    (parseSchema "table A{x:bool;}table T{a:A;}".toList).isSome = true ∧
    (parseSchema "table A{x:bool;}table T{a:A;}".toList).bind FbsSt.finalize = none := by
  constructor <;> decide +kernel

example : ((parseSchema "table Ab{x:bool;}union Un{Ab}table T{a:Un;b:bool;}".toList).bind FbsSt.finalize).map
      (fun st => (st.structs.map StructInfo.fields)[1]?) =
      some (some [⟨"AType".toList, "byte".toList⟩, ⟨"A".toList, "Un".toList⟩, ⟨"B".toList, "bool".toList⟩]) := by
  decide +kernel

end Fbs.Props
