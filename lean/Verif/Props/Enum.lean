import Verif.Props.Peg
/-!
# Enums in schemas (C73; fbs.peg 45-59)
-/
namespace Fbs.Props
open Fbs Fbs.Peg Fbs.Schema

/-! ## enums as written -/

/-- `enum name:type (metadata)* { member` with the layout. -/
structure EnumHead where
  sp1   : Layout
  name  : Name
  ty    : Schema.Ty
  metas : List Name

def EnumHead.ok (e : EnumHead) : Prop :=
  layoutOk e.sp1 = true ∧ IsIdent e.name ∧ e.ty.ok ∧ ∀ m ∈ e.metas, ∀ c ∈ m, c ≠ ')'

/-- The text up to and with the opening brace, and what follows. -/
def EnumHead.chars (e : EnumHead) (rest : Name) : Name :=
  "enum".toList ++ (layoutChars e.sp1 ++ (e.name ++ (':' :: (e.ty.chars ++ (e.metas.flatMap metaChars ++ ('{' :: rest))))))

/-- An enum of one member, a comma allowed after it. -/
structure EnumC where
  head   : EnumHead
  member : Member
  comma  : Bool
  sp     : Layout

def EnumC.ok (e : EnumC) : Prop := e.head.ok ∧ e.member.ok ∧ layoutOk e.sp = true

def EnumC.tail (e : EnumC) (rest : Name) : Name :=
  e.member.chars ++ ((if e.comma then [','] else []) ++ ('}' :: (layoutChars e.sp ++ rest)))

def EnumC.chars (e : EnumC) : Name := e.head.chars (e.tail [])

def EnumC.toks (e : EnumC) : List Tok :=
  [.text e.head.name] ++ (e.head.ty.toks ++ (e.head.metas.map Tok.text ++ e.member.toks))

theorem tyFollow_brace (ms : List Name) (r : Name) : TyFollow (ms.flatMap metaChars ++ ('{' :: r)) := by
  cases ms with
  | nil => exact ⟨'{', r, rfl, by simp⟩
  | cons m ms => exact ⟨'(', _, by simp [metaChars]; rfl, by simp⟩

/-- What the two rules for enums do with a text that starts with the head of an enum. -/
theorem enumDecl_head (e : EnumHead) (h : e.ok) (rest : Name) :
    enumDecl (e.chars rest) =
      ((enumFields ⋄ lit ['}'] ⋄ spacing) rest).map
        (fun x => ([Tok.text e.name] ++ (e.ty.toks ++ (e.metas.map Tok.text ++ x.1)), x.2)) := by
  obtain ⟨h1, h2, h3, h4⟩ := h
  have hc : HeadNot isIdent (':' :: (e.ty.chars ++ (e.metas.flatMap metaChars ++ ('{' :: rest)))) := headNot_cons (by decide)
  have hl : HeadNot isLayout0 (':' :: (e.ty.chars ++ (e.metas.flatMap metaChars ++ ('{' :: rest)))) := headNot_cons (by decide)
  have e1 := lit_append "enum".toList (layoutChars e.sp1 ++ (e.name ++ (':' :: (e.ty.chars ++ (e.metas.flatMap metaChars ++ ('{' :: rest))))))
  have e2 := spacing_spec e.sp1 h1 (ident_notLayout (rest := ':' :: (e.ty.chars ++ (e.metas.flatMap metaChars ++ ('{' :: rest)))) h2)
  have e3 := ident_spec h2 hc
  have e4 := spacing_nil hl
  have e5 := metas_spec [] (rest := ':' :: (e.ty.chars ++ (e.metas.flatMap metaChars ++ ('{' :: rest)))) (by simp) (headNot_cons (by decide))
  have e6 : lit ['{'] (':' :: (e.ty.chars ++ (e.metas.flatMap metaChars ++ ('{' :: rest)))) = none := by simp [lit]
  have f4 := lit_append [':'] (e.ty.chars ++ (e.metas.flatMap metaChars ++ ('{' :: rest)))
  have f5 := type_spec e.ty h3 (tyFollow_brace e.metas rest)
  have f6 := spacing_nil (meta_notLayout e.metas rest)
  have f7 := metas_spec e.metas (rest := '{' :: rest) h4 (headNot_cons (by decide))
  have f8 := lit_append ['{'] rest
  unfold enumDecl EnumHead.chars
  rw [alt_right]
  · cases hx : (enumFields ⋄ lit ['}'] ⋄ spacing) rest with
    | none =>
      exact seq_none_right e1 (seq_none_right e2 (seq_none_right e3 (seq_none_right f4 (seq_none_right f5 (seq_none_right f6
        (seq_none_right f7 (seq_none_right f8 hx)))))))
    | some x =>
      have := seq_some e1 (seq_some e2 (seq_some e3 (seq_some f4 (seq_some f5 (seq_some f6 (seq_some f7 (seq_some f8 hx)))))))
      rw [this]
      simp
  · exact seq_none_right e1 (seq_none_right e2 (seq_none_right e3 (seq_none_right e4 (seq_none_right e5 (seq_none_left e6)))))

theorem enumDecl_spec (e : EnumC) (h : e.ok) {rest : Name} (hr : HeadNot isLayout0 rest) :
    enumDecl (e.head.chars (e.tail rest)) = some (e.toks, rest) := by
  obtain ⟨h1, h2, h3⟩ := h
  have g1 : enumFields (e.tail rest) = some (e.member.toks, '}' :: (layoutChars e.sp ++ rest)) := by
    unfold EnumC.tail
    cases e.comma with
    | true => simpa using enumFields_comma e.member ('}' :: (layoutChars e.sp ++ rest)) h2
    | false => simpa using enumFields_last e.member (layoutChars e.sp ++ rest) h2
  have g2 := lit_append ['}'] (layoutChars e.sp ++ rest)
  have g3 := spacing_spec e.sp h3 hr
  rw [enumDecl_head e.head h1, seq_some g1 (seq_some g2 g3)]
  simp [EnumC.toks]

theorem st_enumDecl {s : Name} (n0 : namespaceDecl s = none) (n1 : unionDecl s = none) (n2 : typeDecl s = none)
    {x : List Tok × Name} (h : enumDecl s = some x) : statement s = some x := by
  unfold statement
  rw [alt_right n0]
  rw [alt_right n1]
  rw [alt_right n2]
  exact alt_left h

theorem head_keyword (e : EnumHead) (rest : Name) : ∃ x, e.chars rest = "enum".toList ++ x := ⟨_, rfl⟩

theorem stmt_enum (e : EnumC) (h : e.ok) {rest : Name} (hr : HeadNot isLayout0 rest) :
    statement (e.chars ++ rest) = some (e.toks, rest) := by
  have hc := enumDecl_spec e h hr
  have : e.chars ++ rest = e.head.chars (e.tail rest) := by
    simp [EnumC.chars, EnumHead.chars, EnumC.tail, List.append_assoc]
  rw [this]
  obtain ⟨x, hx⟩ := head_keyword e.head (e.tail rest)
  rw [hx] at hc ⊢
  obtain ⟨n1, n2, n3, -⟩ := stmt_nones "enum".toList x
  exact st_enumDecl (n1 (by decide) (by decide)) (n2 (by decide) (by decide)) (n3 (by decide) (by decide) (by decide)) hc

/-! ## schemas with enums -/

/-- A declaration or an enum. -/
inductive XDecl where
  | decl (d : Decl)
  | enum (e : EnumC)

def XDecl.ok : XDecl → Prop
  | .decl d => d.ok
  | .enum e => e.ok
def XDecl.chars : XDecl → Name
  | .decl d => d.chars
  | .enum e => e.chars
def XDecl.toks : XDecl → List Tok
  | .decl d => d.toks
  | .enum e => e.toks

/-- What the parser makes of a schema with enums: their members wait for the next table, struct or union. -/
structure Leaky extends Meaning where
  wait : List Field := []

def Leaky.add (m : Leaky) : XDecl → Leaky
  | .decl (.nameSpace _ p _) => { m with nameSpace := p }
  | .decl (.root _ p _) => { m with rootType := p }
  | .decl (.struct t _ n _ _ _ f fs _) =>
    { m with
      structs := m.structs ++ [⟨m.nameSpace, n, t, m.wait ++ (f :: fs).map fun g => ⟨camel true g.name, g.ty.val⟩⟩]
      wait := [] }
  | .decl (.union _ n _ _ init last _) =>
    { m with
      unions := m.unions ++ [⟨m.nameSpace, n, m.wait.map Field.name ++ (init ++ [last]).map Member.name⟩]
      wait := [] }
  | .decl (.misc ..) => m
  | .decl .empty => m
  | .enum e => { m with wait := m.wait ++ [⟨e.member.name, e.head.ty.val⟩] }

def leaky (ds : List XDecl) : Leaky := ds.foldl Leaky.add {}

/-- Parser state and meaning, with the members that wait. -/
structure LRel (st : FbsSt) (m : Leaky) : Prop where
  ns : st.nameSpace = m.nameSpace
  root : st.rootType = m.rootType
  structs : st.structs = m.structs
  unions : st.unions = m.unions
  wait : st.fields = m.wait

/-- State after an enum. -/
def endEnum (st : FbsSt) (n v : Name) : FbsSt :=
  { st with fname := n, fvalue := v, fields := st.fields ++ [⟨n, v⟩] }

theorem exec_xdecl (d : XDecl) (hd : d.ok) (st : FbsSt) (t : Name) (m : Leaky) (hR : LRel st m) :
    ∃ st' t', exec (st, t) d.toks = some (st', t') ∧ LRel st' (m.add d) := by
  obtain ⟨r1, r2, r3, r4, r5⟩ := hR
  match d, hd with
  | .decl (.nameSpace _ p _), _ => exact ⟨{ st with nameSpace := p }, p, rfl, ⟨rfl, r2, r3, r4, r5⟩⟩
  | .decl (.root _ p _), _ => exact ⟨{ st with rootType := p }, p, rfl, ⟨r1, rfl, r3, r4, r5⟩⟩
  | .decl (.misc _ bl txt _), _ => exact ⟨st, txt, rfl, ⟨r1, r2, r3, r4, r5⟩⟩
  | .decl .empty, _ => exact ⟨st, t, rfl, ⟨r1, r2, r3, r4, r5⟩⟩
  | .decl (.struct b sp1 n sp2 ms spIn f fs sp3), hd =>
    obtain ⟨-, -, -, -, -, hf, hfs, -⟩ := hd
    obtain ⟨t1, e1⟩ := exec_texts ms { st with typeName := n } n
    obtain ⟨fn, fv, t2, e2⟩ := exec_fields (f :: fs)
      (by intro g hg; rcases List.mem_cons.1 hg with h | h; · exact h ▸ hf
          · exact hfs g h) { st with typeName := n } t1
    refine ⟨endStruct st n b fn fv (decls (f :: fs)), t2, ?_, ?_⟩
    · simp only [XDecl.toks, Decl.toks]
      have e0 : ∀ l, exec (st, t) ([.text n, .act .setTypeName] ++ l) = exec ({ st with typeName := n }, n) l :=
        fun l => rfl
      rw [e0, exec_append, e1, Option.bind_some, exec_append, e2, Option.bind_some]
      rfl
    · refine ⟨r1, r2, ?_, r4, rfl⟩
      simp [Leaky.add, r1, r3, r5, decls, endStruct]
  | .decl (.union sp1 n sp2 ms init last sp3), hd =>
    obtain ⟨t1, e1⟩ := exec_texts ms { st with uName := n } n
    obtain ⟨fn, t2, fs, e2, e3⟩ := exec_members (init ++ [last]) { st with uName := n } t1
    refine ⟨endUnion st n fn fs, t2, ?_, ?_⟩
    · simp only [XDecl.toks, Decl.toks]
      have e0 : ∀ l, exec (st, t) ([.text n, .act .unionName] ++ l) = exec ({ st with uName := n }, n) l :=
        fun l => rfl
      rw [e0, exec_append, e1, Option.bind_some, exec_append, e2, Option.bind_some]
      rfl
    · refine ⟨r1, r2, r3, ?_, rfl⟩
      simp [Leaky.add, r1, r4, r5, e3, endUnion]
  | .enum e, hd =>
    obtain ⟨⟨-, -, hty, -⟩, -⟩ := hd
    obtain ⟨t1, e1⟩ := exec_type e.head.ty hty st e.head.name
    obtain ⟨t2, e2⟩ := exec_texts e.head.metas { st with fvalue := e.head.ty.val } t1
    refine ⟨endEnum st e.member.name e.head.ty.val, e.member.name, ?_, ?_⟩
    · simp only [XDecl.toks, EnumC.toks]
      have e0 : ∀ l, exec (st, t) ([.text e.head.name] ++ l) = exec (st, e.head.name) l := fun l => rfl
      rw [e0, exec_append, e1, Option.bind_some, exec_append, e2, Option.bind_some]
      rfl
    · refine ⟨r1, r2, r3, r4, ?_⟩
      simp [Leaky.add, r5, endEnum]

theorem exec_xdecls (ds : List XDecl) (hd : ∀ d ∈ ds, d.ok) (st : FbsSt) (t : Name) (m : Leaky) (hR : LRel st m) :
    ∃ st' t', exec (st, t) (ds.flatMap XDecl.toks) = some (st', t') ∧ LRel st' (ds.foldl Leaky.add m) := by
  induction ds generalizing st t m with
  | nil => exact ⟨st, t, rfl, hR⟩
  | cons d ds ih =>
    obtain ⟨st1, t1, e1, h1⟩ := exec_xdecl d (hd d (by simp)) st t m hR
    obtain ⟨st2, t2, e2, h2⟩ := ih (fun x hx => hd x (by simp [hx])) st1 t1 _ h1
    refine ⟨st2, t2, ?_, h2⟩
    simp only [List.flatMap_cons]
    rw [exec_append, e1, Option.bind_some, e2]

theorem xdecl_keyword (d : XDecl) (hd : d.ok) : ∃ k ∈ keywords, ∃ x, d.chars = k ++ x := by
  cases d with
  | decl d => exact decl_keyword d hd
  | enum e => exact ⟨"enum".toList, by decide, _, rfl⟩

theorem xdecl_notLayout (d : XDecl) (hd : d.ok) (x : Name) : HeadNot isLayout0 (d.chars ++ x) := by
  obtain ⟨k, hk, y, e⟩ := xdecl_keyword d hd
  obtain ⟨c, h1, h2⟩ := keyword_head k hk
  rw [e]
  cases k with
  | nil => cases h1
  | cons d l =>
    simp at h1; subst h1
    exact headNot_cons h2

theorem xdecl_ne (d : XDecl) (hd : d.ok) : d.chars ≠ [] := by
  obtain ⟨k, hk, y, e⟩ := xdecl_keyword d hd
  obtain ⟨c, h1, h2⟩ := keyword_head k hk
  rw [e]
  intro h
  rw [(List.append_eq_nil_iff.1 h).1] at h1
  cases h1

theorem xdecls_notLayout {ds : List XDecl} (hd : ∀ d ∈ ds, d.ok) : HeadNot isLayout0 (ds.flatMap XDecl.chars) := by
  cases ds with
  | nil => exact headNot_nil _
  | cons d ds => exact xdecl_notLayout d (hd d (by simp)) _

theorem xstatement_spec (d : XDecl) (hd : d.ok) {rest : Name} (hr : HeadNot isLayout0 rest) :
    statement (d.chars ++ rest) = some (d.toks, rest) := by
  cases d with
  | decl d => exact statement_spec d hd hr
  | enum e => exact stmt_enum e hd hr

theorem keyword_include (k : Name) (hk : k ∈ keywords) (x : Name) : includeDecl (k ++ x) = none := by
  have h : ∀ k ∈ keywords, ¬ "include".toList <+: k ∧ ¬ k <+: "include".toList := by decide
  exact seq_none_left (kw_none _ (h k hk).1 (h k hk).2)

theorem xschema_spec (ds : List XDecl) (hne : ds ≠ []) (hd : ∀ d ∈ ds, d.ok) :
    schema (ds.flatMap XDecl.chars) = some (ds.flatMap XDecl.toks, []) := by
  cases ds with
  | nil => exact absurd rfl hne
  | cons d ds =>
    have hi : includeDecl (d.chars ++ ds.flatMap XDecl.chars) = none := by
      obtain ⟨k, hk, y, e⟩ := xdecl_keyword d (hd d (by simp))
      rw [e, List.append_assoc]
      exact keyword_include k hk _
    have e1 : statement (d.chars ++ ds.flatMap XDecl.chars) = some (d.toks, ds.flatMap XDecl.chars) :=
      xstatement_spec d (hd d (by simp)) (xdecls_notLayout fun x hx => hd x (by simp [hx]))
    have e2 : many statement (ds.flatMap XDecl.chars) = some (ds.flatMap XDecl.toks, []) := by
      have := many_items (p := statement) XDecl.chars XDecl.toks (rest := []) statement_nil ds
        (fun x hx => xdecl_ne x (hd x (by simp [hx])))
        (by
          intro pre x post he
          have hx : x.ok := hd x (by simp [he])
          have hp : ∀ y ∈ post, y.ok := fun y hy => hd y (by simp [he, hy])
          simpa using xstatement_spec x hx (rest := post.flatMap XDecl.chars) (xdecls_notLayout hp))
      simpa using this
    have e3 : endOfFile [] = some ([], []) := rfl
    have := seq_some (seq_some e1 e2) e3
    unfold schema
    simp only [List.flatMap_cons]
    rw [alt_right (seq_none_left hi), alt_right (seq_none_left hi)]
    simpa [many1] using this

/-- What the parser reports for every schema with enums of one member. -/
theorem enum_parse (ds : List XDecl) (hne : ds ≠ []) (hd : ∀ d ∈ ds, d.ok) :
    ∃ st, parseSchema (ds.flatMap XDecl.chars) = some st ∧
      st.nameSpace = (leaky ds).nameSpace ∧ st.rootType = (leaky ds).rootType ∧
      st.structs = (leaky ds).structs ∧ st.unions = (leaky ds).unions := by
  obtain ⟨st', t', e, h⟩ := exec_xdecls ds hd {} [] {} ⟨rfl, rfl, rfl, rfl, rfl⟩
  refine ⟨st', ?_, h.ns, h.root, h.structs, h.unions⟩
  unfold parseSchema
  rw [xschema_spec ds hne hd]
  simp [e]

/-! ## C73 -/

/-- The declarations other than enums. -/
def noEnums (ds : List XDecl) : List Decl := ds.filterMap fun d => match d with | .decl d => some d | .enum _ => none

/-- Tables, structs and unions. -/
def takesFields : XDecl → Bool
  | .decl (.struct ..) => true
  | .decl (.union ..) => true
  | _ => false

/-- No table, struct or union after an enum. -/
def EnumsLast : List XDecl → Prop
  | [] => True
  | .decl _ :: ds => EnumsLast ds
  | .enum _ :: ds => ∀ d ∈ ds, takesFields d = false

theorem leaky_tail (ds : List XDecl) (h : ∀ d ∈ ds, takesFields d = false) (m : Leaky) :
    (ds.foldl Leaky.add m).toMeaning = (noEnums ds).foldl Meaning.add m.toMeaning := by
  induction ds generalizing m with
  | nil => rfl
  | cons d ds ih =>
    have hd := h d (by simp)
    have ih := ih (fun x hx => h x (by simp [hx]))
    match d, hd with
    | .decl (.nameSpace a b c), _ => exact ih (m.add (.decl (.nameSpace a b c)))
    | .decl (.root a b c), _ => exact ih (m.add (.decl (.root a b c)))
    | .decl (.misc a b c d), _ => exact ih (m.add (.decl (.misc a b c d)))
    | .decl .empty, _ => exact ih m
    | .enum e, _ => exact ih (m.add (.enum e))
    | .decl (.struct ..), hd => simp [takesFields] at hd
    | .decl (.union ..), hd => simp [takesFields] at hd

theorem leaky_last (ds : List XDecl) (h : EnumsLast ds) (m : Leaky) (hm : m.wait = []) :
    (ds.foldl Leaky.add m).toMeaning = (noEnums ds).foldl Meaning.add m.toMeaning := by
  induction ds generalizing m with
  | nil => rfl
  | cons d ds ih =>
    match d, h with
    | .decl (.nameSpace a b c), h => exact ih h (m.add (.decl (.nameSpace a b c))) hm
    | .decl (.root a b c), h => exact ih h (m.add (.decl (.root a b c))) hm
    | .decl (.misc a b c d), h => exact ih h (m.add (.decl (.misc a b c d))) hm
    | .decl .empty, h => exact ih h m hm
    | .decl (.struct a b c d e f g i j), h =>
      have := ih h (m.add (.decl (.struct a b c d e f g i j))) rfl
      have e : (m.add (.decl (.struct a b c d e f g i j))).toMeaning = m.toMeaning.add (.struct a b c d e f g i j) := by
        simp [Leaky.add, Meaning.add, hm]
      rw [e] at this
      exact this
    | .decl (.union a b c d e f g), h =>
      have := ih h (m.add (.decl (.union a b c d e f g))) rfl
      have e : (m.add (.decl (.union a b c d e f g))).toMeaning = m.toMeaning.add (.union a b c d e f g) := by
        simp [Leaky.add, Meaning.add, hm]
      rw [e] at this
      exact this
    | .enum e, h =>
      simp only [List.foldl_cons]
      rw [leaky_tail ds h]
      simp [noEnums, Leaky.add]

/-- C73 for enums of one member without a value, written behind all tables, structs and unions: the schema is parsed as if
they were not there. -/
theorem enum_last_partial (ds : List XDecl) (hne : ds ≠ []) (hd : ∀ d ∈ ds, d.ok) (hl : EnumsLast ds) :
    ∃ st, parseSchema (ds.flatMap XDecl.chars) = some st ∧
      st.nameSpace = (meaning (noEnums ds)).nameSpace ∧ st.rootType = (meaning (noEnums ds)).rootType ∧
      st.structs = (meaning (noEnums ds)).structs ∧ st.unions = (meaning (noEnums ds)).unions := by
  obtain ⟨st, h0, h1, h2, h3, h4⟩ := enum_parse ds hne hd
  have := leaky_last ds hl {} rfl
  unfold leaky at h1 h2 h3 h4
  rw [this] at h1 h2 h3 h4
  exact ⟨st, h0, h1, h2, h3, h4⟩

/-- C73 is violated by every other enum: a table or struct declared after it gets the member as its first field. -/
theorem enum_leak_fails (e : EnumC) (he : e.ok) (b : Bool) (sp1 : Layout) (n : Name) (sp2 : Layout) (ms : List Name) (spIn : Layout)
    (f : FieldC) (fs : List FieldC) (sp3 : Layout) (hd : (Decl.struct b sp1 n sp2 ms spIn f fs sp3).ok) :
    ∃ st, parseSchema (e.chars ++ (Decl.struct b sp1 n sp2 ms spIn f fs sp3).chars) = some st ∧
      st.structs = [⟨[], n, b, ⟨e.member.name, e.head.ty.val⟩ :: (f :: fs).map fun g => ⟨camel true g.name, g.ty.val⟩⟩] := by
  obtain ⟨st, h0, -, -, h3, -⟩ := enum_parse [.enum e, .decl (.struct b sp1 n sp2 ms spIn f fs sp3)] (by simp)
    (by intro d hx; simp only [List.mem_cons, List.not_mem_nil, or_false] at hx; rcases hx with rfl | rfl; exacts [he, hd])
  exact ⟨st, by simpa [XDecl.chars] using h0, by simpa [leaky, Leaky.add] using h3⟩

/-- The second form of a member, with a value, is never tried with success: the first form takes its name. -/
theorem enumField_first (s : Name) : enumField s = (enumFieldType ⋄ spacing ⋄ act .newExtractField) s := by
  unfold enumField alt
  cases h : (enumFieldType ⋄ spacing ⋄ act .newExtractField) s with
  | some x => rfl
  | none =>
    simp only
    unfold seq at h ⊢
    cases h1 : enumFieldType s with
    | none => rfl
    | some x =>
      obtain ⟨a, r⟩ := x
      rw [h1] at h
      simp only at h ⊢
      cases h2 : spacing r with
      | none => simp
      | some y =>
        obtain ⟨a', r'⟩ := y
        rw [h2] at h
        simp [act] at h

theorem schema_enum_none (e : EnumHead) (h : e.ok) (rest : Name) (hx : (enumFields ⋄ lit ['}'] ⋄ spacing) rest = none) :
    parseSchema (e.chars rest) = none := by
  have hs : statement (e.chars rest) = none := by
    have h3 : enumDecl (e.chars rest) = none := by rw [enumDecl_head e h, hx]; rfl
    obtain ⟨x, hc⟩ := head_keyword e rest
    rw [hc] at h3 ⊢
    obtain ⟨n1, n2, n3, -, n5, n6, n7, n8, n9⟩ := stmt_nones "enum".toList x
    unfold statement
    rw [alt_right (n1 (by decide) (by decide)), alt_right (n2 (by decide) (by decide)),
      alt_right (n3 (by decide) (by decide) (by decide)), alt_right h3, alt_right (n5 (by decide) (by decide)),
      alt_right (n6 (by decide) (by decide)), alt_right (n7 (by decide) (by decide)), alt_right (n8 (by decide) (by decide)),
      alt_right (n9 (by decide) (by decide))]
    have : spacing ("enum".toList ++ x) = some ([], "enum".toList ++ x) := spacing_nil (headNot_cons (by decide))
    exact seq_none_right this (kw_none x (by decide) (by decide))
  have hi : includeDecl (e.chars rest) = none := keyword_include "enum".toList (by decide) _
  unfold parseSchema schema
  rw [alt_right (seq_none_left hi), alt_right (seq_none_left hi)]
  have : (many1 statement ⋄ endOfFile) (e.chars rest) = none := seq_none_left (seq_none_left hs)
  rw [this]

/-- C73 is violated: no schema that begins with an enum of two or more members is accepted. -/
theorem enum_members_fails (e : EnumHead) (he : e.ok) (m : Member) (hm : m.ok) (sp : Layout)
    (n : Name) (hn : IsIdent n) (rest : Name) :
    parseSchema (e.chars (m.chars ++ [','] ++ (layoutChars sp ++ (n ++ rest)))) = none := by
  refine schema_enum_none e he _ (seq_none_right (enumFields_comma m _ hm) (seq_none_left ?_))
  have : HeadNot (· = '}') (layoutChars sp ++ (n ++ rest)) := by
    refine layout_head sp (fun c hc => ?_) ?_
    · simp only [isLayout0, Bool.or_eq_true, decide_eq_true_eq] at hc
      rcases hc with (((h | h) | h) | h) | h <;> subst h <;> decide
    · cases n with
      | nil => exact absurd hn (by simp [IsIdent])
      | cons c l =>
        intro d r hd
        simp only [List.cons_append, List.cons.injEq] at hd
        obtain ⟨rfl, -⟩ := hd
        have hc := IsIdent.all hn c (by simp)
        cases h : decide (c = '}') with
        | false => exact h
        | true =>
          simp only [decide_eq_true_eq] at h
          subst h
          exact absurd hc (by decide)
  apply lit_none
  intro hp
  obtain ⟨r, hr⟩ := hp
  have := this '}' r (by simpa using hr.symm)
  simp at this

/-- C73 is violated: no schema that begins with an enum whose first member has a value is accepted. -/
theorem enum_value_fails (e : EnumHead) (he : e.ok) (m : Member) (hm : m.ok) (rest : Name) :
    parseSchema (e.chars (m.chars ++ ('=' :: rest))) = none := by
  refine schema_enum_none e he _ ?_
  have e1 := spacing_spec m.sp1 hm.1 (ident_notLayout (rest := layoutChars m.sp2 ++ ('=' :: rest)) hm.2.1)
  have e2 := enumField_spec m (rest := '=' :: rest) hm (headNot_cons (by decide)) (headNot_cons (by decide))
  have e3 : enumFields (m.chars ++ ('=' :: rest)) = some (m.toks, '=' :: rest) := by
    unfold enumFields
    simp only [Member.chars, List.append_assoc]
    rw [alt_right]
    · exact seq_some e1 e2
    · exact seq_none_right e1 (seq_none_right e2 (by simp [lit]))
  exact seq_none_right e3 (seq_none_left (by simp [lit]))

/-! ## examples -/

def sampleEnum : EnumC := ⟨⟨[.sp], "Ee".toList, .basic "byte".toList "uint8".toList [.sp], []⟩, ⟨[.sp], "Aa".toList, []⟩, true, [.eol .nl]⟩

theorem sampleEnum_ok : sampleEnum.ok :=
  ⟨⟨by decide, ⟨by decide, by decide⟩, ⟨by decide, by decide⟩, by simp [sampleEnum]⟩, ⟨by decide, ⟨by decide, by decide⟩, by decide⟩, by decide⟩

example : sampleEnum.chars = "enum Ee:byte { Aa,}\n".toList := by decide +kernel

/-- The sample schema followed by an enum satisfies the hypotheses of `enum_last_partial` ... -/
example : EnumsLast (sampleDecls.map .decl ++ [.enum sampleEnum]) := by simp [sampleDecls, EnumsLast]

/-- ... and is parsed with its tables unchanged; with the enum in front they change. -/
example :
    (parseSchema ((sampleDecls.map XDecl.decl ++ [XDecl.enum sampleEnum]).flatMap XDecl.chars)).map (·.structs) =
      some (meaning sampleDecls).structs ∧
    (parseSchema ("enum Ee:byte{A}table Tt{b:int;}".toList)).isSome = true ∧
    parseSchema "enum Ee:byte{A=1}table Tt{b:int;}".toList = none := by
  refine ⟨?_, ?_, ?_⟩ <;> decide +kernel

end Fbs.Props
