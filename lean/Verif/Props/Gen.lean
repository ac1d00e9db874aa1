import Verif.Props.Peg
/-!
# Properties of the generator: C68–C73
-/

namespace Fbs.Props
open Fbs Fbs.Peg Fbs.Schema Fbs.Gen

/-- The commands of one template, in order. -/
def ofTemplate (t : Template) (cs : List Cmd) : List Cmd := cs.filter fun c => c.template = t

theorem ofTemplate_append (t : Template) (a b : List Cmd) : ofTemplate t (a ++ b) = ofTemplate t a ++ ofTemplate t b := by
  simp [ofTemplate]

theorem ofTemplate_cons (t : Template) (c : Cmd) (b : List Cmd) :
    ofTemplate t (c :: b) = (if c.template = t then [c] else []) ++ ofTemplate t b := by
  unfold ofTemplate
  by_cases h : c.template = t <;> simp [h]

/-- What a field command says: declaration, field, type and number. -/
def fieldView (c : Cmd) : Name × Name × Name × Option Nat := (c.nodeName, c.fieldName, c.fieldType, c.fieldNum)

/-- The fields of a declaration numbered from `n`. -/
def numbered (s : Name) : Nat → List Field → List (Name × Name × Name × Option Nat)
  | _, [] => []
  | n, f :: fs => (s, f.name, f.type, some n) :: numbered s (n + 1) fs

theorem numbered_get (s : Name) : ∀ (fs : List Field) (n k : Nat) (f : Field), fs[k]? = some f →
    (numbered s n fs)[k]? = some (s, f.name, f.type, some (n + k)) := by
  intro fs
  induction fs with
  | nil => intro n k f h; simp at h
  | cons g gs ih =>
    intro n k f h
    cases k with
    | zero => simp at h; subst h; rfl
    | succ k =>
      simp at h
      have := ih (n + 1) k f h
      simpa [numbered, Nat.add_comm, Nat.add_left_comm, Nat.add_assoc] using this

theorem numbered_length (s : Name) : ∀ (fs : List Field) (n : Nat), (numbered s n fs).length = fs.length := by
  intro fs
  induction fs with
  | nil => intro n; rfl
  | cons f fs ih => intro n; simp [numbered, ih]

theorem genFields_spec (st : FbsSt) (info : StructInfo) : ∀ (fs : List Field) (n : Nat) (cs : List Cmd),
    genFields st info n fs = some cs → cs.map fieldView = numbered info.name n fs ∧ ∀ c ∈ cs, c.template = .field := by
  intro fs
  induction fs with
  | nil =>
    intro n cs h
    simp [genFields] at h
    subst h
    exact ⟨rfl, by simp⟩
  | cons f fs ih =>
    intro n cs h
    simp only [genFields] at h
    split at h
    · cases h
    · rename_i c hc
      split at h
      · cases h
      · rename_i b hb
        simp only [Option.some.injEq] at h
        subst h
        obtain ⟨h1, h2⟩ := ih (n + 1) b hb
        unfold genField at hc
        split at hc
        · cases hc
        · simp only [Option.some.injEq] at hc
          subst hc
          refine ⟨by simp [fieldView, numbered, ← h1], ?_⟩
          intro c hc
          rcases List.mem_cons.1 hc with rfl | hc
          · rfl
          · exact h2 c hc

theorem ofTemplate_all {t : Template} {cs : List Cmd} (h : ∀ c ∈ cs, c.template = t) : ofTemplate t cs = cs := by
  simpa [ofTemplate, List.filter_eq_self] using h

theorem ofTemplate_none {t u : Template} {cs : List Cmd} (h : ∀ c ∈ cs, c.template = u) (hne : u ≠ t) :
    ofTemplate t cs = [] := by
  unfold ofTemplate
  rw [List.filter_eq_nil_iff]
  intro c hc
  rw [h c hc]
  simpa using hne

/-- The filter option keeps a declaration. -/
def keeps (filter n : Name) : Bool := filter = [] || filter = n

theorem keeps_false {filter n : Name} : (filter ≠ [] ∧ filter ≠ n) ↔ keeps filter n = false := by
  simp [keeps]

theorem genStructs_spec (st : FbsSt) (filter : Name) : ∀ (ss : List StructInfo) (cs : List Cmd),
    genStructs st filter ss = some cs →
    (ofTemplate .field cs).map fieldView =
      (ss.filter fun s => keeps filter s.name).flatMap (fun s => numbered s.name 0 s.fields) ∧
    (ofTemplate .node cs).map Cmd.nodeName = (ss.filter fun s => keeps filter s.name).map StructInfo.name ∧
    (ofTemplate .list cs).map Cmd.nodeName = (ss.filter fun s => keeps filter s.name).map StructInfo.name ∧
    ofTemplate .root cs = [] ∧ ofTemplate .union cs = [] ∧ ofTemplate .unionAlias cs = [] := by
  intro ss
  induction ss with
  | nil =>
    intro cs h
    simp [genStructs] at h
    subst h
    simp [ofTemplate]
  | cons s ss ih =>
    intro cs h
    simp only [genStructs] at h
    by_cases hk : filter ≠ [] ∧ filter ≠ s.name
    · rw [if_pos hk] at h
      have hk' := keeps_false.1 hk
      simpa [List.filter_cons, hk'] using ih cs h
    · rw [if_neg hk] at h
      have hk' : keeps filter s.name = true := by
        cases hh : keeps filter s.name with
        | true => rfl
        | false => exact absurd (keeps_false.2 hh) hk
      split at h
      · cases h
      · rename_i a ha
        split at h
        · cases h
        · rename_i b hb
          simp only [Option.some.injEq] at h
          subst h
          obtain ⟨i1, i2, i3, i4, i5, i6⟩ := ih b hb
          obtain ⟨g1, g2⟩ := genFields_spec st s s.fields 0 a ha
          have e1 := ofTemplate_all g2
          have e2 : ofTemplate .node a = [] := ofTemplate_none g2 (by decide)
          have e3 : ofTemplate .list a = [] := ofTemplate_none g2 (by decide)
          have e4 : ofTemplate .root a = [] := ofTemplate_none g2 (by decide)
          have e5 : ofTemplate .union a = [] := ofTemplate_none g2 (by decide)
          have e6 : ofTemplate .unionAlias a = [] := ofTemplate_none g2 (by decide)
          simp only [List.filter_cons, hk', if_true, ofTemplate_append, e1, e2, e3, e4, e5, e6, i4, i5, i6,
            List.flatMap_cons, List.map_append, i1, i2, i3, List.map_cons, List.append_nil]
          refine ⟨?_, ?_, ?_, ?_, ?_, ?_⟩
          · simp [ofTemplate, genHead, g1]
          · simp [ofTemplate, genHead]
          · simp [ofTemplate, genHead]
          · simp [ofTemplate, genHead]
          · simp [ofTemplate, genHead]
          · simp [ofTemplate, genHead]

theorem genUnions_spec (filter : Name) (us : List Union) :
    (ofTemplate .union (genUnions filter us)).map Cmd.nodeName = (us.filter fun u => keeps filter u.name).map Union.name ∧
    (ofTemplate .unionAlias (genUnions filter us)).map (fun c => (c.nodeName, c.extra)) =
      (us.filter fun u => keeps filter u.name).map (fun u => (u.name, u.aliases)) ∧
    ofTemplate .field (genUnions filter us) = [] ∧ ofTemplate .node (genUnions filter us) = [] ∧
    ofTemplate .list (genUnions filter us) = [] ∧ ofTemplate .root (genUnions filter us) = [] := by
  induction us with
  | nil => simp [genUnions, ofTemplate]
  | cons u us ih =>
    obtain ⟨i1, i2, i3, i4, i5, i6⟩ := ih
    simp only [genUnions]
    by_cases hk : filter ≠ [] ∧ filter ≠ u.name
    · rw [if_pos hk]
      have hk' := keeps_false.1 hk
      simpa [List.filter_cons, hk'] using ⟨i1, i2, i3, i4, i5, i6⟩
    · rw [if_neg hk]
      have hk' : keeps filter u.name = true := by
        cases hh : keeps filter u.name with
        | true => rfl
        | false => exact absurd (keeps_false.2 hh) hk
      simp [ofTemplate_cons, hk', i1, i2, i3, i4, i5, i6]

/-- C68: exactly one command per field, numbered with its position in the (finalised) declaration, one per
declaration for the node and for the list, one per union for the union and for its members, one root. -/
theorem gen_commands (st : FbsSt) (filter : Name) (cs : List Cmd) (h : makeGen st filter = some cs) :
    (ofTemplate .field cs).map fieldView =
      (st.structs.filter fun s => keeps filter s.name).flatMap (fun s => numbered s.name 0 s.fields) ∧
    (ofTemplate .node cs).map Cmd.nodeName = (st.structs.filter fun s => keeps filter s.name).map StructInfo.name ∧
    (ofTemplate .list cs).map Cmd.nodeName = (st.structs.filter fun s => keeps filter s.name).map StructInfo.name ∧
    (ofTemplate .union cs).map Cmd.nodeName = (st.unions.filter fun u => keeps filter u.name).map Union.name ∧
    (ofTemplate .unionAlias cs).map (fun c => (c.nodeName, c.extra)) =
      (st.unions.filter fun u => keeps filter u.name).map (fun u => (u.name, u.aliases)) ∧
    (ofTemplate .root cs).map Cmd.extra = [[st.rootType]] := by
  unfold makeGen at h
  split at h
  · cases h
  · rename_i b hb
    simp only [Option.some.injEq] at h
    subst h
    obtain ⟨g1, g2, g3, g4, g5, g6⟩ := genStructs_spec st filter st.structs b hb
    obtain ⟨u1, u2, u3, u4, u5, u6⟩ := genUnions_spec filter st.unions
    simp [ofTemplate_cons, ofTemplate_append, g1, g2, g3, g4, g5, g6, u1, u2, u3, u4, u5, u6]

theorem nameTable_long : ∀ p ∈ nameTable, 2 ≤ p.1.length := by decide

theorem lookup_mem {α β : Type} [BEq α] [LawfulBEq α] (l : List (α × β)) (a : α) (h : (l.lookup a).isSome = true) :
    ∃ p ∈ l, p.1 = a := by
  induction l with
  | nil => simp at h
  | cons p l ih =>
    obtain ⟨x, y⟩ := p
    simp only [List.lookup_cons] at h
    by_cases hx : a = x
    · exact ⟨(x, y), by simp, hx.symm⟩
    · have : (a == x) = false := by simpa using hx
      rw [this] at h
      obtain ⟨q, hq, e⟩ := ih h
      exact ⟨q, by simp [hq], e⟩

theorem resultTypeOf_iff (ty : Name) : (resultTypeOf ty).isSome = true ↔ 2 ≤ ty.length := by
  unfold resultTypeOf
  by_cases h : (nameToType ty).isSome = true
  · rw [if_pos h]
    obtain ⟨p, hp, e⟩ := lookup_mem _ _ h
    have := nameTable_long p hp
    rw [e] at this
    simpa using this
  · rw [if_neg h]
    unfold isSlice
    by_cases hl : ty.length < 2
    · rw [if_pos hl]; simp; omega
    · rw [if_neg hl]
      have h2 : 2 ≤ ty.length := by omega
      simp only [h2, iff_true]
      cases decide (List.take 2 ty = "[]".toList) with
      | false => rfl
      | true =>
        simp only
        split <;> rfl

/-- Generation succeeds exactly when every type name of the selected declarations has two characters. -/
theorem gen_iff (st : FbsSt) (filter : Name) : (makeGen st filter).isSome = true ↔
    ∀ s ∈ st.structs, keeps filter s.name = true → ∀ f ∈ s.fields, 2 ≤ f.type.length := by
  have h1 : ∀ (info : StructInfo) (fs : List Field) (n : Nat), (genFields st info n fs).isSome = true ↔
      ∀ f ∈ fs, 2 ≤ f.type.length := by
    intro info fs
    induction fs with
    | nil => intro n; simp [genFields]
    | cons f fs ih =>
      intro n
      have hf : (genField st info n f).isSome = true ↔ 2 ≤ f.type.length := by
        rw [← resultTypeOf_iff]
        unfold genField
        cases resultTypeOf f.type <;> simp
      simp only [genFields, List.forall_mem_cons, ← ih (n + 1), ← hf]
      cases genField st info n f with
      | none => simp
      | some c => cases genFields st info (n + 1) fs <;> simp
  have h2 : ∀ ss : List StructInfo, (genStructs st filter ss).isSome = true ↔
      ∀ s ∈ ss, keeps filter s.name = true → ∀ f ∈ s.fields, 2 ≤ f.type.length := by
    intro ss
    induction ss with
    | nil => simp [genStructs]
    | cons s ss ih =>
      simp only [genStructs, List.forall_mem_cons, ← ih]
      by_cases hk : filter ≠ [] ∧ filter ≠ s.name
      · rw [if_pos hk]
        have hk' := keeps_false.1 hk
        simp [hk']
      · rw [if_neg hk]
        have hk' : keeps filter s.name = true := by
          cases hh : keeps filter s.name with
          | true => rfl
          | false => exact absurd (keeps_false.2 hh) hk
        simp only [hk', true_imp_iff]
        rw [← h1 s s.fields 0]
        cases genFields st s 0 s.fields with
        | none => simp
        | some a => cases genStructs st filter ss <;> simp
  rw [← h2]
  unfold makeGen
  cases genStructs st filter st.structs <;> simp

theorem finFields_long (st : FbsSt) : ∀ (fs out : List Field), finFields st fs = some out →
    ∀ f ∈ out, 2 ≤ f.type.length := by
  intro fs
  induction fs with
  | nil => intro out h f hf; simp [finFields] at h; subst h; simp at hf
  | cons g gs ih =>
    intro out h f hf
    simp only [finFields] at h
    split at h
    · cases h
    · rename_i a ha
      split at h
      · cases h
      · rename_i b hb
        simp only [Option.some.injEq] at h
        subst h
        rcases List.mem_append.1 hf with hf | hf
        · unfold finField at ha
          split at ha
          · cases ha
          · rename_i h2
            have hg : 2 ≤ g.type.length := by omega
            have : a = [g] ∨ a = [⟨g.name ++ "Type".toList, "byte".toList⟩, g] := by
              split at ha
              · split at ha
                · cases ha
                · simp only [Option.some.injEq] at ha; exact .inl ha.symm
              · split at ha
                · split at ha
                  · simp only [Option.some.injEq] at ha; exact .inr ha.symm
                  · simp only [Option.some.injEq] at ha; exact .inl ha.symm
                · simp only [Option.some.injEq] at ha; exact .inl ha.symm
            rcases this with rfl | rfl
            · simp at hf; rw [hf]; exact hg
            · simp at hf
              rcases hf with rfl | rfl
              · simp
              · exact hg
        · exact ih b hb f hf

/-- Once finalisation has succeeded, generation does not panic. -/
theorem gen_after_finalize (st st' : FbsSt) (filter : Name) (h : st.finalize = some st') :
    (makeGen st' filter).isSome = true := by
  rw [gen_iff]
  unfold FbsSt.finalize at h
  split at h
  · cases h
  · rename_i ss hss
    simp only [Option.some.injEq] at h
    subst h
    obtain ⟨h1, h2⟩ := finStructs_spec st _ _ hss
    intro s hs _ f hf
    simp only at hs
    obtain ⟨i, hi, e⟩ := List.getElem_of_mem hs
    have hlt : i < st.structs.length := by omega
    obtain ⟨fs, e1, e2⟩ := h2 i _ (List.getElem?_eq_getElem hlt)
    have : ss[i]? = some s := by rw [← e]; exact List.getElem?_eq_getElem hi
    rw [this] at e2
    simp only [Option.some.injEq] at e2
    subst e2
    exact finFields_long st _ _ e1 f hf

theorem memOf_map {α β : Type} {l : List α} {f : α → β} {b : β} (h : b ∈ l.map f) : ∃ a ∈ l, f a = b := by
  simpa using h

/-- C68 with C64 and C66, from schema text to commands: for every printable schema (type names of at least two
characters, unions with upper-case names, no vectors of unions) generation succeeds and emits for every
declared field the command numbered with its flatbuffers slot. -/
theorem gen_schema_partial (ds : List Decl) (hne : ds ≠ []) (hd : ∀ d ∈ ds, d.ok)
    (hlen : ∀ s ∈ (meaning ds).structs, ∀ f ∈ s.fields,
      2 ≤ f.type.length ∧ (f.type.take 2 = "[]".toList → 3 ≤ f.type.length))
    (hup : ∀ u ∈ (meaning ds).unions, isUpperStr (u.name.take 1) = true)
    (hvec : ∀ s ∈ (meaning ds).structs, ∀ f ∈ s.fields, ∀ u ∈ (meaning ds).unions, f.type ≠ "[]".toList ++ u.name)
    (hbr : ∀ u ∈ (meaning ds).unions, u.name.take 2 ≠ "[]".toList) :
    ∃ cs, mainGen (ds.flatMap Decl.chars) [] = some cs ∧
      ∀ s ∈ (meaning ds).structs, ∀ (k : Nat) (f : Field), s.fields[k]? = some f →
        ∃ c ∈ cs, c.template = .field ∧ c.nodeName = s.name ∧ c.fieldName = f.name ∧ c.fieldType = f.type ∧
          c.fieldNum = some (slotOf (twoSlots (meaning ds).unions) s.fields k f) := by
  obtain ⟨st, h1, -, h3, h4, h5⟩ := parse_print ds hne hd
  rw [← h4] at hlen hvec ⊢
  rw [← h5] at hup hvec hbr ⊢
  have hfin := (finalize_iff st).2 hlen
  obtain ⟨st', hst'⟩ := Option.isSome_iff_exists.1 hfin
  have hgen := gen_after_finalize st st' [] hst'
  obtain ⟨cs, hcs⟩ := Option.isSome_iff_exists.1 hgen
  refine ⟨cs, by simp [mainGen, h1, hst', hcs], ?_⟩
  intro s hs k f hf
  obtain ⟨-, -, -, hsl⟩ := slots_partial st st' hst' hup hvec hbr
  obtain ⟨i, hi, e⟩ := List.getElem_of_mem hs
  obtain ⟨s', e2, e3, -, -, e5⟩ := hsl i s (by rw [← e]; exact List.getElem?_eq_getElem hi)
  obtain ⟨e6, -⟩ := e5 k f hf
  obtain ⟨g1, -⟩ := gen_commands st' [] cs hcs
  have hmem : (s.name, f.name, f.type, some (slotOf (twoSlots st.unions) s.fields k f)) ∈
      (ofTemplate .field cs).map fieldView := by
    rw [g1, List.mem_flatMap]
    refine ⟨s', List.mem_filter.2 ⟨List.mem_of_getElem? e2, by simp [keeps]⟩, ?_⟩
    have := numbered_get s'.name s'.fields 0 _ f e6
    rw [e3] at this ⊢
    have := List.mem_of_getElem? this
    simpa using this
  obtain ⟨c, hc, ec⟩ := memOf_map hmem
  simp only [fieldView, Prod.mk.injEq] at ec
  unfold ofTemplate at hc
  obtain ⟨hc1, hc2⟩ := List.mem_filter.1 hc
  exact ⟨c, hc1, by simpa using hc2, ec.1, ec.2.1, ec.2.2.1, ec.2.2.2⟩

/-- Non-vacuity: the sample schema satisfies the hypotheses and its union field gets slot 2. -/
example : (mainGen (sampleDecls.flatMap Decl.chars) []).map
    (fun cs => (ofTemplate .field cs).map fun c => (String.ofList c.fieldName, c.fieldNum)) =
    some [("Version", some 0), ("IndexType", some 1), ("Index", some 2), ("FileNames", some 3)] := by decide +kernel

/-! ## C69: output files -/

/-- No dot in a name. -/
def NoDot (n : Name) : Prop := ∀ c ∈ n, c ≠ '.'

instance (n : Name) : Decidable (NoDot n) := by unfold NoDot; infer_instance

theorem dot_inj : ∀ {a b x y : Name}, NoDot a → NoDot b → a ++ '.' :: x = b ++ '.' :: y → a = b ∧ x = y := by
  intro a
  induction a with
  | nil =>
    intro b x y _ hb h
    cases b with
    | nil => simp at h; exact ⟨rfl, h⟩
    | cons c b =>
      simp at h
      exact absurd h.1.symm (hb c (by simp))
  | cons d a ih =>
    intro b x y ha hb h
    cases b with
    | nil =>
      simp at h
      exact absurd h.1 (ha d (by simp))
    | cons c b =>
      simp at h
      obtain ⟨h1, h2⟩ := ih (fun e he => ha e (by simp [he])) (fun e he => hb e (by simp [he])) h.2
      exact ⟨by rw [h.1, h1], h2⟩

/-- The files of a declaration. -/
def structFile (s : StructInfo) (o : Name) : Prop :=
  o = s.name ++ '.' :: "gen.go".toList ∨ o = (s.name ++ "List".toList) ++ '.' :: "gen.go".toList ∨
  ∃ f ∈ s.fields, o = s.name ++ '.' :: (f.name ++ '.' :: "gen.go".toList)

/-- The files of a union. -/
def unionFile (u : Union) (o : Name) : Prop :=
  o = u.name ++ '.' :: "union.gen.go".toList ∨ o = u.name ++ '.' :: "union-alias.gen.go".toList

theorem genFields_files (st : FbsSt) (s : StructInfo) : ∀ (fs : List Field) (n : Nat) (cs : List Cmd),
    genFields st s n fs = some cs →
    cs.map Cmd.out = fs.map fun f => s.name ++ '.' :: (f.name ++ '.' :: "gen.go".toList) := by
  intro fs
  induction fs with
  | nil => intro n cs h; simp [genFields] at h; subst h; rfl
  | cons f fs ih =>
    intro n cs h
    simp only [genFields] at h
    split at h
    · cases h
    · rename_i c hc
      split at h
      · cases h
      · rename_i b hb
        simp only [Option.some.injEq] at h
        subst h
        unfold genField at hc
        split at hc
        · cases hc
        · simp only [Option.some.injEq] at hc
          subst hc
          simp [ih (n + 1) b hb]

/-- Names that do not clash. -/
structure NamesOk (ss : List StructInfo) (us : List Union) : Prop where
  structs : (ss.map StructInfo.name).Pairwise (· ≠ ·)
  unions : (us.map Union.name).Pairwise (· ≠ ·)
  sdot : ∀ s ∈ ss, NoDot s.name
  udot : ∀ u ∈ us, NoDot u.name
  lists : ∀ s ∈ ss, ∀ t ∈ ss, s.name ≠ t.name ++ "List".toList
  fields : ∀ s ∈ ss, (s.fields.map Field.name).Pairwise (· ≠ ·)
  fdot : ∀ s ∈ ss, ∀ f ∈ s.fields, NoDot f.name
  funion : ∀ s ∈ ss, ∀ f ∈ s.fields, f.name ≠ "union".toList ∧ f.name ≠ "union-alias".toList

theorem noDot_append {a b : Name} (ha : NoDot a) (hb : NoDot b) : NoDot (a ++ b) := by
  intro c hc
  rcases List.mem_append.1 hc with h | h
  · exact ha c h
  · exact hb c h

theorem noDot_list : NoDot "List".toList := by decide

theorem append_list_inj {a b : Name} (h : a ++ "List".toList = b ++ "List".toList) : a = b :=
  (List.append_inj' h rfl).1

theorem field_not_gen {n : Name} (h : NoDot n) : "gen.go".toList ≠ n ++ '.' :: "gen.go".toList := by
  intro e
  have : "gen".toList ++ '.' :: "go".toList = n ++ '.' :: "gen.go".toList := e
  have := (dot_inj (by decide) h this).2
  exact absurd this (by decide)

theorem struct_files_disjoint {s t : StructInfo} {o : Name} (hs : NoDot s.name) (ht : NoDot t.name)
    (hsf : ∀ f ∈ s.fields, NoDot f.name)
    (hne : s.name ≠ t.name) (h1 : s.name ≠ t.name ++ "List".toList) (h2 : t.name ≠ s.name ++ "List".toList)
    (ho : structFile s o) : ¬ structFile t o := by
  intro ho'
  have hsl := noDot_append hs noDot_list
  have htl := noDot_append ht noDot_list
  rcases ho with rfl | rfl | ⟨f, hf, rfl⟩ <;> rcases ho' with e | e | ⟨g, hg, e⟩
  · exact hne (dot_inj hs ht e).1
  · exact h1 (dot_inj hs htl e).1
  · exact hne (dot_inj hs ht e).1
  · exact h2 (dot_inj hsl ht e).1.symm
  · exact hne (append_list_inj (dot_inj hsl htl e).1)
  · exact h2 (dot_inj hsl ht e).1.symm
  · exact hne (dot_inj hs ht e).1
  · exact field_not_gen (hsf f hf) (dot_inj hs htl e).2.symm
  · exact hne (dot_inj hs ht e).1

theorem structFile_of {st : FbsSt} {s : StructInfo} {a : List Cmd} (ha : genFields st s 0 s.fields = some a) :
    ∀ o ∈ (genHead st s ++ a).map Cmd.out, structFile s o := by
  intro o ho
  rw [List.map_append, List.mem_append, genFields_files st s s.fields 0 a ha] at ho
  rcases ho with ho | ho
  · simp only [genHead, List.map_cons, List.map_nil, List.mem_cons, List.not_mem_nil, or_false] at ho
    rcases ho with h | h
    · left; simpa using h
    · right; left; simpa using h
  · right; right
    obtain ⟨f, hf, e⟩ := memOf_map ho
    exact ⟨f, hf, e.symm⟩

theorem ne_append_list (n : Name) : n ≠ n ++ "List".toList := by
  intro h
  have := congrArg List.length h
  simp at this

theorem struct_files_nodup {st : FbsSt} {s : StructInfo} {a : List Cmd} (ha : genFields st s 0 s.fields = some a)
    (hs : NoDot s.name) (hf : (s.fields.map Field.name).Pairwise (· ≠ ·)) (hfd : ∀ f ∈ s.fields, NoDot f.name) :
    ((genHead st s ++ a).map Cmd.out).Pairwise (· ≠ ·) := by
  rw [List.map_append, genFields_files st s s.fields 0 a ha, List.pairwise_append]
  have hsl := noDot_append hs noDot_list
  refine ⟨?_, ?_, ?_⟩
  · simp only [genHead, List.map_cons, List.map_nil, List.pairwise_cons, List.mem_cons, List.not_mem_nil, or_false]
    refine ⟨?_, by simp⟩
    rintro o rfl e
    simp at e
  · rw [List.pairwise_map] at hf ⊢
    refine (List.pairwise_iff_forall_sublist.2 ?_)
    intro f g hsub e
    have hne := List.pairwise_iff_forall_sublist.1 hf hsub
    have hfm : f ∈ s.fields := hsub.subset (by simp)
    have hgm : g ∈ s.fields := hsub.subset (by simp)
    exact hne (dot_inj (hfd f hfm) (hfd g hgm) (dot_inj hs hs e).2).1
  · intro o ho p hp e
    obtain ⟨f, hf', e'⟩ := memOf_map hp
    subst e'
    simp only [genHead, List.map_cons, List.map_nil, List.mem_cons, List.not_mem_nil, or_false] at ho
    rcases ho with h | h
    · have : s.name ++ '.' :: "gen.go".toList = s.name ++ '.' :: (f.name ++ '.' :: "gen.go".toList) := by
        rw [← e, h]; simp
      exact field_not_gen (hfd f hf') (dot_inj hs hs this).2
    · have : (s.name ++ "List".toList) ++ '.' :: "gen.go".toList = s.name ++ '.' :: (f.name ++ '.' :: "gen.go".toList) := by
        rw [← e, h]; simp
      exact ne_append_list _ (dot_inj hsl hs this).1.symm

theorem genStructs_files (st : FbsSt) (filter : Name) (us : List Union) : ∀ (ss : List StructInfo) (cs : List Cmd),
    NamesOk ss us → genStructs st filter ss = some cs →
    (cs.map Cmd.out).Pairwise (· ≠ ·) ∧ ∀ o ∈ cs.map Cmd.out, ∃ s ∈ ss, structFile s o := by
  intro ss
  induction ss with
  | nil => intro cs _ h; simp [genStructs] at h; subst h; simp
  | cons s ss ih =>
    intro cs hN h
    have hN' : NamesOk ss us :=
      ⟨(List.pairwise_cons.1 hN.structs).2, hN.unions, fun x hx => hN.sdot x (by simp [hx]), hN.udot,
        fun x hx y hy => hN.lists x (by simp [hx]) y (by simp [hy]), fun x hx => hN.fields x (by simp [hx]),
        fun x hx => hN.fdot x (by simp [hx]), fun x hx => hN.funion x (by simp [hx])⟩
    simp only [genStructs] at h
    by_cases hk : filter ≠ [] ∧ filter ≠ s.name
    · rw [if_pos hk] at h
      obtain ⟨i1, i2⟩ := ih cs hN' h
      exact ⟨i1, fun o ho => by obtain ⟨x, hx, e⟩ := i2 o ho; exact ⟨x, by simp [hx], e⟩⟩
    · rw [if_neg hk] at h
      split at h
      · cases h
      · rename_i a ha
        split at h
        · cases h
        · rename_i b hb
          simp only [Option.some.injEq] at h
          subst h
          obtain ⟨i1, i2⟩ := ih b hN' hb
          have hof := structFile_of ha
          refine ⟨?_, ?_⟩
          · rw [List.map_append, List.pairwise_append]
            refine ⟨struct_files_nodup ha (hN.sdot s (by simp)) (hN.fields s (by simp)) (hN.fdot s (by simp)), i1, ?_⟩
            intro o ho p hp e
            subst e
            obtain ⟨t, ht, hto⟩ := i2 o hp
            have hne : s.name ≠ t.name := (List.pairwise_cons.1 hN.structs).1 _ (List.mem_map.2 ⟨t, ht, rfl⟩)
            exact struct_files_disjoint (hN.sdot s (by simp)) (hN.sdot t (by simp [ht])) (hN.fdot s (by simp))
              hne (hN.lists s (by simp) t (by simp [ht]))
              (hN.lists t (by simp [ht]) s (by simp)) (hof o ho) hto
          · intro o ho
            rw [List.map_append, List.mem_append] at ho
            rcases ho with ho | ho
            · exact ⟨s, by simp, hof o ho⟩
            · obtain ⟨t, ht, e⟩ := i2 o ho
              exact ⟨t, by simp [ht], e⟩

theorem genUnions_files (filter : Name) : ∀ us : List Union, (us.map Union.name).Pairwise (· ≠ ·) →
    (∀ u ∈ us, NoDot u.name) →
    ((genUnions filter us).map Cmd.out).Pairwise (· ≠ ·) ∧
    ∀ o ∈ (genUnions filter us).map Cmd.out, ∃ u ∈ us, unionFile u o := by
  intro us
  induction us with
  | nil => intro _ _; simp [genUnions]
  | cons u us ih =>
    intro hp hd
    obtain ⟨i1, i2⟩ := ih (List.pairwise_cons.1 hp).2 (fun x hx => hd x (by simp [hx]))
    simp only [genUnions]
    by_cases hk : filter ≠ [] ∧ filter ≠ u.name
    · rw [if_pos hk]
      exact ⟨i1, fun o ho => by obtain ⟨x, hx, e⟩ := i2 o ho; exact ⟨x, by simp [hx], e⟩⟩
    · rw [if_neg hk]
      have hu := hd u (by simp)
      have hother : ∀ o, unionFile u o → ∀ p ∈ (genUnions filter us).map Cmd.out, o ≠ p := by
        intro o ho p hp' e
        subst e
        obtain ⟨v, hv, hvo⟩ := i2 o hp'
        have hne : u.name ≠ v.name := (List.pairwise_cons.1 hp).1 _ (List.mem_map.2 ⟨v, hv, rfl⟩)
        have hvd := hd v (by simp [hv])
        rcases ho with rfl | rfl <;> rcases hvo with e | e <;> exact hne (dot_inj hu hvd e).1
      refine ⟨?_, ?_⟩
      · simp only [List.map_cons, List.pairwise_cons, List.mem_cons]
        refine ⟨?_, ?_, i1⟩
        · rintro o (rfl | ho)
          · intro e
            have e' : u.name ++ '.' :: "union.gen.go".toList = u.name ++ '.' :: "union-alias.gen.go".toList := e
            exact absurd (dot_inj hu hu e').2 (by decide)
          · exact hother _ (.inl rfl) o ho
        · exact fun o ho => hother _ (.inr rfl) o ho
      · intro o ho
        simp only [List.map_cons, List.mem_cons] at ho
        rcases ho with rfl | rfl | ho
        · exact ⟨u, by simp, .inl rfl⟩
        · exact ⟨u, by simp, .inr rfl⟩
        · obtain ⟨v, hv, e⟩ := i2 o ho
          exact ⟨v, by simp [hv], e⟩

/-- C69, missing: schemas with clashing names (see the counterexamples below). -/
theorem out_files_partial (st : FbsSt) (filter : Name) (cs : List Cmd) (hN : NamesOk st.structs st.unions)
    (h : makeGen st filter = some cs) : (cs.map Cmd.out).Pairwise (· ≠ ·) := by
  unfold makeGen at h
  split at h
  · cases h
  · rename_i b hb
    simp only [Option.some.injEq] at h
    subst h
    obtain ⟨g1, g2⟩ := genStructs_files st filter st.unions st.structs b hN hb
    obtain ⟨u1, u2⟩ := genUnions_files filter st.unions hN.unions hN.udot
    have hroot : ∀ n x : Name, NoDot n → x ≠ "go".toList → "root.go".toList ≠ n ++ '.' :: x := by
      intro n x hn hx e
      have : "root".toList ++ '.' :: "go".toList = n ++ '.' :: x := e
      exact hx (dot_inj (by decide) hn this).2.symm
    have hfgo : ∀ n : Name, NoDot n → n ++ '.' :: "gen.go".toList ≠ "go".toList := by
      intro n hn e
      have := congrArg List.length e
      simp at this
    simp only [List.cons_append, List.map_cons, List.map_append, List.pairwise_cons, List.mem_append,
      List.pairwise_append]
    refine ⟨?_, g1, u1, ?_⟩
    · rintro o (ho | ho)
      · obtain ⟨s, hs, h⟩ := g2 o ho
        have hd := hN.sdot s hs
        rcases h with rfl | rfl | ⟨f, hf, rfl⟩
        · exact hroot _ _ hd (by decide)
        · exact hroot _ _ (noDot_append hd noDot_list) (by decide)
        · exact hroot _ _ hd (hfgo _ (hN.fdot s hs f hf))
      · obtain ⟨u, hu, h⟩ := u2 o ho
        have hd := hN.udot u hu
        rcases h with rfl | rfl <;> exact hroot _ _ hd (by decide)
    · intro o ho p hp e
      subst e
      obtain ⟨s, hs, h⟩ := g2 o ho
      obtain ⟨u, hu, h'⟩ := u2 o hp
      have hd := hN.sdot s hs
      have hd' := hN.udot u hu
      have hl := noDot_append hd noDot_list
      rcases h with rfl | rfl | ⟨f, hf, rfl⟩
      · rcases h' with e | e <;> exact absurd (dot_inj hd hd' e).2 (by decide)
      · rcases h' with e | e <;> exact absurd (dot_inj hl hd' e).2 (by decide)
      · rcases h' with e | e
        · have e2 : f.name ++ '.' :: "gen.go".toList = "union".toList ++ '.' :: "gen.go".toList := (dot_inj hd hd' e).2
          exact (hN.funion s hs f hf).1 (dot_inj (hN.fdot s hs f hf) (by decide) e2).1
        · have e2 : f.name ++ '.' :: "gen.go".toList = "union-alias".toList ++ '.' :: "gen.go".toList :=
            (dot_inj hd hd' e).2
          exact (hN.funion s hs f hf).2 (dot_inj (hN.fdot s hs f hf) (by decide) e2).1

example : ((mainGen (sampleDecls.flatMap Decl.chars) []).map fun cs => (cs.map Cmd.out).Nodup) = some True := by
  have : ((mainGen (sampleDecls.flatMap Decl.chars) []).map fun cs => decide (cs.map Cmd.out).Nodup) = some true := by
    decide +kernel
  cases h : mainGen (sampleDecls.flatMap Decl.chars) [] with
  | none => rw [h] at this; cases this
  | some cs =>
    rw [h] at this
    simp only [Option.map_some, Option.some.injEq, decide_eq_true_eq] at this ⊢
    simpa using this

/-- C69 fails: two fields of one table write the same file, so one accessor is lost. -/
theorem out_files_field_fails :
    (mainGen "table Ab{ab:int;AB:int;}".toList []).map (fun cs => ((ofTemplate .field cs).map Cmd.out)) =
      some ["Ab.Ab.gen.go".toList, "Ab.Ab.gen.go".toList] := by decide +kernel

/-- C69 fails: a table called like the list of another one. -/
theorem out_files_list_fails :
    (mainGen "table Ab{x:bool;}table AbList{x:bool;}".toList []).map
      (fun cs => (((ofTemplate .list cs).map Cmd.out)[0]?, ((ofTemplate .node cs).map Cmd.out)[1]?)) =
      some (some "AbList.gen.go".toList, some "AbList.gen.go".toList) := by decide +kernel

/-- C69 fails: the field added for a union `x` is called like a declared field `x_type`. -/
theorem out_files_union_fails :
    (mainGen "table Ab{y:bool;}union Un{Ab}table Tt{x:Un;xType_:bool;}".toList []).isNone = true ∧
    (mainGen "table Ab{y:bool;}union Un{Ab}table Tt{a:Un;atype:bool;}".toList []).map
      (fun cs => ((ofTemplate .field cs).map Cmd.out).drop 1) =
      some ["Tt.AType.gen.go".toList, "Tt.A.gen.go".toList, "Tt.Atype.gen.go".toList] ∧
    (mainGen "table Ab{y:bool;}union Un{Ab}table Tt{a:Un;a_type:bool;}".toList []).map
      (fun cs => ((ofTemplate .field cs).map Cmd.out).drop 1) =
      some ["Tt.AType.gen.go".toList, "Tt.A.gen.go".toList, "Tt.AType.gen.go".toList] := by
  refine ⟨?_, ?_, ?_⟩ <;> decide +kernel

/-! ## C70: scalar fields -/

/-- The built-in types whose Go name the run-time type table knows. -/
def knownBasic : List (Name × Name) := basicNames.filter fun b => b.2 ≠ "uint8".toList && b.2 ≠ "float".toList

/-- C70, missing: `byte`, `ubyte`, `uint8` and `float`. -/
theorem scalar_accessor_partial : ∀ b ∈ knownBasic, resultTypeOf b.2 = some "CommonNode".toList ∧
    resultTypeOf ("[]".toList ++ b.2) = some "List".toList := by decide +kernel

/-- C70 fails: a `byte` field gets the result type `uint8` and a `[byte]` field `uint8List`, which are not
types of the generated package; `float` likewise. -/
theorem scalar_accessor_fails :
    (mainGen "table Ab{x:byte;y:[byte];z:float;}".toList []).map
      (fun cs => (ofTemplate .field cs).map fun c => String.ofList c.resultType) =
      some ["uint8", "uint8List", "float"] := by decide +kernel

example : knownBasic.length = 17 := by decide

/-! ## C71–C73: texts the grammar should accept -/

/-- C71 fails: layout before the first declaration or around the colon of a field makes a schema
unparsable. -/
theorem layout_fails :
    (parseSchema "table Ab{x:int;}".toList).isSome = true ∧
    parseSchema " table Ab{x:int;}".toList = none ∧
    parseSchema "// c\ntable Ab{x:int;}".toList = none ∧
    parseSchema "table Ab{x: int;}".toList = none ∧
    parseSchema "table Ab{x :int;}".toList = none ∧
    parseSchema "table Ab{x:[ int];}".toList = none := by
  refine ⟨?_, ?_, ?_, ?_, ?_, ?_⟩ <;> decide +kernel

/-- C72 fails: a negative or fractional default value makes a schema unparsable. -/
theorem default_fails :
    (parseSchema "table Ab{x:int = 1;}".toList).isSome = true ∧
    parseSchema "table Ab{x:int = -1;}".toList = none ∧
    parseSchema "table Ab{x:float = 1.5;}".toList = none := by
  refine ⟨?_, ?_, ?_⟩ <;> decide +kernel

/-- C73 fails: an enum adds its member to the fields of the next table, and an enum with two members is
not parsed. -/
theorem enum_fails :
    (parseSchema "enum Ee:byte{A}table Tt{b:int;}".toList).map
      (fun st => st.structs.map fun s => s.fields.map fun f => (String.ofList f.name, String.ofList f.type)) =
      some [[("A", "uint8"), ("B", "int32")]] ∧
    parseSchema "enum Ee:byte{A,B}table Tt{b:int;}".toList = none := by
  constructor <;> decide +kernel

end Fbs.Props
