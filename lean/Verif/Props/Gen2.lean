import Verif.Props.Gen
/-!
# Types used by the generated accessors: C80
-/

namespace Fbs.Props
open Fbs Fbs.Peg Fbs.Gen

/-- template/genny/root.go 11-27: the types declared in the root file. -/
def rootTypes : List Name :=
  ["Bool", "Byte", "Int8", "Int16", "Int32", "Int64", "Uint8", "Uint16", "Uint32", "Uint64", "Float32", "Float64",
    "CommonNode", "List", "CommonNodeList"].map String.toList

/-- The Go types declared by a generated package: those of root.go, one per node and union file (named like the
declaration), and one per list file (the `ListType` parameter). -/
def declaredTypes (cs : List Cmd) : List Name :=
  rootTypes ++ (ofTemplate .node cs).map Cmd.nodeName ++ (ofTemplate .union cs).map Cmd.nodeName ++
    (ofTemplate .list cs).flatMap Cmd.extra

/-- Where the commands come from. -/
theorem genFields_mem (st : FbsSt) (info : StructInfo) : ∀ (fs : List Field) (n : Nat) (cs : List Cmd),
    genFields st info n fs = some cs → ∀ c ∈ cs, ∃ k f, fs[k]? = some f ∧ genField st info (n + k) f = some c := by
  intro fs
  induction fs with
  | nil => intro n cs h c hc; simp [genFields] at h; subst h; cases hc
  | cons f fs ih =>
    intro n cs h c hc
    simp only [genFields] at h
    split at h
    · cases h
    · rename_i d hd
      split at h
      · cases h
      · rename_i b hb
        simp only [Option.some.injEq] at h
        subst h
        rcases List.mem_cons.mp hc with rfl | hc
        · exact ⟨0, f, rfl, hd⟩
        · obtain ⟨k, g, h1, h2⟩ := ih (n + 1) b hb c hc
          refine ⟨k + 1, g, h1, ?_⟩
          rw [show n + (k + 1) = n + 1 + k by omega]; exact h2

theorem genStructs_mem (st : FbsSt) : ∀ (ss : List StructInfo) (cs : List Cmd), genStructs st [] ss = some cs →
    (∀ c ∈ cs, ∃ s ∈ ss, c ∈ genHead st s ∨ ∃ k f, s.fields[k]? = some f ∧ genField st s k f = some c) ∧
    ∀ s ∈ ss, ∀ c ∈ genHead st s, c ∈ cs := by
  intro ss
  induction ss with
  | nil => intro cs h; simp [genStructs] at h; subst h; exact ⟨fun c hc => (by cases hc), fun s hs => (by cases hs)⟩
  | cons s ss ih =>
    intro cs h
    simp only [genStructs, ne_eq, not_true_eq_false, false_and, if_false] at h
    split at h
    · cases h
    · rename_i a ha
      split at h
      · cases h
      · rename_i b hb
        simp only [Option.some.injEq] at h
        subst h
        obtain ⟨i1, i2⟩ := ih b hb
        constructor
        · intro c hc
          rcases List.mem_append.mp hc with hc | hc
          · rcases List.mem_append.mp hc with hc | hc
            · exact ⟨s, List.mem_cons_self, Or.inl hc⟩
            · obtain ⟨k, f, h1, h2⟩ := genFields_mem st s s.fields 0 a ha c hc
              exact ⟨s, List.mem_cons_self, Or.inr ⟨k, f, h1, by simpa using h2⟩⟩
          · obtain ⟨t, ht, h1⟩ := i1 c hc
            exact ⟨t, List.mem_cons_of_mem _ ht, h1⟩
        · intro t ht c hc
          rcases List.mem_cons.mp ht with rfl | ht
          · exact List.mem_append_left _ (List.mem_append_left _ hc)
          · exact List.mem_append_right _ (i2 t ht c hc)

theorem genUnions_mem : ∀ us : List Union, (∀ c ∈ genUnions [] us, c.template = .union ∨ c.template = .unionAlias) ∧
    ∀ u ∈ us, { template := .union, out := u.name ++ ".union.gen.go".toList, nodeName := u.name } ∈ genUnions [] us := by
  intro us
  induction us with
  | nil => exact ⟨fun c hc => (by cases hc), fun u hu => (by cases hu)⟩
  | cons u us ih =>
    obtain ⟨i1, i2⟩ := ih
    simp only [genUnions, ne_eq, not_true_eq_false, false_and, if_false]
    constructor
    · intro c hc
      rcases List.mem_cons.mp hc with rfl | hc
      · exact Or.inl rfl
      · rcases List.mem_cons.mp hc with rfl | hc
        · exact Or.inr rfl
        · exact i1 c hc
    · intro v hv
      rcases List.mem_cons.mp hv with rfl | hv
      · exact List.mem_cons_self
      · exact List.mem_cons_of_mem _ (List.mem_cons_of_mem _ (i2 v hv))

theorem replByteN_id : ∀ (n : Nat) (s : Name), (∀ c ∈ s, c ≠ '[') → replByteN n s = s := by
  intro n
  induction n with
  | zero => intro s _; rfl
  | succ n ih =>
    intro s hs
    cases s with
    | nil => rfl
    | cons c s =>
      simp only [replByteN]
      rw [if_neg, ih s (fun d hd => hs d (List.mem_cons_of_mem _ hd))]
      intro h
      have := hs c List.mem_cons_self
      simp only [List.take_succ_cons] at h
      injection h with h1 _
      exact this h1

theorem convResultType_list {n : Name} (hn : ∀ c ∈ n, c ≠ '[') (hb : n.take 4 ≠ "byte".toList) :
    convResultType ('[' :: ']' :: n) = n ++ "List".toList := by
  have h0 : replByteN ('[' :: ']' :: n).length ('[' :: ']' :: n) = '[' :: ']' :: n := by
    simp only [List.length_cons, replByteN]
    rw [if_neg, if_neg, replByteN_id _ n hn]
    · intro h
      simp only [List.take_succ_cons] at h
      injection h with h1 _
      exact absurd h1 (by decide)
    · intro h
      simp only [List.take_succ_cons] at h
      injection h with _ h2
      injection h2 with _ h3
      exact hb h3
  unfold convResultType
  rw [h0]
  rw [if_neg (by simp), if_pos (by simp)]
  rfl

theorem nameTable_last : ∀ p ∈ nameTable, p.1.take 2 ≠ "[]".toList := by decide

theorem nameToType_list (n : Name) : nameToType ('[' :: ']' :: n) = none := by
  cases h : nameToType ('[' :: ']' :: n) with
  | none => rfl
  | some t =>
    obtain ⟨p, hp, e⟩ := lookup_mem nameTable ('[' :: ']' :: n) (by unfold nameToType at h; rw [h]; rfl)
    exact absurd (by rw [e]; rfl) (nameTable_last p hp)

/-- Field types that are declared: built-in scalars, strings and byte vectors, declarations, unions, and vectors
of built-in scalars, of strings, or of declarations. -/
inductive Declared (st : FbsSt) : Name → Prop
  | scalar {n : Name} (h : (nameToType n).isSome = true) : Declared st n
  | scalars {n : Name} (h : (nameToType n).isSome = true) : Declared st ('[' :: ']' :: n)
  | strings : Declared st "[][]byte".toList
  | struct {s : StructInfo} (h : s ∈ st.structs) : Declared st s.name
  | structs {s : StructInfo} (h : s ∈ st.structs) : Declared st ('[' :: ']' :: s.name)
  | union {u : Union} (h : u ∈ st.unions) : Declared st u.name

/-- C80: if every field has a declared type (no vectors of unions; names are two characters or longer, do not
contain brackets and do not start with `byte`), then every accessor that is generated returns a type the
generated package declares. -/
theorem result_types_partial (st : FbsSt) (cs : List Cmd) (h : makeGen st [] = some cs)
    (hty : ∀ s ∈ st.structs, ∀ f ∈ s.fields, Declared st f.type)
    (hs : ∀ s ∈ st.structs, (∀ c ∈ s.name, c ≠ '[') ∧ s.name.take 4 ≠ "byte".toList)
    (hu : ∀ u ∈ st.unions, ∀ c ∈ u.name, c ≠ '[') :
    ∀ c ∈ cs, c.template = .field → c.resultType ∈ declaredTypes cs := by
  unfold makeGen at h
  split at h
  · cases h
  · rename_i b hb
    simp only [Option.some.injEq] at h
    obtain ⟨m1, m2⟩ := genStructs_mem st st.structs b hb
    obtain ⟨u1, u2⟩ := genUnions_mem st.unions
    have hroot : ∀ n ∈ rootTypes, n ∈ declaredTypes cs := by
      intro n hn; unfold declaredTypes; simp [hn]
    have hnode : ∀ s ∈ st.structs, s.name ∈ declaredTypes cs := by
      intro s hm
      have : ({ template := .node, out := s.name ++ ".gen.go".toList, nodeName := s.name,
                isStruct := isStructName st s.name, extra := [st.rootType] } : Cmd) ∈ cs := by
        rw [← h]
        exact List.mem_append_left _ (List.mem_cons_of_mem _ (m2 s hm _ (by unfold genHead; simp)))
      unfold declaredTypes
      refine List.mem_append_left _ (List.mem_append_left _ (List.mem_append_right _ ?_))
      exact List.mem_map.mpr ⟨_, List.mem_filter.mpr ⟨this, by simp⟩, rfl⟩
    have hlist : ∀ s ∈ st.structs, s.name ++ "List".toList ∈ declaredTypes cs := by
      intro s hm
      have : ({ template := .list, out := s.name ++ "List.gen.go".toList, nodeName := s.name,
                extra := [s.name ++ "List".toList] } : Cmd) ∈ cs := by
        rw [← h]
        exact List.mem_append_left _ (List.mem_cons_of_mem _ (m2 s hm _ (by unfold genHead; simp)))
      unfold declaredTypes
      refine List.mem_append_right _ ?_
      exact List.mem_flatMap.mpr ⟨_, List.mem_filter.mpr ⟨this, by simp⟩, by simp⟩
    have hunion : ∀ u ∈ st.unions, u.name ∈ declaredTypes cs := by
      intro u hm
      have : ({ template := .union, out := u.name ++ ".union.gen.go".toList, nodeName := u.name } : Cmd) ∈ cs := by
        rw [← h]; exact List.mem_append_right _ (u2 u hm)
      unfold declaredTypes
      refine List.mem_append_left _ (List.mem_append_right _ ?_)
      exact List.mem_map.mpr ⟨_, List.mem_filter.mpr ⟨this, by simp⟩, rfl⟩
    have hplain : ∀ n : Name, (∀ c ∈ n, c ≠ '[') → ∀ r, resultTypeOf n = some r →
        r = "CommonNode".toList ∨ r = n := by
      intro n hn r hr
      unfold resultTypeOf at hr
      split at hr
      · injection hr with hr; exact Or.inl hr.symm
      · have hsl : isSlice n = none ∨ isSlice n = some false := by
          unfold isSlice
          split
          · exact Or.inl rfl
          · refine Or.inr ?_
            congr 1
            rw [decide_eq_false_iff_not]
            intro he
            cases n with
            | nil => cases he
            | cons c n =>
              simp only [List.take_succ_cons] at he
              injection he with h1 _
              exact hn c List.mem_cons_self h1
        rcases hsl with e | e <;> rw [e] at hr
        · cases hr
        · injection hr with hr; exact Or.inr hr.symm
    intro c hc ht
    rw [← h] at hc
    rcases List.mem_append.mp hc with hc | hc
    · rcases List.mem_cons.mp hc with rfl | hc
      · cases ht
      · obtain ⟨s, hsm, hc | ⟨k, f, hf, hg⟩⟩ := m1 c hc
        · unfold genHead at hc
          simp only [List.mem_cons, List.not_mem_nil, or_false] at hc
          rcases hc with rfl | rfl <;> cases ht
        · unfold genField at hg
          split at hg
          · cases hg
          · rename_i r hr
            simp only [Option.some.injEq] at hg
            subst hg
            show r ∈ _
            have hd := hty s hsm f (List.mem_of_getElem? hf)
            generalize f.type = ty at hd hr
            cases hd with
            | scalar hn =>
              unfold resultTypeOf at hr
              rw [if_pos hn] at hr
              injection hr with hr
              subst hr
              exact hroot _ (by decide)
            | @scalars n hn =>
              unfold resultTypeOf at hr
              rw [nameToType_list] at hr
              have e : isSlice ('[' :: ']' :: n) = some true := by unfold isSlice; simp
              simp only [Option.isSome_none, Bool.false_eq_true, if_false, e, List.drop_succ_cons, List.drop_zero, hn, if_true] at hr
              injection hr with hr
              subst hr
              exact hroot _ (by decide)
            | strings =>
              have : resultTypeOf "[][]byte".toList = some "CommonNodeList".toList := by decide
              rw [this] at hr
              injection hr with hr
              subst hr
              exact hroot _ (by decide)
            | struct hm =>
              rcases hplain _ (hs _ hm).1 r hr with rfl | rfl
              · exact hroot _ (by decide)
              · exact hnode _ hm
            | @structs t hm =>
              unfold resultTypeOf at hr
              rw [nameToType_list] at hr
              have e : isSlice ('[' :: ']' :: t.name) = some true := by unfold isSlice; simp
              simp only [Option.isSome_none, Bool.false_eq_true, if_false, e, List.drop_succ_cons, List.drop_zero] at hr
              split at hr
              · injection hr with hr
                subst hr
                exact hroot _ (by decide)
              · injection hr with hr
                subst hr
                rw [convResultType_list (hs _ hm).1 (hs _ hm).2]
                exact hlist _ hm
            | union hm =>
              rcases hplain _ (hu _ hm) r hr with rfl | rfl
              · exact hroot _ (by decide)
              · exact hunion _ hm
    · rcases u1 c hc with e | e <;> rw [e] at ht <;> cases ht

/-- Non-vacuity: a schema with a field of every kind; the result types of its accessors. -/
example : (mainGen "table Ab{x:int;y:[Ab];z:string;w:[string];u:Uu;s:Sa;}struct Sa{a:int;}union Uu{Ab}".toList []).map
    (fun cs => (ofTemplate .field cs).map fun c => (String.ofList c.fieldType, String.ofList c.resultType, decide (c.resultType ∈ declaredTypes cs))) =
    some [("int32", "CommonNode", true), ("[]Ab", "AbList", true), ("[]byte", "List", true), ("[][]byte", "CommonNodeList", true),
      ("byte", "CommonNode", true), ("Uu", "Uu", true), ("Sa", "Sa", true), ("int32", "CommonNode", true)] := by decide +kernel

/-- C80 is violated by vectors of unions, whose list type is never generated, and by `ubyte` and `float`,
which are missing in the table of built-in types. -/
theorem result_types_fails :
    (mainGen "table Ab{u:[Uu];x:ubyte;y:float;}union Uu{Ab}".toList []).map
      (fun cs => (ofTemplate .field cs).map fun c => (String.ofList c.fieldType, String.ofList c.resultType, decide (c.resultType ∈ declaredTypes cs))) =
    some [("[]Uu", "UuList", false), ("uint8", "uint8", false), ("float", "float", false)] := by decide +kernel

end Fbs.Props
