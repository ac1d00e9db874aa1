import Verif.Types
/-!
# Properties of the type registry and the symbol tables (C30-C33)
-/

namespace Fbs.Props
open Fbs

/-! ## C30, C31 classification -/

/-- fbs.peg 71-91: schema keyword, and the type name the parser produces for it. -/
def schemaScalars : List (String × String) :=
  [("bool", "bool"), ("int8", "int8"), ("uint8", "uint8"), ("int16", "int16"), ("uint16", "uint16"),
   ("int32", "int32"), ("uint32", "uint32"), ("int64", "int64"), ("uint64", "uint64"),
   ("float32", "float32"), ("float64", "float64"), ("byte", "uint8"), ("ubyte", "uint8"),
   ("short", "int16"), ("ushort", "uint16"), ("int", "int32"), ("uint", "uint32"), ("float", "float"),
   ("long", "int64"), ("ulong", "uint64"), ("double", "float64")]

/-- Specification: the size in bytes the flatbuffers schema language prescribes for a scalar keyword. -/
def fbSize : String → Nat
  | "bool" => 1 | "byte" => 1 | "ubyte" => 1 | "int8" => 1 | "uint8" => 1
  | "short" => 2 | "ushort" => 2 | "int16" => 2 | "uint16" => 2
  | "int" => 4 | "uint" => 4 | "float" => 4 | "int32" => 4 | "uint32" => 4 | "float32" => 4
  | "long" => 8 | "ulong" => 8 | "double" => 8 | "int64" => 8 | "uint64" => 8 | "float64" => 8
  | _ => 0

/-- Specification: first letter upper-cased (the spelling used in generated type names). -/
def capitalise : Name → Name
  | [] => []
  | c :: l => c.toUpper :: l

/-- The group bits of a basic type of the given size. -/
def basicGroup : Nat → Nat
  | 1 => ftBasic1 | 2 => ftBasic2 | 4 => ftBasic4 | 8 => ftBasic8 | _ => 0

/-- C30 (partial): every schema scalar except those mapped to "uint8" and "float" is classified as a basic
type with the prescribed size, in both spellings, whatever is registered.  Missing: `uint8`, `byte`,
`ubyte`, `float`, see `scalar_classified_fails`. -/
theorem scalar_classified_partial (r : Reg) :
    ∀ k t, (k, t) ∈ schemaScalars → t ≠ "uint8" → t ≠ "float" →
      (getTypeGroup r t.toList = some (basicGroup (fbSize k)) ∧ sizeOfName t.toList = fbSize k) ∧
      getTypeGroup r (capitalise t.toList) = some (basicGroup (fbSize k)) ∧
      sizeOfName (capitalise t.toList) = fbSize k := by
  have h : ∀ p ∈ schemaScalars, p.2 ≠ "uint8" → p.2 ≠ "float" →
      ((nameToType p.2.toList).map (fun t => (typeToGroup t, typeToSize t))
          = some (basicGroup (fbSize p.1), fbSize p.1)) ∧
      (nameToType (capitalise p.2.toList)).map (fun t => (typeToGroup t, typeToSize t))
          = some (basicGroup (fbSize p.1), fbSize p.1) := by decide
  have key : ∀ (s : Name) (g n : Nat), (nameToType s).map (fun t => (typeToGroup t, typeToSize t)) = some (g, n) →
      getTypeGroup r s = some g ∧ sizeOfName s = n := by
    intro s g n hs
    cases hn : nameToType s with
    | none => simp [hn] at hs
    | some t =>
      simp only [hn, Option.map_some, Option.some.injEq, Prod.mk.injEq] at hs
      simp [getTypeGroup, sizeOfName, hn, hs.1, hs.2]
  intro k t hm h1 h2
  obtain ⟨ha, hb⟩ := h (k, t) hm h1 h2
  exact ⟨key _ _ _ ha, key _ _ _ hb⟩

/-- C30 fails: the schema types `byte`, `ubyte`, `uint8` (all parsed to "uint8") and `float` are
classified as tables and have size 0. -/
theorem scalar_classified_fails :
    ("ubyte", "uint8") ∈ schemaScalars ∧ ("float", "float") ∈ schemaScalars ∧
    getTypeGroup {} "uint8".toList = some ftTable ∧ sizeOfName "uint8".toList = 0 ∧
    getTypeGroup {} "Uint8".toList = some ftTable ∧
    getTypeGroup {} "float".toList = some ftTable ∧ sizeOfName "float".toList = 0 := by decide

example : getTypeGroup {} "int64".toList = some ftBasic8 ∧ sizeOfName "Int16".toList = 2 := by decide

/-- C31 (partial): a name that is not a builtin, has at least two characters, is not a list type and whose
rest after two characters is not a builtin name is classified as union, struct or table as registered,
without panic.  Missing: names such as "MyByte" and one-letter names, see `user_type_fails`. -/
theorem user_type_partial (r : Reg) (s : Name) (h1 : nameToType s = none) (h2 : 2 ≤ s.length)
    (h3 : s.take 2 ≠ "[]".toList) (h4 : nameToType (s.drop 2) = none) :
    getTypeGroup r s = some (if (r.unions s).isSome then ftUnion else if r.isStruct s then ftStruct else ftTable) := by
  unfold getTypeGroup
  rw [h1]
  have h5 : s.take 6 ≠ "[]byte".toList := by
    intro h
    apply h3
    have : (s.take 6).take 2 = "[]byte".toList.take 2 := by rw [h]
    rw [List.take_take] at this
    simpa using this
  simp only [h4]
  by_cases hu : (r.unions s).isSome = true
  · rw [if_pos hu, if_pos hu]
  · rw [if_neg hu, if_neg hu, if_neg h5, if_neg h3, if_neg (by omega)]
    by_cases hs : r.isStruct s = true
    · rw [if_pos hs, if_pos hs]; rfl
    · rw [if_neg hs, if_neg hs]; rfl

/-- C31: list types `[]T` of a user type `T` keep the list bit and are tables or (when the *list* name is
registered) structs; lists of builtins are basic lists. -/
theorem list_type_group (r : Reg) (t : Name) (h1 : nameToType ('[' :: ']' :: t) = none)
    (hu : r.unions ('[' :: ']' :: t) = none) (hb : t.take 4 ≠ "byte".toList) :
    getTypeGroup r ('[' :: ']' :: t) =
      some (match nameToType t with
        | some ty => ftSlice ||| typeToGroup ty
        | none => if r.isStruct ('[' :: ']' :: t) then ftSlice ||| ftStruct else ftSlice ||| ftTable) := by
  unfold getTypeGroup
  rw [h1, hu]
  have h6 : List.take 6 ('[' :: ']' :: t) ≠ "[]byte".toList := by
    intro h
    apply hb
    simp only [List.take_succ_cons] at h
    have h' : '[' :: ']' :: List.take 4 t = '[' :: ']' :: "byte".toList := h
    injection h' with _ h'
    injection h'
  simp only [Option.isSome_none, Bool.false_eq_true, if_false]
  rw [if_neg h6, if_neg (by simp)]
  have h7 : List.take 2 ('[' :: ']' :: t) = "[]".toList := rfl
  rw [if_pos h7]
  simp only [List.drop_succ_cons, List.drop_zero]
  cases nameToType t with
  | some ty => rfl
  | none => simp only []; split <;> rfl

/-- C31 fails: the user type "MyByte" is classified as a basic type even if registered as a struct, and a
one-letter type name panics. -/
theorem user_type_fails :
    getTypeGroup (Reg.setStruct {} "MyByte".toList) "MyByte".toList = some ftBasic1 ∧
    getTypeGroup (Reg.setStruct {} "A".toList) "A".toList = none := by decide

example : getTypeGroup (Reg.setAlias {} "Index".toList "Hoge".toList) "Index".toList = some ftUnion ∧
    getTypeGroup (Reg.setStruct {} "Vec".toList) "Vec".toList = some ftStruct ∧
    getTypeGroup {} "Root".toList = some ftTable := by decide

/-! ## C32 interning -/

/-- Invariant of the symbol table. -/
structure SymInv (t : Symbols) : Prop where
  nodup : t.names.Nodup
  idx_iff : ∀ s i, t.idx s = some i ↔ t.names[i]? = some s

theorem indexOf_append_new (l : List Name) (s : Name) (h : s ∉ l) :
    indexOf (fun x => decide (x = s)) (l ++ [s]) = some l.length := by
  induction l with
  | nil => simp [indexOf]
  | cons a l ih =>
    have ha : a ≠ s := fun e => h (by simp [e])
    have hl : s ∉ l := fun e => h (by simp [e])
    simp [indexOf, ha, ih hl]

theorem add_inv (t : Symbols) (s : Name) (h : SymInv t) : SymInv (t.add s) := by
  unfold Symbols.add
  cases hi : t.idx s with
  | some i => exact h
  | none =>
    have hs : s ∉ t.names := by
      intro hm
      obtain ⟨i, hi'⟩ := List.mem_iff_getElem?.mp hm
      rw [(h.idx_iff s i).mpr hi'] at hi; simp at hi
    simp only [indexOf_append_new _ _ hs]
    refine ⟨?_, ?_⟩
    · rw [List.nodup_append]
      refine ⟨h.nodup, by simp, ?_⟩
      intro a ha b hb e
      simp only [List.mem_singleton] at hb
      exact hs (hb ▸ e ▸ ha)
    · intro m i
      by_cases hm : m = s
      · subst hm
        simp only [if_true, Option.some.injEq]
        constructor
        · rintro rfl; simp
        · intro hx
          by_cases hlt : i < t.names.length
          · rw [List.getElem?_append_left hlt] at hx
            exact absurd (List.mem_of_getElem? hx) hs
          · have := (List.getElem?_eq_some_iff.mp hx).1
            simp only [List.length_append, List.length_singleton] at this
            omega
      · simp only [if_neg hm, h.idx_iff]
        constructor
        · intro hx
          rw [List.getElem?_append_left (List.getElem?_eq_some_iff.mp hx).1]; exact hx
        · intro hx
          by_cases hlt : i < t.names.length
          · rw [List.getElem?_append_left hlt] at hx; exact hx
          · rw [List.getElem?_append_right (by omega)] at hx
            have : i - t.names.length = 0 := by
              have := (List.getElem?_eq_some_iff.mp hx).1; simp at this; omega
            rw [this] at hx; simp at hx; exact absurd hx.symm hm

/-- The table after registering `l` in order, starting from the empty table. -/
def registered (l : List Name) : Symbols := l.foldl Symbols.add {}

theorem registered_inv (l : List Name) : SymInv (registered l) := by
  have : ∀ t, SymInv t → SymInv (l.foldl Symbols.add t) := by
    induction l with
    | nil => intro t h; exact h
    | cons s l ih => intro t h; exact ih _ (add_inv t s h)
  exact this _ ⟨List.nodup_nil, by simp⟩

theorem add_registered (t : Symbols) (s : Name) (h : SymInv t) : ∃ i, (t.add s).idx s = some i := by
  unfold Symbols.add
  cases hi : t.idx s with
  | some i => exact ⟨i, hi⟩
  | none =>
    have hs : s ∉ t.names := by
      intro hm
      obtain ⟨i, hi'⟩ := List.mem_iff_getElem?.mp hm
      rw [(h.idx_iff s i).mpr hi'] at hi; simp at hi
    simp only [indexOf_append_new _ _ hs]
    exact ⟨t.names.length, by simp⟩

theorem add_keeps (t : Symbols) (s m : Name) (i : Nat) (h : t.idx m = some i) : (t.add s).idx m = some i := by
  unfold Symbols.add
  cases hi : t.idx s with
  | some j => exact h
  | none =>
    have hm : m ≠ s := fun e => by rw [e, hi] at h; simp at h
    simp only []
    split
    · exact h
    · simp [hm, h]

/-- C32: after any sequence of registrations, a registered name has a symbol, the symbol decodes to the
name, distinct names have distinct symbols, every symbol in range is the symbol of a registered name. -/
theorem interning (l : List Name) :
    (∀ s ∈ l, ∃ i : Nat, (registered l).symbol s = i ∧ i < (registered l).names.length ∧
        (registered l).toStr i = s) ∧
    (∀ s s' : Name, s ∈ l → s' ∈ l → (registered l).symbol s = (registered l).symbol s' → s = s') ∧
    (∀ i, i < (registered l).names.length →
        (registered l).symbol ((registered l).toStr i) = i) ∧
    (∀ s : Name, s ∉ l → (registered l).symbol s = -1) := by
  have hinv := registered_inv l
  have hreg : ∀ s ∈ l, ∃ i, (registered l).idx s = some i := by
    have : ∀ t, SymInv t → ∀ s, (s ∈ l ∨ ∃ i, t.idx s = some i) → ∃ i, (l.foldl Symbols.add t).idx s = some i := by
      induction l with
      | nil => intro t _ s h; simpa using h
      | cons a l ih =>
        intro t ht s h
        simp only [List.foldl_cons]
        apply ih (registered_inv l) _ (add_inv t a ht)
        rcases h with h | ⟨i, h⟩
        · rcases List.mem_cons.mp h with h | h
          · subst h; exact Or.inr (add_registered t s ht)
          · exact Or.inl h
        · exact Or.inr ⟨i, add_keeps t a s i h⟩
    intro s hs
    exact this _ ⟨List.nodup_nil, by simp⟩ s (Or.inl hs)
  have hnot : ∀ s : Name, s ∉ l → (registered l).idx s = none := by
    have : ∀ (t : Symbols) (s : Name), s ∉ l → t.idx s = none → (l.foldl Symbols.add t).idx s = none := by
      clear hinv hreg
      induction l with
      | nil => intro t s _ h; exact h
      | cons a l ih =>
        intro t s hs h
        simp only [List.foldl_cons]
        apply ih _ _ (fun e => hs (by simp [e]))
        have ha : s ≠ a := fun e => hs (by simp [e])
        unfold Symbols.add
        cases t.idx a with
        | some j => exact h
        | none =>
          simp only []
          split
          · exact h
          · simp [ha, h]
    intro s hs
    exact this _ _ hs rfl
  have hdec : ∀ s i, (registered l).idx s = some i → i < (registered l).names.length ∧ (registered l).toStr i = s := by
    intro s i h
    have h' := (hinv.idx_iff s i).mp h
    have hlt := (List.getElem?_eq_some_iff.mp h').1
    refine ⟨hlt, ?_⟩
    unfold Symbols.toStr
    rw [if_neg (by omega), h']; rfl
  refine ⟨?_, ?_, ?_, ?_⟩
  · intro s hs
    obtain ⟨i, hi⟩ := hreg s hs
    exact ⟨i, by simp [Symbols.symbol, hi], hdec s i hi⟩
  · intro s s' hs hs' he
    obtain ⟨i, hi⟩ := hreg s hs
    obtain ⟨j, hj⟩ := hreg s' hs'
    simp only [Symbols.symbol, hi, hj, Int.natCast_inj] at he
    subst he
    rw [← (hdec s i hi).2, ← (hdec s' i hj).2]
  · intro i hi
    have hx : (registered l).names[i]? = some ((registered l).toStr i) := by
      unfold Symbols.toStr
      rw [if_neg (by omega), List.getElem?_eq_getElem hi]; rfl
    simp [Symbols.symbol, (hinv.idx_iff _ i).mpr hx]
  · intro s hs; simp [Symbols.symbol, hnot s hs]

/-- C32: registering again is a no-op, and registering further names changes no existing symbol. -/
theorem interning_stable (l m : List Name) (s : Name) (hs : s ∈ l) :
    (registered l).add s = registered l ∧
    (registered (l ++ m)).symbol s = (registered l).symbol s := by
  obtain ⟨i, hi, -, -⟩ := (interning l).1 s hs
  have hi' : (registered l).idx s = some i := by
    unfold Symbols.symbol at hi
    cases h : (registered l).idx s with
    | none => rw [h] at hi; simp at hi
    | some j =>
      rw [h] at hi
      have : j = i := by simp only at hi; omega
      rw [this]
  refine ⟨by unfold Symbols.add; rw [hi'], ?_⟩
  have : ∀ (t : Symbols), t.idx s = some i → (m.foldl Symbols.add t).idx s = some i := by
    induction m with
    | nil => intro t h; exact h
    | cons a m ih => intro t h; exact ih _ (add_keeps t a s i h)
  have h2 := this _ hi'
  have h3 : (registered (l ++ m)).idx s = some i := by
    unfold registered at h2 ⊢; rw [List.foldl_append]; exact h2
  simp [Symbols.symbol, h3, hi']

example : (registered ["Root".toList, "version".toList, "Root".toList]).symbol "version".toList = 1 ∧
    (registered ["Root".toList, "version".toList, "Root".toList]).names.length = 2 := by decide

/-! ## C33 field symbols -/

/-- C33 (partial): as long as fewer than 65536 names are registered, encoding then decoding a pair of
registered non-empty names gives the pair back.  Missing: unregistered names are not refused, see
`nodeFieldSymbol_fails`; more than 65536 names wrap around, see `nodeFieldSymbol_wraps_fails`. -/
theorem nodeFieldSymbol_round_trip_partial (l : List Name) (node field : Name) (hn : node ∈ l) (hf : field ∈ l)
    (hn0 : node ≠ []) (hf0 : field ≠ []) (hlen : (registered l).names.length ≤ 65536) :
    (registered l).toNames ((registered l).nodeFieldSymbol node field) = some (node, field) := by
  obtain ⟨i, hi, hil, his⟩ := (interning l).1 node hn
  obtain ⟨j, hj, hjl, hjs⟩ := (interning l).1 field hf
  have hu : (registered l).nodeFieldSymbol node field = i * 65536 + j := by
    unfold Symbols.nodeFieldSymbol u32
    rw [hi, hj]; omega
  rw [hu]
  unfold Symbols.toNames
  have h1 : (i * 65536 + j) / 65536 = i := by omega
  have h2 : i * 65536 + j - i * 65536 = j := by omega
  rw [h1]
  simp only [h2, his, hjs]
  rw [if_neg hn0, if_neg hf0]

/-- C33: two symbols of registered pairs are in the same table (same field) exactly when the table names
(field names) are equal. -/
theorem isSameTable_iff (l : List Name) (n f n' f' : Name) (hn : n ∈ l) (hf : f ∈ l) (hn' : n' ∈ l) (hf' : f' ∈ l)
    (hlen : (registered l).names.length ≤ 65536) :
    (isSameTable ((registered l).nodeFieldSymbol n f) ((registered l).nodeFieldSymbol n' f') = true ↔ n = n') ∧
    (isSameField ((registered l).nodeFieldSymbol n f) ((registered l).nodeFieldSymbol n' f') = true ↔ f = f') := by
  obtain ⟨i, hi, hil, -⟩ := (interning l).1 n hn
  obtain ⟨j, hj, hjl, -⟩ := (interning l).1 f hf
  obtain ⟨i', hi', hil', -⟩ := (interning l).1 n' hn'
  obtain ⟨j', hj', hjl', -⟩ := (interning l).1 f' hf'
  have hu : (registered l).nodeFieldSymbol n f = i * 65536 + j := by
    unfold Symbols.nodeFieldSymbol u32; rw [hi, hj]; omega
  have hu' : (registered l).nodeFieldSymbol n' f' = i' * 65536 + j' := by
    unfold Symbols.nodeFieldSymbol u32; rw [hi', hj']; omega
  have e1 : n = n' ↔ i = i' := by
    constructor
    · rintro rfl; rw [hi] at hi'; exact Int.natCast_inj.mp hi'
    · rintro rfl; exact (interning l).2.1 n n' hn hn' (by rw [hi, hi'])
  have e2 : f = f' ↔ j = j' := by
    constructor
    · rintro rfl; rw [hj] at hj'; exact Int.natCast_inj.mp hj'
    · rintro rfl; exact (interning l).2.1 f f' hf hf' (by rw [hj, hj'])
  rw [hu, hu', e1, e2]
  unfold isSameTable isSameField
  rw [decide_eq_true_eq, decide_eq_true_eq]
  omega

/-- C33 fails: a pair with an unregistered table name is encoded without error; the number it gets is in
the same "table" as any other unregistered name. -/
theorem nodeFieldSymbol_fails :
    (registered ["a".toList]).symbol "b".toList = -1 ∧
    (registered ["a".toList]).nodeFieldSymbol "b".toList "a".toList = 4294901760 ∧
    isSameTable ((registered ["a".toList]).nodeFieldSymbol "b".toList "a".toList)
      ((registered ["a".toList]).nodeFieldSymbol "c".toList "a".toList) = true := by decide

/-- Registering distinct names lists them in order. -/
theorem registered_names (l : List Name) (h : l.Nodup) : (registered l).names = l := by
  have : ∀ t : Symbols, SymInv t → (t.names ++ l).Nodup → (l.foldl Symbols.add t).names = t.names ++ l := by
    induction l with
    | nil => intro t _ _; simp
    | cons a l ih =>
      intro t ht hnd
      have ha : a ∉ t.names := by
        intro hm
        rw [List.nodup_append] at hnd
        exact hnd.2.2 a hm a (by simp) rfl
      have hadd : (t.add a).names = t.names ++ [a] := by
        unfold Symbols.add
        cases hi : t.idx a with
        | some i => exact absurd (List.mem_of_getElem? ((ht.idx_iff a i).mp hi)) ha
        | none => simp only [indexOf_append_new _ _ ha]
      simp only [List.foldl_cons]
      rw [ih (List.nodup_cons.mp h).2 _ (add_inv t a ht) (by rw [hadd]; simpa using hnd), hadd]
      simp
  have := this {} ⟨List.nodup_nil, by simp⟩ (by simpa using h)
  simpa [registered] using this

/-- Any number of names can be registered, getting the symbols 0, 1, 2, ... -/
theorem many_names (N : Nat) : ∃ (l : List Name) (g : Nat → Name), (∀ a b, g a = g b → a = b) ∧
    (∀ k, k < N → g k ∈ l) ∧ ∀ k, k < N → (registered l).idx (g k) = some k := by
  let g : Nat → Name := fun k => List.replicate (k + 1) 'a'
  have hg : ∀ a b, g a = g b → a = b := fun a b e => by
    have := congrArg List.length e
    simp only [g, List.length_replicate] at this; omega
  let l := (List.range N).map g
  have hnd : l.Nodup := by
    apply List.Pairwise.map (R := (· ≠ ·)) g (fun a b hab e => hab (hg a b e))
    exact List.nodup_range
  have hnames := registered_names l hnd
  refine ⟨l, g, hg, fun k hk => List.mem_map.mpr ⟨k, List.mem_range.mpr hk, rfl⟩, ?_⟩
  intro k hk
  rw [(registered_inv l).idx_iff, hnames]
  simp only [l, List.getElem?_map, List.getElem?_range hk, Option.map_some]

/-- C33 fails: with 65537 registered names, two different tables get the same field symbol. -/
theorem nodeFieldSymbol_wraps_fails : ∃ (l : List Name) (n n' f : Name), n ∈ l ∧ n' ∈ l ∧ f ∈ l ∧ n ≠ n' ∧
    (registered l).nodeFieldSymbol n f = (registered l).nodeFieldSymbol n' f := by
  obtain ⟨l, g, hg, hmem, hidx⟩ := many_names 65537
  refine ⟨l, g 0, g 65536, g 0, hmem 0 (by omega), hmem _ (by omega), hmem 0 (by omega), ?_, ?_⟩
  · intro e; exact absurd (hg _ _ e) (by omega)
  · unfold Symbols.nodeFieldSymbol Symbols.symbol
    rw [hidx 0 (by omega), hidx 65536 (by omega)]
    rfl

example : (registered ["Root".toList, "version".toList]).toNames
    ((registered ["Root".toList, "version".toList]).nodeFieldSymbol "Root".toList "version".toList)
    = some ("Root".toList, "version".toList) := by decide

/-! ## C79 union aliases -/

/-- Run `SetAlias(union, alias)` calls. -/
def runAliases : Reg → List (Name × Name) → Reg
  | r, [] => r
  | r, (u, a) :: l => runAliases (r.setAlias u a) l

/-- C79: after any sequence of `SetAlias` calls, the aliases of every union are the ones it had before,
followed by the ones registered for it, in the order of the calls (so the number of a member in the union's
type field is its position among the calls); a name is a union name exactly if it was one or some call
registered it; calls for other unions do not matter. -/
theorem aliases_in_order (r : Reg) (calls : List (Name × Name)) (u : Name) :
    ((runAliases r calls).unions u).getD [] = (r.unions u).getD [] ++ (calls.filter fun c => c.1 = u).map Prod.snd ∧
    (((runAliases r calls).unions u).isSome = true ↔ (r.unions u).isSome = true ∨ ∃ c ∈ calls, c.1 = u) ∧
    (runAliases r calls).isStruct = r.isStruct := by
  induction calls generalizing r with
  | nil => simp [runAliases]
  | cons c calls ih =>
    obtain ⟨v, a⟩ := c
    obtain ⟨h1, h2, h3⟩ := ih (r.setAlias v a)
    simp only [runAliases]
    refine ⟨?_, ?_, h3⟩
    · rw [h1]
      unfold Reg.setAlias
      by_cases hv : u = v
      · subst hv; simp
      · have hv' : ¬ v = u := fun h => hv h.symm
        simp [hv, hv']
    · rw [h2]
      unfold Reg.setAlias
      by_cases hv : u = v
      · subst hv; simp
      · have hv' : ¬ v = u := fun h => hv h.symm
        simp [hv, hv']

example : ((runAliases {} [("U".toList, "A".toList), ("V".toList, "X".toList), ("U".toList, "B".toList)]).unions "U".toList) =
    some ["A".toList, "B".toList] := by decide

end Fbs.Props
