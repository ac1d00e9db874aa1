import Verif.TypedSet
import Verif.Props.TableNest
/-!
# C83: the typed setters
-/

namespace Fbs.Props
open Fbs CNode

/-- The twelve setters of common.go 425-603: the type name each one insists on and the bytes it writes. -/
def setters : List (Name × Nat) :=
  [("Bool".toList, 1), ("Byte".toList, 1), ("Int8".toList, 1), ("Int16".toList, 2), ("Int32".toList, 4), ("Int64".toList, 8),
   ("Uint8".toList, 1), ("Uint16".toList, 2), ("Uint32".toList, 4), ("Uint64".toList, 8), ("Float32".toList, 4), ("Float64".toList, 8)]

/-- C83: every setter except that of `uint8` writes as many bytes as a field of its type has. -/
theorem typed_setters : ∀ p ∈ setters, p.1 ≠ "Uint8".toList → sizeOfName p.1 = p.2 := by decide

example : ("Int64".toList, 8) ∈ setters ∧ ("Int64".toList : Name) ≠ "Uint8".toList := by decide

/-- C83: a setter on a scalar handle of its type writes the value, whatever the buffer is: the handle reads the
value, the bytes of the scalar are those of the value and every other byte of the buffer is as before. -/
theorem typed_set (nm : Name) (k : Nat) (hk : 0 < k) (c : CNode) (v : Nat) (hn : c.name = nm) (hsz : c.size = k) :
    ∃ c', c.setTyped nm k v = some (c', none) ∧ c'.name = c.name ∧ c'.pos = c.pos ∧ c'.size = c.size ∧
      scalar k (some c') = some (v % 256 ^ k) ∧
      (∀ x, c'.io.content x = if c.pos ≤ x ∧ x < c.pos + k then (putLE k v)[x - c.pos]? else c.io.content x) ∧
      c'.io.lenBuf = max c.io.lenBuf (c.pos + k) := by
  refine ⟨{ c with io := c.io.updateU c.pos c.size.toNat (putLE k v) }, ?_, rfl, rfl, rfl, ?_, ?_, ?_⟩
  · unfold CNode.setTyped
    rw [if_neg (by simp [hn]), if_neg (by omega), if_neg (by omega)]
  · simp only [hsz, Int.toNat_natCast, CNode.scalar]
    unfold Base.getN Base.Ri
    rw [if_neg (by omega)]
    simp only [Option.bind_eq_bind, Option.bind_some, Int.toNat_natCast]
    have hne : putLE k v ≠ [] := by intro h0; have := putLE_length k v; rw [h0] at this; simp at this; omega
    have h1 := updateU_R c.io c.pos (putLE k v) k hne
    rw [putLE_length] at h1
    rw [h1]
    unfold getLE
    rw [if_pos (by rw [putLE_length]; omega), List.take_of_length_le (by rw [putLE_length]; omega), leVal_putLE]
  · intro x
    simp only [hsz, Int.toNat_natCast]
    rw [updateU_content _ _ _ _ (putLE_length k v), put_apply, putLE_length]
  · simp only [hsz, Int.toNat_natCast]
    exact updateU_lenBuf _ _ _ _ (by rw [putLE_length]; omega)

/-- C83: on a handle of another type, or one without a size (an absent scalar, an element of a list), the
setter returns the error and changes nothing. -/
theorem typed_refused (nm : Name) (k : Nat) (c : CNode) (v : Nat) (h : c.name ≠ nm ∨ c.size ≤ 0) :
    c.setTyped nm k v = some (c, some .invalidType) := by
  unfold CNode.setTyped
  by_cases hn : c.name = nm
  · rw [if_neg (by simp [hn]), if_pos (by rcases h with h | h; exact absurd hn h; exact h)]
  · rw [if_pos hn]

/-- C83: a setter on a handle of its type whose bytes are fewer than the value has panics, nothing is written. -/
theorem typed_short (nm : Name) (k : Nat) (c : CNode) (v : Nat) (hn : c.name = nm) (h0 : 0 < c.size) (hk : c.size < k) :
    c.setTyped nm k v = none := by
  unfold CNode.setTyped
  rw [if_neg (by simp [hn]), if_neg (by omega), if_pos hk]

example : setTyped "Int16".toList 2 { name := "Int16".toList, io := Base.new ⟨[1, 2], []⟩, pos := 1, size := 1 } 7 = none :=
  typed_short _ _ _ _ rfl (by decide) (by decide)

/-! ## programs of settings and typed setters -/

/-- A step of a program on a table: `SetFieldAt` or a typed setter on the handle of a field. -/
inductive Step where
  | set (o : Setting)
  | typed (nm : Name) (k i v : Nat)

/-- Running a step (`none`: a panic or an error). -/
def Step.run (s : Sch) (fuel : Nat) (c : CNode) : Step → Option CNode
  | .set o => do
    let (c, e) ← c.setFieldAt s fuel o.field o.node
    if e.isSome then none else some c
  | .typed nm k i v => do
    let nd ← c.fieldAt s i
    let nd ← nd
    let (nd, e) ← nd.setTyped nm k v
    if e.isSome then none else some { c with io := nd.io }

def runSteps (s : Sch) (fuel : Nat) : CNode → List Step → Option CNode
  | c, [] => some c
  | c, st :: l => (st.run s fuel c).bind (fun c => runSteps s fuel c l)

/-- Specification: the values of the fields after a step. -/
def Step.spec (cur : Nat → Option Bytes) : Step → Nat → Option Bytes
  | .set o, j => if j = o.field then some o.val else cur j
  | .typed _ k i v, j => if j = i then some (putLE k v) else cur j

/-- The step fits the schema, and a typed setter is used on a field that is present. -/
def Step.Fits (s : Sch) (t : Name) (cur : Nat → Option Bytes) : Step → Prop
  | .set o => InlSrc s t o.field o.node o.val
  | .typed nm k i _ => cur i ≠ none ∧ ∃ fd, (s.fields t)[i]? = some fd ∧ fd.tname = nm ∧ fd.grp ≠ ftStruct ∧ fd.size = k

def FitsAll (s : Sch) (t : Name) : (Nat → Option Bytes) → List Step → Prop
  | _, [] => True
  | cur, st :: l => st.Fits s t cur ∧ FitsAll s t (st.spec cur) l

def specAll (cur : Nat → Option Bytes) : List Step → Nat → Option Bytes
  | [] => cur
  | st :: l => specAll (st.spec cur) l

theorem steps_rep {s : Sch} {nm : Name} (hs : SchOk s nm) (fuel : Nat) (l : List Step) :
    ∀ {c : CNode} {cur : Nat → Option Bytes}, Rep s nm c cur none →
      (∀ j fd, (s.fields nm)[j]? = some fd → cur j ≠ none → InlGrp fd.grp) → FitsAll s nm cur l →
      ∃ c', runSteps s (fuel + 1) c l = some c' ∧ Rep s nm c' (specAll cur l) none ∧
        (∀ j fd, (s.fields nm)[j]? = some fd → specAll cur l j ≠ none → InlGrp fd.grp) := by
  induction l with
  | nil => intro c cur h hg _; exact ⟨c, rfl, h, hg⟩
  | cons st l ih =>
    rintro c cur h hg ⟨hf, hl⟩
    have key : ∃ c1, st.run s (fuel + 1) c = some c1 ∧ Rep s nm c1 (st.spec cur) none ∧
        (∀ j fd, (s.fields nm)[j]? = some fd → st.spec cur j ≠ none → InlGrp fd.grp) := by
      cases st with
      | set o =>
        obtain ⟨c1, h1, h2⟩ := set_inline hs (fuel := fuel) h hf
        refine ⟨c1, ?_, h2, ?_⟩
        · simp only [Step.run]
          rw [h1]; rfl
        · intro j fd hj hne
          simp only [Step.spec] at hne
          by_cases hji : j = o.field
          · obtain ⟨fd', hfd', hg', -⟩ := hf
            rw [← hji, hj] at hfd'; cases hfd'; exact hg'
          · rw [if_neg hji] at hne; exact hg j fd hj hne
      | typed sn k i v =>
        obtain ⟨hp, fd, hfd, htn, hst, hsz⟩ := hf
        have hgi := hg i fd hfd hp
        obtain ⟨w, hw⟩ := Option.ne_none_iff_exists'.mp hp
        obtain ⟨t, vo, fx, hT, hV, hI, hN, hB, hW, ht, hCel, hz⟩ := h.ex
        have hwl : w.length = k := by
          have := hW i fd w hfd (by rw [hI i fd hfd hgi, hw])
          rw [this]; unfold fieldWidth
          rw [if_neg hst, if_neg (inlGrp_notVec hgi), hsz]
        have hk : 0 < k := by
          have := (hT.fld i (List.getElem?_eq_some_iff.mp hfd).1 w (by rw [hI i fd hfd hgi, hw])).2.2.1
          have := List.length_pos_iff.mpr this
          omega
        obtain ⟨p, h1, h2, h3⟩ := rep_update (w' := putLE k v) h hs hfd hgi hst hw (by rw [putLE_length, hwl])
        refine ⟨_, ?_, h3, ?_⟩
        · simp only [Step.run]
          rw [h1]
          simp only [Option.bind_eq_bind, Option.bind_some, CNode.setTyped, htn, ne_eq, not_true, if_false, hsz]
          rw [if_neg (by omega), if_neg (by omega)]
          simp only [Option.bind_some, Int.toNat_natCast, putLE_length]
          rfl
        · intro j fj hj hne
          simp only [Step.spec] at hne
          by_cases hji : j = i
          · subst hji; rw [hj] at hfd; cases hfd; exact hgi
          · rw [if_neg hji] at hne; exact hg j fj hj hne
    obtain ⟨c1, h1, h2, h3⟩ := key
    obtain ⟨c', h4, h5⟩ := ih h2 h3 hl
    exact ⟨c', by unfold runSteps; rw [h1]; exact h4, h5⟩

/-- C83 on tables: `Init` followed by any program of settings of scalars and structs and of typed setters on
present fields succeeds, and every field reads the value last written to it. -/
theorem typed_program (s : Sch) (nm : Name) (hs : SmallTable s nm) (fuel : Nat) (l : List Step)
    (hl : FitsAll s nm (fun _ => none) l) :
    ∃ c0 c, build s (fuel + 1) nm [] = some c0 ∧ runSteps s (fuel + 1) c0 l = some c ∧
      FieldsRead s nm c (specAll (fun _ => none) l) := by
  obtain ⟨g, hg, hgs⟩ := hs.notList
  obtain ⟨c0, h0, r0⟩ := init_rep hs.ok hg hgs
  obtain ⟨c, h1, h2, h3⟩ := steps_rep hs.ok fuel l r0 (by intro j fd _ h; exact absurd rfl h) hl
  refine ⟨c0, c, by unfold build; rw [h0]; rfl, h1, fun i hi => rep_read hs.ok h2 hi rfl (fun hne => h3 i _ (List.getElem?_eq_getElem hi) hne)⟩

/-- C83 is violated for `uint8`: the table of scalar types spells it "Unt8", so a field of type "Uint8" has size
0 and its setter refuses a handle of the right type. -/
theorem typed_uint8_fails :
    sizeOfName "Uint8".toList = 0 ∧
    setTyped "Uint8".toList 1 { name := "Uint8".toList, io := Base.new ⟨[1, 2], []⟩, pos := 1, size := (sizeOfName "Uint8".toList : Int) } 7 =
      some ({ name := "Uint8".toList, io := Base.new ⟨[1, 2], []⟩, pos := 1, size := 0 }, some .invalidType) := by
  constructor
  · decide
  · rfl

/-- C83 is violated for list elements: `At` returns handles without a size, so no setter accepts them. -/
theorem typed_element_fails (s : Sch) (c e : CNode) (i : Int) (g : Nat) (hg : getTypeGroup s.toReg (c.name.drop 2) = some g)
    (hb : (isFieldBasicType g || isFieldStruct g) = true) (h : c.at_ s i = some (.ok e)) (k v : Nat) :
    e.setTyped e.name k v = some (e, some .invalidType) := by
  refine typed_refused _ _ _ _ (Or.inr ?_)
  unfold CNode.at_ at h
  cases hl : c.isList with
  | none => rw [hl] at h; cases h
  | some b =>
    rw [hl] at h
    cases b with
    | false => cases h
    | true =>
      simp only [Option.bind_eq_bind, Option.bind_some, Bool.not_true, Bool.false_eq_true, if_false] at h
      cases hn : c.listLen with
      | none => rw [hn] at h; cases h
      | some n =>
        rw [hn] at h
        simp only [Option.bind_some] at h
        split at h
        · cases h
        · split at h
          · cases h
          · rw [hg] at h
            simp only [Option.bind_some, hb, if_true] at h
            cases hd : directSize s (c.name.drop 2) with
            | none => rw [hd] at h; cases h
            | some d =>
              rw [hd] at h
              simp only [Option.bind_some] at h
              cases d with
              | none => cases h
              | some d =>
                simp only [Option.bind_some] at h
                generalize hp : (if i > 0 then c.vi.pos + i * d else c.vi.pos + i * 4) = ptr at h
                by_cases hneg : ptr < 0
                · rw [if_pos hneg] at h; cases h
                · rw [if_neg hneg] at h
                  cases h
                  simp

-- the hypotheses can be met
example : ∃ c0 c, build editSch 3 "TT".toList [] = some c0 ∧
    runSteps editSch 3 c0 [.set ⟨2, fromScalar "Int16".toList 2 7, putLE 2 7⟩, .typed "Int16".toList 2 2 9] = some c ∧
    FieldsRead editSch "TT".toList c
      (specAll (fun _ => none) [.set ⟨2, fromScalar "Int16".toList 2 7, putLE 2 7⟩, .typed "Int16".toList 2 2 9]) :=
  typed_program editSch _ editSch_ok 2 _ ⟨fromScalar_src _ _ 2 2 7 ⟨"Int16".toList, ftBasic2, some .int16⟩ (by decide) rfl (by decide) rfl,
    ⟨by simp [Step.spec], ⟨"Int16".toList, ftBasic2, some .int16⟩, rfl, rfl, by decide, rfl⟩, trivial⟩

example : (specAll (fun _ => none) [.set ⟨2, fromScalar "Int16".toList 2 7, putLE 2 7⟩, .typed "Int16".toList 2 2 9]) 2 = some [9, 0] := rfl

end Fbs.Props
