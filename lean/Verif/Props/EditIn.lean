import Verif.EditIn
/-!
# Editing opened messages (C97; common.go 857-1117)
-/
namespace Fbs.Props
open Fbs CNode

/-- One session: open the bytes, set fields of the root, save. -/
def session (s : Sch) (fuel : Nat) (nm : Name) (d : Bytes) (o : Bytes × List Setting) : Option Bytes :=
  (CNode.openByBuf nm ⟨d, o.1⟩).bind fun r => (runSets s fuel r o.2).bind CNode.finish

/-- Sessions one after the other, each on what the one before it saved. -/
def sessions (s : Sch) (fuel : Nat) (nm : Name) (d : Bytes) (l : List (Bytes × List Setting)) : Option Bytes :=
  l.foldlM (session s fuel nm) d

theorem session_rep {cel : Prop} {s : Sch} {nm : Name} (hs : SchOk s nm) (hroot : s.root = nm) (hp : PlainTable s nm)
    (hfew : 12 + 2 * (s.fields nm).length < 65536) (fuel : Nat) {c : CNode} {cur : Nat → Option Bytes} (h : RepG cel s nm c cur none)
    (sp : Bytes) (ops : List Setting) (hops : ∀ o ∈ ops, InlSrc s nm o.field o.node o.val) :
    ∃ r r' c', CNode.openByBuf nm ⟨header c.pos ++ c.io.flatten.bytes.data, sp⟩ = some r ∧ runSets s (fuel + 4) r ops = some r' ∧
      FieldsRead s nm r' (fun i => (lastSet ops i).or (cur i)) ∧
      r'.finish = some (header c'.pos ++ c'.io.flatten.bytes.data) ∧ RepG False s nm c' (fun i => (lastSet ops i).or (cur i)) none := by
  obtain ⟨c0, h1, -, r0⟩ := open_rep h sp
  obtain ⟨c1, h2, -, r1⟩ := run_in hs hroot hp hfew fuel r0 ops hops
  exact ⟨_, _, c1, h1, h2, fun i hi => read_in hs r1 hi (hp _ (List.getElem_mem hi)).1 _, finish_in hs hroot hp hfew r1, r1⟩

theorem sessions_rep {s : Sch} {nm : Name} (hs : SchOk s nm) (hroot : s.root = nm) (hp : PlainTable s nm)
    (hfew : 12 + 2 * (s.fields nm).length < 65536) (fuel : Nat) (l : List (Bytes × List Setting)) :
    ∀ {cel : Prop} {c : CNode} {cur : Nat → Option Bytes}, RepG cel s nm c cur none →
    (∀ q ∈ l, ∀ o ∈ q.2, InlSrc s nm o.field o.node o.val) →
    ∃ c', sessions s (fuel + 4) nm (header c.pos ++ c.io.flatten.bytes.data) l = some (header c'.pos ++ c'.io.flatten.bytes.data) ∧
      ∃ cel' : Prop, RepG cel' s nm c' (fun i => (lastSet (l.map Prod.snd).flatten i).or (cur i)) none := by
  induction l with
  | nil =>
    intro cel c cur h _
    exact ⟨c, rfl, cel, by simpa [lastSet] using h⟩
  | cons q l ih =>
    intro cel c cur h hq
    obtain ⟨r, r', c1, h1, h2, -, h3, r1⟩ := session_rep hs hroot hp hfew fuel h q.1 q.2 (hq q (by simp))
    obtain ⟨c2, h4, cel', r2⟩ := ih r1 (fun q' hq' => hq q' (by simp [hq']))
    refine ⟨c2, ?_, cel', ?_⟩
    · unfold sessions session at *
      rw [List.foldlM_cons]
      simp only [h1, h2, h3, Option.bind_some, Option.bind_eq_bind]
      exact h4
    · have : (fun i => (lastSet ((q :: l).map Prod.snd).flatten i).or (cur i)) =
          fun i => (lastSet (l.map Prod.snd).flatten i).or ((lastSet q.2 i).or (cur i)) := by
        funext i
        simp only [List.map_cons, List.flatten_cons]
        rw [lastSet_append]
        simp [Option.or_assoc]
      rw [this]
      exact r2

/-- C97 for roots of scalars and structs: a table is built and saved; any number of times the bytes are opened,
fields of the root are set, and the message is saved again.  Nothing fails, and opening the last bytes gives a root
every field of which reads the value last set for it in all of the history, or is absent if none was. -/
theorem edit_sessions_partial (s : Sch) (nm : Name) (hs : SmallTable s nm) (hroot : s.root = nm) (hp : PlainTable s nm)
    (hfew : 12 + 2 * (s.fields nm).length < 65536) (fuel : Nat) (ops : List Setting)
    (hops : ∀ o ∈ ops, InlSrc s nm o.field o.node o.val) (l : List (Bytes × List Setting))
    (hl : ∀ q ∈ l, ∀ o ∈ q.2, InlSrc s nm o.field o.node o.val) (sp : Bytes) :
    ∃ c d d' r, build s (fuel + 4) nm ops = some c ∧ c.finish = some d ∧ sessions s (fuel + 4) nm d l = some d' ∧
      CNode.openByBuf nm ⟨d', sp⟩ = some r ∧ FieldsRead s nm r (lastSet (ops ++ (l.map Prod.snd).flatten)) := by
  obtain ⟨g, hgt, hgs⟩ := hs.notList
  obtain ⟨c0, h0, r0⟩ := init_rep hs.ok hgt hgs
  obtain ⟨c, h1, r1⟩ := inline_run hs.ok (fuel + 3) r0 ops hops
  obtain ⟨c', h2, cel', r2⟩ := sessions_rep hs.ok hroot hp hfew fuel l r1 hl
  obtain ⟨r, r', c'', h3, h4, h5, -⟩ := session_rep hs.ok hroot hp hfew fuel r2 sp [] (fun o ho => by simp at ho)
  simp only [runSets, Option.some.injEq] at h4
  subst h4
  refine ⟨c, _, _, r, by unfold build; rw [h0]; exact h1, finish_eq (rep_inRoot r1), h2, h3, ?_⟩
  have : lastSet (ops ++ (l.map Prod.snd).flatten) = fun i => (lastSet [] i).or ((lastSet (l.map Prod.snd).flatten i).or ((lastSet ops i).or none)) := by
    funext i
    rw [lastSet_append]
    simp [lastSet]
  rw [this]
  exact h5

/-- What is read during a session, before saving. -/
theorem edit_read_partial (s : Sch) (nm : Name) (hs : SmallTable s nm) (hroot : s.root = nm) (hp : PlainTable s nm)
    (hfew : 12 + 2 * (s.fields nm).length < 65536) (fuel : Nat) (ops more : List Setting)
    (hops : ∀ o ∈ ops, InlSrc s nm o.field o.node o.val) (hmore : ∀ o ∈ more, InlSrc s nm o.field o.node o.val) (sp : Bytes) :
    ∃ c d r r', build s (fuel + 4) nm ops = some c ∧ c.finish = some d ∧ CNode.openByBuf nm ⟨d, sp⟩ = some r ∧
      runSets s (fuel + 4) r more = some r' ∧ FieldsRead s nm r' (lastSet (ops ++ more)) := by
  obtain ⟨g, hgt, hgs⟩ := hs.notList
  obtain ⟨c0, h0, r0⟩ := init_rep hs.ok hgt hgs
  obtain ⟨c, h1, r1⟩ := inline_run hs.ok (fuel + 3) r0 ops hops
  obtain ⟨r, r', c'', h3, h4, h5, -⟩ := session_rep hs.ok hroot hp hfew fuel r1 sp more hmore
  refine ⟨c, _, r, r', by unfold build; rw [h0]; exact h1, finish_eq (rep_inRoot r1), h3, h4, ?_⟩
  have : lastSet (ops ++ more) = fun i => (lastSet more i).or ((lastSet ops i).or none) := by
    funext i
    rw [lastSet_append]
    simp
  rw [this]
  exact h5

/-- C97 is violated by every message that lacks a vector: with a vector or string absent from any table of the message, no
space can be inserted anywhere in it. -/
theorem edit_absent_fails (s : Sch) (fuel : Nat) (c r d : CNode) (hin : c.inRoot = some true) (hroot : c.rootCommon s = some r)
    (hr : Reached s r d) (hst : s.isStruct d.name = false) (i : Nat) (hi : i < (s.fields d.name).length)
    (hg : isFieldBytes (d.fieldT s i).grp = true ∨ isFieldSlice (d.fieldT s i).grp = true)
    (hu : isFieldUnion (d.fieldT s i).grp = false) (hs : isFieldStruct (d.fieldT s i).grp = false)
    (ha : d.fieldAt s i = some none) (pos size : Nat) (cr : Bool) : c.insertSpace s fuel pos size cr = none := by
  unfold CNode.insertSpace allTree
  simp only [hin, hroot, walk_absent_fails fuel r d hr hst i hi hg hu hs ha, Option.bind_eq_bind, Option.bind_some, Option.bind_none, if_true]

/-- The same for a setting: setting an absent scalar or struct field of any table of such a message panics. -/
theorem edit_absent_set_fails (s : Sch) (fuel : Nat) (c r d f : CNode) (k : Nat) (hk : k < (s.fields c.name).length)
    (hst0 : s.isStruct c.name = false) (hgk : InlGrp (c.fieldT s k).grp) (hf : f.name = (c.fieldT s k).tname) (hzk : c.isZero k = some true)
    (hin : c.inRoot = some true) (hroot : c.rootCommon s = some r)
    (hr : Reached s r d) (hst : s.isStruct d.name = false) (i : Nat) (hi : i < (s.fields d.name).length)
    (hg : isFieldBytes (d.fieldT s i).grp = true ∨ isFieldSlice (d.fieldT s i).grp = true)
    (hu : isFieldUnion (d.fieldT s i).grp = false) (hs : isFieldStruct (d.fieldT s i).grp = false)
    (ha : d.fieldAt s i = some none) : c.setFieldAt s fuel k f = none := by
  have key : ∀ (tl pos size : Nat) (cr : Bool), ({ c with tlen := tl } : CNode).insertSpace s fuel pos size cr = none :=
    fun tl pos size cr => edit_absent_fails s fuel { c with tlen := tl } r d (by exact hin) (by exact hroot) hr hst i hi hg hu hs ha pos size cr
  have hsame : c.isSameType s k f = true := by
    unfold CNode.isSameType; rw [if_pos hf.symm]
  unfold CNode.setFieldAt
  rw [if_neg (by omega), hsame, hst0]
  simp only
  rw [inlGrp_slice hgk, inlGrp_basic hgk]
  simp only [Bool.not_true, Bool.false_eq_true, if_false, false_and, if_true, Int.toNat_natCast, Option.bind_eq_bind]
  have : c.setScalar s fuel k f = none := by
    unfold CNode.setScalar
    simp only [Option.bind_eq_bind]
    split
    · cases infoF s fuel (some f) with
      | none => rfl
      | some v =>
        simp only [Option.bind_some, pure]
        cases hp : preLoad c.io c.pos with
        | none => rfl
        | some tl =>
          have hz : ({ c with tlen := tl } : CNode).isZero k = some true := hzk
          simp only [Option.bind_some, hz, Bool.not_true, Bool.false_eq_true, if_false]
          split
          · rfl
          · unfold CNode.insertVTable
            cases ht : ({ c with tlen := tl } : CNode).tableLen with
            | none => simp
            | some tl' => simp [key]
    · simp only [Option.bind_some, pure]
      cases hp : preLoad c.io c.pos with
      | none => rfl
      | some tl =>
        have hz : ({ c with tlen := tl } : CNode).isZero k = some true := hzk
        simp only [Option.bind_some, hz, Bool.not_true, Bool.false_eq_true, if_false]
        split
        · rfl
        · unfold CNode.insertVTable
          cases ht : ({ c with tlen := tl } : CNode).tableLen with
          | none => simp
          | some tl' => simp [key]
  rw [this]
  rfl

/-! ## examples -/

/-- Table `TT { a: int32; p: PP; c: int16; }` with the struct `PP`. -/
def rootSch : Sch where
  fields := fun n =>
    if n = "TT".toList then [⟨"Int32".toList, ftBasic4, some .int32⟩, ⟨"PP".toList, ftStruct, none⟩, ⟨"Int16".toList, ftBasic2, some .int16⟩]
    else if n = "PP".toList then [⟨"Int32".toList, ftBasic4, some .int32⟩, ⟨"Int32".toList, ftBasic4, some .int32⟩]
    else []
  isStruct := fun n => n = "PP".toList
  root := "TT".toList

theorem rootSch_ok : SmallTable rootSch "TT".toList where
  notStruct := by decide
  notList := ⟨ftTable, by decide, by decide⟩
  few := by decide
  name := by decide
  small := by decide

theorem rootSch_plain : PlainTable rootSch "TT".toList := by
  intro f hf
  have : f ∈ [(⟨"Int32".toList, ftBasic4, some .int32⟩ : FieldT), ⟨"PP".toList, ftStruct, none⟩, ⟨"Int16".toList, ftBasic2, some .int16⟩] := hf
  simp only [List.mem_cons, List.not_mem_nil, or_false] at this
  rcases this with rfl | rfl | rfl
  · exact ⟨Or.inr (Or.inr (Or.inr (Or.inl rfl))), fun h => absurd h (by decide)⟩
  · refine ⟨Or.inl rfl, fun _ => ⟨by decide, fun f hf => ?_⟩⟩
    have : f ∈ [(⟨"Int32".toList, ftBasic4, some .int32⟩ : FieldT), ⟨"Int32".toList, ftBasic4, some .int32⟩] := hf
    simp only [List.mem_cons, List.not_mem_nil, or_false, or_self] at this
    subst this
    exact ⟨Or.inr (Or.inr (Or.inr (Or.inl rfl))), by decide, by decide⟩
  · exact ⟨Or.inr (Or.inr (Or.inl rfl)), fun h => absurd h (by decide)⟩

/-- The hypotheses of `edit_sessions_partial` hold: a message, and two sessions on it. -/
example : SmallTable rootSch "TT".toList ∧ rootSch.root = "TT".toList ∧ PlainTable rootSch "TT".toList ∧
    12 + 2 * (rootSch.fields "TT".toList).length < 65536 ∧
    InlSrc rootSch "TT".toList 0 (CNode.fromScalar "Int32".toList 4 7) (putLE 4 7) ∧
    InlSrc rootSch "TT".toList 2 (CNode.fromScalar "Int16".toList 2 9) (putLE 2 9) :=
  ⟨rootSch_ok, rfl, rootSch_plain, by decide,
    fromScalar_src _ _ 0 4 7 ⟨"Int32".toList, ftBasic4, some .int32⟩ (by decide) rfl (by decide) rfl,
    fromScalar_src _ _ 2 2 9 ⟨"Int16".toList, ftBasic2, some .int16⟩ (by decide) rfl (by decide) rfl⟩

example : (do
    let c ← build rootSch 9 "TT".toList [⟨0, CNode.fromScalar "Int32".toList 4 7, putLE 4 7⟩]
    let d ← c.finish
    let d ← sessions rootSch 9 "TT".toList d [([], [⟨2, CNode.fromScalar "Int16".toList 2 9, putLE 2 9⟩]), ([1, 2], [⟨0, CNode.fromScalar "Int32".toList 4 8, putLE 4 8⟩])]
    let r ← CNode.openByBuf "TT".toList ⟨d, []⟩
    let f0 ← r.fieldAt rootSch (0 : Nat)
    let f2 ← r.fieldAt rootSch (2 : Nat)
    let a ← CNode.scalar 4 f0
    let b ← CNode.scalar 2 f2
    return (a, b)) = some (8, 9) := by decide +kernel

/-- A root `RR` with three tables `TT { a: int32; b: int32; }`. -/
def inSch : Sch where
  fields := fun n =>
    if n = "RR".toList then [⟨"TT".toList, ftTable, none⟩, ⟨"TT".toList, ftTable, none⟩, ⟨"TT".toList, ftTable, none⟩]
    else if n = "TT".toList then [⟨"Int32".toList, ftBasic4, some .int32⟩, ⟨"Int32".toList, ftBasic4, some .int32⟩]
    else []
  root := "RR".toList

/-- A message of it: the numbers 1, 2, 3 in the tables, `a`, `b`, `c` the vtable of the root. -/
def inBytes (a b c : UInt8) : Bytes := [18, 0, 0, 0, 0, 0, 0, 0,
  10, 0, 16, 0, a, 0, b, 0, c, 0,  10, 0, 0, 0, 20, 0, 0, 0, 32, 0, 0, 0, 44, 0, 0, 0,
  8, 0, 8, 0, 4, 0, 0, 0,  8, 0, 0, 0, 1, 0, 0, 0,
  8, 0, 8, 0, 4, 0, 0, 0,  8, 0, 0, 0, 2, 0, 0, 0,
  8, 0, 8, 0, 4, 0, 0, 0,  8, 0, 0, 0, 3, 0, 0, 0]

/-- All the numbers in a message (no numbers for a table that is absent). -/
def inRead (r : CNode) : Option (List (List (Option Nat))) :=
  (List.range 3).mapM fun (i : Nat) => do
    match ← r.fieldAt inSch i with
    | none => return []
    | some t =>
      let l ← (List.range 2).mapM (fun (j : Nat) => do
        match ← t.fieldAt inSch j with
        | none => return none
        | some f => return ← CNode.scalar 4 (some f))
      return l

/-- Open a message, set the second number of the `i`-th table to 7, save it: the numbers before and after. -/
def inEdit (a b c : UInt8) (i : Nat) : Option (List (List (Option Nat)) × Bool × List (List (Option Nat))) := do
  let r ← CNode.openByBuf "RR".toList ⟨inBytes a b c, []⟩
  let x ← inRead r
  let t ← r.fieldAt inSch i
  let t ← t
  let (t', e) ← t.setFieldAt inSch 9 1 (CNode.fromScalar "Int32".toList 4 7)
  let d ← t'.finish
  let r' ← CNode.openByBuf "RR".toList ⟨d, []⟩
  let y ← inRead r'
  return (x, e.isNone, y)

/-- With all three tables present the tables behind the edited one are moved. -/
example : inEdit 4 8 12 0 = some ([[some 1, none], [some 2, none], [some 3, none]], true,
    [[some 1, some 7], [some 2, none], [some 3, none]]) := by decide +kernel

/-- C97 is violated: with the first table absent, adding a field to the second corrupts the third (its offset is not moved:
the place of the tree among the children of the root is taken for the index of the field). -/
theorem edit_sibling_fails : inEdit 0 8 12 1 = some ([[], [some 2, none], [some 3, none]], true,
    [[], [some 2, some 7], [some 8, none]]) := by decide +kernel

/-- The hypotheses of `edit_absent_fails` and `edit_absent_set_fails`: the message of `treeSch` without its list. -/
def lackMsg : CNode := { treeMsg with io := Base.new ⟨treeBytes.set 12 0, []⟩ }

/-- Its table. -/
def lackChild : CNode := { treeChild with io := Base.new ⟨treeBytes.set 12 0, []⟩ }

example : lackChild.inRoot = some true ∧ lackChild.isZero (1 : Nat) = some true := by decide +kernel

example : lackChild.setFieldAt treeSch 9 (1 : Nat) (CNode.fromScalar "Int32".toList 4 7) = none :=
  edit_absent_set_fails treeSch 9 lackChild lackMsg lackMsg _ 1 (by decide) rfl (by exact Or.inr (Or.inr (Or.inr (Or.inl rfl)))) (by decide) (by decide +kernel)
    (by decide +kernel) (by rfl) (.here _) rfl 0 (by decide) (Or.inr (by decide)) (by decide) (by decide) (by rfl)

end Fbs.Props
