import Verif.Shift
import Verif.Props.Message
import Verif.SplitLemmas
import Verif.Props.Tree
import Mathlib.Data.List.Induction
/-!
# Editing a table inside a message

A table with the bytes of the message in front of it; the walk made by `InsertSpace` finds nothing behind the place
of insertion, so the table is edited as if it stood alone.
-/

namespace Fbs
open CNode Fbs.Props

/-! ## cells behind and in front -/

theorem contentOf_sh (k : Nat) : ∀ (ds : List Diff) (m m' : ByteMap), (∀ x, m' (x + k) = m x) →
    ∀ x, contentOf m' (ds.map (shD k)) (x + k) = contentOf m ds x
  | [], _, _, h, x => h x
  | d :: ds, m, m', h, x => by
    unfold contentOf
    simp only [List.map_cons, List.foldl_cons]
    refine contentOf_sh k ds _ _ ?_ x
    intro y
    unfold ByteMap.put shD
    simp only
    by_cases hy : d.off ≤ y ∧ y < d.off + d.sl.data.length
    · rw [if_pos (by omega), if_pos hy]; congr 1; omega
    · rw [if_neg (by omega), if_neg hy]; exact h y

theorem content_sh (p : Bytes) (b : Base) (x : Nat) : (shB p b).content (x + p.length) = b.content x := by
  unfold Base.content
  refine contentOf_sh p.length _ _ _ ?_ x
  intro y
  unfold ByteMap.ofBytes
  rw [data_sh, List.getElem?_append_right (by omega)]
  congr 1; omega

theorem contentOf_front (k : Nat) : ∀ (ds : List Diff) (m : ByteMap) (x : Nat), x < k →
    contentOf m (ds.map (shD k)) x = m x
  | [], _, _, _ => rfl
  | d :: ds, m, x, h => by
    unfold contentOf
    simp only [List.map_cons, List.foldl_cons]
    have := contentOf_front k ds (m.put (shD k d).off (shD k d).sl.data) x h
    unfold contentOf at this
    rw [this]
    unfold ByteMap.put shD
    simp only
    rw [if_neg (by omega)]

theorem content_front (p : Bytes) (b : Base) (x : Nat) (h : x < p.length) : (shB p b).content x = p[x]? := by
  unfold Base.content
  rw [diffs_sh, contentOf_front _ _ _ _ h]
  unfold ByteMap.ofBytes
  rw [data_sh, List.getElem?_append_left h]

theorem holds_sh {p : Bytes} {b : Base} {x : Nat} {w : Bytes} (h : Holds b x w) : Holds (shB p b) (x + p.length) w := by
  obtain ⟨h1, h2, h3⟩ := h
  refine ⟨h1, ?_, ?_⟩
  · rw [noCut_iff] at h2 ⊢
    intro e he
    rcases he with rfl | ⟨d, hd, he⟩
    · have := h2 _ (Or.inl rfl)
      rw [len_sh]; omega
    · rw [diffs_sh, List.mem_map] at hd
      obtain ⟨d', hd', rfl⟩ := hd
      rcases he with rfl | rfl
      · have := h2 _ (Or.inr ⟨d', hd', Or.inl rfl⟩)
        simp only [shD]; omega
      · have := h2 _ (Or.inr ⟨d', hd', Or.inr rfl⟩)
        simp only [shD]; omega
  · intro k hk
    rw [show x + p.length + k = x + k + p.length by omega, content_sh]
    exact h3 k hk

/-- What stands in front of the table is as it was. -/
theorem holds_front {p : Bytes} {b : Base} {x : Nat} {w : Bytes} (hne : w ≠ []) (hl : x + w.length ≤ p.length)
    (h : (p.drop x).take w.length = w) : Holds (shB p b) x w := by
  refine ⟨hne, ?_, ?_⟩
  · rw [noCut_iff]
    intro e he
    rcases he with rfl | ⟨d, hd, he⟩
    · rw [len_sh]; omega
    · rw [diffs_sh, List.mem_map] at hd
      obtain ⟨d', hd', rfl⟩ := hd
      rcases he with rfl | rfl
      · simp only [shD]; omega
      · simp only [shD]; omega
  · intro k hk
    rw [content_front _ _ _ (by omega)]
    have := congrArg (fun l => l[k]?) h
    simp only [List.getElem?_take, if_pos hk, List.getElem?_drop] at this
    exact this


/-! ## the walk over tables in front of a place -/

/-- A visit whose owner is a table or struct and whose thing, if present, stands in front of `q`. -/
def Before (s : Sch) (q : Nat) (v : Visit) : Prop :=
  v.node.vi = {} ∧ ∃ o, v.node.fieldAt s v.idx = some o ∧ ∀ n, o = some n → n.vi = {} ∧ n.pos < q

/-- `t` is a struct of scalars. -/
structure PlainStruct (s : Sch) (t : Name) : Prop where
  st : s.isStruct t = true
  flds : ∀ f ∈ s.fields t, InlGrp f.grp ∧ f.grp ≠ ftStruct ∧ 0 < f.size

theorem collect_all {α β : Type} (f : α → Go (List β)) (P : β → Prop) : ∀ (l : List α), (∀ a ∈ l, ∃ x, f a = some x ∧ ∀ y ∈ x, P y) →
    ∃ r, collect f l = some r ∧ ∀ y ∈ r, P y
  | [], _ => ⟨[], rfl, fun y hy => absurd hy (by simp)⟩
  | a :: l, h => by
    obtain ⟨x, hx, px⟩ := h a (by simp)
    obtain ⟨r, hr, pr⟩ := collect_all f P l (fun b hb => h b (List.mem_cons_of_mem _ hb))
    refine ⟨x ++ r, by simp only [collect, hx, hr, Option.bind_eq_bind, Option.bind_some, pure], fun y hy => ?_⟩
    rcases List.mem_append.mp hy with h | h
    · exact px y h
    · exact pr y h

theorem leaf_of {g : Nat} (hg : InlGrp g) (hs : g ≠ ftStruct) {s : Sch} {c : CNode} {i : Nat} (e : (c.fieldT s i).grp = g) :
    c.isLeafAt s i = true := by
  obtain ⟨f1, f2, f3, f4, f5, f6⟩ := inlGrp_flags hg hs
  unfold isLeafAt
  simp only [e, f1, f2, f3, f4, f5, f6, Bool.false_eq_true, if_false]

theorem fieldT_get {s : Sch} {c : CNode} {i : Nat} (hi : i < (s.fields c.name).length) : c.fieldT s (i : Int) = (s.fields c.name)[i] := by
  unfold CNode.fieldT
  rw [if_neg (by omega), Int.toNat_natCast, List.getElem?_eq_getElem hi]; rfl

theorem sumSize_split (l : List FieldT) (i : Nat) (hi : i < l.length) : sumSize (l.take i) + (l[i]).size ≤ sumSize l := by
  have h1 : l = l.take i ++ l[i] :: l.drop (i + 1) := by
    rw [← List.drop_eq_getElem_cons hi, List.take_append_drop]
  have : sumSize l = sumSize (l.take i) + sumSize (l[i] :: l.drop (i + 1)) := by
    conv => lhs; rw [h1]
    unfold sumSize
    rw [List.foldl_append]
    generalize List.foldl (fun a f => a + f.size) 0 (List.take i l) = m
    generalize l[i] :: List.drop (i + 1) l = r
    suffices H : ∀ (m k : Nat), List.foldl (fun a (f : FieldT) => a + f.size) (m + k) r = m + List.foldl (fun a f => a + f.size) k r from H m 0
    induction r with
    | nil => intro m k; rfl
    | cons x r ih => intro m k; simp only [List.foldl_cons]; rw [Nat.add_assoc]; exact ih m _
  rw [this]
  have : (l[i]).size ≤ sumSize (l[i] :: l.drop (i + 1)) := by
    unfold sumSize
    simp only [List.foldl_cons, Nat.zero_add]
    generalize (l[i]).size = m
    induction l.drop (i + 1) generalizing m with
    | nil => exact Nat.le_refl _
    | cons x r ih => simp only [List.foldl_cons]; exact Nat.le_trans (by omega) (ih (m + x.size))
  omega

theorem walk_struct {s : Sch} {c : CNode} (hp : PlainStruct s c.name) (hvi : c.vi = {}) {q : Nat} (hq : c.pos + sumSize (s.fields c.name) ≤ q) (k : Nat) :
    ∃ vs, traverseF s (k + 2) c = some vs ∧ ∀ v ∈ vs, Before s q v := by
  unfold traverseF
  refine collect_all _ _ _ fun i hi => ?_
  rw [List.mem_range] at hi
  obtain ⟨f1, f2, f3⟩ := hp.flds _ (List.getElem_mem hi)
  have hT := fieldT_get hi
  unfold traverseAt
  simp only [leaf_of f1 f2 (by rw [hT]), if_true, hp.st, Option.bind_eq_bind, Option.bind_some, pure]
  refine ⟨_, rfl, fun y hy => ?_⟩
  rw [List.mem_singleton] at hy
  subst hy
  refine ⟨hvi, ?_⟩
  unfold fieldAt
  simp only [hp.st, if_true, pure]
  refine ⟨_, rfl, fun n hn => ?_⟩
  simp only [Option.some.injEq] at hn
  subst hn
  refine ⟨rfl, ?_⟩
  have := sumSize_split _ i hi
  simp only [Int.toNat_natCast]
  omega

section
variable {s : Sch} {nm : Name} {b : Base} {x q : Nat} {vo : Nat → Nat} {c : CNode}

theorem tabAt_u32 {n : Nat} (h : Props.TabAt b x n vo) (hio : c.io = b) (hp : c.pos = x + (4 + 2 * n)) : c.u32 c.pos = some (4 + 2 * n) := by
  unfold CNode.u32
  rw [hio, hp, holds_getN h.soff, Nat.mod_eq_of_lt (by have := h.hp; omega)]

theorem tabAt_vtab {n : Nat} (h : Props.TabAt b x n vo) (hio : c.io = b) (hp : c.pos = x + (4 + 2 * n)) {i : Nat} (hi : i < n) :
    c.vtab (i : Int) = some (c.pos + vo i) := by
  obtain ⟨hlt, hs⟩ := h.slot i hi
  have h1 := holds_lt_lenBuf hs
  unfold CNode.vtab
  rw [tabAt_u32 h hio hp]
  simp only [Option.bind_eq_bind, Option.bind_some]
  rw [hio, if_neg (by omega)]
  unfold CNode.u16
  have e : ((c.pos : Int) - ((4 + 2 * n : Nat) : Int) + 4 + (i : Int) * 2) = ((x + (4 + 2 * i) : Nat) : Int) := by omega
  rw [e, hio, holds_getN hs, Nat.mod_eq_of_lt (by omega)]
  rfl

theorem tabAt_isZero {n : Nat} (h : Props.TabAt b x n vo) (hio : c.io = b) (hp : c.pos = x + (4 + 2 * n)) {i : Nat} (hi : i < n) :
    c.isZero (i : Int) = some (decide (vo i = 0)) := by
  unfold CNode.isZero
  rw [tabAt_vtab h hio hp hi]
  simp only [Option.bind_eq_bind, Option.bind_some, pure, Option.some.injEq]
  by_cases h0 : vo i = 0
  · simp [h0]
  · simp [h0]

theorem tabAt_preLoad {n t : Nat} (h : Props.TabAt b x n vo) (ht : Holds b (x + 2) (putLE 2 t)) (htl : t < 65536) :
    preLoad b (x + (4 + 2 * n)) = some t := by
  have hp := h.hp
  unfold CNode.preLoad
  have e1 := holds_getN h.soff
  rw [Nat.mod_eq_of_lt (by omega)] at e1
  have e2 := holds_getN h.vl
  rw [Nat.mod_eq_of_lt (by omega)] at e2
  have e3 := holds_getN ht
  rw [Nat.mod_eq_of_lt (by omega)] at e3
  rw [e1]
  simp only [Option.bind_eq_bind, Option.bind_some]
  rw [show ((x + (4 + 2 * n) : Nat) : Int) - ((4 + 2 * n : Nat) : Int) = (x : Int) by omega, e2]
  simp only [Option.bind_some]
  rw [show (x : Int) + 2 = ((x + 2 : Nat) : Int) by omega, e3]
  simp only [Option.bind_some]
  rw [show (x : Int) + 4 = ((x + 4 : Nat) : Int) by omega, preLoop_cells]
  · rfl
  · intro k hk
    refine ⟨putLE 2 (vo k), putLE_length _ _, ?_⟩
    rw [show x + 4 + 2 * k = x + (4 + 2 * k) by omega]
    exact (h.slot k (by omega)).2

/-- One scalar or struct field. -/
theorem walk_inl (h : Props.TabAt b x (s.fields c.name).length vo) (hio : c.io = b) (hp : c.pos = x + (4 + 2 * (s.fields c.name).length))
    (hst : s.isStruct c.name = false) (hvi : c.vi = {}) {i : Nat} (hi : i < (s.fields c.name).length)
    (hg : InlGrp (s.fields c.name)[i].grp) (hps : (s.fields c.name)[i].grp = ftStruct → PlainStruct s (s.fields c.name)[i].tname)
    (hw : vo i ≠ 0 → c.pos + vo i + fieldWidth s (s.fields c.name)[i] ≤ q) (hpos : vo i ≠ 0 → c.pos + vo i < q) (k : Nat) :
    ∃ vs, traverseAt s (k + 3) c i = some vs ∧ ∀ v ∈ vs, Before s q v := by
  have hT := fieldT_get hi
  have hv := tabAt_vtab h hio hp hi
  have hz := tabAt_isZero h hio hp hi
  unfold traverseAt
  by_cases hs : (s.fields c.name)[i].grp = ftStruct
  · have hlf : c.isLeafAt s i = false := by
      unfold isLeafAt
      simp only [hT, hs, show isFieldStruct ftStruct = true by decide, if_true]
    have hfA : c.fieldAt s (i : Int) = some (if vo i = 0 then none else some { name := (s.fields c.name)[i].tname, io := c.io, pos := c.pos + vo i }) := by
      unfold fieldAt
      simp only [hst, hz, hT, hs, hv, Option.bind_eq_bind, Option.bind_some, Bool.false_eq_true, if_false, pure,
        show isFieldStruct ftStruct = true by decide, if_true]
      by_cases h0 : vo i = 0 <;> simp [h0]
    simp only [hlf, hT, hs, Bool.false_eq_true, if_false, show isFieldUnion ftStruct = false by decide, hfA,
      Option.bind_eq_bind, Option.bind_some, show isFieldSlice ftStruct = false by decide, pure, show isFieldTable ftStruct = false by decide]
    by_cases h0 : vo i = 0
    · rw [if_pos h0]
      exact ⟨[], rfl, fun y hy => absurd hy (by simp)⟩
    · rw [if_neg h0]
      have hww := hw h0
      unfold fieldWidth at hww
      rw [if_pos hs] at hww
      obtain ⟨vs, h1, h2⟩ := walk_struct (c := { name := (s.fields c.name)[i].tname, io := c.io, pos := c.pos + vo i }) (hps hs) rfl (q := q) hww k
      simp only [h1, Option.bind_some]
      refine ⟨_, rfl, fun y hy => ?_⟩
      rcases List.mem_cons.mp hy with rfl | hy
      · refine ⟨hvi, _, hfA, fun n hn => ?_⟩
        rw [if_neg h0] at hn
        simp only [Option.some.injEq] at hn
        subst hn
        exact ⟨rfl, hpos h0⟩
      · exact h2 y hy
  · obtain ⟨f1, f2, f3, f4, f5, f6⟩ := inlGrp_flags hg hs
    have hlf := leaf_of (s := s) (c := c) (i := i) hg hs (by rw [hT])
    have hvI : ∃ w, valueInfoF s (k + 2) c i = some w := by
      unfold valueInfoF
      simp only [hT, f1, f2, f3, f4, f5, f6, if_true, Bool.false_eq_true, if_false, hv]
      exact ⟨_, rfl⟩
    obtain ⟨w, hvI⟩ := hvI
    simp only [hlf, if_true, hst, Bool.false_eq_true, if_false, hvI, Option.bind_eq_bind, Option.bind_some, pure]
    refine ⟨_, rfl, fun y hy => ?_⟩
    rw [List.mem_singleton] at hy
    subst hy
    refine ⟨hvi, ?_⟩
    unfold fieldAt
    simp only [hst, hz, hT, hv, Option.bind_eq_bind, Option.bind_some, Bool.false_eq_true, if_false, pure, f1, f2, f3, f4, f5, f6, if_true]
    by_cases h0 : vo i = 0
    · simp only [h0, decide_true, if_true]
      exact ⟨_, rfl, fun n hn => by simp at hn⟩
    · simp only [h0, decide_false, Bool.false_eq_true, if_false]
      refine ⟨_, rfl, fun n hn => ?_⟩
      simp only [Option.some.injEq] at hn
      subst hn
      exact ⟨rfl, hpos h0⟩

/-- Every struct among the fields of `t` is one of scalars. -/
def PlainTable (s : Sch) (t : Name) : Prop := ∀ f ∈ s.fields t, InlGrp f.grp ∧ (f.grp = ftStruct → PlainStruct s f.tname)

/-- The slots of a table of scalars and structs that ends before `q`. -/
def SlotsBefore (s : Sch) (t : Name) (vo : Nat → Nat) (pos q : Nat) : Prop :=
  ∀ i (hi : i < (s.fields t).length), vo i ≠ 0 → pos + vo i + fieldWidth s (s.fields t)[i] ≤ q ∧ pos + vo i < q

theorem walk_plain (h : Props.TabAt b x (s.fields c.name).length vo) (hio : c.io = b) (hp : c.pos = x + (4 + 2 * (s.fields c.name).length))
    (hst : s.isStruct c.name = false) (hvi : c.vi = {}) (hpt : PlainTable s c.name) (hsl : SlotsBefore s c.name vo c.pos q) (k : Nat) :
    ∃ vs, traverseF s (k + 4) c = some vs ∧ ∀ v ∈ vs, Before s q v := by
  unfold traverseF
  refine collect_all _ _ _ fun i hi => ?_
  rw [List.mem_range] at hi
  obtain ⟨g1, g2⟩ := hpt _ (List.getElem_mem hi)
  exact walk_inl h hio hp hst hvi hi g1 g2 (fun h0 => (hsl i hi h0).1) (fun h0 => (hsl i hi h0).2) k

end


/-! ## no tree is behind the place -/

theorem mapM_all {α β : Type} (f : α → Option β) (P : β → Prop) : ∀ (l : List α), (∀ a ∈ l, ∃ x, f a = some x ∧ P x) →
    ∃ r, l.mapM f = some r ∧ ∀ y ∈ r, P y
  | [], _ => ⟨[], rfl, fun y hy => absurd hy (by simp)⟩
  | a :: l, h => by
    obtain ⟨x, hx, px⟩ := h a (by simp)
    obtain ⟨r, hr, pr⟩ := mapM_all f P l (fun b hb => h b (List.mem_cons_of_mem _ hb))
    refine ⟨x :: r, by rw [List.mapM_cons, hx, hr]; rfl, fun y hy => ?_⟩
    rcases List.mem_cons.mp hy with rfl | h
    · exact px
    · exact pr y h

theorem parentIdx_total (p : Int) : ∀ (l : List (Option (Option CNode))) (i : Nat), (∀ o ∈ l, ∃ x, o = some x) → ∃ r, parentIdx p l i = some r
  | [], _, _ => ⟨none, rfl⟩
  | o :: l, i, h => by
    obtain ⟨x, rfl⟩ := h o (by simp)
    unfold parentIdx
    split
    · exact ⟨_, rfl⟩
    · exact parentIdx_total p l (i + 1) (fun o ho => h o (List.mem_cons_of_mem _ ho))

theorem allTree_before {s : Sch} {fuel q : Nat} {c : CNode} {vs : List Visit} (h : traverseF s fuel c = some vs) (hb : ∀ v ∈ vs, Before s q v)
    (hvi : c.vi = {}) (hq : c.pos < q) :
    ∃ t, allTree s fuel c = some t ∧ ∀ i a, t.at_ i = some a → a.vi = {} ∧ a.pos < q := by
  obtain ⟨ns, h1, h2⟩ := mapM_all (treeNode s) (fun o => ∃ x, o = some x ∧ ∀ n, x = some n → n.vi = {} ∧ n.pos < q) vs (by
    intro v hv
    obtain ⟨b1, o, b2, b3⟩ := hb v hv
    refine ⟨some o, ?_, o, rfl, b3⟩
    unfold treeNode
    rw [b1, if_neg (by decide), b2]
    rfl)
  obtain ⟨ps, h3, -⟩ := mapM_all (fun (v : Visit) => parentIdx v.parent (some (some c) :: ns) 0) (fun _ => True) vs (by
    intro v _
    obtain ⟨r, hr⟩ := parentIdx_total v.parent (some (some c) :: ns) 0 (by
      intro o ho
      rcases List.mem_cons.mp ho with rfl | ho
      · exact ⟨_, rfl⟩
      · obtain ⟨x, hx, -⟩ := h2 o ho
        exact ⟨x, hx⟩)
    exact ⟨r, hr, trivial⟩)
  refine ⟨⟨some (some c) :: ns, none :: ps⟩, ?_, ?_⟩
  · unfold allTree
    simp only [h, h1, Option.bind_eq_bind, Option.bind_some, h3, pure]
  · intro i a ha
    unfold Forest.at_ at ha
    simp only at ha
    have hm : some (some a) ∈ some (some c) :: ns := by
      cases hg : (some (some c) :: ns)[i]? with
      | none => rw [hg] at ha; simp at ha
      | some o =>
        rw [hg] at ha
        cases o with
        | none => simp at ha
        | some o =>
          simp only [Option.join_some] at ha
          subst ha
          exact List.mem_of_getElem? hg
    rcases List.mem_cons.mp hm with e | hm
    · simp only [Option.some.injEq] at e
      subst e
      exact ⟨hvi, hq⟩
    · obtain ⟨x, hx, hn⟩ := h2 _ hm
      simp only [Option.some.injEq] at hx
      exact hn a hx.symm

/-- With every tree in front of the place, inserting inside a message is inserting outside one. -/
theorem insertSpace_before {s : Sch} {fuel q : Nat} {c r : CNode} {t : Forest} (hin : c.inRoot = some true) (hr : c.rootCommon s = some r)
    (ht : allTree s fuel r = some t) (hb : ∀ i a, t.at_ i = some a → a.vi = {} ∧ a.pos < q) (hl : c.isList = some false)
    (hp : c.pos ≤ q) (size : Nat) (cr : Bool) :
    c.insertSpace s fuel q size cr = some { c with io := c.io.insertSpace q size cr } := by
  have hf : t.find (crosses t q) = [] := by
    unfold Forest.find
    rw [List.filter_eq_nil_iff]
    intro i _
    unfold crosses
    split
    · simp
    · rename_i j _
      split
      · rename_i a b' ha _
        obtain ⟨e1, e2⟩ := hb i a ha
        unfold treePos
        simp only [e1]
        rw [if_neg (show ¬ (({} : VInfo).pos > 0) by decide)]
        simp only [Bool.and_eq_true, decide_eq_true_eq, not_and]
        intro _
        omega
      · simp
  unfold CNode.insertSpace
  simp only [hin, hr, ht, hl, hf, moveTrees, Option.bind_eq_bind, Option.bind_some, if_true, Bool.false_eq_true, if_false, pure]
  rw [if_neg (by omega)]

/-- In a message all of which stands in front of `q`. -/
def AllFront (s : Sch) (fuel : Nat) (d : CNode) (q : Nat) : Prop :=
  d.inRoot = some true ∧ ∃ r t, d.rootCommon s = some r ∧ allTree s fuel r = some t ∧ ∀ i a, t.at_ i = some a → a.vi = {} ∧ a.pos < q

theorem setFieldAt_inl {s : Sch} {nm : Name} (hs : SchOk s nm) {c : CNode} (hn : c.name = nm) {i : Nat} {f : CNode} {w : Bytes}
    (hsrc : InlSrc s nm i f w) (fuel : Nat) :
    c.setFieldAt s fuel i f = (c.setScalar s fuel i f).bind (fun c => some (c, none)) := by
  obtain ⟨fd, hfd, hg, hname, hlen, hsrcH, hstr⟩ := hsrc
  have hin : i < (s.fields nm).length := (List.getElem?_eq_some_iff.mp hfd).1
  have hfT : c.fieldT s (i : Int) = fd := by
    unfold CNode.fieldT
    rw [if_neg (by omega), hn, Int.toNat_natCast, hfd]; rfl
  unfold CNode.setFieldAt
  have hsame : c.isSameType s i f = true := by
    unfold CNode.isSameType; rw [hfT, if_pos hname.symm]
  rw [hn, if_neg (by omega), hsame, hs.st, hfT]
  simp only
  rw [inlGrp_slice hg, inlGrp_basic hg]
  simp only [Bool.not_true, Bool.false_eq_true, if_false, false_and, if_true, Int.toNat_natCast]
  rfl

/-- Setting a scalar or struct field of a table at the end of a message. -/
theorem set_in {cel : Prop} {s : Sch} {nm : Name} (hs : SchOk s nm) {fuel : Nat} {c : CNode} {cur : Nat → Option Bytes}
    {vec : Option (Nat × TI.Tail)} (h : RepG cel s nm c cur vec) {p : Bytes}
    (hF : ∀ t, c.tableLen = some t → AllFront s (fuel + 1) (shC p c) (c.pos + p.length + t))
    {i : Nat} {f : CNode} {w : Bytes} (hsrc : InlSrc s nm i f w) :
    ∃ c', (shC p c).setFieldAt s (fuel + 1) i f = some (shC p c', none) ∧
      RepG cel s nm c' (fun j => if j = i then some w else cur j) vec := by
  obtain ⟨c', h1, h2⟩ := set_inline hs (fuel := fuel) h hsrc
  refine ⟨c', ?_, h2⟩
  obtain ⟨t, vo, fx, hT, -⟩ := h.ex
  rw [setFieldAt_inl hs hT.name hsrc] at h1
  rw [setFieldAt_inl hs (by exact hT.name) hsrc]
  obtain ⟨c1, h3, h4⟩ := Option.bind_eq_some_iff.mp h1
  simp only [Option.some.injEq, Prod.mk.injEq, and_true] at h4
  subst h4
  have hl := hT.isList hs.tn
  rw [setScalar_sh hl hT.inRoot ?_ h3]
  · rfl
  · intro _ tl size c2 htl h5
    obtain ⟨g1, r, tr, g2, g3, g4⟩ := hF tl htl
    have hl2 : ({ c with tlen := tl } : CNode).isList = some false := hl
    rw [insertSpace_out (c := { c with tlen := tl }) (by exact hT.inRoot), hl2] at h5
    simp only [Option.bind_eq_bind, Option.bind_some, Bool.false_eq_true, if_false, pure] at h5
    rw [if_neg (by omega)] at h5
    simp only [Option.some.injEq] at h5
    subst h5
    rw [insertSpace_before (c := shC p { c with tlen := tl }) (by exact g1) (by exact g2) g3 g4 (by exact hl)
      (by show c.pos + p.length ≤ _; omega) size true]
    simp only [Option.some.injEq]
    show ({ shC p { c with tlen := tl } with io := (shB p c.io).insertSpace (c.pos + p.length + tl) size true } : CNode) = _
    rw [show c.pos + p.length + tl = c.pos + tl + p.length by omega, insertSpace_sh]
    rfl

theorem putLE_take2 (v : Nat) : (putLE 4 v).take 2 = putLE 2 v := rfl

/-- A root of scalars and structs is the whole of its message. -/
theorem root_front {cel : Prop} {s : Sch} {nm : Name} (hs : SchOk s nm) (hroot : s.root = nm) (hp : PlainTable s nm)
    (hfew : 12 + 2 * (s.fields nm).length < 65536) {c : CNode} {cur : Nat → Option Bytes} (h : RepG cel s nm c cur none) (k : Nat)
    (t : Nat) (ht : c.tableLen = some t) : AllFront s (k + 4) (shC (header c.pos) c) (c.pos + (header c.pos).length + t) := by
  obtain ⟨t', vo, fx, hT, hV, hI, hN, hB, hW, hsum, -, hsz⟩ := h.ex
  rw [hT.tableLen] at ht
  simp only [Option.some.injEq] at ht
  subst ht
  have hpos := hT.pos
  have ht4 := hT.t4
  have hhl := header_length c.pos
  have h0 : Holds (shC (header c.pos) c).io 0 (putLE 4 (c.pos + 8)) := by
    refine holds_front (by simp [putLE]) (by rw [putLE_length]; omega) ?_
    rw [putLE_length]; rfl
  have hu32 : (shC (header c.pos) c).u32 0 = some (c.pos + 8) := by
    unfold CNode.u32
    have := holds_getN h0
    rw [Nat.mod_eq_of_lt (by omega)] at this
    exact this
  have hu16 : (shC (header c.pos) c).u16 0 = some (c.pos + 8) := by
    unfold CNode.u16
    have := holds_sub h0 0 2 (by omega) (by rw [putLE_length]; omega)
    rw [List.drop_zero, putLE_take2] at this
    have := holds_getN this
    rw [Nat.mod_eq_of_lt (by omega)] at this
    exact this
  have hTA : Props.TabAt (shB (header c.pos) c.io) 8 (s.fields nm).length vo := by
    have hh := TI_tabAt hT
    refine ⟨hh.hp, ?_, ?_, fun i hi => ⟨(hh.slot i hi).1, ?_⟩⟩
    · have := holds_sh (p := header c.pos) hh.vl
      rw [hhl] at this; exact this
    · have := holds_sh (p := header c.pos) hh.soff
      rw [hhl, show 0 + (4 + 2 * (s.fields nm).length) + 8 = 8 + (4 + 2 * (s.fields nm).length) by omega] at this; exact this
    · have := holds_sh (p := header c.pos) (hh.slot i hi).2
      rw [hhl, show 0 + (4 + 2 * i) + 8 = 8 + (4 + 2 * i) by omega] at this; exact this
  have hpl : preLoad (shB (header c.pos) c.io) (c.pos + 8) = some t' := by
    have := preLoad_sh (p := header c.pos) hT.preLoad
    rw [hhl] at this; exact this
  refine ⟨?_, ?_⟩
  · unfold CNode.inRoot
    rw [hu16]
    simp only [Option.bind_eq_bind, Option.bind_some]
    have hH := hTA.soff
    obtain ⟨l1, -⟩ := holds_read hH 4
    rw [putLE_length] at l1
    unfold CNode.R Base.Ri
    rw [if_neg (by omega)]
    simp only [Option.bind_some]
    rw [show (((c.pos + 8 : Nat) : Int)).toNat = 8 + (4 + 2 * (s.fields nm).length) by omega]
    rw [show (shC (header c.pos) c).io = shB (header c.pos) c.io from rfl, if_neg (by omega), if_neg (by show ¬ (c.pos + _ < 8); omega)]
    have : (shC (header c.pos) c).u32 ((c.pos + 8 : Nat) : Int) = some (4 + 2 * (s.fields nm).length) := by
      unfold CNode.u32
      have := holds_getN hH
      rw [Nat.mod_eq_of_lt (by omega)] at this
      rw [show c.pos + 8 = 8 + (4 + 2 * (s.fields nm).length) by omega]
      exact this
    rw [this]
    simp only [Option.bind_some, pure, Option.some.injEq, bne_iff_ne, ne_eq]
    omega
  · have hr : (shC (header c.pos) c).rootCommon s = some { name := nm, io := shB (header c.pos) c.io, pos := c.pos + 8, tlen := t' } := by
      unfold CNode.rootCommon newNode
      rw [hu32]
      simp only [Option.bind_eq_bind, Option.bind_some, hroot]
      rw [show (shC (header c.pos) c).io = shB (header c.pos) c.io from rfl, hpl]
      rfl
    obtain ⟨vs, w1, w2⟩ := walk_plain (s := s) (c := { name := nm, io := shB (header c.pos) c.io, pos := c.pos + 8, tlen := t' })
      (q := c.pos + (header c.pos).length + t') hTA rfl (by show c.pos + 8 = 8 + (4 + 2 * (s.fields nm).length); omega) hs.st rfl hp (by
        intro i hi h0
        show c.pos + 8 + vo i + fieldWidth s (s.fields nm)[i] ≤ _ ∧ c.pos + 8 + vo i < _
        have hi : i < (s.fields nm).length := hi
        have hfd := List.getElem?_eq_getElem hi
        cases hfx : fx i with
        | none => exact absurd (hT.abs i hi hfx) h0
        | some w =>
          obtain ⟨a1, a2, a3⟩ := hT.fld i hi w hfx
          have := hW i _ w hfd hfx
          have hw0 := List.length_pos_iff.mpr a3.1
          rw [hhl]
          omega) k
    obtain ⟨tr, t1, t2⟩ := allTree_before w1 w2 rfl (by show c.pos + 8 < _; omega)
    exact ⟨_, tr, hr, t1, t2⟩

/-! ## the merged buffer -/

theorem flatten_sh (p : Bytes) (b : Base) : (shB p b).flatten.bytes.data = p ++ b.flatten.bytes.data := by
  obtain ⟨a1, a2⟩ := flatten_bytes (shB p b)
  obtain ⟨b1, b2⟩ := flatten_bytes b
  apply List.ext_getElem?
  intro x
  rw [a2]
  unfold ByteMap.fill
  rw [lenBuf_sh]
  by_cases hx : x < p.length
  · rw [if_pos (by omega), content_front _ _ _ hx, List.getElem?_append_left hx, List.getElem?_eq_getElem hx]; rfl
  · rw [List.getElem?_append_right (by omega), b2]
    unfold ByteMap.fill
    obtain ⟨y, rfl⟩ : ∃ y, x = y + p.length := ⟨x - p.length, by omega⟩
    rw [content_sh, Nat.add_sub_cancel]
    by_cases hy : y < b.lenBuf
    · rw [if_pos (by omega), if_pos hy]
    · rw [if_neg (by omega), if_neg hy]

/-- A table whose bytes have been merged. -/
theorem rep_flat {cel : Prop} {s : Sch} {nm : Name} {c : CNode} {cur : Nat → Option Bytes} (h : RepG cel s nm c cur none) (sp : Bytes) (tl : Nat) :
    RepG False s nm { name := nm, io := Base.new ⟨c.io.flatten.bytes.data, sp⟩, pos := c.pos, tlen := tl } cur none := by
  obtain ⟨t, vo, fx, hT, hV, hI, hN, hB, hW, hsum, -, hsz⟩ := h.ex
  have key : ∀ {x : Nat} {w : Bytes}, Holds c.io x w → Holds (Base.new ⟨c.io.flatten.bytes.data, sp⟩) x w := by
    intro x w hw
    obtain ⟨h1, h2⟩ := holds_flattened hw
    exact holds_flat hw.1 h2 h1
  have hup := lenBuf_upto hT.len hV hT.clean
  have hfl := (flatten_bytes c.io).1
  refine ⟨t, vo, fx, ⟨rfl, hT.pos, hT.hp, hT.ht, hT.t4, key hT.soff, key hT.vl, key hT.tl, fun i hi => key (hT.slot i hi), hT.abs,
    fun i hi w hw => ?_, hT.disj, fun d hd => (by cases hd), ?_⟩, fun d hd => (by cases hd), hI, hN, hB, hW, hsum, fun hf => hf.elim, rfl⟩
  · obtain ⟨a1, a2, a3⟩ := hT.fld i hi w hw
    exact ⟨a1, a2, key a3⟩
  · show c.io.flatten.bytes.data.length ≤ _
    omega

/-- The opened message. -/
theorem open_rep {cel : Prop} {s : Sch} {nm : Name} {c : CNode} {cur : Nat → Option Bytes} (h : RepG cel s nm c cur none) (sp : Bytes) :
    ∃ c0, openByBuf nm ⟨header c.pos ++ c.io.flatten.bytes.data, sp⟩ = some (shC (header c0.pos) c0) ∧ c0.pos = c.pos ∧ RepG False s nm c0 cur none := by
  obtain ⟨w1, -⟩ := rep_wire h (header c.pos)
  have hrp := rep_rootPos h
  rw [header_length, ← hrp] at w1
  obtain ⟨tl, ho⟩ := open_wire nm w1 sp
  refine ⟨{ name := nm, io := Base.new ⟨c.io.flatten.bytes.data, sp⟩, pos := c.pos, tlen := tl }, ?_, rfl, rep_flat h sp tl⟩
  rw [ho, hrp]
  simp only [shC, shB, Base.new, header_length, List.map_nil, Option.some.injEq, CNode.mk.injEq, true_and, and_true]
  omega

/-- Settings of a root of scalars and structs. -/
theorem run_in {cel : Prop} {s : Sch} {nm : Name} (hs : SchOk s nm) (hroot : s.root = nm) (hp : PlainTable s nm)
    (hfew : 12 + 2 * (s.fields nm).length < 65536) (fuel : Nat) {c : CNode} {cur : Nat → Option Bytes} (h : RepG cel s nm c cur none)
    (ops : List Setting) (hops : ∀ o ∈ ops, InlSrc s nm o.field o.node o.val) :
    ∃ c', runSets s (fuel + 4) (shC (header c.pos) c) ops = some (shC (header c'.pos) c') ∧ c'.pos = c.pos ∧
      RepG cel s nm c' (fun i => (lastSet ops i).or (cur i)) none := by
  induction ops using List.reverseRecOn with
  | nil => exact ⟨c, rfl, rfl, by simpa [lastSet] using h⟩
  | append_singleton l o ih =>
    obtain ⟨c1, h1, e1, r1⟩ := ih (fun o ho => hops o (List.mem_append_left _ ho))
    obtain ⟨c2, h2, r2⟩ := set_in hs (fuel := fuel + 3) r1 (p := header c1.pos) (fun t ht => root_front hs hroot hp hfew r1 fuel t ht) (hops o (by simp))
    have e2 : c2.pos = c1.pos := by
      obtain ⟨_, _, _, a, _⟩ := r1.ex
      obtain ⟨_, _, _, b, _⟩ := r2.ex
      rw [a.pos, b.pos]
    refine ⟨c2, ?_, by rw [e2, e1], ?_⟩
    · rw [runSets_append, h1]
      simp only [Option.bind_some, runSets, h2]
      rw [e2]
    · rw [lastSet_snoc]
      have : (fun i => ((fun j => if j = o.field then some o.val else lastSet l j) i).or (cur i)) =
          fun j => if j = o.field then some o.val else (lastSet l j).or (cur j) := by
        funext j
        by_cases hj : j = o.field <;> simp [hj]
      rw [this]
      exact r2

/-- Saving the edited message. -/
theorem finish_in {cel : Prop} {s : Sch} {nm : Name} (hs : SchOk s nm) (hroot : s.root = nm) (hp : PlainTable s nm)
    (hfew : 12 + 2 * (s.fields nm).length < 65536) {c : CNode} {cur : Nat → Option Bytes} (h : RepG cel s nm c cur none) :
    (shC (header c.pos) c).finish = some (header c.pos ++ c.io.flatten.bytes.data) := by
  obtain ⟨t, vo, fx, hT, -⟩ := h.ex
  have hin := (root_front hs hroot hp hfew h 0 t hT.tableLen).1
  unfold CNode.finish CNode.withHeader
  rw [hin]
  simp only [Option.bind_eq_bind, Option.bind_some, if_true, pure]
  rw [R_flatten]
  show some (shB (header c.pos) c.io).flatten.bytes.data = _
  rw [flatten_sh]

/-- A scalar or struct field of the table behind `p`. -/
theorem read_in {cel : Prop} {s : Sch} {nm : Name} (hs : SchOk s nm) {c : CNode} {cur : Nat → Option Bytes} {vec : Option (Nat × TI.Tail)}
    (h : RepG cel s nm c cur vec) {i : Nat} (hi : i < (s.fields nm).length) (hg : InlGrp ((s.fields nm)[i]).grp) (p : Bytes) :
    FieldRead s nm (shC p c) i (cur i) := by
  obtain ⟨t, vo, fx, hT, hV, hI, hN, hB, hW, hsum, -, hsz⟩ := h.ex
  have hfd := List.getElem?_eq_getElem hi
  have hfT : (shC p c).fieldT s (i : Int) = (s.fields nm)[i] := hT.fieldT_eq hfd
  have hz := isZero_sh (p := p) (hT.isZero hi)
  have hv := vtab_sh (p := p) (hT.vtab hi)
  have hfx := hI i _ hfd hg
  have hA : (shC p c).fieldAt s (i : Int) = if (fx i).isNone then some none else
      some (some { name := (s.fields nm)[i].tname, io := shB p c.io, pos := 4 + 2 * (s.fields nm).length + vo i + p.length, size := if (s.fields nm)[i].grp = ftStruct then -1 else (s.fields nm)[i].size }) := by
    unfold CNode.fieldAt
    rw [show (shC p c).name = nm from hT.name, hs.st, hz, hfT, hv]
    simp only [Option.bind_eq_bind, Option.bind_some, Bool.false_eq_true, if_false, pure]
    by_cases hn : (fx i).isNone = true
    · rw [if_pos hn, if_pos hn]
    · rw [if_neg hn, if_neg hn]
      by_cases hstr : ((s.fields nm)[i]).grp = ftStruct
      · rw [if_pos (by rw [hstr]; decide), if_pos hstr]; rfl
      · obtain ⟨f1, f2, f3, f4, f5, f6⟩ := inlGrp_flags hg hstr
        simp only [f1, f2, f3, f4, f5, f6, if_true, Bool.false_eq_true, if_false, hstr]
        rfl
  constructor
  · intro hc
    rw [hA, hfx, hc]; rfl
  · intro w hw
    rw [hw] at hfx
    obtain ⟨a1, a2, a3⟩ := hT.fld i hi w hfx
    have n3 := holds_sh (p := p) a3
    refine ⟨_, by rw [hA, hfx]; rfl, by simp [hfd], holds_getN' n3, fun req => (holds_read n3 req).2⟩

end Fbs
