import Verif.TabCells
/-!
# C84: making room in front of and behind a table
-/

namespace Fbs.Props
open Fbs CNode

theorem clean_zero (b : Base) : Clean b 0 := fun d _ => straddles_zero d

theorem clean_behind {b : Base} {p : Nat} (h : b.lenBuf ≤ p) : Clean b p := by
  intro d hd hs
  have := mem_le_maxEnd b.bytes.len b.diffs d hd
  rw [← lenBuf_eq] at this
  unfold Straddles at hs
  omega

theorem insert_eq {s : Sch} {nm : Name} (hs : SchOk s nm) {c : CNode} {cur : Nat → Option Bytes} {vec : Option (Nat × TI.Tail)}
    (h : Rep s nm c cur vec) (p k : Nat) (cr : Bool) (hp : p = 0 ∨ c.io.lenBuf ≤ p) :
    ∃ d, c.insertSpace s fuel p k cr = some { c with io := c.io.insertSpace p k cr, pos := c.pos + d } ∧
      ∀ y w, Holds c.io y w → Holds (c.io.insertSpace p k cr) (y + d) w := by
  obtain ⟨t, vo, fx, hT, -⟩ := h.ex
  have hl : c.isList = some false := by
    unfold CNode.isList
    obtain ⟨h2, h3⟩ := hs.tn
    rw [hT.name, if_neg (by rintro ⟨h0, -⟩; rw [h0] at h2; simp at h2), if_neg (by omega), decide_eq_false h3]
  have hpos := hT.pos
  have hin := rep_inRoot h
  rcases hp with rfl | hp
  · refine ⟨k, ?_, fun y w hw => holds_insertSpace_ge (clean_zero _) hw (Nat.zero_le _)⟩
    rw [CNode.insertSpace_out hin, hl]
    simp only [Option.bind_eq_bind, Option.bind_some, Bool.false_eq_true, if_false]
    rw [if_pos (by omega)]
    rfl
  · refine ⟨0, ?_, fun y w hw => holds_insertSpace_lt (clean_behind hp) hw (by have := holds_lenBuf hw; omega)⟩
    have := holds_lenBuf hT.soff
    rw [putLE_length] at this
    rw [CNode.insertSpace_out hin, hl]
    simp only [Option.bind_eq_bind, Option.bind_some, Bool.false_eq_true, if_false]
    rw [if_neg (by omega)]
    rfl

/-- C84: after `InsertBuf` or `InsertSpace` in front of or behind a table built by the API, the handle still
names the table: every scalar and struct field reads as before. -/
theorem insert_outside_partial (s : Sch) (nm : Name) (hs : SmallTable s nm) (fuel : Nat) (ops : List Setting)
    (hops : ∀ o ∈ ops, InlSrc s nm o.field o.node o.val) :
    ∃ c, build s (fuel + 1) nm ops = some c ∧ ∀ p k cr, (p = 0 ∨ c.io.lenBuf ≤ p) →
      ∃ c', c.insertSpace s fuel p k cr = some c' ∧ c'.name = nm ∧ FieldsRead s nm c' (lastSet ops) := by
  obtain ⟨g, hg, hgs⟩ := hs.notList
  obtain ⟨c0, h0, r0⟩ := init_rep hs.ok hg hgs
  obtain ⟨c, h1, r1⟩ := inline_run hs.ok fuel r0 ops hops
  simp only [Option.or_none] at r1
  refine ⟨c, by unfold build; rw [h0]; exact h1, ?_⟩
  intro p k cr hp
  obtain ⟨d, h2, h3⟩ := insert_eq hs.ok r1 p k cr hp
  obtain ⟨t, vo, fx, hT, hV, hI, hN, -⟩ := r1.ex
  refine ⟨_, h2, hT.name, fun i hi => ?_⟩
  have hF := FldAt_move (TI_fldAt hT) h3
  have hcur : fx i = lastSet ops i := by
    by_cases hgi : InlGrp ((s.fields nm)[i]).grp
    · exact hI i _ (List.getElem?_eq_getElem hi) hgi
    · rcases hN i _ (List.getElem?_eq_getElem hi) hgi with ⟨a, b, -⟩ | ⟨d, a, -⟩
      · rw [a, b]
      · cases a
  rw [← hcur]
  exact fldAt_read (c := { c with io := c.io.insertSpace p k cr, pos := c.pos + d }) hs.ok.st hF hT.name rfl (by simp only; rw [hT.pos]; omega) hi (by rw [hcur]; exact lastSet_src hops hi)

/-- C84 with a byte vector among the fields. -/
theorem insert_outside_vector_partial (s : Sch) (nm : Name) (hs : SmallTable s nm) (fuel : Nat) (pre post : List Setting)
    (o : Setting) (hpre : ∀ o ∈ pre, InlSrc s nm o.field o.node o.val)
    (hpost : ∀ o ∈ post, InlSrc s nm o.field o.node o.val)
    (ho : VecSrc s (fuel + 1) nm o.field o.node o.val) (hlen : o.val.length < 4294967296) :
    ∃ c, build s (fuel + 1) nm (pre ++ o :: post) = some c ∧ ∀ p k cr, (p = 0 ∨ c.io.lenBuf ≤ p) →
      ∃ c', c.insertSpace s fuel p k cr = some c' ∧ c'.name = nm ∧
        (∃ nd, c'.fieldAt s o.field = some (some nd) ∧ CNode.bytes (some nd) = some o.val) ∧
        ∀ i, i < (s.fields nm).length → i ≠ o.field → FieldRead s nm c' i (lastSet (pre ++ post) i) := by
  obtain ⟨g, hg, hgs⟩ := hs.notList
  obtain ⟨c0, h0, r0⟩ := init_rep hs.ok hg hgs
  obtain ⟨c1, h1, r1⟩ := inline_run hs.ok fuel r0 pre hpre
  obtain ⟨c2, h2, r2⟩ := set_vector hs.ok (fuel := fuel + 1) r1 ho
  obtain ⟨c, h3, r3⟩ := inline_run hs.ok fuel r2 post hpost
  refine ⟨c, ?_, ?_⟩
  · unfold build
    rw [h0]
    show runSets s (fuel + 1) c0 _ = _
    rw [runSets_append, h1]
    simp only [Option.bind_some, runSets, h2]
    exact h3
  intro p k cr hp
  obtain ⟨d, q2, q3⟩ := insert_eq hs.ok r3 p k cr hp
  obtain ⟨t, vo, fx, hT, hV, hI, hN, -⟩ := r3.ex
  obtain ⟨v1, v0, v2, v3⟩ := hV
  have hF := FldAt_move (TI_fldAt hT) q3
  have hpos : (c.pos + d) = 0 + d + (4 + 2 * (s.fields nm).length) := by rw [hT.pos]; omega
  refine ⟨_, q2, hT.name, ?_, ?_⟩
  · obtain ⟨fd, hfd, hgf, -⟩ := ho
    obtain ⟨g1, g2, -⟩ := hT.fld o.field v1 _ v2
    rw [putLE_length] at g2
    have ht := hT.ht
    refine fldAt_vector (c := { c with io := c.io.insertSpace p k cr, pos := c.pos + d }) hs.ok.st hF hT.name rfl hpos hfd hgf (by omega) v2 ?_ hlen
    have := q3 _ _ (v3 (0, putLE 4 o.val.length ++ o.val) (by simp [vecTail]))
    simp only [vecTail, Nat.add_zero] at this ⊢
    rw [show c.pos + d + vo o.field + (t - vo o.field) = 4 + 2 * (s.fields nm).length + t + d by rw [hT.pos]; omega]
    exact this
  · intro i hi hne
    have hall := settings_append hpre hpost
    have e : (lastSet post i).or (if i = o.field then some o.val else (lastSet pre i).or none) = lastSet (pre ++ post) i := by
      simp only [if_neg hne, Option.or_none]
      rw [lastSet_append]
    have hcur : fx i = lastSet (pre ++ post) i := by
      by_cases hgi : InlGrp ((s.fields nm)[i]).grp
      · rw [hI i _ (List.getElem?_eq_getElem hi) hgi]; exact e
      · rcases hN i _ (List.getElem?_eq_getElem hi) hgi with ⟨a, b, -⟩ | ⟨d, a, -⟩
        · rw [a, ← e]; exact b.symm
        · cases a; exact absurd rfl hne
    rw [← hcur]
    exact fldAt_read (c := { c with io := c.io.insertSpace p k cr, pos := c.pos + d }) hs.ok.st hF hT.name rfl hpos hi (by rw [hcur]; exact lastSet_src hall hi)

/-- C84 is violated inside the table: after `InsertBuf` at the position of the table itself the handle no longer
finds it (the position is not moved: only positions behind the insertion point are). -/
theorem insert_at_table_fails :
    (do let c ← build editSch 9 "TT".toList [⟨2, fromScalar "Int16".toList 2 7, putLE 2 7⟩, ⟨0, fromScalar "Int32".toList 4 9, putLE 4 9⟩]
        let c' ← c.insertSpace editSch 5 c.pos 8 true
        let a ← c.fieldAt editSch 0
        let v ← scalar 4 a
        return (v, c'.pos == c.pos, (do let a ← c'.fieldAt editSch 0; scalar 4 a) == some v)) = some (9, true, false) := by decide +kernel

/-- C84 is violated between the vtable and the table: the distance to the vtable is not adjusted, so after
`InsertBuf(0 < p ≤ the vtable's end)` the table is read with a wrong vtable. -/
theorem insert_vtable_fails :
    (do let c ← build editSch 9 "TT".toList [⟨2, fromScalar "Int16".toList 2 7, putLE 2 7⟩]
        let c' ← c.insertSpace editSch 5 (c.pos - 2) 2 true
        let a ← c.fieldAt editSch 2
        let v ← scalar 2 a
        return (v, (do let a ← c'.fieldAt editSch 2; scalar 2 a) == some v)) = some (7, false) := by decide +kernel

-- the hypotheses can be met
example : ∃ c, build editSch 3 "TT".toList [⟨2, fromScalar "Int16".toList 2 7, putLE 2 7⟩] = some c ∧
    ∀ p k cr, (p = 0 ∨ c.io.lenBuf ≤ p) → ∃ c', c.insertSpace editSch 2 p k cr = some c' ∧ c'.name = "TT".toList ∧
      FieldsRead editSch "TT".toList c' (lastSet [⟨2, fromScalar "Int16".toList 2 7, putLE 2 7⟩]) :=
  insert_outside_partial editSch _ editSch_ok 2 _ (by
    intro o ho
    simp only [List.mem_singleton] at ho
    subst ho
    exact fromScalar_src _ _ 2 2 7 ⟨"Int16".toList, ftBasic2, some .int16⟩ (by decide) rfl (by decide) rfl)

end Fbs.Props
