import Verif.Access
import Verif.TableSet
/-!
# The typed setters on tables built by the API
-/

namespace Fbs
namespace TI

variable {nm : Name} {n t : Nat} {c : CNode} {vo : Nat → Nat} {fx : Nat → Option Bytes}

/-- Overwriting an inline value in place. -/
theorem update (h : TI nm n c t vo fx) {j : Nat} {w w' : Bytes} (hj : j < n) (hf : fx j = some w) (hl : w'.length = w.length)
    (c' : CNode) (hc : c'.name = c.name ∧ c'.pos = c.pos ∧ c'.io = c.io.updateU (4 + 2 * n + vo j) w'.length w') :
    TI nm n c' t vo (fun i => if i = j then some w' else fx i) := by
  obtain ⟨e1, e2, e3⟩ := hc
  obtain ⟨f1, f2, f3⟩ := h.fld j hj w hf
  have p1 : ∀ {x : Nat} {v : Bytes}, Holds c.io x v → x + v.length ≤ 4 + 2 * n + vo j ∨ 4 + 2 * n + vo j + w'.length ≤ x →
      Holds c'.io x v := by
    intro x v hv hd; rw [e3]; exact holds_updateU_other rfl hv hd
  refine ⟨by rw [e1, h.name], by rw [e2, h.pos], h.hp, h.ht, h.t4, p1 h.soff (by rw [putLE_length]; omega),
    p1 h.vl (by rw [putLE_length]; omega), p1 h.tl (by rw [putLE_length]; omega),
    fun i hi => p1 (h.slot i hi) (by rw [putLE_length]; omega), ?_, ?_, ?_, ?_, ?_⟩
  · intro i hi hh
    split at hh
    · cases hh
    · exact h.abs i hi hh
  · intro i hi v hv
    split at hv
    · rename_i hij
      cases hv; subst hij
      refine ⟨f1, by omega, ?_⟩
      rw [e3]
      refine holds_updateU_same ?_ ?_
      · intro h0
        have := List.length_pos_iff.mpr f3.1
        rw [h0] at hl; simp at hl; omega
      · rw [hl]; exact f3.2.1
    · rename_i hij
      obtain ⟨g1, g2, g3⟩ := h.fld i hi v hv
      refine ⟨g1, g2, p1 g3 ?_⟩
      have := h.disj i j hi hj hij v w hv hf
      omega
  · intro i k hi hk hik v v' hv hv'
    split at hv <;> split at hv'
    · omega
    · cases hv; subst_vars; have := h.disj _ k hi hk hik w v' hf hv'; omega
    · cases hv'; subst_vars; have := h.disj i _ hi hk hik v w hv hf; omega
    · exact h.disj i k hi hk hik v v' hv hv'
  · rw [e3]; exact clean_updateU rfl h.clean (by omega)
  · rw [e3, updateU_struct _ _ _ _ rfl]
    exact h.len

theorem below_update {b : Base} {off x : Nat} {w : Bytes} (h : Below b x) (hcl : Clean b x) (hw : w ≠ []) (hx : off + w.length ≤ x) :
    Below (b.updateU off w.length w) x := by
  have hp : 0 < w.length := List.length_pos_iff.mpr hw
  by_cases he : off + w.length = x
  · exact below_updateU_end rfl h hcl hp he
  · exact below_updateU rfl h (by omega)

end TI

/-- Overwriting the inline field `i` in the buffer of the table. -/
theorem rep_update {s : Sch} {nm : Name} {c : CNode} {cur : Nat → Option Bytes} {vec : Option (Nat × TI.Tail)}
    (h : Rep s nm c cur vec) (hs : SchOk s nm) {i : Nat} {fd : FieldT} (hfd : (s.fields nm)[i]? = some fd)
    (hg : InlGrp fd.grp) (hb : fd.grp ≠ ftStruct) {w w' : Bytes} (hc : cur i = some w) (hl : w'.length = w.length) :
    ∃ p, c.fieldAt s i = some (some { name := fd.tname, io := c.io, pos := p, size := fd.size }) ∧ fd.size = w.length ∧
      Rep s nm { c with io := c.io.updateU p w'.length w' } (fun j => if j = i then some w' else cur j) vec := by
  obtain ⟨t, vo, fx, hT, hV, hI, hN, hB, hW, ht, hCel, hsz⟩ := h.ex
  have hin : i < (s.fields nm).length := (List.getElem?_eq_some_iff.mp hfd).1
  have hfx : fx i = some w := by rw [hI i _ hfd hg, hc]
  obtain ⟨g1, g2, g3⟩ := hT.fld i hin w hfx
  have hwd := hW i fd w hfd hfx
  have hsize : fd.size = w.length := by
    rw [hwd]; unfold fieldWidth
    rw [if_neg hb, if_neg (inlGrp_notVec hg)]
  refine ⟨4 + 2 * (s.fields nm).length + vo i, ?_, hsize, ?_⟩
  · unfold CNode.fieldAt
    rw [hT.name, hs.st, hT.isZero hin, hfx, hT.fieldT_eq hfd, hT.vtab hin]
    simp only [Option.bind_eq_bind, Option.bind_some, Option.isNone_some, Bool.false_eq_true, if_false]
    rw [if_neg (by rw [inlGrp_struct hg]; simpa using hb), if_neg, if_neg, if_neg, if_neg, if_pos]
    · rfl
    all_goals rcases hg with h | h | h | h | h
    all_goals (first | exact absurd h hb | (rw [h]; decide))
  have hvne : ∀ j d, vec = some (j, d) → j ≠ i := by
    rintro j d rfl rfl
    obtain ⟨f', hf', hg'⟩ := hB (j, d) rfl
    rw [hfd] at hf'; cases hf'
    exact inlGrp_notVec hg hg'
  have hC := hT.update hin hfx hl
    { c with io := c.io.updateU (4 + 2 * (s.fields nm).length + vo i) w'.length w' } ⟨rfl, rfl, rfl⟩
  have hwne : w' ≠ [] := by
    intro h0
    have := List.length_pos_iff.mpr g3.1
    rw [h0] at hl; simp at hl; omega
  refine ⟨t, vo, _, hC, ?_, ?_, ?_, hB, ?_, ?_, fun hc => hT.cellular_update (hCel hc) hin hfx hl, hsz⟩
  · cases hvec : vec with
    | none =>
      rw [hvec] at hV
      exact TI.below_update hV hT.clean hwne (by omega)
    | some p =>
      obtain ⟨j, d⟩ := p
      rw [hvec] at hV
      obtain ⟨v1, v0, v2, v3⟩ := hV
      refine ⟨v1, v0, ?_, ?_⟩
      · simp only [if_neg (hvne j d hvec)]; exact v2
      · exact fun q hq => holds_updateU_other rfl (v3 q hq) (by omega)
  · intro j fj hj hgj
    by_cases hji : j = i
    · simp only [if_pos hji]
    · simp only [if_neg hji]; exact hI j fj hj hgj
  · intro j fj hj hgj
    have hji : j ≠ i := by rintro rfl; rw [hfd] at hj; cases hj; exact hgj hg
    simp only [if_neg hji]; exact hN j fj hj hgj
  · intro j fj v hj hv
    by_cases hji : j = i
    · subst hji; simp only [if_true] at hv; cases hv; rw [hfd] at hj; cases hj; rw [hl]; exact hwd
    · simp only [if_neg hji] at hv; exact hW j fj v hj hv
  · rw [ht]; congr 3
    funext j
    by_cases hji : j = i
    · subst hji; simp only [if_true, hfx, Option.map_some, Option.getD_some, hl]
    · simp only [if_neg hji]

end Fbs
