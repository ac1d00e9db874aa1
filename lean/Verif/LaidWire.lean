import Verif.EditMsg
/-!
# A value laid out is a flatbuffers message

What `Val.Laid` says of the bytes, in the terms of the file format.
-/

namespace Fbs.Props
open Fbs CNode

theorem Frame.wire {s : Sch} {d : Bytes} {nm : Name} {cur : Nat → Option Bytes} {fld : Option Nat} {gap x t : Nat}
    (h : Frame s (Base.new ⟨d, []⟩) nm cur fld gap x t) (hc : ∀ i (hi : i < (s.fields nm).length), cur i ≠ none → InlGrp ((s.fields nm)[i]).grp) :
    WireTable d (x + (4 + 2 * (s.fields nm).length)) (s.fields nm).length ∧
    ∀ j, j < (s.fields nm).length → fld ≠ some j → WireField d (x + (4 + 2 * (s.fields nm).length)) j (cur j) := by
  obtain ⟨vo, fx, hT, h1, h2, -⟩ := h
  obtain ⟨w1, w2⟩ := wire_of hT.at_.tab []
  rw [flatten_new, List.nil_append, List.length_nil, Nat.zero_add] at w1 w2
  refine ⟨w1, ?_⟩
  intro j hj hf
  have hfd : (s.fields nm)[j]? = some (s.fields nm)[j] := List.getElem?_eq_getElem hj
  cases hcj : cur j with
  | none =>
    have hfx : fx j = none := by
      by_cases hg : InlGrp ((s.fields nm)[j]).grp
      · rw [h1 j _ hfd hg, hcj]
      · exact h2 j _ hfd hg hf
    show Fb.fieldPos _ _ _ = none
    rw [w2 j hj, if_pos (hT.at_.abs j hj hfx)]
  | some u =>
    obtain ⟨g1, g2⟩ := hT.at_.fld j hj u (by rw [h1 j _ hfd (hc j hj (by rw [hcj]; simp)), hcj])
    have := spelt_of (h := []) g2
    rw [flatten_new, List.nil_append, List.length_nil, Nat.zero_add] at this
    exact ⟨_, by rw [w2 j hj, if_neg g1], this⟩

theorem Frame.wire_tail {s : Sch} {d : Bytes} {nm : Name} {cur : Nat → Option Bytes} {gap x t i : Nat}
    (h : Frame s (Base.new ⟨d, []⟩) nm cur (some i) gap x t) (hi : i < (s.fields nm).length) (hgap : gap < 65536) :
    ∃ p, Fb.fieldPos d (x + (4 + 2 * (s.fields nm).length)) i = some p ∧ p + 4 ≤ d.length ∧
      Fb.follow d p = x + (4 + 2 * (s.fields nm).length + t) + gap := by
  obtain ⟨vo, fx, hT, -, -, h3⟩ := h
  obtain ⟨w1, w2⟩ := wire_of hT.at_.tab []
  rw [flatten_new, List.nil_append, List.length_nil, Nat.zero_add] at w1 w2
  have hfx := h3 i rfl
  obtain ⟨g1, g2⟩ := hT.at_.fld i hi _ hfx
  have ht := hT.ht
  obtain ⟨g3, g4⟩ := held_le g2 (by omega)
  have hw := hT.wid i _ _ (List.getElem?_eq_getElem hi) hfx
  rw [putLE_length] at hw
  refine ⟨_, by rw [w2 i hi, if_neg g1], g3, ?_⟩
  unfold Fb.follow
  rw [g4]
  omega

theorem laid_few {s : Sch} {b : Base} {v : Val} {x y : Nat} (h : v.Laid s b x y) : 4 + 2 * (s.fields v.name).length < 65536 := (laid_preLoad h).choose_spec.2

mutual
/-- The bytes in which the value lies hold it, for any reader of the format. -/
theorem Val.laid_wire {s : Sch} {d : Bytes} : ∀ (v : Val), v.Ok s → ∀ ⦃x y : Nat⦄, v.Laid s (Base.new ⟨d, []⟩) x y → y < 4294967296 →
    v.Wire s d (x + (4 + 2 * (s.fields v.name).length))
  | .tab nm pre sub post => by
    intro hok x y hl hy
    rw [Val.Ok] at hok
    obtain ⟨o1, o2, o3, o4, o5, o6, o7⟩ := hok
    rw [laid_frame] at hl
    obtain ⟨t, hF, hS⟩ := hl
    obtain ⟨w1, w2⟩ := hF.wire (fun i hi hv => lastSet_src o2 hi hv)
    rw [Val.name, Val.Wire]
    exact ⟨w1, w2, Sub.laid_wire sub o7 hF hS hy⟩
theorem Sub.laid_wire {s : Sch} {d : Bytes} {nm : Name} {cur : Nat → Option Bytes} {x t : Nat} : ∀ (sub : Sub), sub.Ok s nm cur →
    ∀ ⦃y : Nat⦄, Frame s (Base.new ⟨d, []⟩) nm cur sub.field (sub.gap s) x t →
    sub.Laid s (Base.new ⟨d, []⟩) (x + (4 + 2 * (s.fields nm).length + t)) y → y < 4294967296 → sub.Wire s d (x + (4 + 2 * (s.fields nm).length))
  | .none => by
    intro _ y _ _ _
    rw [Sub.Wire]
    trivial
  | .bytes i f data => by
    intro hok y hF hS hy
    rw [Sub.Ok] at hok
    obtain ⟨fd, h1, h2⟩ := hok
    rw [Sub.Laid] at hS
    rw [Sub.field, Sub.gap] at hF
    obtain ⟨p, p1, p2, p3⟩ := hF.wire_tail (List.getElem?_eq_some_iff.mp h1).1 (by omega)
    rw [Nat.add_zero] at p3
    have h4 := spelt_of (h := []) hS.1
    rw [flatten_new, List.nil_append, List.length_nil, Nat.zero_add] at h4
    obtain ⟨h5, h6⟩ := spelt_append h4
    rw [putLE_length] at h6
    have h7 := h6.1
    have h8 := le_spelt h5
    rw [Nat.mod_eq_of_lt (by omega)] at h8
    rw [Sub.Wire]
    refine ⟨p, p1, ⟨p2, by rw [p3, h8]; omega⟩, ?_⟩
    unfold Fb.bytesAt
    rw [p3, h8]
    exact h6.2
  | .table i fl v => by
    intro hok y hF hS hy
    rw [Sub.Ok] at hok
    obtain ⟨hv, fd, h1, -⟩ := hok
    rw [Sub.Laid] at hS
    rw [Sub.field, Sub.gap] at hF
    obtain ⟨p, p1, p2, p3⟩ := hF.wire_tail (List.getElem?_eq_some_iff.mp h1).1 (laid_few hS)
    rw [Sub.Wire]
    exact ⟨p, p1, p2, by rw [p3]; exact Val.laid_wire v hv hS hy⟩
  | .union i fl v => by
    intro hok y hF hS hy
    rw [Sub.Ok] at hok
    obtain ⟨hv, fd, tag, h1, -⟩ := hok
    rw [Sub.Laid] at hS
    rw [Sub.field, Sub.gap] at hF
    obtain ⟨p, p1, p2, p3⟩ := hF.wire_tail (List.getElem?_eq_some_iff.mp h1).1 (laid_few hS)
    rw [Sub.Wire]
    exact ⟨p, p1, p2, by rw [p3]; exact Val.laid_wire v hv hS hy⟩
  | .list i fl tn vs => by
    intro hok y hF hS hy
    rw [Sub.Ok] at hok
    obtain ⟨hv, -, fd, h1, -⟩ := hok
    rw [Sub.Laid] at hS
    rw [Sub.field, Sub.gap] at hF
    obtain ⟨p, p1, p2, p3⟩ := hF.wire_tail (List.getElem?_eq_some_iff.mp h1).1 (by omega)
    rw [Nat.add_zero] at p3
    have hle := Vals.laid_le vs hS.2
    obtain ⟨q1, q2⟩ := held_le hS.1 (by omega)
    rw [Sub.Wire]
    refine ⟨p, p1, p2, by rw [p3]; exact q1, by rw [p3]; exact q2, ?_⟩
    rw [p3]
    exact Vals.laid_wire vs hv hS.2 (by omega) hy
theorem Vals.laid_wire {s : Sch} {d : Bytes} {t : Name} : ∀ (vs : Vals), vs.Ok s t → ∀ ⦃A x y : Nat⦄, vs.Laid s (Base.new ⟨d, []⟩) A x y → A + 4 * vs.count ≤ x → y < 4294967296 →
    vs.Wire s d A
  | .nil => by
    intro _ A x y _ _ _
    rw [Vals.Wire]
    trivial
  | .cons fl v vs => by
    intro hok A x y h hA hy
    rw [Vals.Ok] at hok
    obtain ⟨h1, -, h3⟩ := hok
    rw [Vals.Laid] at h
    rw [Vals.count] at hA
    obtain ⟨z, g1, g2, g3⟩ := h
    have hf := laid_few g1
    have hx := Val.laid_le v g1
    have hz := Vals.laid_le vs g3
    obtain ⟨q1, q2⟩ := held_le g2 (by omega)
    rw [Vals.Wire]
    refine ⟨q1, ?_, Vals.laid_wire vs h3 g3 (by omega) hy⟩
    have : Fb.follow d A = x + (4 + 2 * (s.fields v.name).length) := by
      unfold Fb.follow
      rw [q2]
      omega
    rw [this]
    exact Val.laid_wire v h1 g1 (by omega)
end

end Fbs.Props
