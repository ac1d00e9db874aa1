import Verif.EditMsg

/-!
# Where the tables of a message stay when fields of others are set in place

A handle keeps the place of its table (node.go 45-56, `Node.Pos`).  `startOf` is the place of the table at the end of a path, as
the bytes give it; setting in place, in any table of the message, leaves it as it is.
-/
namespace Fbs.Props
open Fbs CNode

/-- The place of the value at the end of the path, in bytes where the whole value is at `x`. -/
def startOf (s : Sch) (b : Base) : List Hop → Val → Nat → Option Nat
  | [], _, x => some x
  | .field i :: p, .tab nm _ (.table i' _ v) _, x =>
    if i' = i then (CNode.preLoad b (x + (4 + 2 * (s.fields nm).length))).bind fun t => startOf s b p v (x + (4 + 2 * (s.fields nm).length + t)) else none
  | .member i :: p, .tab nm _ (.union i' _ v) _, x =>
    if i' + 1 = i then (CNode.preLoad b (x + (4 + 2 * (s.fields nm).length))).bind fun t => startOf s b p v (x + (4 + 2 * (s.fields nm).length + t)) else none
  | .elem i k :: p, .tab nm _ (.list i' _ _ vs) _, x =>
    if i' = i then (CNode.preLoad b (x + (4 + 2 * (s.fields nm).length))).bind fun t => (vs.get k).bind fun u =>
      startOf s b p u (x + (4 + 2 * (s.fields nm).length + t) + 4 + 4 * k + rd b (x + (4 + 2 * (s.fields nm).length + t) + 4 + 4 * k) - (4 + 2 * (s.fields u.name).length))
    else none
  | _, _, _ => none

section
variable {s : Sch} {b b' : Base}

theorem startOf_field {i : Nat} {p : List Hop} {nm : Name} {pre post : List Setting} {fl : Bool} {v : Val} {x t : Nat}
    (h : CNode.preLoad b (x + (4 + 2 * (s.fields nm).length)) = some t) :
    startOf s b (.field i :: p) (.tab nm pre (.table i fl v) post) x = startOf s b p v (x + (4 + 2 * (s.fields nm).length + t)) := by
  rw [startOf, if_pos rfl, h, Option.bind_some]

theorem startOf_member {i : Nat} {p : List Hop} {nm : Name} {pre post : List Setting} {fl : Bool} {v : Val} {x t : Nat}
    (h : CNode.preLoad b (x + (4 + 2 * (s.fields nm).length)) = some t) :
    startOf s b (.member (i + 1) :: p) (.tab nm pre (.union i fl v) post) x = startOf s b p v (x + (4 + 2 * (s.fields nm).length + t)) := by
  rw [startOf, if_pos rfl, h, Option.bind_some]

theorem startOf_elem {i k : Nat} {p : List Hop} {nm tn : Name} {pre post : List Setting} {fl : Bool} {vs : Vals} {u : Val} {x t e x' : Nat}
    (h : CNode.preLoad b (x + (4 + 2 * (s.fields nm).length)) = some t) (hu : vs.get k = some u) (he : e = x + (4 + 2 * (s.fields nm).length + t))
    (hc : Holds b (e + 4 + 4 * k) (putLE 4 (x' + (4 + 2 * (s.fields u.name).length) - (e + 4 + 4 * k)))) (h1 : e + 4 + 4 * k ≤ x')
    (h2 : x' + (4 + 2 * (s.fields u.name).length) < 4294967296) :
    startOf s b (.elem i k :: p) (.tab nm pre (.list i fl tn vs) post) x = startOf s b p u x' := by
  subst he
  rw [startOf, if_pos rfl, h, Option.bind_some, hu, Option.bind_some, rd_holds hc (by omega)]
  congr 1
  omega

/-- Where a value is laid out, its parts are where `startOf` says. -/
theorem start_ctx {w : Val} {X Y : Nat} (hw : w.Laid s b X Y) : ∀ (p : List Hop) (v : Val) {x y : Nat} {L : List PList}, Ctx s b w X Y p v x y L → y < 4294967296 →
    startOf s b p v x = some X
  | [], v, x, y, L, h, _ => by
    rw [Ctx] at h
    obtain ⟨rfl, rfl, rfl, rfl⟩ := h
    rfl
  | st :: p, .tab nm pre sub post, x, y, L, h, hy => by
    rcases ctx_view h with ⟨i, fl, v, t, rfl, rfl, h1, h2⟩ | ⟨i, fl, v, t, rfl, rfl, h1, h2⟩ | ⟨i, k, fl, tn, vs, t, e, L', rfl, rfl, h1, he, h2, h3, rfl⟩
    · rw [startOf_field h1.preLoad]
      exact start_ctx hw p v h2 hy
    · rw [startOf_member h1.preLoad]
      exact start_ctx hw p v h2 hy
    · obtain ⟨u, x', z, g1, g2, g3, g4, g5⟩ := lctx_in _ _ h3
      have hk := Vals.get_lt vs k g1
      have hl := Val.laid_le u (ctx_laid hw p u g2)
      rw [startOf_elem h1.preLoad g1 he g5 (by omega) (by omega)]
      exact start_ctx hw p u g2 (by omega)

/-- The elements of a list are one behind the other. -/
theorem lctx_apart {C : Val → Nat → Nat → Prop} (hC : ∀ v x z, C v x z → x ≤ z) :
    ∀ (k : Nat) (vs : Vals) {A x y : Nat}, LCtx s b C k vs A x y → ∃ v x' z, vs.get k = some v ∧ C v x' z ∧ x ≤ x' ∧ z ≤ y ∧
      Holds b (A + 4 * k) (putLE 4 (x' + (4 + 2 * (s.fields v.name).length) - (A + 4 * k))) ∧
      ∀ j u, j ≠ k → vs.get j = some u → ∃ a c, u.Laid s b a c ∧ x ≤ a ∧ c ≤ y ∧ (c ≤ x' ∨ z ≤ a) ∧
        Holds b (A + 4 * j) (putLE 4 (a + (4 + 2 * (s.fields u.name).length) - (A + 4 * j)))
  | _, .nil, _, _, _, h => by rw [LCtx] at h; exact h.elim
  | 0, .cons fl v vs, A, x, y, h => by
    rw [LCtx] at h
    obtain ⟨z, h1, h2, h3⟩ := h
    have hx := hC _ _ _ h1
    refine ⟨v, x, z, rfl, h1, Nat.le_refl _, Vals.laid_le vs h3, h2, ?_⟩
    intro j u hj hu
    match j, hj, hu with
    | 0, hj, _ => exact absurd rfl hj
    | j + 1, _, hu =>
      rw [Vals.get] at hu
      obtain ⟨a, c, g1, g2⟩ := laid_lctx j vs h3 hu
      obtain ⟨u', a', c', e1, ⟨e2, e3, e4⟩, e5, e6, e7⟩ := lctx_in (C := fun u' a' c' => u' = u ∧ a' = a ∧ c' = c) j vs (g2 _ ⟨rfl, rfl, rfl⟩)
      subst e2 e3 e4
      rw [show A + 4 + 4 * j = A + 4 * (j + 1) by omega] at e7
      exact ⟨_, _, g1, by omega, e6, Or.inr e5, e7⟩
  | k + 1, .cons fl v vs, A, x, y, h => by
    rw [LCtx] at h
    obtain ⟨z, h1, h2, h3⟩ := h
    have hv := Val.laid_le v h1
    obtain ⟨v', x', z', g1, g2, g3, g4, g5, g6⟩ := lctx_apart hC k vs h3
    have hx := hC _ _ _ g2
    rw [show A + 4 + 4 * k = A + 4 * (k + 1) by omega] at g5
    refine ⟨v', x', z', g1, g2, by omega, g4, g5, ?_⟩
    intro j u hj hu
    match j, hj, hu with
    | 0, _, hu =>
      rw [Vals.get] at hu
      cases hu
      exact ⟨x, z, h1, Nat.le_refl _, by omega, Or.inl g3, h2⟩
    | j + 1, hj, hu =>
      rw [Vals.get] at hu
      obtain ⟨a, c, e1, e2, e3, e4, e5⟩ := g6 j u (by omega) hu
      rw [show A + 4 + 4 * j = A + 4 * (j + 1) by omega] at e5
      exact ⟨a, c, e1, by omega, e3, e4, e5⟩

/-- Bytes that stay keep the places of what they hold. -/
theorem start_keep : ∀ (p : List Hop) (v : Val) {x y : Nat}, v.Laid s b x y → y < 4294967296 → Moves b b' x y 0 → startOf s b' p v x = startOf s b p v x
  | [], _, _, _, _, _, _ => rfl
  | st :: p, .tab nm pre sub post, x, y, h, hy, hm => by
    rw [laid_frame] at h
    obtain ⟨t, h1, h2⟩ := h
    have hle := Sub.laid_le sub h2
    have h1' := h1.moved (hm.sub (Nat.le_refl _) hle)
    have hm2 := hm.sub (x' := x + (4 + 2 * (s.fields nm).length + t)) (by omega) (Nat.le_refl y)
    have e1 := h1.preLoad
    have e2 := h1'.preLoad
    rw [Nat.add_zero] at e2
    cases st with
    | field i =>
      cases sub with
      | table i' fl v =>
        by_cases hi : i' = i
        · subst hi
          rw [Sub.Laid] at h2
          rw [startOf_field e1, startOf_field e2]
          exact start_keep p v h2 hy hm2
        · rw [startOf, startOf, if_neg hi, if_neg hi]
      | none => rfl
      | bytes _ _ _ => rfl
      | union _ _ _ => rfl
      | list _ _ _ _ => rfl
    | member i =>
      cases sub with
      | union i' fl v =>
        by_cases hi : i' + 1 = i
        · subst hi
          rw [Sub.Laid] at h2
          rw [startOf_member e1, startOf_member e2]
          exact start_keep p v h2 hy hm2
        · rw [startOf, startOf, if_neg hi, if_neg hi]
      | none => rfl
      | bytes _ _ _ => rfl
      | table _ _ _ => rfl
      | list _ _ _ _ => rfl
    | elem i k =>
      cases sub with
      | list i' fl tn vs =>
        by_cases hi : i' = i
        · subst hi
          rw [Sub.Laid] at h2
          cases hu : vs.get k with
          | none => rw [startOf, startOf, if_pos rfl, if_pos rfl, e1, e2, Option.bind_some, Option.bind_some, hu]; rfl
          | some u =>
            obtain ⟨a, c, g1, g2⟩ := laid_lctx k vs h2.2 hu
            obtain ⟨u', a', c', d1, ⟨d2, d3, d4⟩, d5, d6, d7⟩ := lctx_in (C := fun u' a' c' => u' = u ∧ a' = a ∧ c' = c) k vs (g2 _ ⟨rfl, rfl, rfl⟩)
            subst d2 d3 d4
            have hk := Vals.get_lt vs k hu
            have hl := Val.laid_le _ g1
            rw [startOf_elem e1 hu rfl d7 (by omega) (by omega), startOf_elem e2 hu rfl (x' := a') (by
                have := hm2 _ _ d7 (by omega) (by rw [putLE_length]; omega)
                exact this) (by omega) (by omega)]
            exact start_keep p _ g1 (by omega) (hm.sub (by omega) (by omega))
        · rw [startOf, startOf, if_neg hi, if_neg hi]
      | none => rfl
      | bytes _ _ _ => rfl
      | table _ _ _ => rfl
      | union _ _ _ => rfl

theorem Vals.get_put_same : ∀ (vs : Vals) (k : Nat) {u : Val} (w : Val), vs.get k = some u → (vs.put k w).get k = some w
  | .nil, _, _, _, h => by cases h
  | .cons _ _ vs, 0, _, _, _ => rfl
  | .cons _ _ vs, k + 1, _, w, h => by rw [Vals.put, Vals.get]; exact Vals.get_put_same vs k w h

theorem Vals.get_put_other : ∀ (vs : Vals) (k j : Nat) (w : Val), j ≠ k → (vs.put k w).get j = vs.get j
  | .nil, _, _, _, _ => rfl
  | .cons _ _ vs, 0, 0, _, h => absurd rfl h
  | .cons _ _ vs, 0, j + 1, _, _ => rfl
  | .cons _ _ vs, k + 1, 0, _, _ => rfl
  | .cons _ _ vs, k + 1, j + 1, w, h => by rw [Vals.put, Vals.get, Vals.get]; exact Vals.get_put_other vs k j w (by omega)

/-- Setting fields of the table at the end of `q` in place moves nothing. -/
theorem start_edit {nm : Name} {pre post post' : List Setting} {sub : Sub} {X Y T : Nat} {cur : Nat → Option Bytes}
    (hw : (Val.tab nm pre sub post).Laid s b X Y) (hT : Frame s b' nm cur sub.field (sub.gap s) X T)
    (hT0 : CNode.preLoad b (X + (4 + 2 * (s.fields nm).length)) = some T)
    (hk : ∀ z w, Holds b z w → (z + w.length ≤ X ∨ X + (4 + 2 * (s.fields nm).length) + T ≤ z) → Holds b' z w) :
    ∀ (q : List Hop) (v : Val) {x y : Nat} {L : List PList}, Ctx s b (.tab nm pre sub post) X Y q v x y L → y < 4294967296 →
      ∀ p, startOf s b' p (v.put q (.tab nm pre sub post')) x = startOf s b p v x
  | [], v, x, y, L, h, hy, [] => rfl
  | [], v, x, y, L, h, hy, st :: p => by
    rw [Ctx] at h
    obtain ⟨rfl, rfl, rfl, -⟩ := h
    rw [Val.put]
    rw [laid_frame] at hw
    obtain ⟨t, h1, h2⟩ := hw
    have e1 := h1.preLoad
    rw [hT0] at e1
    cases e1
    have e2 := hT.preLoad
    have hm2 : ∀ z : Nat, Moves b b' (x + (4 + 2 * (s.fields nm).length + T)) z 0 := fun _ z w hz h3 _ => hk z w hz (Or.inr (by omega))
    cases st with
    | field i =>
      cases sub with
      | table i' fl v =>
        by_cases hi : i' = i
        · subst hi
          rw [Sub.Laid] at h2
          rw [startOf_field hT0, startOf_field e2]
          exact start_keep p v h2 hy (hm2 _)
        · rw [startOf, startOf, if_neg hi, if_neg hi]
      | none => rfl
      | bytes _ _ _ => rfl
      | union _ _ _ => rfl
      | list _ _ _ _ => rfl
    | member i =>
      cases sub with
      | union i' fl v =>
        by_cases hi : i' + 1 = i
        · subst hi
          rw [Sub.Laid] at h2
          rw [startOf_member hT0, startOf_member e2]
          exact start_keep p v h2 hy (hm2 _)
        · rw [startOf, startOf, if_neg hi, if_neg hi]
      | none => rfl
      | bytes _ _ _ => rfl
      | table _ _ _ => rfl
      | list _ _ _ _ => rfl
    | elem i k =>
      cases sub with
      | list i' fl tn vs =>
        by_cases hi : i' = i
        · subst hi
          rw [Sub.Laid] at h2
          cases hu : vs.get k with
          | none => rw [startOf, startOf, if_pos rfl, if_pos rfl, hT0, e2, Option.bind_some, Option.bind_some, hu]; rfl
          | some u =>
            obtain ⟨a, c, g1, g2⟩ := laid_lctx k vs h2.2 hu
            obtain ⟨u', a', c', d1, ⟨d2, d3, d4⟩, d5, d6, d7⟩ := lctx_in (C := fun u' a' c' => u' = u ∧ a' = a ∧ c' = c) k vs (g2 _ ⟨rfl, rfl, rfl⟩)
            subst d2 d3 d4
            have hk := Vals.get_lt vs k hu
            have hl := Val.laid_le _ g1
            rw [startOf_elem hT0 hu rfl d7 (by omega) (by omega), startOf_elem e2 hu rfl (x' := a') (by
                have := hm2 _ _ _ d7 (by omega) (Nat.le_refl _)
                exact this) (by omega) (by omega)]
            exact start_keep p _ g1 (by omega) ((hm2 _).sub (by omega) (Nat.le_refl _))
        · rw [startOf, startOf, if_neg hi, if_neg hi]
      | none => rfl
      | bytes _ _ _ => rfl
      | table _ _ _ => rfl
      | union _ _ _ => rfl
  | st :: q, .tab nm2 pre2 sub2 post2, x, y, L, h, hy, p => by
    cases p with
    | nil => rw [startOf, startOf]
    | cons st' p =>
    have ih := start_edit (post' := post') hw hT hT0 hk q
    have hXY := Val.laid_le _ hw
    have hTY : X + (4 + 2 * (s.fields nm).length) + T ≤ Y := by
      rw [laid_frame] at hw
      obtain ⟨t, h1, h2⟩ := hw
      have e1 := h1.preLoad
      rw [hT0] at e1
      cases e1
      have := Sub.laid_le sub h2
      omega
    rcases ctx_view h with ⟨i, fl, v, t, rfl, rfl, h1, h2⟩ | ⟨i, fl, v, t, rfl, rfl, h1, h2⟩ | ⟨i, k, fl, tn, vs, t, e, L', rfl, rfl, h1, he, h2, h3, rfl⟩
    · obtain ⟨g1, -⟩ := ctx_bounds q v h2
      have h1' := h1.moved (b' := b') (k := 0) (fun z w hz h4 h5 => hk z w hz (Or.inl (by omega)))
      have e1 := h1.preLoad
      have e2 := h1'.preLoad
      rw [Nat.add_zero] at e2
      rw [Val.put]
      cases st' with
      | field i' =>
        by_cases hi : i = i'
        · subst hi
          rw [startOf_field e1, startOf_field e2]
          exact ih v h2 hy p
        · rw [startOf, startOf, if_neg hi, if_neg hi]
      | member _ => rfl
      | elem _ _ => rfl
    · obtain ⟨g1, -⟩ := ctx_bounds q v h2
      have h1' := h1.moved (b' := b') (k := 0) (fun z w hz h4 h5 => hk z w hz (Or.inl (by omega)))
      have e1 := h1.preLoad
      have e2 := h1'.preLoad
      rw [Nat.add_zero] at e2
      rw [Val.put]
      cases st' with
      | member i' =>
        by_cases hi : i + 1 = i'
        · subst hi
          rw [startOf_member e1, startOf_member e2]
          exact ih v h2 hy p
        · rw [startOf, startOf, if_neg hi, if_neg hi]
      | field _ => rfl
      | elem _ _ => rfl
    · obtain ⟨u, x', z, d1, d2, d3, d4, d5, d6⟩ := lctx_apart (fun v x z hc => by
        have := Val.laid_le v (ctx_laid hw q v hc); omega) _ _ h3
      obtain ⟨g1, g2, -⟩ := ctx_bounds q u d2
      have hkc := Vals.get_lt vs k d1
      have hlu := Val.laid_le u (ctx_laid hw q u d2)
      have h1' := h1.moved (b' := b') (k := 0) (fun z w hz h4 h5 => hk z w hz (Or.inl (by omega)))
      have e1 := h1.preLoad
      have e2 := h1'.preLoad
      rw [Nat.add_zero] at e2
      rw [Val.put, d1]
      cases st' with
      | elem i' j =>
        by_cases hi : i = i'
        · subst hi
          by_cases hj : j = k
          · subst hj
            have hn : (u.put q (.tab nm pre sub post')).name = u.name := sel_put_name (w := .tab nm pre sub post) (w' := .tab nm pre sub post') rfl q u (ctx_sel q u d2)
            rw [startOf_elem e1 d1 he d5 (by omega) (by omega),
              startOf_elem e2 (Vals.get_put_same vs _ _ d1) he (by rw [hn]; exact hk _ _ d5 (Or.inl (by rw [putLE_length]; omega))) (by omega) (by rw [hn]; omega)]
            exact ih u d2 (by omega) p
          · cases hu : vs.get j with
            | none =>
              have hu' : (vs.put k (u.put q (.tab nm pre sub post'))).get j = none := by rw [Vals.get_put_other vs k j _ hj]; exact hu
              rw [startOf, startOf, if_pos rfl, if_pos rfl, e1, e2, Option.bind_some, Option.bind_some, hu]
              simp only
              rw [hu']; rfl
            | some u2 =>
              obtain ⟨a, c, f1, f2, f3, f4, f5⟩ := d6 j u2 hj hu
              have hjc := Vals.get_lt vs j hu
              have hl2 := Val.laid_le u2 f1
              rw [startOf_elem e1 hu he f5 (by omega) (by omega),
                startOf_elem e2 (u := u2) (x' := a) (by rw [Vals.get_put_other vs k j _ hj]; exact hu) he (hk _ _ f5 (Or.inl (by rw [putLE_length]; omega))) (by omega) (by omega)]
              exact start_keep p u2 f1 (by omega) (fun z w hz h4 h5 => hk z w hz (by omega))
        · rw [startOf, startOf, if_neg hi, if_neg hi]
      | field _ => rfl
      | member _ => rfl

end

/-! ## the values at the ends of two paths -/

/-- Another table of the message, after one is replaced. -/
theorem sel_put_other {nm : Name} {pre post post' : List Setting} {sub : Sub} : ∀ (q : List Hop) (v : Val), v.sel q = some (.tab nm pre sub post) →
    ∀ (p : List Hop) {w : Val}, v.sel p = some w → ∃ w', (v.put q (.tab nm pre sub post')).sel p = some w' ∧ w'.name = w.name
  | [], v, h, p, w, hp => by
    rw [Val.sel] at h
    cases h
    rw [Val.put]
    cases p with
    | nil => rw [Val.sel] at hp; cases hp; exact ⟨_, rfl, rfl⟩
    | cons st p =>
      rcases sel_view hp with ⟨i, fl, v, rfl, rfl, hs'⟩ | ⟨i, fl, v, rfl, rfl, hs'⟩ | ⟨i, k, fl, tn, vs, u, rfl, rfl, hu, hs'⟩
      · exact ⟨w, by rw [Val.sel, if_pos rfl]; exact hs', rfl⟩
      · exact ⟨w, by rw [Val.sel, if_pos rfl]; exact hs', rfl⟩
      · exact ⟨w, by rw [Val.sel, if_pos rfl, hu]; exact hs', rfl⟩
  | st :: q, .tab nm2 pre2 sub2 post2, h, [], w, hp => by
    rw [Val.sel] at hp
    cases hp
    exact ⟨_, rfl, sel_put_name (w := .tab nm pre sub post) (w' := .tab nm pre sub post') rfl _ _ h⟩
  | st :: q, .tab nm2 pre2 sub2 post2, h, st' :: p, w, hp => by
    rcases sel_view h with ⟨i, fl, v, rfl, rfl, hs⟩ | ⟨i, fl, v, rfl, rfl, hs⟩ | ⟨i, k, fl, tn, vs, u, rfl, rfl, hu, hs⟩
    · rcases sel_view hp with ⟨i', fl', v', rfl, e, hs'⟩ | ⟨i', fl', v', rfl, e, hs'⟩ | ⟨i', k', fl', tn', vs', u', rfl, e, hu', hs'⟩ <;> cases e
      obtain ⟨w', g1, g2⟩ := sel_put_other (post' := post') q v hs p hs'
      exact ⟨w', by rw [Val.put, Val.sel, if_pos rfl]; exact g1, g2⟩
    · rcases sel_view hp with ⟨i', fl', v', rfl, e, hs'⟩ | ⟨i', fl', v', rfl, e, hs'⟩ | ⟨i', k', fl', tn', vs', u', rfl, e, hu', hs'⟩ <;> cases e
      obtain ⟨w', g1, g2⟩ := sel_put_other (post' := post') q v hs p hs'
      exact ⟨w', by rw [Val.put, Val.sel, if_pos rfl]; exact g1, g2⟩
    · rcases sel_view hp with ⟨i', fl', v', rfl, e, hs'⟩ | ⟨i', fl', v', rfl, e, hs'⟩ | ⟨i', k', fl', tn', vs', u', rfl, e, hu', hs'⟩ <;> cases e
      rw [Val.put, hu, Val.sel, if_pos rfl]
      simp only
      by_cases hj : k' = k
      · subst hj
        rw [hu] at hu'
        cases hu'
        rw [Vals.get_put_same vs _ _ hu]
        exact sel_put_other (post' := post') q u hs p hs'
      · rw [Vals.get_put_other vs k k' _ hj, hu']
        exact ⟨w, hs', rfl⟩

theorem sel_append : ∀ (p : List Hop) (v : Val) {w : Val} (r : List Hop), v.sel p = some w → v.sel (p ++ r) = w.sel r
  | [], v, w, r, h => by rw [Val.sel] at h; cases h; rfl
  | st :: p, .tab nm pre sub post, w, r, h => by
    rcases sel_view h with ⟨i, fl, v, rfl, rfl, hs⟩ | ⟨i, fl, v, rfl, rfl, hs⟩ | ⟨i, k, fl, tn, vs, u, rfl, rfl, hu, hs⟩
    · rw [List.cons_append, Val.sel, if_pos rfl]; exact sel_append p v r hs
    · rw [List.cons_append, Val.sel, if_pos rfl]; exact sel_append p v r hs
    · rw [List.cons_append, Val.sel, if_pos rfl, hu]; exact sel_append p u r hs

theorem start_append {s : Sch} {b : Base} : ∀ (p : List Hop) (v : Val) {w : Val} {x X : Nat} (r : List Hop), v.sel p = some w → startOf s b p v x = some X →
    startOf s b (p ++ r) v x = startOf s b r w X
  | [], v, w, x, X, r, h, hx => by rw [Val.sel] at h; cases h; rw [startOf] at hx; cases hx; rfl
  | st :: p, .tab nm pre sub post, w, x, X, r, h, hx => by
    rcases sel_view h with ⟨i, fl, v, rfl, rfl, hs⟩ | ⟨i, fl, v, rfl, rfl, hs⟩ | ⟨i, k, fl, tn, vs, u, rfl, rfl, hu, hs⟩
    · rw [startOf, if_pos rfl] at hx
      obtain ⟨t, h1, h2⟩ := Option.bind_eq_some_iff.mp hx
      rw [List.cons_append, startOf_field h1]
      exact start_append p v r hs h2
    · rw [startOf, if_pos rfl] at hx
      obtain ⟨t, h1, h2⟩ := Option.bind_eq_some_iff.mp hx
      rw [List.cons_append, startOf_member h1]
      exact start_append p v r hs h2
    · rw [startOf, if_pos rfl] at hx
      obtain ⟨t, h1, h2⟩ := Option.bind_eq_some_iff.mp hx
      rw [hu, Option.bind_some] at h2
      rw [List.cons_append, startOf, if_pos rfl, h1, Option.bind_some, hu, Option.bind_some]
      exact start_append p u r hs h2

end Fbs.Props
