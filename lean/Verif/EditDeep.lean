import Verif.EditPath
/-!
# Setting a field of a table deep inside of a message

What happens to all of the message when a scalar or struct field of a table anywhere in it is set.
-/

namespace Fbs.Props
open Fbs CNode

theorem putLE4_mod (v : Nat) : putLE 4 (v % 4294967296) = putLE 4 v := by
  have := putLE_leVal (putLE 4 v)
  rw [putLE_length, leVal_putLE] at this
  exact this

theorem putLE4_rd {b : Base} {a off : Nat} (h : Holds b a (putLE 4 off)) (k : Nat) : putLE 4 (rd b a + k) = putLE 4 (off + k) := by
  unfold rd
  rw [holds_getN h]
  show putLE 4 (off % 4294967296 + k) = _
  rw [← putLE4_mod, ← putLE4_mod (off + k), Nat.mod_add_mod]

/-! ## moved values -/

/-- What lies in `b` from `x` to `y` lies in `b'`, `k` bytes further. -/
def Moves (b b' : Base) (x y k : Nat) : Prop := ∀ z w, Holds b z w → x ≤ z → z + w.length ≤ y → Holds b' (z + k) w

theorem Moves.sub {b b' : Base} {x y k x' y' : Nat} (h : Moves b b' x y k) (hx : x ≤ x') (hy : y' ≤ y) : Moves b b' x' y' k :=
  fun z w hw h1 h2 => h z w hw (by omega) (by omega)

theorem TabL.moved {s : Sch} {nm : Name} {b b' : Base} {x t k : Nat} {vo : Nat → Nat} {fx : Nat → Option Bytes} (h : TabL s nm b x t vo fx)
    (hm : Moves b b' x (x + (4 + 2 * (s.fields nm).length + t)) k) : TabL s nm b' (x + k) t vo fx := by
  have ht := h.t4
  have l2 : ∀ v, (putLE 2 v).length = 2 := fun v => putLE_length 2 v
  have l4 : ∀ v, (putLE 4 v).length = 4 := fun v => putLE_length 4 v
  refine ⟨⟨⟨h.at_.tab.hp, hm _ _ h.at_.tab.vl (by omega) (by rw [l2]; omega), ?_, fun i hi => ⟨(h.at_.tab.slot i hi).1, ?_⟩⟩, h.at_.abs, fun i hi w hw => ?_⟩,
    ?_, h.t4, h.ht, h.wid, h.disj, h.tlen⟩
  · have := hm _ _ h.at_.tab.soff (by omega) (by rw [l4]; omega)
    rwa [show x + (4 + 2 * (s.fields nm).length) + k = x + k + (4 + 2 * (s.fields nm).length) by omega] at this
  · have := hm _ _ (h.at_.tab.slot i hi).2 (by omega) (by rw [l2]; omega)
    rwa [show x + (4 + 2 * i) + k = x + k + (4 + 2 * i) by omega] at this
  · obtain ⟨h1, h2⟩ := h.at_.fld i hi w hw
    have h3 := h.wid i _ w (List.getElem?_eq_getElem hi) hw
    have := hm _ _ h2 (by omega) (by omega)
    refine ⟨h1, ?_⟩
    rwa [show x + (4 + 2 * (s.fields nm).length) + vo i + k = x + k + (4 + 2 * (s.fields nm).length) + vo i by omega] at this
  · have := hm _ _ h.tl (by omega) (by rw [l2]; omega)
    rwa [show x + 2 + k = x + k + 2 by omega] at this

theorem Frame.moved {s : Sch} {nm : Name} {b b' : Base} {cur : Nat → Option Bytes} {fld : Option Nat} {gap x t k : Nat} (h : Frame s b nm cur fld gap x t)
    (hm : Moves b b' x (x + (4 + 2 * (s.fields nm).length + t)) k) : Frame s b' nm cur fld gap (x + k) t := by
  obtain ⟨vo, fx, h1, h2⟩ := h
  exact ⟨vo, fx, h1.moved hm, h2⟩

mutual
theorem Val.moved {s : Sch} {b b' : Base} {k : Nat} : ∀ (v : Val) ⦃x y : Nat⦄, v.Laid s b x y → Moves b b' x y k → v.Laid s b' (x + k) (y + k)
  | .tab nm pre sub post => by
    intro x y h hm
    rw [laid_frame] at h ⊢
    obtain ⟨t, h1, h2⟩ := h
    have hle := Sub.laid_le sub h2
    refine ⟨t, h1.moved (hm.sub (Nat.le_refl _) hle), ?_⟩
    have := Sub.moved sub h2 (hm.sub (by omega) (Nat.le_refl _))
    rwa [show x + (4 + 2 * (s.fields nm).length + t) + k = x + k + (4 + 2 * (s.fields nm).length + t) by omega] at this
theorem Sub.moved {s : Sch} {b b' : Base} {k : Nat} : ∀ (v : Sub) ⦃x y : Nat⦄, v.Laid s b x y → Moves b b' x y k → v.Laid s b' (x + k) (y + k)
  | .none => by
    intro x y h hm; rw [Sub.Laid] at h ⊢; omega
  | .bytes i f data => by
    intro x y h hm
    rw [Sub.Laid] at h ⊢
    obtain ⟨h1, h2⟩ := h
    exact ⟨hm _ _ h1 (Nat.le_refl _) (by rw [List.length_append, putLE_length]; omega), by omega⟩
  | .table i fl v => by
    intro x y h hm
    rw [Sub.Laid] at h ⊢
    exact Val.moved v h hm
  | .union i fl v => by
    intro x y h hm
    rw [Sub.Laid] at h ⊢
    exact Val.moved v h hm
  | .list i fl t vs => by
    intro x y h hm
    rw [Sub.Laid] at h ⊢
    obtain ⟨h1, h2⟩ := h
    have hle := Vals.laid_le vs h2
    refine ⟨hm _ _ h1 (Nat.le_refl _) (by rw [putLE_length]; omega), ?_⟩
    have := Vals.moved vs h2 (A' := x + 4 + k) (k := k) (by omega) (by omega) (by omega) (fun j off hj hw => by
      have := hm _ _ hw (by omega) (by rw [putLE_length]; omega)
      rwa [show x + 4 + 4 * j + k = x + 4 + k + 4 * j by omega, show off = off + (x + 4 + k - (x + 4 + k)) by omega] at this) (hm.sub (by omega) (Nat.le_refl _))
    rwa [show x + 4 + k = x + k + 4 by omega, show x + 4 + 4 * vs.count + k = x + k + 4 + 4 * vs.count by omega] at this
theorem Vals.moved {s : Sch} {b b' : Base} {k : Nat} : ∀ (v : Vals) ⦃A A' x y : Nat⦄, v.Laid s b A x y →
    A ≤ A' → A' ≤ A + k → A + 4 * v.count ≤ x →
    (∀ j off, j < v.count → Holds b (A + 4 * j) (putLE 4 off) → Holds b' (A' + 4 * j) (putLE 4 (off + (A + k - A')))) →
    Moves b b' x y k → v.Laid s b' A' (x + k) (y + k)
  | .nil => by
    intro A A' x y h _ _ _ _ _; rw [Vals.Laid] at h ⊢; omega
  | .cons fl v vs => by
    intro A A' x y h h1 h2 h3 ha hm
    rw [Vals.Laid] at h ⊢
    rw [Vals.count] at h3 ha
    obtain ⟨z, g1, g2, g3⟩ := h
    have l1 := Val.laid_le v g1
    have l2 := Vals.laid_le vs g3
    refine ⟨z + k, Val.moved v g1 (hm.sub (Nat.le_refl _) l2), ?_, ?_⟩
    · have := ha 0 _ (by omega) g2
      rwa [Nat.mul_zero, Nat.add_zero, show x + (4 + 2 * (s.fields v.name).length) - A + (A + k - A') = x + k + (4 + 2 * (s.fields v.name).length) - A' by omega] at this
    · refine Vals.moved vs g3 (by omega) (by omega) (by omega) (fun j off hj hw => ?_) (hm.sub (by omega) (Nat.le_refl _))
      have := ha (j + 1) off (by omega) (by rwa [show A + 4 * (j + 1) = A + 4 + 4 * j by omega])
      rwa [show A' + 4 * (j + 1) = A' + 4 + 4 * j by omega, show A + k - A' = A + 4 + k - (A' + 4) by omega] at this
end

/-! ## the rest of the message -/

/-- `b'` is `b` with the table at `X` changed, and everything from `q` on moved by `k`; the offsets `S` have been adjusted. -/
structure Edited (b b' : Base) (X q k : Nat) (S : Nat → Nat → Prop) : Prop where
  front : ∀ z w, Holds b z w → z + w.length ≤ X → (∀ a off, S a off → z + w.length ≤ a ∨ a + 4 ≤ z) → Holds b' z w
  later : ∀ a off, S a off → Holds b' a (putLE 4 (off + k))
  back  : ∀ z w, Holds b z w → q ≤ z → Holds b' (z + k) w

theorem Vals.put_count : ∀ (vs : Vals) (k : Nat) (v : Val), (vs.put k v).count = vs.count
  | .nil, _, _ => rfl
  | .cons _ _ vs, 0, _ => rfl
  | .cons _ _ vs, k + 1, v => by rw [Vals.put, Vals.count, Vals.count, Vals.put_count vs k v]

/-- A list one of whose elements is edited. -/
theorem lctx_edit {s : Sch} {b b' : Base} {q k A n kp : Nat} {C C' : Val → Nat → Nat → Prop} {u u' : Val} (hn : u'.name = u.name)
    (hkeep : ∀ j w, j ≤ kp → Holds b (A + 4 * j) w → w.length = 4 → Holds b' (A + 4 * j) w)
    (hmove : ∀ j off, kp < j → j < n → Holds b (A + 4 * j) (putLE 4 off) → Holds b' (A + 4 * j) (putLE 4 (off + k)))
    (hback : ∀ z w, Holds b z w → q ≤ z → Holds b' (z + k) w)
    (hC : ∀ x z, C u x z → C' u' x (z + k) ∧ q ≤ z ∧ x ≤ z ∧ Moves b b' (A + 4 * n) x 0) :
    ∀ (i : Nat) (vs : Vals) {j x y : Nat}, j + i = kp → j + vs.count = n → A + 4 * n ≤ x → vs.get i = some u →
      LCtx s b C i vs (A + 4 * j) x y → LCtx s b' C' i (vs.put i u') (A + 4 * j) x (y + k)
  | _, .nil, _, _, _, _, _, _, _, h => by rw [LCtx] at h; exact h.elim
  | 0, .cons fl v vs, j, x, y, hj, hc, hA, hg, h => by
    rw [Vals.get] at hg
    cases hg
    rw [LCtx] at h
    obtain ⟨z, h1, h2, h3⟩ := h
    rw [Vals.put, LCtx]
    rw [Vals.count] at hc
    obtain ⟨g1, g2, g3, g4⟩ := hC x z h1
    refine ⟨z + k, g1, by rw [hn]; exact hkeep j _ (by omega) h2 (putLE_length ..), ?_⟩
    refine Vals.moved vs h3 (Nat.le_refl _) (by omega) (by omega) (fun i off hi hw => ?_) (fun z' w hw h4 _ => hback z' w hw (by omega))
    rw [show A + 4 * j + 4 + 4 * i = A + 4 * (j + 1 + i) by omega] at hw ⊢
    rw [show A + 4 * j + 4 + k - (A + 4 * j + 4) = k by omega]
    exact hmove _ off (by omega) (by omega) hw
  | i + 1, .cons fl v vs, j, x, y, hj, hc, hA, hg, h => by
    rw [Vals.get] at hg
    rw [LCtx] at h
    obtain ⟨z, h1, h2, h3⟩ := h
    rw [Vals.put, LCtx]
    rw [Vals.count] at hc
    have l1 := Val.laid_le v h1
    obtain ⟨v', x', z', a1, a2, a3, a4, -⟩ := lctx_in _ _ h3
    rw [hg] at a1
    cases a1
    obtain ⟨g1, g2, -, g3⟩ := hC x' z' a2
    refine ⟨z, ?_, hkeep j _ (by omega) h2 (putLE_length ..), ?_⟩
    · exact Val.moved (k := 0) v h1 (g3.sub hA a3)
    · have := lctx_edit (s := s) hn hkeep hmove hback hC i vs (j := j + 1) (x := z) (by omega) (by omega) (by omega) hg (by rw [show A + 4 * (j + 1) = A + 4 * j + 4 by omega]; exact h3)
      rwa [show A + 4 * (j + 1) = A + 4 * j + 4 by omega] at this


theorem put_name {s : Sch} {b : Base} {w w' : Val} (hn : w'.name = w.name) {X Y : Nat} : ∀ (p : List Hop) (v : Val) {x y : Nat} {L : List PList},
    Ctx s b w X Y p v x y L → (v.put p w').name = v.name
  | [], v, x, y, L, h => by
    rw [Ctx] at h
    obtain ⟨rfl, -⟩ := h
    exact hn
  | st :: p, .tab nm pre sub post, x, y, L, h => by
    rcases ctx_view h with ⟨i, fl, v, t, rfl, rfl, -⟩ | ⟨i, fl, v, t, rfl, rfl, -⟩ | ⟨i, k, fl, tn, vs, t, e, L', rfl, rfl, -⟩ <;> rfl

theorem lctx_ge {s : Sch} {b : Base} {C : Val → Nat → Nat → Prop} {m : Nat} : ∀ (k : Nat) (vs : Vals) {A x y : Nat}, LCtx s b C k vs A x y → m ≤ x →
    LCtx s b (fun v x z => C v x z ∧ m ≤ x) k vs A x y
  | _, .nil, _, _, _, h, _ => by rw [LCtx] at h; exact h.elim
  | 0, .cons fl v vs, A, x, y, h, hm => by
    rw [LCtx] at h ⊢
    obtain ⟨z, h1, h2, h3⟩ := h
    exact ⟨z, ⟨h1, hm⟩, h2, h3⟩
  | k + 1, .cons fl v vs, A, x, y, h, hm => by
    rw [LCtx] at h ⊢
    obtain ⟨z, h1, h2, h3⟩ := h
    have := Val.laid_le v h1
    exact ⟨z, h1, h2, lctx_ge k vs h3 (by omega)⟩

/-- The lists with the offsets found in `b`. -/
def reread (b : Base) (L : List PList) : List PList := L.map fun e => { e with off := fun j => rd b (e.A + 4 * j) }

/-- The rest of the message after an edit. -/
theorem ctx_edit {s : Sch} {b b' : Base} {w w' : Val} {X Y q k : Nat} {S : Nat → Nat → Prop} (hE : Edited b b' X q k S) (hn : w'.name = w.name)
    (hX : X < q) (hq : q ≤ Y) : ∀ (p : List Hop) (v : Val) {x y : Nat} {L : List PList}, Ctx s b w X Y p v x y L →
    (∀ a off, Later L a off → S a off) → (∀ a off, S a off → a + 4 ≤ x ∨ Later L a off) →
    Ctx s b' w' X (Y + k) p (v.put p w') x (y + k) (reread b' L)
  | [], v, x, y, L, h, hS1, hS2 => by
    rw [Ctx] at h
    obtain ⟨rfl, rfl, rfl, rfl⟩ := h
    exact ⟨rfl, rfl, rfl, rfl⟩
  | st :: p, .tab nm pre sub post, x, y, L, h, hS1, hS2 => by
    rcases ctx_view h with ⟨i, fl, v, t, rfl, rfl, h1, h2⟩ | ⟨i, fl, v, t, rfl, rfl, h1, h2⟩ | ⟨i, k', fl, tn, vs, t, e, L', rfl, rfl, h1, he, h2, h3, rfl⟩
    · obtain ⟨g1, g2, -, g4, g5, -⟩ := ctx_bounds p v h2
      have hF := h1.moved (k := 0) (b' := b') (fun z w' hw a1 a2 => hE.front z w' hw (by omega) (fun a off ha => by
        rcases hS2 a off ha with h | ⟨e, he, j, -, -, rfl, -⟩
        · omega
        · have := g5 e he
          omega))
      have hL := ctx_edit hE hn hX hq p v h2 hS1 (fun a off ha => (hS2 a off ha).imp (fun h => by omega) id)
      rw [Val.put]
      exact ⟨rfl, t, by rw [put_name hn p v h2]; exact hF, hL⟩
    · obtain ⟨g1, g2, -, g4, g5, -⟩ := ctx_bounds p v h2
      have hF := h1.moved (k := 0) (b' := b') (fun z w' hw a1 a2 => hE.front z w' hw (by omega) (fun a off ha => by
        rcases hS2 a off ha with h | ⟨e, he, j, -, -, rfl, -⟩
        · omega
        · have := g5 e he
          omega))
      have hL := ctx_edit hE hn hX hq p v h2 hS1 (fun a off ha => (hS2 a off ha).imp (fun h => by omega) id)
      rw [Val.put]
      exact ⟨rfl, t, by rw [put_name hn p v h2]; exact hF, hL⟩
    · obtain ⟨v, x', z', a1, a2, a3, a4, -⟩ := lctx_in _ _ h3
      have hkn := Vals.get_lt vs k' a1
      -- a cell in front of the element is not one of those moved
      have keep : ∀ x' z', Ctx s b w X Y p v x' z' L' → e + 4 + 4 * vs.count ≤ x' →
          ∀ z w', Holds b z w' → x ≤ z → z + w'.length ≤ x' → z + w'.length ≤ e + 4 + 4 * (k' + 1) ∨ e + 4 + 4 * vs.count ≤ z → Holds b' z w' := by
        intro x' z' hc hx z w' hw b1 b2 b3
        obtain ⟨g1, g2, -, g4, g5, -⟩ := ctx_bounds p v hc
        refine hE.front z w' hw (by omega) (fun a off ha => ?_)
        rcases hS2 a off ha with h | ⟨e', he', j, c1, c2, rfl, -⟩
        · omega
        · rcases List.mem_cons.mp he' with rfl | he'
          · simp only at c1 c2 ⊢
            omega
          · have := g5 e' he'
            omega
      have hF := h1.moved (k := 0) (b' := b') (fun z w' hw b1 b2 => keep x' z' a2 a3 z w' hw b1 (by omega) (by omega))
      have hH := keep x' z' a2 a3 _ _ h2 (by omega) (by rw [putLE_length]; omega) (by rw [putLE_length]; omega)
      have key : ∀ x z, Ctx s b w X Y p v x z L' → e + 4 + 4 * vs.count ≤ x → Ctx s b' w' X (Y + k) p (v.put p w') x (z + k) (reread b' L') := by
        intro x z hc hx
        refine ctx_edit hE hn hX hq p v hc (fun a off ⟨e', he', h⟩ => hS1 a off ⟨e', List.mem_cons_of_mem _ he', h⟩) (fun a off ha => ?_)
        rcases hS2 a off ha with h | ⟨e', he', j, c1, c2, rfl, c3⟩
        · exact Or.inl (by omega)
        · rcases List.mem_cons.mp he' with rfl | he'
          · simp only at c1 c2 ⊢
            exact Or.inl (by omega)
          · exact Or.inr ⟨e', he', j, c1, c2, rfl, c3⟩
      have hS := lctx_edit (s := s) (q := q) (k := k) (A := e + 4) (n := vs.count) (kp := k') (u := v) (u' := v.put p w')
        (C := fun u x z => Ctx s b w X Y p u x z L' ∧ e + 4 + 4 * vs.count ≤ x) (C' := fun u x z => Ctx s b' w' X (Y + k) p u x z (reread b' L')) (put_name hn p v a2)
        (fun j u hj hw hl => keep x' z' a2 a3 _ u hw (by omega) (by omega) (by omega))
        (fun j off h4 h5 hw => by
          rw [← putLE4_rd hw]
          exact hE.later _ _ (hS1 _ _ ⟨_, List.mem_cons_self .., j, h4, h5, rfl, rfl⟩))
        hE.back
        (fun x1 z ⟨hc, hx⟩ => by
          have hb := ctx_bounds p v hc
          exact ⟨key x1 z hc (by omega), by omega, by omega, fun z' u hw b1 b2 => keep x1 z hc hx z' u hw (by omega) b2 (by omega)⟩)
        k' vs (j := 0) (y := y) (Nat.zero_add _) (Nat.zero_add _) (Nat.le_refl _) a1 (lctx_ge k' vs h3 (Nat.le_refl _))
      rw [Val.put, a1]
      refine ⟨rfl, t, e, reread b' L', hF, he, by rw [Vals.put_count]; exact hH, ?_, ?_⟩
      · rw [Vals.put_count]; exact hS
      · rw [Vals.put_count]; rfl

/-! ## the table itself -/

section
variable {s : Sch} {nm : Name} {b b' : Base} {x t : Nat} {vo : Nat → Nat} {fx : Nat → Option Bytes} {c : CNode}

/-- One cell of a table is overwritten. -/
theorem TabL.write (h : TabL s nm b x t vo fx) {j : Nat} {w w' : Bytes} (hj : j < (s.fields nm).length) (hf : fx j = some w) (hl : w'.length = w.length)
    (hs : Holds b' (x + (4 + 2 * (s.fields nm).length) + vo j) w')
    (ho : ∀ z v, Holds b z v → z + v.length ≤ x + (4 + 2 * (s.fields nm).length) + vo j ∨ x + (4 + 2 * (s.fields nm).length) + vo j + w'.length ≤ z → Holds b' z v) :
    TabL s nm b' x t vo (fun i => if i = j then some w' else fx i) := by
  have ht := h.t4
  have l2 : ∀ v, (putLE 2 v).length = 2 := fun v => putLE_length 2 v
  have l4 : ∀ v, (putLE 4 v).length = 4 := fun v => putLE_length 4 v
  have hwj := h.wid j _ w (List.getElem?_eq_getElem hj) hf
  refine ⟨⟨⟨h.at_.tab.hp, ho _ _ h.at_.tab.vl (by rw [l2]; omega), ho _ _ h.at_.tab.soff (by rw [l4]; omega),
    fun i hi => ⟨(h.at_.tab.slot i hi).1, ho _ _ (h.at_.tab.slot i hi).2 (by rw [l2]; omega)⟩⟩, fun i hi hn => ?_, fun i hi v hv => ?_⟩,
    ho _ _ h.tl (by rw [l2]; omega), h.t4, h.ht, fun i fd v hfd hv => ?_, fun i k hi hk hik v v' hv hv' => ?_, ?_⟩
  · split at hn
    · cases hn
    · exact h.at_.abs i hi hn
  · split at hv
    · rename_i hij
      cases hv
      subst hij
      exact ⟨by omega, hs⟩
    · rename_i hij
      obtain ⟨g1, g2⟩ := h.at_.fld i hi v hv
      have hwi := h.wid i _ v (List.getElem?_eq_getElem hi) hv
      have := h.disj i j hi hj hij v w hv hf
      exact ⟨g1, ho _ _ g2 (by omega)⟩
  · split at hv
    · rename_i hij
      cases hv
      subst hij
      have := h.wid i fd w hfd hf
      omega
    · exact h.wid i fd v hfd hv
  · split at hv <;> split at hv'
    · omega
    · cases hv; subst_vars; have := h.disj _ k hi hk hik w v' hf hv'; omega
    · cases hv'; subst_vars; have := h.disj i _ hi hk hik v w hv hf; omega
    · exact h.disj i k hi hk hik v v' hv hv'
  · rw [h.tlen]
    congr 3
    funext i
    by_cases hij : i = j
    · subst hij; simp only [if_true, hf, Option.map_some, Option.getD_some, hl]
    · simp only [if_neg hij]

/-- A field is added at the end of a table. -/
theorem TabL.grow (h : TabL s nm b x t vo fx) {idx k : Nat} {fd : FieldT} (hfd : (s.fields nm)[idx]? = some fd) (hf : fx idx = none) (hk : k = fieldWidth s fd)
    (htk : t + k < 65536)
    (hnew : Holds b' (x + (4 + 2 * (s.fields nm).length) + t) (zeros k))
    (hslot : Holds b' (x + (4 + 2 * idx)) (putLE 2 t)) (htl : Holds b' (x + 2) (putLE 2 (t + k)))
    (ho : ∀ z v, Holds b z v → x ≤ z → z + v.length ≤ x + (4 + 2 * (s.fields nm).length) + t → (z + v.length ≤ x + 2 ∨ x + 4 ≤ z) →
      (z + v.length ≤ x + (4 + 2 * idx) ∨ x + (4 + 2 * idx) + 2 ≤ z) → Holds b' z v) :
    TabL s nm b' x (t + k) (fun i => if i = idx then t else vo i) (fun i => if i = idx then some (zeros k) else fx i) := by
  have ht := h.t4
  have hidx : idx < (s.fields nm).length := (List.getElem?_eq_some_iff.mp hfd).1
  have hz : (zeros k).length = k := by simp [zeros]
  have l2 : ∀ v, (putLE 2 v).length = 2 := fun v => putLE_length 2 v
  have l4 : ∀ v, (putLE 4 v).length = 4 := fun v => putLE_length 4 v
  refine ⟨⟨⟨h.at_.tab.hp, ho _ _ h.at_.tab.vl (by omega) (by rw [l2]; omega) (by rw [l2]; omega) (by rw [l2]; omega),
    ho _ _ h.at_.tab.soff (by omega) (by rw [l4]; omega) (by rw [l4]; omega) (by rw [l4]; omega),
    fun i hi => ?_⟩, fun i hi hn => ?_, fun i hi v hv => ?_⟩,
    htl, by omega, htk, fun i fd' v hfd' hv => ?_, fun i k hi hk hik v v' hv hv' => ?_, ?_⟩
  · split
    · rename_i hii
      subst hii
      exact ⟨h.ht, hslot⟩
    · rename_i hii
      obtain ⟨g1, g2⟩ := h.at_.tab.slot i hi
      exact ⟨g1, ho _ _ g2 (by omega) (by rw [l2]; omega) (by rw [l2]; omega) (by rw [l2]; omega)⟩
  · split at hn
    · cases hn
    · rename_i hii
      rw [if_neg hii]
      exact h.at_.abs i hi hn
  · split at hv
    · rename_i hii
      cases hv
      rw [if_pos hii]
      exact ⟨by omega, hnew⟩
    · rename_i hii
      rw [if_neg hii]
      obtain ⟨g1, g2⟩ := h.at_.fld i hi v hv
      have hwi := h.wid i _ v (List.getElem?_eq_getElem hi) hv
      exact ⟨g1, ho _ _ g2 (by omega) (by omega) (by omega) (by omega)⟩
  · split at hv
    · rename_i hii
      cases hv
      subst hii
      rw [hfd] at hfd'
      cases hfd'
      rw [if_pos rfl]
      omega
    · rename_i hii
      rw [if_neg hii]
      have := h.wid i fd' v hfd' hv
      omega
  · split at hv <;> split at hv'
    · omega
    · rename_i a b; rw [if_pos a, if_neg b]
      have := h.wid k _ v' (List.getElem?_eq_getElem hk) hv'; omega
    · rename_i a b; rw [if_neg a, if_pos b]
      have := h.wid i _ v (List.getElem?_eq_getElem hi) hv; omega
    · rename_i a b; rw [if_neg a, if_neg b]
      exact h.disj i k hi hk hik v v' hv hv'
  · rw [h.tlen, Nat.add_assoc]
    congr 1
    symm
    apply sum_range_update _ idx _ _ _ hidx
    · intro j hj
      simp only [if_neg hj]
    · simp only [if_true, hf, Option.map_some, Option.getD_some, Option.map_none, Option.getD_none, hz, Nat.zero_add]

theorem TabL.vtab (h : TabL s nm b x t vo fx) (hio : c.io = b) (hp : c.pos = x + (4 + 2 * (s.fields nm).length)) {i : Nat} (hi : i < (s.fields nm).length) :
    c.vtab i = some (x + (4 + 2 * (s.fields nm).length) + vo i) := by
  rw [TabAt_vtab h.at_.tab hio hp hi, hp]

theorem TabL.isZero (h : TabL s nm b x t vo fx) (hio : c.io = b) (hp : c.pos = x + (4 + 2 * (s.fields nm).length)) {i : Nat} (hi : i < (s.fields nm).length) :
    c.isZero i = some (fx i).isNone := by
  rw [TabAt_isZero h.at_.tab hio hp hi]
  cases hf : fx i with
  | none => rw [h.at_.abs i hi hf]; rfl
  | some w => simp [(h.at_.fld i hi w hf).1]

theorem TabL.shift_skip (h : TabL s nm b x t vo fx) (hn : c.name = nm) (hio : c.io = b) (hp : c.pos = x + (4 + 2 * (s.fields nm).length)) (idx wPos k : Nat) (l : List Nat)
    (hl : ∀ i ∈ l, i < (s.fields nm).length ∧ (i = idx ∨ TI.Inl s nm i ∨ fx i = none)) :
    CNode.shiftFields s idx wPos k l c = some c := by
  induction l with
  | nil => rfl
  | cons i l ih =>
    have ih' := ih (fun j hj => hl j (List.mem_cons_of_mem _ hj))
    obtain ⟨hi, hc⟩ := hl i List.mem_cons_self
    unfold CNode.shiftFields
    simp only
    split
    · exact ih'
    · rename_i hne
      split
      · exact ih'
      · rename_i hg
        rcases hc with hc | hc | hc
        · exact absurd hc hne
        · obtain ⟨f, hf⟩ : ∃ f, (s.fields nm)[i]? = some f := ⟨_, List.getElem?_eq_getElem (by omega)⟩
          rw [fieldT_name hn hf] at hg
          exact absurd (hc f hf) hg
        · have : c.table i = some (-1) := by
            unfold CNode.table
            rw [h.vtab hio hp hi, h.isZero hio hp hi, hc]
            rfl
          rw [this]
          simp only [Option.bind_eq_bind, Option.bind_some]
          rw [if_neg (by omega)]
          exact ih'

theorem TabL.table (h : TabL s nm b x t vo fx) (hio : c.io = b) (hp : c.pos = x + (4 + 2 * (s.fields nm).length)) {j v : Nat} (hj : j < (s.fields nm).length)
    (hf : fx j = some (putLE 4 v)) (hv : v < 4294967296) : c.table j = some ((x + (4 + 2 * (s.fields nm).length) + vo j + v : Nat) : Int) := by
  unfold CNode.table
  rw [h.vtab hio hp hj, h.isZero hio hp hj, hf]
  simp only [Option.bind_eq_bind, Option.bind_some, Option.isNone_some]
  have := holds_getN (h.at_.fld j hj _ hf).2
  unfold CNode.u32
  rw [hio, this, Nat.mod_eq_of_lt (by omega)]
  simp only [Option.bind_some, pure]
  congr 1

theorem isList_table (hn : c.name = nm) (hnm : TI.TName nm) : c.isList = some false := by
  unfold CNode.isList
  obtain ⟨h1, h2⟩ := hnm
  rw [← hn] at h1 h2
  rw [if_neg (by rintro ⟨h3, -⟩; rw [h3] at h1; simp at h1), if_neg (by omega)]
  exact congrArg some (decide_eq_false h2)

theorem TabL.movePos (h : TabL s nm b x t vo fx) (hn : c.name = nm) (hio : c.io = b) (hp : c.pos = x + (4 + 2 * (s.fields nm).length)) (hnm : TI.TName nm)
    (hst : s.isStruct nm = false) {j v wPos k : Nat} (hj : j < (s.fields nm).length) (hb : TI.ByteVec s nm j) (hf : fx j = some (putLE 4 v)) (hv : v < 4294967296)
    (hw : wPos ≤ x + (4 + 2 * (s.fields nm).length) + vo j + v) :
    c.movePos s j wPos k = some { c with io := b.updateU (x + (4 + 2 * (s.fields nm).length) + vo j) 4 (putLE 4 (v + k)) } := by
  obtain ⟨f, hff, hg⟩ := hb
  unfold CNode.movePos
  rw [isList_table hn hnm, hn, hst, fieldT_name hn hff]
  simp only [Option.bind_eq_bind, Option.bind_some, Bool.false_eq_true, if_false]
  have : (isFieldUnion f.grp || isFieldTable f.grp || isFieldSlice f.grp || isFieldBytes f.grp) = true := by
    rcases hg with h | h | h <;> rw [h] <;> first | decide | simp
  rw [this, if_pos rfl, h.vtab hio hp hj]
  simp only [Option.bind_some]
  have hr := holds_getN (h.at_.fld j hj _ hf).2
  unfold CNode.u32
  rw [hio, hr, Nat.mod_eq_of_lt (by omega)]
  simp only [Option.bind_some]
  rw [if_neg (by omega)]
  unfold Base.putN
  rw [if_neg (by omega)]
  simp only [Option.bind_some, Int.toNat_natCast, pure]

/-- The offset of the one field of variable length is adjusted. -/
theorem TabL.shift (h : TabL s nm b x t vo fx) (hn : c.name = nm) (hio : c.io = b) (hp : c.pos = x + (4 + 2 * (s.fields nm).length)) (hnm : TI.TName nm)
    (hst : s.isStruct nm = false) {fld : Option Nat} {idx wPos k v : Nat} (hne : fld ≠ some idx)
    (hb : ∀ j, fld = some j → TI.ByteVec s nm j ∧ fx j = some (putLE 4 v) ∧ wPos ≤ x + (4 + 2 * (s.fields nm).length) + vo j + v) (hv : v < 4294967296)
    (hfx : ∀ i, i < (s.fields nm).length → fld ≠ some i → TI.Inl s nm i ∨ fx i = none) :
    ∃ b2, CNode.shiftFields s idx wPos k (List.range (s.fields nm).length) c = some { c with io := b2 } ∧ b2.bytes = b.bytes ∧
      TabL s nm b2 x t vo (fun i => if fld = some i then some (putLE 4 (v + k)) else fx i) ∧
      (∀ z w, Holds b z w → (z + w.length ≤ x ∨ x + (4 + 2 * (s.fields nm).length) + t ≤ z) → Holds b2 z w) ∧
      (∀ z, Clean b z → x + (4 + 2 * (s.fields nm).length) + t ≤ z → Clean b2 z) ∧
      (∀ i w, i < (s.fields nm).length → fld ≠ some i → fx i = some w → Holds b2 (x + (4 + 2 * (s.fields nm).length) + vo i) w) := by
  cases hfld : fld with
  | none =>
    subst hfld
    refine ⟨b, ?_, rfl, ?_, fun z w h _ => h, fun z h _ => h, fun i w hi _ hw => (h.at_.fld i hi w hw).2⟩
    · rw [h.shift_skip hn hio hp]
      · rw [← hio]
      · intro i hi
        rw [List.mem_range] at hi
        exact ⟨hi, Or.inr (hfx i hi (by simp))⟩
    · simpa using h
  | some j =>
    subst hfld
    obtain ⟨hjb, hjf, hw⟩ := hb j rfl
    have hj : j < (s.fields nm).length := by
      obtain ⟨f, hf, -⟩ := hjb
      exact (List.getElem?_eq_some_iff.mp hf).1
    have hij : j ≠ idx := fun e => hne (by rw [e])
    have hH := (h.at_.fld j hj _ hjf)
    have hwj := h.wid j _ _ (List.getElem?_eq_getElem hj) hjf
    rw [putLE_length] at hwj
    have l4 : ∀ v, (putLE 4 v).length = 4 := fun v => putLE_length 4 v
    have hsame : Holds (b.updateU (x + (4 + 2 * (s.fields nm).length) + vo j) 4 (putLE 4 (v + k))) (x + (4 + 2 * (s.fields nm).length) + vo j) (putLE 4 (v + k)) := by
      have := holds_updateU_same (b := b) (off := x + (4 + 2 * (s.fields nm).length) + vo j) (w := putLE 4 (v + k)) (putLE4_ne _) (by
        rw [l4]
        have := hH.2.2.1
        rw [l4] at this; exact this)
      rw [l4] at this; exact this
    have hoth : ∀ z w, Holds b z w → z + w.length ≤ x + (4 + 2 * (s.fields nm).length) + vo j ∨ x + (4 + 2 * (s.fields nm).length) + vo j + 4 ≤ z →
        Holds (b.updateU (x + (4 + 2 * (s.fields nm).length) + vo j) 4 (putLE 4 (v + k))) z w :=
      fun z w hz hd => holds_updateU_other (l4 _) hz hd
    have hT2 := h.write (w' := putLE 4 (v + k)) hj hjf (by rw [l4, l4]) hsame (by rw [l4]; exact hoth)
    have efx : (fun i => if i = j then some (putLE 4 (v + k)) else fx i) = (fun i => if some j = some i then some (putLE 4 (v + k)) else fx i) := by
      funext i
      by_cases hi : i = j
      · subst hi; simp
      · rw [if_neg hi, if_neg (by simpa using fun e => hi e.symm)]
    refine ⟨b.updateU (x + (4 + 2 * (s.fields nm).length) + vo j) 4 (putLE 4 (v + k)), ?_, by rw [updateU_struct _ _ _ _ (l4 _)], by rw [← efx]; exact hT2, ?_, ?_, ?_⟩
    · obtain ⟨l1, l2, hl⟩ := List.append_of_mem (List.mem_range.mpr hj)
      have hnd : (l1 ++ j :: l2).Nodup := by rw [← hl]; exact List.nodup_range
      have hnd1 : j ∉ l1 := fun hm => (List.nodup_append.mp hnd).2.2 j hm j List.mem_cons_self rfl
      have hnd2 : j ∉ l2 := (List.nodup_cons.mp (List.nodup_append.mp hnd).2.1).1
      have hcond : ∀ i, i ∈ l1 ∨ i ∈ l2 → i < (s.fields nm).length ∧ i ≠ j ∧ (i = idx ∨ TI.Inl s nm i ∨ fx i = none) := by
        intro i hi
        have hin : i < (s.fields nm).length := by
          have : i ∈ List.range (s.fields nm).length := by rw [hl]; rcases hi with h | h <;> simp [h]
          exact List.mem_range.mp this
        have hne : i ≠ j := by rintro rfl; rcases hi with h | h <;> contradiction
        exact ⟨hin, hne, Or.inr (hfx i hin (by simpa using fun e => hne e.symm))⟩
      rw [hl, TI.shift_append, h.shift_skip hn hio hp idx _ k l1 (fun i hi => ⟨(hcond i (Or.inl hi)).1, (hcond i (Or.inl hi)).2.2⟩)]
      simp only [Option.bind_some]
      unfold CNode.shiftFields
      simp only
      rw [if_neg hij]
      have hgrp : (!isFieldSlice (CNode.fieldT s c j).grp && (isFieldBasicType (CNode.fieldT s c j).grp || isFieldStruct (CNode.fieldT s c j).grp)) = false := by
        obtain ⟨f, hff, hgf⟩ := hjb
        rw [fieldT_name hn hff]; rcases hgf with h | h | h <;> rw [h] <;> rfl
      rw [hgrp, h.table hio hp hj hjf hv, h.movePos hn hio hp hnm hst hj hjb hjf hv hw]
      simp only [Bool.false_eq_true, if_false, Option.bind_eq_bind, Option.bind_some]
      rw [if_pos (by omega)]
      refine TabL.shift_skip (c := { c with io := b.updateU (x + (4 + 2 * (s.fields nm).length) + vo j) 4 (putLE 4 (v + k)) }) hT2 hn rfl hp idx _ k l2 (fun i hi => ⟨(hcond i (Or.inr hi)).1, ?_⟩)
      obtain ⟨-, h2, h3⟩ := hcond i (Or.inr hi)
      simp only [if_neg h2]
      exact h3
    · intro z w hz hd
      exact hoth z w hz (by omega)
    · intro z hz hd
      exact clean_updateU (l4 _) hz (by omega)
    · intro i w hi hne' hw'
      have hne2 : i ≠ j := by simpa using fun e : i = j => hne' (by rw [e])
      have hwi := h.wid i _ _ (List.getElem?_eq_getElem hi) hw'
      have := h.disj i j hi hj hne2 w _ hw' hjf
      rw [l4] at this
      exact hoth _ _ (h.at_.fld i hi w hw').2 (by omega)

theorem Edited.write {q k : Nat} {S : Nat → Nat → Prop} {b'' : Base} (h : Edited b b' x q k S) (hS : ∀ a off, S a off → a + 4 ≤ x)
    (ho : ∀ z w, Holds b' z w → (z + w.length ≤ x ∨ q + k ≤ z) → Holds b'' z w) : Edited b b'' x q k S :=
  ⟨fun z w hz hx hd => ho _ _ (h.front z w hz hx hd) (Or.inl hx),
    fun a off ha => ho _ _ (h.later a off ha) (Or.inl (by rw [putLE_length]; exact hS a off ha)),
    fun z w hz hx => ho _ _ (h.back z w hz hx) (Or.inr (by omega))⟩

/-- Room for a new field is made at the end of a table, all of the message being told. -/
theorem TabL.insert (h : TabL s nm b x t vo fx) (hn : c.name = nm) (hio : c.io = b) (hp : c.pos = x + (4 + 2 * (s.fields nm).length)) (hnm : TI.TName nm)
    (hst : s.isStruct nm = false) {fld : Option Nat} {idx k v fuel : Nat} {fd : FieldT} (hfd : (s.fields nm)[idx]? = some fd) (hf : fx idx = none)
    (hk : k = fieldWidth s fd) (hk0 : 0 < k) (htk : t + k < 65536) (hne : fld ≠ some idx)
    (hb : ∀ j, fld = some j → TI.ByteVec s nm j ∧ fx j = some (putLE 4 v) ∧ t ≤ vo j + v) (hv : v < 4294967296)
    (hfx : ∀ i, i < (s.fields nm).length → fld ≠ some i → TI.Inl s nm i ∨ fx i = none) (hidx : TI.Inl s nm idx)
    (hcl : Clean b (x + (4 + 2 * (s.fields nm).length) + t)) {nb' : Base} {S : Nat → Nat → Prop}
    (hins : ({ c with tlen := t } : CNode).insertSpace s fuel (c.pos + t) k true = some { c with tlen := t, io := nb' })
    (hM : Moved S k (b.insertSpace (x + (4 + 2 * (s.fields nm).length) + t) k true) nb') (hS : ∀ a off, S a off → a + 4 ≤ x) :
    ∃ b2, ({ c with tlen := t } : CNode).insertVTable s fuel idx k = some ({ c with tlen := t, io := b2 }, x + (4 + 2 * (s.fields nm).length) + t) ∧
      TabL s nm b2 x (t + k) (fun i => if i = idx then t else vo i)
        (fun i => if fld = some i then some (putLE 4 (v + k)) else if i = idx then some (zeros k) else fx i) ∧
      Edited b b2 x (x + (4 + 2 * (s.fields nm).length) + t) k S ∧ Clean b2 (x + (4 + 2 * (s.fields nm).length) + t + k) ∧
      b2.bytes.len ≤ x + (4 + 2 * (s.fields nm).length) + t := by
  have ht4 := h.t4
  have hht := h.ht
  have hin : idx < (s.fields nm).length := (List.getElem?_eq_some_iff.mp hfd).1
  have l2 : ∀ v, (putLE 2 v).length = 2 := fun v => putLE_length 2 v
  have l4 : ∀ v, (putLE 4 v).length = 4 := fun v => putLE_length 4 v
  have ne2 : ∀ v, putLE 2 v ≠ [] := fun v => by simp [putLE]
  have lz : (zeros k).length = k := by simp [zeros]
  generalize hq : x + (4 + 2 * (s.fields nm).length) + t = q at *
  -- what the buffer with the new room holds
  have k1 : ∀ z w, Holds b z w → z + w.length ≤ q → (∀ a off, S a off → z + w.length ≤ a ∨ a + 4 ≤ z) → Holds nb' z w :=
    fun z w hz hx hd => hM.other _ _ (holds_insertSpace_lt hcl hz hx) hd
  have k1x : ∀ z w, Holds b z w → z + w.length ≤ q → x ≤ z → Holds nb' z w :=
    fun z w hz hx hd => k1 z w hz hx (fun a off ha => by have := hS a off ha; omega)
  have k2 : ∀ z w, Holds b z w → q ≤ z → Holds nb' (z + k) w :=
    fun z w hz hx => hM.other _ _ (holds_insertSpace_ge hcl hz hx) (fun a off ha => by have := hS a off ha; omega)
  have k3 : Holds nb' q (zeros k) := hM.other _ _ (holds_insertSpace_new hcl hk0) (fun a off ha => by have := hS a off ha; omega)
  have k4 : Clean nb' (q + k) := hM.clean _ (clean_insertSpace hcl (Or.inr ⟨Nat.le_refl _, by rw [Nat.add_sub_cancel]; exact hcl, Or.inr (Or.inl rfl)⟩))
    (fun a off ha => by have := hS a off ha; omega)
  have k5 : nb'.bytes.len ≤ q := by
    rw [hM.bytes, (insertSpace_diffs hcl true).1]
    split
    · show (List.take _ _).length ≤ _
      rw [List.length_take]; omega
    · omega
  -- the slot, the length
  let b1 := nb'.updateU (x + (4 + 2 * idx)) 2 (putLE 2 t)
  let b2 := b1.updateU (x + 2) 2 (putLE 2 (t + k))
  have hslot1 : Holds b1 (x + (4 + 2 * idx)) (putLE 2 t) := by
    have := holds_updateU_same (b := nb') (off := x + (4 + 2 * idx)) (ne2 t) (by
      have := (k1x _ _ (h.at_.tab.slot idx hin).2 (by rw [l2]; omega) (by omega)).2.1
      rw [l2] at this ⊢; exact this)
    rw [l2] at this; exact this
  have htl2 : Holds b2 (x + 2) (putLE 2 (t + k)) := by
    have := holds_updateU_same (b := b1) (off := x + 2) (ne2 (t + k)) (by
      have := (holds_updateU_other (off := x + (4 + 2 * idx)) (l2 t) (k1x _ _ h.tl (by rw [l2]; omega) (by omega)) (by rw [l2]; omega)).2.1
      rw [l2] at this ⊢; exact this)
    rw [l2] at this; exact this
  have o2 : ∀ z w, Holds nb' z w → (z + w.length ≤ x + 2 ∨ x + 4 ≤ z) → (z + w.length ≤ x + (4 + 2 * idx) ∨ x + (4 + 2 * idx) + 2 ≤ z) → Holds b2 z w :=
    fun z w hz h1 h2 => holds_updateU_other (l2 _) (holds_updateU_other (l2 _) hz h2) (by omega)
  have hG : TabL s nm b2 x (t + k) _ _ := h.grow (idx := idx) (k := k) hfd hf hk htk
    (by rw [hq]; exact o2 q (zeros k) k3 (by omega) (by omega))
    (holds_updateU_other (l2 _) hslot1 (by rw [l2]; omega)) htl2 (fun z w hz h1 h2 h3 h4 => o2 _ _ (k1x _ _ hz (by omega) h1) h3 h4)
  have hby2 : b2.bytes = nb'.bytes := by
    show (b1.updateU (x + 2) 2 (putLE 2 (t + k))).bytes = _
    rw [updateU_struct _ _ _ _ (l2 _)]
    show (nb'.updateU (x + (4 + 2 * idx)) 2 (putLE 2 t)).bytes = _
    rw [updateU_struct _ _ _ _ (l2 _)]
  have hcl2 : Clean b2 (q + k) := clean_updateU (l2 _) (clean_updateU (l2 _) k4 (by omega)) (by omega)
  -- the other fields
  obtain ⟨b3, e3, y3, T3, o3, c3, -⟩ := hG.shift (c := { c with tlen := t, io := b2 }) (fld := fld) (idx := idx) (wPos := q) (k := k) (v := v) hn rfl hp hnm hst hne
    (fun j hj => by
      obtain ⟨g1, g2, g3⟩ := hb j hj
      have : j ≠ idx := fun e => hne (by rw [hj, e])
      simp only [if_neg this]
      exact ⟨g1, g2, by omega⟩) hv
    (fun i hi hfi => by
      by_cases hii : i = idx
      · subst hii; exact Or.inl hidx
      · simp only [if_neg hii]; exact hfx i hi hfi)
  refine ⟨b3, ?_, T3, ⟨fun (z : Nat) (w : Bytes) hz h1 h2 => ?_, fun a off ha => ?_, fun (z : Nat) (w : Bytes) hz h1 => ?_⟩, c3 _ hcl2 (by omega), by rw [y3, hby2]; exact k5⟩
  · unfold CNode.insertVTable
    have htl : ({ c with tlen := t } : CNode).tableLen = some t := by
      unfold CNode.tableLen
      have hso := holds_getN h.at_.tab.soff
      have htn := holds_getN h.tl
      have hH := h.at_.tab.hp
      rw [Nat.mod_eq_of_lt (by omega)] at hso htn
      unfold CNode.u32 CNode.u16
      simp only [hio, hp]
      rw [hso]
      simp only [Option.bind_eq_bind, Option.bind_some]
      rw [show ((x + (4 + 2 * (s.fields nm).length) : Nat) : Int) - ((4 + 2 * (s.fields nm).length : Nat) : Int) + 2 = ((x + 2 : Nat) : Int) by omega]
      exact htn
    rw [htl]
    simp only [Option.bind_eq_bind, Option.bind_some]
    rw [hins]
    simp only [Option.bind_some]
    have hu : ({ c with tlen := t, io := nb' } : CNode).u32 c.pos = some (4 + 2 * (s.fields nm).length) := by
      unfold CNode.u32
      simp only
      have hs := k1x _ _ h.at_.tab.soff (by rw [l4]; omega) (by omega)
      rw [hp, holds_getN hs]
      have := h.at_.tab.hp
      rw [Nat.mod_eq_of_lt (by omega)]
    rw [hu]
    simp only [Option.bind_some]
    unfold Base.putN
    rw [if_neg (by omega)]
    simp only [Option.bind_some]
    rw [if_neg (by omega)]
    simp only [Option.bind_some]
    rw [show ((c.pos : Int) - ((4 + 2 * (s.fields nm).length : Nat) : Int) + 4 + (idx : Int) * 2).toNat = x + (4 + 2 * idx) by omega,
      show ((c.pos : Int) - ((4 + 2 * (s.fields nm).length : Nat) : Int) + 2).toNat = x + 2 by omega, Nat.mod_eq_of_lt htk, show c.pos + t = q by omega]
    show (shiftFields s idx q k (List.range (s.fields c.name).length) { c with tlen := t, io := b2 }).bind _ = _
    rw [show s.fields c.name = s.fields nm by rw [hn], e3]
    rfl
  · exact o3 _ _ (o2 _ _ (k1 _ _ hz (by omega) h2) (by omega) (by omega)) (Or.inl h1)
  · have := hS a off ha
    exact o3 _ _ (o2 _ _ (hM.moved a off ha) (by rw [l4]; omega) (by rw [l4]; omega)) (by rw [l4]; omega)
  · exact o3 _ _ (o2 _ _ (k2 _ _ hz h1) (by omega) (by omega)) (by omega)

theorem TabL.setScalar (h : TabL s nm b x t vo fx) (hn : c.name = nm) (hio : c.io = b) (hp : c.pos = x + (4 + 2 * (s.fields nm).length))
    {i fuel : Nat} {f : CNode} {w : Bytes} (hsrc : InlSrc s nm i f w) :
    c.setScalar s (fuel + 1) i f = (do
      if !(fx i).isNone then
        let b' := b.copy (fun p n => f.io.R p n) f.pos w.length (x + (4 + 2 * (s.fields nm).length) + vo i) 0
        return { c with io := b', tlen := t }
      let (c, wPos) ← ({ c with tlen := t } : CNode).insertVTable s (fuel + 1) i w.length
      let b' := c.io.copy (fun p n => f.io.R p n) f.pos w.length wPos 0
      let t ← CNode.preLoad b' c.pos
      return { c with io := b', tlen := t }) := by
  obtain ⟨fd, hfd, hg, hname, hlen, hsrcH, hstr⟩ := hsrc
  have hin : i < (s.fields nm).length := (List.getElem?_eq_some_iff.mp hfd).1
  have hfT := fieldT_name hn hfd
  unfold CNode.setScalar
  have hsz : (if isFieldStruct (c.fieldT s i).grp then do
        let i ← infoF s (fuel + 1) (some f)
        return i.size
      else some ((c.fieldT s i).size : Int)) = some (w.length : Int) := by
    rw [hfT, inlGrp_struct hg]
    by_cases he : fd.grp = ftStruct
    · rw [decide_eq_true he, if_pos rfl]
      unfold infoF
      rw [hname, hstr he]
      simp only [Option.bind_eq_bind, Option.bind_some, pure]
      rw [hlen]; unfold fieldWidth; rw [if_pos he]
    · rw [decide_eq_false he]
      simp only [Bool.false_eq_true, if_false]
      rw [hlen]; unfold fieldWidth; rw [if_neg he, if_neg (inlGrp_notVec hg)]
  simp only
  rw [hsz, hio, hp, h.preLoad]
  simp only [Option.bind_eq_bind, Option.bind_some]
  have hz : ({ c with tlen := t } : CNode).isZero i = some (fx i).isNone := h.isZero (c := { c with tlen := t }) hio hp hin
  have hv : ({ c with tlen := t } : CNode).vtab i = some (x + (4 + 2 * (s.fields nm).length) + vo i) := h.vtab (c := { c with tlen := t }) hio hp hin
  simp only [hio, hp] at hz hv
  rw [hz, hv]
  simp only [Option.bind_some, copyI_zero]
  rw [if_neg (show ¬ ((w.length : Int) < 0) by omega)]
  simp only [Int.toNat_natCast]

/-- Overwriting a field. -/
theorem Frame.set_present {cur : Nat → Option Bytes} {fld : Option Nat} {gap : Nat} (h : Frame s b nm cur fld gap x t) (hs : SchOk s nm)
    (hn : c.name = nm) (hio : c.io = b) (hp : c.pos = x + (4 + 2 * (s.fields nm).length)) (hfld : ∀ j, fld = some j → TI.ByteVec s nm j)
    {i fuel : Nat} {f : CNode} {w : Bytes} (hsrc : InlSrc s nm i f w) (hcur : cur i ≠ none) :
    ∃ b', c.setFieldAt s (fuel + 1) i f = some ({ c with io := b', tlen := t }, none) ∧
      Frame s b' nm (fun j => if j = i then some w else cur j) fld gap x t ∧
      (∀ z w, Holds b z w → (z + w.length ≤ x ∨ x + (4 + 2 * (s.fields nm).length) + t ≤ z) → Holds b' z w) ∧ b'.bytes = b.bytes ∧
      (b.bytes.len ≤ x + (4 + 2 * (s.fields nm).length) + t → Clean b (x + (4 + 2 * (s.fields nm).length) + t) → Clean b' (x + (4 + 2 * (s.fields nm).length) + t)) := by
  obtain ⟨vo, fx, hT, hI, hN, hS⟩ := h
  have hsrc' := hsrc
  obtain ⟨fd, hfd, hg, hname, hlen, hsrcH, hstr⟩ := hsrc'
  have hin : i < (s.fields nm).length := (List.getElem?_eq_some_iff.mp hfd).1
  rw [← hI i fd hfd hg] at hcur
  obtain ⟨w0, hfx⟩ := Option.ne_none_iff_exists'.mp hcur
  have hw0 : w.length = w0.length := by rw [(hT.wid i fd w0 hfd hfx).2.1, hlen]
  have hwid := hT.wid i fd w0 hfd hfx
  have hne : fld ≠ some i := fun e => by
    obtain ⟨f', hf', hg'⟩ := hfld i e
    rw [hfd] at hf'; cases hf'
    exact inlGrp_notVec hg hg'
  have hh := (hT.at_.fld i hin w0 hfx).2
  have ho : ∀ z v, Holds b z v → (z + v.length ≤ x + (4 + 2 * (s.fields nm).length) + vo i ∨ x + (4 + 2 * (s.fields nm).length) + vo i + w0.length ≤ z) →
      Holds (b.copy (fun p n => f.io.R p n) f.pos w.length (x + (4 + 2 * (s.fields nm).length) + vo i) 0) z v :=
    fun z v hz hd => holds_copy_other hsrcH hz (by omega)
  have hC := hT.write hin hfx hw0 (holds_copy_same hsrcH (by rw [hw0]; exact hh.2.1)) (fun z v hz hd => ho z v hz (by omega))
  refine ⟨_, ?_, ⟨vo, _, hC, ?_, ?_, ?_⟩, fun z v hz hd => ho z v hz (by omega), ?_, fun hb hcl => clean_copy_zero hsrcH hcl (by omega) (Or.inl hb)⟩
  · rw [setFieldAt_inl hs hn hsrc, hT.setScalar hn hio hp hsrc, hfx]
    rfl
  · intro j fj hj hgj
    by_cases hji : j = i
    · simp only [if_pos hji]
    · simp only [if_neg hji]; exact hI j fj hj hgj
  · intro j fj hj hgj hjf
    have hji : j ≠ i := by rintro rfl; rw [hfd] at hj; cases hj; exact hgj hg
    simp only [if_neg hji]; exact hN j fj hj hgj hjf
  · intro j hj
    have hji : j ≠ i := by rintro rfl; exact hne hj
    simp only [if_neg hji]; exact hS j hj
  · obtain ⟨sp, e⟩ := copy_one (b := b) (dst := x + (4 + 2 * (s.fields nm).length) + vo i) (ext := 0) hsrcH
    rw [e]

/-- Setting a field that has not been set. -/
theorem Frame.set_absent {cur : Nat → Option Bytes} {fld : Option Nat} {gap : Nat} (h : Frame s b nm cur fld gap x t) (hs : SchOk s nm)
    (hn : c.name = nm) (hio : c.io = b) (hp : c.pos = x + (4 + 2 * (s.fields nm).length)) (hfld : ∀ j, fld = some j → TI.ByteVec s nm j) (hgap : gap < 65536)
    {i fuel : Nat} {f : CNode} {w : Bytes} (hsrc : InlSrc s nm i f w) (hcur : cur i = none)
    (hcl : Clean b (x + (4 + 2 * (s.fields nm).length) + t)) {S : Nat → Nat → Prop}
    (hins : ∃ nb', ({ c with tlen := t } : CNode).insertSpace s (fuel + 1) (c.pos + t) w.length true = some { c with tlen := t, io := nb' } ∧
      Moved S w.length (b.insertSpace (x + (4 + 2 * (s.fields nm).length) + t) w.length true) nb') (hS : ∀ a off, S a off → a + 4 ≤ x) :
    ∃ b', c.setFieldAt s (fuel + 1) i f = some ({ c with io := b', tlen := t + w.length }, none) ∧
      Frame s b' nm (fun j => if j = i then some w else cur j) fld gap x (t + w.length) ∧
      Edited b b' x (x + (4 + 2 * (s.fields nm).length) + t) w.length S ∧
      Clean b' (x + (4 + 2 * (s.fields nm).length) + t + w.length) ∧ b'.bytes.len ≤ x + (4 + 2 * (s.fields nm).length) + t := by
  obtain ⟨vo, fx, hT, hI, hN, hF⟩ := h
  obtain ⟨nb', hins, hM⟩ := hins
  have hsrc' := hsrc
  obtain ⟨fd, hfd, hg, hname, hlen, hsrcH, hstr⟩ := hsrc'
  have hin : i < (s.fields nm).length := (List.getElem?_eq_some_iff.mp hfd).1
  rw [← hI i fd hfd hg] at hcur
  have hwpos : 0 < w.length := List.length_pos_iff.mpr hsrcH.1
  have hne : fld ≠ some i := fun e => by
    obtain ⟨f', hf', hg'⟩ := hfld i e
    rw [hfd] at hf'; cases hf'
    exact inlGrp_notVec hg hg'
  have hroom := room (fun i fd w h1 h2 => (hT.wid i fd w h1 h2).2.1) hT.tlen hfd hcur hs.hb
  rw [← hlen] at hroom
  have ht := hT.ht
  have hvo : ∀ j, fld = some j → vo j + 4 ≤ t := by
    intro j hj
    obtain ⟨f', hf', -⟩ := hfld j hj
    have := hT.wid j f' _ hf' (hF j hj)
    rw [putLE_length] at this
    omega
  -- the value of the offset
  obtain ⟨v, hv, hvj⟩ : ∃ v, v < 4294967296 ∧ ∀ j, fld = some j → v = t - vo j + gap := by
    cases fld with
    | none => exact ⟨0, by omega, fun j hj => by cases hj⟩
    | some j => exact ⟨t - vo j + gap, by omega, fun j' hj => by cases hj; rfl⟩
  obtain ⟨b2, e2, T2, E2, C2, L2⟩ := hT.insert (fld := fld) (v := v) hn hio hp hs.tn hs.st hfd hcur hlen hwpos hroom hne
    (fun j hj => by
      have := hvo j hj
      refine ⟨hfld j hj, by rw [hF j hj, hvj j hj], ?_⟩
      rw [hvj j hj]; omega) hv
    (fun j hj hjf => by
      have hfj := List.getElem?_eq_getElem hj
      by_cases hgj : InlGrp (s.fields nm)[j].grp
      · exact Or.inl (inlGrp_inl hfj hgj)
      · exact Or.inr (hN j _ hfj hgj hjf)) (inlGrp_inl hfd hg) hcl hins hM hS
  have hfx2 : (fun j => if fld = some j then some (putLE 4 (v + w.length)) else if j = i then some (zeros w.length) else fx j) i = some (zeros w.length) := by
    simp only [if_neg hne, if_true]
  have lz : (zeros w.length).length = w.length := by simp [zeros]
  have hh := (T2.at_.fld i hin _ hfx2).2
  simp only [if_true] at hh
  have ho : ∀ z v, Holds b2 z v → (z + v.length ≤ x + (4 + 2 * (s.fields nm).length) + t ∨ x + (4 + 2 * (s.fields nm).length) + t + w.length ≤ z) →
      Holds (b2.copy (fun p n => f.io.R p n) f.pos w.length (x + (4 + 2 * (s.fields nm).length) + t) 0) z v :=
    fun z v hz hd => holds_copy_other hsrcH hz (by omega)
  have hC := T2.write (b' := b2.copy (fun p n => f.io.R p n) f.pos w.length (x + (4 + 2 * (s.fields nm).length) + t) 0) hin hfx2 lz.symm
    (by
      simp only [if_true]
      exact holds_copy_same hsrcH (by have := hh.2.1; rwa [lz] at this))
    (fun z v hz hd => by
      simp only [if_true] at hd
      exact ho z v hz hd)
  refine ⟨b2.copy (fun p n => f.io.R p n) f.pos w.length (x + (4 + 2 * (s.fields nm).length) + t) 0, ?_, ⟨_, _, hC, ?_, ?_, ?_⟩,
    E2.write hS (fun z v hz hd => ho z v hz (by omega)), clean_copy_zero hsrcH C2 (by omega) (Or.inl (by omega)), ?_⟩
  · rw [setFieldAt_inl hs hn hsrc, hT.setScalar hn hio hp hsrc, hcur]
    simp only [Option.isNone_none, Bool.not_true, Bool.false_eq_true, if_false, Option.bind_eq_bind]
    rw [e2]
    simp only [Option.bind_some]
    have := hC.preLoad
    simp only [hp]
    rw [this]
    rfl
  · intro j fj hj hgj
    by_cases hji : j = i
    · simp only [if_pos hji]
    · have : fld ≠ some j := fun e => by
        obtain ⟨f', hf', hg'⟩ := hfld j e
        rw [hj] at hf'; cases hf'
        exact inlGrp_notVec hgj hg'
      simp only [if_neg hji, if_neg this]; exact hI j fj hj hgj
  · intro j fj hj hgj hjf
    have hji : j ≠ i := by rintro rfl; rw [hfd] at hj; cases hj; exact hgj hg
    simp only [if_neg hji, if_neg hjf]; exact hN j fj hj hgj hjf
  · intro j hj
    have hji : j ≠ i := by rintro rfl; exact hne hj
    have := hvo j hj
    simp only [if_neg hji, if_pos hj, hvj j hj]
    rw [show t - vo j + gap + w.length = t + w.length - vo j + gap by omega]
  · obtain ⟨sp, e⟩ := copy_one (b := b2) (dst := x + (4 + 2 * (s.fields nm).length) + t) (ext := 0) hsrcH
    rw [e]
    exact L2

end

end Fbs.Props
