import Verif.Info
/-!
# Properties of buffer inspection (C63)
-/

namespace Fbs.Props
open Fbs Fbs.Inspect

/-- Specification: `e` is the end position of a value that belongs to the table at `top`, directly or
through nested tables (of a vector: its last element).  No traversal order is involved. -/
inductive Occupies (buf : Bytes) : List Opt → Nat → Nat → Prop where
  | scalar {maps : List Opt} {top : Nat} {vt : List Nat} {i v n : Nat} {o : Opt} :
      fetchVtable buf top = some vt → vt[i]? = some v → maps[i]? = some o → fieldKind o = .scalar n →
      Occupies buf maps top (((top + v) % M32 + n) % M32)
  | string {maps : List Opt} {top : Nat} {vt : List Nat} {i v off sLen : Nat} {o : Opt} :
      fetchVtable buf top = some vt → vt[i]? = some v → maps[i]? = some o → fieldKind o = .string →
      rd32 buf ((top + v) % M32) = some off → rd32 buf (((top + v) % M32 + off) % M32) = some sLen →
      Occupies buf maps top (((top + v) % M32 + off + 4 + sLen) % M32)
  | nested {maps : List Opt} {top : Nat} {vt : List Nat} {i v x e : Nat} {o : Opt} :
      fetchVtable buf top = some vt → vt[i]? = some v → maps[i]? = some o → fieldKind o = .nest →
      rd32 buf ((top + v) % M32) = some x → Occupies buf o.nest ((x + (top + v) % M32) % M32) e →
      Occupies buf maps top e
  | vector {maps : List Opt} {top : Nat} {vt : List Nat} {i v off vLen x e last : Nat} {o : Opt} :
      fetchVtable buf top = some vt → vt[i]? = some v → maps[i]? = some o → fieldKind o = .vector →
      rd32 buf ((top + v) % M32) = some off → rd32 buf (((top + v) % M32 + off) % M32) = some vLen →
      last = (((top + v) % M32 + off + 4) % M32 + (vLen + M32 - 1) % M32 * 4) % M32 →
      rd32 buf last = some x → Occupies buf o.nest ((last + x) % M32) e →
      Occupies buf maps top e

/-- The value of field `i` (entry `v`): its end, or its nested position. -/
inductive FieldAt (buf : Bytes) (top v : Nat) (o : Opt) : Nat ⊕ Nat → Prop where
  | scalar {n : Nat} : fieldKind o = .scalar n → FieldAt buf top v o (.inl (((top + v) % M32 + n) % M32))
  | string {off sLen : Nat} : fieldKind o = .string → rd32 buf ((top + v) % M32) = some off →
      rd32 buf (((top + v) % M32 + off) % M32) = some sLen →
      FieldAt buf top v o (.inl (((top + v) % M32 + off + 4 + sLen) % M32))
  | nested {x : Nat} : fieldKind o = .nest → rd32 buf ((top + v) % M32) = some x →
      FieldAt buf top v o (.inr ((x + (top + v) % M32) % M32))
  | vector {off vLen last x : Nat} : fieldKind o = .vector → rd32 buf ((top + v) % M32) = some off →
      rd32 buf (((top + v) % M32 + off) % M32) = some vLen →
      last = (((top + v) % M32 + off + 4) % M32 + (vLen + M32 - 1) % M32 * 4) % M32 →
      rd32 buf last = some x → FieldAt buf top v o (.inr ((last + x) % M32))

theorem occupies_iff (buf : Bytes) (maps : List Opt) (top e : Nat) :
    Occupies buf maps top e ↔ ∃ (vt : List Nat) (i v : Nat) (o : Opt), fetchVtable buf top = some vt ∧ vt[i]? = some v ∧ maps[i]? = some o ∧
      (FieldAt buf top v o (.inl e) ∨ ∃ p, FieldAt buf top v o (.inr p) ∧ Occupies buf o.nest p e) := by
  constructor
  · intro h
    cases h with
    | scalar h1 h2 h3 h4 => exact ⟨_, _, _, _, h1, h2, h3, .inl (.scalar h4)⟩
    | string h1 h2 h3 h4 h5 h6 => exact ⟨_, _, _, _, h1, h2, h3, .inl (.string h4 h5 h6)⟩
    | nested h1 h2 h3 h4 h5 h6 => exact ⟨_, _, _, _, h1, h2, h3, .inr ⟨_, .nested h4 h5, h6⟩⟩
    | vector h1 h2 h3 h4 h5 h6 h7 h8 h9 => exact ⟨_, _, _, _, h1, h2, h3, .inr ⟨_, .vector h4 h5 h6 h7 h8, h9⟩⟩
  · rintro ⟨vt, i, v, o, h1, h2, h3, h | ⟨p, h, h'⟩⟩
    · generalize hx : (Sum.inl e : Nat ⊕ Nat) = x at h
      cases h with
      | scalar h4 => cases hx; exact .scalar h1 h2 h3 h4
      | string h4 h5 h6 => cases hx; exact .string h1 h2 h3 h4 h5 h6
      | nested h4 h5 => cases hx
      | vector h4 h5 h6 h7 h8 => cases hx
    · generalize hx : (Sum.inr p : Nat ⊕ Nat) = x at h
      cases h with
      | scalar h4 => cases hx
      | string h4 h5 h6 => cases hx
      | nested h4 h5 => cases hx; exact .nested h1 h2 h3 h4 h5 h'
      | vector h4 h5 h6 h7 h8 => cases hx; exact .vector h1 h2 h3 h4 h5 h6 h7 h8 h'

theorem fieldAt_unique {buf : Bytes} {top v : Nat} {o : Opt} {a b : Nat ⊕ Nat} (ha : FieldAt buf top v o a)
    (hb : FieldAt buf top v o b) : a = b := by
  cases ha <;> cases hb <;> simp_all

/-- What one iteration of the field loop does. -/
theorem scanField_spec {buf : Bytes} {capb top len v : Nat} {o : Opt} {len' : Nat} {p : Option Nat}
    (h : scanField buf capb top len v o = some (len', p)) :
    (∃ e, FieldAt buf top v o (.inl e) ∧ len' = max len e ∧ p = none) ∨
    (∃ q, FieldAt buf top v o (.inr q) ∧ len' = len ∧ p = some q) := by
  unfold scanField at h
  simp only [] at h
  cases hk : fieldKind o with
  | scalar n =>
    rw [hk] at h
    simp only [Option.some.injEq, Prod.mk.injEq] at h
    exact .inl ⟨_, .scalar hk, h.1.symm, h.2.symm⟩
  | vector =>
    rw [hk] at h
    simp only [Option.bind_eq_bind, Option.bind_eq_some_iff] at h
    obtain ⟨off, h1, vLen, h2, h3⟩ := h
    split at h3
    · simp only [Option.bind_eq_some_iff] at h3
      obtain ⟨x, h3, h4⟩ := h3
      simp only [Option.pure_def, Option.some.injEq, Prod.mk.injEq] at h4
      exact .inr ⟨_, .vector hk h1 h2 rfl h3, h4.1.symm, h4.2.symm⟩
    · cases h3
  | nest =>
    rw [hk] at h
    simp only [Option.bind_eq_bind, Option.bind_eq_some_iff] at h
    obtain ⟨x, h1, h2⟩ := h
    simp only [Option.pure_def, Option.some.injEq, Prod.mk.injEq] at h2
    exact .inr ⟨_, .nested hk h1, h2.1.symm, h2.2.symm⟩
  | string =>
    rw [hk] at h
    simp only [Option.bind_eq_bind, Option.bind_eq_some_iff] at h
    obtain ⟨off, h1, sLen, h2, h3⟩ := h
    simp only [Option.pure_def, Option.some.injEq, Prod.mk.injEq] at h3
    exact .inl ⟨_, .string hk h1 h2, h3.1.symm, h3.2.symm⟩

/-- What the field loop does. -/
theorem scanFields_spec {buf : Bytes} {capb top : Nat} {maps : List Opt} :
    ∀ (vs : List Nat) (idx len : Nat) {r : Nat} {nest : List (Nat × Nat)},
    scanFields buf capb top maps idx len vs = some (r, nest) →
    len ≤ r ∧
    (∀ i v o e, vs[i]? = some v → maps[idx + i]? = some o → FieldAt buf top v o (.inl e) → e ≤ r) ∧
    (r = len ∨ ∃ i v o, vs[i]? = some v ∧ maps[idx + i]? = some o ∧ FieldAt buf top v o (.inl r)) ∧
    (∀ j q, (j, q) ∈ nest ↔ ∃ i v o, j = idx + i ∧ vs[i]? = some v ∧ maps[idx + i]? = some o ∧
      FieldAt buf top v o (.inr q)) := by
  intro vs
  induction vs with
  | nil =>
    intro idx len r nest h
    simp [scanFields] at h
    obtain ⟨rfl, rfl⟩ := h
    simp
  | cons v vs ih =>
    intro idx len r nest h
    unfold scanFields at h
    cases ho : maps[idx]? with
    | none => rw [ho] at h; simp at h
    | some o =>
      rw [ho] at h
      simp only [] at h
      cases hs : scanField buf capb top len v o with
      | none => rw [hs] at h; simp at h
      | some lp =>
        obtain ⟨len', p⟩ := lp
        rw [hs] at h
        simp only [] at h
        cases hr : scanFields buf capb top maps (idx + 1) len' vs with
        | none => rw [hr] at h; simp at h
        | some rn =>
          obtain ⟨r', n'⟩ := rn
          rw [hr] at h
          simp only [Option.some.injEq, Prod.mk.injEq] at h
          obtain ⟨rfl, hn⟩ := h
          obtain ⟨g1, g2, g3, g4⟩ := ih (idx + 1) len' hr
          have hf := scanField_spec hs
          have hlen : len ≤ len' := by
            rcases hf with ⟨e, _, h, _⟩ | ⟨q, _, h, _⟩ <;> omega
          refine ⟨by omega, ?_, ?_, ?_⟩
          · intro i w o' e hw ho' hfa
            cases i with
            | zero =>
              simp at hw; subst hw
              simp [ho] at ho'; subst ho'
              rcases hf with ⟨e', h1, h2, _⟩ | ⟨q, h1, _, _⟩
              · have := fieldAt_unique hfa h1
                cases this
                omega
              · have := fieldAt_unique hfa h1; cases this
            | succ i => exact g2 i w o' e (by simpa using hw) (by rw [← ho']; congr 1; omega) hfa
          · rcases g3 with g3 | ⟨i, w, o', h1, h2, h3⟩
            · rcases hf with ⟨e', h1, h2, _⟩ | ⟨q, h1, h2, _⟩
              · by_cases hx : len' = len
                · exact .inl (by omega)
                · refine .inr ⟨0, v, o, rfl, ho, ?_⟩
                  have : r' = e' := by omega
                  rw [this]; exact h1
              · exact .inl (by omega)
            · exact .inr ⟨i + 1, w, o', by simpa using h1, by rw [← h2]; congr 1; omega, h3⟩
          · intro j q
            rw [← hn, List.mem_append, g4]
            constructor
            · rintro (hm | ⟨i, w, o', h1, h2, h3, h4⟩)
              · rcases hf with ⟨e', _, _, hp⟩ | ⟨q', h1, _, hp⟩
                · rw [hp] at hm; simp at hm
                · rw [hp] at hm
                  simp at hm
                  obtain ⟨rfl, rfl⟩ := hm
                  exact ⟨0, v, o, rfl, rfl, ho, h1⟩
              · exact ⟨i + 1, w, o', by omega, by simpa using h2, by rw [← h3]; congr 1; omega, h4⟩
            · rintro ⟨i, w, o', h1, h2, h3, h4⟩
              cases i with
              | zero =>
                left
                simp at h2; subst h2
                simp [ho] at h3; subst h3
                rcases hf with ⟨e', h5, _, hp⟩ | ⟨q', h5, _, hp⟩
                · have := fieldAt_unique h4 h5; cases this
                · have := fieldAt_unique h4 h5
                  cases this
                  rw [hp]; simp [h1]
              | succ i =>
                right
                exact ⟨i, w, o', by omega, by simpa using h2, by rw [← h3]; congr 1; omega, h4⟩

/-- The length found for a value is the least one that is at least `len` and covers it. -/
def Covers (P : Nat → Prop) (len r : Nat) : Prop :=
  len ≤ r ∧ (∀ e, P e → e ≤ r) ∧ (r = len ∨ P r)

theorem visit_spec (kids : List Fetch) (path : List Nat) (P : Nat → Nat → Nat → Prop)
    (hk : ∀ i k, kids[i]? = some k → ∀ path pos len n, k path pos len = some n → Covers (P i pos) len n.length) :
    ∀ (l : List (Nat × Nat)) (len r : Nat) (cs : List (Nat × Info)), visit kids path len l = some (r, cs) →
      Covers (fun e => ∃ i pos, (i, pos) ∈ l ∧ P i pos e) len r := by
  intro l
  induction l with
  | nil =>
    intro len r cs h
    simp [visit] at h
    exact ⟨by omega, by simp, .inl (by omega)⟩
  | cons a l ih =>
    intro len r cs h
    obtain ⟨i, pos⟩ := a
    unfold visit at h
    cases hki : kids[i]? with
    | none => rw [hki] at h; simp at h
    | some k =>
      rw [hki] at h
      simp only [] at h
      cases hn : k (path ++ [i]) pos len with
      | none => rw [hn] at h; simp at h
      | some n =>
        rw [hn] at h
        simp only [] at h
        cases hv : visit kids path (max len n.length) l with
        | none => rw [hv] at h; simp at h
        | some rc =>
          obtain ⟨r', cs'⟩ := rc
          rw [hv] at h
          simp only [Option.some.injEq, Prod.mk.injEq] at h
          obtain ⟨rfl, _⟩ := h
          obtain ⟨a1, a2, a3⟩ := ih _ _ _ hv
          obtain ⟨b1, b2, b3⟩ := hk i k hki _ _ _ _ hn
          refine ⟨by omega, ?_, ?_⟩
          · rintro e ⟨j, q, hm, hp⟩
            rcases List.mem_cons.1 hm with hm | hm
            · cases hm
              have := b2 e hp
              omega
            · exact a2 e ⟨j, q, hm, hp⟩
          · rcases a3 with a3 | ⟨j, q, hm, hp⟩
            · rcases b3 with b3 | b3
              · exact .inl (by omega)
              · right
                have : r' = n.length := by omega
                exact ⟨i, pos, by simp, by rw [this]; exact b3⟩
            · exact .inr ⟨j, q, by simp [hm], hp⟩

theorem fetchKids_getElem? (buf : Bytes) (capb : Nat) (ord : List Nat → List (Nat × Nat) → List (Nat × Nat)) :
    ∀ (os : List Opt) (i : Nat), (fetchKids buf capb ord os)[i]? = (os[i]?).map (fetch buf capb ord) := by
  intro os
  induction os with
  | nil => intro i; simp [fetchKids]
  | cons o os ih => intro i; cases i <;> simp [fetchKids, ih]

/-- The oracle is an iteration order: it permutes the map entries. -/
def IsOrder (ord : List Nat → List (Nat × Nat) → List (Nat × Nat)) : Prop := ∀ path l, List.Perm (ord path l) l

theorem fetchBody_spec (buf : Bytes) (capb : Nat) (ord : List Nat → List (Nat × Nat) → List (Nat × Nat))
    (hord : IsOrder ord) (maps : List Opt) (kids : List Fetch)
    (hk : ∀ (i : Nat) (k : Fetch), kids[i]? = some k → ∃ o : Opt, maps[i]? = some o ∧ ∀ path pos len n, k path pos len = some n →
      Covers (Occupies buf o.nest pos) len n.length) (path : List Nat) (top len : Nat) (n : Info)
    (h : fetchBody buf capb ord maps kids path top len = some n) : Covers (Occupies buf maps top) len n.length := by
  unfold fetchBody at h
  cases hv : fetchVtable buf top with
  | none => rw [hv] at h; simp at h
  | some vt =>
    rw [hv] at h
    simp only [] at h
    cases hs : scanFields buf capb top maps 0 len vt with
    | none => rw [hs] at h; simp at h
    | some ln =>
      obtain ⟨len1, nest⟩ := ln
      rw [hs] at h
      simp only [] at h
      cases hvi : visit kids path len1 (ord path nest) with
      | none => rw [hvi] at h; simp at h
      | some lc =>
        obtain ⟨len2, cs⟩ := lc
        rw [hvi] at h
        simp only [Option.some.injEq] at h
        subst h
        show Covers _ len len2
        obtain ⟨s1, s2, s3, s4⟩ := scanFields_spec vt 0 len hs
        obtain ⟨v1, v2, v3⟩ := visit_spec kids path
          (fun i pos e => ∃ o, maps[i]? = some o ∧ Occupies buf o.nest pos e)
          (by
            intro i k hki path pos len n hn
            obtain ⟨o, ho, hc⟩ := hk i k hki
            obtain ⟨c1, c2, c3⟩ := hc path pos len n hn
            refine ⟨c1, ?_, ?_⟩
            · rintro e ⟨o', ho', he⟩
              rw [ho] at ho'; cases ho'
              exact c2 e he
            · rcases c3 with c3 | c3
              · exact .inl c3
              · exact .inr ⟨o, ho, c3⟩)
          _ _ _ _ hvi
        refine ⟨by omega, ?_, ?_⟩
        · intro e he
          obtain ⟨vt', i, v, o, h1, h2, h3, h4⟩ := (occupies_iff _ _ _ _).1 he
          rw [hv] at h1; cases h1
          rcases h4 with h4 | ⟨p, h4, h5⟩
          · have := s2 i v o e h2 (by simpa using h3) h4; omega
          · exact v2 e ⟨i, p, (hord path nest).mem_iff.2 ((s4 i p).2 ⟨i, v, o, by omega, h2, by simpa using h3, h4⟩),
              o, h3, h5⟩
        · rcases v3 with v3 | ⟨i, p, hm, o, ho, he⟩
          · rcases s3 with s3 | ⟨i, v, o, h1, h2, h3⟩
            · exact .inl (by omega)
            · right
              rw [v3]
              exact (occupies_iff _ _ _ _).2 ⟨vt, i, v, o, hv, h1, by simpa using h2, .inl h3⟩
          · right
            obtain ⟨i', v, o', h1, h2, h3, h4⟩ := (s4 i p).1 ((hord path nest).mem_iff.1 hm)
            have : i' = i := by omega
            subst this
            have hoo : o' = o := by
              have : maps[i']? = some o' := by simpa using h3
              rw [ho] at this; simpa using this.symm
            subst hoo
            exact (occupies_iff _ _ _ _).2 ⟨vt, i', v, o', hv, h2, ho, .inr ⟨p, h4, he⟩⟩

theorem fetch_spec (buf : Bytes) (capb : Nat) (ord : List Nat → List (Nat × Nat) → List (Nat × Nat))
    (hord : IsOrder ord) (o : Opt) : ∀ path pos len n, fetch buf capb ord o path pos len = some n →
      Covers (Occupies buf o.nest pos) len n.length := by
  cases o with
  | mk sz vec nest =>
    intro path pos len n h
    refine fetchBody_spec buf capb ord hord nest _ ?_ path pos len n h
    intro i k hk
    rw [fetchKids_getElem?] at hk
    cases ho : nest[i]? with
    | none => rw [ho] at hk; simp at hk
    | some o' =>
      rw [ho] at hk
      simp at hk
      subst hk
      have := List.sizeOf_lt_of_mem (List.mem_of_getElem? ho)
      exact ⟨o', rfl, fetch_spec buf capb ord hord o'⟩
termination_by sizeOf o
decreasing_by
  simp only [Opt.mk.sizeOf_spec]; omega

/-- C63: whatever the iteration order, the length found is exactly the least one covering the start of
the table and every value belonging to it. -/
theorem info_length (buf : Bytes) (capb : Nat) (ord : List Nat → List (Nat × Nat) → List (Nat × Nat))
    (hord : IsOrder ord) (maps : List Opt) (top : Nat) (n : Info) (h : getFbsInfo buf capb ord maps top = some n) :
    top ≤ n.length ∧ (∀ e, Occupies buf maps top e → e ≤ n.length) ∧ (n.length = top ∨ Occupies buf maps top n.length) := by
  refine fetchBody_spec buf capb ord hord maps _ ?_ [] top top n h
  intro i k hk
  rw [fetchKids_getElem?] at hk
  cases ho : maps[i]? with
  | none => rw [ho] at hk; simp at hk
  | some o' =>
    rw [ho] at hk
    simp at hk
    subst hk
    exact ⟨o', rfl, fetch_spec buf capb ord hord o'⟩

/-- C63: two runs with different iteration orders report the same length. -/
theorem info_length_order (buf : Bytes) (capb : Nat) (ord ord' : List Nat → List (Nat × Nat) → List (Nat × Nat))
    (hord : IsOrder ord) (hord' : IsOrder ord') (maps : List Opt) (top : Nat) (n n' : Info)
    (h : getFbsInfo buf capb ord maps top = some n) (h' : getFbsInfo buf capb ord' maps top = some n') :
    n.length = n'.length := by
  obtain ⟨a1, a2, a3⟩ := info_length buf capb ord hord maps top n h
  obtain ⟨b1, b2, b3⟩ := info_length buf capb ord' hord' maps top n' h'
  have h1 : n.length ≤ n'.length := by
    rcases a3 with a3 | a3
    · omega
    · exact b2 _ a3
  have h2 : n'.length ≤ n.length := by
    rcases b3 with b3 | b3
    · omega
    · exact a2 _ b3
  omega

/-! ### the run succeeds under one order iff it succeeds under every order -/

theorem visit_isSome (kids kids' : List Fetch) (path path' : List Nat)
    (hk : ∀ i : Nat, (∃ k, kids[i]? = some k) ↔ ∃ k, kids'[i]? = some k)
    (hs : ∀ (i : Nat) (k k' : Fetch), kids[i]? = some k → kids'[i]? = some k' → ∀ p p' pos len len',
      (k p pos len).isSome = (k' p' pos len').isSome) :
    ∀ (l l' : List (Nat × Nat)) (len len' : Nat), List.Perm l l' →
      (visit kids path len l).isSome = (visit kids' path' len' l').isSome := by
  have char : ∀ (kids : List Fetch) (path : List Nat) (Q : Nat → Nat → Prop)
      (_ : ∀ (i pos : Nat), (∃ k, kids[i]? = some k ∧ ∀ p len, (k p pos len).isSome = true) ↔ Q i pos)
      (_ : ∀ (i pos : Nat), (∃ k, kids[i]? = some k ∧ ∃ p len, (k p pos len).isSome = true) ↔ Q i pos),
      ∀ (l : List (Nat × Nat)) (len : Nat), (visit kids path len l).isSome = true ↔ ∀ x ∈ l, Q x.1 x.2 := by
    intro kids path Q hQ hQ' l
    induction l with
    | nil => intro len; simp [visit]
    | cons a l ih =>
      intro len
      obtain ⟨i, pos⟩ := a
      unfold visit
      cases hki : kids[i]? with
      | none =>
        simp only [Option.isSome_none, Bool.false_eq_true, false_iff]
        intro hx
        have := (hQ i pos).2 (hx (i, pos) (by simp))
        obtain ⟨k, hk, _⟩ := this
        rw [hki] at hk; cases hk
      | some k =>
        simp only []
        cases hn : k (path ++ [i]) pos len with
        | none =>
          simp only [Option.isSome_none, Bool.false_eq_true, false_iff]
          intro hx
          obtain ⟨k', hk', hall⟩ := (hQ i pos).2 (hx (i, pos) (by simp))
          rw [hki] at hk'; cases hk'
          have := hall (path ++ [i]) len
          rw [hn] at this; cases this
        | some n =>
          simp only []
          have h1 : Q i pos := (hQ' i pos).1 ⟨k, hki, _, _, by rw [hn]; rfl⟩
          have h2 := ih (max len n.length)
          cases hv : visit kids path (max len n.length) l with
          | none =>
            rw [hv] at h2
            simp only [Option.isSome_none, Bool.false_eq_true, false_iff] at h2 ⊢
            intro hx; exact h2 (fun x hx' => hx x (by simp [hx']))
          | some rc =>
            rw [hv] at h2
            simp only [Option.isSome_some, true_iff] at h2 ⊢
            intro x hx
            rcases List.mem_cons.1 hx with hx | hx
            · subst hx; exact h1
            · exact h2 x hx
  intro l l' len len' hp
  let Q : Nat → Nat → Prop := fun i pos => ∃ k, kids[i]? = some k ∧ ∀ p len, (k p pos len).isSome = true
  have c1 := char kids path Q (fun i pos => Iff.rfl) (by
    intro i pos
    constructor
    · rintro ⟨k, hk1, p, len, h⟩
      refine ⟨k, hk1, fun p2 len2 => ?_⟩
      obtain ⟨k', hk'⟩ := (hk i).1 ⟨k, hk1⟩
      rw [hs i k k' hk1 hk' p2 p2 pos len2 len2, ← hs i k k' hk1 hk' p p2 pos len len2, h]
    · rintro ⟨k, hk1, h⟩
      exact ⟨k, hk1, [], 0, h _ _⟩) l len
  have c2 := char kids' path' Q (by
      intro i pos
      constructor
      · rintro ⟨k', hk1, h⟩
        obtain ⟨k, hk'⟩ := (hk i).2 ⟨k', hk1⟩
        exact ⟨k, hk', fun p len => by rw [hs i k k' hk' hk1 p p pos len len]; exact h _ _⟩
      · rintro ⟨k, hk1, h⟩
        obtain ⟨k', hk'⟩ := (hk i).1 ⟨k, hk1⟩
        exact ⟨k', hk', fun p len => by rw [← hs i k k' hk1 hk' p p pos len len]; exact h _ _⟩)
    (by
      intro i pos
      constructor
      · rintro ⟨k', hk1, p, len, h⟩
        obtain ⟨k, hk'⟩ := (hk i).2 ⟨k', hk1⟩
        exact ⟨k, hk', fun p2 len2 => by rw [hs i k k' hk' hk1 p2 p pos len2 len]; exact h⟩
      · rintro ⟨k, hk1, h⟩
        obtain ⟨k', hk'⟩ := (hk i).1 ⟨k, hk1⟩
        exact ⟨k', hk', [], 0, by rw [← hs i k k' hk1 hk' [] [] pos 0 0]; exact h _ _⟩) l' len'
  rw [Bool.eq_iff_iff, c1, c2]
  constructor
  · intro h x hx; exact h x (hp.mem_iff.2 hx)
  · intro h x hx; exact h x (hp.mem_iff.1 hx)

theorem scanField_len (buf : Bytes) (capb top len len' v : Nat) (o : Opt) :
    (scanField buf capb top len v o).map Prod.snd = (scanField buf capb top len' v o).map Prod.snd := by
  unfold scanField
  cases fieldKind o <;> simp only [Option.bind_eq_bind, Option.map_bind, Function.comp_def, Option.map_some, Option.pure_def, apply_ite (Option.map Prod.snd), Option.map_none]

theorem scanFields_len (buf : Bytes) (capb top : Nat) (maps : List Opt) : ∀ (vs : List Nat) (idx len len' : Nat),
    (scanFields buf capb top maps idx len vs).map Prod.snd = (scanFields buf capb top maps idx len' vs).map Prod.snd := by
  intro vs
  induction vs with
  | nil => intro idx len len'; rfl
  | cons v vs ih =>
    intro idx len len'
    unfold scanFields
    cases maps[idx]? with
    | none => rfl
    | some o =>
      simp only []
      have hh := scanField_len buf capb top len len' v o
      cases h1 : scanField buf capb top len v o with
      | none =>
        rw [h1] at hh
        cases h2 : scanField buf capb top len' v o with
        | none => rfl
        | some y => rw [h2] at hh; cases hh
      | some x =>
        rw [h1] at hh
        cases h2 : scanField buf capb top len' v o with
        | none => rw [h2] at hh; cases hh
        | some y =>
          rw [h2] at hh
          obtain ⟨a, b⟩ := x
          obtain ⟨c, d⟩ := y
          simp at hh
          subst hh
          simp only []
          have hi := ih (idx + 1) a c
          cases h3 : scanFields buf capb top maps (idx + 1) a vs <;>
            cases h4 : scanFields buf capb top maps (idx + 1) c vs <;> rw [h3, h4] at hi <;> simp at hi ⊢
          exact hi

theorem fetchBody_isSome (buf : Bytes) (capb : Nat) (ord ord' : List Nat → List (Nat × Nat) → List (Nat × Nat))
    (hord : IsOrder ord) (hord' : IsOrder ord') (maps : List Opt) (kids kids' : List Fetch)
    (hk : ∀ i : Nat, (∃ k, kids[i]? = some k) ↔ ∃ k, kids'[i]? = some k)
    (hs : ∀ (i : Nat) (k k' : Fetch), kids[i]? = some k → kids'[i]? = some k' → ∀ p p' pos len len',
      (k p pos len).isSome = (k' p' pos len').isSome) (p p' : List Nat) (top len len' : Nat) :
    (fetchBody buf capb ord maps kids p top len).isSome = (fetchBody buf capb ord' maps kids' p' top len').isSome := by
  unfold fetchBody
  cases fetchVtable buf top with
  | none => rfl
  | some vt =>
    simp only []
    have hh := scanFields_len buf capb top maps vt 0 len len'
    cases h1 : scanFields buf capb top maps 0 len vt <;> cases h2 : scanFields buf capb top maps 0 len' vt <;>
      rw [h1, h2] at hh <;> simp at hh ⊢
    rename_i x y
    obtain ⟨a, b⟩ := x
    obtain ⟨c, d⟩ := y
    simp at hh
    subst hh
    simp only []
    have := visit_isSome kids kids' p p' hk hs (ord p b) (ord' p' b) a c ((hord p b).trans (hord' p' b).symm)
    cases h3 : visit kids p a (ord p b) <;> cases h4 : visit kids' p' c (ord' p' b) <;> rw [h3, h4] at this <;>
      simp at this ⊢

theorem fetch_isSome (buf : Bytes) (capb : Nat) (ord ord' : List Nat → List (Nat × Nat) → List (Nat × Nat))
    (hord : IsOrder ord) (hord' : IsOrder ord') (o : Opt) : ∀ p p' pos len len',
      (fetch buf capb ord o p pos len).isSome = (fetch buf capb ord' o p' pos len').isSome := by
  cases o with
  | mk sz vec nest =>
    intro p p' pos len len'
    refine fetchBody_isSome buf capb ord ord' hord hord' nest _ _ ?_ ?_ p p' pos len len'
    · intro i
      rw [fetchKids_getElem?, fetchKids_getElem?]
      cases nest[i]? <;> simp
    · intro i k k' hk hk'
      rw [fetchKids_getElem?] at hk hk'
      cases ho : nest[i]? with
      | none => rw [ho] at hk; simp at hk
      | some o' =>
        rw [ho] at hk hk'
        simp at hk hk'
        subst hk; subst hk'
        have := List.sizeOf_lt_of_mem (List.mem_of_getElem? ho)
        exact fetch_isSome buf capb ord ord' hord hord' o'
termination_by sizeOf o
decreasing_by
  simp only [Opt.mk.sizeOf_spec]; omega

/-- C63: whether the inspection panics does not depend on the iteration order either. -/
theorem info_panic_order (buf : Bytes) (capb : Nat) (ord ord' : List Nat → List (Nat × Nat) → List (Nat × Nat))
    (hord : IsOrder ord) (hord' : IsOrder ord') (maps : List Opt) (top : Nat) :
    (getFbsInfo buf capb ord maps top).isSome = (getFbsInfo buf capb ord' maps top).isSome := by
  refine fetchBody_isSome buf capb ord ord' hord hord' maps _ _ ?_ ?_ [] [] top top top
  · intro i
    rw [fetchKids_getElem?, fetchKids_getElem?]
    cases maps[i]? <;> simp
  · intro i k k' hk hk'
    rw [fetchKids_getElem?] at hk hk'
    cases ho : maps[i]? with
    | none => rw [ho] at hk; simp at hk
    | some o' =>
      rw [ho] at hk hk'
      simp at hk hk'
      subst hk; subst hk'
      exact fetch_isSome buf capb ord ord' hord hord' o'

/-- A root table with two nested tables, each with one 4-byte scalar. -/
def twoNested : Bytes :=
  [12,0,0,0, 8,0,12,0, 4,0,8,0, 8,0,0,0, 16,0,0,0, 20,0,0,0, 6,0,8,0, 4,0,0,0, 8,0,0,0, 0,0,0,0, 16,0,0,0, 0,0,0,0]

def twoNestedOpt : List Opt :=
  [.mk (-1) false [.mk 4 false []], .mk (-1) false [.mk 4 false []]]

/-- Non-vacuity: both orders succeed and report length 48. -/
example : (getFbsRootInfo twoNested 48 (fun _ l => l) twoNestedOpt).map Info.length = some 48 ∧
    (getFbsRootInfo twoNested 48 (fun _ l => l.reverse) twoNestedOpt).map Info.length = some 48 := by decide +kernel

/-- C63 fails for nested lengths: the length recorded for the first nested table depends on the map
iteration order (40 or 48). -/
theorem info_child_fails : ∃ (buf : Bytes) (maps : List Opt) (ord ord' : List Nat → List (Nat × Nat) → List (Nat × Nat)),
    IsOrder ord ∧ IsOrder ord' ∧
    ((getFbsRootInfo buf buf.length ord maps).map fun n => (n.childs.filter (·.1 = 0)).map (·.2.length)) = some [40] ∧
    ((getFbsRootInfo buf buf.length ord' maps).map fun n => (n.childs.filter (·.1 = 0)).map (·.2.length)) = some [48] :=
  ⟨twoNested, twoNestedOpt, fun _ l => l, fun _ l => l.reverse, fun _ l => List.Perm.refl l,
    fun _ l => List.reverse_perm l, by decide +kernel, by decide +kernel⟩

/-- C63 fails: only the last element of a vector is visited, so a value of another element may lie beyond
the reported length (48; element 0, inspected by itself, ends at 56). -/
theorem info_vector_fails : ∃ (buf : Bytes) (maps : List Opt),
    (getFbsRootInfo buf 88 (fun _ l => l) maps).map Info.length = some 48 ∧
    (getFbsInfo buf 88 (fun _ l => l) ((maps.map Opt.nest).headD []) 48).map Info.length = some 56 :=
  ⟨[12,0,0,0, 6,0,8,0, 4,0,0,0, 8,0,0,0, 4,0,0,0, 2,0,0,0, 24,0,0,0, 12,0,0,0, 6,0,8,0, 4,0,0,0,
    8,0,0,0, 0,0,0,0, 16,0,0,0, 0,0,0,0],
   [.mk (-1) true [.mk 4 false []]], by decide +kernel, by decide +kernel⟩

/-- C63 fails: a field absent from its table (vtable entry 0) is read as if it were at the start of the
table; for a string the inspection of this well-formed table panics. -/
theorem info_absent_fails : ∃ (buf : Bytes) (maps : List Opt),
    fetchVtable buf 12 = some [0] ∧ getFbsInfo buf buf.length (fun _ l => l) maps 12 = none :=
  ⟨[12,0,0,0, 6,0,8,0, 0,0,0,0, 8,0,0,0, 255,255,255,255], [.mk 0 false []], by decide +kernel, by decide +kernel⟩

end Fbs.Props
