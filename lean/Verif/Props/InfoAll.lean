import Verif.InfoAll
import Verif.Codec
import Verif.Props.Info
/-!
# Properties of the inspection with values (C117)
-/

namespace Fbs.Props
open Fbs Fbs.Inspect

/-! ## specification -/

/-- `x` is what field `o` with entry `v` of the table at `top` holds: a scalar the bytes at its place (four bytes as
a signed number, in 64 bits), a string its length, a nested table nothing (0).  Vectors hold no number. -/
inductive ValueAt (buf : Bytes) (top v : Nat) (o : Opt) : Nat → Prop where
  | scalar {n x : Nat} : fieldKind o = .scalar n → n ≠ 4 → getLE n (buf.drop ((top + v) % M32)) = some x →
      ValueAt buf top v o x
  | four {x : Nat} : fieldKind o = .scalar 4 → rd32 buf ((top + v) % M32) = some x → x < 2147483648 →
      ValueAt buf top v o x
  | neg {x : Nat} : fieldKind o = .scalar 4 → rd32 buf ((top + v) % M32) = some x → 2147483648 ≤ x →
      ValueAt buf top v o (18446744073709551616 - (4294967296 - x))
  | nested : fieldKind o = .nest → ValueAt buf top v o 0
  | string {off sLen : Nat} : fieldKind o = .string → rd32 buf ((top + v) % M32) = some off →
      rd32 buf (((top + v) % M32 + off) % M32) = some sLen → ValueAt buf top v o sLen

/-- The numbers `t` are the values of the fields (entry and option) `fs`, one each, in order. -/
def ValuesAt (buf : Bytes) (top : Nat) : List (Nat × Opt) → List Nat → Prop
  | [], [] => True
  | f :: fs, x :: t => ValueAt buf top f.1 f.2 x ∧ ValuesAt buf top fs t
  | _, _ => False

/-- The inspection lists what belongs to the table: the values of the fields that are not vectors, in order, and for
every nested table (of a vector: its last element) one inspection that lists what belongs to it. -/
inductive Lists (buf : Bytes) : List Opt → InfoV → Prop where
  | mk {maps : List Opt} {vt : List Nat} {n : InfoV} : fetchVtable buf n.top = some vt → vt.length ≤ maps.length →
      ValuesAt buf n.top ((vt.zip maps).filter (fun f => fieldKind f.2 ≠ .vector)) n.table →
      (∀ (i v p : Nat) (o : Opt), vt[i]? = some v → maps[i]? = some o → FieldAt buf n.top v o (.inr p) →
        ∃ c, (i, c) ∈ n.childs ∧ c.top = p) →
      (∀ (i : Nat) (c : InfoV), (i, c) ∈ n.childs → ∃ (v : Nat) (o : Opt), vt[i]? = some v ∧ maps[i]? = some o ∧
        FieldAt buf n.top v o (.inr c.top)) →
      (∀ (i : Nat) (c : InfoV) (o : Opt), (i, c) ∈ n.childs → maps[i]? = some o → Lists buf o.nest c) →
      Lists buf maps n

/-! ## the run of `FetchTable` beside -/

theorem getLE_len {k : Nat} {s : Bytes} {x : Nat} (h : getLE k s = some x) : k ≤ s.length := by
  unfold getLE at h
  split at h
  · assumption
  · cases h

theorem allField_scan {buf : Bytes} {capb top len v : Nat} {o : Opt} {len' : Nat} {p : Option Nat} {t : List Nat}
    (hb : buf.length + 64 < M32) (h : allField buf capb top len v o = some (len', p, t)) :
    scanField buf M32 top len v o = some (len', p) := by
  unfold allField at h
  unfold scanField
  simp only [] at h ⊢
  cases hk : fieldKind o with
  | scalar n =>
    rw [hk] at h
    simp only [Option.bind_eq_bind, Option.bind_eq_some_iff] at h
    obtain ⟨x, h1, h2⟩ := h
    split at h2
    · simp only [Option.pure_def, Option.some.injEq, Prod.mk.injEq] at h2
      simp only [h2.1, h2.2.1]
    · cases h2
  | vector =>
    rw [hk] at h
    simp only [Option.bind_eq_bind, Option.bind_eq_some_iff] at h
    obtain ⟨off, h1, vLen, h2, x, h3, h4⟩ := h
    simp only [Option.pure_def, Option.some.injEq, Prod.mk.injEq] at h4
    have hl := getLE_len h2
    rw [List.length_drop] at hl
    have hM : M32 = 4294967296 := rfl
    have hc : ((top + v) % M32 + off + 4) % M32 ≤ (((top + v) % M32 + off + 4) % M32 + 64) % M32 ∧
        (((top + v) % M32 + off + 4) % M32 + 64) % M32 ≤ M32 := by
      simp only [hM] at hb hl ⊢
      omega
    simp only [h1, h2, Option.bind_eq_bind, Option.bind_some]
    rw [if_pos hc, h3]
    simp only [Option.bind_some, Option.pure_def, h4.1, h4.2.1]
  | nest =>
    rw [hk] at h
    simp only [Option.bind_eq_bind, Option.bind_eq_some_iff] at h
    obtain ⟨x, h1, h2⟩ := h
    simp only [Option.pure_def, Option.some.injEq, Prod.mk.injEq] at h2
    simp only [h1, Option.bind_eq_bind, Option.bind_some, Option.pure_def, h2.1, h2.2.1]
  | string =>
    rw [hk] at h
    simp only [Option.bind_eq_bind, Option.bind_eq_some_iff] at h
    obtain ⟨off, h1, sLen, h2, h3⟩ := h
    split at h3
    · simp only [Option.pure_def, Option.some.injEq, Prod.mk.injEq] at h3
      simp only [h1, h2, Option.bind_eq_bind, Option.bind_some, Option.pure_def, h3.1, h3.2.1]
    · cases h3

/-- What is appended for one field. -/
theorem allField_value {buf : Bytes} {capb top len v : Nat} {o : Opt} {len' : Nat} {p : Option Nat} {t : List Nat}
    (h : allField buf capb top len v o = some (len', p, t)) :
    (fieldKind o = .vector ∧ t = []) ∨ (fieldKind o ≠ .vector ∧ ∃ x, t = [x] ∧ ValueAt buf top v o x) := by
  unfold allField at h
  simp only [] at h
  cases hk : fieldKind o with
  | scalar n =>
    rw [hk] at h
    simp only [Option.bind_eq_bind, Option.bind_eq_some_iff] at h
    obtain ⟨x, h1, h2⟩ := h
    split at h2
    · simp only [Option.pure_def, Option.some.injEq, Prod.mk.injEq] at h2
      refine .inr ⟨by simp, _, h2.2.2.symm, ?_⟩
      unfold scalarVal
      split
      · rename_i h4
        subst h4
        unfold signExt
        split
        · exact .four hk h1 (by assumption)
        · rename_i hx
          have hM : M32 = 4294967296 := rfl
          have hlt : x < 4294967296 := by
            have : x < 256 ^ 4 := by
              unfold getLE at h1
              split at h1
              · cases h1
                refine Nat.lt_of_lt_of_le (leVal_lt _) ?_
                refine Nat.pow_le_pow_right (by omega) ?_
                rw [List.length_take]
                omega
              · cases h1
            omega
          have e : x + 18446744073709551616 - M32 = 18446744073709551616 - (4294967296 - x) := by rw [hM]; omega
          rw [e]
          exact .neg hk h1 (by omega)
      · exact .scalar hk (by assumption) h1
    · cases h2
  | vector =>
    rw [hk] at h
    simp only [Option.bind_eq_bind, Option.bind_eq_some_iff] at h
    obtain ⟨off, h1, vLen, h2, x, h3, h4⟩ := h
    simp only [Option.pure_def, Option.some.injEq, Prod.mk.injEq] at h4
    exact .inl ⟨rfl, h4.2.2.symm⟩
  | nest =>
    rw [hk] at h
    simp only [Option.bind_eq_bind, Option.bind_eq_some_iff] at h
    obtain ⟨x, h1, h2⟩ := h
    simp only [Option.pure_def, Option.some.injEq, Prod.mk.injEq] at h2
    exact .inr ⟨by simp, _, h2.2.2.symm, .nested hk⟩
  | string =>
    rw [hk] at h
    simp only [Option.bind_eq_bind, Option.bind_eq_some_iff] at h
    obtain ⟨off, h1, sLen, h2, h3⟩ := h
    split at h3
    · simp only [Option.pure_def, Option.some.injEq, Prod.mk.injEq] at h3
      exact .inr ⟨by simp, _, h3.2.2.symm, .string hk h1 h2⟩
    · cases h3

theorem allFields_spec {buf : Bytes} {capb top : Nat} {maps : List Opt} (hb : buf.length + 64 < M32) :
    ∀ (vs : List Nat) (idx len : Nat) {r : Nat} {nest : List (Nat × Nat)} {t : List Nat},
    allFields buf capb top maps idx len vs = some (r, nest, t) →
    scanFields buf M32 top maps idx len vs = some (r, nest) ∧ (vs = [] ∨ idx + vs.length ≤ maps.length) ∧
    ValuesAt buf top
      ((vs.zip (maps.drop idx)).filter (fun f => fieldKind f.2 ≠ .vector)) t := by
  intro vs
  induction vs with
  | nil =>
    intro idx len r nest t h
    simp [allFields] at h
    obtain ⟨rfl, rfl, rfl⟩ := h
    exact ⟨rfl, .inl rfl, by simp [ValuesAt]⟩
  | cons v vs ih =>
    intro idx len r nest t h
    unfold allFields at h
    cases ho : maps[idx]? with
    | none => rw [ho] at h; simp at h
    | some o =>
      rw [ho] at h
      simp only [] at h
      cases hs : allField buf capb top len v o with
      | none => rw [hs] at h; simp at h
      | some lp =>
        obtain ⟨len', p, t1⟩ := lp
        rw [hs] at h
        simp only [] at h
        cases hr : allFields buf capb top maps (idx + 1) len' vs with
        | none => rw [hr] at h; simp at h
        | some rn =>
          obtain ⟨r', n', t2⟩ := rn
          rw [hr] at h
          simp only [Option.some.injEq, Prod.mk.injEq] at h
          obtain ⟨rfl, rfl, rfl⟩ := h
          obtain ⟨g1, g2, g3⟩ := ih (idx + 1) len' hr
          have hlt : idx < maps.length := (List.getElem?_eq_some_iff.1 ho).1
          have hd : maps.drop idx = o :: maps.drop (idx + 1) := by
            rw [List.drop_eq_getElem_cons hlt, (List.getElem?_eq_some_iff.1 ho).2]
          refine ⟨?_, ?_, ?_⟩
          · unfold scanFields
            rw [ho]
            simp only
            rw [allField_scan hb hs]
            simp only
            simp only [g1]
            cases p <;> rfl
          · right
            rcases g2 with rfl | g2
            · simp only [List.length_cons, List.length_nil]; omega
            · simp only [List.length_cons]; omega
          · rw [hd, List.zip_cons_cons]
            rcases allField_value hs with ⟨hk, rfl⟩ | ⟨hk, x, rfl, hx⟩
            · rw [List.filter_cons_of_neg (by simp [hk])]
              exact g3
            · rw [List.filter_cons_of_pos (by simp [hk])]
              exact ⟨hx, g3⟩

theorem visitV_visit (kv : List FetchV) (ks : List Fetch) (path : List Nat)
    (hk : ∀ (i : Nat) (k : FetchV), kv[i]? = some k → ∃ k' : Fetch, ks[i]? = some k' ∧
      ∀ path pos len n, k path pos len = some n → ∃ n', k' path pos len = some n' ∧ n'.length = n.length) :
    ∀ (l : List (Nat × Nat)) (len r : Nat) (cs : List (Nat × InfoV)), visitV kv path len l = some (r, cs) →
      ∃ cs', visit ks path len l = some (r, cs') := by
  intro l
  induction l with
  | nil => intro len r cs h; simp [visitV] at h; exact ⟨[], by simp [visit, h.1]⟩
  | cons a l ih =>
    intro len r cs h
    obtain ⟨i, pos⟩ := a
    unfold visitV at h
    cases hki : kv[i]? with
    | none => rw [hki] at h; simp at h
    | some k =>
      rw [hki] at h
      simp only [] at h
      cases hn : k (path ++ [i]) pos len with
      | none => rw [hn] at h; simp at h
      | some n =>
        rw [hn] at h
        simp only [] at h
        cases hv : visitV kv path (max len n.length) l with
        | none => rw [hv] at h; simp at h
        | some rc =>
          obtain ⟨r', cs'⟩ := rc
          rw [hv] at h
          simp only [Option.some.injEq, Prod.mk.injEq] at h
          obtain ⟨rfl, _⟩ := h
          obtain ⟨k', hk', hkk⟩ := hk i k hki
          obtain ⟨n', hn', hl⟩ := hkk _ _ _ _ hn
          obtain ⟨cs2, h2⟩ := ih _ _ _ hv
          refine ⟨(i, n') :: cs2, ?_⟩
          unfold visit
          rw [hk']
          simp only
          rw [hn']
          simp only
          rw [hl, h2]

/-- The nested inspections are those of the list, in order. -/
theorem visitV_childs (kv : List FetchV) (path : List Nat) :
    ∀ (l : List (Nat × Nat)) (len r : Nat) (cs : List (Nat × InfoV)), visitV kv path len l = some (r, cs) →
      (∀ i pos, (i, pos) ∈ l → ∃ k len' n, kv[i]? = some k ∧ k (path ++ [i]) pos len' = some n ∧ (i, n) ∈ cs) ∧
      (∀ i n, (i, n) ∈ cs → ∃ k pos len', (i, pos) ∈ l ∧ kv[i]? = some k ∧ k (path ++ [i]) pos len' = some n) := by
  intro l
  induction l with
  | nil => intro len r cs h; simp [visitV] at h; simp [h.2]
  | cons a l ih =>
    intro len r cs h
    obtain ⟨i, pos⟩ := a
    unfold visitV at h
    cases hki : kv[i]? with
    | none => rw [hki] at h; simp at h
    | some k =>
      rw [hki] at h
      simp only [] at h
      cases hn : k (path ++ [i]) pos len with
      | none => rw [hn] at h; simp at h
      | some n =>
        rw [hn] at h
        simp only [] at h
        cases hv : visitV kv path (max len n.length) l with
        | none => rw [hv] at h; simp at h
        | some rc =>
          obtain ⟨r', cs'⟩ := rc
          rw [hv] at h
          simp only [Option.some.injEq, Prod.mk.injEq] at h
          obtain ⟨rfl, rfl⟩ := h
          obtain ⟨a1, a2⟩ := ih _ _ _ hv
          constructor
          · intro j q hm
            rcases List.mem_cons.1 hm with hm | hm
            · cases hm; exact ⟨k, len, n, hki, hn, by simp⟩
            · obtain ⟨k1, l1, n1, b1, b2, b3⟩ := a1 j q hm
              exact ⟨k1, l1, n1, b1, b2, by simp [b3]⟩
          · intro j m hm
            rcases List.mem_cons.1 hm with hm | hm
            · cases hm; exact ⟨k, pos, len, by simp, hki, hn⟩
            · obtain ⟨k1, q, l1, b1, b2, b3⟩ := a2 j m hm
              exact ⟨k1, q, l1, by simp [b1], b2, b3⟩

theorem fetchKidsV_getElem? (buf : Bytes) (capb : Nat) (ord : List Nat → List (Nat × Nat) → List (Nat × Nat)) :
    ∀ (os : List Opt) (i : Nat), (fetchKidsV buf capb ord os)[i]? = (os[i]?).map (fetchV buf capb ord) := by
  intro os
  induction os with
  | nil => intro i; simp [fetchKidsV]
  | cons o os ih => intro i; cases i <;> simp [fetchKidsV, ih]

theorem allBody_parts {buf : Bytes} {capb : Nat} {ord : List Nat → List (Nat × Nat) → List (Nat × Nat)} {maps : List Opt}
    {kids : List FetchV} {path : List Nat} {top len : Nat} {n : InfoV}
    (h : allBody buf capb ord maps kids path top len = some n) :
    ∃ vt len1 nest table len2 cs, fetchVtable buf top = some vt ∧
      allFields buf capb top maps 0 len vt = some (len1, nest, table) ∧
      visitV kids path len1 (ord path nest) = some (len2, cs) ∧ n = .mk top len2 table cs := by
  unfold allBody at h
  cases hv : fetchVtable buf top with
  | none => rw [hv] at h; simp at h
  | some vt =>
    rw [hv] at h
    simp only [] at h
    cases hs : allFields buf capb top maps 0 len vt with
    | none => rw [hs] at h; simp at h
    | some ln =>
      obtain ⟨len1, nest, table⟩ := ln
      rw [hs] at h
      simp only [] at h
      split at h
      · cases hvi : visitV kids path len1 (ord path nest) with
        | none => rw [hvi] at h; simp at h
        | some lc =>
          obtain ⟨len2, cs⟩ := lc
          rw [hvi] at h
          simp only [Option.some.injEq] at h
          exact ⟨vt, len1, nest, table, len2, cs, rfl, hs, hvi, h.symm⟩
      · cases h

theorem allBody_fetch {buf : Bytes} {capb : Nat} {ord : List Nat → List (Nat × Nat) → List (Nat × Nat)} {maps : List Opt}
    {kv : List FetchV} {ks : List Fetch} (hb : buf.length + 64 < M32)
    (hk : ∀ (i : Nat) (k : FetchV), kv[i]? = some k → ∃ k' : Fetch, ks[i]? = some k' ∧
      ∀ path pos len n, k path pos len = some n → ∃ n', k' path pos len = some n' ∧ n'.length = n.length)
    {path : List Nat} {top len : Nat} {n : InfoV} (h : allBody buf capb ord maps kv path top len = some n) :
    ∃ n', fetchBody buf M32 ord maps ks path top len = some n' ∧ n'.length = n.length := by
  obtain ⟨vt, len1, nest, table, len2, cs, h1, h2, h3, rfl⟩ := allBody_parts h
  obtain ⟨cs', h4⟩ := visitV_visit kv ks path hk _ _ _ _ h3
  refine ⟨.mk top len2 cs', ?_, rfl⟩
  unfold fetchBody
  rw [h1]
  simp only
  simp only [(allFields_spec hb vt 0 len h2).1, h4]

theorem kids_fetch {buf : Bytes} {capb : Nat} {ord : List Nat → List (Nat × Nat) → List (Nat × Nat)} (os : List Opt)
    (ih : ∀ o ∈ os, ∀ path pos len n, fetchV buf capb ord o path pos len = some n →
      ∃ n', fetch buf M32 ord o path pos len = some n' ∧ n'.length = n.length) (i : Nat) (k : FetchV)
    (hk : (fetchKidsV buf capb ord os)[i]? = some k) : ∃ k' : Fetch, (fetchKids buf M32 ord os)[i]? = some k' ∧
      ∀ path pos len n, k path pos len = some n → ∃ n', k' path pos len = some n' ∧ n'.length = n.length := by
  rw [fetchKidsV_getElem?] at hk
  cases ho : os[i]? with
  | none => rw [ho] at hk; simp at hk
  | some o =>
    rw [ho] at hk
    simp at hk
    subst hk
    exact ⟨fetch buf M32 ord o, by rw [fetchKids_getElem?, ho]; rfl, ih o (List.mem_of_getElem? ho)⟩

theorem fetchV_fetch {buf : Bytes} {capb : Nat} {ord : List Nat → List (Nat × Nat) → List (Nat × Nat)}
    (hb : buf.length + 64 < M32) (o : Opt) : ∀ path pos len n, fetchV buf capb ord o path pos len = some n →
      ∃ n', fetch buf M32 ord o path pos len = some n' ∧ n'.length = n.length := by
  cases o with
  | mk sz vec nest =>
    intro path pos len n h
    refine allBody_fetch hb (kids_fetch nest ?_) h
    intro o ho
    have := List.sizeOf_lt_of_mem ho
    exact fetchV_fetch hb o
termination_by sizeOf o
decreasing_by
  simp only [Opt.mk.sizeOf_spec]; omega

/-- C117: the length found together with the values is the least one covering the start of the table and every
value belonging to it, for every iteration order. -/
theorem all_length_partial (buf : Bytes) (capb : Nat) (ord : List Nat → List (Nat × Nat) → List (Nat × Nat))
    (hord : IsOrder ord) (maps : List Opt) (top : Nat) (n : InfoV) (hb : buf.length + 64 < M32)
    (h : getAll buf capb ord maps top = some n) :
    top ≤ n.length ∧ (∀ e, Occupies buf maps top e → e ≤ n.length) ∧ (n.length = top ∨ Occupies buf maps top n.length) := by
  obtain ⟨n', h1, h2⟩ := allBody_fetch hb (kids_fetch maps (fun o _ => fetchV_fetch hb o)) h
  rw [← h2]
  exact info_length buf M32 ord hord maps top n' h1

/-- C117: both inspections report the same length. -/
theorem all_info_length (buf : Bytes) (capb : Nat) (ord ord' : List Nat → List (Nat × Nat) → List (Nat × Nat))
    (hord : IsOrder ord) (hord' : IsOrder ord') (maps : List Opt) (top : Nat) (n : InfoV) (m : Info)
    (hb : buf.length + 64 < M32) (h : getAll buf capb ord maps top = some n)
    (h' : getFbsInfo buf capb ord' maps top = some m) : n.length = m.length := by
  obtain ⟨a1, a2, a3⟩ := all_length_partial buf capb ord hord maps top n hb h
  obtain ⟨b1, b2, b3⟩ := info_length buf capb ord' hord' maps top m h'
  have h1 : n.length ≤ m.length := by
    rcases a3 with a3 | a3
    · omega
    · exact b2 _ a3
  have h2 : m.length ≤ n.length := by
    rcases b3 with b3 | b3
    · omega
    · exact a2 _ b3
  omega

/-! ## the values -/

theorem allBody_top {buf : Bytes} {capb : Nat} {ord : List Nat → List (Nat × Nat) → List (Nat × Nat)} {o : Opt}
    {path : List Nat} {pos len : Nat} {n : InfoV} (h : fetchV buf capb ord o path pos len = some n) : n.top = pos := by
  cases o with
  | mk sz vec nest =>
    obtain ⟨vt, len1, ns, table, len2, cs, -, -, -, rfl⟩ := allBody_parts h
    rfl

theorem allBody_lists {buf : Bytes} {capb : Nat} {ord : List Nat → List (Nat × Nat) → List (Nat × Nat)} (hord : IsOrder ord)
    (hb : buf.length + 64 < M32) {maps : List Opt}
    (ih : ∀ o ∈ maps, ∀ path pos len n, fetchV buf capb ord o path pos len = some n → Lists buf o.nest n)
    {path : List Nat} {top len : Nat} {n : InfoV}
    (h : allBody buf capb ord maps (fetchKidsV buf capb ord maps) path top len = some n) : Lists buf maps n := by
  obtain ⟨vt, len1, nest, table, len2, cs, h1, h2, h3, rfl⟩ := allBody_parts h
  obtain ⟨g1, g2, g3⟩ := allFields_spec hb vt 0 len h2
  obtain ⟨-, -, -, s4⟩ := scanFields_spec vt 0 len g1
  obtain ⟨c1, c2⟩ := visitV_childs _ path _ _ _ _ h3
  refine .mk h1 ?_ g3 ?_ ?_ ?_
  · rcases g2 with rfl | g2
    · simp
    · omega
  · intro i v p o hv ho hf
    obtain ⟨k, l', m, k1, k2, k3⟩ := c1 i p ((hord path nest).mem_iff.2 ((s4 i p).2 ⟨i, v, o, by omega, hv, by simpa using ho, hf⟩))
    rw [fetchKidsV_getElem?, ho] at k1
    simp at k1
    subst k1
    exact ⟨m, k3, allBody_top k2⟩
  · intro i c hm
    obtain ⟨k, pos, l', m1, m2, m3⟩ := c2 i c hm
    obtain ⟨i', v, o, e, hv, ho, hf⟩ := (s4 i pos).1 ((hord path nest).mem_iff.1 m1)
    have : i' = i := by omega
    subst this
    have ho' : maps[i']? = some o := by simpa using ho
    rw [fetchKidsV_getElem?, ho'] at m2
    simp at m2
    subst m2
    rw [allBody_top m3]
    exact ⟨v, o, hv, ho', hf⟩
  · intro i c o hm ho
    obtain ⟨k, pos, l', m1, m2, m3⟩ := c2 i c hm
    rw [fetchKidsV_getElem?, ho] at m2
    simp at m2
    subst m2
    exact ih o (List.mem_of_getElem? ho) _ _ _ _ m3

theorem fetchV_lists {buf : Bytes} {capb : Nat} {ord : List Nat → List (Nat × Nat) → List (Nat × Nat)} (hord : IsOrder ord)
    (hb : buf.length + 64 < M32) (o : Opt) :
    ∀ path pos len n, fetchV buf capb ord o path pos len = some n → Lists buf o.nest n := by
  cases o with
  | mk sz vec nest =>
    intro path pos len n h
    refine allBody_lists hord hb ?_ h
    intro o ho
    have : o ∈ nest := ho
    have := List.sizeOf_lt_of_mem this
    exact fetchV_lists hord hb o
termination_by sizeOf o
decreasing_by
  simp only [Opt.mk.sizeOf_spec]; omega

/-- C117: `FetchAll` lists what belongs to the table, on every level, for every iteration order. -/
theorem all_lists_partial (buf : Bytes) (capb : Nat) (ord : List Nat → List (Nat × Nat) → List (Nat × Nat))
    (hord : IsOrder ord) (maps : List Opt) (top : Nat) (n : InfoV) (hb : buf.length + 64 < M32)
    (h : getAll buf capb ord maps top = some n) : n.top = top ∧ Lists buf maps n := by
  refine ⟨?_, allBody_lists hord hb (fun o _ => fetchV_lists hord hb o) h⟩
  obtain ⟨vt, len1, ns, table, len2, cs, -, -, -, rfl⟩ := allBody_parts h
  rfl

theorem valuesAt_length {buf : Bytes} {top : Nat} : ∀ {fs : List (Nat × Opt)} {t : List Nat}, ValuesAt buf top fs t →
    fs.length = t.length
  | [], [], _ => rfl
  | _ :: _, _ :: _, h => congrArg (· + 1) (valuesAt_length h.2)
  | [], _ :: _, h => h.elim
  | _ :: _, [], h => h.elim

theorem valuesAt_get {buf : Bytes} {top : Nat} : ∀ {fs : List (Nat × Opt)} {t : List Nat}, ValuesAt buf top fs t →
    ∀ (i : Nat) (f : Nat × Opt), fs[i]? = some f → ∃ x, t[i]? = some x ∧ ValueAt buf top f.1 f.2 x
  | [], _, _, i, f, h => by simp at h
  | _ :: _, x :: _, h, 0, f, hf => by
    simp only [List.getElem?_cons_zero, Option.some.injEq] at hf
    subst hf
    exact ⟨x, rfl, h.1⟩
  | _ :: _, _ :: _, h, i + 1, f, hf => by
    simp only [List.getElem?_cons_succ] at hf ⊢
    exact valuesAt_get h.2 i f hf
  | _ :: _, [], h, _, _, _ => h.elim

/-- C117: without vectors entry `i` of `Table` is the value of field `i`. -/
theorem all_table_partial (buf : Bytes) (capb : Nat) (ord : List Nat → List (Nat × Nat) → List (Nat × Nat))
    (hord : IsOrder ord) (maps : List Opt) (top : Nat) (n : InfoV) (hb : buf.length + 64 < M32)
    (hv : ∀ o ∈ maps, fieldKind o ≠ .vector) (h : getAll buf capb ord maps top = some n) :
    ∃ vt, fetchVtable buf top = some vt ∧ n.table.length = vt.length ∧
      ∀ (i v : Nat) (o : Opt), vt[i]? = some v → maps[i]? = some o → ∃ x, n.table[i]? = some x ∧ ValueAt buf top v o x := by
  obtain ⟨ht, hl⟩ := all_lists_partial buf capb ord hord maps top n hb h
  cases hl with
  | mk h1 h2 h3 h4 h5 h6 =>
    rename_i vt
    rw [ht] at h1 h3
    have hf : (vt.zip maps).filter (fun f => fieldKind f.2 ≠ .vector) = vt.zip maps := by
      rw [List.filter_eq_self]
      rintro ⟨a, b⟩ hm
      simpa using hv b (List.of_mem_zip hm).2
    rw [hf] at h3
    have hlen := valuesAt_length h3
    rw [List.length_zip, Nat.min_eq_left h2] at hlen
    refine ⟨vt, h1, hlen.symm, ?_⟩
    intro i v o hvi hoi
    have hz : (vt.zip maps)[i]? = some (v, o) := by
      rw [List.getElem?_zip_eq_some]; exact ⟨hvi, hoi⟩
    exact valuesAt_get h3 i (v, o) hz

/-- C117: the values do not depend on the iteration order. -/
theorem all_table_order (buf : Bytes) (capb : Nat) (ord ord' : List Nat → List (Nat × Nat) → List (Nat × Nat))
    (maps : List Opt) (top : Nat) (n n' : InfoV) (h : getAll buf capb ord maps top = some n)
    (h' : getAll buf capb ord' maps top = some n') : n.table = n'.table := by
  obtain ⟨vt, len1, nest, table, len2, cs, h1, h2, -, rfl⟩ := allBody_parts h
  obtain ⟨vt', len1', nest', table', len2', cs', h1', h2', -, rfl⟩ := allBody_parts h'
  rw [h1] at h1'; cases h1'
  rw [h2] at h2'; cases h2'
  rfl

/-! ## when it panics -/

/-- The value of a field lies in the buffer: a scalar and the bytes of a string entirely, of a vector the length and the
last offset. -/
inductive FieldFits (buf : Bytes) (capb top v : Nat) (o : Opt) : Prop where
  | scalar {n : Nat} : fieldKind o = .scalar n → (top + v) % M32 + n ≤ buf.length → FieldFits buf capb top v o
  | vector {off vLen x : Nat} : fieldKind o = .vector → rd32 buf ((top + v) % M32) = some off →
      rd32 buf (((top + v) % M32 + off) % M32) = some vLen →
      rd32 buf ((((top + v) % M32 + off + 4) % M32 + (vLen + M32 - 1) % M32 * 4) % M32) = some x → FieldFits buf capb top v o
  | nested {x : Nat} : fieldKind o = .nest → rd32 buf ((top + v) % M32) = some x → FieldFits buf capb top v o
  | string {off sLen : Nat} : fieldKind o = .string → rd32 buf ((top + v) % M32) = some off →
      rd32 buf (((top + v) % M32 + off) % M32) = some sLen →
      ((top + v) % M32 + off + 4) % M32 ≤ ((top + v) % M32 + off + 4 + sLen) % M32 →
      ((top + v) % M32 + off + 4 + sLen) % M32 ≤ capb → FieldFits buf capb top v o

/-- The vtable and the table at `top`, of the lengths given in the vtable, lie in the memory of the buffer. -/
def TableFits (buf : Bytes) (capb top : Nat) : Prop :=
  ∃ vOffset vLen tLen, rd32 buf top = some vOffset ∧ rd16 buf ((top + M32 - vOffset) % M32) = some vLen ∧
    rd16 buf ((top + M32 - vOffset) % M32 + 2) = some tLen ∧
    (top + M32 - vOffset) % M32 ≤ ((top + M32 - vOffset) % M32 + vLen) % M32 ∧
    ((top + M32 - vOffset) % M32 + vLen) % M32 ≤ capb ∧ top ≤ (top + tLen) % M32 ∧ (top + tLen) % M32 ≤ capb

/-- Everything belonging to the table at `top` lies in the buffer. -/
inductive LiesIn (buf : Bytes) (capb : Nat) : List Opt → Nat → Prop where
  | mk {maps : List Opt} {top : Nat} {vt : List Nat} : fetchVtable buf top = some vt → vt.length ≤ maps.length →
      TableFits buf capb top →
      (∀ (i v : Nat) (o : Opt), vt[i]? = some v → maps[i]? = some o → FieldFits buf capb top v o) →
      (∀ (i v p : Nat) (o : Opt), vt[i]? = some v → maps[i]? = some o → FieldAt buf top v o (.inr p) →
        LiesIn buf capb o.nest p) → LiesIn buf capb maps top

theorem dumpOk_iff (buf : Bytes) (capb top : Nat) : dumpOk buf capb top = some true ↔ TableFits buf capb top := by
  unfold dumpOk TableFits
  simp only [Option.bind_eq_bind, Option.bind_eq_some_iff, Option.pure_def, Option.some.injEq, Bool.and_eq_true, sliceOk,
    decide_eq_true_eq]
  constructor
  · rintro ⟨a, h1, b, h2, c, h3, ⟨h4, h5⟩, h6, h7⟩
    exact ⟨a, b, c, h1, h2, h3, h4, h5, h6, h7⟩
  · rintro ⟨a, b, c, h1, h2, h3, h4, h5, h6, h7⟩
    exact ⟨a, h1, b, h2, c, h3, ⟨h4, h5⟩, h6, h7⟩

theorem allField_isSome {buf : Bytes} {capb top v : Nat} {o : Opt} (hb : buf.length + 64 < M32) (hc : buf.length ≤ capb)
    (len : Nat) : (∃ r, allField buf capb top len v o = some r) ↔ FieldFits buf capb top v o := by
  constructor
  · rintro ⟨r, h⟩
    unfold allField at h
    simp only [] at h
    cases hk : fieldKind o with
    | scalar n =>
      rw [hk] at h
      simp only [Option.bind_eq_bind, Option.bind_eq_some_iff] at h
      obtain ⟨x, h1, h2⟩ := h
      have hl := getLE_len h1
      rw [List.length_drop] at hl
      by_cases hn : n = 0
      · exfalso
        subst hn
        unfold fieldKind at hk
        repeat' split at hk
        all_goals cases hk
      · exact .scalar hk (by omega)
    | vector =>
      rw [hk] at h
      simp only [Option.bind_eq_bind, Option.bind_eq_some_iff] at h
      obtain ⟨off, h1, vLen, h2, x, h3, h4⟩ := h
      exact .vector hk h1 h2 h3
    | nest =>
      rw [hk] at h
      simp only [Option.bind_eq_bind, Option.bind_eq_some_iff] at h
      obtain ⟨x, h1, h2⟩ := h
      exact .nested hk h1
    | string =>
      rw [hk] at h
      simp only [Option.bind_eq_bind, Option.bind_eq_some_iff] at h
      obtain ⟨off, h1, sLen, h2, h3⟩ := h
      split at h3
      · rename_i hs
        simp only [sliceOk, decide_eq_true_eq] at hs
        exact .string hk h1 h2 hs.1 hs.2
      · cases h3
  · intro h
    unfold allField
    simp only []
    cases h with
    | scalar hk hl =>
      rename_i n
      rw [hk]
      have hM : M32 = 4294967296 := rfl
      have h1 : getLE n (buf.drop ((top + v) % M32)) = some (leVal ((buf.drop ((top + v) % M32)).take n)) := by
        unfold getLE
        rw [if_pos (by rw [List.length_drop]; omega)]
      have h2 : ((top + v) % M32 + n) % M32 = (top + v) % M32 + n := Nat.mod_eq_of_lt (by omega)
      simp only [h1, Option.bind_eq_bind, Option.bind_some]
      have hs : sliceOk capb ((top + v) % M32) (((top + v) % M32 + n) % M32) = true := by
        rw [h2]
        exact decide_eq_true ⟨by omega, by omega⟩
      rw [if_pos hs]
      exact ⟨_, rfl⟩
    | vector hk h1 h2 h3 =>
      rw [hk]
      rename_i off vLen x
      refine ⟨(len, some ((((((top + v) % M32 + off + 4) % M32 + (vLen + M32 - 1) % M32 * 4) % M32) + x) % M32), []), ?_⟩
      show (rd32 buf ((top + v) % M32)).bind _ = _
      rw [h1, Option.bind_some]
      show (rd32 buf (((top + v) % M32 + off) % M32)).bind _ = _
      rw [h2, Option.bind_some]
      show (rd32 buf _).bind _ = _
      rw [h3, Option.bind_some]
      rfl
    | nested hk h1 =>
      rw [hk]
      simp only [h1, Option.bind_eq_bind, Option.bind_some]
      exact ⟨_, rfl⟩
    | string hk h1 h2 h3 h4 =>
      rw [hk]
      rename_i off sLen
      have hs : sliceOk capb (((top + v) % M32 + off + 4) % M32) (((top + v) % M32 + off + 4 + sLen) % M32) = true :=
        decide_eq_true ⟨h3, h4⟩
      simp only [h1, h2, Option.bind_eq_bind, Option.bind_some]
      rw [if_pos hs]
      exact ⟨_, rfl⟩

theorem allFields_isSome {buf : Bytes} {capb top : Nat} {maps : List Opt} (hb : buf.length + 64 < M32)
    (hc : buf.length ≤ capb) : ∀ (vs : List Nat) (idx len : Nat),
    (∃ r, allFields buf capb top maps idx len vs = some r) ↔
      ∀ (i v : Nat), vs[i]? = some v → ∃ o, maps[idx + i]? = some o ∧ FieldFits buf capb top v o := by
  intro vs
  induction vs with
  | nil => intro idx len; simp [allFields]
  | cons v vs ih =>
    intro idx len
    constructor
    · rintro ⟨r, h⟩ i w hw
      unfold allFields at h
      cases ho : maps[idx]? with
      | none => rw [ho] at h; simp at h
      | some o =>
        rw [ho] at h
        simp only [] at h
        cases hs : allField buf capb top len v o with
        | none => rw [hs] at h; simp at h
        | some lp =>
          obtain ⟨len', p, t1⟩ := lp
          rw [hs] at h
          simp only [] at h
          cases hr : allFields buf capb top maps (idx + 1) len' vs with
          | none => rw [hr] at h; simp at h
          | some rn =>
            cases i with
            | zero =>
              simp only [List.getElem?_cons_zero, Option.some.injEq] at hw
              subst hw
              exact ⟨o, ho, (allField_isSome hb hc len).1 ⟨_, hs⟩⟩
            | succ i =>
              simp only [List.getElem?_cons_succ] at hw
              have := (ih (idx + 1) len').1 ⟨_, hr⟩ i w hw
              rwa [show idx + 1 + i = idx + (i + 1) by omega] at this
    · intro h
      obtain ⟨o, ho, hf⟩ := h 0 v (by simp)
      obtain ⟨⟨len', p, t1⟩, hs⟩ := (allField_isSome hb hc len).2 hf
      obtain ⟨⟨r, n, t⟩, hr⟩ := (ih (idx + 1) len').2 (fun i w hw => by
        have := h (i + 1) w (by simpa using hw)
        rwa [show idx + (i + 1) = idx + 1 + i by omega] at this)
      unfold allFields
      rw [Nat.add_zero] at ho
      rw [ho]
      simp only
      rw [hs]
      simp only
      rw [hr]
      exact ⟨_, rfl⟩

theorem visitV_isSome (kv : List FetchV) (path : List Nat) : ∀ (l : List (Nat × Nat)) (len : Nat),
    (∀ i pos, (i, pos) ∈ l → ∃ k, kv[i]? = some k ∧ ∀ path len, ∃ n, k path pos len = some n) →
    ∃ r, visitV kv path len l = some r := by
  intro l
  induction l with
  | nil => intro len _; exact ⟨_, rfl⟩
  | cons a l ih =>
    intro len h
    obtain ⟨i, pos⟩ := a
    obtain ⟨k, h1, h2⟩ := h i pos (by simp)
    obtain ⟨n, hn⟩ := h2 (path ++ [i]) len
    obtain ⟨⟨r, cs⟩, hr⟩ := ih (max len n.length) (fun j q hm => h j q (by simp [hm]))
    unfold visitV
    rw [h1]
    simp only
    rw [hn]
    simp only
    rw [hr]
    exact ⟨_, rfl⟩

theorem allBody_fits {buf : Bytes} {capb : Nat} {ord : List Nat → List (Nat × Nat) → List (Nat × Nat)} (hord : IsOrder ord)
    (hb : buf.length + 64 < M32) (hc : buf.length ≤ capb) {maps : List Opt}
    (ih : ∀ o ∈ maps, ∀ path pos len, (∃ n, fetchV buf capb ord o path pos len = some n) ↔ LiesIn buf capb o.nest pos)
    (path : List Nat) (top len : Nat) :
    (∃ n, allBody buf capb ord maps (fetchKidsV buf capb ord maps) path top len = some n) ↔ LiesIn buf capb maps top := by
  constructor
  · rintro ⟨n, h⟩
    have hd : dumpOk buf capb top = some true := by
      unfold allBody at h
      split at h
      · cases h
      · split at h
        · cases h
        · split at h
          · assumption
          · cases h
    obtain ⟨vt, len1, nest, table, len2, cs, h1, h2, h3, rfl⟩ := allBody_parts h
    obtain ⟨g1, g2, -⟩ := allFields_spec hb vt 0 len h2
    obtain ⟨-, -, -, s4⟩ := scanFields_spec vt 0 len g1
    obtain ⟨c1, -⟩ := visitV_childs _ path _ _ _ _ h3
    refine .mk h1 ?_ ((dumpOk_iff ..).1 hd) ?_ ?_
    · rcases g2 with rfl | g2
      · simp
      · omega
    · intro i v o hv ho
      obtain ⟨o', ho', hf⟩ := (allFields_isSome hb hc vt 0 len).1 ⟨_, h2⟩ i v hv
      rw [Nat.zero_add, ho] at ho'
      cases ho'
      exact hf
    · intro i v p o hv ho hf
      obtain ⟨k, l', m, k1, k2, k3⟩ := c1 i p ((hord path nest).mem_iff.2 ((s4 i p).2 ⟨i, v, o, by omega, hv, by simpa using ho, hf⟩))
      rw [fetchKidsV_getElem?, ho] at k1
      simp at k1
      subst k1
      exact (ih o (List.mem_of_getElem? ho) _ _ _).1 ⟨m, k2⟩
  · intro h
    cases h with
    | mk h1 h2 h3 h4 h5 =>
      rename_i vt
      obtain ⟨⟨len1, nest, table⟩, hs⟩ := (allFields_isSome (maps := maps) hb hc vt 0 len).2 (fun i v hv => by
        have hi : i < vt.length := (List.getElem?_eq_some_iff.1 hv).1
        have ho : maps[0 + i]? = some (maps[i]'(by omega)) := by rw [Nat.zero_add]; exact List.getElem?_eq_getElem _
        exact ⟨_, ho, h4 i v _ hv (by rw [← ho, Nat.zero_add])⟩)
      obtain ⟨g1, -, -⟩ := allFields_spec hb vt 0 len hs
      obtain ⟨-, -, -, s4⟩ := scanFields_spec vt 0 len g1
      obtain ⟨⟨len2, cs⟩, hv⟩ := visitV_isSome (fetchKidsV buf capb ord maps) path (ord path nest) len1 (by
        intro i pos hm
        obtain ⟨i', v, o, e, hv, ho, hf⟩ := (s4 i pos).1 ((hord path nest).mem_iff.1 hm)
        have : i' = i := by omega
        subst this
        have ho' : maps[i']? = some o := by simpa using ho
        exact ⟨_, by rw [fetchKidsV_getElem?, ho']; rfl,
          fun path len => (ih o (List.mem_of_getElem? ho') path pos len).2 (h5 i' v pos o hv ho' hf)⟩)
      refine ⟨.mk top len2 table cs, ?_⟩
      unfold allBody
      rw [h1]
      simp only
      rw [hs]
      simp only
      rw [(dumpOk_iff ..).2 h3]
      simp only
      rw [hv]

theorem fetchV_fits {buf : Bytes} {capb : Nat} {ord : List Nat → List (Nat × Nat) → List (Nat × Nat)} (hord : IsOrder ord)
    (hb : buf.length + 64 < M32) (hc : buf.length ≤ capb) (o : Opt) :
    ∀ path pos len, (∃ n, fetchV buf capb ord o path pos len = some n) ↔ LiesIn buf capb o.nest pos := by
  cases o with
  | mk sz vec nest =>
    intro path pos len
    refine allBody_fits hord hb hc ?_ path pos len
    intro o ho
    have : o ∈ nest := ho
    have := List.sizeOf_lt_of_mem this
    exact fetchV_fits hord hb hc o
termination_by sizeOf o
decreasing_by
  simp only [Opt.mk.sizeOf_spec]; omega

/-- C117: `FetchAll` panics exactly when something belonging to the table does not lie in the buffer, whatever the
iteration order. -/
theorem all_panics (buf : Bytes) (capb : Nat) (ord : List Nat → List (Nat × Nat) → List (Nat × Nat))
    (hord : IsOrder ord) (maps : List Opt) (top : Nat) (hb : buf.length + 64 < M32) (hc : buf.length ≤ capb) :
    (∃ n, getAll buf capb ord maps top = some n) ↔ LiesIn buf capb maps top :=
  allBody_fits hord hb hc (fun o _ => fetchV_fits hord hb hc o) [] top top

/-! ## examples and violations -/

/-- A table with a short number, a string and a byte. -/
def threeFields : Bytes :=
  [16,0,0,0, 10,0,12,0, 4,0,8,0, 6,0,0,0, 12,0,0,0, 7,1,9,0, 4,0,0,0, 2,0,0,0, 104,105,0,0]

def threeFieldsOpt : List Opt := [.mk 2 false [], .mk 0 false [], .mk 1 false []]

/-- Non-vacuity: the values, and the end of the string. -/
example : (getAll threeFields 36 (fun _ l => l) threeFieldsOpt 16).map (fun n => (n.length, n.table)) =
    some (34, [263, 2, 9]) ∧ threeFields.length + 64 < M32 := by decide +kernel

/-- Non-vacuity with nested tables. -/
example : (getAll twoNested 48 (fun _ l => l) twoNestedOpt 12).map (fun n => (n.length, n.table, n.childs.map (·.1))) =
    some (48, [0, 0], [0, 1]) := by decide +kernel

/-- C117 is violated after `GetFbsInfo`: when the table has a string, `FetchAll` leaves the lengths of the strings
alone, whatever the other fields hold. -/
theorem all_again_fails (buf : Bytes) (capb : Nat) (ord ord' : List Nat → List (Nat × Nat) → List (Nat × Nat))
    (maps : List Opt) (top : Nat) (n : Info) (vt t : List Nat) (h : getFbsInfo buf capb ord maps top = some n)
    (hv : fetchVtable buf top = some vt) (ht : stringLens buf top maps 0 vt = some t) (hne : t ≠ []) :
    infoThenAll buf capb ord ord' maps top = some (t, n.length) := by
  unfold infoThenAll
  simp only [h, hv, ht, Option.bind_eq_bind, Option.bind_some]
  rw [if_pos (List.length_pos_iff.2 hne)]
  rfl

/-- The three fields again: only the length of the string. -/
example : infoThenAll threeFields 36 (fun _ l => l) (fun _ l => l) threeFieldsOpt 16 = some ([2], 34) := by decide +kernel

/-- C117 is violated with vectors: nothing is listed for them, so the values after them move to the front; here
entry 0 of `Table` is the value of field 1. -/
theorem all_vector_fails : ∃ (buf : Bytes) (maps : List Opt),
    (getAll buf buf.length (fun _ l => l) maps 16).map (fun n => n.table) = some [7] ∧
    (maps.map fieldKind) = [.vector, .scalar 4] :=
  ⟨[16,0,0,0, 0,0, 8,0,12,0, 4,0,8,0, 0,0, 10,0,0,0, 8,0,0,0, 7,0,0,0, 1,0,0,0, 12,0,0,0, 0,0, 6,0,8,0, 4,0,
     6,0,0,0, 5,0,0,0], [.mk (-1) true [.mk 4 false []], .mk 4 false []], by decide +kernel, by decide +kernel⟩

/-- C117 is violated for unsigned numbers of four bytes: 4294967295 is listed as 18446744073709551615. -/
theorem all_unsigned_fails : ∃ (buf : Bytes) (maps : List Opt),
    rd32 buf 16 = some 4294967295 ∧ fetchVtable buf 12 = some [4] ∧
    (getAll buf buf.length (fun _ l => l) maps 12).map (fun n => n.table) = some [18446744073709551615] :=
  ⟨[12,0,0,0, 0,0, 6,0,8,0, 4,0, 6,0,0,0, 255,255,255,255], [.mk 4 false []], by decide +kernel, by decide +kernel, by decide +kernel⟩

/-- C117 is violated for absent fields: what is listed is read from the start of the table, here the offset of the
vtable. -/
theorem all_absent_fails : ∃ (buf : Bytes) (maps : List Opt),
    fetchVtable buf 12 = some [0] ∧
    (getAll buf buf.length (fun _ l => l) maps 12).map (fun n => n.table) = some [6] :=
  ⟨[12,0,0,0, 0,0, 6,0,8,0, 0,0, 6,0,0,0, 0,0,0,0], [.mk 4 false []], by decide +kernel, by decide +kernel⟩

end Fbs.Props
