import Verif.BufSpec
/-! # Lemmas about the value-level buffer model -/

namespace Fbs

/-! ## lists -/

/-- The last element satisfying `p`. -/
def lastOf {α : Type} (p : α → Bool) (l : List α) : Option α :=
  match lastIndexOf p l with
  | some n => l[n]?
  | none => none

section lists
variable {α : Type} {p : α → Bool}

theorem lastIndexOf_lt {l : List α} {n : Nat} (h : lastIndexOf p l = some n) :
    ∃ a, l[n]? = some a ∧ p a = true := by
  induction l generalizing n with
  | nil => simp [lastIndexOf] at h
  | cons a l ih =>
    simp only [lastIndexOf] at h
    cases hl : lastIndexOf p l with
    | some m =>
      simp only [hl] at h
      injection h with h; subst h
      simpa using ih hl
    | none =>
      simp only [hl] at h
      split at h
      · injection h with h; subst h; exact ⟨a, by simp, by assumption⟩
      · simp at h

theorem lastIndexOf_none {l : List α} : lastIndexOf p l = none ↔ ∀ a ∈ l, p a = false := by
  induction l with
  | nil => simp [lastIndexOf]
  | cons a l ih =>
    simp only [lastIndexOf, List.mem_cons, forall_eq_or_imp]
    cases hl : lastIndexOf p l with
    | some m =>
      simp only [hl, reduceCtorEq, false_iff] at ih ⊢
      exact fun h => ih h.2
    | none =>
      have := ih.mp hl
      by_cases hp : p a = true
      · simp [hp]
      · simp only [hp]; simp only [Bool.not_eq_true] at hp; simp [hp]; exact this

/-- `lastIndexOf` is the *last* index. -/
theorem lastIndexOf_last {l : List α} {n m : Nat} {a : α} (h : lastIndexOf p l = some n)
    (hm : l[m]? = some a) (hp : p a = true) : m ≤ n := by
  induction l generalizing n m with
  | nil => simp at hm
  | cons b l ih =>
    simp only [lastIndexOf] at h
    cases hl : lastIndexOf p l with
    | some k =>
      simp only [hl] at h
      injection h with h; subst h
      cases m with
      | zero => omega
      | succ m => have := ih hl (by simpa using hm); omega
    | none =>
      simp only [hl] at h
      cases m with
      | zero => omega
      | succ m =>
        have := lastIndexOf_none.mp hl a (List.mem_of_getElem? (by simpa using hm))
        simp [this] at hp

theorem lastOf_nil : lastOf p ([] : List α) = none := rfl

theorem lastOf_cons (a : α) (l : List α) :
    lastOf p (a :: l) = (lastOf p l).or (if p a then some a else none) := by
  unfold lastOf
  simp only [lastIndexOf]
  cases hl : lastIndexOf p l with
  | some m =>
    obtain ⟨x, hx, -⟩ := lastIndexOf_lt hl
    simp [hx]
  | none => by_cases h : p a = true <;> simp [h]

theorem lastOf_append (l₁ l₂ : List α) :
    lastOf p (l₁ ++ l₂) = (lastOf p l₂).or (lastOf p l₁) := by
  induction l₁ with
  | nil => simp [lastOf_nil]
  | cons a l ih => rw [List.cons_append, lastOf_cons, ih, lastOf_cons, Option.or_assoc]

theorem lastOf_none {l : List α} : lastOf p l = none ↔ ∀ a ∈ l, p a = false := by
  rw [← lastIndexOf_none]
  unfold lastOf
  cases h : lastIndexOf p l with
  | some n => obtain ⟨x, hx, -⟩ := lastIndexOf_lt h; simp [hx]
  | none => simp

theorem lastOf_some {l : List α} {a : α} (h : lastOf p l = some a) : a ∈ l ∧ p a = true := by
  unfold lastOf at h
  cases hn : lastIndexOf p l with
  | some n =>
    obtain ⟨x, hx, hp⟩ := lastIndexOf_lt hn
    simp only [hn, hx] at h
    injection h with h; subst h
    exact ⟨List.mem_of_getElem? hx, hp⟩
  | none => simp [hn] at h

theorem lastOf_singleton (a : α) : lastOf p [a] = if p a then some a else none := by
  rw [lastOf_cons, lastOf_nil]; simp

/-- A map commuting with the predicate commutes with `lastOf`. -/
theorem lastOf_map {β : Type} (f : β → α) (l : List β) :
    lastOf p (l.map f) = (lastOf (fun b => p (f b)) l).map f := by
  induction l with
  | nil => rfl
  | cons a l ih =>
    rw [List.map_cons, lastOf_cons, lastOf_cons, ih]
    cases lastOf (fun b => p (f b)) l with
    | some x => simp
    | none => by_cases h : p (f a) = true <;> simp [h]

theorem lastOf_congr {q : α → Bool} {l : List α} (h : ∀ a ∈ l, p a = q a) :
    lastOf p l = lastOf q l := by
  induction l with
  | nil => rfl
  | cons a l ih =>
    rw [lastOf_cons, lastOf_cons, ih (fun x hx => h x (List.mem_cons_of_mem _ hx)),
      h a List.mem_cons_self]

theorem insertOr_of_le {l : List α} {i : Nat} {xs : List α} (h : i ≤ l.length) :
    insertOr l i xs = l.take i ++ xs ++ l.drop i := by
  simp only [insertOr, insertAt]
  rw [if_neg (by omega)]; rfl

theorem insertOr_zero (l xs : List α) : insertOr l 0 xs = xs ++ l := by
  rw [insertOr_of_le (Nat.zero_le _)]; simp

end lists

/-! ## copyAt -/

theorem copyAt_length (dst : Bytes) (pos : Nat) (src : Bytes) (h : pos + src.length ≤ dst.length) :
    (copyAt dst pos src).length = dst.length := by
  simp only [copyAt, List.length_append, List.length_take, List.length_drop]
  omega

theorem copyAt_length' (dst : Bytes) (pos : Nat) (src : Bytes) (h : pos ≤ dst.length) :
    (copyAt dst pos src).length = dst.length := by
  simp only [copyAt, List.length_append, List.length_take, List.length_drop]
  omega

theorem copyAt_getElem? (dst : Bytes) (pos : Nat) (src : Bytes) (x : Nat)
    (h : pos + src.length ≤ dst.length) :
    (copyAt dst pos src)[x]? =
      if pos ≤ x ∧ x < pos + src.length then src[x - pos]? else dst[x]? := by
  have h1 : src.take (dst.length - pos) = src := List.take_of_length_le (by omega)
  rw [copyAt, h1, List.getElem?_append, List.getElem?_append]
  simp only [List.length_append, List.length_take, Nat.min_eq_left (show pos ≤ dst.length by omega)]
  by_cases hx : x < pos
  · rw [if_pos (by omega), if_pos hx, if_neg (by omega), List.getElem?_take, if_pos hx]
  · by_cases hx2 : x < pos + src.length
    · rw [if_pos hx2, if_neg hx, if_pos (by omega)]
    · rw [if_neg hx2, if_neg (by omega), List.getElem?_drop]; congr 1; omega

/-! ## content -/

theorem contentOf_append (m : ByteMap) (l₁ l₂ : List Diff) :
    contentOf m (l₁ ++ l₂) = contentOf (contentOf m l₁) l₂ := by
  simp [contentOf, List.foldl_append]

theorem covers_iff (d : Diff) (x : Nat) : d.covers x = true ↔ d.off ≤ x ∧ x < d.off + d.sl.len := by
  simp [Diff.covers]

theorem covers_false (d : Diff) (x : Nat) :
    d.covers x = false ↔ ¬ (d.off ≤ x ∧ x < d.off + d.sl.len) := by
  rw [← covers_iff, Bool.not_eq_true]

/-- The journal denotes, at each offset, the byte of the last covering segment. -/
theorem contentOf_eq (m : ByteMap) (ds : List Diff) (x : Nat) :
    contentOf m ds x =
      match lastOf (fun d => d.covers x) ds with
      | some d => d.sl.data[x - d.off]?
      | none => m x := by
  induction ds generalizing m with
  | nil => simp [contentOf, lastOf_nil]
  | cons d l ih =>
    have : contentOf m (d :: l) = contentOf (m.put d.off d.sl.data) l := rfl
    rw [this, ih, lastOf_cons]
    cases lastOf (fun d => d.covers x) l with
    | some e => simp
    | none =>
      simp only [Option.none_or, ByteMap.put]
      by_cases h : d.covers x = true
      · rw [if_pos h]
        exact if_pos ((covers_iff d x).mp h)
      · rw [if_neg h]
        exact if_neg (fun hh => h ((covers_iff d x).mpr hh))

theorem content_eq (b : Base) (x : Nat) :
    b.content x =
      match lastOf (fun d => d.covers x) b.diffs with
      | some d => d.sl.data[x - d.off]?
      | none => b.bytes.data[x]? := contentOf_eq _ _ _

theorem contentOf_snoc (m : ByteMap) (l : List Diff) (d : Diff) :
    contentOf m (l ++ [d]) = (contentOf m l).put d.off d.sl.data := by
  rw [contentOf_append]; rfl

/-- Two journals with the same last covering segment *byte* denote the same. -/
theorem contentOf_congr_lastOf {m : ByteMap} {l₁ l₂ : List Diff} {x : Nat}
    (h : lastOf (fun d => d.covers x) l₁ = lastOf (fun d => d.covers x) l₂) :
    contentOf m l₁ x = contentOf m l₂ x := by
  rw [contentOf_eq, contentOf_eq, h]

/-! ## R -/

theorem minStep_foldl (p : Diff → Bool) (ds : List Diff) (acc : Option Nat) (r : Option Nat)
    (hr : ds.foldl (minStep p) acc = r) :
    (r = none → acc = none ∧ ∀ d ∈ ds, p d = false) ∧
    (∀ m, r = some m → (acc = some m ∨ ∃ d ∈ ds, p d = true ∧ d.off = m) ∧
      (∀ d ∈ ds, p d = true → m ≤ d.off) ∧ (∀ a, acc = some a → m ≤ a)) := by
  induction ds generalizing acc with
  | nil =>
    simp only [List.foldl_nil] at hr
    subst hr
    refine ⟨fun h => ⟨h, by simp⟩, fun m h => ⟨Or.inl h, by simp, ?_⟩⟩
    intro a ha; rw [h] at ha; injection ha with ha; omega
  | cons d l ih =>
    simp only [List.foldl_cons] at hr
    obtain ⟨h1, h2⟩ := ih _ hr
    by_cases hp : p d = true
    · constructor
      · intro h
        have := (h1 h).1
        unfold minStep at this
        rw [if_pos hp] at this
        cases acc with
        | none => simp at this
        | some m => simp only at this; split at this <;> simp at this
      · intro m hm
        obtain ⟨h3, h4, h5⟩ := h2 m hm
        have hstep : ∃ q, minStep p acc d = some q ∧ q ≤ d.off ∧ (∀ a, acc = some a → q ≤ a) ∧
            (acc = some q ∨ d.off = q) := by
          unfold minStep
          rw [if_pos hp]
          cases acc with
          | none => exact ⟨d.off, rfl, Nat.le_refl _, by simp, Or.inr rfl⟩
          | some a =>
            simp only
            split
            · exact ⟨_, rfl, Nat.le_refl _, by intro x hx; injection hx with hx; omega, Or.inr rfl⟩
            · exact ⟨_, rfl, by omega, by intro x hx; injection hx with hx; omega, Or.inl rfl⟩
        obtain ⟨q, hq, hq1, hq2, hq3⟩ := hstep
        have hmq := h5 q hq
        refine ⟨?_, ?_, ?_⟩
        · rcases h3 with h3 | ⟨e, he, hpe, heo⟩
          · rw [hq] at h3; injection h3 with h3; subst h3
            rcases hq3 with hq3 | hq3
            · exact Or.inl hq3
            · exact Or.inr ⟨d, List.mem_cons_self, hp, hq3⟩
          · exact Or.inr ⟨e, List.mem_cons_of_mem _ he, hpe, heo⟩
        · intro e he hpe
          rcases List.mem_cons.mp he with rfl | he
          · omega
          · exact h4 e he hpe
        · intro a ha; have := hq2 a ha; omega
    · have hs : minStep p acc d = acc := by unfold minStep; rw [if_neg hp]
      rw [hs] at h1 h2
      constructor
      · intro h
        refine ⟨(h1 h).1, ?_⟩
        intro e he
        rcases List.mem_cons.mp he with rfl | he
        · simpa using hp
        · exact (h1 h).2 e he
      · intro m hm
        obtain ⟨h3, h4, h5⟩ := h2 m hm
        refine ⟨?_, ?_, h5⟩
        · rcases h3 with h3 | ⟨e, he, hpe, heo⟩
          · exact Or.inl h3
          · exact Or.inr ⟨e, List.mem_cons_of_mem _ he, hpe, heo⟩
        · intro e he hpe
          rcases List.mem_cons.mp he with rfl | he
          · exact absurd hpe hp
          · exact h4 e he hpe

theorem minOffset_none {p : Diff → Bool} {ds : List Diff} (h : minOffset p ds = none) :
    ∀ d ∈ ds, p d = false := ((minStep_foldl p ds none _ h).1 rfl).2

theorem minOffset_some {p : Diff → Bool} {ds : List Diff} {m : Nat} (h : minOffset p ds = some m) :
    (∃ d ∈ ds, p d = true ∧ d.off = m) ∧ (∀ d ∈ ds, p d = true → m ≤ d.off) := by
  obtain ⟨h1, h2, -⟩ := (minStep_foldl p ds none _ h).2 m rfl
  exact ⟨by rcases h1 with h1 | h1; simp at h1; exact h1, h2⟩

/-- `writerR` in closed form. -/
theorem writerR_cover {b : Base} {x : Nat} {d : Diff}
    (h : lastOf (fun d => d.covers x) b.diffs = some d) :
    b.writerR x = ⟨d.sl.data.drop (x - d.off), d.sl.spare⟩ := by
  unfold lastOf at h
  unfold Base.writerR
  cases hn : lastIndexOf (fun d => d.covers x) b.diffs with
  | some n => simp only [hn] at h; simp [h]
  | none => simp [hn] at h

/-- Where `writerR` stops when no segment covers the offset. -/
def Base.stop (b : Base) (x : Nat) : Nat :=
  match minOffset (fun d => decide (d.off > x)) b.diffs with
  | none => b.bytes.len
  | some m => min b.bytes.len m

theorem writerR_uncovered {b : Base} {x : Nat}
    (h : lastOf (fun d => d.covers x) b.diffs = none) (hx : x ≤ b.bytes.len) :
    b.writerR x = ⟨(b.bytes.data.take (b.stop x)).drop x, b.bytes.data.drop (b.stop x) ++ b.bytes.spare⟩ := by
  have h' : lastIndexOf (fun d => d.covers x) b.diffs = none := by
    rw [lastIndexOf_none, ← lastOf_none]; exact h
  unfold Base.writerR Base.stop
  simp only [h']
  rw [if_neg (by omega)]
  by_cases he : b.diffs.isEmpty
  · have he' : b.diffs = [] := by simpa using he
    rw [if_pos he]
    simp [he', minOffset, Slice.len]
  · rw [if_neg he]
    cases hm : minOffset (fun d => decide (d.off > x)) b.diffs with
    | none => simp [Slice.len]
    | some m =>
      simp only
      have : x + (b.bytes.len - x) = b.bytes.len := by omega
      rw [this]

theorem writerR_beyond {b : Base} {x : Nat}
    (h : lastOf (fun d => d.covers x) b.diffs = none) (hx : b.bytes.len < x) :
    b.writerR x = .nil := by
  have h' : lastIndexOf (fun d => d.covers x) b.diffs = none := by
    rw [lastIndexOf_none, ← lastOf_none]; exact h
  unfold Base.writerR
  simp only [h']
  rw [if_pos hx]

theorem stop_le (b : Base) (x : Nat) : b.stop x ≤ b.bytes.len := by
  unfold Base.stop; split <;> omega

theorem lt_stop {b : Base} {x : Nat} (hx : x < b.bytes.len) : x < b.stop x := by
  unfold Base.stop
  split <;> rename_i heq
  · exact hx
  · obtain ⟨⟨d, -, h1, h2⟩, -⟩ := minOffset_some heq
    simp at h1; omega

/-- `R` never depends on the requested size (no reader attached) as far as the bytes are concerned. -/
theorem R_data (b : Base) (x req : Nat) : (b.R x req).data = (b.writerR x).data := by
  unfold Base.R
  simp only
  by_cases h0 : (b.writerR x).len = 0
  · rw [if_pos h0]
    have hd : (b.writerR x).data = [] := List.length_eq_zero_iff.mp h0
    rw [hd]
    have hx : b.bytes.len ≤ x := by
      cases hl : lastOf (fun d => d.covers x) b.diffs with
      | some d =>
        have := (covers_iff d x).mp (lastOf_some hl).2
        rw [writerR_cover hl] at h0
        simp only [Slice.len, List.length_drop] at h0 this
        omega
      | none =>
        by_cases hb : b.bytes.len < x
        · omega
        · rw [writerR_uncovered hl (by omega)] at h0
          have h3 := stop_le b x
          by_cases hxx : x < b.bytes.len
          · have h2 := lt_stop hxx
            simp only [Slice.len, List.length_drop, List.length_take] at h0 h2 h3 hxx
            omega
          · omega
    unfold Base.readerR
    have hn : List.drop x b.bytes.data = [] := List.drop_eq_nil_of_le hx
    split
    · split
      · exact hn
      · rfl
    · exact hn
  · rw [if_neg h0]

theorem R_nonempty {b : Base} {x req : Nat} (h : (b.R x req).data ≠ []) : b.R x req = b.writerR x := by
  rw [R_data] at h
  unfold Base.R
  simp only
  rw [if_neg]
  intro h0; exact h (List.length_eq_zero_iff.mp h0)

/-- Reading one byte through `R` yields the denoted byte. -/
theorem byte_eq_content (b : Base) (x : Nat) : b.byte x = b.content x := by
  unfold Base.byte
  rw [R_data, content_eq]
  cases hl : lastOf (fun d => d.covers x) b.diffs with
  | some d => rw [writerR_cover hl]; simp [List.head?_drop]
  | none =>
    by_cases hx : b.bytes.len < x
    · rw [writerR_beyond hl hx]
      simp only [Slice.nil, List.head?_nil]
      rw [List.getElem?_eq_none]; exact Nat.le_of_lt hx
    · rw [writerR_uncovered hl (by omega)]
      simp only [List.head?_drop]
      by_cases hxx : x < b.bytes.len
      · rw [List.getElem?_take, if_pos (lt_stop hxx)]
      · rw [List.getElem?_eq_none, List.getElem?_eq_none]
        · exact Nat.le_of_not_lt hxx
        · simp only [List.length_take]; have := stop_le b x; simp only [Slice.len] at *; omega

/-- If no edge lies strictly inside the range and the first byte is readable, `R` returns at least `n`
bytes and they are the current ones. -/
theorem R_spells {b : Base} {x n : Nat} (hc : b.NoCut x n) (h0 : (b.content x).isSome) :
    n ≤ (b.R x n).len ∧ b.content.Spells x ((b.R x n).data.take n) := by
  obtain ⟨hc1, hc2⟩ := hc
  simp only [Slice.len, ByteMap.Spells]
  rw [R_data]
  have hcov : ∀ k, k < n → ∀ d ∈ b.diffs, d.covers (x + k) = d.covers x := by
    intro k hk d hd
    have := hc1 d hd
    rw [Bool.eq_iff_iff, covers_iff, covers_iff]
    omega
  have hl : ∀ k, k < n → lastOf (fun d => d.covers (x + k)) b.diffs = lastOf (fun d => d.covers x) b.diffs :=
    fun k hk => lastOf_congr (hcov k hk)
  cases hx : lastOf (fun d => d.covers x) b.diffs with
  | some d =>
    rw [writerR_cover hx]
    have hd := lastOf_some hx
    have h1 := hc1 d hd.1
    have h2 := (covers_iff d x).mp hd.2
    simp only [Slice.len] at h1 h2 ⊢
    refine ⟨by simp only [List.length_drop]; omega, ?_⟩
    intro k hk
    simp only [List.length_take, List.length_drop] at hk
    have hkn : k < n := by omega
    rw [content_eq, hl k hkn, hx]
    simp only [List.getElem?_take, hkn, if_true, List.getElem?_drop]
    congr 1; omega
  | none =>
    rw [content_eq, hx] at h0
    simp only at h0
    have hxl : x < b.bytes.len := by
      by_cases hq : x < b.bytes.len
      · exact hq
      · rw [List.getElem?_eq_none (Nat.le_of_not_lt hq)] at h0; simp at h0
    rw [writerR_uncovered hx (by omega)]
    have hstop : x + n ≤ b.stop x := by
      have hlen : x + n ≤ b.bytes.len ∨ n = 0 := by
        by_cases hn : n = 0
        · exact Or.inr hn
        · left; have := hc2; omega
      have hls := lt_stop hxl
      rcases hlen with hlen | rfl
      · unfold Base.stop at hls ⊢
        split <;> rename_i heq
        · exact hlen
        · simp only [heq] at hls
          obtain ⟨⟨d, hd, h1, h2⟩, -⟩ := minOffset_some heq
          have := (hc1 d hd).1
          simp only [decide_eq_true_eq] at h1
          omega
      · omega
    have hs := stop_le b x
    simp only [Slice.len] at hs
    refine ⟨by simp only [List.length_drop, List.length_take]; omega, ?_⟩
    intro k hk
    simp only [List.length_take, List.length_drop] at hk
    have hkn : k < n := by omega
    rw [content_eq, hl k hkn, hx]
    simp only [List.getElem?_take, hkn, if_true, List.getElem?_drop]
    rw [if_pos (by omega)]

end Fbs
