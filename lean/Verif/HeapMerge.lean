import Verif.HeapFoot
import Verif.HeapInPlace
/-!
# What merging does in the two-layer backend (directreader.go 203-219)
-/

namespace Fbs

namespace Mem

/-- Pointwise effect of `copy(w[p:], src)`. -/
theorem copyTo_getAt (m : Mem) (w : Win) (p : Nat) (src : Bytes) (hw : m.Ok w) (i x : Nat) :
    (((m.copyTo w p src)[i]?).getD [])[x]? =
      if i = w.arr ∧ w.off + p ≤ x ∧ x < w.off + p + min src.length (w.len - p) then src[x - (w.off + p)]? else ((m[i]?).getD [])[x]? := by
  unfold copyTo
  rw [List.getElem?_modify]
  have h1 := hw.1
  by_cases hi : i = w.arr
  · subst hi
    simp only [if_true]
    by_cases hlen : w.arr < m.length
    · obtain ⟨a, ha⟩ : ∃ a, m[w.arr]? = some a := ⟨_, List.getElem?_eq_getElem hlen⟩
      rw [ha]
      simp only [Option.map_eq_map, Option.map_some, Option.getD_some]
      by_cases h0 : min src.length (w.len - p) = 0
      · have : src.take (w.len - p) = [] := List.eq_nil_of_length_eq_zero (by rw [List.length_take, Nat.min_comm]; exact h0)
        rw [this, h0, List.append_nil, Nat.add_zero, List.take_append_drop, if_neg (by omega)]
      · have hle : w.off + p + min src.length (w.len - p) ≤ a.length := by
          rcases hw.2 with h | ⟨_, h⟩
          · omega
          · rw [ha] at h; simp only [Option.getD_some] at h; omega
        rw [List.append_assoc, List.getElem?_append, List.getElem?_append, List.length_take, List.length_take,
          Nat.min_eq_left (by omega), Nat.min_comm (w.len - p)]
        by_cases h1 : x < w.off + p
        · rw [if_pos h1, if_neg (by omega), List.getElem?_take_of_lt h1]
        · rw [if_neg h1]
          by_cases h2 : x - (w.off + p) < min src.length (w.len - p)
          · rw [if_pos h2, if_pos ⟨trivial, by omega, by omega⟩, List.getElem?_take_of_lt (by omega)]
          · rw [if_neg h2, if_neg (by omega), List.getElem?_drop]
            congr 1; omega
    · have hn : m[w.arr]? = none := List.getElem?_eq_none (by omega)
      have h0 : w.len = 0 := by rcases hw.2 with h | ⟨h, _⟩ <;> omega
      rw [hn]
      simp only [Option.map_eq_map, Option.map_none, Option.getD_none, List.getElem?_nil]
      rw [if_neg (by omega)]
  · have hi' : ¬ (w.arr = i) := fun h => hi h.symm
    rw [if_neg (fun (h : i = w.arr ∧ _) => hi h.1)]
    simp [hi']

theorem sl_get {m : Mem} {w : Win} (hw : m.Ok w) {x : Nat} (hx : x < w.len) : (m.sl w).data[x]? = ((m[w.arr]?).getD [])[w.off + x]? := by
  have := hw.1
  unfold sl
  simp only
  rw [List.getElem?_take_of_lt hx, capBytes_get, if_pos (by omega)]

/-- The slice written, byte by byte. -/
theorem copyTo_self {m : Mem} {w : Win} (hw : m.Ok w) (p : Nat) (src : Bytes) {x : Nat} (hx : x < w.len) :
    ((m.copyTo w p src).sl w).data[x]? = if p ≤ x ∧ x < p + src.length then src[x - p]? else (m.sl w).data[x]? := by
  rw [sl_get (Keeps.copyTo hw p src w hw) hx, sl_get hw hx, copyTo_getAt _ _ _ _ hw]
  by_cases h : p ≤ x ∧ x < p + src.length
  · rw [if_pos h, if_pos ⟨rfl, by omega, by omega⟩]
    congr 1; omega
  · rw [if_neg h, if_neg (by omega)]

/-- Slices elsewhere do not change. -/
theorem copyTo_other {m : Mem} {w v : Win} (hw : m.Ok w) (p : Nat) (src : Bytes) (hd : w.Disj v) : (m.copyTo w p src).sl v = m.sl v := by
  have : (m.copyTo w p src).capBytes v = m.capBytes v := by
    apply List.ext_getElem?
    intro x
    rw [capBytes_get, capBytes_get]
    by_cases h : x < v.cap
    · rw [if_pos h, if_pos h, copyTo_getAt m w p src hw, if_neg]
      rintro ⟨h1, h2, h3⟩
      have := hw.1
      unfold Win.Disj at hd
      omega
    · rw [if_neg h, if_neg h]
  unfold sl; rw [this]

/-- A new array is disjoint from every slice there was. -/
theorem alloc_disj {m : Mem} {v : Win} (hv : m.Ok v) (s : Slice) : (m.alloc s).2.Disj v := by
  unfold Win.Disj alloc
  rcases hv.2 with h | ⟨h, _⟩
  · exact Or.inr (Or.inl h)
  · refine Or.inr (Or.inr (Or.inl ?_))
    simp only
    omega

end Mem

namespace HBase

/-- A new array filled with `d` and `s`. -/
theorem alloc_merge {m : Mem} {d s : HDiff} {n : Nat} (sp : Bytes) (hd : m.Ok d.w) (hs : m.Ok s.w) (ho : d.off ≤ s.off)
    (hn : n = max (d.off + d.w.len) (s.off + s.w.len) - d.off) :
    let m1 := (m.alloc ⟨zeros n, sp⟩).1
    let w := (m.alloc ⟨zeros n, sp⟩).2
    let m2 := m1.copyTo w 0 (m1.read d.w)
    let m3 := m2.copyTo w (s.off - d.off) (m2.read s.w)
    m3.Ok w ∧ w.len = n ∧ Mem.Keeps m m3 ∧ (∀ v, m.Ok v → m3.sl v = m.sl v ∧ w.Disj v) ∧
      ∀ x, x < n → (m3.sl w).data[x]? = if s.off ≤ d.off + x ∧ d.off + x < s.off + s.w.len then (m.sl s.w).data[d.off + x - s.off]?
        else if x < d.w.len then (m.sl d.w).data[x]? else some 0 := by
  intro m1 w m2 m3
  have hp : m <+: m1 := Mem.alloc_prefix m _
  have hw : m1.Ok w := Mem.alloc_Ok m _
  have hlen : w.len = n := by simp [w, Mem.alloc, Slice.len, zeros]
  have hw2 : m2.Ok w := Mem.Keeps.copyTo hw 0 _ w hw
  have hw3 : m3.Ok w := Mem.Keeps.copyTo hw2 _ _ w hw2
  have hdis : ∀ v, m.Ok v → w.Disj v := fun v hv => Mem.alloc_disj hv _
  have e1 : ∀ v, m.Ok v → m1.sl v = m.sl v := fun v hv => Mem.sl_ext hp hv
  have e2 : ∀ v, m.Ok v → m2.sl v = m.sl v := fun v hv => by rw [← e1 v hv]; exact Mem.copyTo_other hw 0 _ (hdis v hv)
  have e3 : ∀ v, m.Ok v → m3.sl v = m.sl v := fun v hv => by rw [← e2 v hv]; exact Mem.copyTo_other hw2 _ _ (hdis v hv)
  refine ⟨hw3, hlen, ((Mem.Keeps.of_prefix hp).trans (Mem.Keeps.copyTo hw _ _)).trans (Mem.Keeps.copyTo hw2 _ _), fun v hv => ⟨e3 v hv, hdis v hv⟩, ?_⟩
  intro x hx
  have r1 : m1.read d.w = (m.sl d.w).data := by rw [Mem.read_eq, e1 _ hd]
  have r2 : m2.read s.w = (m.sl s.w).data := by rw [Mem.read_eq, e2 _ hs]
  have l1 := Mem.sl_data_length hd
  have l2 := Mem.sl_data_length hs
  have hz : (m1.sl w).data[x]? = some 0 := by
    have : m1.sl w = ⟨zeros n, sp⟩ := Mem.alloc_sl m _
    rw [this]
    simp only [zeros]
    exact List.getElem?_replicate_of_lt hx
  show ((m2.copyTo w (s.off - d.off) (m2.read s.w)).sl w).data[x]? = _
  rw [Mem.copyTo_self hw2 _ _ (by omega), r2, l2]
  by_cases h : s.off ≤ d.off + x ∧ d.off + x < s.off + s.w.len
  · rw [if_pos h, if_pos (by omega)]
    congr 1; omega
  · rw [if_neg h, if_neg (by omega)]
    show ((m1.copyTo w 0 (m1.read d.w)).sl w).data[x]? = _
    rw [Mem.copyTo_self hw _ _ (by omega), r1, l1]
    by_cases h2 : x < d.w.len
    · rw [if_pos h2, if_pos (by omega), Nat.sub_zero]
    · rw [if_neg h2, if_neg (by omega), hz]

/-- base.go 268-306 `Diff.Merge` with a segment that does not start before. -/
theorem merge_spec {m : Mem} {d s : HDiff} (hd : m.Ok d.w) (hs : m.Ok s.w) (hdis : d.w.Disj s.w) (ho : d.off ≤ s.off) :
    ∃ m' d', merge m d s = some (m', d') ∧ d'.off = d.off ∧ m'.Ok d'.w ∧ Mem.Keeps m m' ∧ d.w.len ≤ d'.w.len ∧
      d'.off + d'.w.len ≤ max (d.off + d.w.len) (s.off + s.w.len) ∧
      (∀ v, m.Ok v → d.w.Disj v → m'.sl v = m.sl v ∧ d'.w.Disj v) ∧
      ∀ x, x < d'.w.len → ¬ (s.off ≤ d.off + x ∧ d.off + x < s.off + s.w.len) →
        (m'.sl d'.w).data[x]? = if x < d.w.len then (m.sl d.w).data[x]? else some 0 := by
  have hl := Mem.sl_data_length hs
  have inPlace : ∃ m', m' = m.copyTo d.w (s.off - d.off) (m.read s.w) ∧ m'.Ok d.w ∧ Mem.Keeps m m' ∧
      (∀ v, m.Ok v → d.w.Disj v → m'.sl v = m.sl v ∧ d.w.Disj v) ∧
      ∀ x, x < d.w.len → ¬ (s.off ≤ d.off + x ∧ d.off + x < s.off + s.w.len) →
        (m'.sl d.w).data[x]? = if x < d.w.len then (m.sl d.w).data[x]? else some 0 := by
    refine ⟨_, rfl, Mem.Keeps.copyTo hd _ _ _ hd, Mem.Keeps.copyTo hd _ _, fun v _ hv => ⟨Mem.copyTo_other hd _ _ hv, hv⟩, ?_⟩
    intro x hx hn
    rw [Mem.copyTo_self hd _ _ hx, Mem.read_eq, hl, if_pos hx, if_neg (by omega)]
  obtain ⟨mi, i0, i1, i2, i3, i4⟩ := inPlace
  unfold merge
  simp only
  by_cases hi : d.covers s.off = true
  · by_cases hin : s.off + s.w.len ≤ d.off + d.w.len
    · rw [if_pos (by simp [hi, hin])]
      exact ⟨_, _, rfl, rfl, i0 ▸ i1, i0 ▸ i2, Nat.le_refl _, by omega, i0 ▸ i3, i0 ▸ i4⟩
    · rw [if_neg (by simp [hin])]
      by_cases hc : d.off + d.w.cap > s.off + s.w.len
      · rw [if_pos (by simp [hi, hc])]
        exact ⟨_, _, rfl, rfl, i0 ▸ i1, i0 ▸ i2, Nat.le_refl _, by omega, i0 ▸ i3, i0 ▸ i4⟩
      · rw [if_neg (by simpa [hi] using hc), if_pos hi]
        have hmin : min d.off s.off = d.off := Nat.min_eq_left ho
        rw [hmin]
        obtain ⟨a1, a2, a3, a4, a5⟩ := alloc_merge (zeros (max (d.off + d.w.len) (s.off + s.w.len) - d.off)) hd hs ho rfl
        refine ⟨_, _, rfl, rfl, a1, a3, by rw [a2]; omega, by rw [a2]; show d.off + _ ≤ _; omega, fun v hv _ => a4 v hv, ?_⟩
        intro x hx hn
        rw [a5 x (by rw [a2] at hx; exact hx), if_neg hn]
  · rw [if_neg (by simp [hi]), if_neg (by simp [hi]), if_neg hi, if_neg (by omega)]
    have hmin : min d.off s.off = d.off := Nat.min_eq_left ho
    rw [hmin]
    obtain ⟨a1, a2, a3, a4, a5⟩ := alloc_merge (zeros (max (d.off + d.w.len) (s.off + s.w.len) - d.off)) hd hs ho rfl
    refine ⟨_, _, rfl, rfl, a1, a3, by rw [a2]; omega, by rw [a2]; show d.off + _ ≤ _; omega, fun v hv _ => a4 v hv, ?_⟩
    intro x hx hn
    rw [a5 x (by rw [a2] at hx; exact hx), if_neg hn]

theorem dlMergeInto_spec {m : Mem} {d : HDiff} (l : List HDiff) (hd : m.Ok d.w) (hl : ∀ s ∈ l, m.Ok s.w ∧ d.w.Disj s.w ∧ d.off ≤ s.off) :
    ∃ m' d', dlMergeInto m d l = some (m', d') ∧ d'.off = d.off ∧ m'.Ok d'.w ∧ Mem.Keeps m m' ∧ d.w.len ≤ d'.w.len ∧
      (∀ k, d.off + d.w.len ≤ k → (∀ s ∈ l, s.off + s.w.len ≤ k) → d'.off + d'.w.len ≤ k) ∧
      (∀ v, m.Ok v → d.w.Disj v → m'.sl v = m.sl v ∧ d'.w.Disj v) ∧
      ∀ x, x < d'.w.len → (∀ s ∈ l, ¬ (s.off ≤ d.off + x ∧ d.off + x < s.off + s.w.len)) →
        (m'.sl d'.w).data[x]? = if x < d.w.len then (m.sl d.w).data[x]? else some 0 := by
  induction l generalizing m d with
  | nil =>
    refine ⟨m, d, rfl, rfl, hd, fun _ h => h, Nat.le_refl _, fun _ h _ => h, fun v _ h => ⟨rfl, h⟩, ?_⟩
    intro x hx _
    rw [if_pos hx]
  | cons s l ih =>
    obtain ⟨s1, s2, s3⟩ := hl s List.mem_cons_self
    obtain ⟨m1, d1, a1, a2, a3, a4, a5, a6, a7, a8⟩ := merge_spec hd s1 s2 s3
    obtain ⟨m2, d2, b1, b2, b3, b4, b5, b6, b7, b8⟩ := ih (m := m1) (d := d1) a3 (by
      intro e he
      obtain ⟨e1, e2, e3⟩ := hl e (List.mem_cons_of_mem _ he)
      exact ⟨a4 _ e1, (a7 _ e1 e2).2, by rw [a2]; exact e3⟩)
    refine ⟨m2, d2, ?_, by rw [b2, a2], b3, a4.trans b4, Nat.le_trans a5 b5, ?_, ?_, ?_⟩
    · simp only [dlMergeInto, a1, Option.bind_eq_bind, Option.bind_some]; exact b1
    · intro k h1 h2
      refine b6 k ?_ (fun e he => h2 e (List.mem_cons_of_mem _ he))
      have := h2 s List.mem_cons_self
      omega
    · intro v hv hdv
      obtain ⟨h1, h2⟩ := a7 v hv hdv
      obtain ⟨h3, h4⟩ := b7 v (a4 _ hv) h2
      exact ⟨h3.trans h1, h4⟩
    · intro x hx hn
      rw [b8 x hx (fun e he => by rw [a2]; exact hn e (List.mem_cons_of_mem _ he))]
      have hns := hn s List.mem_cons_self
      by_cases h1 : x < d1.w.len
      · rw [if_pos h1]; exact a8 x h1 hns
      · rw [if_neg h1, if_neg (by omega)]

end HBase
end Fbs
