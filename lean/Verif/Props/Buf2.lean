import Verif.Props.Buf
import Mathlib.Tactic.ByContra
/-!
# Range replacement, duplicates, comparison and sizes of buffers: C76, C17 (contents), C77, C78
-/

namespace Fbs.Props
open Fbs

/-! ## C76 replacing a range -/

theorem set_content {b : Base} {off : Nat} {sn : Nat} {d : Diff} {s : Slice}
    (hl : lastIndexOf (fun d => d.covers off) b.diffs = some sn) (hd : b.diffs[sn]? = some d) (ho : d.off = off) (hs : s.len = d.sl.len)
    (x : Nat) :
    (x < off ∨ off + s.len ≤ x → ({ b with diffs := b.diffs.set sn ⟨d.off, s⟩ } : Base).content x = b.content x) ∧
    (off ≤ x → x < off + s.len → (∀ e ∈ b.diffs, e.off ≤ off ∨ x < e.off) →
      ({ b with diffs := b.diffs.set sn ⟨d.off, s⟩ } : Base).content x = s.data[x - off]?) := by
  have hsplit := list_split_at hd
  have hlt := (List.getElem?_eq_some_iff.mp hd).1
  have hset : b.diffs.set sn ⟨d.off, s⟩ = b.diffs.take sn ++ ⟨d.off, s⟩ :: b.diffs.drop (sn + 1) := by
    rw [List.set_eq_take_append_cons_drop, if_pos hlt]
  have hnone : ∀ e ∈ b.diffs.drop (sn + 1), e.covers off = false := by
    intro e he
    obtain ⟨i, hi⟩ := List.mem_iff_getElem?.mp he
    rw [List.getElem?_drop] at hi
    by_contra hc
    have := lastIndexOf_last hl hi (by simpa using hc)
    omega
  have hA : ∀ (e : Diff), lastOf (fun d => d.covers x) (b.diffs.take sn ++ e :: b.diffs.drop (sn + 1)) =
      ((lastOf (fun d => d.covers x) (b.diffs.drop (sn + 1))).or (if e.covers x then some e else none)).or
        (lastOf (fun d => d.covers x) (b.diffs.take sn)) := by
    intro e
    rw [lastOf_append, lastOf_cons]
  constructor
  · intro hx
    rw [content_eq, content_eq]
    simp only
    rw [hset, hA]
    rw [show lastOf (fun d => d.covers x) b.diffs = lastOf (fun d => d.covers x) (b.diffs.take sn ++ d :: b.diffs.drop (sn + 1)) from by rw [← hsplit], hA]
    have h1 : (Diff.mk d.off s).covers x = false := by rw [covers_false]; simp only; omega
    have h2 : d.covers x = false := by rw [covers_false]; omega
    rw [h1, h2]
    simp
  · intro h1 h2 h3
    rw [content_eq]
    simp only
    rw [hset, hA]
    have hn : lastOf (fun d => d.covers x) (b.diffs.drop (sn + 1)) = none := by
      rw [lastOf_none]
      intro e he
      have g1 := hnone e he
      have g2 := h3 e (List.mem_of_mem_drop he)
      rw [covers_false] at g1 ⊢
      omega
    have hc : (Diff.mk d.off s).covers x = true := by rw [covers_iff]; simp only; omega
    rw [hn, hc]
    simp [ho]

theorem takeTo_ok {s : Slice} {n : Nat} (h : n ≤ s.cap) : ∃ r, s.takeTo n = some r ∧ r.data = s.arr.take n ∧ r.len = n := by
  have h1 : ∃ r, s.takeTo n = some r := by unfold Slice.takeTo; rw [if_pos h]; exact ⟨_, rfl⟩
  obtain ⟨r, hr⟩ := h1
  exact ⟨r, hr, takeTo_some hr⟩

theorem C_cases (b : Base) (off size : Nat) (src : Slice) (h : size ≤ src.cap) :
    ∃ s, s.data = src.arr.take size ∧ s.len = size ∧
      ((b.C off size src = some ((b.D off size).setLast s)) ∨
        ∃ sn d, lastIndexOf (fun d => d.covers off) b.diffs = some sn ∧ b.diffs[sn]? = some d ∧ d.off = off ∧ d.sl.len = size ∧
          b.C off size src = some { b with diffs := b.diffs.set sn ⟨d.off, s⟩ }) := by
  obtain ⟨s, h1, h2, h3⟩ := takeTo_ok h
  refine ⟨s, h2, h3, ?_⟩
  unfold Base.C
  rw [h1]
  simp only [Option.bind_eq_bind, Option.bind_some]
  cases hl : lastIndexOf (fun d => d.covers off) b.diffs with
  | none => exact Or.inl rfl
  | some sn =>
    obtain ⟨d, hd, -⟩ := lastIndexOf_lt hl
    simp only [hd]
    by_cases hc : d.off = off ∧ d.sl.len = size
    · rw [if_pos hc]
      exact Or.inr ⟨sn, d, rfl, hd, hc.1, hc.2, rfl⟩
    · rw [if_neg hc]; exact Or.inl rfl

theorem set_maxEnd (n : Nat) (l : List Diff) (i : Nat) (d e : Diff) (hd : l[i]? = some d) (ho : e.off + e.sl.len = d.off + d.sl.len) :
    maxEnd n (l.set i e) = maxEnd n l := by
  have hlt := (List.getElem?_eq_some_iff.mp hd).1
  rw [List.set_eq_take_append_cons_drop, if_pos hlt, maxEnd_append, maxEnd_cons]
  conv => rhs; rw [list_split_at hd, maxEnd_append, maxEnd_cons]
  rw [ho]

/-- C76: `C(off, size, src)` panics exactly when `src` has no room for `size` bytes; otherwise the bytes
outside the range and the length beyond it are kept, in all states. -/
theorem C_outside (b : Base) (off size : Nat) (src : Slice) :
    (size > src.cap → b.C off size src = none) ∧
    (size ≤ src.cap → ∃ b', b.C off size src = some b' ∧ b'.lenBuf = max b.lenBuf (off + size) ∧
      ∀ x, x < off ∨ off + size ≤ x → b'.byte x = b.byte x) := by
  constructor
  · intro h
    unfold Base.C Slice.takeTo
    rw [if_neg (by omega)]
    rfl
  · intro h
    obtain ⟨s, h1, h2, h3 | ⟨sn, d, g1, g2, g3, g4, g5⟩⟩ := C_cases b off size src h
    · refine ⟨_, h3, D_setLast_lenBuf b off size s h2, ?_⟩
      intro x hx
      rw [byte_eq_content, byte_eq_content, D_setLast_content b off size s h2, put_apply, if_neg]
      simp only [Slice.len] at h2
      omega
    · refine ⟨_, g5, ?_, ?_⟩
      · have := (lenBuf_exact b).2.2.2 d (List.mem_of_getElem? g2)
        rw [lenBuf_eq]
        simp only
        rw [set_maxEnd _ _ _ d _ g2 (by simp only; omega), ← lenBuf_eq]
        omega
      · intro x hx
        rw [byte_eq_content, byte_eq_content]
        exact (set_content g1 g2 g3 (by omega) x).1 (by omega)

/-- C76: `C(off, size, src)` writes the first `size` bytes of `src` at `off`, provided that no pending write
starts strictly inside the range. -/
theorem C_exact_partial (b : Base) (off size : Nat) (src : Slice) (h : size ≤ src.len)
    (hin : ∀ d ∈ b.diffs, d.off ≤ off ∨ off + size ≤ d.off) :
    ∃ b', b.C off size src = some b' ∧ ∀ k, k < size → b'.byte (off + k) = src.data[k]? := by
  simp only [Slice.len] at h
  have harr : ∀ k, k < size → (src.arr.take size)[k]? = src.data[k]? := by
    intro k hk
    rw [List.getElem?_take_of_lt hk]
    unfold Slice.arr
    rw [List.getElem?_append_left (by omega)]
  obtain ⟨s, h1, h2, h3 | ⟨sn, d, g1, g2, g3, g4, g5⟩⟩ := C_cases b off size src (by unfold Slice.cap; omega)
  · refine ⟨_, h3, ?_⟩
    intro k hk
    rw [byte_eq_content, D_setLast_content b off size s h2, put_apply]
    simp only [Slice.len] at h2
    rw [if_pos (by omega), h1, Nat.add_sub_cancel_left, harr k hk]
  · refine ⟨_, g5, ?_⟩
    intro k hk
    rw [byte_eq_content, (set_content g1 g2 g3 (by omega) (off + k)).2 (by omega) (by omega) (by
      intro e he
      have := hin e he
      omega), h1, Nat.add_sub_cancel_left, harr k hk]

example : (∀ d ∈ sample.diffs, d.off ≤ 12 ∨ 12 + 1 ≤ d.off) ∧
    (sample.C 12 1 ⟨[77], []⟩).map (fun b => (b.byte 12, b.diffs.length)) = some (some 77, 3) ∧
    (sample.C 6 3 ⟨[7, 8, 9], []⟩).map (fun b => [b.byte 5, b.byte 6, b.byte 7, b.byte 8]) = some [some 4, some 7, some 8, some 9] := by
  decide

/-- C76 is violated when a pending write of the same range is replaced in place although a later one starts
inside it: the replaced range still shows the later write. -/
theorem C_exact_fails :
    (({ bytes := .nil, diffs := [⟨0, ⟨[1, 2, 3, 4], []⟩⟩, ⟨2, ⟨[9], []⟩⟩] } : Base).C 0 4 ⟨[5, 6, 7, 8], []⟩).map
      (fun b => [b.byte 0, b.byte 1, b.byte 2, b.byte 3]) = some [some 5, some 6, some 9, some 8] := by decide

/-! ## C17 contents of a duplicate -/

/-- C17, the values: a duplicate has the same bytes and the same length, and it can be edited: after any
further history the two differ only by the edits (compare `history_refines`). -/
theorem dup_same (b : Base) : (∀ x, b.dup.byte x = b.byte x) ∧ b.dup.lenBuf = b.lenBuf := by
  constructor
  · intro x
    rw [byte_eq_content, byte_eq_content]
    unfold Base.content contentOf Base.dup
    simp only [List.foldl_map]
  · rw [lenBuf_eq, lenBuf_eq]
    unfold maxEnd Base.dup
    simp only [List.foldl_map]
    rfl

example : sample.dup.byte 3 = some 5 ∧ sample.dup.lenBuf = 13 := by decide

/-! ## C77 comparing buffers -/

/-- C77: `Equal` is an equivalence relation, and equal buffers have the same bytes and length. -/
theorem equal_sound (b c : Base) (h : b.equal c = true) : (∀ x, b.byte x = c.byte x) ∧ b.lenBuf = c.lenBuf := by
  unfold Base.equal at h
  simp only [Bool.and_eq_true, beq_iff_eq] at h
  obtain ⟨h1, h2, h3⟩ := h
  have hmap : b.diffs.map (fun d => (d.off, d.sl.data)) = c.diffs.map (fun d => (d.off, d.sl.data)) := by
    apply List.ext_getElem (by simp [h2])
    intro i hi1 hi2
    simp only [List.length_map] at hi1 hi2
    simp only [List.getElem_map]
    have := List.all_eq_true.mp h3 (b.diffs[i], c.diffs[i]) (by
      rw [← List.getElem_zip (h := by simp; omega)]
      exact List.getElem_mem _)
    simp only [Diff.equal, Bool.and_eq_true, beq_iff_eq] at this
    rw [this.1, this.2]
  constructor
  · intro x
    rw [byte_eq_content, byte_eq_content]
    have e : ∀ (m : ByteMap) (l : List Diff), contentOf m l = (l.map (fun d => (d.off, d.sl.data))).foldl (fun m p => m.put p.1 p.2) m := by
      intro m l; unfold contentOf; rw [List.foldl_map]
    unfold Base.content
    rw [e, e, hmap, h1]
  · rw [lenBuf_eq, lenBuf_eq]
    have e : ∀ (n : Nat) (l : List Diff), maxEnd n l =
        (l.map (fun d => (d.off, d.sl.data))).foldl (fun m p => if p.1 + p.2.length > m then p.1 + p.2.length else m) n := by
      intro n l; unfold maxEnd; rw [List.foldl_map]; rfl
    rw [e, e, hmap]
    unfold Slice.len
    rw [h1]

theorem equal_iff (b c : Base) : b.equal c = true ↔
    b.bytes.data = c.bytes.data ∧ b.diffs.map (fun d => (d.off, d.sl.data)) = c.diffs.map (fun d => (d.off, d.sl.data)) := by
  unfold Base.equal
  simp only [Bool.and_eq_true, beq_iff_eq]
  refine and_congr_right (fun _ => ?_)
  generalize b.diffs = l
  generalize c.diffs = m
  induction l generalizing m with
  | nil => cases m <;> simp
  | cons x l ih =>
    cases m with
    | nil => simp
    | cons y m =>
      have := ih m
      simp only [List.length_cons, List.zip_cons_cons, List.all_cons, Bool.and_eq_true, List.map_cons, List.cons.injEq,
        Prod.mk.injEq, Diff.equal, beq_iff_eq, Nat.add_right_cancel_iff] at this ⊢
      rw [← this]
      constructor
      · rintro ⟨a, ⟨b, c⟩, d⟩; exact ⟨⟨b, c⟩, a, d⟩
      · rintro ⟨⟨b, c⟩, a, d⟩; exact ⟨a, ⟨b, c⟩, d⟩

theorem equal_equivalence : (∀ b : Base, b.equal b = true) ∧ (∀ b c : Base, b.equal c = true → c.equal b = true) ∧
    ∀ b c d : Base, b.equal c = true → c.equal d = true → b.equal d = true := by
  refine ⟨fun b => (equal_iff b b).mpr ⟨rfl, rfl⟩, fun b c h => ?_, fun b c d h1 h2 => ?_⟩
  · obtain ⟨h1, h2⟩ := (equal_iff b c).mp h
    exact (equal_iff c b).mpr ⟨h1.symm, h2.symm⟩
  · obtain ⟨a1, a2⟩ := (equal_iff b c).mp h1
    obtain ⟨b1, b2⟩ := (equal_iff c d).mp h2
    exact (equal_iff b d).mpr ⟨a1.trans b1, a2.trans b2⟩

/-- C77: a duplicate is equal to its origin. -/
theorem equal_dup (b : Base) : b.dup.equal b = true := by
  rw [equal_iff]
  refine ⟨rfl, ?_⟩
  unfold Base.dup
  simp [Function.comp_def]

example : sample.equal sample.dup = true ∧ sample.equal (sample.writeAt [1] 0).1 = false := by decide

/-- C77 is violated in the other direction: buffers with the same bytes and length are not always equal (a
buffer and the same buffer after `Flatten`). -/
theorem equal_complete_fails : let b : Base := { bytes := .nil, diffs := [⟨0, ⟨[1, 2], []⟩⟩] }
    b.equal b.flatten = false ∧ (∀ x, b.byte x = b.flatten.byte x) ∧ b.lenBuf = b.flatten.lenBuf := by
  refine ⟨by decide, ?_, by decide⟩
  intro x
  rw [byte_eq_content, byte_eq_content]
  rcases x with _ | _ | x
  · decide
  · decide
  · rw [content_none_of_ge _ _ (by show 2 ≤ _; omega), content_none_of_ge _ _ (by show 2 ≤ _; omega)]

/-! ## C78 BufInfo -/

theorem bufInfo_fold (l : List Diff) (m n : Nat) : l.foldl (fun (m : Nat × Nat) d =>
      (if d.sl.len + d.off > m.1 then d.off + d.sl.len else m.1,
       if d.sl.cap + d.off > m.2 then d.off + d.sl.cap else m.2)) (m, n) =
    (maxEnd m l, l.foldl (fun n d => max n (d.off + d.sl.cap)) n) := by
  induction l generalizing m n with
  | nil => rfl
  | cons d l ih =>
    rw [maxEnd_cons]
    simp only [List.foldl_cons]
    rw [ih]
    congr 2
    · split <;> omega
    · split <;> omega

theorem foldl_cap (l : List Diff) (n : Nat) : n ≤ l.foldl (fun n d => max n (d.off + d.sl.cap)) n ∧
    (∀ d ∈ l, d.off + d.sl.cap ≤ l.foldl (fun n d => max n (d.off + d.sl.cap)) n) ∧
    (l.foldl (fun n d => max n (d.off + d.sl.cap)) n = n ∨ ∃ d ∈ l, l.foldl (fun n d => max n (d.off + d.sl.cap)) n = d.off + d.sl.cap) := by
  induction l generalizing n with
  | nil => exact ⟨Nat.le_refl _, fun d hd => (by cases hd), Or.inl rfl⟩
  | cons e l ih =>
    obtain ⟨h1, h2, h3⟩ := ih (max n (e.off + e.sl.cap))
    simp only [List.foldl_cons]
    refine ⟨by omega, ?_, ?_⟩
    · intro d hd
      rcases List.mem_cons.mp hd with rfl | hd
      · omega
      · exact h2 d hd
    · rcases h3 with h3 | ⟨d, hd, h3⟩
      · rw [h3]
        by_cases hc : e.off + e.sl.cap ≤ n
        · exact Or.inl (by omega)
        · exact Or.inr ⟨e, List.mem_cons_self, by omega⟩
      · exact Or.inr ⟨d, List.mem_cons_of_mem _ hd, h3⟩

theorem len_le_cap (s : Slice) : s.len ≤ s.cap := by unfold Slice.len Slice.cap; omega

/-- C78: `BufInfo` reports the length and capacity of the initial bytes, `LenBuf`, and the largest end of the
capacity of the initial bytes or a pending write, which is never smaller than `LenBuf`. -/
theorem bufInfo_exact (b : Base) :
    b.bufInfo.1 = (b.bytes.len, b.bytes.cap) ∧ b.bufInfo.2.1 = b.lenBuf ∧ b.lenBuf ≤ b.bufInfo.2.2 ∧
    b.bytes.cap ≤ b.bufInfo.2.2 ∧ (∀ d ∈ b.diffs, d.off + d.sl.cap ≤ b.bufInfo.2.2) ∧
    (b.bufInfo.2.2 = b.bytes.cap ∨ ∃ d ∈ b.diffs, b.bufInfo.2.2 = d.off + d.sl.cap) := by
  unfold Base.bufInfo
  rw [bufInfo_fold]
  obtain ⟨h1, h2, h3⟩ := foldl_cap b.diffs b.bytes.cap
  refine ⟨rfl, (lenBuf_eq b).symm, ?_, h1, h2, h3⟩
  rw [lenBuf_eq, maxEnd_le_iff]
  refine ⟨?_, ?_⟩
  · exact Nat.le_trans (len_le_cap _) h1
  · intro d hd
    exact Nat.le_trans (Nat.add_le_add_left (len_le_cap _) _) (h2 d hd)

example : sample.bufInfo = ((8, 10), (13, 13)) := by decide

end Fbs.Props
