import Verif.Access
import Verif.TableNest
/-!
# Messages: the bytes of a table with its header

`WithHeader`, `Flatten`, `R(0)` give the header followed by the flattened buffer; cells of the buffer are
found in it 8 bytes further on.
-/

namespace Fbs
open CNode

theorem straddles_zero (d : Diff) : ¬ Straddles 0 d := by unfold Straddles; omega

theorem mem_copyExtend_zero {b : Base} {k : Nat} {d : Diff} :
    d ∈ (b.copyExtend 0 k).diffs ↔ (0 < b.bytes.len ∧ d = ⟨0 + k, b.bytes⟩) ∨ ∃ e ∈ b.diffs, d = ⟨e.off + k, e.sl⟩ := by
  unfold Base.copyExtend
  simp only [ge_iff_le, Nat.zero_le, if_true, List.mem_map]
  by_cases h : b.bytes.len > 0
  · rw [if_pos h]
    simp only [insertOr, insertAt, Nat.not_lt_zero, if_false, List.take_zero, List.nil_append, List.drop_zero, Option.getD_some,
      gt_iff_lt, List.cons_append, List.mem_cons]
    constructor
    · rintro ⟨a, rfl | ha, rfl⟩
      · exact Or.inl ⟨h, rfl⟩
      · exact Or.inr ⟨a, ha, rfl⟩
    · rintro (⟨-, rfl⟩ | ⟨e, he, rfl⟩)
      · exact ⟨_, Or.inl rfl, rfl⟩
      · exact ⟨e, Or.inr he, rfl⟩
  · rw [if_neg h]
    constructor
    · rintro ⟨a, ha, rfl⟩; exact Or.inr ⟨a, ha, rfl⟩
    · rintro (⟨h', -⟩ | ⟨e, he, rfl⟩)
      · omega
      · exact ⟨e, he, rfl⟩

/-- Putting `w` in front of a buffer. -/
theorem front_copy (b : Base) (w : Bytes) (hw : w ≠ []) :
    ∃ b', b.copyI (Base.new ⟨w, []⟩) 0 w.length 0 w.length = some b' ∧ b'.lenBuf = b.lenBuf + w.length ∧
      (∀ k, k < w.length → b'.content k = w[k]?) ∧ ∀ x, b'.content (x + w.length) = b.content x := by
  have hH : Holds (Base.new ⟨w, []⟩) 0 w := holds_flat hw (fun k _ => by rw [Nat.zero_add]) (by omega)
  obtain ⟨sp, h⟩ := copy_one (b := b) (dst := 0) (ext := w.length) hH
  refine ⟨{ b with diffs := (b.copyExtend 0 w.length).diffs ++ [⟨0, ⟨w, sp⟩⟩] }, ?_, ?_, ?_, ?_⟩
  · unfold Base.copyI
    rw [if_neg (by omega), if_neg (by omega), if_pos (by omega)]
    simp only [Int.toNat_zero, Int.toNat_natCast]
    rw [h]
  · rw [lenBuf_eq, lenBuf_eq, maxEnd_snoc]
    have h1 : maxEnd b.bytes.len (b.copyExtend 0 w.length).diffs ≤ maxEnd b.bytes.len b.diffs + w.length := by
      rw [maxEnd_le_iff]
      have hl := le_maxEnd b.bytes.len b.diffs
      refine ⟨by omega, ?_⟩
      intro d hd
      rcases mem_copyExtend_zero.mp hd with ⟨-, rfl⟩ | ⟨e, he, rfl⟩
      · simp only; omega
      · have := mem_le_maxEnd b.bytes.len b.diffs e he
        simp only; omega
    have h2 : maxEnd b.bytes.len b.diffs + w.length ≤ max (maxEnd b.bytes.len (b.copyExtend 0 w.length).diffs) w.length := by
      rcases maxEnd_attained b.bytes.len b.diffs with h0 | ⟨d, hd, h0⟩
      · rw [h0]
        by_cases hz : 0 < b.bytes.len
        · have := mem_le_maxEnd b.bytes.len (b.copyExtend 0 w.length).diffs ⟨0 + w.length, b.bytes⟩
            (mem_copyExtend_zero.mpr (Or.inl ⟨hz, rfl⟩))
          simp only at this; omega
        · omega
      · rw [h0]
        have := mem_le_maxEnd b.bytes.len (b.copyExtend 0 w.length).diffs ⟨d.off + w.length, d.sl⟩
          (mem_copyExtend_zero.mpr (Or.inr ⟨d, hd, rfl⟩))
        simp only at this; omega
    simp only [Nat.zero_add, Slice.len] at h1 h2 ⊢
    omega
  · intro k hk
    have : (Base.content { b with diffs := (b.copyExtend 0 w.length).diffs ++ [⟨0, ⟨w, sp⟩⟩] }) =
        ((b.copyExtend 0 w.length).content).put 0 w := contentOf_snoc _ _ _
    rw [this]
    simp only [ByteMap.put, Nat.zero_le, Nat.zero_add, true_and, if_pos hk, Nat.sub_zero]
  · intro x
    have : (Base.content { b with diffs := (b.copyExtend 0 w.length).diffs ++ [⟨0, ⟨w, sp⟩⟩] }) =
        ((b.copyExtend 0 w.length).content).put 0 w := contentOf_snoc _ _ _
    rw [this]
    simp only [ByteMap.put]
    rw [if_neg (by omega), copyExtend_content b 0 w.length (fun d _ => straddles_zero d) _ (Or.inr (by omega))]
    simp only [ByteMap.openGap]
    rw [if_neg (by omega), if_neg (by omega)]
    congr 1; omega

theorem flatten_front {b b' : Base} {w : Bytes} (h1 : b'.lenBuf = b.lenBuf + w.length) (h2 : ∀ k, k < w.length → b'.content k = w[k]?)
    (h3 : ∀ x, b'.content (x + w.length) = b.content x) : b'.flatten.bytes.data = w ++ b.flatten.bytes.data := by
  apply List.ext_getElem?
  intro x
  rw [(flatten_bytes b').2]
  simp only [ByteMap.fill]
  by_cases hx : x < w.length
  · rw [if_pos (by omega), h2 x hx, List.getElem?_append_left hx, List.getElem?_eq_getElem hx]; rfl
  · rw [List.getElem?_append_right (by omega), (flatten_bytes b).2]
    simp only [ByteMap.fill]
    have := h3 (x - w.length)
    rw [show x - w.length + w.length = x by omega] at this
    rw [this]
    by_cases hy : x - w.length < b.lenBuf
    · rw [if_pos (by omega), if_pos hy]
    · rw [if_neg (by omega), if_neg hy]

/-- The 8 bytes in front of a root table at position `p`. -/
def header (p : Nat) : Bytes := putLE 4 (p + 8) ++ zeros 4

theorem header_length (p : Nat) : (header p).length = 8 := by simp [header, putLE_length, zeros]

theorem withHeader_eq (c : CNode) (h : c.inRoot = some false) :
    ∃ b', c.withHeader = some { c with io := b', pos := c.pos + 8 } ∧
      b'.flatten.bytes.data = header c.pos ++ c.io.flatten.bytes.data := by
  have hne : header c.pos ≠ [] := by intro hh; have := header_length c.pos; rw [hh] at this; simp at this
  obtain ⟨b', h1, h2, h3, h4⟩ := front_copy c.io (header c.pos) hne
  rw [header_length] at h1
  refine ⟨b', ?_, flatten_front h2 h3 h4⟩
  unfold CNode.withHeader
  rw [h]
  simp only [Option.bind_eq_bind, Option.bind_some, Bool.false_eq_true, if_false]
  have : c.io.copyI (Base.new ⟨putLE 4 (c.pos + 8) ++ zeros 4, []⟩) 0 8 0 8 = some b' := h1
  rw [this]
  rfl

theorem R_flatten (b : Base) : (b.flatten.R 0).data = b.flatten.bytes.data := by
  rw [R_data]
  rw [writerR_uncovered (by rfl) (Nat.zero_le _)]
  have : b.flatten.stop 0 = b.flatten.bytes.len := rfl
  rw [this]
  simp [Slice.len]

/-- A cell is found in the flattened buffer. -/
theorem holds_flattened {b : Base} {x : Nat} {w : Bytes} (h : Holds b x w) :
    x + w.length ≤ b.flatten.bytes.data.length ∧ ∀ k, k < w.length → b.flatten.bytes.data[x + k]? = w[k]? := by
  have h1 : ∀ k, k < w.length → b.flatten.bytes.data[x + k]? = w[k]? := by
    intro k hk
    have hs := h.2.2 k hk
    rw [(flatten_bytes b).2]
    simp only [ByteMap.fill]
    have hlt : x + k < b.lenBuf := by
      apply Nat.lt_of_not_le
      intro hh
      rw [content_none_of_ge b _ hh, List.getElem?_eq_getElem hk] at hs
      cases hs
    rw [if_pos hlt, hs, List.getElem?_eq_getElem hk]; rfl
  refine ⟨?_, h1⟩
  have hl : 0 < w.length := List.length_pos_iff.mpr h.1
  have := h1 (w.length - 1) (by omega)
  rw [List.getElem?_eq_getElem (show w.length - 1 < w.length by omega)] at this
  have := (List.getElem?_eq_some_iff.mp this).1
  omega

end Fbs
