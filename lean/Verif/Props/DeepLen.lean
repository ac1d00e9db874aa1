import Verif.Props.Deep
import Verif.Props.Len
/-!
# `Len` of values of any depth: C92
-/

namespace Fbs.Props
open Fbs CNode

/-- Specification: the bytes the value needs: header, virtual table, data. -/
def Val.bytes (s : Sch) (v : Val) : Nat := 8 + (4 + 2 * (s.fields v.name).length) + v.data s

/-- C92: `Len` of a saved value is the number of bytes its contents need, rounded up to a multiple of 8.  The message
has these bytes and at most as many more as the last table stored in the root has. -/
theorem len_deep_partial (s : Sch) (F : Nat) (v : Val) (h : v.Fits s (F + 1)) (hF : v.need ≤ F) (sp : Bytes) :
    ∃ c d r, v.node s (F + 1) = some c ∧ c.finish = some d ∧ openByBuf v.name ⟨d, sp⟩ = some r ∧
      (∀ k, v.need ≤ k → r.len s k = some ((Fb.alignUp (v.bytes s) 8 : Nat) : Int)) ∧
      v.bytes s ≤ d.length ∧ d.length ≤ v.bytes s + v.spare s := by
  obtain ⟨c, w, hg⟩ := val_good s F v h hF
  have hp := hg.pos
  obtain ⟨hfin, hH, hroot, tl, ho⟩ := hg.saved sp
  have hl := hg.len
  refine ⟨c, _, _, hg.node, hfin, ho, ?_, ?_, ?_⟩
  · intro k hk
    have hi := hg.self.info _ 8 (hH sp) k hk { name := v.name, io := Base.new ⟨header c.pos ++ c.io.flatten.bytes.data, sp⟩, pos := rootPos (header c.pos ++ c.io.flatten.bytes.data), tlen := tl }
      rfl rfl (by show rootPos _ = _; rw [hroot, hp])
    refine len_rounds s _ _ _ hi _ ?_
    unfold Val.bytes
    simp only
    omega
  · have hm := hg.self.mpos
    have hs := holdsC_spells (hg.held) (w.flatten.length - 1) (by rw [tot_flatten]; omega)
    rw [Nat.zero_add] at hs
    have hlt : w.flatten.length - 1 < c.io.lenBuf := by
      apply Nat.lt_of_not_le
      intro hle
      rw [content_none_of_ge _ _ hle, List.getElem?_eq_getElem (by rw [tot_flatten]; omega)] at hs
      cases hs
    rw [tot_flatten] at hlt
    rw [List.length_append, header_length, (flatten_bytes c.io).1]
    unfold Val.bytes
    omega
  · have := hg.room
    rw [List.length_append, header_length, (flatten_bytes c.io).1]
    unfold Val.bytes
    omega

/-- C92 for values whose root holds no table or union member: `Len` is the number of bytes, rounded up. -/
theorem len_exact_partial (s : Sch) (F : Nat) (v : Val) (h : v.Fits s (F + 1)) (hF : v.need ≤ F) (hv : v.spare s = 0) (sp : Bytes) :
    ∃ c d r, v.node s (F + 1) = some c ∧ c.finish = some d ∧ openByBuf v.name ⟨d, sp⟩ = some r ∧
      ∀ k, v.need ≤ k → r.len s k = some ((Fb.alignUp d.length 8 : Nat) : Int) := by
  obtain ⟨c, d, r, h1, h2, h3, h4, h5, h6⟩ := len_deep_partial s F v h hF sp
  refine ⟨c, d, r, h1, h2, h3, ?_⟩
  rw [show d.length = v.bytes s by omega]
  exact h4

/-- C92 is violated: a root holding a table of 25 bytes is a message of 85 bytes, of which 60 are used; room for the
table was made twice.  `Len` is 64. -/
theorem len_room_fails :
    (do let c ← (deepEnd [1, 2, 3]).node deepSch 9
        let d ← c.finish
        let r ← openByBuf "NN".toList ⟨d, []⟩
        return (d.length, d.drop 60, ← r.len deepSch 9)) = some (85, zeros 25, 64) := by decide +kernel

/-- Non-vacuity. -/
example (n : Nat) (bs : Bytes) (hb : bs.length < 4294967296) :=
  len_deep_partial deepSch _ _ (deepChain_fits _ bs hb n).1 (Nat.le_refl _) []
example := len_exact_partial deepSch 29 _ (deepTree_fits 29) (by decide) rfl []
example : (do let c ← (deepTree [65, 66] 3).node deepSch 30
              let d ← c.finish
              let r ← openByBuf "NN".toList ⟨d, []⟩
              return (d.length, ← r.len deepSch 30)) = some (226, 232) := by decide +kernel

end Fbs.Props
