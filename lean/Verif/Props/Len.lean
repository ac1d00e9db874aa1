import Verif.Props.Split
import Verif.Props.GenAcc
import Verif.Props.Info
/-!
# Properties of `Len` (C92) and of the vtable read by the inspection (C63)
-/

namespace Fbs.Props
open Fbs Fbs.CNode Fbs.Inspect

/-! ## C92: the length of a message -/

/-- C92: `Len` is the extent (position plus size of the root table) rounded up to a multiple of 8. -/
theorem len_rounds (s : Sch) (fuel : Nat) (c : CNode) (i : VInfo) (h : infoF s fuel (some c) = some i) (n : Nat)
    (hn : i.pos + i.size = n) : c.len s fuel = some ((Fb.alignUp n 8 : Nat) : Int) := by
  unfold CNode.len
  rw [h]
  simp only [Option.bind_eq_bind, Option.bind_some, hn]
  rw [show (n : Int).tmod 8 = ((n % 8 : Nat) : Int) by rw [Int.tmod_eq_emod_of_nonneg (by omega)]; omega]
  unfold Fb.alignUp
  split <;> simp only [pure, Option.some.injEq] <;> omega

/-- C92 for finished messages of tables with scalar and struct fields: `Len` of the opened message is the number
of its bytes, rounded up to a multiple of 8.  Missing: tables with variable-length or nested fields, absent scalars
wider than the data present (see `len_absent_fails`). -/
theorem len_message_partial (s : Sch) (t : Name) (hs : SmallTable s t) (hT : InlTab s t) (k : Nat) (ops : List Setting)
    (ho : TableOps s t ops) (sp : Bytes) :
    ∃ c d r, build s (k + 3) t ops = some c ∧ c.finish = some d ∧ openByBuf t ⟨d, sp⟩ = some r ∧
      r.len s (k + 3) = some ((Fb.alignUp d.length 8 : Nat) : Int) := by
  obtain ⟨g, hg, hgs⟩ := hs.notList
  obtain ⟨c0, h0, r0⟩ := init_rep hs.ok hg hgs
  obtain ⟨c, h1, r1⟩ := inline_run hs.ok (k + 2) r0 ops ho.src
  simp only [Option.or_none] at r1
  have hne : ∃ i, i < (s.fields t).length ∧ lastSet ops i ≠ none := by
    cases hops : ops with
    | nil => exact absurd hops ho.some_
    | cons o l =>
      have hm : o ∈ ops := by rw [hops]; exact List.mem_cons_self ..
      obtain ⟨fd, hfd, -⟩ := ho.src o hm
      exact ⟨o.field, (List.getElem?_eq_some_iff.mp hfd).1, by rw [← hops]; exact lastSet_mem hm⟩
  obtain ⟨vo, hp, h2, -⟩ := rep_merged hT r1 hne ho.wide
  have hfin := finish_eq (rep_inRoot r1)
  obtain ⟨w1, -⟩ := rep_wire r1 (header c.pos)
  rw [header_length, ← rep_rootPos r1] at w1
  obtain ⟨tl, h9⟩ := open_wire t w1 sp
  refine ⟨c, _, _, by unfold build; rw [h0]; exact h1, hfin, h9, ?_⟩
  have hlen := h2.self.len
  simp only [tot, List.map_cons, List.map_nil, List.sum_cons, List.sum_nil, Nat.add_zero] at hlen
  have hpos := h2.self.mpos
  simp only at hpos hlen
  have hi := h2.self.info (Base.new ⟨header c.pos ++ c.io.flatten.bytes.data, sp⟩) 8 (by
    intro q hq
    simp only [cellsAt, List.mem_cons, List.not_mem_nil, or_false] at hq
    subst hq
    refine holds_flat (by intro h; have h' : c.io.flatten.bytes.data = [] := h; rw [h'] at hlen; simp at hlen; omega) ?_ ?_
    · intro j hj
      show (header c.pos ++ c.io.flatten.bytes.data)[8 + j]? = _
      rw [List.getElem?_append_right (by rw [header_length]; omega), header_length]
      congr 1; omega
    · rw [List.length_append, header_length]; exact Nat.le_refl _)
    (k + 3) (by omega) { name := t, io := Base.new ⟨header c.pos ++ c.io.flatten.bytes.data, sp⟩, pos := rootPos (header c.pos ++ c.io.flatten.bytes.data), tlen := tl }
    rfl rfl (by show rootPos _ = _; rw [rep_rootPos r1, hp])
  refine len_rounds s _ _ _ hi _ ?_
  rw [List.length_append, header_length]
  simp only at hi ⊢
  omega

/-- Non-vacuity: a message of 28 bytes has `Len` 32. -/
example : (do let c ← build nestSch 9 "TT".toList nestSub
              let d ← c.finish
              let r ← openByBuf "TT".toList ⟨d, []⟩
              return (d.length, ← r.len nestSch 9)) = some (28, 32) := by decide +kernel
example := len_message_partial nestSch "TT".toList nest_TT nest_inl 6 nestSub nest_ops []

/-- Table `WW { a: byte; b: int16; c: int64; }`. -/
def wideSch : Sch where
  fields := fun n => if n = "WW".toList then [⟨"Byte".toList, ftBasic1, some .byte⟩, ⟨"Int16".toList, ftBasic2, some .int16⟩,
    ⟨"Int64".toList, ftBasic8, some .int64⟩] else []
  unions := fun _ => none

/-- C92 is violated: a message of 23 bytes with only the byte set has `Len` 32, because the absent `int64` counts
as eight bytes at the start of the table. -/
theorem len_absent_fails :
    (do let c ← build wideSch 9 "WW".toList [⟨0, fromScalar "Byte".toList 1 7, putLE 1 7⟩]
        let d ← c.finish
        let r ← openByBuf "WW".toList ⟨d, []⟩
        return (d.length, ← r.len wideSch 9)) = some (23, 32) := by decide +kernel

/-! ## C63: the vtable -/

theorem rd_eq {buf : Bytes} {k p : Nat} (h : p + k ≤ buf.length) : getLE k (buf.drop p) = some (Fb.le buf k p) := by
  unfold getLE Fb.le
  rw [if_pos (by rw [List.length_drop]; omega)]

theorem rd_none {buf : Bytes} {k p : Nat} (hk : 0 < k) (h : buf.length < p + k) : getLE k (buf.drop p) = none := by
  unfold getLE
  rw [if_neg (by rw [List.length_drop]; omega)]

theorem rdEntries_eq (buf : Bytes) : ∀ (n cur : Nat), cur + 2 * n ≤ buf.length →
    rdEntries buf cur n = some ((List.range n).map fun i => Fb.le buf 2 (cur + 2 * i)) := by
  intro n
  induction n with
  | zero => intro cur _; rfl
  | succ n ih =>
    intro cur h
    unfold rdEntries rd16
    rw [rd_eq (by omega), ih (cur + 2) (by omega)]
    simp only [Option.bind_eq_bind, Option.bind_some, pure, Option.some.injEq]
    rw [List.range_succ_eq_map, List.map_cons, List.map_map]
    congr 1
    apply List.map_congr_left
    intro i _
    simp only [Function.comp]
    congr 1; omega

/-- `fetchVtable` with the position behind the table's offset made explicit. -/
def fetchFrom (buf : Bytes) (top q : Nat) : Go (List Nat) :=
  (rd32 buf top).bind fun vOffset =>
  (rd32 buf q).bind fun sOffset =>
  (if sOffset < buf.length then rd32 buf sOffset else some 0).bind fun _ =>
  (rd16 buf ((top + M32 - vOffset) % M32)).bind fun vLen =>
  (rd16 buf ((top + M32 - vOffset) % M32 + 2)).bind fun _ =>
  rdEntries buf ((top + M32 - vOffset) % M32 + 4) ((vLen - 3) / 2)

theorem fetchVtable_at (buf : Bytes) (top : Nat) : fetchVtable buf top = fetchFrom buf top ((top + 4) % M32) := by
  unfold fetchVtable fetchFrom
  refine congrArg (Option.bind _) (funext fun vOffset => congrArg (Option.bind _) (funext fun sOffset => ?_))
  split <;> rfl

/-- C63: the vtable entries the inspection works with are those of the wire format; it gets them exactly when the
table is followed by four more bytes which, taken as a position, are not one of the last three of the buffer. -/
theorem info_vtable (buf : Bytes) (t : Nat) (hb : buf.length < 4294967296) (h : Fb.TableOk buf t) :
    fetchVtable buf t = if t + 8 ≤ buf.length ∧ (Fb.le buf 4 (t + 4) + 4 ≤ buf.length ∨ buf.length ≤ Fb.le buf 4 (t + 4)) then
      some ((List.range ((Fb.vtableLen buf t - 4) / 2)).map fun i => Fb.le buf 2 ((Fb.vtablePos buf t).toNat + 4 + 2 * i))
    else none := by
  obtain ⟨h1, h2, h3, h4, h5, h6⟩ := h
  have hle : ∀ p, Fb.le buf 4 p < 4294967296 := by
    intro p
    unfold Fb.le
    have := leVal_lt ((buf.drop p).take 4)
    have hl : ((buf.drop p).take 4).length ≤ 4 := by rw [List.length_take]; omega
    have : 256 ^ ((buf.drop p).take 4).length ≤ 256 ^ 4 := Nat.pow_le_pow_right (by omega) hl
    omega
  have hv : (t + M32 - Fb.le buf 4 t) % M32 = (Fb.vtablePos buf t).toNat := by
    have := hle t
    unfold Fb.vtablePos Fb.soffset at h2 h3 ⊢
    unfold M32
    split at h2
    · rename_i hc; rw [if_pos hc] at h3 ⊢; omega
    · rename_i hc; rw [if_neg hc] at h3 ⊢; omega
  have ht : (t + 4) % M32 = t + 4 := by unfold M32; omega
  have e0 : rd32 buf t = some (Fb.le buf 4 t) := rd_eq h1
  rw [fetchVtable_at, ht]
  unfold fetchFrom
  rw [e0, Option.bind_some, hv]
  unfold rd32 rd16
  by_cases g1 : t + 8 ≤ buf.length
  · rw [rd_eq (by omega)]
    simp only [Option.bind_some]
    by_cases g2 : Fb.le buf 4 (t + 4) < buf.length
    · rw [if_pos g2]
      by_cases g3 : Fb.le buf 4 (t + 4) + 4 ≤ buf.length
      · rw [rd_eq g3, if_pos ⟨g1, Or.inl g3⟩, Option.bind_some, rd_eq (by omega), Option.bind_some, rd_eq (by omega), Option.bind_some]
        have e : (Fb.le buf 2 (Fb.vtablePos buf t).toNat - 3) / 2 = (Fb.vtableLen buf t - 4) / 2 := by
          unfold Fb.vtableLen at h4 h5 ⊢; omega
        rw [e, rdEntries_eq _ _ _ (by omega)]
      · rw [rd_none (by omega) (by omega), if_neg (by omega)]; rfl
    · rw [if_neg g2, if_pos ⟨g1, Or.inr (by omega)⟩, Option.bind_some, rd_eq (by omega), Option.bind_some, rd_eq (by omega), Option.bind_some]
      have e : (Fb.le buf 2 (Fb.vtablePos buf t).toNat - 3) / 2 = (Fb.vtableLen buf t - 4) / 2 := by
        unfold Fb.vtableLen at h4 h5 ⊢; omega
      rw [e, rdEntries_eq _ _ _ (by omega)]
  · rw [rd_none (by omega) (by omega), if_neg (by omega)]; rfl

/-- C63 is violated: whether the inspection of the 28 bytes long message of a `TT` panics depends on the value of its
`int64`. -/
theorem info_value_fails :
    ([25, 24].map fun v => (do
        let c ← build nestSch 9 "TT".toList [⟨1, fromScalar "Int64".toList 8 v, putLE 8 v⟩]
        let d ← c.finish
        return (getFbsRootInfo d d.length (fun _ l => l) [.mk 2 false [], .mk 8 false []]).map Info.length)) =
      [some none, some (some 28)] := by decide +kernel

end Fbs.Props
