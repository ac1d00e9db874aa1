import Verif.Message
import Verif.Props.Node
import Verif.Props.TableNest
/-!
# Finished messages: C81, C82

A table built by the API is finished by `WithHeader`, `Flatten`, `R(0)`.  The bytes are a flatbuffers message
(wire format of `FbSpec`) that holds the values set (C81), and opening them gives the values back (C82).
-/

namespace Fbs.Props
open Fbs CNode

/-! ## specification -/

/-- The bytes `w` are found at position `p` of the message. -/
def Spelt (d : Bytes) (p : Nat) (w : Bytes) : Prop := p + w.length ≤ d.length ∧ (d.drop p).take w.length = w

/-- Field `i` of the table at `t` of the message is absent (`none`) or has the inline bytes `v`. -/
def WireField (d : Bytes) (t i : Nat) : Option Bytes → Prop
  | none => Fb.fieldPos d t i = none
  | some w => ∃ p, Fb.fieldPos d t i = some p ∧ Spelt d p w

/-- A table with its own vtable of `n` slots in front of it. -/
def WireTable (d : Bytes) (t n : Nat) : Prop :=
  Fb.TableOk d t ∧ 0 ≤ Fb.soffset d t ∧ Fb.vtableLen d t = 4 + 2 * n

/-- The position of the root table. -/
def rootPos (d : Bytes) : Nat := Fb.le d 4 0

/-! ## from cells to the wire format -/

theorem le_spelt {d : Bytes} {p k v : Nat} (h : Spelt d p (putLE k v)) : Fb.le d k p = v % 256 ^ k := by
  have h2 := h.2
  rw [putLE_length] at h2
  unfold Fb.le
  rw [h2, leVal_putLE]

theorem spelt_append {d : Bytes} {p : Nat} {a b : Bytes} (h : Spelt d p (a ++ b)) : Spelt d p a ∧ Spelt d (p + a.length) b := by
  obtain ⟨h1, h2⟩ := h
  rw [List.length_append] at h1 h2
  refine ⟨⟨by omega, ?_⟩, ⟨by omega, ?_⟩⟩
  · have := congrArg (List.take a.length) h2
    rwa [List.take_take, Nat.min_eq_left (by omega), List.take_left] at this
  · have := congrArg (List.drop a.length) h2
    rwa [List.drop_take, List.drop_drop, List.drop_left, Nat.add_sub_cancel_left] at this

/-- The cells of a table with `n` slots at position `x`. -/
structure TabAt (b : Base) (x n : Nat) (vo : Nat → Nat) : Prop where
  hp : 4 + 2 * n < 65536
  vl : Holds b x (putLE 2 (4 + 2 * n))
  soff : Holds b (x + (4 + 2 * n)) (putLE 4 (4 + 2 * n))
  slot : ∀ i, i < n → vo i < 65536 ∧ Holds b (x + (4 + 2 * i)) (putLE 2 (vo i))

theorem spelt_of {b : Base} {x : Nat} {w h : Bytes} (hw : Holds b x w) : Spelt (h ++ b.flatten.bytes.data) (h.length + x) w := by
  obtain ⟨h1, h2⟩ := holds_flattened hw
  refine ⟨by rw [List.length_append]; omega, ?_⟩
  rw [List.drop_append, List.drop_eq_nil_of_le (by omega), show h.length + x - h.length = x by omega, List.nil_append]
  apply List.ext_getElem?
  intro k
  rw [List.getElem?_take]
  by_cases hk : k < w.length
  · rw [if_pos hk, List.getElem?_drop, h2 k hk]
  · rw [if_neg hk, List.getElem?_eq_none (by omega)]

theorem wire_of {b : Base} {x n : Nat} {vo : Nat → Nat} (h : TabAt b x n vo) (hd : Bytes) :
    WireTable (hd ++ b.flatten.bytes.data) (hd.length + x + (4 + 2 * n)) n ∧
    ∀ i, i < n → Fb.fieldPos (hd ++ b.flatten.bytes.data) (hd.length + x + (4 + 2 * n)) i =
      if vo i = 0 then none else some (hd.length + x + (4 + 2 * n) + vo i) := by
  have hp := h.hp
  have s1 := spelt_of (h := hd) h.vl
  have s2 := spelt_of (h := hd) h.soff
  rw [← Nat.add_assoc] at s2
  have l1 := le_spelt s1
  have l2 := le_spelt s2
  rw [Nat.mod_eq_of_lt (by omega)] at l1 l2
  have b1 := s1.1
  have b2 := s2.1
  rw [putLE_length] at b1 b2
  have hso : Fb.soffset (hd ++ b.flatten.bytes.data) (hd.length + x + (4 + 2 * n)) = ((4 + 2 * n : Nat) : Int) := by
    unfold Fb.soffset
    rw [l2, if_pos (by omega)]
  have hvp : Fb.vtablePos (hd ++ b.flatten.bytes.data) (hd.length + x + (4 + 2 * n)) = ((hd.length + x : Nat) : Int) := by
    unfold Fb.vtablePos
    rw [hso]; omega
  have hvl : Fb.vtableLen (hd ++ b.flatten.bytes.data) (hd.length + x + (4 + 2 * n)) = 4 + 2 * n := by
    unfold Fb.vtableLen
    rw [hvp, Int.toNat_natCast, l1]
  refine ⟨⟨⟨by omega, by rw [hvp]; omega, by rw [hvp, Int.toNat_natCast]; omega, by rw [hvl]; omega, by rw [hvl]; omega,
    by rw [hvp, hvl, Int.toNat_natCast]; omega⟩, by rw [hso]; omega, hvl⟩, ?_⟩
  intro i hi
  obtain ⟨h3, h4⟩ := h.slot i hi
  have s3 := spelt_of (h := hd) h4
  have l3 := le_spelt s3
  rw [Nat.mod_eq_of_lt (by omega)] at l3
  unfold Fb.fieldPos
  rw [hvl, if_pos (by omega), hvp, Int.toNat_natCast]
  simp only
  rw [Nat.add_assoc (hd.length + x), Nat.add_assoc hd.length, l3]

theorem TI_tabAt {nm : Name} {n t : Nat} {c : CNode} {vo : Nat → Nat} {fx : Nat → Option Bytes} (h : TI nm n c t vo fx) :
    TabAt c.io 0 n vo :=
  ⟨h.hp, h.vl, by rw [Nat.zero_add]; exact h.soff, fun i hi => ⟨h.vo_lt hi, by rw [Nat.zero_add]; exact h.slot i hi⟩⟩

theorem carries_tabAt {s : Sch} {t : Name} (hT : InlTab s t) {ps : List Bytes} {cur : Nat → Option Bytes} {vo : Nat → Nat}
    (h : Carries s t ps cur vo) {b : Base} {x : Nat} (hb : HoldsC b (cellsAt x ps)) : TabAt b x (s.fields t).length vo :=
  ⟨hT.sml, by simpa using h.tab.vl b x hb, h.tab.soff b x hb, fun i hi => ⟨(h.tab.slot i hi).1, (h.tab.slot i hi).2 b x hb⟩⟩

/-- The fields of a stored table in the message. -/
theorem carries_wire {s : Sch} {t : Name} (hT : InlTab s t) {ps : List Bytes} {cur : Nat → Option Bytes} {vo : Nat → Nat}
    (h : Carries s t ps cur vo) {b : Base} {x : Nat} (hb : HoldsC b (cellsAt x ps)) (hd : Bytes) :
    WireTable (hd ++ b.flatten.bytes.data) (hd.length + x + (4 + 2 * (s.fields t).length)) (s.fields t).length ∧
    ∀ i, i < (s.fields t).length →
      WireField (hd ++ b.flatten.bytes.data) (hd.length + x + (4 + 2 * (s.fields t).length)) i (cur i) := by
  obtain ⟨h1, h2⟩ := wire_of (carries_tabAt hT h hb) hd
  refine ⟨h1, ?_⟩
  intro i hi
  cases hc : cur i with
  | none => show Fb.fieldPos _ _ _ = none; rw [h2 i hi, if_pos (h.abs i hi hc)]
  | some w =>
    obtain ⟨g1, g2⟩ := h.fld i hi w hc
    refine ⟨hd.length + x + (4 + 2 * (s.fields t).length) + vo i, by rw [h2 i hi, if_neg g1], ?_⟩
    have := spelt_of (h := hd) (g2 b x hb)
    rwa [← Nat.add_assoc, ← Nat.add_assoc] at this

/-- The inline fields of a table built by the API in the message. -/
theorem rep_wire {cel : Prop} {s : Sch} {nm : Name} {c : CNode} {cur : Nat → Option Bytes} {vec : Option (Nat × TI.Tail)}
    (h : RepG cel s nm c cur vec) (hd : Bytes) :
    WireTable (hd ++ c.io.flatten.bytes.data) (hd.length + c.pos) (s.fields nm).length ∧
    ∀ i, i < (s.fields nm).length → (cur i ≠ none → ∃ fd, (s.fields nm)[i]? = some fd ∧ InlGrp fd.grp) →
      WireField (hd ++ c.io.flatten.bytes.data) (hd.length + c.pos) i (cur i) := by
  obtain ⟨t, vo, fx, hT, hV, hI, hN, hB, hW, ht, hCel, hsz⟩ := h.ex
  obtain ⟨h1, h2⟩ := wire_of (TI_tabAt hT) hd
  rw [Nat.add_zero, ← hT.pos] at h1 h2
  refine ⟨h1, ?_⟩
  intro i hi hgr
  have hfd : (s.fields nm)[i]? = some (s.fields nm)[i] := List.getElem?_eq_getElem hi
  cases hc : cur i with
  | none =>
    have hfx : fx i = none := by
      by_cases hg : InlGrp (s.fields nm)[i].grp
      · rw [hI i _ hfd hg, hc]
      · rcases hN i _ hfd hg with ⟨h1, -⟩ | ⟨d, -, h2⟩
        · exact h1
        · exact absurd hc h2
    show Fb.fieldPos _ _ _ = none
    rw [h2 i hi, if_pos (hT.abs i hi hfx)]
  | some w =>
    obtain ⟨fd, hfd', hg⟩ := hgr (by rw [hc]; simp)
    have hfx : fx i = some w := by rw [hI i _ hfd' hg, hc]
    obtain ⟨g1, g2, g3⟩ := hT.fld i hi w hfx
    refine ⟨hd.length + c.pos + vo i, by rw [h2 i hi, if_neg (by omega)], ?_⟩
    have := spelt_of (h := hd) g3
    rwa [← hT.pos, ← Nat.add_assoc] at this

/-- The bytes of a finished table that was not yet in a message. -/
theorem finish_eq {c : CNode} (h : c.inRoot = some false) : c.finish = some (header c.pos ++ c.io.flatten.bytes.data) := by
  obtain ⟨b', h1, h2⟩ := withHeader_eq c h
  unfold CNode.finish
  rw [h1]
  simp only [Option.bind_eq_bind, Option.bind_some, pure]
  rw [R_flatten, h2]

theorem rep_inRoot {cel : Prop} {s : Sch} {nm : Name} {c : CNode} {cur : Nat → Option Bytes} {vec : Option (Nat × TI.Tail)}
    (h : RepG cel s nm c cur vec) : c.inRoot = some false := by
  obtain ⟨t, vo, fx, hT, -⟩ := h.ex
  exact hT.inRoot

theorem rep_rootPos {cel : Prop} {s : Sch} {nm : Name} {c : CNode} {cur : Nat → Option Bytes} {vec : Option (Nat × TI.Tail)}
    (h : RepG cel s nm c cur vec) : rootPos (header c.pos ++ c.io.flatten.bytes.data) = 8 + c.pos := by
  obtain ⟨t, vo, fx, hT, -⟩ := h.ex
  unfold rootPos Fb.le header
  have hp := hT.hp
  rw [List.drop_zero, List.append_assoc, List.take_append_of_le_length (by rw [putLE_length]; exact Nat.le_refl _),
    List.take_of_length_le (by rw [putLE_length]; exact Nat.le_refl _), leVal_putLE, hT.pos, Nat.mod_eq_of_lt (by omega)]
  omega

/-- The variable-length field of a table built by the API in the message. -/
theorem rep_tail_wire {s : Sch} {nm : Name} {c : CNode} {cur : Nat → Option Bytes} {i : Nat} {r : TI.Tail}
    (h : Rep s nm c cur (some (i, r))) (hd : Bytes) :
    ∃ p e, Fb.fieldPos (hd ++ c.io.flatten.bytes.data) (hd.length + c.pos) i = some p ∧
      p + 4 ≤ (hd ++ c.io.flatten.bytes.data).length ∧ Fb.follow (hd ++ c.io.flatten.bytes.data) p = hd.length + e + r.gap ∧
      ∀ q ∈ r.cells, Holds c.io (e + q.1) q.2 := by
  obtain ⟨t, vo, fx, hT, hV, hI, hN, hB, hW, ht, hCel, hsz⟩ := h.ex
  obtain ⟨hi, hg, hfx, hH⟩ := hV
  obtain ⟨h1, h2⟩ := wire_of (TI_tabAt hT) hd
  rw [Nat.add_zero, ← hT.pos] at h1 h2
  obtain ⟨g1, g2, g3⟩ := hT.fld i hi _ hfx
  rw [putLE_length] at g2
  have htt := hT.ht
  have hs := spelt_of (h := hd) g3
  rw [← hT.pos, ← Nat.add_assoc] at hs
  refine ⟨hd.length + c.pos + vo i, c.pos + t, by rw [h2 i hi, if_neg (by omega)], ?_, ?_, ?_⟩
  · have := hs.1; rwa [putLE_length] at this
  · unfold Fb.follow
    rw [le_spelt hs, Nat.mod_eq_of_lt (by omega)]
    omega
  · rw [hT.pos]; exact hH

theorem lastSet_grp {s : Sch} {nm : Name} {ops : List Setting} (h : ∀ o ∈ ops, InlSrc s nm o.field o.node o.val) {i : Nat}
    (hi : i < (s.fields nm).length) (hv : lastSet ops i ≠ none) : ∃ fd, (s.fields nm)[i]? = some fd ∧ InlGrp fd.grp :=
  ⟨_, List.getElem?_eq_getElem hi, lastSet_src h hi hv⟩

/-! ## C81 the bytes are a message -/

/-- C81 for tables of scalars and structs: building, finishing and taking the bytes succeeds; the bytes are a
message of the wire format whose root table has exactly the fields set, with the values last set. -/
theorem message_scalars (s : Sch) (nm : Name) (hs : SmallTable s nm) (fuel : Nat) (ops : List Setting)
    (hops : ∀ o ∈ ops, InlSrc s nm o.field o.node o.val) :
    ∃ c d, build s (fuel + 1) nm ops = some c ∧ c.finish = some d ∧
      WireTable d (rootPos d) (s.fields nm).length ∧
      ∀ i, i < (s.fields nm).length → WireField d (rootPos d) i (lastSet ops i) := by
  obtain ⟨g, hg, hgs⟩ := hs.notList
  obtain ⟨c0, h0, r0⟩ := init_rep hs.ok hg hgs
  obtain ⟨c, h1, r1⟩ := inline_run hs.ok fuel r0 ops hops
  simp only [Option.or_none] at r1
  obtain ⟨w1, w2⟩ := rep_wire r1 (header c.pos)
  rw [header_length] at w1 w2
  refine ⟨c, _, by unfold build; rw [h0]; exact h1, finish_eq (rep_inRoot r1), ?_, ?_⟩
  · rw [rep_rootPos r1]; exact w1
  · intro i hi
    rw [rep_rootPos r1]
    exact w2 i hi (lastSet_grp hops hi)

/-- C81 with one byte vector (or string) among the settings. -/
theorem message_vector_partial (s : Sch) (nm : Name) (hs : SmallTable s nm) (fuel : Nat) (pre post : List Setting)
    (o : Setting) (hpre : ∀ o ∈ pre, InlSrc s nm o.field o.node o.val)
    (hpost : ∀ o ∈ post, InlSrc s nm o.field o.node o.val)
    (ho : VecSrc s (fuel + 1) nm o.field o.node o.val) (hlen : o.val.length < 4294967296) :
    ∃ c d p, build s (fuel + 1) nm (pre ++ o :: post) = some c ∧ c.finish = some d ∧
      WireTable d (rootPos d) (s.fields nm).length ∧
      Fb.fieldPos d (rootPos d) o.field = some p ∧ Fb.BytesOk d p ∧ Fb.bytesAt d p = o.val ∧
      ∀ i, i < (s.fields nm).length → i ≠ o.field → WireField d (rootPos d) i (lastSet (pre ++ post) i) := by
  obtain ⟨g, hg, hgs⟩ := hs.notList
  obtain ⟨c0, h0, r0⟩ := init_rep hs.ok hg hgs
  obtain ⟨c1, h1, r1⟩ := inline_run hs.ok fuel r0 pre hpre
  obtain ⟨c2, h2, r2⟩ := set_vector hs.ok (fuel := fuel + 1) r1 ho
  obtain ⟨c3, h3, r3⟩ := inline_run hs.ok fuel r2 post hpost
  obtain ⟨w1, w2⟩ := rep_wire r3 (header c3.pos)
  obtain ⟨p, e, p1, p2, p3, p4⟩ := rep_tail_wire r3 (header c3.pos)
  rw [header_length] at w1 w2 p1
  have p4 := spelt_of (h := header c3.pos) (p4 (0, putLE 4 o.val.length ++ o.val) (by simp [vecTail]))
  simp only [Nat.add_zero] at p4
  simp only [vecTail, Nat.add_zero] at p3
  obtain ⟨⟨q1, q2⟩, q3, q4⟩ := spelt_append p4
  rw [putLE_length] at q1 q2 q3 q4
  have hvl : Fb.le (header c3.pos ++ c3.io.flatten.bytes.data) 4 (Fb.follow (header c3.pos ++ c3.io.flatten.bytes.data) p) = o.val.length := by
    rw [p3]
    unfold Fb.le
    rw [q2, leVal_putLE, Nat.mod_eq_of_lt (by omega)]
  refine ⟨c3, _, p, ?_, finish_eq (rep_inRoot r3), ?_, ?_, ⟨p2, ?_⟩, ?_, ?_⟩
  · unfold build
    rw [h0]
    show runSets s (fuel + 1) c0 _ = _
    rw [runSets_append, h1]
    simp only [Option.bind_some, runSets, h2]
    exact h3
  · rw [rep_rootPos r3]; exact w1
  · rw [rep_rootPos r3]; exact p1
  · rw [hvl, p3]; omega
  · unfold Fb.bytesAt
    rw [hvl, p3]
    exact q4
  · intro i hi hne
    have hcur : (lastSet post i).or (if i = o.field then some o.val else (lastSet pre i).or none) = lastSet (pre ++ post) i := by
      simp only [if_neg hne, Option.or_none]
      rw [lastSet_append]
    have hall : ∀ o ∈ pre ++ post, InlSrc s nm o.field o.node o.val := by
      intro o ho
      rcases List.mem_append.mp ho with h | h
      · exact hpre o h
      · exact hpost o h
    have := w2 i hi
    rw [hcur] at this
    rw [rep_rootPos r3]
    exact this (lastSet_grp hall hi)

/-- A finished table with a table stored in field `i`. -/
theorem nest_message {s : Sch} {nm t : Name} (hT : InlTab s t) {c : CNode} {ps : List Bytes} {cur sub : Nat → Option Bytes} {vo : Nat → Nat}
    {i : Nat} {pre post : List Setting} (hpre : ∀ o ∈ pre, InlSrc s nm o.field o.node o.val)
    (hpost : ∀ o ∈ post, InlSrc s nm o.field o.node o.val) (b3 : Carries s t ps sub vo)
    (r : Rep s nm c cur (some (i, tabTail (4 + 2 * (s.fields t).length) ps)))
    (hcur : ∀ j, j ≠ i → cur j = lastSet (pre ++ post) j) :
    ∃ d p, c.finish = some d ∧ WireTable d (rootPos d) (s.fields nm).length ∧
      Fb.fieldPos d (rootPos d) i = some p ∧ p + 4 ≤ d.length ∧
      WireTable d (Fb.follow d p) (s.fields t).length ∧
      (∀ j, j < (s.fields t).length → WireField d (Fb.follow d p) j (sub j)) ∧
      ∀ j, j < (s.fields nm).length → j ≠ i → WireField d (rootPos d) j (lastSet (pre ++ post) j) := by
  obtain ⟨w1, w2⟩ := rep_wire r (header c.pos)
  obtain ⟨p, e, p1, p2, p3, p4⟩ := rep_tail_wire r (header c.pos)
  rw [header_length] at w1 w2 p1
  have hps : HoldsC c.io (cellsAt e ps) := by
    intro q hq
    have := cellsAt_shift 0 e ps
    rw [Nat.zero_add] at this
    rw [this, List.mem_map] at hq
    obtain ⟨q', hq', rfl⟩ := hq
    have := p4 q' hq'
    rw [Nat.add_comm] at this
    exact this
  obtain ⟨k1, k2⟩ := carries_wire hT b3 hps (header c.pos)
  simp only [tabTail] at p3
  rw [← p3] at k1 k2
  refine ⟨_, p, finish_eq (rep_inRoot r), ?_, ?_, p2, k1, k2, ?_⟩
  · rw [rep_rootPos r]; exact w1
  · rw [rep_rootPos r]; exact p1
  · intro j hj hne
    have hall : ∀ o ∈ pre ++ post, InlSrc s nm o.field o.node o.val := by
      intro o ho
      rcases List.mem_append.mp ho with h | h
      · exact hpre o h
      · exact hpost o h
    have := w2 j hj
    rw [hcur j hne] at this
    rw [rep_rootPos r]
    exact this (lastSet_grp hall hj)

/-- C81 with one table-valued field among the settings. -/
theorem message_table_partial (s : Sch) (nm t : Name) (hs : SmallTable s nm) (hst : SmallTable s t) (hT : InlTab s t) (k i : Nat)
    (fd : FieldT) (hfd : (s.fields nm)[i]? = some fd) (hg : fd.grp = ftTable) (hn : t = fd.tname)
    (sub pre post : List Setting) (hsub : TableOps s t sub)
    (hpre : ∀ o ∈ pre, InlSrc s nm o.field o.node o.val) (hpost : ∀ o ∈ post, InlSrc s nm o.field o.node o.val) :
    ∃ f c d p, build s (k + 3) t sub = some f ∧ build s (k + 3) nm (pre ++ ⟨i, f, []⟩ :: post) = some c ∧ c.finish = some d ∧
      WireTable d (rootPos d) (s.fields nm).length ∧ Fb.fieldPos d (rootPos d) i = some p ∧ p + 4 ≤ d.length ∧
      WireTable d (Fb.follow d p) (s.fields t).length ∧
      (∀ j, j < (s.fields t).length → WireField d (Fb.follow d p) j (lastSet sub j)) ∧
      ∀ j, j < (s.fields nm).length → j ≠ i → WireField d (rootPos d) j (lastSet (pre ++ post) j) := by
  obtain ⟨f, c, ps, vo, cur, b1, b2, b3, b4, r, hcur⟩ := nest_run hs hst hT k i fd hfd (Or.inl hg) (Or.inl hn) sub pre post hsub hpre hpost
    (table_info_absent hs hfd hg)
  obtain ⟨d, p, h⟩ := nest_message hT hpre hpost b3 r hcur
  exact ⟨f, c, d, p, b1, b2, h⟩

/-- C81 with one union-valued field among the settings: the message has the value; its tag is the scalar field
in front of it. -/
theorem message_union_partial (s : Sch) (nm t : Name) (hs : SmallTable s nm) (hst : SmallTable s t) (hT : InlTab s t) (k i : Nat)
    (fd td : FieldT) (hfd : (s.fields nm)[i + 1]? = some fd) (hg : fd.grp = ftUnion)
    (htd : (s.fields nm)[i]? = some td) (htg : td.grp = ftBasic1) (hmem : t ∈ (s.unions fd.tname).getD [])
    (sub pre post : List Setting) (hsub : TableOps s t sub)
    (hpre : ∀ o ∈ pre, InlSrc s nm o.field o.node o.val) (hpost : ∀ o ∈ post, InlSrc s nm o.field o.node o.val)
    (hold : ∀ w, lastSet pre i = some w → ∃ v, w = [v] ∧ v.toNat ≤ ((s.unions fd.tname).getD []).length) :
    ∃ f c d p, build s (k + 3) t sub = some f ∧ build s (k + 3) nm (pre ++ ⟨i + 1, f, []⟩ :: post) = some c ∧ c.finish = some d ∧
      WireTable d (rootPos d) (s.fields nm).length ∧ Fb.fieldPos d (rootPos d) (i + 1) = some p ∧ p + 4 ≤ d.length ∧
      WireTable d (Fb.follow d p) (s.fields t).length ∧
      (∀ j, j < (s.fields t).length → WireField d (Fb.follow d p) j (lastSet sub j)) ∧
      ∀ j, j < (s.fields nm).length → j ≠ i + 1 → WireField d (rootPos d) j (lastSet (pre ++ post) j) := by
  obtain ⟨f, c, ps, vo, cur, b1, b2, b3, b4, r, hcur⟩ := nest_run hs hst hT k (i + 1) fd hfd (Or.inr hg)
    (Or.inr ⟨hg, hmem⟩) sub pre post hsub hpre hpost (union_info_absent hs hfd hg htd htg hold)
  obtain ⟨d, p, h⟩ := nest_message hT hpre hpost b3 r hcur
  exact ⟨f, c, d, p, b1, b2, h⟩

/-! ## C82 opening the bytes -/

theorem newNode_wire (nm : Name) {d : Bytes} {t n : Nat} (h : WireTable d t n) (sp : Bytes) :
    ∃ tl, CNode.newNode nm (Base.new ⟨d, sp⟩) t = some { name := nm, io := Base.new ⟨d, sp⟩, pos := t, tlen := tl } := by
  obtain ⟨r, h1, h2, h3, h4⟩ := own_vtable_partial nm ⟨d, sp⟩ t h.1 h.2.1
  unfold CNode.newNode at h1 ⊢
  cases hp : CNode.preLoad (Base.new ⟨d, sp⟩) t with
  | none => rw [hp] at h1; cases h1
  | some tl => exact ⟨tl, rfl⟩

theorem open_wire (nm : Name) {d : Bytes} {n : Nat} (h : WireTable d (rootPos d) n) (sp : Bytes) :
    ∃ tl, CNode.openByBuf nm ⟨d, sp⟩ = some { name := nm, io := Base.new ⟨d, sp⟩, pos := rootPos d, tlen := tl } := by
  obtain ⟨tl, h1⟩ := newNode_wire nm h sp
  refine ⟨tl, ?_⟩
  unfold CNode.openByBuf
  have h4 : 4 ≤ d.length := by have := h.1.1; omega
  have : getLE 4 d = some (rootPos d) := by
    unfold getLE rootPos Fb.le
    rw [if_pos h4, List.drop_zero]
  simp only
  rw [this]
  exact h1

/-- A scalar or struct field of a table of the wire format. -/
theorem wire_read {s : Sch} {nm : Name} (hst : s.isStruct nm = false) {d : Bytes} {t i : Nat} (h : WireTable d t (s.fields nm).length)
    (hi : i < (s.fields nm).length) {v : Option Bytes} (hv : v ≠ none → InlGrp ((s.fields nm)[i]).grp) (hne : v ≠ some [])
    (hw : WireField d t i v) (sp : Bytes) (tl : Nat) :
    FieldRead s nm { name := nm, io := Base.new ⟨d, sp⟩, pos := t, tlen := tl } i v := by
  obtain ⟨g1, g2⟩ := slot_access nm ⟨d, sp⟩ t i h.1 h.2.1 (by rw [h.2.2]; omega)
  have e1 : CNode.vtab { name := nm, io := Base.new ⟨d, sp⟩, pos := t, tlen := tl } i = some ((Fb.fieldPos d t i).getD t) := g1
  have e2 : CNode.isZero { name := nm, io := Base.new ⟨d, sp⟩, pos := t, tlen := tl } i = some (Fb.fieldPos d t i).isNone := g2
  have hfi : (s.fields nm)[i]? = some (s.fields nm)[i] := List.getElem?_eq_getElem hi
  constructor
  · rintro rfl
    have hw : Fb.fieldPos d t i = none := hw
    unfold CNode.fieldAt
    rw [e2, hw]
    simp only [hst]
    rfl
  · rintro w rfl
    obtain ⟨p, hp, hs1, hs2⟩ := hw
    rw [hp] at e1 e2
    have hg := hv (by simp)
    have hH : Holds (Base.new ⟨d, sp⟩) p w := by
      refine holds_flat (fun hh => hne (by rw [hh])) ?_ hs1
      intro k hk
      have := congrArg (fun l : Bytes => l[k]?) hs2
      simpa [List.getElem?_take, List.getElem?_drop, hk] using this
    have hft : CNode.fieldT s { name := nm, io := Base.new ⟨d, sp⟩, pos := t, tlen := tl } (i : Int) = (s.fields nm)[i] := by
      unfold CNode.fieldT
      rw [if_neg (by omega)]
      simp only [Int.toNat_natCast, hfi, Option.getD_some]
    have key : ∃ nd, CNode.fieldAt s { name := nm, io := Base.new ⟨d, sp⟩, pos := t, tlen := tl } (i : Int) = some (some nd) ∧
        nd.name = ((s.fields nm)[i]).tname ∧ Holds nd.io nd.pos w := by
      unfold CNode.fieldAt
      rw [e2, hft, e1]
      simp only [hst, Option.bind_eq_bind, Option.bind_some, Option.isNone_some, Bool.false_eq_true, if_false, Option.getD_some]
      by_cases hstr : ((s.fields nm)[i]).grp = ftStruct
      · rw [if_pos (by rw [hstr]; decide)]
        exact ⟨_, rfl, rfl, hH⟩
      · obtain ⟨f1, f2, f3, f4, f5, f6⟩ := inlGrp_flags hg hstr
        simp only [f1, f2, f3, f4, f5, f6, if_true, Bool.false_eq_true, if_false]
        exact ⟨_, rfl, rfl, hH⟩
    obtain ⟨nd, n1, n2, n3⟩ := key
    exact ⟨nd, n1, by rw [n2, hfi]; rfl, holds_getN' n3, fun req => (holds_read n3 req).2⟩

theorem lastSet_ne {s : Sch} {nm : Name} {ops : List Setting} (h : ∀ o ∈ ops, InlSrc s nm o.field o.node o.val) (i : Nat) :
    lastSet ops i ≠ some [] := by
  intro hw
  unfold lastSet at hw
  obtain ⟨o, ho, hv⟩ := Option.map_eq_some_iff.mp hw
  have := List.mem_of_getLast? ho
  rw [List.mem_filter] at this
  obtain ⟨fd, -, -, -, -, hH, -⟩ := h o this.1
  rw [hv] at hH
  exact hH.1 rfl

/-- C82 for tables of scalars and structs: opening the bytes of a finished table gives a root whose fields
read exactly what was set. -/
theorem reopen_scalars (s : Sch) (nm : Name) (hs : SmallTable s nm) (fuel : Nat) (ops : List Setting)
    (hops : ∀ o ∈ ops, InlSrc s nm o.field o.node o.val) (sp : Bytes) :
    ∃ c d r, build s (fuel + 1) nm ops = some c ∧ c.finish = some d ∧ CNode.openByBuf nm ⟨d, sp⟩ = some r ∧
      FieldsRead s nm r (lastSet ops) := by
  obtain ⟨c, d, h1, h2, h3, h4⟩ := message_scalars s nm hs fuel ops hops
  obtain ⟨tl, h5⟩ := open_wire nm h3 sp
  exact ⟨c, d, _, h1, h2, h5, fun i hi => wire_read hs.ok.st h3 hi (lastSet_src hops hi) (lastSet_ne hops i) (h4 i hi) sp tl⟩

theorem settings_append {s : Sch} {nm : Name} {pre post : List Setting} (hpre : ∀ o ∈ pre, InlSrc s nm o.field o.node o.val)
    (hpost : ∀ o ∈ post, InlSrc s nm o.field o.node o.val) : ∀ o ∈ pre ++ post, InlSrc s nm o.field o.node o.val := by
  intro o ho
  rcases List.mem_append.mp ho with h | h
  · exact hpre o h
  · exact hpost o h

/-- C82 with one byte vector. -/
theorem reopen_vector_partial (s : Sch) (nm : Name) (hs : SmallTable s nm) (fuel : Nat) (pre post : List Setting)
    (o : Setting) (hpre : ∀ o ∈ pre, InlSrc s nm o.field o.node o.val)
    (hpost : ∀ o ∈ post, InlSrc s nm o.field o.node o.val)
    (ho : VecSrc s (fuel + 1) nm o.field o.node o.val) (hlen : o.val.length < 4294967296) (sp : Bytes) :
    ∃ c d r, build s (fuel + 1) nm (pre ++ o :: post) = some c ∧ c.finish = some d ∧ CNode.openByBuf nm ⟨d, sp⟩ = some r ∧
      (∃ nd, r.fieldAt s o.field = some (some nd) ∧ CNode.bytes (some nd) = some o.val) ∧
      ∀ i, i < (s.fields nm).length → i ≠ o.field → FieldRead s nm r i (lastSet (pre ++ post) i) := by
  obtain ⟨c, d, p, h1, h2, h3, h4, h5, h6, h7⟩ := message_vector_partial s nm hs fuel pre post o hpre hpost ho hlen
  obtain ⟨tl, h8⟩ := open_wire nm h3 sp
  have hall := settings_append hpre hpost
  refine ⟨c, d, _, h1, h2, h8, ?_, fun i hi hne => wire_read hs.ok.st h3 hi (lastSet_src hall hi) (lastSet_ne hall i) (h7 i hi hne) sp tl⟩
  obtain ⟨fd, hfd, hg, -⟩ := ho
  have hi := (List.getElem?_eq_some_iff.mp hfd).1
  obtain ⟨nd, n1, n2⟩ := string_field s nm ⟨d, sp⟩ (rootPos d) o.field p fd hfd hg hs.ok.st h3.1 h3.2.1 (by simp only [h3.2.2]; omega) h4 h5
  exact ⟨nd, n1, by rw [n2, h6]⟩

/-- A table or union field of a table of the wire format. -/
theorem wire_table_at {s : Sch} {nm : Name} (hst : s.isStruct nm = false) {d : Bytes} {t i p m : Nat} {fd : FieldT}
    (h : WireTable d t (s.fields nm).length) (hfd : (s.fields nm)[i]? = some fd) (hg : fd.grp = ftTable ∨ fd.grp = ftUnion)
    (hp : Fb.fieldPos d t i = some p) (hp4 : p + 4 ≤ d.length) (h2 : WireTable d (Fb.follow d p) m) (sp : Bytes) (tl : Nat) :
    ∃ tl', CNode.fieldAt s { name := nm, io := Base.new ⟨d, sp⟩, pos := t, tlen := tl } i =
      some (some { name := fd.tname, io := Base.new ⟨d, sp⟩, pos := Fb.follow d p, tlen := tl' }) := by
  have hi := (List.getElem?_eq_some_iff.mp hfd).1
  obtain ⟨g1, g2⟩ := slot_access nm ⟨d, sp⟩ t i h.1 h.2.1 (by rw [h.2.2]; omega)
  have e1 : CNode.vtab { name := nm, io := Base.new ⟨d, sp⟩, pos := t, tlen := tl } i = some ((Fb.fieldPos d t i).getD t) := g1
  have e2 : CNode.isZero { name := nm, io := Base.new ⟨d, sp⟩, pos := t, tlen := tl } i = some (Fb.fieldPos d t i).isNone := g2
  rw [hp] at e1 e2
  have hft : CNode.fieldT s { name := nm, io := Base.new ⟨d, sp⟩, pos := t, tlen := tl } (i : Int) = fd := by
    unfold CNode.fieldT
    rw [if_neg (by omega)]
    simp only [Int.toNat_natCast, hfd, Option.getD_some]
  have e3 : CNode.table { name := nm, io := Base.new ⟨d, sp⟩, pos := t, tlen := tl } i = some ((Fb.follow d p : Nat) : Int) := by
    unfold CNode.table
    rw [e1, e2]
    simp only [Option.bind_eq_bind, Option.bind_some, Option.isNone_some, Option.getD_some]
    have := getN_flat ⟨d, sp⟩ 4 p
    rw [if_pos (by left; simp only; omega)] at this
    unfold CNode.u32
    rw [this]
    simp only [Option.bind_some, pure, Fb.follow]
    congr 1
  obtain ⟨tl', h5⟩ := newNode_wire fd.tname h2 sp
  refine ⟨tl', ?_⟩
  unfold CNode.fieldAt
  rw [e2, hft, e3]
  simp only [hst, Option.bind_eq_bind, Option.bind_some, Option.isNone_some, Bool.false_eq_true, if_false]
  have hneg : ¬ ((Fb.follow d p : Nat) : Int) < 0 := by omega
  have q1 : isFieldStruct ftUnion = false := by decide
  have q2 : isFieldUnion ftUnion = true := by decide
  have q3 : isFieldStruct ftTable = false := by decide
  have q4 : isFieldUnion ftTable = false := by decide
  have q5 : isFieldBytes ftTable = false := by decide
  have q6 : isFieldSlice ftTable = false := by decide
  have q7 : isFieldTable ftTable = true := by decide
  rcases hg with hg | hg
  · rw [hg]
    simp only [q3, q4, q5, q6, q7, if_true, Bool.false_eq_true, if_false, hneg, Int.toNat_natCast, h5]
    rfl
  · rw [hg]
    simp only [q1, q2, if_true, Bool.false_eq_true, if_false, hneg, Int.toNat_natCast, h5]
    rfl

/-- C82 with one table-valued field. -/
theorem reopen_table_partial (s : Sch) (nm t : Name) (hs : SmallTable s nm) (hst : SmallTable s t) (hT : InlTab s t) (k i : Nat)
    (fd : FieldT) (hfd : (s.fields nm)[i]? = some fd) (hg : fd.grp = ftTable) (hn : t = fd.tname)
    (sub pre post : List Setting) (hsub : TableOps s t sub)
    (hpre : ∀ o ∈ pre, InlSrc s nm o.field o.node o.val) (hpost : ∀ o ∈ post, InlSrc s nm o.field o.node o.val) (sp : Bytes) :
    ∃ f c d r, build s (k + 3) t sub = some f ∧ build s (k + 3) nm (pre ++ ⟨i, f, []⟩ :: post) = some c ∧ c.finish = some d ∧
      CNode.openByBuf nm ⟨d, sp⟩ = some r ∧
      (∃ nd, r.fieldAt s i = some (some nd) ∧ nd.name = t ∧ FieldsRead s t nd (lastSet sub)) ∧
      ∀ j, j < (s.fields nm).length → j ≠ i → FieldRead s nm r j (lastSet (pre ++ post) j) := by
  obtain ⟨f, c, d, p, b1, b2, h2, h3, h4, h5, h6, h7, h8⟩ := message_table_partial s nm t hs hst hT k i fd hfd hg hn sub pre post hsub hpre hpost
  obtain ⟨tl, h9⟩ := open_wire nm h3 sp
  have hall := settings_append hpre hpost
  refine ⟨f, c, d, _, b1, b2, h2, h9, ?_, fun j hj hne => wire_read hs.ok.st h3 hj (lastSet_src hall hj) (lastSet_ne hall j) (h8 j hj hne) sp tl⟩
  obtain ⟨tl', q⟩ := wire_table_at hs.ok.st h3 hfd (Or.inl hg) h4 h5 h6 sp tl
  refine ⟨_, q, hn.symm, ?_⟩
  rw [← hn]
  exact fun j hj => wire_read hst.ok.st h6 hj (lastSet_src hsub.src hj) (lastSet_ne hsub.src j) (h7 j hj) sp tl'

/-- C82 with one union-valued field: following it gives the member with its values. -/
theorem reopen_union_partial (s : Sch) (nm t : Name) (hs : SmallTable s nm) (hst : SmallTable s t) (hT : InlTab s t) (k i : Nat)
    (fd td : FieldT) (hfd : (s.fields nm)[i + 1]? = some fd) (hg : fd.grp = ftUnion)
    (htd : (s.fields nm)[i]? = some td) (htg : td.grp = ftBasic1)
    (tag : UInt8) (h1 : 0 < tag.toNat) (hmem : ((s.unions fd.tname).getD [])[tag.toNat - 1]? = some t)
    (sub pre post : List Setting) (hsub : TableOps s t sub)
    (hpre : ∀ o ∈ pre, InlSrc s nm o.field o.node o.val) (hpost : ∀ o ∈ post, InlSrc s nm o.field o.node o.val)
    (htag : lastSet (pre ++ post) i = some [tag])
    (hold : ∀ w, lastSet pre i = some w → ∃ v, w = [v] ∧ v.toNat ≤ ((s.unions fd.tname).getD []).length) (sp : Bytes) :
    ∃ f c d r nd, build s (k + 3) t sub = some f ∧ build s (k + 3) nm (pre ++ ⟨i + 1, f, []⟩ :: post) = some c ∧ c.finish = some d ∧
      CNode.openByBuf nm ⟨d, sp⟩ = some r ∧
      r.canFollow s ((i + 1 : Nat) : Int) = some true ∧
      r.followUnion s ((i + 1 : Nat) : Int) = some (some (t, some nd)) ∧ nd.name = t ∧ FieldsRead s t nd (lastSet sub) ∧
      ∀ j, j < (s.fields nm).length → j ≠ i + 1 → FieldRead s nm r j (lastSet (pre ++ post) j) := by
  obtain ⟨f, c, d, p, b1, b2, h2, h3, h4, h5, h6, h7, h8⟩ := message_union_partial s nm t hs hst hT k i fd td hfd hg htd htg
    (List.mem_of_getElem? hmem) sub pre post hsub hpre hpost hold
  obtain ⟨tl, h9⟩ := open_wire nm h3 sp
  have hall := settings_append hpre hpost
  have hi : i + 1 < (s.fields nm).length := (List.getElem?_eq_some_iff.mp hfd).1
  have hrd : ∀ j, j < (s.fields nm).length → j ≠ i + 1 →
      FieldRead s nm { name := nm, io := Base.new ⟨d, sp⟩, pos := rootPos d, tlen := tl } j (lastSet (pre ++ post) j) :=
    fun j hj hne => wire_read hs.ok.st h3 hj (lastSet_src hall hj) (lastSet_ne hall j) (h8 j hj hne) sp tl
  obtain ⟨tl', q⟩ := wire_table_at hs.ok.st h3 hfd (Or.inr hg) h4 h5 h6 sp tl
  obtain ⟨nd, n1, -, n2, -⟩ := (hrd i (by omega) (by omega)).2 _ htag
  simp only [List.length_cons, List.length_nil, Nat.zero_add] at n2
  rw [show leVal [tag] = tag.toNat by simp [leVal]] at n2
  have hsub1 : ((i + 1 : Nat) : Int) - 1 = (i : Int) := by omega
  have hft : CNode.fieldT s { name := nm, io := Base.new ⟨d, sp⟩, pos := rootPos d, tlen := tl } ((i + 1 : Nat) : Int) = fd := by
    unfold CNode.fieldT
    rw [if_neg (by omega)]
    simp only [Int.toNat_natCast, hfd, Option.getD_some]
  refine ⟨f, c, d, _, { name := t, io := Base.new ⟨d, sp⟩, pos := Fb.follow d p, tlen := tl' }, b1, b2, h2, h9, ?_, ?_, rfl, ?_, hrd⟩
  · unfold CNode.canFollow
    rw [hsub1, n1]
    simp only [Option.bind_eq_bind, Option.bind_some]
    rw [n2]
    simp [h1]
  · unfold CNode.followUnion
    rw [hsub1, n1]
    simp only [Option.bind_eq_bind, Option.bind_some]
    rw [n2]
    simp only [Option.bind_some]
    have hlt : tag.toNat < 256 := tag.toNat_lt
    have e : (tag.toNat + 255) % 256 = tag.toNat - 1 := by omega
    rw [hft, e, hmem]
    simp only
    rw [q]
    rfl
  · exact fun j hj => wire_read hst.ok.st h6 hj (lastSet_src hsub.src hj) (lastSet_ne hsub.src j) (h7 j hj) sp tl'

theorem le_two {d : Bytes} (h : 4 ≤ d.length) (hlt : rootPos d < 65536) : Fb.le d 2 0 = rootPos d := by
  unfold rootPos Fb.le at *
  match d, h with
  | a :: b :: c :: e :: l, _ =>
    simp only [List.drop_zero, List.take_succ_cons, List.take_zero, leVal] at hlt ⊢
    omega

/-- C82: the header is written once: `WithHeader` leaves the root of an opened message as it is (the root lies
below 64k, the vtable behind the header), and finishing it again gives the same bytes. -/
theorem header_once_partial (nm : Name) (d : Bytes) (n : Nat) (h : WireTable d (rootPos d) n) (hlt : rootPos d < 65536)
    (hv : 4 ≤ Fb.vtablePos d (rootPos d)) (h8 : 8 ≤ rootPos d) (sp : Bytes) :
    ∃ r, CNode.openByBuf nm ⟨d, sp⟩ = some r ∧ r.withHeader = some r ∧ r.finish = some d := by
  obtain ⟨tl, h1⟩ := open_wire nm h sp
  have hd4 : rootPos d + 4 ≤ d.length := h.1.1
  have hw : CNode.withHeader { name := nm, io := Base.new ⟨d, sp⟩, pos := rootPos d, tlen := tl } =
      some { name := nm, io := Base.new ⟨d, sp⟩, pos := rootPos d, tlen := tl } := by
    have e1 : CNode.u16 { name := nm, io := Base.new ⟨d, sp⟩, pos := rootPos d, tlen := tl } 0 = some (rootPos d) := by
      have := getN_flat ⟨d, sp⟩ 2 0
      rw [if_pos (by left; simp only; omega)] at this
      have e : Fb.le d 2 0 = rootPos d := by
        exact le_two (by omega) hlt
      rw [← e]
      exact this
    have e2 : (CNode.R { name := nm, io := Base.new ⟨d, sp⟩, pos := rootPos d, tlen := tl } (rootPos d : Nat) 4) =
        some ((Base.new ⟨d, sp⟩).R (rootPos d) 4) := by
      unfold CNode.R Base.Ri
      rw [if_neg (by omega), Int.toNat_natCast]
    have e3 : CNode.u32 { name := nm, io := Base.new ⟨d, sp⟩, pos := rootPos d, tlen := tl } (rootPos d : Nat) =
        some (Fb.le d 4 (rootPos d)) := by
      have := getN_flat ⟨d, sp⟩ 4 (rootPos d)
      rw [if_pos (by left; exact hd4)] at this
      exact this
    have e4 : Fb.le d 4 (rootPos d) ≠ rootPos d := by
      intro hh
      unfold Fb.vtablePos Fb.soffset at hv
      rw [hh, if_pos (by omega)] at hv
      omega
    have hin : CNode.inRoot { name := nm, io := Base.new ⟨d, sp⟩, pos := rootPos d, tlen := tl } = some true := by
      unfold CNode.inRoot
      rw [e1]
      simp only [Option.bind_eq_bind, Option.bind_some]
      rw [e2, e3]
      simp only [Option.bind_some]
      have hl : ¬ ((Base.new ⟨d, sp⟩).R (rootPos d) 4).len < 4 := by
        unfold Slice.len
        rw [R_flat, List.length_drop]
        simp only
        omega
      rw [if_neg hl, if_neg (by omega)]
      simp only [pure, Option.some.injEq, bne_iff_ne]
      exact fun hh => e4 hh.symm
    unfold CNode.withHeader
    rw [hin]
    rfl
  refine ⟨_, h1, hw, ?_⟩
  unfold CNode.finish
  rw [hw]
  simp only [Option.bind_eq_bind, Option.bind_some, pure]
  rw [R_flatten]
  congr 1
  apply List.ext_getElem?
  intro x
  rw [(flatten_bytes _).2]
  have hl : (Base.new ⟨d, sp⟩).lenBuf = d.length := rfl
  simp only [ByteMap.fill, hl]
  by_cases hx : x < d.length
  · have : (Base.new ⟨d, sp⟩).content x = d[x]? := rfl
    rw [if_pos hx, this, List.getElem?_eq_getElem hx]; rfl
  · rw [if_neg hx, List.getElem?_eq_none (by omega)]

/-- C81 is violated as to alignment: the format requires a scalar of 8 bytes to lie at a multiple of 8; here the
root table is at 16 and its `int64` field at 20. -/
theorem message_align_fails :
    ((build nestSch 3 "TT".toList nestSub).bind CNode.finish).map (fun d => (rootPos d, Fb.fieldPos d (rootPos d) 1)) =
      some (16, some 20) := by decide +kernel

/-! ## the hypotheses can be met -/

example : ∃ c d, build editSch 3 "TT".toList [⟨2, fromScalar "Int16".toList 2 7, putLE 2 7⟩] = some c ∧ c.finish = some d ∧
    WireTable d (rootPos d) 4 ∧
    ∀ i, i < 4 → WireField d (rootPos d) i (lastSet [⟨2, fromScalar "Int16".toList 2 7, putLE 2 7⟩] i) :=
  message_scalars editSch _ editSch_ok 2 _ (by
    intro o ho
    simp only [List.mem_singleton] at ho
    subst ho
    exact fromScalar_src _ _ 2 2 7 ⟨"Int16".toList, ftBasic2, some .int16⟩ (by decide) rfl (by decide) rfl)

/-- The message of a table with an `int16` 7 and a string "ABC" (Init, two settings, WithHeader, Flatten). -/
example : ((build editSch 9 "TT".toList [⟨2, fromScalar "Int16".toList 2 7, putLE 2 7⟩, ⟨1, fromBytes [65, 66, 67], [65, 66, 67]⟩]).bind
    CNode.finish).map (fun d => ((Fb.fieldPos d (rootPos d) 1).map (Fb.bytesAt d), (Fb.fieldPos d (rootPos d) 2).map (Fb.le d 2))) =
    some (some [65, 66, 67], some 7) := by decide +kernel

example : ∃ f c d r, build nestSch 3 "TT".toList nestSub = some f ∧ build nestSch 3 "PP".toList ([] ++ ⟨3, f, []⟩ :: [nestTag 1]) = some c ∧
      c.finish = some d ∧ CNode.openByBuf "PP".toList ⟨d, []⟩ = some r ∧
      (∃ nd, r.fieldAt nestSch (3 : Nat) = some (some nd) ∧ nd.name = "TT".toList ∧ FieldsRead nestSch "TT".toList nd (lastSet nestSub)) ∧
      ∀ j, j < (nestSch.fields "PP".toList).length → j ≠ 3 → FieldRead nestSch "PP".toList r j (lastSet ([] ++ [nestTag 1]) j) :=
  reopen_table_partial nestSch _ _ nest_PP nest_TT nest_inl 0 3 ⟨"TT".toList, ftTable, none⟩ rfl rfl rfl nestSub [] [nestTag 1] nest_ops
    (by simp) (by intro o ho; simp only [List.mem_singleton] at ho; subst ho; exact nest_tag 1) []

example : ∃ f c d r nd, build nestSch 3 "TT".toList nestSub = some f ∧ build nestSch 3 "PP".toList ([] ++ ⟨1 + 1, f, []⟩ :: [nestTag 1]) = some c ∧
      c.finish = some d ∧ CNode.openByBuf "PP".toList ⟨d, []⟩ = some r ∧
      r.canFollow nestSch ((1 + 1 : Nat) : Int) = some true ∧
      r.followUnion nestSch ((1 + 1 : Nat) : Int) = some (some ("TT".toList, some nd)) ∧ nd.name = "TT".toList ∧
      FieldsRead nestSch "TT".toList nd (lastSet nestSub) ∧
      ∀ j, j < (nestSch.fields "PP".toList).length → j ≠ 1 + 1 → FieldRead nestSch "PP".toList r j (lastSet ([] ++ [nestTag 1]) j) :=
  reopen_union_partial nestSch _ _ nest_PP nest_TT nest_inl 0 1 ⟨"UU".toList, ftUnion, none⟩ ⟨"Byte".toList, ftBasic1, some .byte⟩
    rfl rfl rfl rfl 1 (by decide) rfl nestSub [] [nestTag 1] nest_ops
    (by simp) (by intro o ho; simp only [List.mem_singleton] at ho; subst ho; exact nest_tag 1) rfl
    (by intro w hw; cases hw) []

end Fbs.Props
