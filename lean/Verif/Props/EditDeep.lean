import Verif.LaidWire
import Verif.Props.EditMore

/-!
# Editing tables anywhere in a message (C97)
-/
namespace Fbs.Props
open Fbs CNode

/-- The value is laid out in the bytes of a message. -/
structure Saved (s : Sch) (v : Val) (d : Bytes) (y : Nat) : Prop where
  head : ∀ sp, Head s (Base.new ⟨d, sp⟩) v
  laid : ∀ sp, v.Laid s (Base.new ⟨d, sp⟩) 8 y
  ok   : v.Ok s
  hy   : y < 4294967296

theorem Saved.opens {s : Sch} {v : Val} {d : Bytes} {y : Nat} (h : Saved s v d y) (sp : Bytes) :
    ∃ tl, openByBuf v.name ⟨d, sp⟩ = some { name := v.name, io := Base.new ⟨d, sp⟩, pos := 8 + (4 + 2 * (s.fields v.name).length), tlen := tl } := by
  obtain ⟨t, h1, h2⟩ := laid_preLoad (h.laid sp)
  obtain ⟨-, h3, h4⟩ := h.head sp
  refine ⟨t, ?_⟩
  have hg : getLE 4 d = some (8 + (4 + 2 * (s.fields v.name).length)) := by
    have e1 : ∀ k, k < (putLE 4 (8 + (4 + 2 * (s.fields v.name).length))).length → d[0 + k]? = (putLE 4 (8 + (4 + 2 * (s.fields v.name).length)))[k]? := h4.2.2
    have e2 : 4 ≤ d.length := by
      have e3 := e1 3 (by rw [putLE_length]; omega)
      rw [List.getElem?_eq_getElem (l := putLE 4 _) (by rw [putLE_length]; omega)] at e3
      have := (List.getElem?_eq_some_iff.mp e3).1
      omega
    have e3 : d.take 4 = putLE 4 (8 + (4 + 2 * (s.fields v.name).length)) := by
      refine List.ext_getElem? fun k => ?_
      by_cases hk : k < 4
      · rw [List.getElem?_take_of_lt hk, ← e1 k (by rw [putLE_length]; exact hk), Nat.zero_add]
      · rw [List.getElem?_eq_none (by rw [List.length_take]; omega), List.getElem?_eq_none (by rw [putLE_length]; omega)]
    unfold getLE
    rw [if_pos e2, e3, leVal_putLE, Nat.mod_eq_of_lt (by omega)]
  unfold openByBuf
  simp only
  rw [hg]
  simp only [Option.bind_eq_bind, Option.bind_some]
  unfold newNode
  rw [h1]
  rfl

/-- The value and the table of a session. -/
theorem Saved.walk {s : Sch} {v w : Val} {d : Bytes} {y : Nat} (h : Saved s v d y) {p : List Hop} (hs : v.sel p = some w) (sp : Bytes) {r : CNode}
    (hn : r.name = v.name) (hio : r.io = Base.new ⟨d, sp⟩) (hp : r.pos = 8 + (4 + 2 * (s.fields v.name).length)) :
    ∃ c X, walkTo s r p = some c ∧ InMsg s p v w c X y ∧ c.io = Base.new ⟨d, sp⟩ := by
  obtain ⟨X, Y, L, hC, hw⟩ := laid_ctx p v (h.laid sp) hs
  obtain ⟨c, h1, h2, h3, h4⟩ := ctx_walk hw p v hC h.ok h.hy hn hio hp
  exact ⟨c, X, h1, ⟨by rw [h3]; exact h.head sp, ⟨Y, L, by rw [h3]; exact hC, by rw [h3]; exact hw⟩, h.ok, h.hy, h2, h4⟩, h3⟩

theorem moves_flat (b : Base) (sp : Bytes) (x y : Nat) : Moves b (Base.new ⟨b.flatten.bytes.data, sp⟩) x y 0 := by
  intro z w h _ _
  obtain ⟨h1, h2⟩ := holds_flattened h
  exact holds_flat h.1 h2 h1

/-- A table of a message saved. -/
theorem InMsg.saved {s : Sch} {p : List Hop} {v w : Val} {c : CNode} {X y : Nat} (h : InMsg s p v w c X y) :
    ∃ d, c.finish = some d ∧ Saved s v d y := by
  obtain ⟨hh, ⟨Y, L, hC, hw⟩, hok, hy, hn, hp⟩ := h
  have hl := ctx_laid hw p v hC
  have hX := (ctx_bounds p v hC).1
  have hin := hh.inRoot hl rfl (by omega)
  refine ⟨c.io.flatten.bytes.data, ?_, ?_, ?_, hok, hy⟩
  · unfold CNode.finish CNode.withHeader
    rw [hin]
    simp only [Option.bind_eq_bind, Option.bind_some, if_true, pure]
    rw [R_flatten]
  · intro sp
    exact ⟨hh.root, hh.few, moves_flat c.io sp 0 4 _ _ hh.off (by omega) (by rw [putLE_length]; omega)⟩
  · intro sp
    exact Val.moved (k := 0) v hl (moves_flat c.io sp 8 y)

/-- One session: the spare bytes behind the message, the way to a table, the settings. -/
structure Sess where
  sp   : Bytes
  path : List Hop
  ops  : List Setting

/-- The program: open the message, go down to the table, set fields of it, save. -/
def editAt (s : Sch) (fuel : Nat) (root : Name) (d : Bytes) (q : Sess) : Option Bytes :=
  (openByBuf root ⟨d, q.sp⟩).bind fun r => (walkTo s r q.path).bind fun c => (runSets s fuel c q.ops).bind CNode.finish

/-- Specification: the value with fields of a table in it set. -/
def Val.edit (v : Val) (q : Sess) : Val :=
  match v.sel q.path with
  | some w => v.put q.path (w.with q.ops)
  | none => v

theorem edit_eq {v w : Val} {q : Sess} (h : v.sel q.path = some w) : v.edit q = v.put q.path (w.with q.ops) := by unfold Val.edit; rw [h]

/-- Specification: there is a table there; the settings are of scalars and structs of it, of the types of the fields, and leave its
tags those of members; the first is of a field that is not there, or all are of fields that are there. -/
def Sess.Fits (s : Sch) (v : Val) (q : Sess) : Prop :=
  ∃ w, v.sel q.path = some w ∧ (∀ o ∈ q.ops, InlSrc s w.name o.field o.node o.val) ∧ (∀ m, m ≤ q.ops.length → (w.with (q.ops.take m)).Ok s) ∧
    EditOrder w.cur q.ops

/-- Settings of fields that are no tags leave the tags as they are. -/
theorem ok_with {s : Sch} {w : Val} (h : w.Ok s) {ops : List Setting} (hsrc : ∀ o ∈ ops, InlSrc s w.name o.field o.node o.val)
    (htag : ∀ o ∈ ops, ((s.fields w.name)[o.field + 1]?).map FieldT.grp ≠ some ftUnion) : (w.with ops).Ok s := by
  cases w with
  | tab nm pre sub post =>
    rw [Val.name] at hsrc htag
    rw [Val.Ok] at h
    obtain ⟨o1, o2, o3, o4, o5, o6, o7⟩ := h
    have hkeep : ∀ i fd, (s.fields nm)[i + 1]? = some fd → fd.grp = ftUnion → lastSet (pre ++ (post ++ ops)) i = lastSet (pre ++ post) i := by
      intro i fd hfd hg
      rw [← List.append_assoc, lastSet_append (pre ++ post)]
      cases hl : lastSet ops i with
      | none => rfl
      | some w =>
        exfalso
        unfold lastSet at hl
        obtain ⟨o, ho, -⟩ := Option.map_eq_some_iff.mp hl
        have hm := List.mem_filter.mp (List.mem_of_getLast? ho)
        have : o.field = i := by simpa using hm.2
        exact htag o hm.1 (by rw [this, hfd, ← hg]; rfl)
    show Val.Ok s (.tab nm pre sub (post ++ ops))
    rw [Val.Ok]
    refine ⟨o1, ?_, ?_, o4, o5, o6, ?_⟩
    · intro o ho
      rw [← List.append_assoc] at ho
      rcases List.mem_append.mp ho with ho | ho
      · exact o2 o ho
      · exact hsrc o ho
    · intro i fd hfd hg v hv
      rw [hkeep i fd hfd hg] at hv
      exact o3 i fd hfd hg v hv
    · cases sub with
      | none => trivial
      | bytes i f data => rw [Sub.Ok] at o7 ⊢; exact o7
      | table i fl v => rw [Sub.Ok] at o7 ⊢; exact o7
      | list i fl t vs => rw [Sub.Ok] at o7 ⊢; exact o7
      | union i fl v =>
        rw [Sub.Ok] at o7 ⊢
        obtain ⟨g1, fd, tag, g2, g3, g4, g5⟩ := o7
        exact ⟨g1, fd, tag, g2, g3, by rw [hkeep i fd g2 g3]; exact g4, g5⟩

/-- Sessions that set no tags. -/
theorem Sess.fits_of {s : Sch} {v w : Val} {q : Sess} (hv : v.Ok s) (hs : v.sel q.path = some w) (hsrc : ∀ o ∈ q.ops, InlSrc s w.name o.field o.node o.val)
    (htag : ∀ o ∈ q.ops, ((s.fields w.name)[o.field + 1]?).map FieldT.grp ≠ some ftUnion) (hord : EditOrder w.cur q.ops) :
    q.Fits s v ∧ (v.edit q).Ok s := by
  have hw := sel_ok _ v hv hs
  refine ⟨⟨w, hs, hsrc, fun m _ => ok_with hw (fun o ho => hsrc o (List.mem_of_mem_take ho)) (fun o ho => htag o (List.mem_of_mem_take ho)), hord⟩, ?_⟩
  unfold Val.edit
  rw [hs]
  exact put_ok (ok_with hw hsrc htag) (with_name w _) _ v hv hs

/-- The settings of one session. -/
theorem Saved.sets {s : Sch} {v : Val} {d : Bytes} {y : Nat} (h : Saved s v d y) {q : Sess} (hq : q.Fits s v) (hy : y + valLen q.ops < 4294967296)
    {fuel : Nat} (hK : v.deep ≤ fuel + 1) :
    ∃ r c c' w X y', openByBuf v.name ⟨d, q.sp⟩ = some r ∧ walkTo s r q.path = some c ∧ runSets s (fuel + 1) c q.ops = some c' ∧ v.sel q.path = some w ∧
      InMsg s q.path (v.put q.path (w.with q.ops)) (w.with q.ops) c' X y' ∧ y' ≤ y + valLen q.ops := by
  obtain ⟨w, hs, h1, h2, h3⟩ := hq
  obtain ⟨tl, ho⟩ := h.opens q.sp
  obtain ⟨c, X, hw, hI, hio⟩ := h.walk hs q.sp (r := { name := v.name, io := Base.new ⟨d, q.sp⟩, pos := 8 + (4 + 2 * (s.fields v.name).length), tlen := tl }) rfl rfl rfl
  have hE : Ends c := by
    obtain ⟨Y, L, hC, hl⟩ := hI.ex
    obtain ⟨t, e1, -⟩ := laid_preLoad hl
    rw [← hI.pos] at e1
    exact ⟨t, e1, by rw [hio]; intro d hd; cases hd⟩
  obtain ⟨c', y', hr, hI', hy'⟩ := hI.run q.ops h1 h2 (by
    rcases h3 with h3 | h3
    · exact Or.inr (Or.inl h3)
    · exact Or.inr (Or.inr ⟨hE, h3⟩)) hy hK
  exact ⟨_, c, c', w, X, y', ho, hw, hr, hs, hI', hy'⟩

/-- What is read before saving: the table, and the message from the root. -/
theorem InMsg.reads {s : Sch} {p : List Hop} {v w : Val} {c : CNode} {X y : Nat} (h : InMsg s p v w c X y) :
    w.Reads s c ∧ ∃ r, c.rootCommon s = some r ∧ v.Reads s r := by
  obtain ⟨hh, ⟨Y, L, hC, hw⟩, hok, hy, hn, hp⟩ := h
  have hl := ctx_laid hw p v hC
  have hsel := ctx_sel p v hC
  obtain ⟨g1, g2, g3, g4, g5, g6⟩ := ctx_bounds p v hC
  refine ⟨Val.laid_reads w (sel_ok p v hok hsel) hw (by omega) hn rfl hp, ?_⟩
  obtain ⟨tl, hr⟩ := hh.rootCommon hl (c := c) rfl
  exact ⟨_, hr, Val.laid_reads v hok hl hy rfl rfl rfl⟩

/-- One session on a message. -/
theorem Saved.edit {s : Sch} {v : Val} {d : Bytes} {y : Nat} (h : Saved s v d y) {q : Sess} (hq : q.Fits s v) (hy : y + valLen q.ops < 4294967296)
    {fuel : Nat} (hK : v.deep ≤ fuel + 1) :
    ∃ d' y', editAt s (fuel + 1) v.name d q = some d' ∧ Saved s (v.edit q) d' y' ∧ y' ≤ y + valLen q.ops ∧ (v.edit q).deep = v.deep ∧
      (v.edit q).name = v.name := by
  obtain ⟨r, c, c', w, X, y', ho, hw, hr, hs, hI', hy'⟩ := h.sets hq hy hK
  obtain ⟨d', hf, hS⟩ := hI'.saved
  have e := edit_eq hs
  refine ⟨d', y', ?_, by rw [e]; exact hS, hy', by rw [e]; exact put_deep (with_deep w _) _ v hs, by rw [e]; exact sel_put_name (with_name w _) _ v hs⟩
  unfold editAt
  rw [ho, Option.bind_some, hw, Option.bind_some, hr, Option.bind_some, hf]

/-- Every session can be held on what the ones before it saved. -/
def SessFits (s : Sch) : Val → List Sess → Prop
  | _, [] => True
  | v, q :: l => q.Fits s v ∧ SessFits s (v.edit q) l

theorem Saved.edits {s : Sch} {fuel : Nat} : ∀ (l : List Sess) {v : Val} {d : Bytes} {y : Nat}, Saved s v d y → SessFits s v l →
    y + valLen (l.flatMap Sess.ops) < 4294967296 → v.deep ≤ fuel + 1 →
    ∃ d' y', l.foldlM (editAt s (fuel + 1) v.name) d = some d' ∧ Saved s (l.foldl Val.edit v) d' y' ∧ (l.foldl Val.edit v).name = v.name ∧
      (l.foldl Val.edit v).deep = v.deep ∧ y' ≤ y + valLen (l.flatMap Sess.ops)
  | [], v, d, y, h, _, _, _ => ⟨d, y, rfl, h, rfl, rfl, by omega⟩
  | q :: l, v, d, y, h, hf, hy, hK => by
    have e : valLen ((q :: l).flatMap Sess.ops) = valLen q.ops + valLen (l.flatMap Sess.ops) := by
      unfold valLen
      rw [List.flatMap_cons, List.map_append, List.sum_append]
    rw [e] at hy
    obtain ⟨d1, y1, h1, h2, h3, h4, h5⟩ := h.edit hf.1 (by omega) hK
    obtain ⟨d2, y2, g1, g2, g3, g4, g5⟩ := Saved.edits l h2 hf.2 (by omega) (by rw [h4]; exact hK)
    refine ⟨d2, y2, ?_, g2, by rw [List.foldl_cons, g3, h5], by rw [List.foldl_cons, g4, h4], by rw [e]; omega⟩
    rw [List.foldlM_cons, h1, ← h5]
    exact g1

/-- What a message with the value reads. -/
theorem Saved.reads {s : Sch} {v : Val} {d : Bytes} {y : Nat} (h : Saved s v d y) (sp : Bytes) :
    (∃ r, openByBuf v.name ⟨d, sp⟩ = some r ∧ v.Reads s r) ∧ v.Wire s d (rootPos d) := by
  obtain ⟨tl, ho⟩ := h.opens sp
  refine ⟨⟨_, ho, Val.laid_reads v h.ok (h.laid sp) h.hy rfl rfl rfl⟩, ?_⟩
  have hf := (h.head []).few
  rw [show rootPos d = 8 + (4 + 2 * (s.fields v.name).length) from (held_le (h.head []).off (by omega)).2]
  exact Val.laid_wire v h.ok (h.laid []) h.hy

/-- A message built by the API. -/
theorem Good.isSaved {s : Sch} {F : Nat} {v : Val} {c : CNode} {w : List Bytes} (hg : Good s F v c w) (hroot : s.root = v.name)
    (hfew : 12 + 2 * (s.fields v.name).length < 65536) (hok : v.Ok s) (hy : 8 + tot w < 4294967296) :
    ∃ d, c.finish = some d ∧ Saved s v d (8 + tot w) := by
  obtain ⟨h1, h2, h3, -⟩ := hg.saved []
  refine ⟨_, h1, fun sp => ⟨hroot, hfew, ?_⟩, fun sp => hg.laid _ 8 (h2 sp), hok, hy⟩
  have hp := hg.pos
  refine holds_flat (by intro h; have := congrArg List.length h; rw [putLE_length] at this; cases this) ?_ ?_
  · intro k hk
    rw [putLE_length] at hk
    unfold header
    rw [List.append_assoc, List.getElem?_append_left (by rw [putLE_length]; omega), Nat.zero_add, hp, Nat.add_comm 8]
  · rw [List.length_append, header_length, putLE_length]; omega

/-- C97: a message with a value of any depth is built and saved; then, any number of times, it is opened, fields of one table
anywhere in it are set, and it is saved.  What is opened at the end reads as the value with all that was set, and the bytes are a
flatbuffers message with it.

What is missing: the conditions of `Sess.Fits` on the order of settings, several fields of variable length in one table, and
messages of other programs. -/
theorem edit_deep_partial (s : Sch) (F : Nat) (v : Val) (h : v.Fits s (F + 1)) (hF : v.need ≤ F) (hok : v.Ok s) (hK : v.deep ≤ F + 1)
    (hroot : s.root = v.name) (hfew : 12 + 2 * (s.fields v.name).length < 65536) (l : List Sess) (hl : SessFits s v l)
    (hy : 8 + (4 + 2 * (s.fields v.name).length + v.data s) + valLen (l.flatMap Sess.ops) < 4294967296) (sp : Bytes) :
    ∃ c d d' r, v.node s (F + 1) = some c ∧ c.finish = some d ∧ l.foldlM (editAt s (F + 1) v.name) d = some d' ∧
      openByBuf v.name ⟨d', sp⟩ = some r ∧ (l.foldl Val.edit v).Reads s r ∧ (l.foldl Val.edit v).Wire s d' (rootPos d') := by
  obtain ⟨c, w, hg⟩ := val_good s F v h hF
  rw [← hg.len] at hy
  obtain ⟨d, h1, h2⟩ := hg.isSaved hroot hfew hok (by omega)
  obtain ⟨d', y', h3, h4, h5, -⟩ := h2.edits l hl hy hK
  obtain ⟨⟨r, h6, h7⟩, h8⟩ := h4.reads sp
  exact ⟨c, d, d', r, hg.node, h1, h3, by rw [← h5]; exact h6, h7, h8⟩

/-- C97: before saving, too, the table reads as set, and so does the message from its root. -/
theorem edit_now_partial (s : Sch) (F : Nat) (v : Val) (h : v.Fits s (F + 1)) (hF : v.need ≤ F) (hok : v.Ok s) (hK : v.deep ≤ F + 1)
    (hroot : s.root = v.name) (hfew : 12 + 2 * (s.fields v.name).length < 65536) (l : List Sess) (hl : SessFits s v l) (q : Sess)
    (hq : q.Fits s (l.foldl Val.edit v))
    (hy : 8 + (4 + 2 * (s.fields v.name).length + v.data s) + valLen (l.flatMap Sess.ops) + valLen q.ops < 4294967296) :
    ∃ c d d' r a b w r', v.node s (F + 1) = some c ∧ c.finish = some d ∧ l.foldlM (editAt s (F + 1) v.name) d = some d' ∧
      openByBuf v.name ⟨d', q.sp⟩ = some r ∧ walkTo s r q.path = some a ∧ runSets s (F + 1) a q.ops = some b ∧
      (l.foldl Val.edit v).sel q.path = some w ∧ (w.with q.ops).Reads s b ∧ b.rootCommon s = some r' ∧ ((l.foldl Val.edit v).edit q).Reads s r' := by
  obtain ⟨c, w, hg⟩ := val_good s F v h hF
  rw [← hg.len] at hy
  obtain ⟨d, h1, h2⟩ := hg.isSaved hroot hfew hok (by omega)
  obtain ⟨d', y', h3, h4, h5, h6, h7⟩ := h2.edits l hl (by omega) hK
  obtain ⟨r, a, b, w, X, y2, g1, g2, g3, g4, g5, g6⟩ := h4.sets hq (by omega) (by rw [h6]; exact hK)
  obtain ⟨k1, r', k2, k3⟩ := g5.reads
  refine ⟨c, d, d', r, a, b, w, r', hg.node, h1, h3, by rw [← h5]; exact g1, g2, g3, g4, k1, k2, ?_⟩
  rw [edit_eq g4]
  exact k3

/-! ## the hypotheses can be met -/

/-- `table RR { rows: [TT]; n: int32; }`, `table TT { a: int32; b: int32; u: UU; s: SS; }`, `table SS { x: int32; }`,
`table BB { n: int16; s: [byte]; }`, `union UU { SS, BB }`. -/
def ediSch : Sch where
  fields := fun n =>
    if n = "RR".toList then [⟨"[]TT".toList, ftSlice ||| ftTable, none⟩, ⟨"Int32".toList, ftBasic4, some .int32⟩]
    else if n = "TT".toList then [⟨"Int32".toList, ftBasic4, some .int32⟩, ⟨"Int32".toList, ftBasic4, some .int32⟩, ⟨"Byte".toList, ftBasic1, some .byte⟩,
      ⟨"UU".toList, ftUnion, none⟩, ⟨"SS".toList, ftTable, none⟩]
    else if n = "SS".toList then [⟨"Int32".toList, ftBasic4, some .int32⟩]
    else if n = "BB".toList then [⟨"Int16".toList, ftBasic2, some .int16⟩, ⟨"[]byte".toList, ftSlice ||| ftBasic1, none⟩]
    else []
  unions := fun n => if n = "UU".toList then some ["SS".toList, "BB".toList] else none
  root := "RR".toList

theorem edi_RR : DeepType ediSch "RR".toList where
  notStruct := rfl
  notList := ⟨ftTable, by decide, by decide⟩
  few := by decide
  name := by decide
  small := by decide
  plain := by decide
  flds := by
    intro i fd hfd
    match i, hfd with
    | 0, h => cases h; exact .list (Or.inl rfl)
    | 1, h => cases h; exact .inline (Or.inr (Or.inr (Or.inr (Or.inl rfl)))) (by decide)
    | n + 2, h => cases h

theorem edi_TT : DeepType ediSch "TT".toList where
  notStruct := rfl
  notList := ⟨ftTable, by decide, by decide⟩
  few := by decide
  name := by decide
  small := by decide
  plain := by decide
  flds := by
    intro i fd hfd
    match i, hfd with
    | 0, h => cases h; exact .inline (Or.inr (Or.inr (Or.inr (Or.inl rfl)))) (by decide)
    | 1, h => cases h; exact .inline (Or.inr (Or.inr (Or.inr (Or.inl rfl)))) (by decide)
    | 2, h => cases h; exact .inline (Or.inr (Or.inl rfl)) (by decide)
    | 3, h => cases h; exact .union rfl 2 _ rfl rfl rfl
    | 4, h => cases h; exact .table rfl
    | n + 5, h => cases h

theorem edi_SS : DeepType ediSch "SS".toList where
  notStruct := rfl
  notList := ⟨ftTable, by decide, by decide⟩
  few := by decide
  name := by decide
  small := by decide
  plain := by decide
  flds := by
    intro i fd hfd
    match i, hfd with
    | 0, h => cases h; exact .inline (Or.inr (Or.inr (Or.inr (Or.inl rfl)))) (by decide)
    | n + 1, h => cases h

theorem edi_BB : DeepType ediSch "BB".toList where
  notStruct := rfl
  notList := ⟨ftTable, by decide, by decide⟩
  few := by decide
  name := by decide
  small := by decide
  plain := by decide
  flds := by
    intro i fd hfd
    match i, hfd with
    | 0, h => cases h; exact .inline (Or.inr (Or.inr (Or.inl rfl))) (by decide)
    | 1, h => cases h; exact .bytes rfl rfl
    | n + 2, h => cases h

def ediInt (i n : Nat) : Setting := ⟨i, fromScalar "Int32".toList 4 n, putLE 4 n⟩
def ediTag : Setting := ⟨2, fromScalar "Byte".toList 1 2, putLE 1 2⟩
def ediShort (n : Nat) : Setting := ⟨0, fromScalar "Int16".toList 2 n, putLE 2 n⟩

def ediSS (x : Nat) : Val := .tab "SS".toList [ediInt 0 x] .none []
def ediBB (bs : Bytes) : Val := .tab "BB".toList [ediShort 7] (.bytes 1 (fromBytes bs) bs) []
/-- An element with a table. -/
def ediA (a x : Nat) : Val := .tab "TT".toList [ediInt 0 a] (.table 4 false (ediSS x)) []
/-- An element with a member of a union. -/
def ediB (a : Nat) (bs : Bytes) : Val := .tab "TT".toList [ediInt 0 a, ediTag] (.union 2 false (ediBB bs)) []
def ediVal (bs : Bytes) : Val := .tab "RR".toList [] (.list 0 false "TT".toList (.cons false (ediA 1 11) (.cons false (ediB 2 bs) (.cons true (ediA 3 33) .nil)))) []

theorem edi_no {nm : Name} {ops : List Setting} (hn : ∀ fd ∈ ediSch.fields nm, fd.grp ≠ ftUnion) : TagsOk ediSch nm (lastSet ops) := by
  intro i fd hfd hg
  exact absurd hg (hn fd (List.mem_of_getElem? hfd))

theorem edi_tags {ops : List Setting} (h : ∀ v, lastSet ops 2 = some v → v = [2]) : TagsOk ediSch "TT".toList (lastSet ops) := by
  intro i fd hfd hg v hv
  match i, hfd with
  | 0, hfd => cases hfd; exact absurd hg (by decide)
  | 1, hfd => cases hfd; exact absurd hg (by decide)
  | 2, hfd => cases hfd; exact ⟨2, h v hv, by decide⟩
  | 3, hfd => cases hfd; exact absurd hg (by decide)
  | n + 4, h => cases h

theorem edi_int (nm : Name) (i n : Nat) (h : (ediSch.fields nm)[i]? = some ⟨"Int32".toList, ftBasic4, some .int32⟩) :
    InlSrc ediSch nm (ediInt i n).field (ediInt i n).node (ediInt i n).val :=
  fromScalar_src _ _ i 4 n ⟨"Int32".toList, ftBasic4, some .int32⟩ (by decide) h (by decide) rfl

theorem edi_short (n : Nat) : InlSrc ediSch "BB".toList (ediShort n).field (ediShort n).node (ediShort n).val :=
  fromScalar_src _ _ 0 2 n ⟨"Int16".toList, ftBasic2, some .int16⟩ (by decide) rfl (by decide) rfl

theorem edi_tag : InlSrc ediSch "TT".toList ediTag.field ediTag.node ediTag.val :=
  fromScalar_src _ _ 2 1 2 ⟨"Byte".toList, ftBasic1, some .byte⟩ (by decide) rfl (by decide) rfl

theorem edi_wide {nm : Name} (h : ∀ fd ∈ ediSch.fields nm, isFieldSlice fd.grp = true ∨ fd.grp = ftUnion ∨ fd.grp = ftTable ∨ fieldWidth ediSch fd ≤ 4) (m : Nat) (hm : 4 ≤ m) (i : Nat)
    (fd : FieldT) (hfd : (ediSch.fields nm)[i]? = some fd) (hg : InlGrp fd.grp) : fieldWidth ediSch fd ≤ m := by
  rcases h fd (List.mem_of_getElem? hfd) with h | h | h | h
  · rcases hg with h' | h' | h' | h' | h' <;> rw [h'] at h <;> cases h
  · rw [h] at hg; exact absurd hg (by unfold InlGrp; decide)
  · rw [h] at hg; exact absurd hg (by unfold InlGrp; decide)
  · omega

theorem ediSS_fits (fuel x : Nat) : (ediSS x).Fits ediSch (fuel + 1) := by
  unfold ediSS
  rw [Val.Fits, Sub.Fits]
  refine ⟨edi_SS, ?_, fun _ => (by intro h; cases h), ?_, ?_, edi_no (by decide), trivial⟩
  · intro o ho
    simp only [List.append_nil, List.mem_singleton] at ho
    subst ho
    exact edi_int _ 0 x rfl
  · intro i fd hfd hg _ _
    exact edi_wide (by decide) _ (Nat.le_trans (dataLen_four ..) (Nat.le_add_right _ _)) i fd hfd hg
  · intro i fd hfd hg
    exact absurd hg ((show ∀ fd ∈ ediSch.fields "SS".toList, fd.grp ≠ ftSlice ||| ftBasic1 by decide) fd (List.mem_of_getElem? hfd))

theorem ediBB_fits (fuel : Nat) (bs : Bytes) (hb : bs.length < 4294967296) : (ediBB bs).Fits ediSch (fuel + 1) := by
  unfold ediBB
  rw [Val.Fits, Sub.Fits]
  refine ⟨edi_BB, ?_, fun h => (by cases h), ?_, ?_, edi_no (by decide), fromBytes_src _ _ 1 fuel bs ⟨"[]byte".toList, ftSlice ||| ftBasic1, none⟩ rfl rfl rfl hb, hb⟩
  · intro o ho
    simp only [List.append_nil, List.mem_singleton] at ho
    subst ho
    exact edi_short 7
  · intro i fd hfd hg _ _
    exact edi_wide (by decide) _ (Nat.le_trans (dataLen_four ..) (Nat.le_add_right _ _)) i fd hfd hg
  · intro i fd hfd hg
    match i, hfd with
    | 0, h => cases h; exact absurd hg (by decide)
    | 1, h => rfl
    | n + 2, h => cases h

theorem ediA_fits (fuel a x : Nat) : (ediA a x).Fits ediSch (fuel + 1) := by
  unfold ediA
  rw [Val.Fits, Sub.Fits]
  refine ⟨edi_TT, ?_, fun h => (by cases h), ?_, ?_, edi_tags (fun v hv => by cases hv), ediSS_fits fuel x, ⟨"SS".toList, ftTable, none⟩, rfl, rfl, rfl⟩
  · intro o ho
    simp only [List.append_nil, List.mem_singleton] at ho
    subst ho
    exact edi_int _ 0 a rfl
  · intro i fd hfd hg _ _
    exact edi_wide (by decide) _ (Nat.le_trans (dataLen_four ..) (Nat.le_add_right _ _)) i fd hfd hg
  · intro i fd hfd hg
    exact absurd hg ((show ∀ fd ∈ ediSch.fields "TT".toList, fd.grp ≠ ftSlice ||| ftBasic1 by decide) fd (List.mem_of_getElem? hfd))

theorem ediB_fits (fuel a : Nat) (bs : Bytes) (hb : bs.length < 4294967296) : (ediB a bs).Fits ediSch (fuel + 1) := by
  have ht : TagsOk ediSch "TT".toList (lastSet [ediInt 0 a, ediTag]) := edi_tags (fun v hv => by
    have : lastSet [ediInt 0 a, ediTag] 2 = some [2] := rfl
    rw [this] at hv
    cases hv; rfl)
  unfold ediB
  rw [Val.Fits, Sub.Fits]
  refine ⟨edi_TT, ?_, fun h => (by cases h), ?_, ?_, ht, ediBB_fits fuel bs hb, ht, ⟨"UU".toList, ftUnion, none⟩, 2, rfl, rfl, rfl, by decide, rfl⟩
  · intro o ho
    simp only [List.append_nil, List.mem_cons, List.not_mem_nil, or_false] at ho
    rcases ho with rfl | rfl
    · exact edi_int _ 0 a rfl
    · exact edi_tag
  · intro i fd hfd hg _ _
    exact edi_wide (by decide) _ (Nat.le_trans (dataLen_four ..) (Nat.le_add_right _ _)) i fd hfd hg
  · intro i fd hfd hg
    exact absurd hg ((show ∀ fd ∈ ediSch.fields "TT".toList, fd.grp ≠ ftSlice ||| ftBasic1 by decide) fd (List.mem_of_getElem? hfd))

theorem ediVal_fits (fuel : Nat) : (ediVal [65, 66, 67]).Fits ediSch (fuel + 1) := by
  unfold ediVal
  rw [Val.Fits, Sub.Fits, Vals.Fits, Vals.Fits, Vals.Fits, Vals.Fits]
  refine ⟨edi_RR, fun o ho => (by cases ho), fun h => (by cases h), ?_, ?_, edi_no (by decide),
    ⟨ediA_fits fuel 1 11, rfl, ediB_fits fuel 2 _ (by decide), rfl, ediA_fits fuel 3 33, rfl, trivial⟩,
    ⟨ftTable, by decide, by decide, by decide, by decide, by decide⟩, by decide, ⟨"[]TT".toList, ftSlice ||| ftTable, none⟩, rfl, rfl, rfl⟩
  · intro i fd hfd hg _ _
    exact edi_wide (by decide) _ (Nat.le_trans (dataLen_four ..) (Nat.le_add_right _ _)) i fd hfd hg
  · intro i fd hfd hg
    exact absurd hg ((show ∀ fd ∈ ediSch.fields "RR".toList, fd.grp ≠ ftSlice ||| ftBasic1 by decide) fd (List.mem_of_getElem? hfd))

theorem edi_nostruct {nm : Name} (h : ∀ fd ∈ ediSch.fields nm, fd.grp ≠ ftStruct) : ∀ fd ∈ ediSch.fields nm, fd.grp = ftStruct → PlainStruct ediSch fd.tname :=
  fun fd hfd hg => absurd hg (h fd hfd)

theorem edi_nounion {nm : Name} (h : ∀ fd ∈ ediSch.fields nm, fd.grp ≠ ftUnion) : ∀ fd ∈ ediSch.fields nm, fd.grp = ftUnion →
    TI.TName fd.tname ∧ ediSch.isStruct fd.tname = false ∧ ediSch.fields fd.tname = [] :=
  fun fd hfd hg => absurd hg (h fd hfd)

theorem edi_nolist {nm : Name} {sub : Sub} (h : ∀ fd ∈ ediSch.fields nm, isFieldSlice fd.grp = false) : ∀ i fd, (ediSch.fields nm)[i]? = some fd → isFieldSlice fd.grp = true → sub.field = some i := by
  intro i fd hfd hg
  rw [h fd (List.mem_of_getElem? hfd)] at hg
  cases hg

theorem edi_UU : ∀ fd ∈ ediSch.fields "TT".toList, fd.grp = ftUnion →
    TI.TName fd.tname ∧ ediSch.isStruct fd.tname = false ∧ ediSch.fields fd.tname = [] := by
  intro fd hfd hg
  obtain ⟨i, h, e⟩ := List.mem_iff_getElem.mp hfd
  have e := (List.getElem?_eq_getElem h).trans (congrArg some e)
  match i, e with
  | 0, e => cases e; cases hg
  | 1, e => cases e; cases hg
  | 2, e => cases e; cases hg
  | 3, e => cases e; exact ⟨⟨by decide, by decide⟩, rfl, by decide⟩
  | 4, e => cases e; cases hg
  | n + 5, e => cases e

theorem fits_src {s : Sch} {fuel : Nat} {nm : Name} {pre post : List Setting} {sub : Sub} (h : (Val.tab nm pre sub post).Fits s fuel) :
    DeepType s nm ∧ (∀ o ∈ pre ++ post, InlSrc s nm o.field o.node o.val) ∧ TagsOk s nm (lastSet (pre ++ post)) := by
  rw [Val.Fits] at h
  exact ⟨h.1, h.2.1, h.2.2.2.2.2.1⟩

theorem ediA_ok (a x : Nat) : (ediA a x).Ok ediSch := by
  obtain ⟨h1, h2, h3⟩ := fits_src (ediA_fits 0 a x)
  obtain ⟨g1, g2, g3⟩ := fits_src (ediSS_fits 0 x)
  unfold ediA ediSS
  rw [Val.Ok, Sub.Ok, Val.Ok, Sub.Ok]
  exact ⟨h1, h2, h3, edi_nostruct (by decide), edi_UU, edi_nolist (by decide),
    ⟨g1, g2, g3, edi_nostruct (by decide), edi_nounion (by decide), edi_nolist (by decide), trivial⟩, ⟨"SS".toList, ftTable, none⟩, rfl, rfl, rfl⟩

theorem ediB_ok (a : Nat) (bs : Bytes) (hb : bs.length < 4294967296) : (ediB a bs).Ok ediSch := by
  obtain ⟨h1, h2, h3⟩ := fits_src (ediB_fits 0 a bs hb)
  obtain ⟨g1, g2, g3⟩ := fits_src (ediBB_fits 0 bs hb)
  unfold ediB ediBB
  rw [Val.Ok, Sub.Ok, Val.Ok, Sub.Ok]
  refine ⟨h1, h2, h3, edi_nostruct (by decide), edi_UU, edi_nolist (by decide),
    ⟨g1, g2, g3, edi_nostruct (by decide), edi_nounion (by decide), ?_, ⟨"[]byte".toList, ftSlice ||| ftBasic1, none⟩, rfl, rfl⟩,
    ⟨"UU".toList, ftUnion, none⟩, 2, rfl, rfl, rfl, by decide, rfl⟩
  intro i fd hfd hg
  match i, hfd with
  | 0, h => cases h; cases hg
  | 1, h => rfl
  | n + 2, h => cases h

theorem ediVal_ok : (ediVal [65, 66, 67]).Ok ediSch := by
  obtain ⟨h1, h2, h3⟩ := fits_src (ediVal_fits 0)
  unfold ediVal
  rw [Val.Ok, Sub.Ok, Vals.Ok, Vals.Ok, Vals.Ok, Vals.Ok]
  refine ⟨h1, h2, h3, edi_nostruct (by decide), edi_nounion (by decide), ?_, ⟨ediA_ok 1 11, rfl, ediB_ok 2 _ (by decide), rfl, ediA_ok 3 33, rfl, trivial⟩,
    ⟨ftTable, by decide, by decide, by decide, by decide, by decide⟩, ⟨"[]TT".toList, ftSlice ||| ftTable, none⟩, rfl, rfl, rfl⟩
  intro i fd hfd hg
  match i, hfd with
  | 0, h => rfl
  | 1, h => cases h; cases hg
  | n + 2, h => cases h

/-- The number of a member of a union, which is there; a number of the first element, which is not; the number of the table in it;
the number of the root, which is not there. -/
def ediSess : List Sess := [⟨[], [.elem 0 1, .member 3], [ediShort 9]⟩, ⟨[1, 2], [.elem 0 0], [ediInt 1 5, ediInt 0 6]⟩,
  ⟨[], [.elem 0 0, .field 4], [ediInt 0 12]⟩, ⟨[], [], [ediInt 1 99]⟩]

theorem edi_one {nm : Name} {o : Setting} (h : InlSrc ediSch nm o.field o.node o.val) : ∀ o' ∈ [o], InlSrc ediSch nm o'.field o'.node o'.val := by
  intro o' ho
  cases List.mem_singleton.mp ho
  exact h

theorem ediSess_fits : SessFits ediSch (ediVal [65, 66, 67]) ediSess := by
  have h0 := ediVal_ok
  obtain ⟨f1, h1⟩ := Sess.fits_of (w := ediBB [65, 66, 67]) (q := ⟨[], [.elem 0 1, .member 3], [ediShort 9]⟩) h0 rfl (edi_one (edi_short 9)) (by decide) (Or.inl (by decide))
  obtain ⟨f2, h2⟩ := Sess.fits_of (w := ediA 1 11) (q := ⟨[1, 2], [.elem 0 0], [ediInt 1 5, ediInt 0 6]⟩) h1 rfl (by
    intro o ho
    rcases List.mem_cons.mp ho with rfl | ho
    · exact edi_int "TT".toList 1 5 rfl
    · cases List.mem_singleton.mp ho
      exact edi_int "TT".toList 0 6 rfl) (by decide) (Or.inr ⟨_, _, rfl, rfl⟩)
  obtain ⟨f3, h3⟩ := Sess.fits_of (w := ediSS 11) (q := ⟨[], [.elem 0 0, .field 4], [ediInt 0 12]⟩) h2 rfl (edi_one (edi_int "SS".toList 0 12 rfl)) (by decide) (Or.inl (by decide))
  obtain ⟨f4, -⟩ := Sess.fits_of (w := (ediSess.take 3).foldl Val.edit (ediVal [65, 66, 67])) (q := ⟨[], [], [ediInt 1 99]⟩) h3 rfl (edi_one (edi_int "RR".toList 1 99 rfl)) (by decide) (Or.inr ⟨_, _, rfl, rfl⟩)
  exact ⟨f1, f2, f3, f4, trivial⟩

example : ∃ c d d' r, (ediVal [65, 66, 67]).node ediSch 30 = some c ∧ c.finish = some d ∧ ediSess.foldlM (editAt ediSch 30 "RR".toList) d = some d' ∧
    openByBuf "RR".toList ⟨d', []⟩ = some r ∧ (ediSess.foldl Val.edit (ediVal [65, 66, 67])).Reads ediSch r ∧
    (ediSess.foldl Val.edit (ediVal [65, 66, 67])).Wire ediSch d' (rootPos d') :=
  edit_deep_partial ediSch 29 _ (ediVal_fits 29) (by decide) ediVal_ok (by decide) rfl (by decide) ediSess ediSess_fits (by decide) []

end Fbs.Props
