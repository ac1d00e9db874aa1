import Verif.Props.EqualDeep
import Verif.Props.Deep
/-!
# C75 for values built by the API: Equal after saving and opening
-/

namespace Fbs.Props
open Fbs Fbs.CNode

/-- The fields from the `i`-th on: numbers, and `put` at the field `sf`. -/
def fieldsE (cur : Nat → Option Bytes) (sf : Option Nat) (put : EFs → EFs) : Nat → Nat → EFs
  | 0, _ => .nil
  | n + 1, i => if sf = some i then put (fieldsE cur sf put n (i + 1)) else .num ((cur i).getD []) (fieldsE cur sf put n (i + 1))

mutual
/-- The contents of a value. -/
def Val.ev (s : Sch) : Val → EV
  | .tab nm pre sub post => .node nm (fieldsE (lastSet (pre ++ post)) sub.field (sub.put s) (s.fields nm).length 0)
def Sub.put (s : Sch) : Sub → EFs → EFs
  | .none, r => r
  | .bytes _ _ data, r => .raw data r
  | .table _ _ v, r => .sub (v.ev s) r
  | .union _ _ v, r => .sub (v.ev s) r
  | .list _ _ _ vs, r => .lst (vs.evs s) r
def Vals.evs (s : Sch) : Vals → EVs
  | .nil => .nil
  | .cons _ v vs => .cons (v.ev s) (vs.evs s)
end

/-- A number of a known type. -/
def NumFld (fd : FieldT) : Prop := (fd.grp = ftBasic1 ∨ fd.grp = ftBasic2 ∨ fd.grp = ftBasic4 ∨ fd.grp = ftBasic8)

mutual
/-- Specification: every field is set, and is a number or the one of variable length. -/
def Val.Full (s : Sch) : Val → Prop
  | .tab nm pre sub post => (∀ i fd, (s.fields nm)[i]? = some fd → sub.field ≠ some i → NumFld fd ∧ (lastSet (pre ++ post) i).isSome = true) ∧
      sub.Full s nm
def Sub.Full (s : Sch) (nm : Name) : Sub → Prop
  | .none => True
  | .bytes i _ _ => ∃ fd, (s.fields nm)[i]? = some fd ∧ fd.size = 0
  | .table _ _ v => v.Full s
  | .union _ _ v => v.Full s
  | .list _ _ _ vs => vs.Full s
def Vals.Full (s : Sch) : Vals → Prop
  | .nil => True
  | .cons _ v vs => v.Full s ∧ vs.Full s
end

theorem fieldsE_len (cur : Nat → Option Bytes) (sf : Option Nat) (put : EFs → EFs) (hp : ∀ r, sf ≠ none → (put r).len = r.len + 1) :
    ∀ n i, (fieldsE cur sf put n i).len = n
  | 0, _ => rfl
  | n + 1, i => by
    rw [fieldsE]
    split
    · rename_i h
      rw [hp _ (by rw [h]; simp), fieldsE_len cur sf put hp n (i + 1)]
    · rw [EFs.len, fieldsE_len cur sf put hp n (i + 1)]

theorem put_len (s : Sch) (sub : Sub) (r : EFs) (h : sub.field ≠ none) : (sub.put s r).len = r.len + 1 := by
  cases sub with
  | none => exact absurd rfl h
  | _ => rw [Sub.put, EFs.len]

theorem evs_len (s : Sch) : ∀ vs : Vals, (vs.evs s).len = vs.count
  | .nil => by rw [Vals.evs, EVs.len, Vals.count]
  | .cons _ _ vs => by rw [Vals.evs, EVs.len, Vals.count, evs_len s vs]

theorem fieldAt_listLen {s : Sch} {d n : CNode} {i : Nat} (h : d.fieldAt s i = some (some n)) (hst : s.isStruct d.name = false)
    (hg : (d.fieldT s i).grp = ftSlice ||| ftTable) : n.listLen = some n.vi.vlen := by
  unfold fieldAt at h
  simp only [Option.bind_eq_bind, pure, hst, Bool.false_eq_true, if_false] at h
  obtain ⟨z, hz, h⟩ := Option.bind_eq_some_iff.mp h
  rw [hg] at h
  split at h
  · cases h
  rename_i hz0
  rw [if_neg (by decide), if_neg (by decide), if_neg (by decide), if_pos (by decide)] at h
  obtain ⟨v, hv, h⟩ := Option.bind_eq_some_iff.mp h
  obtain ⟨n', hn', h⟩ := Option.bind_eq_some_iff.mp h
  simp only [Option.some.injEq] at h
  subst h
  unfold infoPosList at hv
  simp only [Option.bind_eq_bind, pure] at hv
  obtain ⟨p, hp, hv⟩ := Option.bind_eq_some_iff.mp hv
  rw [hz, Option.bind_some, if_neg hz0] at hv
  obtain ⟨o, ho, hv⟩ := Option.bind_eq_some_iff.mp hv
  obtain ⟨l, hl, hv⟩ := Option.bind_eq_some_iff.mp hv
  simp only [Option.some.injEq] at hv
  subst hv
  unfold listLen CNode.u32 at *
  simp only
  rw [(newNode_pos hn').2.2.2]
  rw [show ((p : Int) + o + 4 - 4) = p + o by omega]
  exact hl

theorem fieldT_of {s : Sch} {c : CNode} {nm : Name} {i : Nat} {fd : FieldT} (hn : c.name = nm) (h : (s.fields nm)[i]? = some fd) : c.fieldT s i = fd := by
  unfold fieldT
  rw [if_neg (by omega), hn, Int.toNat_natCast, h]
  rfl

theorem list_at_end {s : Sch} {l : CNode} {t : Name} {n : Nat} (hn : l.name = '[' :: ']' :: t) (hl : l.listLen = some n) :
    l.at_ s (n : Int) = some (.error .invalidIndex) := by
  unfold at_
  have h1 : l.isList = some true := by
    unfold isList
    rw [hn, if_neg (by simp), if_neg (by simp)]
    rfl
  rw [h1]
  simp only [Option.bind_eq_bind, Option.bind_some, pure]
  rw [hl]
  simp

mutual
theorem val_shows {s : Sch} {fuel : Nat} : ∀ (v : Val) (c : CNode), v.Fits s fuel → v.Full s → v.Reads s c → c.vi.pos ≤ 0 → ShowsV s c (v.ev s)
  | .tab nm pre sub post, c, hf, hu, hr, hv => by
    rw [Val.Fits] at hf
    obtain ⟨hD, hset, -, -, -, -, hsub⟩ := hf
    rw [Val.Full] at hu
    obtain ⟨hu1, hu2⟩ := hu
    rw [Val.Reads] at hr
    obtain ⟨hn, hr1, hr2⟩ := hr
    rw [Val.ev, ShowsV]
    refine ⟨hn, hv, fieldsE_len _ _ _ (fun r h => put_len s sub r h) _ _, ?_⟩
    have loop : ∀ (n i : Nat), i + n = (s.fields nm).length →
        ShowsF s c i (if i = 0 then none else if sub.field = some (i - 1) then none else some ((lastSet (pre ++ post) (i - 1)).getD []))
          (fieldsE (lastSet (pre ++ post)) sub.field (sub.put s) n i) := by
      intro n
      induction n with
      | zero => intro i _; rw [fieldsE, ShowsF]; trivial
      | succ n ih =>
        intro i hi
        have := ih (i + 1) (by omega)
        rw [if_neg (by omega), Nat.add_sub_cancel] at this
        rw [fieldsE]
        by_cases hsf : sub.field = some i
        · rw [if_pos hsf] at this ⊢
          refine sub_shows sub nm (lastSet pre) (lastSet (pre ++ post)) c hsub hu2 hr2 hn hD.notStruct hr1 i _ _ hsf ?_ this
          intro h0 hne
          rw [if_neg (by omega), if_neg hne]
        · rw [if_neg hsf] at this ⊢
          obtain ⟨fd, hfd⟩ : ∃ fd, (s.fields nm)[i]? = some fd := ⟨_, List.getElem?_eq_getElem (by omega)⟩
          obtain ⟨hg, hcur⟩ := hu1 i fd hfd hsf
          obtain ⟨w, hw⟩ := Option.isSome_iff_exists.mp hcur
          obtain ⟨nd, h1, -, -, h4⟩ := (hr1 i (by omega) hsf).2 w hw
          rw [hw] at this ⊢
          have hwl : w.length = fd.size := by
            unfold lastSet at hw
            obtain ⟨o, ho, rfl⟩ := Option.map_eq_some_iff.mp hw
            have hm := List.mem_filter.mp (List.mem_of_getLast? ho)
            obtain ⟨fd', q1, -, -, q2, -⟩ := hset o hm.1
            have : o.field = i := by simpa using hm.2
            rw [this, hfd] at q1
            cases q1
            rw [q2]
            unfold fieldWidth
            rcases hg with hg | hg | hg | hg <;> rw [hg, if_neg (by decide), if_neg (by decide)]
          have hT := fieldT_of hn hfd
          rw [ShowsF, hT]
          refine ⟨⟨nd, h1, h4⟩, ?_, ?_, ?_, hwl, this⟩
          all_goals (rcases hg with hg | hg | hg | hg <;> rw [hg] <;> decide)
    exact loop _ 0 (by omega)
theorem sub_shows {s : Sch} {fuel : Nat} : ∀ (sub : Sub) (nm : Name) (before cur : Nat → Option Bytes) (c : CNode), sub.Fits s fuel nm before cur → sub.Full s nm →
    sub.Reads s c → c.name = nm → s.isStruct nm = false → (∀ i, i < (s.fields nm).length → sub.field ≠ some i → FieldRead s nm c i (cur i)) →
    ∀ (i : Nat) (r : EFs) (prev : Option Bytes), sub.field = some i → (0 < i → sub.field ≠ some (i - 1) → prev = some ((cur (i - 1)).getD [])) →
      ShowsF s c (i + 1) none r → ShowsF s c i prev (sub.put s r)
  | .none, nm, before, cur, c, hf, hu, hr, hn, hst, hfr, i, r, prev, hi, hp, ht => by cases hi
  | .bytes j f data, nm, before, cur, c, hf, hu, hr, hn, hst, hfr, i, r, prev, hi, hp, ht => by
    cases hi
    rw [Sub.Fits] at hf
    obtain ⟨⟨fd, q1, q2, -⟩, -⟩ := hf
    rw [Sub.Full] at hu
    obtain ⟨fd', u1, u2⟩ := hu
    rw [q1] at u1
    cases u1
    rw [Sub.Reads] at hr
    obtain ⟨nd, h1, h2⟩ := hr
    rw [Sub.put, ShowsF, fieldT_of hn q1, q2]
    exact ⟨⟨nd, h1, by rw [if_pos (by decide)]; exact h2⟩, by decide, by decide, by decide, u2, ht⟩
  | .table j fl v, nm, before, cur, c, hf, hu, hr, hn, hst, hfr, i, r, prev, hi, hp, ht => by
    cases hi
    rw [Sub.Fits] at hf
    obtain ⟨hfv, fd, q1, q2, -⟩ := hf
    rw [Sub.Full] at hu
    rw [Sub.Reads] at hr
    obtain ⟨nd, h1, h2⟩ := hr
    have hT := fieldT_of hn q1
    have hvi := fieldAt_vi h1 (Or.inr (Or.inr (Or.inr ⟨by rw [hT, q2]; decide, by rw [hT, q2]; decide⟩)))
    rw [Sub.put, ShowsF, hT, q2]
    exact ⟨⟨nd, val_shows v nd hfv hu h2 (by rw [hvi]; decide), Or.inl ⟨by decide, by decide, by decide, h1⟩⟩, ht⟩
  | .union j fl v, nm, before, cur, c, hf, hu, hr, hn, hst, hfr, i, r, prev, hi, hp, ht => by
    cases hi
    rw [Sub.Fits] at hf
    obtain ⟨hfv, -, fd, tag, q1, q2, q3, q4, q5⟩ := hf
    rw [Sub.Full] at hu
    rw [Sub.Reads] at hr
    obtain ⟨nd, h1, h2⟩ := hr
    have hT := fieldT_of hn q1
    obtain ⟨u, w1, w2, w3, w4, w5⟩ := followUnion_node h1
    have hvi : nd.vi = {} := by
      rw [w4]
      exact fieldAt_vi w1 (Or.inr (Or.inr (Or.inl (by rw [hT, q2]; decide))))
    have hl : j + 1 < (s.fields nm).length := (List.getElem?_eq_some_iff.mp q1).1
    obtain ⟨m, m1, -, -, m4⟩ := (hfr j (by omega) (by simp [Sub.field])).2 [tag] q3
    rw [Sub.put, ShowsF, hT, q2]
    refine ⟨⟨nd, val_shows v nd hfv hu h2 (by rw [hvi]; decide), Or.inr ⟨by decide, ?_, [tag], m, ?_, rfl, ?_, m4⟩⟩, ht⟩
    · rw [w5]; exact h1
    · rw [hp (by omega) (by simp [Sub.field]), Nat.add_sub_cancel, q3]; rfl
    · rw [show (((j + 1 : Nat) : Int) - 1) = (j : Int) by omega]; exact m1
  | .list j fl t vs, nm, before, cur, c, hf, hu, hr, hn, hst, hfr, i, r, prev, hi, hp, ht => by
    cases hi
    rw [Sub.Fits] at hf
    obtain ⟨hfv, -, -, fd, q1, q2, q3⟩ := hf
    rw [Sub.Full] at hu
    rw [Sub.Reads] at hr
    obtain ⟨l, h1, h2, h3⟩ := hr
    have hT := fieldT_of hn q1
    have hname : l.name = '[' :: ']' :: t := by rw [fieldAt_tname h1, hT, q3]
    have hll := fieldAt_listLen h1 (by rw [hn]; exact hst) (by rw [hT, q2])
    rw [h2] at hll
    have hpos := fieldAt_list_pos h1 (by rw [hn]; exact hst) (by rw [hT, q2]; decide) (by rw [hT, q2]; decide) (by rw [hT, q2]; decide)
    rw [Sub.put, ShowsF, hT, q2]
    refine ⟨⟨l, h1, hpos, ?_, vals_shows vs t l 0 vs.count hfv hu h3 (by omega) ?_⟩, by decide, by decide, by decide, ht⟩
    · rw [evs_len]; exact (Option.some.inj hll).symm
    · exact list_at_end hname h2
theorem vals_shows {s : Sch} {fuel : Nat} : ∀ (vs : Vals) (t : Name) (l : CNode) (k n : Nat), vs.Fits s fuel t → vs.Full s → vs.Reads s l k → k + vs.count = n →
    l.at_ s (n : Int) = some (.error .invalidIndex) → ShowsE s l k (vs.evs s)
  | .nil, t, l, k, n, hf, hu, hr, hk, he => by
    rw [Vals.evs, ShowsE]
    obtain rfl : k = n := by rw [Vals.count] at hk; omega
    exact ⟨_, he⟩
  | .cons fl v vs, t, l, k, n, hf, hu, hr, hk, he => by
    rw [Vals.Fits] at hf
    rw [Vals.Full] at hu
    rw [Vals.Reads] at hr
    obtain ⟨⟨nd, h1, h2⟩, h3⟩ := hr
    rw [Vals.evs, ShowsE]
    exact ⟨⟨nd, h1, val_shows v nd hf.1 hu.1 h2 (by rw [at_vi h1]; decide)⟩,
      vals_shows vs t l (k + 1) n hf.2.2 hu.2 h3 (by rw [Vals.count] at hk; omega) he⟩
end

/-- C75: two values of one type, of any depth, every field of which is set, are built, saved and opened; Equal says of what was
opened whether the contents agree.  In particular every message is Equal to any other with the same contents, in whatever
order its fields were set and whatever was merged meanwhile. -/
theorem equal_messages_partial (s : Sch) (F k : Nat) (v1 v2 : Val) (h1 : v1.Fits s (F + 1)) (h2 : v2.Fits s (F + 1)) (u1 : v1.Full s) (u2 : v2.Full s)
    (hF1 : v1.need ≤ F) (hF2 : v2.need ≤ F) (hn : v1.name = v2.name) (hk : needV (v1.ev s) ≤ k) (sp1 sp2 : Bytes) :
    ∃ c1 d1 r1 c2 d2 r2, v1.node s (F + 1) = some c1 ∧ c1.finish = some d1 ∧ openByBuf v1.name ⟨d1, sp1⟩ = some r1 ∧
      v2.node s (F + 1) = some c2 ∧ c2.finish = some d2 ∧ openByBuf v2.name ⟨d2, sp2⟩ = some r2 ∧
      equalF s k (r1.name, some r1) (r2.name, some r2) = some (agreeV (v1.ev s) (v2.ev s)) := by
  obtain ⟨c1, d1, r1, a1, -, -, a2, -, a3, a4⟩ := value_deep_partial s F v1 h1 hF1 sp1
  obtain ⟨c2, d2, r2, b1, -, -, b2, -, b3, b4⟩ := value_deep_partial s F v2 h2 hF2 sp2
  refine ⟨c1, d1, r1, c2, d2, r2, a1, a2, a3, b1, b2, b3, ?_⟩
  have ovi : ∀ {nm : Name} {d : Slice} {r : CNode}, openByBuf nm d = some r → r.vi.pos ≤ 0 := by
    intro nm d r h
    unfold openByBuf at h
    simp only [Option.bind_eq_bind] at h
    obtain ⟨o, -, h⟩ := Option.bind_eq_some_iff.mp h
    rw [(newNode_pos h).2.2.1]
    decide
  refine equal_deep_partial s _ _ r1 r2 k (val_shows v1 r1 h1 u1 a4 (ovi a3)) (val_shows v2 r2 h2 u2 b4 (ovi b3)) ?_ hk
  cases v1; cases v2
  rw [Val.ev, Val.ev]
  exact hn

/-! ## values of any depth -/

/-- table BB { a:int16; b:[ubyte]; }  union UU { BB, TT }  table TT { u:UU; id:int32; }  table LL { id:int32; l:[TT]; } -/
def fullSch : Sch where
  fields := fun n => if n = "BB".toList then [⟨"Int16".toList, ftBasic2, some .int16⟩, ⟨"[]byte".toList, ftSlice ||| ftBasic1, none⟩]
    else if n = "TT".toList then [⟨"Byte".toList, ftBasic1, some .byte⟩, ⟨"UU".toList, ftUnion, none⟩, ⟨"Int32".toList, ftBasic4, some .int32⟩]
    else if n = "LL".toList then [⟨"Int32".toList, ftBasic4, some .int32⟩, ⟨"[]TT".toList, ftSlice ||| ftTable, none⟩] else []
  unions := fun n => if n = "UU".toList then some ["BB".toList, "TT".toList] else none

theorem full_BB : DeepType fullSch "BB".toList where
  notStruct := rfl
  notList := ⟨ftTable, by decide, by decide⟩
  few := by decide
  name := by decide
  small := by decide
  plain := by decide
  flds := by
    intro i fd hfd
    match i, hfd with
    | 0, h => cases h; exact .inline (Or.inr (Or.inr (Or.inl rfl))) (by decide)
    | 1, h => cases h; exact .bytes rfl rfl
    | n + 2, h => cases h

theorem full_TT : DeepType fullSch "TT".toList where
  notStruct := rfl
  notList := ⟨ftTable, by decide, by decide⟩
  few := by decide
  name := by decide
  small := by decide
  plain := by decide
  flds := by
    intro i fd hfd
    match i, hfd with
    | 0, h => cases h; exact .inline (Or.inr (Or.inl rfl)) (by decide)
    | 1, h => cases h; exact .union rfl 0 _ rfl rfl rfl
    | 2, h => cases h; exact .inline (Or.inr (Or.inr (Or.inr (Or.inl rfl)))) (by decide)
    | n + 3, h => cases h

theorem full_LL : DeepType fullSch "LL".toList where
  notStruct := rfl
  notList := ⟨ftTable, by decide, by decide⟩
  few := by decide
  name := by decide
  small := by decide
  plain := by decide
  flds := by
    intro i fd hfd
    match i, hfd with
    | 0, h => cases h; exact .inline (Or.inr (Or.inr (Or.inr (Or.inl rfl)))) (by decide)
    | 1, h => cases h; exact .list (Or.inl rfl)
    | n + 2, h => cases h

/-- A table with a number and bytes. -/
def fullLeaf (x : Nat) (bs : Bytes) : Val := .tab "BB".toList [⟨0, fromScalar "Int16".toList 2 x, putLE 2 x⟩] (.bytes 1 (fromBytes bs) bs) []

/-- `n + 1` unions around it; the number of every second one is set first, and every second one is merged before it is
set. -/
def fullChain (x : Nat) (bs : Bytes) : Nat → Val
  | 0 => .tab "TT".toList [⟨0, fromScalar "Byte".toList 1 1, putLE 1 1⟩] (.union 0 false (fullLeaf x bs)) [⟨2, fromScalar "Int32".toList 4 5, putLE 4 5⟩]
  | n + 1 => .tab "TT".toList [⟨2, fromScalar "Int32".toList 4 n, putLE 4 n⟩, ⟨0, fromScalar "Byte".toList 1 2, putLE 1 2⟩]
      (.union 0 (n % 2 == 0) (fullChain x bs n)) []

/-- Two of them in a list. -/
def fullList (bs : Bytes) : Val := .tab "LL".toList [⟨0, fromScalar "Int32".toList 4 9, putLE 4 9⟩]
  (.list 1 true "TT".toList (.cons false (fullChain 7 bs 2) (.cons true (fullChain 8 bs 0) .nil))) []

theorem fullLeaf_fits (fuel x : Nat) (bs : Bytes) (hb : bs.length < 4294967296) : (fullLeaf x bs).Fits fullSch (fuel + 1) := by
  unfold fullLeaf
  rw [Val.Fits, Sub.Fits]
  refine ⟨full_BB, ?_, ?_, ?_, ?_, ?_, fromBytes_src _ _ 1 fuel bs ⟨"[]byte".toList, ftSlice ||| ftBasic1, none⟩ rfl rfl rfl hb, hb⟩
  · intro o ho
    simp only [List.append_nil, List.mem_singleton] at ho
    subst ho
    exact fromScalar_src _ _ 0 2 x ⟨"Int16".toList, ftBasic2, some .int16⟩ (by decide) rfl (by decide) rfl
  · intro h; cases h
  · intro i fd hfd hg _ hz
    match i, hfd with
    | 0, h => cases hz
    | 1, h => cases h; exact absurd hg (by unfold InlGrp; decide)
    | n + 2, h => cases h
  · intro i fd hfd hg
    match i, hfd with
    | 0, h => cases h; exact absurd hg (by decide)
    | 1, h => rfl
    | n + 2, h => cases h
  · intro i fd hfd hg
    match i, hfd with
    | 0, h => cases h; exact absurd hg (by decide)
    | n + 1, h => cases h

theorem full_tags {ops : List Setting} {t : Nat} (ht : t ≤ 2) (h : lastSet ops 0 = some (putLE 1 t)) : TagsOk fullSch "TT".toList (lastSet ops) := by
  intro i fd hfd hg v hv
  match i, hfd with
  | 0, hfd =>
    rw [h] at hv
    cases hv
    cases hfd
    match t, ht with
    | 0, _ => exact ⟨0, rfl, by decide⟩
    | 1, _ => exact ⟨1, rfl, by decide⟩
    | 2, _ => exact ⟨2, rfl, by decide⟩
  | 1, hfd => cases hfd; exact absurd hg (by decide)
  | n + 2, h => cases h

theorem fullChain_fits (fuel x : Nat) (bs : Bytes) (hb : bs.length < 4294967296) (n : Nat) :
    (fullChain x bs n).Fits fullSch (fuel + 1) ∧ (fullChain x bs n).name = "TT".toList := by
  have nb : ∀ (i : Nat) fd, (fullSch.fields "TT".toList)[i]? = some fd → fd.grp ≠ ftSlice ||| ftBasic1 := by
    intro i fd hfd
    match i, hfd with
    | 0, h => cases h; decide
    | 1, h => cases h; decide
    | 2, h => cases h; decide
    | n + 3, h => cases h
  have tg : ∀ n, InlSrc fullSch "TT".toList 0 (fromScalar "Byte".toList 1 n) (putLE 1 n) := fun n =>
    fromScalar_src _ _ 0 1 n ⟨"Byte".toList, ftBasic1, some .byte⟩ (by decide) rfl (by decide) rfl
  have idn : ∀ n, InlSrc fullSch "TT".toList 2 (fromScalar "Int32".toList 4 n) (putLE 4 n) := fun n =>
    fromScalar_src _ _ 2 4 n ⟨"Int32".toList, ftBasic4, some .int32⟩ (by decide) rfl (by decide) rfl
  induction n with
  | zero =>
    refine ⟨?_, rfl⟩
    rw [fullChain, Val.Fits, Sub.Fits]
    refine ⟨full_TT, ?_, fun h => (by cases h), ?_, fun i fd hfd hg => absurd hg (nb i fd hfd), full_tags (t := 1) (by decide) rfl,
      fullLeaf_fits fuel x bs hb, full_tags (t := 1) (by decide) rfl, ⟨"UU".toList, ftUnion, none⟩, 1, rfl, rfl, rfl, by decide, rfl⟩
    · intro o ho
      simp only [List.cons_append, List.nil_append, List.mem_cons, List.not_mem_nil, or_false] at ho
      rcases ho with rfl | rfl
      · exact tg 1
      · exact idn 5
    · intro i fd hfd hg _ hz
      match i, hfd with
      | 0, h => cases hz
      | 1, h => cases h; exact absurd hg (by unfold InlGrp; decide)
      | 2, h => cases hz
      | n + 3, h => cases h
  | succ n ih =>
    refine ⟨?_, rfl⟩
    rw [fullChain, Val.Fits, Sub.Fits]
    refine ⟨full_TT, ?_, fun h => (by cases h), ?_, fun i fd hfd hg => absurd hg (nb i fd hfd), full_tags (t := 2) (by decide) rfl,
      ih.1, full_tags (t := 2) (by decide) rfl, ⟨"UU".toList, ftUnion, none⟩, 2, rfl, rfl, rfl, by decide, ?_⟩
    · intro o ho
      simp only [List.append_nil, List.mem_cons, List.not_mem_nil, or_false] at ho
      rcases ho with rfl | rfl
      · exact idn n
      · exact tg 2
    · intro i fd hfd hg _ hz
      match i, hfd with
      | 0, h => cases hz
      | 1, h => cases h; exact absurd hg (by unfold InlGrp; decide)
      | 2, h => cases hz
      | n + 3, h => cases h
    · rw [ih.2]; rfl

theorem fullChain_full (x : Nat) (bs : Bytes) (n : Nat) : (fullChain x bs n).Full fullSch := by
  induction n with
  | zero =>
    rw [fullChain, Val.Full, Sub.Full, fullLeaf, Val.Full, Sub.Full]
    refine ⟨?_, ?_, ⟨_, rfl, rfl⟩⟩
    · intro i fd hfd hs
      match i, hfd with
      | 0, h => cases h; exact ⟨Or.inl rfl, rfl⟩
      | 1, h => exact absurd rfl hs
      | 2, h => cases h; exact ⟨Or.inr (Or.inr (Or.inl rfl)), rfl⟩
      | n + 3, h => cases h
    · intro i fd hfd hs
      match i, hfd with
      | 0, h => cases h; exact ⟨Or.inr (Or.inl rfl), rfl⟩
      | 1, h => exact absurd rfl hs
      | n + 2, h => cases h
  | succ n ih =>
    rw [fullChain, Val.Full, Sub.Full]
    refine ⟨?_, ih⟩
    intro i fd hfd hs
    match i, hfd with
    | 0, h => cases h; exact ⟨Or.inl rfl, rfl⟩
    | 1, h => exact absurd rfl hs
    | 2, h => cases h; exact ⟨Or.inr (Or.inr (Or.inl rfl)), rfl⟩
    | n + 3, h => cases h

-- of any depth and contents
example (x y n : Nat) (bs cs : Bytes) (hb : bs.length < 4294967296) (hc : cs.length < 4294967296) :
    ∃ k c1 d1 r1 c2 d2 r2, (fullChain x bs n).node fullSch (k + 1) = some c1 ∧ c1.finish = some d1 ∧ openByBuf (fullChain x bs n).name ⟨d1, []⟩ = some r1 ∧
      (fullChain y cs n).node fullSch (k + 1) = some c2 ∧ c2.finish = some d2 ∧ openByBuf (fullChain y cs n).name ⟨d2, []⟩ = some r2 ∧
      equalF fullSch (needV ((fullChain x bs n).ev fullSch)) (r1.name, some r1) (r2.name, some r2) =
        some (agreeV ((fullChain x bs n).ev fullSch) ((fullChain y cs n).ev fullSch)) :=
  ⟨_, equal_messages_partial fullSch (max (fullChain x bs n).need (fullChain y cs n).need) _ _ _ (fullChain_fits _ x bs hb n).1 (fullChain_fits _ y cs hc n).1
    (fullChain_full x bs n) (fullChain_full y cs n) (Nat.le_max_left ..) (Nat.le_max_right ..)
    ((fullChain_fits 0 x bs hb n).2.trans (fullChain_fits 0 y cs hc n).2.symm) (Nat.le_refl _) [] []⟩

-- the contents differ in a number four unions down
example : agreeV ((fullChain 7 [65] 3).ev fullSch) ((fullChain 8 [65] 3).ev fullSch) = false := by decide
-- the bytes are not looked at
example : agreeV ((fullChain 7 [65] 3).ev fullSch) ((fullChain 7 [66] 3).ev fullSch) = true := by decide

theorem fullList_fits (fuel : Nat) : (fullList [65, 66]).Fits fullSch (fuel + 1) ∧ (fullList [65, 66]).Full fullSch := by
  constructor
  · unfold fullList
    rw [Val.Fits, Sub.Fits, Vals.Fits, Vals.Fits, Vals.Fits]
    refine ⟨full_LL, ?_, fun h => (by cases h), ?_, ?_, ?_,
      ⟨(fullChain_fits fuel 7 _ (by decide) 2).1, rfl, (fullChain_fits fuel 8 _ (by decide) 0).1, rfl, trivial⟩,
      ⟨ftTable, by decide, by decide, by decide, by decide, by decide⟩, by decide, ⟨"[]TT".toList, ftSlice ||| ftTable, none⟩, rfl, rfl, rfl⟩
    · intro o ho
      simp only [List.append_nil, List.mem_singleton] at ho
      subst ho
      exact fromScalar_src _ _ 0 4 9 ⟨"Int32".toList, ftBasic4, some .int32⟩ (by decide) rfl (by decide) rfl
    · intro i fd hfd hg _ hz
      match i, hfd with
      | 0, h => cases hz
      | 1, h => cases h; exact absurd hg (by unfold InlGrp; decide)
      | n + 2, h => cases h
    · intro i fd hfd hg
      match i, hfd with
      | 0, h => cases h; exact absurd hg (by decide)
      | 1, h => cases h; exact absurd hg (by decide)
      | n + 2, h => cases h
    · intro i fd hfd hg v hv
      match i, hfd with
      | 0, h => cases h; exact absurd hg (by decide)
      | n + 1, h => cases h
  · unfold fullList
    rw [Val.Full, Sub.Full, Vals.Full, Vals.Full, Vals.Full]
    refine ⟨?_, fullChain_full _ _ _, fullChain_full _ _ _, trivial⟩
    intro i fd hfd hs
    match i, hfd with
    | 0, h => cases h; exact ⟨Or.inr (Or.inr (Or.inl rfl)), rfl⟩
    | 1, h => exact absurd rfl hs
    | n + 2, h => cases h

end Fbs.Props
