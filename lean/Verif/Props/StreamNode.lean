import Verif.StreamNode
import Verif.Props.StreamExact
/-!
# C111: messages in a stream read as messages in memory
-/

namespace Fbs.Props
open Fbs

/-! ## what a program does to a buffer in memory -/

theorem new_R (d sp : Bytes) (off req : Nat) : ((Base.new ⟨d, sp⟩).R off req).data = d.drop off := by
  unfold Base.R Base.writerR Base.readerR Base.new
  simp only [lastIndexOf, List.isEmpty_nil, if_true]
  unfold Slice.len Slice.nil
  by_cases h1 : d.length < off
  · simp only [if_pos h1, List.length_nil, if_true]
    rw [if_pos (by omega), if_neg (by omega), List.drop_eq_nil_of_le (by omega)]
  · simp only [if_neg h1]
    by_cases h2 : (d.drop off).length = 0
    · rw [if_pos h2]
      rw [List.length_drop] at h2
      split
      · rw [if_neg (by omega), List.drop_eq_nil_of_le (by omega)]
      · rfl
    · rw [if_neg h2]

theorem runM_bind {α β : Type} (b : Base) (f : α → Rd β) : ∀ p : Rd α, (p.bind f).runM b = (p.runM b).bind fun a => (f a).runM b
  | .ret a => rfl
  | .panic => rfl
  | .read pos req want k => by
    rw [Rd.bind, Rd.runM, Rd.runM]
    simp only [Option.bind_eq_bind]
    rw [Option.bind_assoc]
    cases b.Ri pos req with
    | none => rfl
    | some s => simp only [Option.bind_some]; exact runM_bind b f (k (s.data.take want))
  | .past x k => by
    rw [Rd.bind, Rd.runM, Rd.runM]
    exact runM_bind b f (k _)

theorem runM_bind' {α β : Type} (b : Base) (p : Rd α) (f : α → Rd β) : (p >>= f).runM b = (p.runM b).bind fun a => (f a).runM b := runM_bind b f p

theorem runM_pure {α : Type} (b : Base) (a : α) : (pure a : Rd α).runM b = some a := rfl

theorem runM_ofGo {α : Type} (b : Base) (g : Go α) : (Rd.ofGo g).runM b = g := by cases g <;> rfl

theorem runM_getN (b : Base) (k : Nat) (pos : Int) : (SHand.getN k pos).runM b = b.getN k pos := by
  unfold SHand.getN Base.getN
  rw [Rd.runM]
  simp only [Option.bind_eq_bind]
  congr 1
  funext s
  have : getLE k (s.data.take k) = getLE k s.data := by
    unfold getLE
    rw [List.length_take, List.take_take, Nat.min_self]
    by_cases h : k ≤ s.data.length
    · rw [if_pos h, if_pos (by omega)]
    · rw [if_neg h, if_neg (by omega)]
  rw [this]
  cases getLE k s.data <;> rfl

theorem getN_len {b : Base} {pos : Int} {s : Slice} (h : b.Ri pos 2 = some s) (hl : ¬ s.len < 2) : ∃ v, b.getN 2 pos = some v := by
  unfold Base.getN
  rw [h]
  simp only [Option.bind_eq_bind, Option.bind_some]
  unfold getLE
  rw [if_pos (by unfold Slice.len at hl; omega)]
  exact ⟨_, rfl⟩

theorem runM_preLoop (b : Base) : ∀ n (cur : Int), (SHand.preLoop cur n).runM b = CNode.preLoop b cur n
  | 0, _ => rfl
  | n + 1, cur => by
    rw [SHand.preLoop, CNode.preLoop, Rd.runM]
    simp only [Option.bind_eq_bind]
    cases hs : b.Ri cur 2 with
    | none => rfl
    | some s =>
      simp only [Option.bind_some]
      have hl : (s.data.take 2).length < 2 ↔ s.len < 2 := by
        unfold Slice.len
        rw [List.length_take]
        omega
      by_cases h : s.len < 2
      · rw [if_pos h, if_pos (hl.mpr h)]
        rfl
      · rw [if_neg h, if_neg (fun hh => h (hl.mp hh)), runM_bind', runM_getN]
        obtain ⟨v, hv⟩ := getN_len hs h
        rw [hv]
        exact runM_preLoop b n (cur + 2)

theorem runM_newNode (b : Base) (nm : Name) (pos : Nat) : ((SHand.newNode nm pos).runM b).map (·.on b) = CNode.newNode nm b pos := by
  unfold SHand.newNode CNode.newNode SHand.preLoad CNode.preLoad
  simp only [runM_bind', runM_getN, runM_preLoop, Option.bind_eq_bind, Option.map_eq_bind, Option.bind_assoc, Option.bind_some, SHand.on, pure]
  rfl

theorem runM_vtab (b : Base) (h : SHand) (i : Int) : (h.vtab i).runM b = (h.on b).vtab i := by
  unfold SHand.vtab CNode.vtab
  rw [runM_bind', runM_getN]
  show _ = (b.getN 4 h.pos).bind fun voff => if (b.lenBuf : Int) ≤ (h.pos : Int) - voff + 4 + i * 2 then some h.pos
    else (b.getN 2 ((h.pos : Int) - voff + 4 + i * 2)).bind fun t => some (h.pos + t)
  congr 1
  funext voff
  rw [Rd.runM]
  by_cases hl : (b.lenBuf : Int) ≤ (h.pos : Int) - voff + 4 + i * 2
  · rw [if_pos hl, decide_eq_true hl, if_pos rfl]
    rfl
  · rw [if_neg hl, decide_eq_false hl, if_neg (by decide), runM_bind', runM_getN]
    cases hg : b.getN 2 ((h.pos : Int) - voff + 4 + i * 2) with
    | none => rfl
    | some t =>
      simp only [Option.bind_some]
      by_cases ht : t = 0
      · rw [if_pos ht, runM_bind', runM_getN, hg]
        rfl
      · rw [if_neg ht]
        rfl

theorem runM_isZero (b : Base) (h : SHand) (i : Int) : (h.isZero i).runM b = (h.on b).isZero i := by
  unfold SHand.isZero CNode.isZero
  rw [runM_bind', runM_vtab]
  rfl

theorem runM_ite {α : Type} (b : Base) (c : Prop) [Decidable c] (p q : Rd α) : (if c then p else q).runM b = if c then p.runM b else q.runM b := by
  split <;> rfl

theorem runM_table (b : Base) (h : SHand) (i : Int) : (h.table i).runM b = (h.on b).table i := by
  unfold SHand.table CNode.table
  simp only [runM_bind', runM_vtab, runM_isZero, runM_ite, runM_getN, Option.bind_eq_bind, CNode.u32, pure]
  rfl

theorem runM_infoPosList (b : Base) (h : SHand) (i : Int) : (h.infoPosList i).runM b = (h.on b).infoPosList i := by
  unfold SHand.infoPosList CNode.infoPosList
  simp only [runM_bind', runM_vtab, runM_isZero, runM_ite, runM_getN, Option.bind_eq_bind, CNode.u32, pure]
  rfl

theorem runM_fieldAt (b : Base) (s : Sch) (h : SHand) (i : Int) : ((h.fieldAt s i).runM b).map (Option.map (·.on b)) = (h.on b).fieldAt s i := by
  have hn : ∀ nm p, (CNode.newNode nm b p) = ((SHand.newNode nm p).runM b).map (·.on b) := fun nm p => (runM_newNode b nm p).symm
  have hft : (h.on b).fieldT s i = h.fieldT s i := rfl
  unfold SHand.fieldAt CNode.fieldAt
  rw [hft]
  have hnm : (h.on b).name = h.name := rfl
  have hps : (h.on b).pos = h.pos := rfl
  have hio : (h.on b).io = b := rfl
  rw [hnm, hps, hio]
  simp only [runM_ite, Option.bind_eq_bind, pure]
  by_cases hst : s.isStruct h.name = true
  · rw [if_pos hst, if_pos hst]; rfl
  rw [if_neg hst, if_neg hst, runM_bind', runM_isZero]
  cases (h.on b).isZero i with
  | none => rfl
  | some z =>
    simp only [Option.bind_some, runM_ite]
    cases z with
    | true => rfl
    | false =>
      simp only [Bool.false_eq_true, if_false]
      split
      · rw [runM_bind', runM_vtab]
        cases (h.on b).vtab i <;> rfl
      split
      · rw [runM_bind', runM_table]
        cases (h.on b).table i with
        | none => rfl
        | some p =>
          simp only [Option.bind_some]
          split
          · rfl
          · rw [runM_bind', hn]
            cases (SHand.newNode _ p.toNat).runM b <;> rfl
      split
      · rw [runM_bind', runM_infoPosList]
        cases (h.on b).infoPosList i <;> rfl
      split
      · rw [runM_bind', runM_infoPosList]
        cases (h.on b).infoPosList i with
        | none => rfl
        | some v =>
          simp only [Option.bind_some]
          rw [runM_bind', hn]
          cases (SHand.newNode _ h.pos).runM b <;> rfl
      split
      · rw [runM_bind', runM_table]
        cases (h.on b).table i with
        | none => rfl
        | some p =>
          simp only [Option.bind_some]
          split
          · rfl
          · rw [runM_bind', hn]
            cases (SHand.newNode _ p.toNat).runM b <;> rfl
      split
      · rw [runM_bind', runM_vtab]
        cases (h.on b).vtab i <;> rfl
      · rfl

theorem runM_scalar (b : Base) (k : Nat) (h : Option SHand) : (SHand.scalar k h).runM b = CNode.scalar k (h.map (·.on b)) := by
  cases h with
  | none => rfl
  | some h => exact runM_getN b k h.pos

theorem runM_listLen (b : Base) (h : SHand) : h.listLen.runM b = (h.on b).listLen := runM_getN b 4 _

theorem runM_followUnion (b : Base) (s : Sch) (h : SHand) (i : Int) :
    ((h.followUnion s i).runM b).map (Option.map fun p => (p.1, p.2.map (·.on b))) = (h.on b).followUnion s i := by
  have hft : (h.on b).fieldT s i = h.fieldT s i := rfl
  unfold SHand.followUnion CNode.followUnion
  rw [← runM_fieldAt, hft]
  simp only [runM_bind', Option.bind_eq_bind, pure, Option.bind_map]
  cases (h.fieldAt s (i - 1)).runM b with
  | none => rfl
  | some f =>
    simp only [Option.bind_some, Function.comp_apply]
    rw [runM_scalar]
    cases CNode.scalar 1 (f.map (·.on b)) with
    | none => rfl
    | some t =>
      simp only [Option.bind_some]
      cases ((s.unions (h.fieldT s i).tname).getD [])[(t + 255) % 256]? with
      | none => rfl
      | some a =>
        simp only
        rw [← runM_fieldAt, runM_bind']
        simp only [Option.bind_map]
        cases (h.fieldAt s i).runM b with
        | none => rfl
        | some u => cases u <;> rfl

theorem runM_at (b : Base) (s : Sch) (h : SHand) (i : Int) : ((h.at_ s i).runM b).map (Except.map (·.on b)) = (h.on b).at_ s i := by
  have hn : ∀ nm p, (CNode.newNode nm b p) = ((SHand.newNode nm p).runM b).map (·.on b) := fun nm p => (runM_newNode b nm p).symm
  have hli : (h.on b).isList = h.isList := rfl
  have hll : (h.on b).listLen = h.listLen.runM b := (runM_listLen b h).symm
  have hnm : (h.on b).name = h.name := rfl
  have hvi : (h.on b).vi = h.vi := rfl
  have hio : (h.on b).io = b := rfl
  unfold SHand.at_ CNode.at_
  rw [hli, hll, hnm, hvi, hio, runM_bind', runM_ofGo]
  simp only [Option.bind_eq_bind, pure]
  cases h.isList with
  | none => rfl
  | some l =>
    simp only [Option.bind_some, runM_ite]
    split
    · rfl
    rw [runM_bind']
    cases h.listLen.runM b with
    | none => rfl
    | some n =>
      simp only [Option.bind_some, runM_ite]
      split
      · rfl
      split
      · rfl
      rw [runM_bind', runM_ofGo]
      cases getTypeGroup s.toReg (h.name.drop 2) with
      | none => rfl
      | some g =>
        simp only [Option.bind_some, runM_ite]
        split
        · rw [runM_bind', runM_ofGo]
          cases CNode.directSize s (h.name.drop 2) with
          | none => rfl
          | some sz =>
            simp only [Option.bind_some]
            rw [runM_bind', runM_ofGo]
            cases sz with
            | none => rfl
            | some z =>
              simp only [Option.bind_some, runM_ite]
              split <;> split <;> rfl
        · unfold SHand.atTable CNode.atTable
          rw [runM_bind', runM_getN]
          show _ = (b.getN 4 (h.vi.pos + i * 4)).bind _
          cases b.getN 4 (h.vi.pos + i * 4) with
          | none => rfl
          | some off =>
            simp only [Option.bind_some]
            rw [Rd.runM]
            show _ = (b.Ri (h.vi.pos + i * 4 + off) 4).bind _
            simp only [Option.bind_eq_bind]
            cases b.Ri (h.vi.pos + i * 4 + off) 4 with
            | none => rfl
            | some r =>
              simp only [Option.bind_some]
              have hl : (r.data.take 4).length = 0 ↔ r.len = 0 := by
                unfold Slice.len
                rw [List.length_take]
                omega
              by_cases hr : r.len = 0
              · rw [if_pos hr, if_pos (hl.mpr hr)]; rfl
              · rw [if_neg hr, if_neg (fun hh => hr (hl.mp hh)), runM_bind', hio, hn]
                cases (SHand.newNode (h.name.drop 2) (h.vi.pos + i * 4 + off).toNat).runM b <;> rfl

/-- `Bytes`, unless the spare capacity of the buffer is needed. -/
theorem runM_bytes (b : Base) (h : Option SHand) {d : Bytes} (hd : (SHand.bytes h).runM b = some d) : CNode.bytes (h.map (·.on b)) = some d := by
  cases h with
  | none => exact hd
  | some h =>
    unfold SHand.bytes at hd
    unfold CNode.bytes
    simp only [Option.map_some]
    show (if h.size < 0 then none else (b.Ri h.pos h.size.toNat).bind fun r => (r.takeTo h.size.toNat).bind fun t => some t.data) = some d
    rw [runM_ite] at hd
    split at hd
    · cases hd
    rename_i hs
    rw [if_neg hs]
    rw [Rd.runM] at hd
    simp only [Option.bind_eq_bind] at hd
    obtain ⟨r, hr, hd⟩ := Option.bind_eq_some_iff.mp hd
    rw [hr, Option.bind_some]
    split at hd
    · cases hd
    rename_i hl
    rw [List.length_take] at hl
    unfold Slice.takeTo
    rw [if_pos (by unfold Slice.cap; omega), Option.bind_some]
    cases hd
    congr 1
    show (r.data ++ r.spare).take _ = _
    rw [List.take_append_of_le_length (by omega)]

theorem runM_open (root : Name) (d sp : Bytes) : ((SHand.openRoot root).runM (Base.new ⟨d, sp⟩)).map (·.on (Base.new ⟨d, sp⟩)) = CNode.openByBuf root ⟨d, sp⟩ := by
  unfold SHand.openRoot CNode.openByBuf
  rw [runM_bind', runM_getN]
  have : (Base.new ⟨d, sp⟩).getN 4 0 = getLE 4 d := by
    unfold Base.getN Base.Ri
    rw [if_neg (by decide)]
    simp only [Option.bind_eq_bind, Option.bind_some]
    rw [new_R]
    rfl
  rw [this]
  simp only [Option.bind_eq_bind]
  cases getLE 4 d with
  | none => rfl
  | some off => simp only [Option.bind_some]; exact runM_newNode _ _ _

/-! ## on a stream -/

/-- What a program does to its buffer. -/
inductive Ev where
  | read (off req want : Nat)
  | past (x : Int) (out : Bool)

/-- What a program does to a buffer in memory. -/
def events {α : Type} (b : Base) : Rd α → List Ev
  | .ret _ => []
  | .panic => []
  | .read pos req want k => match b.Ri pos req with
    | none => []
    | some s => .read pos.toNat req want :: events b (k (s.data.take want))
  | .past x k => .past x (decide ((b.lenBuf : Int) ≤ x)) :: events b (k (decide ((b.lenBuf : Int) ≤ x)))

/-- Specification: every read either is of bytes read before (`L`: what was read), or of a new range of less than 16 MiB in the
stream that is clear of those before and all of which is asked for; a place found to be in the buffer is one before the end of
something read. -/
def Tidy (n : Nat) : List (Nat × Nat) → List Ev → Prop
  | _, [] => True
  | L, .read off req want :: l =>
    (0 < req ∧ req < 16777216 ∧ want ≤ req ∧ off + req ≤ n ∧ (∀ p ∈ L, Clear p off req) ∧ Tidy n ((off, req) :: L) l) ∨
    ((∃ p ∈ L, p.1 ≤ off ∧ off + max req want ≤ p.1 + p.2) ∧ Tidy n L l)
  | L, .past x out :: l => (out = false → ∃ p ∈ L, x < ((p.1 + p.2 : Nat) : Int)) ∧ Tidy n L l

theorem SInv.lenBuf {s : Bytes} {L : List (Nat × Nat)} {b : SBase} (h : SInv s L b) : b.lenBuf ≤ s.length ∧ ∀ q ∈ L, q.1 + q.2 ≤ b.lenBuf := by
  obtain ⟨h1, -, h3⟩ := slenBuf_ge b
  refine ⟨?_, ?_⟩
  · unfold SBase.lenBuf
    rw [h.diffs]
    simp only [List.foldl_nil]
    have : ∀ (l : List RDiff) (n : Nat), n ≤ s.length → (∀ d ∈ l, d.off + d.data.length ≤ s.length) →
        l.foldl (fun m d => if d.off + d.data.length > m then d.off + d.data.length else m) n ≤ s.length := by
      intro l
      induction l with
      | nil => intro n hn _; exact hn
      | cons d l ih =>
        intro n hn hl
        rw [List.foldl_cons]
        refine ih _ ?_ fun e he => hl e (List.mem_cons_of_mem _ he)
        split
        · exact hl d List.mem_cons_self
        · exact hn
    exact this _ _ h.les fun d hd => (h.seg d hd).2.1
  · intro q hq
    rcases h.cov q hq with hh | ⟨d, hd, -, hh⟩
    · omega
    · have := h3 d hd
      omega

theorem program_run {α : Type} (s sp : Bytes) : ∀ (p : Rd α) (L : List (Nat × Nat)) (b : SBase) (a : α), SInv s L b →
    Tidy s.length L (events (Base.new ⟨s, sp⟩) p) → p.runM (Base.new ⟨s, sp⟩) = some a → ∃ b', p.runS 2 true b = some (b', a)
  | .ret a, L, b, a', _, _, h => by cases h; exact ⟨b, rfl⟩
  | .panic, _, _, _, _, _, h => by cases h
  | .read pos req want k, L, b, a, hb, ht, h => by
    rw [Rd.runM] at h
    rw [events] at ht
    simp only [Option.bind_eq_bind] at h
    obtain ⟨sl, hsl, h⟩ := Option.bind_eq_some_iff.mp h
    rw [hsl] at ht
    simp only at ht
    unfold Base.Ri at hsl
    split at hsl
    · cases hsl
    rename_i hp
    have hdat : sl.data.take want = cut s pos.toNat want := by
      cases hsl
      rw [new_R]
      rfl
    rw [hdat] at h ht
    rw [Rd.runS, if_neg hp]
    rw [Tidy] at ht
    rcases ht with ⟨h1, h2, h3, h4, h5, h6⟩ | ⟨h1, h6⟩
    · obtain ⟨b', r, hr, he, hi⟩ := step_fresh hb h1 h2 h4 h5
      rw [hr]
      simp only
      have hw : r.take want = cut s pos.toNat want := by
        have := congrArg (List.take want) he
        rw [List.take_take, Nat.min_eq_left h3] at this
        rw [this]
        unfold cut
        rw [List.take_take, Nat.min_eq_left h3]
      rw [hw]
      exact program_run s sp (k _) _ b' a hi h6 h
    · obtain ⟨r, hr, he⟩ := step_known hb (fuel := 2) h1
      rw [hr]
      simp only
      rw [he]
      exact program_run s sp (k _) _ b a hb h6 h
  | .past x k, L, b, a, hb, ht, h => by
    rw [Rd.runM] at h
    rw [events, Tidy] at ht
    have hlm : (Base.new ⟨s, sp⟩).lenBuf = s.length := by
      unfold Base.lenBuf Base.new
      rfl
    obtain ⟨hl1, hl2⟩ := SInv.lenBuf hb
    have heq : (true && decide ((b.lenBuf : Int) ≤ x)) = decide (((Base.new ⟨s, sp⟩).lenBuf : Int) ≤ x) := by
      rw [hlm, Bool.true_and]
      by_cases hx : ((s.length : Nat) : Int) ≤ x
      · rw [decide_eq_true hx, decide_eq_true (by omega)]
      · have hout := ht.1 (by rw [hlm]; exact decide_eq_false hx)
        obtain ⟨p, hp, hpx⟩ := hout
        have := hl2 p hp
        rw [decide_eq_false hx, decide_eq_false (by omega)]
    rw [Rd.runS, heq]
    exact program_run s sp (k _) L b a hb ht.2 h

/-- C111: a program that reads a message in memory reads the same from a stream (random access, of any length, with any capacity),
if its reads are tidy: ranges read later are new, or lie in what was read before. -/
theorem stream_program_partial {α : Type} (s sp : Bytes) (cap : Nat) (p : Rd α) (a : α) (hm : p.runM (Base.new ⟨s, sp⟩) = some a)
    (ht : Tidy s.length [] (events (Base.new ⟨s, sp⟩) p)) : ∃ b', p.runS 2 true (SBase.open (.file s) cap) = some (b', a) :=
  program_run s sp p [] _ a (open_inv s cap) ht hm

end Fbs.Props
