import Verif.HeapWorld
import Verif.HeapMerge
import Verif.Props.Buf2
/-!
# Memory properties: C17 (Dup), C18 (stable slices), C19 (copied data), C20/C21 (in-place backend), C22
(two-layer backend)
-/

namespace Fbs.Props

open HBase

/-! ## Effects of one operation -/

theorem some_pair {X : Mem × HBase} {m' : Mem} {b' : HBase} (h : some X = some (m', b')) :
    m' = X.1 ∧ b' = X.2 := by
  cases h; exact ⟨rfl, rfl⟩

/-- Every operation keeps the buffer inside its own memory and new memory, and writes nowhere else. -/
theorem op_frame {S : Nat → Prop} {m m' : Mem} {b b' : HBase} {op : HOp} (hok : b.Ok m) (hb : b.In S)
    (hS : ∀ i, m.length ≤ i → S i) (h : b.opStep m op = some (m', b')) :
    Mem.Frame S m m' ∧ b'.Ok m' ∧ b'.In S := by
  cases op with
  | writeAt p i =>
    obtain ⟨rfl, rfl⟩ := some_pair h
    obtain ⟨h1, h2, -⟩ := writeAt_ok hok p i
    exact ⟨.of_prefix h1, h2, writeAt_in hS hb p i⟩
  | write p =>
    obtain ⟨rfl, rfl⟩ := some_pair h
    obtain ⟨h1, h2, -⟩ := write_ok hok p
    exact ⟨.of_prefix h1, h2, write_in hS hb p⟩
  | update off v =>
    obtain ⟨rfl, rfl⟩ := some_pair h
    obtain ⟨h1, h2, -⟩ := updateU_ok hok off v.length v
    exact ⟨.of_prefix h1, h2, updateU_in hS hb _ _ _⟩
  | c off size src =>
    have hp := Mem.alloc_prefix m ⟨src, []⟩
    have hw := Mem.alloc_Ok m ⟨src, []⟩
    simp only [opStep] at h
    cases hc : b.C off size (m.alloc ⟨src, []⟩).2 with
    | none => simp [hc] at h
    | some b1 =>
      simp only [hc, Option.bind_eq_bind, Option.bind_some, Option.pure_def, Option.some.injEq, Prod.mk.injEq] at h
      obtain ⟨rfl, rfl⟩ := h
      have := (C_ok (Ok_ext hp hok) hw off size).2 b1 hc
      exact ⟨.of_prefix hp, this.1, C_in hb (alloc_in hS _) hc⟩
  | copyIn src so size d ext =>
    obtain ⟨rfl, rfl⟩ := some_pair h
    have hp := Mem.alloc_prefix m ⟨src, []⟩
    have hw := Mem.alloc_Ok m ⟨src, []⟩
    have hn : (HBase.new (m.alloc ⟨src, []⟩).2).Ok (m.alloc ⟨src, []⟩).1 := ⟨hw, fun d hd => by cases hd⟩
    refine ⟨.of_prefix hp, (copy_ok (Ok_ext hp hok) (fun x n => R_ok hn x n) so size d ext).1, ?_⟩
    exact copy_in hb (fun x n => R_in ⟨alloc_in hS _, fun d hd => by cases hd⟩ x n) so size d ext
  | flatten =>
    obtain ⟨rfl, rfl⟩ := some_pair h
    obtain ⟨h1, h2, -⟩ := flatten_ok hok
    exact ⟨.of_prefix h1, h2, flatten_in hS⟩
  | dedup =>
    obtain ⟨rfl, rfl⟩ := some_pair h
    exact ⟨.refl _ _, (dedup_ok hok).1, dedup_in hb⟩
  | mergeDiffs =>
    obtain ⟨rfl, rfl⟩ := some_pair h
    obtain ⟨h1, h2, -⟩ := mergeDiffs_ok hok
    exact ⟨.of_prefix h1, h2, mergeDiffs_in hS hb⟩
  | insertSpace pos size c =>
    obtain ⟨rfl, rfl⟩ := some_pair h
    obtain ⟨h1, h2, -⟩ := insertSpace_ok hok pos size c
    exact ⟨.of_prefix h1, h2, insertSpace_in hS hok hb _ _ _⟩
  | dup =>
    obtain ⟨rfl, rfl⟩ := some_pair h
    obtain ⟨h1, h2, -⟩ := dup_ok hok
    exact ⟨.of_prefix h1, h2, dup_in hS hok⟩
  | nlUpdate off v => exact nlUpdate_ok hok hb hS h
  | dlMerge => obtain ⟨h1, -, h3, h4⟩ := dlMerge_ok hS hok hb h; exact ⟨h1, h3, h4⟩
  | dlUpdate off v => exact dlUpdate_ok hS hok hb h
  | dlInsertSpace pos size => exact dlInsertSpace_ok hS hok hb h
  | nlInsertSpace pos size c =>
    obtain ⟨h1, h2, -⟩ := insertSpace_ok hok pos size c
    have h3 := insertSpace_in hS hok hb pos size c
    simp only [opStep, nlInsertSpace] at h
    split at h
    · obtain ⟨rfl, rfl⟩ := some_pair h
      exact ⟨.of_prefix h1, h2, h3⟩
    · obtain ⟨rfl, rfl⟩ := some_pair h
      have hok' := Ok_ext h1 hok
      obtain ⟨g1, g2, -⟩ := insertSpace_ok hok' pos size true
      exact ⟨.of_prefix (h1.trans g1), g2,
        insertSpace_in (fun i hi => hS i (Nat.le_trans h1.length_le hi)) hok' hb _ _ _⟩

/-- Outside the in-place backend nothing that exists is ever overwritten. -/
theorem op_prefix {m m' : Mem} {b b' : HBase} {op : HOp} (hok : b.Ok m) (hop : op.inPlace = false)
    (h : b.opStep m op = some (m', b')) : m <+: m' := by
  cases op with
  | writeAt p i => obtain ⟨rfl, rfl⟩ := some_pair h; exact (writeAt_ok hok p i).1
  | write p => obtain ⟨rfl, rfl⟩ := some_pair h; exact (write_ok hok p).1
  | update off v => obtain ⟨rfl, rfl⟩ := some_pair h; exact (updateU_ok hok off v.length v).1
  | c off size src =>
    simp only [opStep] at h
    cases hc : b.C off size (m.alloc ⟨src, []⟩).2 with
    | none => simp [hc] at h
    | some b1 =>
      simp only [hc, Option.bind_eq_bind, Option.bind_some, Option.pure_def, Option.some.injEq, Prod.mk.injEq] at h
      obtain ⟨rfl, rfl⟩ := h
      exact Mem.alloc_prefix _ _
  | copyIn src so size d ext => obtain ⟨rfl, rfl⟩ := some_pair h; exact Mem.alloc_prefix _ _
  | flatten => obtain ⟨rfl, rfl⟩ := some_pair h; exact (flatten_ok hok).1
  | dedup => obtain ⟨rfl, rfl⟩ := some_pair h; exact List.prefix_refl _
  | mergeDiffs => obtain ⟨rfl, rfl⟩ := some_pair h; exact (mergeDiffs_ok hok).1
  | insertSpace pos size c => obtain ⟨rfl, rfl⟩ := some_pair h; exact (insertSpace_ok hok pos size c).1
  | dup => obtain ⟨rfl, rfl⟩ := some_pair h; exact (dup_ok hok).1
  | nlUpdate off v => cases hop
  | dlMerge => cases hop
  | dlUpdate off v => cases hop
  | dlInsertSpace pos size => cases hop
  | nlInsertSpace pos size c =>
    have h1 := (insertSpace_ok hok pos size c).1
    simp only [opStep, nlInsertSpace] at h
    split at h
    · obtain ⟨rfl, rfl⟩ := some_pair h; exact h1
    · obtain ⟨rfl, rfl⟩ := some_pair h
      exact h1.trans (insertSpace_ok (Ok_ext h1 hok) pos size true).1

/-! ## C17 -/

/-- Two buffers with no memory in common. -/
def Separate (m : Mem) (a b : HBase) : Prop :=
  a.Ok m ∧ b.Ok m ∧ ∃ S : Nat → Prop, a.In S ∧ b.In (fun i => ¬ S i)

theorem Separate.symm {m : Mem} {a b : HBase} (h : Separate m a b) : Separate m b a := by
  obtain ⟨ha, hb, S, h1, h2⟩ := h
  exact ⟨hb, ha, fun i => ¬ S i, h2, h1.mono (fun i hi hn => hn hi)⟩

/-- An operation on one of two separate buffers cannot be seen through the other, and they stay separate. -/
theorem separate_step {m m' : Mem} {a b a' : HBase} {op : HOp} (h : Separate m a b)
    (hs : a.opStep m op = some (m', a')) : Separate m' a' b ∧ b.val m' = b.val m := by
  obtain ⟨ha, hb, S, h1, h2⟩ := h
  have h1' : a.In (fun i => S i ∨ m.length ≤ i) := h1.mono (fun i hi => Or.inl hi)
  have hlt : ∀ w : Win, m.Ok w → w.In (fun i => ¬ S i) → w.In (fun i => ¬ (S i ∨ m.length ≤ i)) := by
    intro w hw hi
    rcases hi with h0 | hi
    · exact Or.inl h0
    · rcases hw.2 with h0 | ⟨hl, -⟩
      · exact Or.inl h0
      · right; rintro (hh | hh)
        · exact hi hh
        · omega
  obtain ⟨f1, f2, f3⟩ := op_frame ha h1' (fun i hi => Or.inr hi) hs
  have hb' : b.In (fun i => ¬ (S i ∨ m.length ≤ i)) :=
    ⟨hlt _ hb.1 h2.1, fun d hd => hlt _ (hb.2 d hd) (h2.2 d hd)⟩
  refine ⟨⟨f2, ⟨Mem.Ok_Frame f1 hb.1 hb'.1, fun d hd => Mem.Ok_Frame f1 (hb.2 d hd) (hb'.2 d hd)⟩, _, f3, hb'⟩, ?_⟩
  unfold HBase.val
  rw [Mem.sl_Frame f1 hb.1 hb'.1]
  congr 1
  apply List.map_congr_left
  intro d hd
  unfold HDiff.val
  rw [Mem.sl_Frame f1 (hb.2 d hd) (hb'.2 d hd)]

/-- A history on two buffers: `true` operates on the first. -/
def runPair (m : Mem) (a b : HBase) : List (Bool × HOp) → Go (Mem × HBase × HBase)
  | [] => some (m, a, b)
  | (true, op) :: l => do
    let (m, a) ← a.opStep m op
    runPair m a b l
  | (false, op) :: l => do
    let (m, b) ← b.opStep m op
    runPair m a b l

theorem separate_run {m m' : Mem} {a b a' b' : HBase} {l : List (Bool × HOp)} (h : Separate m a b)
    (hs : runPair m a b l = some (m', a', b')) : Separate m' a' b' := by
  induction l generalizing m a b with
  | nil => simp only [runPair, Option.some.injEq, Prod.mk.injEq] at hs; obtain ⟨rfl, rfl, rfl⟩ := hs; exact h
  | cons x l ih =>
    obtain ⟨s, op⟩ := x
    cases s with
    | true =>
      simp only [runPair] at hs
      cases ho : a.opStep m op with
      | none => simp [ho] at hs
      | some r =>
        obtain ⟨m1, a1⟩ := r
        simp only [ho, Option.bind_eq_bind, Option.bind_some] at hs
        exact ih (separate_step h ho).1 hs
    | false =>
      simp only [runPair] at hs
      cases ho : b.opStep m op with
      | none => simp [ho] at hs
      | some r =>
        obtain ⟨m1, b1⟩ := r
        simp only [ho, Option.bind_eq_bind, Option.bind_some] at hs
        exact ih (separate_step h.symm ho).1.symm hs

/-- `Dup` gives a buffer that shares no memory with the original and shows the same bytes. -/
theorem dup_separate {m : Mem} {b : HBase} (hb : b.Ok m) :
    Separate (b.dup m).1 b (b.dup m).2 ∧
    (∀ x, ((b.dup m).2.val (b.dup m).1).byte x = (b.val (b.dup m).1).byte x) ∧
    ((b.dup m).2.val (b.dup m).1).lenBuf = (b.val (b.dup m).1).lenBuf := by
  obtain ⟨h1, h2, h3, h4, h5⟩ := dup_ok hb
  have hv : b.val (b.dup m).1 = b.val m := by
      unfold HBase.val; rw [Mem.sl_ext h1 hb.1, map_val_ext h1 hb.2]
  refine ⟨⟨Ok_ext h1 hb, h2, fun i => i < m.length, ?_, ?_⟩, ?_, ?_⟩
  · have hin : ∀ w : Win, m.Ok w → w.In (fun i => i < m.length) := fun w hw => hw.2.imp id (fun h => h.1)
    exact ⟨hin _ hb.1, fun d hd => hin _ (hb.2 d hd)⟩
  · exact ⟨Or.inr (by omega), fun d hd => Or.inr (by have := h5 d hd; omega)⟩
  · rw [h3, hv]; exact (dup_same _).1
  · rw [h3, hv]; exact (dup_same _).2

/-- C17: after `Dup`, in any history of operations of the default, in-place and two-layer backends on either side, no operation on one
buffer changes anything readable through the other. -/
theorem dup_independent {m m1 : Mem} {b b1 c1 : HBase} {hist : List (Bool × HOp)} (hb : b.Ok m)
    (hr : runPair (b.dup m).1 b (b.dup m).2 hist = some (m1, b1, c1)) :
    (∀ op m2 b2, b1.opStep m1 op = some (m2, b2) →
      ∀ x req, m2.sl (c1.R x req) = m1.sl (c1.R x req) ∧ c1.val m2 = c1.val m1) ∧
    (∀ op m2 c2, c1.opStep m1 op = some (m2, c2) →
      ∀ x req, m2.sl (b1.R x req) = m1.sl (b1.R x req) ∧ b1.val m2 = b1.val m1) := by
  have hsep := separate_run (dup_separate hb).1 hr
  refine ⟨fun op m2 b2 ho x req => ?_, fun op m2 c2 ho x req => ?_⟩
  · obtain ⟨hs, hv⟩ := separate_step hsep ho
    rw [(R_ok hs.2.1 x req).2, (R_ok hsep.2.1 x req).2, hv]
    exact ⟨rfl, rfl⟩
  · obtain ⟨hs, hv⟩ := separate_step hsep.symm ho
    rw [(R_ok hs.2.1 x req).2, (R_ok hsep.1 x req).2, hv]
    exact ⟨rfl, rfl⟩

/-- The hypotheses hold for a buffer with a journal, edited in place on both sides. -/
example : (let m : Mem := [[1, 2, 3, 4], [9, 9]]
    let b : HBase := { bytes := ⟨0, 0, 4, 4⟩, diffs := [⟨1, ⟨1, 0, 2, 2⟩⟩] }
    (runPair (b.dup m).1 b (b.dup m).2
      [(true, .nlUpdate 1 [7]), (false, .nlUpdate 2 [6]), (true, .insertSpace 2 1 true), (false, .flatten)]).map
        (fun r => ((List.range 5).map (r.2.1.val r.1).byte, (List.range 5).map (r.2.2.val r.1).byte))) =
    some ([some 1, some 7, some 0, some 9, some 4], [some 1, some 9, some 6, some 4, none]) := by
  decide +kernel

/-! ## C18 -/

theorem world_step {w w' : World} {op : WOp} (hw : w.Ok) (hop : op.inPlace = false)
    (h : w.step op = some w') :
    w.mem <+: w'.mem ∧ w'.Ok ∧
      ∀ j b, w.objs[j]? = some b → op.target ≠ some j → w'.objs[j]? = some b := by
  cases op with
  | mk data spare =>
    obtain ⟨rfl⟩ := Option.some.inj h
    have hp := Mem.alloc_prefix w.mem ⟨data, spare⟩
    refine ⟨hp, fun b hb => ?_, fun j b hj _ => ?_⟩
    · rcases List.mem_append.mp hb with hb | hb
      · exact Ok_ext hp (hw b hb)
      · rw [List.mem_singleton.mp hb]; exact ⟨Mem.alloc_Ok _ _, fun d hd => by cases hd⟩
    · exact (List.getElem?_append_left (List.getElem?_eq_some_iff.mp hj).1).trans hj
  | on j op =>
    simp only [World.step] at h
    cases hj : w.objs[j]? with
    | none => simp [hj] at h
    | some b =>
      cases ho : b.opStep w.mem op with
      | none => simp [hj, ho] at h
      | some r =>
        obtain ⟨m', b'⟩ := r
        simp only [hj, ho, Option.bind_eq_bind, Option.bind_some, Option.pure_def, Option.some.injEq] at h
        subst h
        have hbo := hw b (List.mem_of_getElem? hj)
        have hp := op_prefix hbo hop ho
        refine ⟨hp, fun c hc => ?_, fun i c hi hne => ?_⟩
        · rcases mem_set' hc with hc | rfl
          · exact Ok_ext hp (hw c hc)
          · exact (op_frame (S := fun _ => True) hbo ⟨Or.inr trivial, fun _ _ => Or.inr trivial⟩
              (fun _ _ => trivial) ho).2.1
        · have : j ≠ i := fun hh => hne (by rw [hh]; rfl)
          rw [← hi]; exact List.getElem?_set_ne this
  | view j op =>
    simp only [World.step] at h
    cases hj : w.objs[j]? with
    | none => simp [hj] at h
    | some b =>
      cases ho : b.opStep w.mem op with
      | none => simp [hj, ho] at h
      | some r =>
        obtain ⟨m', b'⟩ := r
        simp only [hj, ho, Option.bind_eq_bind, Option.bind_some, Option.pure_def, Option.some.injEq] at h
        subst h
        have hbo := hw b (List.mem_of_getElem? hj)
        have hp := op_prefix hbo hop ho
        refine ⟨hp, fun c hc => ?_, fun i c hi hne => ?_⟩
        · rcases List.mem_append.mp hc with hc | hc
          · exact Ok_ext hp (hw c hc)
          · rw [List.mem_singleton.mp hc]
            exact (op_frame (S := fun _ => True) hbo ⟨Or.inr trivial, fun _ _ => Or.inr trivial⟩
              (fun _ _ => trivial) ho).2.1
        · exact (List.getElem?_append_left (List.getElem?_eq_some_iff.mp hi).1).trans hi
  | copy j k so size d ext =>
    simp only [World.step] at h
    split at h
    · cases h
    · cases hj : w.objs[j]? with
      | none => simp [hj] at h
      | some b =>
        cases hk : w.objs[k]? with
        | none => simp [hj, hk] at h
        | some s =>
          simp only [hj, hk, Option.bind_eq_bind, Option.bind_some, Option.pure_def, Option.some.injEq] at h
          subst h
          refine ⟨List.prefix_refl _, fun c hc => ?_, fun i c hi hne => ?_⟩
          · rcases mem_set' hc with hc | rfl
            · exact hw c hc
            · exact (copy_ok (hw b (List.mem_of_getElem? hj))
                (fun x n => R_ok (hw s (List.mem_of_getElem? hk)) x n) so size d ext).1
          · have : j ≠ i := fun hh => hne (by rw [hh]; rfl)
            rw [← hi]; exact List.getElem?_set_ne this

/-- C18: in any history of default-backend operations on any number of buffers that may share memory, no
array that existed is ever written; so every slice handed out earlier shows the same bytes for ever, and a
buffer that is not itself operated on (for instance the source of a `Copy`) does not change. -/
theorem default_never_overwrites {w w' : World} {ops : List WOp} (hw : w.Ok)
    (hops : ∀ op ∈ ops, op.inPlace = false) (h : w.run ops = some w') :
    w.mem <+: w'.mem ∧ w'.Ok ∧ (∀ s : Win, w.mem.Ok s → w'.mem.sl s = w.mem.sl s) ∧
    ∀ j b, w.objs[j]? = some b → (∀ op ∈ ops, op.target ≠ some j) →
      w'.objs[j]? = some b ∧ b.val w'.mem = b.val w.mem := by
  have key : w.mem <+: w'.mem ∧ w'.Ok ∧ ∀ j b, w.objs[j]? = some b →
      (∀ op ∈ ops, op.target ≠ some j) → w'.objs[j]? = some b := by
    induction ops generalizing w with
    | nil =>
      obtain ⟨rfl⟩ := Option.some.inj h
      exact ⟨List.prefix_refl _, hw, fun j b hj _ => hj⟩
    | cons op l ih =>
      simp only [World.run] at h
      cases hs : w.step op with
      | none => simp [hs] at h
      | some w1 =>
        simp only [hs, Option.bind_eq_bind, Option.bind_some] at h
        obtain ⟨h1, h2, h3⟩ := world_step hw (hops op List.mem_cons_self) hs
        obtain ⟨g1, g2, g3⟩ := ih h2 (fun o ho => hops o (List.mem_cons_of_mem _ ho)) h
        refine ⟨h1.trans g1, g2, fun j b hj ht => ?_⟩
        exact g3 j b (h3 j b hj (ht op List.mem_cons_self)) (fun o ho => ht o (List.mem_cons_of_mem _ ho))
  obtain ⟨h1, h2, h3⟩ := key
  refine ⟨h1, h2, fun s hs => Mem.sl_ext h1 hs, fun j b hj ht => ⟨h3 j b hj ht, ?_⟩⟩
  exact HBase.val_ext h1 (hw b (List.mem_of_getElem? hj))

/-- A history with two buffers sharing memory after a copy. -/
example : ((⟨[], []⟩ : World).run [.mk [1, 2, 3, 4] [0, 0], .mk [] [], .copy 1 0 0 4 0 0, .on 0 (.update 1 [9]),
      .view 0 (.insertSpace 1 2 true), .on 0 .flatten, .on 1 (.writeAt [5] 6)]).map
    (fun w => w.objs.map (fun b => (List.range 7).map (b.val w.mem).byte)) =
    some [[some 1, some 9, some 3, some 4, none, none, none],
      [some 1, some 2, some 3, some 4, none, none, some 5],
      [some 1, some 0, some 0, some 9, some 3, some 4, none]] := by
  decide +kernel

/-! ## C19 -/

/-- C19 fails with the in-place backend: `Copy` stores the slices of the source. -/
theorem copy_tracks_source_fails :
    let m : Mem := [[1, 2, 3, 4, 5, 6, 7, 8], []]
    let src : HBase := HBase.new ⟨0, 0, 8, 8⟩
    let dst : HBase := (HBase.new ⟨1, 0, 0, 0⟩).copy src.nlR 0 4 0 0
    (dst.val m).byte 1 = some 2 ∧
    (src.nlUpdate m 1 [99]).map (fun r => (dst.val r.1).byte 1) = some (some 99) ∧
    (dst.nlUpdate m 1 [77]).map (fun r => (src.val r.1).byte 1) = some (some 77) := by
  decide +kernel

/-- C19 partial: on the default backend, whatever later happens to the source (or to any other buffer), the
destination shows what it showed, and vice versa. -/
theorem copy_stable_partial {w w1 w2 : World} {j k so size d ext : Nat} {ops : List WOp} (hw : w.Ok)
    (hc : w.step (.copy j k so size d ext) = some w1) (hops : ∀ op ∈ ops, op.inPlace = false)
    (h : w1.run ops = some w2) :
    (∀ b, w1.objs[j]? = some b → (∀ op ∈ ops, op.target ≠ some j) → b.val w2.mem = b.val w1.mem) ∧
    (∀ b, w1.objs[k]? = some b → (∀ op ∈ ops, op.target ≠ some k) → b.val w2.mem = b.val w1.mem) := by
  obtain ⟨-, h2, -⟩ := world_step hw rfl hc
  obtain ⟨-, -, -, g⟩ := default_never_overwrites h2 hops h
  exact ⟨fun b hb ht => (g j b hb ht).2, fun b hb ht => (g k b hb ht).2⟩

/-- C19 partial: on any backend, flattening the destination after the copy makes it independent of the
source for every later history, in-place operations included. -/
theorem copy_flatten_separate_partial {m : Mem} {b s : HBase} (hb : b.Ok m) (hs : s.Ok m)
    (so size d ext : Nat) :
    Separate ((b.copy s.R so size d ext).flatten m).1 s ((b.copy s.R so size d ext).flatten m).2 := by
  have hc := (copy_ok hb (fun x n => R_ok hs x n) so size d ext).1
  obtain ⟨h1, h2, -⟩ := flatten_ok hc
  refine ⟨Ok_ext h1 hs, h2, fun i => i < m.length, ?_, ?_⟩
  · have hin : ∀ w : Win, m.Ok w → w.In (fun i => i < m.length) := fun w hw => hw.2.imp id (fun h => h.1)
    exact ⟨hin _ hs.1, fun e he => hin _ (hs.2 e he)⟩
  · exact flatten_in (fun i hi => by omega)

/-! ## C20, C21 -/

/-- C20 fails: an overwritten segment is moved to the end of the journal, and its old bytes reappear outside
the updated window. -/
theorem nl_update_stale_fails :
    let m : Mem := [[], [1, 1, 1, 1, 1, 1, 1, 1], [2, 2]]
    let b : HBase := { bytes := ⟨0, 0, 0, 0⟩, diffs := [⟨0, ⟨1, 0, 8, 8⟩⟩, ⟨4, ⟨2, 0, 2, 2⟩⟩] }
    (b.val m).byte 4 = some 2 ∧
    (b.nlUpdate m 0 [9, 9, 9, 9]).map (fun r => (r.2.val r.1).byte 4) = some (some 1) := by
  decide +kernel

/-- C20 fails: on an empty in-place buffer the second update lands in the spare capacity of the first
segment and cannot be read back. -/
theorem nl_update_lost_fails :
    (((HBase.new ⟨0, 0, 0, 0⟩).nlUpdate [[]] 0 [1, 2, 3, 4]).bind
      (fun r => r.2.nlUpdate r.1 4 [5, 6, 7, 8])).map
        (fun r => ((r.2.val r.1).byte 4, (r.1.sl (r.2.nlR 4 4)).data)) = some (none, []) := by
  decide +kernel

/-- The form of buffers meant below: a flat buffer with a separate segment behind it; an update inside the
segment, one inside the initial bytes, and one growing the initial bytes into their spare capacity all fit. -/
example : (let m : Mem := [[1, 2, 3, 4, 0, 0], [9, 9, 9]]
    let b : HBase := { bytes := ⟨0, 0, 4, 6⟩, diffs := [⟨10, ⟨1, 0, 3, 3⟩⟩] }
    b.Inv m ∧ b.Fits 11 2 ∧ b.Fits 1 3 ∧ b.Fits 4 2 ∧ b.Fits 20 4) := by
  have hok1 : Mem.Ok [[1, 2, 3, 4, 0, 0], [9, 9, 9]] ⟨0, 0, 4, 6⟩ := by unfold Mem.Ok; decide
  have hok2 : Mem.Ok [[1, 2, 3, 4, 0, 0], [9, 9, 9]] ⟨1, 0, 3, 3⟩ := by unfold Mem.Ok; decide
  refine ⟨⟨⟨hok1, ?_⟩, List.pairwise_singleton _ _, ?_⟩, ⟨by decide, Or.inl ?_⟩, ⟨by decide, Or.inr ?_⟩,
    ⟨by decide, Or.inr ?_⟩, ⟨by decide, Or.inr ?_⟩⟩
  · simpa using hok2
  · simp [Win.Disj]
  · exact ⟨⟨10, ⟨1, 0, 3, 3⟩⟩, by simp, by decide, by decide, by simp⟩
  all_goals simp

/-- A history of in-place updates. -/
def nlRun (m : Mem) (b : HBase) : List (Nat × Bytes) → Go (Mem × HBase)
  | [] => some (m, b)
  | (off, v) :: l => do
    let (m, b) ← b.nlUpdate m off v
    nlRun m b l

/-- C20 partial: if the segments of the buffer show different offsets and share no memory, and the update
fits (see `HBase.Fits`), filling the window changes exactly the bytes of the window and the buffer stays of
that form. -/
theorem nl_update_exact_partial {m : Mem} {b : HBase} (h : b.Inv m) {off : Nat} {v : Bytes}
    (hf : b.Fits off v.length) :
    ∃ m' b', b.nlUpdate m off v = some (m', b') ∧ b'.Inv m' ∧
      ∀ x, (b'.val m').byte x = if off ≤ x ∧ x < off + v.length then v[x - off]? else (b.val m).byte x := by
  obtain ⟨m', b', h1, h2, h3, -⟩ := nlUpdate_put h hf
  refine ⟨m', b', h1, h2, fun x => ?_⟩
  rw [byte_eq_content, byte_eq_content, h3, put_apply]

/-- Every update of a history fits the buffer it meets. -/
def AllFit (m : Mem) (b : HBase) : List (Nat × Bytes) → Prop
  | [] => True
  | (off, v) :: l => b.Fits off v.length ∧
      ∀ m' b', b.nlUpdate m off v = some (m', b') → AllFit m' b' l

/-- C20 partial: histories of fitting updates. -/
theorem nl_history_partial {m : Mem} {b : HBase} (h : b.Inv m) {l : List (Nat × Bytes)} (hf : AllFit m b l) :
    ∃ m' b', nlRun m b l = some (m', b') ∧ b'.Inv m' ∧
      (b'.val m').content = l.foldl (fun c u => c.put u.1 u.2) (b.val m).content := by
  induction l generalizing m b with
  | nil => exact ⟨m, b, rfl, h, rfl⟩
  | cons u l ih =>
    obtain ⟨off, v⟩ := u
    obtain ⟨m1, b1, h1, h2, h3, -⟩ := nlUpdate_put h hf.1
    obtain ⟨m2, b2, g1, g2, g3⟩ := ih h2 (hf.2 m1 b1 h1)
    refine ⟨m2, b2, ?_, g2, ?_⟩
    · simp only [nlRun, h1, Option.bind_eq_bind, Option.bind_some]; exact g1
    · rw [g3, h3]; rfl

/-- C20 partial: on a buffer without journal, every history of updates inside the buffer has exactly the
effect of writing the bytes, in any order and with any overlaps; no segment is created and the buffer keeps
its memory. -/
theorem nl_flat_history_partial {m : Mem} {b : HBase} (hb : m.Ok b.bytes) (hd : b.diffs = [])
    {l : List (Nat × Bytes)} (hl : ∀ u ∈ l, 0 < u.2.length ∧ u.1 + u.2.length ≤ b.bytes.len) :
    ∃ m', nlRun m b l = some (m', b) ∧ m'.length = m.length ∧
      (b.val m').content = l.foldl (fun c u => c.put u.1 u.2) (b.val m).content := by
  induction l generalizing m with
  | nil => exact ⟨m, rfl, rfl, rfl⟩
  | cons u l ih =>
    obtain ⟨off, v⟩ := u
    obtain ⟨hn, hle⟩ := hl _ List.mem_cons_self
    simp only at hn hle
    have hinv : b.Inv m := ⟨⟨hb, by rw [hd]; simp⟩, by rw [hd]; exact List.Pairwise.nil, by rw [hd]; simp⟩
    obtain ⟨m1, b1, h1, h2, h3, -⟩ := nlUpdate_put hinv (off := off) (v := v)
      ⟨hn, Or.inr ⟨by rw [hd]; simp, Or.inl (by omega)⟩⟩
    have hstep : b.nlUpdate m off v = some (m.copyTo ⟨b.bytes.arr, b.bytes.off + off, b.bytes.len - off,
        b.bytes.cap - off⟩ 0 v, b) := by
      unfold nlUpdate nlU
      rw [hd]
      simp only [lastIndexOf]
      rw [if_pos hle]
      rfl
    rw [hstep] at h1
    simp only [Option.some.injEq, Prod.mk.injEq] at h1
    obtain ⟨rfl, rfl⟩ := h1
    obtain ⟨m2, g1, g2, g3⟩ := ih h2.ok.1 (fun u hu => hl u (List.mem_cons_of_mem _ hu))
    refine ⟨m2, ?_, ?_, ?_⟩
    · simp only [nlRun, hstep, Option.bind_eq_bind, Option.bind_some]; exact g1
    · rw [g2, Mem.copyTo_length]
    · rw [g3, h3]; rfl

/-- C21 fails: without a requested size, a segment that ends at `off` is taken and an empty slice is
returned although the byte exists. -/
theorem nl_read_fails :
    let m : Mem := [[1, 2, 3, 4, 5, 6, 7, 8], [9, 9]]
    let b : HBase := { bytes := ⟨0, 0, 8, 8⟩, diffs := [⟨0, ⟨1, 0, 2, 2⟩⟩] }
    (b.val m).byte 2 = some 3 ∧ m.sl (b.nlR 2 0) = .nil := by
  decide

/-- With a requested size of at least one byte the in-place backend reads exactly what the default backend
reads. -/
theorem nlR_eq_R (b : HBase) (off req : Nat) (hreq : 0 < req) : b.nlR off req = b.R off req := by
  unfold nlR
  have hp : (fun d : HDiff => decide (d.off ≤ off) && decide (off + min 1 req ≤ d.off + d.w.len)) =
      (fun d : HDiff => d.covers off) := by
    funext d
    unfold HDiff.covers
    have : min 1 req = 1 := by omega
    rw [this]
    congr 1
  rw [hp]
  cases hl : lastIndexOf (fun d : HDiff => d.covers off) b.diffs with
  | none => rfl
  | some sn =>
    obtain ⟨d, hd, hc⟩ := lastIndexOf_lt hl
    have hcv := (HBase.covers_iff d off).mp hc
    simp only [hd]
    have hw : b.writerR off = ⟨d.w.arr, d.w.off + (off - d.off), d.w.len - (off - d.off), d.w.cap - (off - d.off)⟩ := by
      unfold writerR; rw [hl]; simp only [hd]
    unfold R
    simp only
    rw [hw]
    rw [if_neg (by simp only; omega)]

/-- C21 partial: with a requested size the first byte read is the current byte, and the slice is not empty
when there is one. -/
theorem nl_read_partial {m : Mem} {b : HBase} (hb : b.Ok m) (off req : Nat) (hreq : 0 < req) :
    (m.sl (b.nlR off req)).data.head? = (b.val m).content off := by
  rw [nlR_eq_R b off req hreq, (R_ok hb off req).2, ← byte_eq_content]
  unfold Base.byte
  rw [R_data, R_data]

/-- C21 partial: without a requested size the first byte read is the current byte unless a segment ends at
`off`. -/
theorem nl_read_plain_partial {m : Mem} {b : HBase} (hb : b.Ok m) (off : Nat)
    (hend : ∀ d ∈ b.diffs, d.off + d.w.len ≠ off) :
    (m.sl (b.nlR off 0)).data.head? = (b.val m).content off := by
  have hp : lastIndexOf (fun d : HDiff => decide (d.off ≤ off) && decide (off + min 1 0 ≤ d.off + d.w.len)) b.diffs =
      lastIndexOf (fun d : HDiff => decide (d.off ≤ off) && decide (off + min 1 1 ≤ d.off + d.w.len)) b.diffs := by
    have := lastIndexOf_map (fun d : HDiff => d)
      (fun d : HDiff => decide (d.off ≤ off) && decide (off + min 1 1 ≤ d.off + d.w.len))
      (fun d : HDiff => decide (d.off ≤ off) && decide (off + min 1 0 ≤ d.off + d.w.len)) b.diffs
      (fun d hd => by
        have := hend d hd
        congr 1
        rw [decide_eq_decide]
        omega)
    rwa [List.map_id'] at this
  have hsl : (m.sl (b.R off 0)).data = (m.sl (b.R off 1)).data := by
    rw [(R_ok hb off 0).2, (R_ok hb off 1).2, R_data, R_data]
  have h1 := nl_read_partial hb off 1 (by omega)
  unfold nlR at h1 ⊢
  rw [hp]
  cases hl : lastIndexOf (fun d : HDiff => decide (d.off ≤ off) && decide (off + min 1 1 ≤ d.off + d.w.len)) b.diffs with
  | none => rw [hl] at h1; simp only at h1 ⊢; rw [hsl]; exact h1
  | some sn => rw [hl] at h1; exact h1

/-! ## C22 -/

/-- C22 fails: inserting space into a flat two-layer buffer leaves the old bytes where they were. -/
theorem dl_insertSpace_fails :
    let m : Mem := [[1, 2, 3, 4]]
    let b : HBase := HBase.new ⟨0, 0, 4, 4⟩
    (b.dlInsertSpace m 2 2).map (fun r => (List.range 6).map (r.2.val r.1).byte) =
      some [some 1, some 2, some 3, some 4, some 0, some 0] ∧
    (List.range 6).map ((b.insertSpace m 2 2 true).2.val (b.insertSpace m 2 2 true).1).byte =
      [some 1, some 2, some 0, some 0, some 3, some 4] := by
  decide +kernel

/-- C22 fails: merging a segment that starts before the first one loses data on a mere read. -/
theorem dl_read_loses_fails :
    let w1 := (HBase.new ⟨0, 0, 0, 0⟩).writeAt [[]] [1, 2] 4
    let w2 := w1.2.writeAt w1.1 [3, 4] 0
    (w2.2.val w2.1).byte 4 = some 1 ∧
    (w2.2.dlR w2.1 4 1).map (fun r => ((r.1.sl r.2.2).data, (r.2.1.val r.1).byte 4)) = some ([], none) := by
  decide +kernel

/-- C22 partial: with at most one segment nothing is merged: reads and updates are those of the in-place
backend. -/
theorem dl_single_partial {m : Mem} {b : HBase} (h : b.diffs.length ≤ 1) (off n : Nat) (v : Bytes) :
    b.dlR m off n = some (m, b, b.nlR off n) ∧ b.dlUpdate m off v = b.nlUpdate m off v := by
  have hm : b.dlMerge m = some (m, b) := by
    unfold dlMerge
    match hb : b.diffs, h with
    | [], _ => rfl
    | [_], _ => rfl
  unfold dlR dlUpdate dlU nlUpdate
  rw [hm]
  exact ⟨rfl, rfl⟩

/-- C22 partial: on a two-layer buffer with at most one segment, reads with a requested size show the bytes
the default backend shows, and fitting updates change exactly the window. -/
theorem dl_content_partial {m : Mem} {b : HBase} (h : b.Inv m) (h1 : b.diffs.length ≤ 1) :
    (∀ off req, 0 < req → ∃ r, b.dlR m off req = some (m, b, r) ∧ m.sl r = (b.val m).R off req) ∧
    (∀ off v, b.Fits off v.length → ∃ m' b', b.dlUpdate m off v = some (m', b') ∧ b'.Inv m' ∧
      (b'.val m').content = (b.val m).content.put off v) := by
  refine ⟨fun off req hreq => ⟨_, (dl_single_partial h1 off req []).1, ?_⟩, fun off v hf => ?_⟩
  · rw [nlR_eq_R b off req hreq, (R_ok h.ok off req).2]
  · obtain ⟨m', b', g1, g2, g3, -⟩ := nlUpdate_put h hf
    exact ⟨m', b', by rw [(dl_single_partial h1 off 0 v).2]; exact g1, g2, g3⟩

/-- C22 partial: inserting space at or after the end of a flat two-layer buffer appends zeros. -/
theorem dl_insertSpace_partial {m : Mem} {b : HBase} (hb : b.Ok m) (hd : b.diffs = []) (pos size : Nat)
    (hpos : b.bytes.len ≤ pos) :
    ∃ m' b', b.dlInsertSpace m pos size = some (m', b') ∧ b'.Ok m' ∧
      ∀ x, (b'.val m').byte x = if pos ≤ x ∧ x < pos + size then some 0 else (b.val m).byte x := by
  have hm : b.dlMerge m = some (m, b) := by unfold dlMerge; rw [hd]
  have hp := Mem.alloc_prefix m (.make size)
  have hs : max size (size + b.bytes.len - pos) = size := by omega
  refine ⟨(m.alloc (.make size)).1, { bytes := b.bytes, diffs := [⟨pos, (m.alloc (.make size)).2⟩] }, ?_, ?_, ?_⟩
  · unfold dlInsertSpace
    simp only [hm, hd, Option.bind_eq_bind, Option.bind_some, Option.pure_def, hs]
    rw [if_pos hpos]
  · refine ⟨Mem.Ok_ext hp hb.1, fun d hd => ?_⟩
    rw [List.mem_singleton.mp hd]; exact Mem.alloc_Ok _ _
  · intro x
    rw [byte_eq_content, byte_eq_content]
    have h2 : (b.val m).content x = (m.sl b.bytes).data[x]? :=
      content_uncover hb (by rw [hd]; simp)
    rw [h2]
    simp only [Base.content, val, List.map_cons, List.map_nil, contentOf, List.foldl_cons, List.foldl_nil,
      HDiff.val, Mem.alloc_sl, put_apply, Slice.make, ByteMap.ofBytes]
    have hz : (zeros size).length = size := by simp [zeros]
    rw [hz]
    by_cases hx : pos ≤ x ∧ x < pos + size
    · rw [if_pos hx, if_pos hx]
      simp only [zeros]
      rw [List.getElem?_replicate, if_pos (by omega)]
    · rw [if_neg hx, if_neg hx]
      have := Mem.sl_ext hp hb.1
      simp only [Slice.make] at this
      rw [this]

example : ((HBase.new ⟨0, 0, 2, 2⟩).dlInsertSpace [[7, 8]] 3 2).map
    (fun r => (List.range 6).map (r.2.val r.1).byte) =
      some [some 7, some 8, none, some 0, some 0, none] := by decide +kernel

/-- C22 fails: merging two segments with a gap between them replaces the initial bytes in the gap by zeros, on a
mere read. -/
theorem dl_gap_fails :
    let m : Mem := [[1, 2, 3, 4, 5, 6], [9], [9]]
    let b : HBase := { bytes := ⟨0, 0, 6, 6⟩, diffs := [⟨1, ⟨1, 0, 1, 1⟩⟩, ⟨4, ⟨2, 0, 1, 1⟩⟩] }
    (b.val m).byte 2 = some 3 ∧
    (b.dlR m 2 1).map (fun r => ((r.1.sl r.2.2).data.head?, (r.2.1.val r.1).byte 2)) = some (some 0, some 0) := by
  decide +kernel

/-- C22 partial: merging keeps every byte shown by a segment and everything in front of the first and behind the
last segment, if the first segment of the journal starts first and shares no memory with the rest (segments may
overlap and show the same offsets); bytes in gaps between the segments become zero or stay. -/
theorem dl_merge_partial {m : Mem} {b : HBase} (hb : b.Ok m) {d : HDiff} {l : List HDiff} (hd : b.diffs = d :: l)
    (hl : ∀ s ∈ l, d.w.Disj s.w ∧ d.off ≤ s.off) (hbase : d.w.Disj b.bytes) :
    ∃ m' b', b.dlMerge m = some (m', b') ∧ b'.Ok m' ∧ b'.lenBuf = b.lenBuf ∧
      (∀ x, (∃ e ∈ b.diffs, e.off ≤ x ∧ x < e.off + e.w.len) ∨ x < d.off ∨ (∀ e ∈ b.diffs, e.off + e.w.len ≤ x) →
        (b'.val m').content x = (b.val m).content x) ∧
      ∀ x, (b'.val m').content x = (b.val m).content x ∨ (b'.val m').content x = some 0 := by
  have hdo := hb.2 d (by rw [hd]; exact List.mem_cons_self)
  have hlo : ∀ s ∈ l, m.Ok s.w := fun s hs => hb.2 s (by rw [hd]; exact List.mem_cons_of_mem _ hs)
  obtain ⟨m', d', h1, h2, h3, h4, h5, h6, h7, h8⟩ := dlMergeInto_spec l hdo (fun s hs => ⟨hlo s hs, hl s hs⟩)
  have hmerge : b.dlMerge m = some (m', { b with diffs := d' :: l }) := by
    unfold dlMerge
    rw [hd]
    cases l with
    | nil =>
      simp only [dlMergeInto, Option.some.injEq, Prod.mk.injEq] at h1
      obtain ⟨rfl, rfl⟩ := h1
      simp only [← hd]
    | cons s l =>
      simp only [h1, Option.bind_eq_bind, Option.bind_some]; rfl
  have hok' : ({ b with diffs := d' :: l } : HBase).Ok m' := by
    refine ⟨h4 _ hb.1, fun e he => ?_⟩
    rcases List.mem_cons.mp he with rfl | he
    · exact h3
    · exact h4 _ (hlo e he)
  have hvl : l.map (HDiff.val m') = l.map (HDiff.val m) := by
    apply List.map_congr_left
    intro e he
    unfold HDiff.val
    rw [(h7 _ (hlo e he) (hl e he).1).1]
  have hvb : m'.sl b.bytes = m.sl b.bytes := (h7 _ hb.1 hbase).1
  have hcov : ∀ x, (d'.val m').covers x = true ↔ d'.off ≤ x ∧ x < d'.off + d'.w.len := fun x => by
    rw [val_covers h3]; exact HBase.covers_iff _ _
  have hcovd : ∀ x, (d.val m).covers x = true ↔ d.off ≤ x ∧ x < d.off + d.w.len := fun x => by
    rw [val_covers hdo]; exact HBase.covers_iff _ _
  have hcovl : ∀ e ∈ l, ∀ x, (e.val m).covers x = true ↔ e.off ≤ x ∧ x < e.off + e.w.len := fun e he x => by
    rw [val_covers (hlo e he)]; exact HBase.covers_iff _ _
  have hC : ∀ x, (b.val m).content x = match lastOf (fun e => e.covers x) (d.val m :: l.map (HDiff.val m)) with
      | some e => e.sl.data[x - e.off]? | none => (m.sl b.bytes).data[x]? := by
    intro x
    rw [content_eq]
    have : (b.val m).diffs = d.val m :: l.map (HDiff.val m) := by unfold HBase.val; rw [hd]; rfl
    rw [this]; rfl
  have hC' : ∀ x, (({ b with diffs := d' :: l } : HBase).val m').content x = match lastOf (fun e => e.covers x) (d'.val m' :: l.map (HDiff.val m)) with
      | some e => e.sl.data[x - e.off]? | none => (m.sl b.bytes).data[x]? := by
    intro x
    rw [content_eq]
    have : (({ b with diffs := d' :: l } : HBase).val m').diffs = d'.val m' :: l.map (HDiff.val m) := by unfold HBase.val; rw [← hvl]; rfl
    rw [this]
    cases hq : lastOf (fun e => e.covers x) (d'.val m' :: l.map (HDiff.val m)) with
    | some e => rfl
    | none =>
      simp only
      have : (({ b with diffs := d' :: l } : HBase).val m').bytes = m.sl b.bytes := hvb
      rw [this]
  have hlast : ∀ (a : Diff) (r : List Diff) (x : Nat), lastOf (fun e : Diff => e.covers x) (a :: r) =
      match lastOf (fun e : Diff => e.covers x) r with
      | some e => some e | none => if a.covers x then some a else none := by
    intro a r x
    rw [lastOf_cons]
    cases lastOf (fun e : Diff => e.covers x) r <;> rfl
  have main : ∀ x, (({ b with diffs := d' :: l } : HBase).val m').content x = (b.val m).content x ∨
      ((({ b with diffs := d' :: l } : HBase).val m').content x = some 0 ∧ (∀ e ∈ b.diffs, ¬ (e.off ≤ x ∧ x < e.off + e.w.len)) ∧
        d'.off ≤ x ∧ x < d'.off + d'.w.len) := by
    intro x
    rw [hC, hC', hlast, hlast]
    cases hq : lastOf (fun e => e.covers x) (l.map (HDiff.val m)) with
    | some e => exact Or.inl rfl
    | none =>
      have hn : ∀ s ∈ l, ¬ (s.off ≤ x ∧ x < s.off + s.w.len) := by
        intro s hs hx
        have := lastOf_none.mp hq (s.val m) (List.mem_map_of_mem hs)
        rw [(hcovl s hs x).mpr hx] at this
        cases this
      simp only
      by_cases hx : d'.off ≤ x ∧ x < d'.off + d'.w.len
      · rw [if_pos ((hcov x).mpr hx)]
        have e1 : d.off + (x - d'.off) = x := by omega
        have := h8 (x - d'.off) (by omega) (fun s hs => by rw [e1]; exact hn s hs)
        have hv : (d'.val m').sl.data[x - (d'.val m').off]? = if x - d'.off < d.w.len then (m.sl d.w).data[x - d'.off]? else some 0 := this
        simp only [hv]
        by_cases hxd : x - d'.off < d.w.len
        · rw [if_pos hxd, if_pos ((hcovd x).mpr (by omega))]
          left
          simp only [HDiff.val, h2]
        · rw [if_neg hxd]
          right
          refine ⟨rfl, ?_, hx⟩
          intro e he hex
          rw [hd] at he
          rcases List.mem_cons.mp he with rfl | he
          · omega
          · exact hn e he hex
      · rw [if_neg (by rw [hcov]; exact hx), if_neg (by rw [hcovd]; omega)]
        exact Or.inl rfl
  refine ⟨m', _, hmerge, hok', ?_, ?_, ?_⟩
  · have key : ∀ k, ({ b with diffs := d' :: l } : HBase).lenBuf ≤ k ↔ b.lenBuf ≤ k := by
      intro k
      have g : ∀ c : HBase, c.lenBuf ≤ k ↔ c.bytes.len ≤ k ∧ ∀ e ∈ c.diffs, e.off + e.w.len ≤ k := by
        intro c
        constructor
        · intro h
          obtain ⟨g1, g2⟩ := HBase.le_lenBuf c
          exact ⟨by omega, fun e he => by have := g2 e he; omega⟩
        · rintro ⟨g1, g2⟩
          unfold HBase.lenBuf
          have : ∀ (ds : List HDiff) (y : Nat), y ≤ k → (∀ e ∈ ds, e.off + e.w.len ≤ k) →
              ds.foldl (fun m d => if d.off + d.w.len > m then d.off + d.w.len else m) y ≤ k := by
            intro ds
            induction ds with
            | nil => intro y hy _; exact hy
            | cons e ds ih =>
              intro y hy he
              refine ih _ ?_ (fun e' he' => he e' (List.mem_cons_of_mem _ he'))
              have := he e List.mem_cons_self
              show (if e.off + e.w.len > y then e.off + e.w.len else y) ≤ k
              split <;> omega
          split
          · exact g1
          · exact this _ _ g1 g2
      rw [g, g, hd]
      constructor
      · rintro ⟨g1, g2⟩
        refine ⟨g1, fun e he => ?_⟩
        rcases List.mem_cons.mp he with rfl | he
        · have := g2 d' List.mem_cons_self; omega
        · exact g2 e (List.mem_cons_of_mem _ he)
      · rintro ⟨g1, g2⟩
        refine ⟨g1, fun e he => ?_⟩
        rcases List.mem_cons.mp he with rfl | he
        · exact h6 k (g2 d List.mem_cons_self) (fun s hs => g2 s (List.mem_cons_of_mem _ hs))
        · exact g2 e (List.mem_cons_of_mem _ he)
    exact Nat.le_antisymm ((key _).mpr (Nat.le_refl _)) ((key _).mp (Nat.le_refl _))
  · intro x hx
    rcases main x with h | ⟨-, h9, h10⟩
    · exact h
    · exfalso
      rcases hx with ⟨e, he, hex⟩ | hx | hx
      · exact h9 e he hex
      · omega
      · have := h6 x (hx d (by rw [hd]; exact List.mem_cons_self)) (fun s hs => hx s (by rw [hd]; exact List.mem_cons_of_mem _ hs))
        omega
  · intro x
    rcases main x with h | ⟨h, -⟩
    · exact Or.inl h
    · exact Or.inr h

/-- C22 partial: under the same conditions a read with a requested size delivers the byte there was, wherever a
segment shows one. -/
theorem dl_read_partial {m : Mem} {b : HBase} (hb : b.Ok m) {d : HDiff} {l : List HDiff} (hd : b.diffs = d :: l)
    (hl : ∀ s ∈ l, d.w.Disj s.w ∧ d.off ≤ s.off) (hbase : d.w.Disj b.bytes) (off req : Nat) (hreq : 0 < req)
    (hx : ∃ e ∈ b.diffs, e.off ≤ off ∧ off < e.off + e.w.len) :
    ∃ m' b' w, b.dlR m off req = some (m', b', w) ∧ (m'.sl w).data[0]? = (b.val m).byte off := by
  obtain ⟨m', b', h1, h2, -, h4, -⟩ := dl_merge_partial hb hd hl hbase
  refine ⟨m', b', b'.nlR off req, by unfold dlR; rw [h1]; rfl, ?_⟩
  rw [nlR_eq_R b' off req hreq, (R_ok h2 off req).2, byte_eq_content, ← h4 off (Or.inl hx), ← byte_eq_content]
  unfold Base.byte
  rw [R_data, R_data, List.head?_eq_getElem?]

/-- C22: `NewDoubleLayer` of a buffer shows the same bytes, with holes filled by zeros, and has no segments. -/
theorem dl_new {m : Mem} {b : HBase} (hb : b.Ok m) :
    (b.newDoubleLayer m).2.Ok (b.newDoubleLayer m).1 ∧ (b.newDoubleLayer m).2.diffs = [] ∧
      (b.newDoubleLayer m).2.lenBuf = b.lenBuf ∧
      ∀ x, ((b.newDoubleLayer m).2.val (b.newDoubleLayer m).1).content x = (b.val m).content.fill b.lenBuf x := by
  unfold newDoubleLayer
  split
  · obtain ⟨-, h2, h3⟩ := flatten_ok hb
    refine ⟨h2, rfl, ?_, fun x => ?_⟩
    · rw [lenBuf_ok h2, h3, lenBuf_ok hb]
      exact (flatten_bytes _).1
    · rw [h3, flatten_content, ← lenBuf_ok hb]
  · rename_i hn
    have hd : b.diffs = [] := List.eq_nil_of_length_eq_zero (by omega)
    refine ⟨hb, hd, rfl, fun x => ?_⟩
    have hdv : (b.val m).diffs = [] := by unfold HBase.val; rw [hd]; rfl
    have hl : b.lenBuf = (m.sl b.bytes).data.length := by
      rw [lenBuf_ok hb]; unfold Base.lenBuf; rw [hdv]; rfl
    have hc : (b.val m).content x = (m.sl b.bytes).data[x]? := by
      rw [content_eq, hdv]; rfl
    unfold ByteMap.fill
    rw [hc, hl]
    split
    · rename_i h; rw [List.getElem?_eq_getElem h]; rfl
    · rename_i h; rw [List.getElem?_eq_none (by omega)]

/-- C21: `NoLayer`'s insertSpace is the buffer's, except that a gap beyond the end of the bytes is created. -/
theorem nl_insert_space {m : Mem} {b : HBase} (hb : b.Ok m) (pos size : Nat) (cr : Bool) :
    ∃ c, (cr = true → c = true) ∧ (c ≠ cr → ((b.val m).insertSpace pos size cr).lenBuf < pos + size) ∧
      pos + size ≤ ((b.val m).insertSpace pos size c).lenBuf ∧
      (b.nlInsertSpace m pos size cr).2.Ok (b.nlInsertSpace m pos size cr).1 ∧
      (b.nlInsertSpace m pos size cr).2.val (b.nlInsertSpace m pos size cr).1 = (b.val m).insertSpace pos size c := by
  obtain ⟨h1, h2, h3⟩ := insertSpace_ok hb pos size cr
  have hl : (b.insertSpace m pos size cr).2.lenBuf = ((b.val m).insertSpace pos size cr).lenBuf := by
    rw [lenBuf_ok h2, h3]
  unfold nlInsertSpace
  simp only
  split
  · rename_i h
    exact ⟨cr, id, fun h => absurd rfl h, by omega, h2, h3⟩
  · rename_i h
    have hb' : b.Ok (b.insertSpace m pos size cr).1 := ⟨Mem.Ok_ext h1 hb.1, fun d hd => Mem.Ok_ext h1 (hb.2 d hd)⟩
    obtain ⟨-, g2, g3⟩ := insertSpace_ok hb' pos size true
    have hv : b.val (b.insertSpace m pos size cr).1 = b.val m := by
      unfold HBase.val; rw [Mem.sl_ext h1 hb.1, map_val_ext h1 hb.2]
    rw [hv] at g3
    refine ⟨true, fun _ => rfl, fun _ => by omega, ?_, g2, g3⟩
    have hm : (⟨pos, .make size⟩ : Diff) ∈ ((b.val m).insertSpace pos size true).diffs := by
      unfold Base.insertSpace; simp
    have := ((maxEnd_le_iff _ _ _).mp (Nat.le_of_eq (lenBuf_eq ((b.val m).insertSpace pos size true)).symm)).2 _ hm
    have e : (Slice.make size).len = size := by simp [Slice.make, Slice.len, zeros]
    have h' : pos + (Slice.make size).len ≤ ((b.val m).insertSpace pos size true).lenBuf := this
    omega

end Fbs.Props
