import Verif.HeapInPlace
/-!
# Which memory an operation can reach

`HBase.In S b`: all memory of `b` lies in the arrays of `S`.  Every operation keeps its buffer inside its
own arrays and the arrays allocated by the operation, and writes nowhere else.
-/

namespace Fbs

/-- The memory of the slice lies in `S`. -/
def Win.In (S : Nat → Prop) (w : Win) : Prop := w.cap = 0 ∨ S w.arr

/-- The memory of the buffer lies in `S`. -/
def HBase.In (S : Nat → Prop) (b : HBase) : Prop := b.bytes.In S ∧ ∀ d ∈ b.diffs, d.w.In S

/-- `m'` is `m` after allocating and writing inside `S` only. -/
def Mem.Frame (S : Nat → Prop) (m m' : Mem) : Prop :=
  m.length ≤ m'.length ∧ ∀ i, i < m.length → ¬ S i → m'[i]? = m[i]?

namespace Mem

theorem Frame.of_prefix {S : Nat → Prop} {m m' : Mem} (h : m <+: m') : Frame S m m' := by
  refine ⟨h.length_le, fun i hi _ => ?_⟩
  obtain ⟨t, rfl⟩ := h
  exact List.getElem?_append_left hi

theorem Frame.refl (S : Nat → Prop) (m : Mem) : Frame S m m := ⟨Nat.le_refl _, fun _ _ _ => rfl⟩

theorem Frame.trans {S : Nat → Prop} {m m' m'' : Mem} (h : Frame S m m') (h' : Frame S m' m'') :
    Frame S m m'' :=
  ⟨Nat.le_trans h.1 h'.1, fun i hi hs => by
    rw [h'.2 i (Nat.lt_of_lt_of_le hi h.1) hs, h.2 i hi hs]⟩

theorem Frame.mono {S T : Nat → Prop} {m m' : Mem} (h : Frame S m m')
    (hst : ∀ i, i < m.length → S i → T i) : Frame T m m' :=
  ⟨h.1, fun i hi hs => h.2 i hi (fun hh => hs (hst i hi hh))⟩

/-- A write reaches only its own array. -/
theorem Frame.copyTo {S : Nat → Prop} {m : Mem} {w : Win} (hw : m.Ok w) (hs : w.In S) (src : Bytes) :
    Frame S m (m.copyTo w 0 src) := by
  refine ⟨by rw [copyTo_length]; exact Nat.le_refl _, fun i _ hni => ?_⟩
  unfold Mem.copyTo
  rw [List.getElem?_modify]
  by_cases hi : w.arr = i
  · rcases hs with h0 | hs
    · have : w.len = 0 := by have := hw.1; omega
      rw [this]
      cases m[i]? with
      | none => rfl
      | some a => simp
    · exact absurd (hi ▸ hs) hni
  · simp [hi]

theorem sl_Frame {S : Nat → Prop} {m m' : Mem} (h : Frame S m m') {w : Win} (hw : m.Ok w)
    (hs : w.In (fun i => ¬ S i)) : m'.sl w = m.sl w := by
  have hc : m'.capBytes w = m.capBytes w := by
    unfold capBytes
    rcases hs with h0 | hs
    · rw [h0]; simp
    · rcases hw.2 with h0 | ⟨h1, _⟩
      · rw [h0]; simp
      · rw [h.2 _ h1 hs]
  unfold sl; rw [hc]

theorem Ok_Frame {S : Nat → Prop} {m m' : Mem} (h : Frame S m m') {w : Win} (hw : m.Ok w)
    (hs : w.In (fun i => ¬ S i)) : m'.Ok w := by
  refine ⟨hw.1, ?_⟩
  rcases hw.2 with h0 | ⟨h1, h2⟩
  · exact Or.inl h0
  · rcases hs with h0 | hs
    · exact Or.inl h0
    · right
      rw [h.2 _ h1 hs]
      exact ⟨Nat.lt_of_lt_of_le h1 h.1, h2⟩

theorem copyTo_arr_length' {m : Mem} {w : Win} {src : Bytes} (hw : m.Ok w) (i : Nat) :
    (((m.copyTo w 0 src)[i]?).getD []).length = ((m[i]?).getD []).length := by
  unfold copyTo
  rw [List.getElem?_modify]
  by_cases hi : w.arr = i
  · subst hi
    cases ha : m[w.arr]? with
    | none => simp
    | some a =>
      simp only [Option.map_eq_map, if_pos, Option.map_some, Option.getD_some, Nat.add_zero, Nat.sub_zero,
        List.length_append, List.length_take, List.length_drop]
      have h1 := hw.1
      rcases hw.2 with h | ⟨_, h⟩
      · omega
      · rw [ha] at h; simp only [Option.getD_some] at h; omega
  · simp [hi]

theorem Ok_copyTo' {m : Mem} {w v : Win} {src : Bytes} (hw : m.Ok w) (hv : m.Ok v) :
    (m.copyTo w 0 src).Ok v := by
  refine ⟨hv.1, ?_⟩
  rcases hv.2 with h | ⟨h1, h2⟩
  · exact Or.inl h
  · right; rw [copyTo_length, copyTo_arr_length' hw]; exact ⟨h1, h2⟩

end Mem

namespace Win
variable {S : Nat → Prop}

theorem In.drop {w : Win} (h : w.In S) (k : Nat) {l o : Nat} : Win.In S ⟨w.arr, o, l, w.cap - k⟩ := by
  rcases h with h | h
  · left; simp [h]
  · right; exact h

theorem In.nil : Win.In S .nil := Or.inl rfl

theorem In.mono {T : Nat → Prop} (h : ∀ i, S i → T i) {w : Win} (hw : w.In S) : w.In T :=
  hw.imp id (h _)

end Win

namespace HBase
variable {S : Nat → Prop} {m : Mem} {b : HBase}

theorem In.mono {T : Nat → Prop} (h : ∀ i, S i → T i) (hb : b.In S) : b.In T :=
  ⟨hb.1.mono h, fun d hd => (hb.2 d hd).mono h⟩

theorem In.app (hb : b.In S) {d : HDiff} (hd : d.w.In S) {k : Nat} :
    ({ b with diffs := b.diffs ++ [d], seekCur := k } : HBase).In S := by
  refine ⟨hb.1, fun e he => ?_⟩
  simp only [List.mem_append, List.mem_singleton] at he
  rcases he with he | rfl
  · exact hb.2 e he
  · exact hd

theorem alloc_in (hS : ∀ i, m.length ≤ i → S i) (s : Slice) : (m.alloc s).2.In S :=
  Or.inr (hS _ (Nat.le_refl _))

theorem writeAt_in (hS : ∀ i, m.length ≤ i → S i) (hb : b.In S) (p : Bytes) (i : Nat) :
    (b.writeAt m p i).2.In S :=
  hb.app (alloc_in hS _)

theorem write_in (hS : ∀ i, m.length ≤ i → S i) (hb : b.In S) (p : Bytes) :
    (b.write m p).2.In S :=
  hb.app (k := b.seekCur + p.length) (alloc_in hS _)

theorem mem_set' {α : Type} {l : List α} {i : Nat} {a x : α} (h : x ∈ l.set i a) : x ∈ l ∨ x = a :=
  List.mem_or_eq_of_mem_set h

theorem D_in (hb : b.In S) (off size : Nat) : (b.D off size).In S := by
  unfold D
  cases hl : lastIndexOf (fun d => HDiff.covers d off) b.diffs with
  | some sn =>
    simp only
    obtain ⟨d, hd, -⟩ := lastIndexOf_lt hl
    rw [hd]
    simp only
    have hdi := hb.2 d (List.mem_of_getElem? hd)
    split
    · exact hb.app (k := b.seekCur) (d := ⟨off, .nil⟩) Win.In.nil
    · refine ⟨hb.1, fun e he => ?_⟩
      simp only [List.mem_append, List.mem_singleton] at he
      rcases he with he | rfl
      · rcases mem_insertOr he with he | he
        · rcases mem_set' he with he | rfl
          · exact hb.2 e he
          · exact hdi
        · rw [List.mem_singleton.mp he]
          exact hdi.drop _
      · exact Win.In.nil
  | none =>
    simp only
    refine ⟨hb.1, fun e he => ?_⟩
    simp only [List.mem_append, List.mem_singleton] at he
    rcases he with he | rfl
    · split at he
      · simp only [List.mem_append, List.mem_singleton] at he
        rcases he with he | rfl
        · exact hb.2 e he
        · exact hb.1.drop _
      · exact hb.2 e he
    · exact Win.In.nil

theorem setLast_in (hb : b.In S) {w : Win} (hw : w.In S) : (b.setLast w).In S := by
  unfold setLast
  refine ⟨hb.1, fun e he => ?_⟩
  simp only [List.mem_append] at he
  rcases he with he | he
  · exact hb.2 e (List.dropLast_subset _ he)
  · split at he
    · rw [List.mem_singleton.mp he]; exact hw
    · simp at he

theorem updateU_in (hS : ∀ i, m.length ≤ i → S i) (hb : b.In S) (off size : Nat) (v : Bytes) :
    (b.updateU m off size v).2.In S := by
  unfold updateU U
  exact setLast_in (D_in hb _ _) (alloc_in hS _)

theorem C_in (hb : b.In S) {off size : Nat} {src : Win} (hs : src.In S) {b' : HBase}
    (h : b.C off size src = some b') : b'.In S := by
  unfold C at h
  cases ht : src.takeTo size with
  | none => simp [ht] at h
  | some s =>
    have hs' : s.In S := by
      unfold Win.takeTo at ht
      split at ht
      · injection ht with ht; subst ht; exact hs
      · cases ht
    simp only [ht, Option.bind_eq_bind, Option.bind_some, Option.pure_def] at h
    split at h
    · split at h
      · split at h
        · injection h with h; subst h
          refine ⟨hb.1, fun e he => ?_⟩
          rcases mem_set' he with he | rfl
          · exact hb.2 e he
          · exact hs'
        · injection h with h; subst h; exact setLast_in (D_in hb _ _) hs'
      · injection h with h; subst h; exact setLast_in (D_in hb _ _) hs'
    · injection h with h; subst h; exact setLast_in (D_in hb _ _) hs'

theorem clip_in {w : Win} (hw : w.In S) (k : Nat) : (clip w k).In S := by
  unfold clip; split
  · exact hw
  · exact hw

theorem copyLoop_in {rd : Nat → Nat → Win} (hrd : ∀ x n, (rd x n).In S) (so d done rest : Nat)
    (ds : List HDiff) (hds : ∀ e ∈ ds, e.w.In S) :
    ∀ e ∈ copyLoop rd so d done rest ds, e.w.In S := by
  fun_induction copyLoop rd so d done rest ds with
  | case1 => exact hds
  | case2 => exact hds
  | case3 done rest ds _ _ ih =>
    apply ih
    intro e he
    rcases List.mem_append.mp he with he | he
    · exact hds e he
    · rw [List.mem_singleton.mp he]; exact clip_in (hrd _ _) _

theorem copy_in (hb : b.In S) {rd : Nat → Nat → Win} (hrd : ∀ x n, (rd x n).In S)
    (so size d ext : Nat) : (b.copy rd so size d ext).In S := by
  unfold copy copyExtend
  refine ⟨hb.1, ?_⟩
  apply copyLoop_in hrd
  intro e he
  simp only at he
  obtain ⟨f, hf, rfl⟩ := List.mem_map.mp he
  have hf' : f.w.In S := by
    split at hf
    · rcases mem_insertOr hf with hf | hf
      · exact hb.2 f hf
      · rw [List.mem_singleton.mp hf]; exact hb.1.drop _
    · exact hb.2 f hf
  split <;> exact hf'

theorem flatten_in (hS : ∀ i, m.length ≤ i → S i) : (b.flatten m).2.In S :=
  ⟨alloc_in hS _, fun d hd => by simp [flatten] at hd⟩

theorem dedup_in (hb : b.In S) : b.dedup.In S :=
  ⟨hb.1, fun d hd => hb.2 d (mem_deleteIdx hd)⟩

theorem mergeStable_in {d s : HDiff} (hS : ∀ i, m.length ≤ i → S i) {r : Mem × HDiff}
    (h : mergeStable m d s = some r) : r.2.w.In S ∧ m.length ≤ r.1.length := by
  unfold mergeStable at h
  split at h
  · cases h
  · split at h
    · cases h
    · injection h with h; subst h
      refine ⟨alloc_in hS _, ?_⟩
      simp only [Mem.copyTo_length]
      simp

theorem mergeInto_in {d : HDiff} {l : List HDiff} (hS : ∀ i, m.length ≤ i → S i) (hd : d.w.In S)
    (hl : ∀ s ∈ l, s.w.In S) :
    (mergeInto m d l).2.1.w.In S ∧ (∀ s ∈ (mergeInto m d l).2.2.1, s.w.In S) ∧
      m.length ≤ (mergeInto m d l).1.length := by
  induction l generalizing m d with
  | nil => exact ⟨hd, hl, Nat.le_refl _⟩
  | cons s l ih =>
    simp only [mergeInto]
    cases h : mergeStable m d s with
    | none =>
      obtain ⟨h1, h2, h3⟩ := ih hS hd (fun x hx => hl x (List.mem_cons_of_mem _ hx))
      refine ⟨h1, ?_, h3⟩
      intro x hx
      rcases List.mem_cons.mp hx with rfl | hx
      · exact hl _ List.mem_cons_self
      · exact h2 x hx
    | some r =>
      obtain ⟨g1, g2⟩ := mergeStable_in hS h
      obtain ⟨h1, h2, h3⟩ := ih (m := r.1) (d := r.2) (fun i hi => hS i (by omega)) g1
        (fun x hx => hl x (List.mem_cons_of_mem _ hx))
      exact ⟨h1, h2, Nat.le_trans g2 h3⟩

theorem mergeDiffsOf_in {ds : List HDiff} (hS : ∀ i, m.length ≤ i → S i) (hds : ∀ d ∈ ds, d.w.In S) {i : Nat}
    {r : Mem × List HDiff} (h : mergeDiffsOf m ds i = some r) :
    (∀ d ∈ r.2, d.w.In S) ∧ m.length ≤ r.1.length := by
  unfold mergeDiffsOf at h
  cases hi : ds[i]? with
  | none => simp [hi] at h
  | some d =>
    simp only [hi] at h
    obtain ⟨h1, h2, h3⟩ := mergeInto_in hS (hds d (List.mem_of_getElem? hi))
      (l := ds.drop (i + 1)) (fun s hs => hds s (List.mem_of_mem_drop hs))
    split at h
    · injection h with h; subst h
      refine ⟨?_, h3⟩
      intro x hx
      rcases List.mem_append.mp hx with hx | hx
      · exact hds x (List.mem_of_mem_take hx)
      · rcases List.mem_cons.mp hx with rfl | hx
        · exact h1
        · exact h2 x hx
    · cases h

theorem mergeScan_in {ds : List HDiff} (hS : ∀ i, m.length ≤ i → S i) (hds : ∀ d ∈ ds, d.w.In S) {i : Nat}
    {r : Mem × List HDiff} (h : mergeScan m ds i = some r) :
    (∀ d ∈ r.2, d.w.In S) ∧ m.length ≤ r.1.length := by
  fun_induction mergeScan m ds i with
  | case1 i _ _ hm => injection h with h; subst h; exact mergeDiffsOf_in hS hds hm
  | case2 i _ _ ih => exact ih h
  | case3 => simp at h

theorem mergeLoop_in {ds : List HDiff} (hS : ∀ i, m.length ≤ i → S i) (hds : ∀ d ∈ ds, d.w.In S) :
    ∀ d ∈ (mergeLoop m ds).2, d.w.In S := by
  generalize hk : ds.length = k
  induction k using Nat.strongRecOn generalizing m ds with
  | ind k ih =>
    rw [mergeLoop.eq_def]
    split
    · rename_i r hr
      obtain ⟨h1, h2⟩ := mergeScan_in hS hds hr
      exact ih r.2.length (by have := mergeScan_length hr; omega) (fun i hi => hS i (by omega)) h1 rfl
    · exact hds

theorem mergeDiffs_in (hS : ∀ i, m.length ≤ i → S i) (hb : b.In S) : (b.mergeDiffs m).2.In S :=
  ⟨hb.1, mergeLoop_in hS hb.2⟩

theorem split_in {pos : Nat} (l : List HDiff) (i : Nat) (nd : List HDiff) (hok : ∀ d ∈ l, m.Ok d.w)
    (hl : ∀ d ∈ l, d.w.In S) (hn : ∀ d ∈ nd, d.w.In S) : ∀ d ∈ splitStraddling pos i l nd, d.w.In S := by
  induction l generalizing i nd with
  | nil => exact hn
  | cons d l ih =>
    unfold splitStraddling
    have hd := hl d List.mem_cons_self
    split
    · rename_i hc
      have hcv := (covers_iff d pos).mp hc.2
      have hdS : S d.w.arr := by
        rcases hd with h0 | h
        · have := (hok d List.mem_cons_self).1; omega
        · exact h
      apply ih _ _ (fun x hx => hok x (List.mem_cons_of_mem _ hx)) (fun x hx => hl x (List.mem_cons_of_mem _ hx))
      intro x hx
      rcases mem_insertOr hx with hx | hx
      · exact hn x hx
      · simp only [List.mem_cons, List.not_mem_nil, or_false] at hx
        rcases hx with rfl | rfl
        · exact Or.inr hdS
        · exact Or.inr hdS
    · exact ih _ _ (fun x hx => hok x (List.mem_cons_of_mem _ hx))
        (fun x hx => hl x (List.mem_cons_of_mem _ hx)) hn

theorem insertSpace_in (hS : ∀ i, m.length ≤ i → S i) (hok : b.Ok m) (hb : b.In S) (pos size : Nat) (c : Bool) :
    (b.insertSpace m pos size c).2.In S := by
  have hbytes : ∀ l : Nat, b.bytes.len > pos → Win.In S ⟨b.bytes.arr, b.bytes.off, l, l⟩ := by
    intro l hp
    rcases hb.1 with h0 | h
    · have := hok.1.1; omega
    · exact Or.inr h
  have h1 := split_in (pos := pos) b.diffs 0 b.diffs hok.2 hb.2 hb.2
  have h2 : ∀ d ∈ (splitStraddling pos 0 b.diffs b.diffs).map
      (fun d => if d.off ≥ pos then (⟨d.off + size, d.w⟩ : HDiff) else d), d.w.In S := by
    intro d hd
    obtain ⟨e, he, rfl⟩ := List.mem_map.mp hd
    have := h1 e he
    split <;> exact this
  have hnb : Win.In S (if b.bytes.len > pos then ⟨b.bytes.arr, b.bytes.off, pos, pos⟩ else b.bytes) := by
    split
    · rename_i h; exact hbytes _ h
    · exact hb.1
  have h3 : ∀ d ∈ (if b.bytes.len > pos then
      insertOr ((splitStraddling pos 0 b.diffs b.diffs).map
        (fun d => if d.off ≥ pos then (⟨d.off + size, d.w⟩ : HDiff) else d)) 0
        [⟨pos + size, ⟨b.bytes.arr, b.bytes.off + pos, b.bytes.len - pos, b.bytes.cap - pos⟩⟩]
      else (splitStraddling pos 0 b.diffs b.diffs).map
        (fun d => if d.off ≥ pos then (⟨d.off + size, d.w⟩ : HDiff) else d)), d.w.In S := by
    intro d hd
    split at hd
    · rcases mem_insertOr hd with hd | hd
      · exact h2 d hd
      · rw [List.mem_singleton.mp hd]; exact hb.1.drop _
    · exact h2 d hd
  unfold insertSpace
  cases c with
  | true =>
    refine ⟨hnb, fun d hd => ?_⟩
    simp only [if_true] at hd
    rcases List.mem_append.mp hd with hd | hd
    · exact h3 d hd
    · rw [List.mem_singleton.mp hd]; exact alloc_in hS _
  | false => exact ⟨hnb, h3⟩

theorem dup_in (hS : ∀ i, m.length ≤ i → S i) (hok : b.Ok m) : (b.dup m).2.In S := by
  obtain ⟨-, -, -, h4, h5⟩ := dup_ok hok
  exact ⟨Or.inr (hS _ h4), fun d hd => Or.inr (hS _ (h5 d hd))⟩

/-- The window of an in-place update is sound and lies in the memory of the buffer or in new memory. -/
theorem nlU_ok (hok : b.Ok m) (hb : b.In S) (hS : ∀ i, m.length ≤ i → S i) {off size : Nat}
    {r : Mem × HBase × Win} (h : b.nlU m off size = some r) :
    m <+: r.1 ∧ r.2.1.Ok r.1 ∧ r.2.1.In S ∧ r.1.Ok r.2.2 ∧ r.2.2.In S := by
  unfold nlU at h
  cases hl : lastIndexOf (fun d : HDiff => decide (d.off ≤ off) && decide (off < d.off + d.w.cap)) b.diffs with
  | some sn =>
    simp only [hl] at h
    obtain ⟨d, hd, hp⟩ := lastIndexOf_lt hl
    simp only [Bool.and_eq_true, decide_eq_true_eq] at hp
    have hdm := List.mem_of_getElem? hd
    have hdS : S d.w.arr := by
      rcases hb.2 d hdm with h0 | h
      · omega
      · exact h
    simp only [hd] at h
    split at h
    · obtain ⟨hm1, hm2⟩ := Props.moveLast_spec b.diffs sn d hd
      rw [hm1] at h
      have hp := hm2 _ hm1
      generalize b.diffs.take sn ++ b.diffs.drop (sn + 1) ++ [d] = ds at h hp
      simp only at h
      split at h
      · injection h with h; subst h
        have hpre := Mem.alloc_prefix m (.make size)
        refine ⟨hpre, ⟨Mem.Ok_ext hpre hok.1, ?_⟩, ⟨hb.1, ?_⟩, Mem.alloc_Ok _ _, alloc_in hS _⟩
        · intro e he
          rcases List.mem_append.mp he with he | he
          · exact Mem.Ok_ext hpre (hok.2 e (hp.mem_iff.mp (List.dropLast_subset _ he)))
          · rw [List.mem_singleton.mp he]; exact Mem.alloc_Ok _ _
        · intro e he
          rcases List.mem_append.mp he with he | he
          · exact hb.2 e (hp.mem_iff.mp (List.dropLast_subset _ he))
          · rw [List.mem_singleton.mp he]; exact alloc_in hS _
      · split at h
        · rename_i hc _
          injection h with h; subst h
          have hwk := Mem.Ok_take3 (hok.2 d hdm) size (by omega)
          refine ⟨List.prefix_refl _, ⟨hok.1, ?_⟩, ⟨hb.1, ?_⟩, hwk, Or.inr hdS⟩
          · intro e he
            rcases List.mem_append.mp he with he | he
            · exact hok.2 e (hp.mem_iff.mp (List.dropLast_subset _ he))
            · rw [List.mem_singleton.mp he]; exact hwk
          · intro e he
            rcases List.mem_append.mp he with he | he
            · exact hb.2 e (hp.mem_iff.mp (List.dropLast_subset _ he))
            · rw [List.mem_singleton.mp he]; exact Or.inr hdS
        · injection h with h; subst h
          exact ⟨List.prefix_refl _, ⟨hok.1, fun e he => hok.2 e (hp.mem_iff.mp he)⟩,
            ⟨hb.1, fun e he => hb.2 e (hp.mem_iff.mp he)⟩, hok.2 d hdm, Or.inr hdS⟩
    · cases hw : d.w.sub (off - d.off) (off - d.off + size) with
      | none => simp [hw] at h
      | some w =>
        simp only [hw] at h
        injection h with h; subst h
        unfold Win.sub at hw
        split at hw
        · rename_i hc
          injection hw with hw; subst hw
          refine ⟨List.prefix_refl _, hok, hb, ?_, Or.inr hdS⟩
          have := Mem.Ok_sub (hok.2 d hdm) (off - d.off) size hc.2
          rw [Nat.add_sub_cancel_left]; exact this
        · cases hw
  | none =>
    simp only [hl] at h
    have hbc := hok.1.1
    split at h
    · rename_i hc
      injection h with h; subst h
      exact ⟨List.prefix_refl _, hok, hb, Mem.Ok_drop hok.1 off (by omega), hb.1.drop _⟩
    · split at h
      · rename_i hc
        injection h with h; subst h
        exact ⟨List.prefix_refl _, ⟨Mem.Ok_take hok.1 _ hc, hok.2⟩, ⟨hb.1, hb.2⟩,
          Mem.Ok_sub hok.1 off size hc, hb.1.drop _⟩
      · injection h with h; subst h
        have hpre := Mem.alloc_prefix m ⟨zeros size, zeros (max 512 size - size)⟩
        refine ⟨hpre, ⟨Mem.Ok_ext hpre hok.1, ?_⟩, hb.app (k := b.seekCur) (alloc_in hS _), Mem.alloc_Ok _ _, alloc_in hS _⟩
        intro e he
        rcases List.mem_append.mp he with he | he
        · exact Mem.Ok_ext hpre (hok.2 e he)
        · rw [List.mem_singleton.mp he]; exact Mem.alloc_Ok _ _

theorem nlUpdate_ok (hok : b.Ok m) (hb : b.In S) (hS : ∀ i, m.length ≤ i → S i) {off : Nat} {v : Bytes}
    {m' : Mem} {b' : HBase} (h : b.nlUpdate m off v = some (m', b')) :
    Mem.Frame S m m' ∧ b'.Ok m' ∧ b'.In S := by
  unfold nlUpdate at h
  cases hu : b.nlU m off v.length with
  | none => simp [hu] at h
  | some r =>
    obtain ⟨m1, b1, w⟩ := r
    simp only [hu, Option.bind_eq_bind, Option.bind_some, Option.pure_def, Option.some.injEq, Prod.mk.injEq] at h
    obtain ⟨rfl, rfl⟩ := h
    obtain ⟨h1, h2, h3, h4, h5⟩ := nlU_ok hok hb hS hu
    exact ⟨(Mem.Frame.of_prefix h1).trans (Mem.Frame.copyTo h4 h5 v),
      ⟨Mem.Ok_copyTo' h4 h2.1, fun d hd => Mem.Ok_copyTo' h4 (h2.2 d hd)⟩, h3⟩

end HBase
end Fbs

namespace Fbs
namespace HBase
variable {S : Nat → Prop} {b : HBase}

theorem R_in (hb : b.In S) (off req : Nat) : (b.R off req).In S := by
  have hw : (b.writerR off).In S := by
    unfold writerR
    cases hl : lastIndexOf (fun d => HDiff.covers d off) b.diffs with
    | some sn =>
      obtain ⟨d, hd, -⟩ := lastIndexOf_lt hl
      simp only [hd]
      exact (hb.2 d (List.mem_of_getElem? hd)).drop _
    | none =>
      simp only
      split
      · exact Win.In.nil
      · split
        · exact hb.1.drop _
        · split
          · exact hb.1.drop _
          · exact hb.1.drop _
  have hr : (b.readerR off req).In S := by
    unfold readerR
    simp only
    split
    · split
      · exact hb.1.drop _
      · exact Win.In.nil
    · exact hb.1.drop _
  unfold R
  simp only
  split
  · exact hr
  · exact hw

end HBase
end Fbs

/-! ## The two-layer backend -/

namespace Fbs
namespace Mem

/-- Every slice that was sound stays sound. -/
def Keeps (m m' : Mem) : Prop := ∀ w, m.Ok w → m'.Ok w

theorem Keeps.of_prefix {m m' : Mem} (h : m <+: m') : Keeps m m' := fun _ hw => Ok_ext h hw

theorem Keeps.trans {m m' m'' : Mem} (h : Keeps m m') (h' : Keeps m' m'') : Keeps m m'' :=
  fun w hw => h' w (h w hw)

theorem Frame.copyAt {S : Nat → Prop} {m : Mem} {w : Win} (hw : m.Ok w) (hs : w.In S) (p : Nat) (src : Bytes) :
    Frame S m (m.copyTo w p src) := by
  refine ⟨by rw [copyTo_length]; exact Nat.le_refl _, fun i _ hni => ?_⟩
  unfold Mem.copyTo
  rw [List.getElem?_modify]
  by_cases hi : w.arr = i
  · rcases hs with h0 | hs
    · have : w.len = 0 := by have := hw.1; omega
      rw [this]
      cases m[i]? with
      | none => rfl
      | some a => simp
    · exact absurd (hi ▸ hs) hni
  · simp [hi]

theorem Keeps.copyTo {m : Mem} {w : Win} (hw : m.Ok w) (p : Nat) (src : Bytes) :
    Keeps m (m.copyTo w p src) := by
  intro v hv
  refine ⟨hv.1, ?_⟩
  rcases hv.2 with h | ⟨h1, h2⟩
  · exact Or.inl h
  · right
    refine ⟨by rw [copyTo_length]; exact h1, ?_⟩
    have : (((m.copyTo w p src)[v.arr]?).getD []).length = ((m[v.arr]?).getD []).length := by
      unfold Mem.copyTo
      rw [List.getElem?_modify]
      by_cases hi : w.arr = v.arr
      · rw [← hi]
        cases ha : m[w.arr]? with
        | none => simp
        | some a =>
          simp only [Option.map_eq_map, if_pos, Option.map_some, Option.getD_some,
            List.length_append, List.length_take, List.length_drop]
          have h1 := hw.1
          rcases hw.2 with h | ⟨_, h⟩
          · omega
          · rw [ha] at h; simp only [Option.getD_some] at h; omega
      · simp [hi]
    rw [this]; exact h2

end Mem

namespace HBase
variable {S : Nat → Prop} {m : Mem} {b : HBase}

/-- Two writes into a new array. -/
theorem alloc2 (hS : ∀ i, m.length ≤ i → S i) (s : Slice) (p q : Nat) (f : Mem → Bytes) (g : Mem → Bytes) :
    let m1 := (m.alloc s).1
    let n := (m.alloc s).2
    let m2 := m1.copyTo n p (f m1)
    let m3 := m2.copyTo n q (g m2)
    Mem.Frame S m m3 ∧ Mem.Keeps m m3 ∧ m3.Ok n ∧ n.In S := by
  intro m1 n m2 m3
  have hp : m <+: m1 := Mem.alloc_prefix m s
  have hn : m1.Ok n := Mem.alloc_Ok m s
  have hi : n.In S := alloc_in hS s
  have hn2 : m2.Ok n := Mem.Keeps.copyTo hn p _ n hn
  exact ⟨((Mem.Frame.of_prefix hp).trans (Mem.Frame.copyAt hn hi p _)).trans (Mem.Frame.copyAt hn2 hi q _),
    ((Mem.Keeps.of_prefix hp).trans (Mem.Keeps.copyTo hn p _)).trans (Mem.Keeps.copyTo hn2 q _),
    Mem.Keeps.copyTo hn2 q _ n hn2, hi⟩

theorem merge_ok {d s : HDiff} (hS : ∀ i, m.length ≤ i → S i) (hd : m.Ok d.w) (hdi : d.w.In S)
    {r : Mem × HDiff} (h : merge m d s = some r) :
    Mem.Frame S m r.1 ∧ Mem.Keeps m r.1 ∧ r.1.Ok r.2.w ∧ r.2.w.In S := by
  unfold merge at h
  simp only at h
  have h2 := fun sl p q (f g : Mem → Bytes) => alloc2 (m := m) hS sl p q f g
  split at h
  · injection h with h; subst h
    exact ⟨.copyAt hd hdi _ _, .copyTo hd _ _, Mem.Keeps.copyTo hd _ _ _ hd, hdi⟩
  · split at h
    · injection h with h; subst h
      exact ⟨.copyAt hd hdi _ _, .copyTo hd _ _, Mem.Keeps.copyTo hd _ _ _ hd, hdi⟩
    · split at h
      · injection h with h; subst h
        exact h2 _ _ _ (fun m => m.read d.w) (fun m => m.read s.w)
      · split at h
        · injection h with h; subst h
          obtain ⟨g1, g2, -, -⟩ := h2 ⟨zeros (max (d.off + d.w.len) (s.off + s.w.len) - min d.off s.off),
            zeros (max (d.off + d.w.len) (s.off + s.w.len) - min d.off s.off)⟩ (d.off - s.off) 0
            (fun m => m.read d.w) (fun m => m.read s.w)
          exact ⟨g1, g2, g2 _ hd, hdi⟩
        · injection h with h; subst h
          exact h2 _ _ _ (fun m => m.read d.w) (fun m => m.read s.w)

theorem dlMergeInto_ok {d : HDiff} {l : List HDiff} (hS : ∀ i, m.length ≤ i → S i) (hd : m.Ok d.w)
    (hdi : d.w.In S) {r : Mem × HDiff} (h : dlMergeInto m d l = some r) :
    Mem.Frame S m r.1 ∧ Mem.Keeps m r.1 ∧ r.1.Ok r.2.w ∧ r.2.w.In S := by
  induction l generalizing m d with
  | nil => injection h with h; subst h; exact ⟨.refl _ _, fun _ h => h, hd, hdi⟩
  | cons s l ih =>
    simp only [dlMergeInto] at h
    cases hm : merge m d s with
    | none => simp [hm] at h
    | some r1 =>
      simp only [hm, Option.bind_eq_bind, Option.bind_some] at h
      obtain ⟨h1, h2, h3, h4⟩ := merge_ok hS hd hdi hm
      obtain ⟨g1, g2, g3, g4⟩ := ih (fun i hi => hS i (Nat.le_trans h1.1 hi)) h3 h4 h
      exact ⟨h1.trans g1, h2.trans g2, g3, g4⟩

theorem dlMerge_ok (hS : ∀ i, m.length ≤ i → S i) (hok : b.Ok m) (hb : b.In S) {r : Mem × HBase}
    (h : b.dlMerge m = some r) : Mem.Frame S m r.1 ∧ Mem.Keeps m r.1 ∧ r.2.Ok r.1 ∧ r.2.In S := by
  unfold dlMerge at h
  match hbd : b.diffs, h with
  | d :: s :: l, h =>
    simp only at h
    cases hm : dlMergeInto m d (s :: l) with
    | none => simp [hm] at h
    | some r1 =>
      simp only [hm, Option.bind_eq_bind, Option.bind_some, Option.pure_def] at h
      injection h with h; subst h
      have hdm : d ∈ b.diffs := by rw [hbd]; simp
      obtain ⟨h1, h2, h3, h4⟩ := dlMergeInto_ok hS (hok.2 d hdm) (hb.2 d hdm) hm
      refine ⟨h1, h2, ⟨h2 _ hok.1, fun e he => ?_⟩, ⟨hb.1, fun e he => ?_⟩⟩
      · rcases List.mem_cons.mp he with rfl | he
        · exact h3
        · exact h2 _ (hok.2 e (by rw [hbd]; exact List.mem_cons_of_mem _ he))
      · rcases List.mem_cons.mp he with rfl | he
        · exact h4
        · exact hb.2 e (by rw [hbd]; exact List.mem_cons_of_mem _ he)
  | [], h => injection h with h; subst h; exact ⟨.refl _ _, fun _ h => h, hok, hb⟩
  | [_], h => injection h with h; subst h; exact ⟨.refl _ _, fun _ h => h, hok, hb⟩

theorem dlUpdate_ok (hS : ∀ i, m.length ≤ i → S i) (hok : b.Ok m) (hb : b.In S) {off : Nat} {v : Bytes}
    {r : Mem × HBase} (h : b.dlUpdate m off v = some r) :
    Mem.Frame S m r.1 ∧ r.2.Ok r.1 ∧ r.2.In S := by
  unfold dlUpdate dlU at h
  cases hm : b.dlMerge m with
  | none => simp [hm] at h
  | some r1 =>
    obtain ⟨m1, b1⟩ := r1
    obtain ⟨h1, h2, h3, h4⟩ := dlMerge_ok hS hok hb hm
    have hS1 : ∀ i, m1.length ≤ i → S i := fun i hi => hS i (Nat.le_trans h1.1 hi)
    have hu : b1.nlUpdate m1 off v = some r := by
      unfold nlUpdate
      simp only [hm, Option.bind_eq_bind, Option.bind_some] at h
      exact h
    obtain ⟨m2, b2⟩ := r
    obtain ⟨g1, g2, g3⟩ := nlUpdate_ok h3 h4 hS1 hu
    exact ⟨h1.trans g1, g2, g3⟩

theorem cons_ok {ds : List HDiff} {d' : HDiff} {m' : Mem} (hk : Mem.Keeps m m') (hok : b.Ok m) (hb : b.In S)
    {d : HDiff} (hd : b.diffs = d :: ds) (h1 : m'.Ok d'.w) (h2 : d'.w.In S) :
    ({ bytes := b.bytes, diffs := d' :: ds } : HBase).Ok m' ∧
    ({ bytes := b.bytes, diffs := d' :: ds } : HBase).In S := by
  refine ⟨⟨hk _ hok.1, fun e he => ?_⟩, ⟨hb.1, fun e he => ?_⟩⟩
  · rcases List.mem_cons.mp he with rfl | he
    · exact h1
    · exact hk _ (hok.2 e (by rw [hd]; exact List.mem_cons_of_mem _ he))
  · rcases List.mem_cons.mp he with rfl | he
    · exact h2
    · exact hb.2 e (by rw [hd]; exact List.mem_cons_of_mem _ he)

theorem dlInsertSpace_ok (hS : ∀ i, m.length ≤ i → S i) (hok : b.Ok m) (hb : b.In S) {pos size : Nat}
    {r : Mem × HBase} (h : b.dlInsertSpace m pos size = some r) :
    Mem.Frame S m r.1 ∧ r.2.Ok r.1 ∧ r.2.In S := by
  unfold dlInsertSpace at h
  cases hm : b.dlMerge m with
  | none => simp [hm] at h
  | some r1 =>
    obtain ⟨m1, b1⟩ := r1
    obtain ⟨h1, h2, h3, h4⟩ := dlMerge_ok hS hok hb hm
    have hS1 : ∀ i, m1.length ≤ i → S i := fun i hi => hS i (Nat.le_trans h1.1 hi)
    suffices hh : Mem.Frame S m1 r.1 ∧ r.2.Ok r.1 ∧ r.2.In S from ⟨h1.trans hh.1, hh.2⟩
    simp only [hm, Option.bind_eq_bind, Option.bind_some] at h
    clear hm hok hb hS h1 h2
    have hp := fun s => Mem.alloc_prefix m1 s
    cases hd : b1.diffs with
    | nil =>
      simp only [hd] at h
      have hbase : ∀ s : Slice, ({ bytes := b1.bytes, diffs := [⟨pos, (m1.alloc s).2⟩] } : HBase).Ok (m1.alloc s).1 ∧
          ({ bytes := b1.bytes, diffs := [⟨pos, (m1.alloc s).2⟩] } : HBase).In S := by
        intro s
        refine ⟨⟨Mem.Ok_ext (hp s) h3.1, fun e he => ?_⟩, ⟨h4.1, fun e he => ?_⟩⟩
        · rw [List.mem_singleton.mp he]; exact Mem.alloc_Ok _ _
        · rw [List.mem_singleton.mp he]; exact alloc_in hS1 _
      split at h
      · injection h with h; subst h
        exact ⟨.of_prefix (hp _), (hbase _).1, (hbase _).2⟩
      · cases hs : b1.bytes.dropFrom pos with
        | none => simp [hs] at h
        | some src =>
          simp only [hs, Option.bind_some, Option.pure_def] at h
          injection h with h; subst h
          have hw : (m1.alloc (.make (max size (size + b1.bytes.len - pos)))).1.Ok
              { (m1.alloc (.make (max size (size + b1.bytes.len - pos)))).2 with len := size } :=
            Mem.Ok_take (Mem.alloc_Ok _ _) _ (by simp [Mem.alloc, Slice.cap, Slice.make, zeros]; omega)
          have hwi : Win.In S { (m1.alloc (.make (max size (size + b1.bytes.len - pos)))).2 with len := size } :=
            Or.inr (hS1 _ (Nat.le_refl _))
          have hk := Mem.Keeps.copyTo hw 0 ((m1.alloc (.make (max size (size + b1.bytes.len - pos)))).1.read src)
          refine ⟨(Mem.Frame.of_prefix (hp _)).trans (.copyAt hw hwi 0 _), ⟨hk _ (hbase _).1.1, fun e he => ?_⟩,
            (hbase _).2⟩
          exact hk _ ((hbase _).1.2 e he)
    | cons d ds =>
      simp only [hd] at h
      have hdm : d ∈ b1.diffs := by rw [hd]; exact List.mem_cons_self
      have hdo := h3.2 d hdm
      have hdi := h4.2 d hdm
      split at h
      · cases hpre : d.w.takeTo pos with
        | none => simp [hpre] at h
        | some pre =>
          simp only [hpre, Option.bind_some] at h
          split at h
          · cases hw : d.w.takeTo (d.w.len + size) with
            | none => simp [hw] at h
            | some w =>
              simp only [hw, Option.bind_some] at h
              cases hs : w.dropFrom (pos - d.off) with
              | none => simp [hs] at h
              | some src =>
                simp only [hs, Option.bind_some, Option.pure_def] at h
                injection h with h; subst h
                have hwo := (takeTo_ok hdo hw).1
                have hwi : w.In S := by
                  unfold Win.takeTo at hw
                  split at hw
                  · injection hw with hw; subst hw; exact hdi
                  · cases hw
                have k1 := Mem.Keeps.copyTo hwo (pos - d.off + size) (m1.read src)
                have hwo2 := k1 _ hwo
                have k2 := Mem.Keeps.copyTo hwo2 (pos - d.off) (zeros size)
                obtain ⟨c1, c2⟩ := cons_ok (k1.trans k2) h3 h4 hd (d' := ⟨d.off, w⟩) (k2 _ hwo2) hwi
                exact ⟨(Mem.Frame.copyAt hwo hwi _ _).trans (.copyAt hwo2 hwi _ _), c1, c2⟩
          · injection h with h; subst h
            obtain ⟨a1, a2, a3, a4⟩ := alloc2 (m := m1) hS1 ⟨zeros (d.w.len + size), zeros d.w.len⟩ 0
              (pos - d.off + size) (fun m => (m.read d.w).take (pos - d.off))
              (fun m => (m.read d.w).drop (pos - d.off))
            obtain ⟨c1, c2⟩ := cons_ok a2 h3 h4 hd (d' := ⟨d.off, _⟩) a3 a4
            exact ⟨a1, c1, c2⟩
      · split at h
        · injection h with h; subst h
          have hno := Mem.alloc_Ok m1 ⟨zeros (d.w.len + size), zeros (d.w.len + size)⟩
          have hni := alloc_in (m := m1) hS1 ⟨zeros (d.w.len + size), zeros (d.w.len + size)⟩
          have k1 := Mem.Keeps.copyTo hno size
            ((m1.alloc ⟨zeros (d.w.len + size), zeros (d.w.len + size)⟩).1.read d.w)
          obtain ⟨c1, c2⟩ := cons_ok ((Mem.Keeps.of_prefix (hp _)).trans k1) h3 h4 hd (d' := ⟨pos, _⟩)
            (k1 _ hno) hni
          exact ⟨(Mem.Frame.of_prefix (hp _)).trans (.copyAt hno hni _ _), c1, c2⟩
        · injection h with h; subst h
          have hno := Mem.alloc_Ok m1 ⟨zeros (pos - d.off + size), zeros (pos - d.off + size)⟩
          have hni := alloc_in (m := m1) hS1 ⟨zeros (pos - d.off + size), zeros (pos - d.off + size)⟩
          have k1 := Mem.Keeps.copyTo hno 0
            ((m1.alloc ⟨zeros (pos - d.off + size), zeros (pos - d.off + size)⟩).1.read d.w)
          obtain ⟨c1, c2⟩ := cons_ok ((Mem.Keeps.of_prefix (hp _)).trans k1) h3 h4 hd (d' := ⟨d.off, _⟩)
            (k1 _ hno) hni
          exact ⟨(Mem.Frame.of_prefix (hp _)).trans (.copyAt hno hni _ _), c1, c2⟩

end HBase
end Fbs
