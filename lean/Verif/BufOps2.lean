import Verif.BufOps
/-! # insertSpace, Copy, MergeDiffs fixpoint, C (helper lemmas) -/

namespace Fbs

/-! ## value algebra of segments -/

/-- Value a segment gives to `x`. -/
def Diff.val (d : Diff) (x : Nat) : Option UInt8 := if d.off ≤ x then d.sl.data[x - d.off]? else none

/-- Value a list of segments gives to `x` (last wins). -/
def segVal (ds : List Diff) (x : Nat) : Option UInt8 := contentOf (fun _ => none) ds x

theorem put_val (m : ByteMap) (d : Diff) (x : Nat) : m.put d.off d.sl.data x = (d.val x).or (m x) := by
  rw [put_apply]; unfold Diff.val
  by_cases h1 : d.off ≤ x
  · by_cases h2 : x < d.off + d.sl.data.length
    · rw [if_pos ⟨h1, h2⟩, if_pos h1, List.getElem?_eq_getElem (by omega)]; rfl
    · rw [if_neg (by omega), if_pos h1, List.getElem?_eq_none (by omega)]; rfl
  · rw [if_neg (by omega), if_neg h1]; rfl

theorem contentOf_or (m : ByteMap) (ds : List Diff) (x : Nat) :
    contentOf m ds x = (segVal ds x).or (m x) := by
  unfold segVal
  rw [contentOf_eq, contentOf_eq]
  cases h : lastOf (fun d => d.covers x) ds with
  | none => rfl
  | some d =>
    have := (covers_iff d x).mp (lastOf_some h).2
    simp only [Slice.len] at this
    simp only
    rw [List.getElem?_eq_getElem (by omega)]; rfl

theorem segVal_nil (x : Nat) : segVal [] x = none := rfl

theorem segVal_cons (d : Diff) (l : List Diff) (x : Nat) :
    segVal (d :: l) x = (segVal l x).or (d.val x) := by
  have : segVal (d :: l) x = contentOf (ByteMap.put (fun _ => none) d.off d.sl.data) l x := rfl
  rw [this, contentOf_or, put_val]; simp

theorem segVal_append (l₁ l₂ : List Diff) (x : Nat) :
    segVal (l₁ ++ l₂) x = (segVal l₂ x).or (segVal l₁ x) := by
  induction l₁ with
  | nil => simp [segVal_nil]
  | cons a l ih => rw [List.cons_append, segVal_cons, ih, segVal_cons, Option.or_assoc]

theorem segVal_none {ds : List Diff} {x : Nat} (h : ∀ d ∈ ds, d.val x = none) : segVal ds x = none := by
  induction ds with
  | nil => rfl
  | cons d l ih =>
    rw [segVal_cons, ih (fun e he => h e (List.mem_cons_of_mem _ he)), h d List.mem_cons_self]; rfl

theorem val_none {d : Diff} {x : Nat} (h : ¬ (d.off ≤ x ∧ x < d.off + d.sl.len)) : d.val x = none := by
  unfold Diff.val
  split
  · rw [List.getElem?_eq_none]; simp only [Slice.len] at h; omega
  · rfl

theorem val_isSome {d : Diff} {x : Nat} (h : d.off ≤ x ∧ x < d.off + d.sl.len) :
    d.val x = d.sl.data[x - d.off]? := by
  unfold Diff.val; rw [if_pos h.1]

/-- Pointwise relation between two journals of equal length. -/
theorem segVal_map (f : Diff → Diff) (ds : List Diff) (x y : Nat) (h : ∀ d ∈ ds, (f d).val x = d.val y) :
    segVal (ds.map f) x = segVal ds y := by
  induction ds with
  | nil => rfl
  | cons d l ih =>
    rw [List.map_cons, segVal_cons, segVal_cons, ih (fun e he => h e (List.mem_cons_of_mem _ he)),
      h d List.mem_cons_self]

/-! ## MergeDiffs fixpoint -/

theorem mergeInto_false {d : Diff} {l : List Diff} (h : (Base.mergeInto d l).2.2 = false) :
    ∀ s ∈ l, d.mergeStable s = none := by
  induction l with
  | nil => simp
  | cons a l ih =>
    simp only [Base.mergeInto] at h
    cases hm : d.mergeStable a with
    | some d' => simp [hm] at h
    | none =>
      simp only [hm] at h
      intro s hs
      rcases List.mem_cons.mp hs with rfl | hs
      · exact hm
      · exact ih h s hs

theorem mergeScan_none {ds : List Diff} {i : Nat} (h : Base.mergeScan ds i = none) :
    (ds.drop i).Pairwise (fun a b => a.mergeStable b = none) := by
  fun_induction Base.mergeScan ds i with
  | case1 i _ _ hd => simp at h
  | case2 i hi hd ih =>
    have h' := ih h
    rw [List.drop_eq_getElem_cons (by omega), List.pairwise_cons]
    refine ⟨?_, h'⟩
    unfold Base.mergeDiffsOf at hd
    rw [List.getElem?_eq_getElem (by omega)] at hd
    simp only at hd
    split at hd
    · simp at hd
    · rename_i hf
      exact mergeInto_false (by simpa using hf)
  | case3 i hi =>
    have : (ds.drop i).length ≤ 1 := by rw [List.length_drop]; omega
    match hq : ds.drop i, this with
    | [], _ => exact List.Pairwise.nil
    | [a], _ => exact List.pairwise_singleton _ _
    | a :: b :: l, hh => simp at hh

theorem mergeLoop_pairwise (ds : List Diff) :
    (Base.mergeLoop ds).Pairwise (fun a b => a.mergeStable b = none) := by
  fun_induction Base.mergeLoop ds with
  | case1 ds ds' hs ih => exact ih
  | case2 ds hs => simpa using mergeScan_none hs

theorem mergeLoop_length (ds : List Diff) : (Base.mergeLoop ds).length ≤ ds.length := by
  fun_induction Base.mergeLoop ds with
  | case1 ds ds' hs ih => have := Base.mergeScan_length hs; omega
  | case2 ds hs => exact Nat.le_refl _

/-- Merging never changes which offsets are covered. -/
theorem mergeInto_any (d : Diff) (l : List Diff) (x : Nat) :
    ((Base.mergeInto d l).1 :: (Base.mergeInto d l).2.1).any (fun e => e.covers x) =
      (d :: l).any (fun e => e.covers x) := by
  induction l generalizing d with
  | nil => simp [Base.mergeInto]
  | cons s l ih =>
    simp only [Base.mergeInto]
    cases hm : d.mergeStable s with
    | some d' =>
      simp only
      rw [ih d']
      have hc := (mergeStable_some hm).2.2.2.1 x
      simp only [List.any_cons]
      rw [← Bool.or_assoc]
      congr 1
      rw [Bool.eq_iff_iff, Bool.or_eq_true]; exact hc
    | none =>
      simp only
      have h2 := ih d
      simp only [List.any_cons] at h2 ⊢
      rw [← Bool.or_assoc, Bool.or_comm _ (s.covers x), Bool.or_assoc, h2, ← Bool.or_assoc,
          Bool.or_comm (s.covers x), Bool.or_assoc]

theorem mergeDiffsOf_any {ds ds' : List Diff} {i : Nat} (hm : Base.mergeDiffsOf ds i = some ds') (x : Nat) :
    ds'.any (fun e => e.covers x) = ds.any (fun e => e.covers x) := by
  unfold Base.mergeDiffsOf at hm
  cases hi : ds[i]? with
  | none => simp [hi] at hm
  | some d =>
    simp only [hi] at hm
    split at hm
    · injection hm with hm
      have hs := list_split_at hi
      subst hm
      rw [List.any_append, mergeInto_any, ← List.any_append, ← hs]
    · simp at hm

theorem mergeScan_any {ds ds' : List Diff} {i : Nat} (hm : Base.mergeScan ds i = some ds') (x : Nat) :
    ds'.any (fun e => e.covers x) = ds.any (fun e => e.covers x) := by
  fun_induction Base.mergeScan ds i with
  | case1 i _ _ hd => injection hm with hm; subst hm; exact mergeDiffsOf_any hd x
  | case2 i _ _ ih => exact ih hm
  | case3 => simp at hm

theorem mergeLoop_any (ds : List Diff) (x : Nat) :
    (Base.mergeLoop ds).any (fun e => e.covers x) = ds.any (fun e => e.covers x) := by
  fun_induction Base.mergeLoop ds with
  | case1 ds ds' hs ih => exact ih.trans (mergeScan_any hs x)
  | case2 ds hs => rfl

/-! ## insertSpace -/

/-- Segment `d` has bytes on both sides of `pos`. -/
def Straddles (pos : Nat) (d : Diff) : Prop := d.off < pos ∧ pos < d.off + d.sl.len

instance (pos : Nat) (d : Diff) : Decidable (Straddles pos d) := by unfold Straddles; infer_instance

theorem incl_iff (d : Diff) (pos : Nat) : d.incl pos = true ↔ d.off ≤ pos ∧ pos < d.off + d.sl.len := by
  unfold Diff.incl
  rw [Bool.and_eq_true, decide_eq_true_eq, decide_eq_true_eq]; omega

theorem straddles_iff (d : Diff) (pos : Nat) : (d.off < pos ∧ d.incl pos = true) ↔ Straddles pos d := by
  rw [incl_iff]; unfold Straddles; omega

theorem split_none {pos : Nat} {l : List Diff} (h : ∀ d ∈ l, ¬ Straddles pos d) (i : Nat) (nd : List Diff) :
    Base.splitStraddling pos i l nd = nd := by
  induction l generalizing i with
  | nil => rfl
  | cons d l ih =>
    unfold Base.splitStraddling
    rw [if_neg (fun hh => h d List.mem_cons_self ((straddles_iff d pos).mp hh))]
    exact ih (fun e he => h e (List.mem_cons_of_mem _ he)) _

/-- The two pieces of a straddling segment. -/
def pieceL (pos : Nat) (d : Diff) : Diff := ⟨d.off, ⟨d.sl.data.take (pos - d.off), []⟩⟩
def pieceR (pos : Nat) (d : Diff) : Diff := ⟨pos, ⟨d.sl.data.drop (pos - d.off), d.sl.spare⟩⟩

theorem split_one {pos : Nat} {pre post : List Diff} {d : Diff}
    (h1 : ∀ e ∈ pre, ¬ Straddles pos e) (hd : Straddles pos d) (h2 : ∀ e ∈ post, ¬ Straddles pos e)
    (i : Nat) (nd : List Diff) :
    Base.splitStraddling pos i (pre ++ d :: post) nd =
      insertOr nd (i + pre.length + 1) [pieceL pos d, pieceR pos d] := by
  induction pre generalizing i with
  | nil =>
    rw [List.nil_append]
    unfold Base.splitStraddling
    rw [if_pos ((straddles_iff d pos).mpr hd), split_none h2]
    rfl
  | cons e l ih =>
    rw [List.cons_append]
    unfold Base.splitStraddling
    rw [if_neg (fun hh => h1 e List.mem_cons_self ((straddles_iff e pos).mp hh)),
      ih (fun e he => h1 e (List.mem_cons_of_mem _ he))]
    congr 1
    simp only [List.length_cons]; omega

/-- Shift of one segment, base.go 1067-1071 and 682-687. -/
def shiftD (pos size : Nat) (d : Diff) : Diff := if d.off ≥ pos then ⟨d.off + size, d.sl⟩ else d

/-- What the two halves of a shift must satisfy, per list of segments. -/
def ShiftOK (pos size : Nat) (old new : List Diff) : Prop :=
  (∀ x, x < pos → segVal new x = segVal old x) ∧
  (∀ x, pos + size ≤ x → segVal new x = segVal old (x - size))

theorem shiftD_lt {pos size x : Nat} {d : Diff} (hx : x < pos) : (shiftD pos size d).val x = d.val x := by
  unfold shiftD
  split
  · unfold Diff.val; rw [if_neg (by simp only; omega), if_neg (by omega)]
  · rfl

theorem shiftD_ge {pos size x : Nat} {d : Diff} (hd : ¬ Straddles pos d) (hx : pos + size ≤ x) :
    (shiftD pos size d).val x = d.val (x - size) := by
  unfold shiftD
  split
  · rename_i h
    unfold Diff.val
    by_cases h1 : d.off ≤ x - size
    · rw [if_pos h1, if_pos (by simp only; omega)]
      simp only; congr 1; omega
    · rw [if_neg h1, if_neg (by simp only; omega)]
  · rename_i h
    unfold Straddles at hd
    rw [val_none (by omega), val_none (by omega)]

theorem shiftOK_map {pos size : Nat} {l : List Diff} (h : ∀ d ∈ l, ¬ Straddles pos d) :
    ShiftOK pos size l (l.map (shiftD pos size)) :=
  ⟨fun _ hx => segVal_map _ _ _ _ (fun _ _ => shiftD_lt hx),
   fun _ hx => segVal_map _ _ _ _ (fun d hd => shiftD_ge (h d hd) hx)⟩

theorem shiftOK_append {pos size : Nat} {o₁ n₁ o₂ n₂ : List Diff} (h₁ : ShiftOK pos size o₁ n₁)
    (h₂ : ShiftOK pos size o₂ n₂) : ShiftOK pos size (o₁ ++ o₂) (n₁ ++ n₂) :=
  ⟨fun x hx => by rw [segVal_append, segVal_append, h₁.1 x hx, h₂.1 x hx],
   fun x hx => by rw [segVal_append, segVal_append, h₁.2 x hx, h₂.2 x hx]⟩

theorem pieceL_val {pos x : Nat} {d : Diff} (hd : Straddles pos d) :
    (pieceL pos d).val x = if x < pos then d.val x else none := by
  unfold Straddles at hd
  unfold Diff.val pieceL
  simp only [List.getElem?_take]
  split
  · split
    · rw [if_pos (by omega)]
    · rw [if_neg (by omega)]
  · simp

theorem pieceR_val {pos x : Nat} {d : Diff} (hd : Straddles pos d) :
    (pieceR pos d).val x = if pos ≤ x then d.val x else none := by
  unfold Straddles at hd
  unfold Diff.val pieceR
  simp only [List.getElem?_drop]
  split
  · rw [if_pos (by omega)]; congr 1; omega
  · rfl

theorem shiftOK_piece {pos size : Nat} {d : Diff} (hd : Straddles pos d) :
    ShiftOK pos size [d] ([d, pieceL pos d, pieceR pos d].map (shiftD pos size)) := by
  have hs := hd
  unfold Straddles at hs
  have e1 : shiftD pos size d = d := by unfold shiftD; rw [if_neg (by omega)]
  have e2 : shiftD pos size (pieceL pos d) = pieceL pos d := by
    unfold shiftD; rw [if_neg (by simp only [pieceL]; omega)]
  have e3 : shiftD pos size (pieceR pos d) = ⟨pos + size, (pieceR pos d).sl⟩ := by
    unfold shiftD; rw [if_pos (by simp only [pieceR]; omega)]; rfl
  simp only [List.map_cons, List.map_nil, e1, e2, e3]
  have e4 : ∀ x, Diff.val ⟨pos + size, (pieceR pos d).sl⟩ x =
      if pos + size ≤ x then d.val (x - size) else none := by
    intro x
    unfold Diff.val
    simp only
    split
    · rw [if_pos (by omega)]
      simp only [pieceR, List.getElem?_drop]; congr 1; omega
    · rfl
  constructor
  · intro x hx
    simp only [segVal_cons, segVal_nil, Option.none_or, e4, pieceL_val hd]
    rw [if_neg (by omega), if_pos hx]
    cases d.val x <;> rfl
  · intro x hx
    simp only [segVal_cons, segVal_nil, Option.none_or, e4, pieceL_val hd]
    rw [if_pos hx, if_neg (by omega)]
    cases h : d.val (x - size) with
    | some v => rfl
    | none =>
      simp only [Option.none_or]
      unfold Diff.val at h ⊢
      rw [if_pos (by omega)] at h
      rw [List.getElem?_eq_none_iff] at h
      split
      · rw [List.getElem?_eq_none_iff]; omega
      · rfl

/-- At most one segment straddles the position. -/
def AtMostOneStraddle (pos : Nat) (ds : List Diff) : Prop :=
  (∀ d ∈ ds, ¬ Straddles pos d) ∨
  ∃ pre d post, ds = pre ++ d :: post ∧ Straddles pos d ∧
    (∀ e ∈ pre, ¬ Straddles pos e) ∧ (∀ e ∈ post, ¬ Straddles pos e)

theorem insertOr_mid {α : Type} (pre post xs : List α) (d : α) :
    insertOr (pre ++ d :: post) (0 + pre.length + 1) xs = pre ++ (d :: xs) ++ post := by
  rw [insertOr_of_le (by simp)]
  simp [List.take_append, List.drop_append, List.take_of_length_le, List.drop_eq_nil_of_le]

theorem splitShiftOK {pos size : Nat} {ds : List Diff} (h : AtMostOneStraddle pos ds) :
    ShiftOK pos size ds ((Base.splitStraddling pos 0 ds ds).map (shiftD pos size)) := by
  rcases h with h | ⟨pre, d, post, rfl, hd, h1, h2⟩
  · rw [split_none h]; exact shiftOK_map h
  · rw [split_one h1 hd h2, insertOr_mid, List.map_append, List.map_append]
    have : pre ++ d :: post = pre ++ [d] ++ post := by simp
    rw [this]
    exact shiftOK_append (shiftOK_append (shiftOK_map h1) (shiftOK_piece hd)) (shiftOK_map h2)

/-- The journal after splitting and shifting, with the tail of the bytes in front. -/
theorem insertSpace_core (b : Base) (pos size : Nat) (h : AtMostOneStraddle pos b.diffs) (x : Nat)
    (hx : x < pos ∨ pos + size ≤ x) :
    (b.insertSpace pos size false).content x = b.content.openGap pos size x := by
  have hs := splitShiftOK (size := size) h
  unfold Base.insertSpace Base.content
  simp only [Bool.false_eq_true, if_false]
  have hmap : (fun d : Diff => if d.off ≥ pos then ({ off := d.off + size, sl := d.sl } : Diff) else d) =
      shiftD pos size := rfl
  rw [hmap, contentOf_or]
  simp only [ByteMap.openGap]
  rw [contentOf_or, contentOf_or]
  by_cases hlen : b.bytes.len > pos
  · rw [if_pos hlen, if_pos hlen, insertOr_zero, segVal_append, segVal_cons, segVal_nil, Option.none_or]
    rcases hx with hx | hx
    · rw [if_pos hx, hs.1 x hx]
      have : Diff.val ⟨pos + size, ⟨b.bytes.data.drop pos, b.bytes.spare⟩⟩ x = none := by
        unfold Diff.val; rw [if_neg (by simp only; omega)]
      rw [this]
      simp only [ByteMap.ofBytes, List.getElem?_take, hx, if_true, Option.or_none]
    · rw [if_neg (by omega), if_neg (by omega), hs.2 x hx]
      have : Diff.val ⟨pos + size, ⟨b.bytes.data.drop pos, b.bytes.spare⟩⟩ x = b.bytes.data[x - size]? := by
        unfold Diff.val; rw [if_pos hx]
        simp only [List.getElem?_drop]; congr 1; omega
      rw [this]
      simp only [ByteMap.ofBytes, List.getElem?_take]
      rw [if_neg (by omega)]
      simp
  · rw [if_neg hlen, if_neg hlen]
    rcases hx with hx | hx
    · rw [if_pos hx, hs.1 x hx]
    · rw [if_neg (by omega), if_neg (by omega), hs.2 x hx]
      simp only [Slice.len] at hlen
      simp only [ByteMap.ofBytes]
      rw [List.getElem?_eq_none (by omega), List.getElem?_eq_none (by omega)]

theorem insertSpace_create (b : Base) (pos size : Nat) :
    (b.insertSpace pos size true).content =
      (b.insertSpace pos size false).content.put pos (zeros size) := by
  unfold Base.insertSpace Base.content
  simp only [Bool.false_eq_true, if_false, if_true]
  rw [contentOf_snoc]; rfl

/-! ## Copy -/

theorem copyExtend_content (b : Base) (dst ext : Nat) (h : ∀ d ∈ b.diffs, ¬ Straddles dst d) (x : Nat)
    (hx : x < dst ∨ dst + ext ≤ x) :
    (b.copyExtend dst ext).content x = b.content.openGap dst ext x := by
  have hs := shiftOK_map (size := ext) h
  unfold Base.copyExtend Base.content
  have hmap : (fun d : Diff => if d.off ≥ dst then ({ off := d.off + ext, sl := d.sl } : Diff) else d) =
      shiftD dst ext := rfl
  rw [hmap, contentOf_or]
  simp only [ByteMap.openGap]
  rw [contentOf_or, contentOf_or]
  by_cases hlen : b.bytes.len > dst
  · rw [if_pos hlen, insertOr_zero, List.map_append, segVal_append, List.map_cons, List.map_nil, segVal_cons,
      segVal_nil, Option.none_or]
    have e : shiftD dst ext ⟨dst, ⟨b.bytes.data.drop dst, b.bytes.spare⟩⟩ =
        ⟨dst + ext, ⟨b.bytes.data.drop dst, b.bytes.spare⟩⟩ := by
      unfold shiftD; rw [if_pos (Nat.le_refl _)]
    rw [e]
    rcases hx with hx | hx
    · rw [if_pos hx, hs.1 x hx]
      have : Diff.val ⟨dst + ext, ⟨b.bytes.data.drop dst, b.bytes.spare⟩⟩ x = none := by
        unfold Diff.val; rw [if_neg (by simp only; omega)]
      rw [this, Option.or_none]
    · rw [if_neg (by omega), if_neg (by omega), hs.2 x hx]
      have : Diff.val ⟨dst + ext, ⟨b.bytes.data.drop dst, b.bytes.spare⟩⟩ x = b.bytes.data[x - ext]? := by
        unfold Diff.val; rw [if_pos hx]
        simp only [List.getElem?_drop]; congr 1; omega
      rw [this]
      simp only [ByteMap.ofBytes]
      cases hv : b.bytes.data[x - ext]? with
      | some v => cases segVal b.diffs (x - ext) <;> rfl
      | none =>
        rw [List.getElem?_eq_none_iff] at hv
        rw [List.getElem?_eq_none (by omega)]
        cases segVal b.diffs (x - ext) <;> rfl
  · rw [if_neg hlen]
    rcases hx with hx | hx
    · rw [if_pos hx, hs.1 x hx]
    · rw [if_neg (by omega), if_neg (by omega), hs.2 x hx]
      simp only [Slice.len] at hlen
      simp only [ByteMap.ofBytes]
      rw [List.getElem?_eq_none (by omega), List.getElem?_eq_none (by omega)]

/-- With no extension, `copyExtend` changes nothing, whatever straddles. -/
theorem copyExtend_zero (b : Base) (dst : Nat) : (b.copyExtend dst 0).content = b.content := by
  funext x
  unfold Base.copyExtend Base.content
  have hmap : (fun d : Diff => if d.off ≥ dst then ({ off := d.off + 0, sl := d.sl } : Diff) else d) = id := by
    funext d; split <;> rfl
  simp only [hmap, List.map_id]
  rw [contentOf_or, contentOf_or]
  split
  · rename_i hlen
    rw [insertOr_zero, segVal_append, segVal_cons, segVal_nil, Option.none_or]
    have : (Diff.val ⟨dst, ⟨b.bytes.data.drop dst, b.bytes.spare⟩⟩ x).or (b.bytes.data[x]?) = b.bytes.data[x]? := by
      unfold Diff.val
      simp only
      split
      · rw [List.getElem?_drop]
        have : dst + (x - dst) = x := by omega
        rw [this]; simp
      · rfl
    simp only [ByteMap.ofBytes]
    rw [Option.or_assoc, this]
  · rfl

/-- A reader function `rd` (an `R` of some source) is faithful to a byte map on `[lo, hi)`: it never
returns stale bytes and it returns something wherever the map is defined. -/
def Faithful (rd : Nat → Nat → Slice) (m : ByteMap) (lo hi : Nat) : Prop :=
  ∀ p n, lo ≤ p → p + n ≤ hi → 0 < n →
    (rd p n).len ≠ 0 ∧ ∀ k, k < n → k < (rd p n).len → (rd p n).data[k]? = m (p + k)

theorem clip_data (s : Slice) (n : Nat) : (Base.clip s n).data = s.data.take n := by
  unfold Base.clip
  split
  · rfl
  · rename_i h; simp only [Slice.len] at h; rw [List.take_of_length_le (by omega)]

theorem copyLoop_content (rd : Nat → Nat → Slice) (m : ByteMap) (srcOff dst done rest : Nat)
    (hf : Faithful rd m srcOff (srcOff + done + rest)) (ds : List Diff) (m0 : ByteMap) (x : Nat) :
    contentOf m0 (Base.copyLoop rd srcOff dst done rest ds) x =
      if dst + done ≤ x ∧ x < dst + done + rest then m (srcOff + (x - dst)) else contentOf m0 ds x := by
  fun_induction Base.copyLoop rd srcOff dst done rest ds with
  | case1 done ds => rw [if_neg (by omega)]
  | case2 done rest ds h0 hl =>
    exact absurd hl (hf (srcOff + done) rest (by omega) (by omega) (by omega)).1
  | case3 done rest ds h0 hl ih =>
    have hh := hf (srcOff + done) rest (by omega) (by omega) (by omega)
    have hcl := Base.clip_len (rd (srcOff + done) rest) rest
    rw [ih (fun p n h1 h2 h3 => hf p n h1 (by omega) h3)]
    rw [contentOf_snoc, put_apply]
    simp only [Slice.len] at hcl hh hl
    simp only [Slice.len]
    by_cases hx : dst + done ≤ x ∧ x < dst + done + rest
    · rw [if_pos hx]
      by_cases h1 : dst + (done + (Base.clip (rd (srcOff + done) rest) rest).data.length) ≤ x
      · rw [if_pos (by omega)]
      · rw [if_neg (by omega), if_pos (by omega), clip_data, List.getElem?_take, if_pos (by omega),
          hh.2 _ (by omega) (by omega)]
        congr 1; omega
    · rw [if_neg hx, if_neg (by omega), if_neg (by omega)]

/-- No later segment starts strictly inside an earlier one: the situation in which a sized read can
never be stale. -/
def NoLateStart (ds : List Diff) : Prop :=
  ds.Pairwise (fun a b => ¬ (a.off < b.off ∧ b.off < a.off + a.sl.len))

theorem lastOf_noLate {ds : List Diff} (h : NoLateStart ds) {x k : Nat} {d : Diff}
    (hl : lastOf (fun d => d.covers x) ds = some d) (hk : x + k < d.off + d.sl.len) :
    lastOf (fun d => d.covers (x + k)) ds = some d := by
  induction ds with
  | nil => simp [lastOf_nil] at hl
  | cons a l ih =>
    rw [lastOf_cons] at hl ⊢
    unfold NoLateStart at h ih
    rw [List.pairwise_cons] at h
    cases hl2 : lastOf (fun d => d.covers x) l with
    | some e =>
      rw [hl2] at hl
      simp only [Option.some_or] at hl
      rw [ih h.2 (by rw [hl2]; exact hl)]; rfl
    | none =>
      rw [hl2] at hl
      simp only [Option.none_or] at hl
      split at hl
      · rename_i hc
        injection hl with hl; subst hl
        rw [covers_iff] at hc
        have : lastOf (fun d => d.covers (x + k)) l = none := by
          rw [lastOf_none] at hl2 ⊢
          intro e he
          have h1 := h.1 e he
          have h2 := hl2 e he
          rw [covers_false] at h2 ⊢
          omega
        rw [this]
        simp only [Option.none_or]
        rw [if_pos]
        rw [covers_iff]; omega
      · simp at hl

/-- If no later segment starts inside an earlier one, every byte returned by `R` is current. -/
theorem R_current {b : Base} (h : NoLateStart b.diffs) (x req k : Nat) (hk : k < (b.R x req).len) :
    (b.R x req).data[k]? = b.content (x + k) := by
  simp only [Slice.len] at hk
  rw [R_data] at hk ⊢
  rw [content_eq]
  cases hl : lastOf (fun d => d.covers x) b.diffs with
  | some d =>
    rw [writerR_cover hl] at hk ⊢
    simp only [List.length_drop] at hk
    have hc := (covers_iff d x).mp (lastOf_some hl).2
    rw [lastOf_noLate h hl (by simp only [Slice.len]; omega)]
    simp only [List.getElem?_drop]; congr 1; omega
  | none =>
    by_cases hx : b.bytes.len < x
    · rw [writerR_beyond hl hx] at hk; simp [Slice.nil] at hk
    · rw [writerR_uncovered hl (by omega)] at hk ⊢
      simp only [List.length_drop, List.length_take] at hk
      have hn : lastOf (fun d => d.covers (x + k)) b.diffs = none := by
        rw [lastOf_none] at hl ⊢
        intro d hd
        have h2 := hl d hd
        rw [covers_false] at h2 ⊢
        intro hh
        have hgt : d.off > x := by omega
        unfold Base.stop at hk
        split at hk <;> rename_i heq
        · have := minOffset_none heq d hd
          simp only [decide_eq_false_iff_not] at this; omega
        · have := (minOffset_some heq).2 d hd (by simpa using hgt)
          omega
      rw [hn]
      simp only [List.getElem?_drop, List.getElem?_take]
      rw [if_pos (by omega)]

theorem R_faithful {b : Base} (h : NoLateStart b.diffs) (lo hi : Nat)
    (hd : ∀ x, lo ≤ x → x < hi → (b.content x).isSome) : Faithful (fun p n => b.R p n) b.content lo hi := by
  intro p n h1 h2 h3
  have hs := hd p h1 (by omega)
  constructor
  · intro h0
    rw [← byte_eq_content] at hs
    unfold Base.byte at hs
    rw [R_data] at hs
    simp only [Slice.len] at h0
    rw [R_data, List.length_eq_zero_iff] at h0
    rw [h0] at hs; simp at hs
  · intro k _ hk2
    exact R_current h p n k hk2

theorem copy_content (b : Base) (rd : Nat → Nat → Slice) (m : ByteMap) (srcOff size dst ext : Nat)
    (hf : Faithful rd m srcOff (srcOff + size)) (x : Nat) :
    (b.copy rd srcOff size dst ext).content x =
      if dst ≤ x ∧ x < dst + size then m (srcOff + (x - dst)) else (b.copyExtend dst ext).content x := by
  unfold Base.copy
  simp only [Base.content]
  rw [copyLoop_content rd m srcOff dst 0 size hf]
  rfl

/-! ## C -/

theorem takeTo_some {s r : Slice} {n : Nat} (h : s.takeTo n = some r) : r.data = s.arr.take n ∧ r.len = n := by
  unfold Slice.takeTo at h
  split at h
  · rename_i hn
    injection h with h; subst h
    refine ⟨rfl, ?_⟩
    simp only [Slice.len, List.length_take, Slice.arr, List.length_append]
    simp only [Slice.cap] at hn; omega
  · simp at h

end Fbs
