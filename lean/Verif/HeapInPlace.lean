import Verif.HeapLayer
import Verif.HeapLemmas
import Verif.BufSpec
import Verif.BufOps
import Verif.Props.Buf
import Mathlib.Data.List.Pairwise
/-!
# Writing in place

Lemmas on writes into memory that already belongs to a buffer.
-/

namespace Fbs

/-- Two slices whose capacities do not overlap in memory. -/
def Win.Disj (w v : Win) : Prop :=
  w.cap = 0 ∨ v.cap = 0 ∨ w.arr ≠ v.arr ∨ w.off + w.cap ≤ v.off ∨ v.off + v.cap ≤ w.off

theorem Win.Disj.symm {w v : Win} (h : w.Disj v) : v.Disj w := by
  unfold Win.Disj at *
  omega

namespace Mem

/-- Pointwise effect of a write. -/
theorem copyTo_get (m : Mem) (w : Win) (src : Bytes) (hw : m.Ok w) (hs : src.length ≤ w.len) (i x : Nat) :
    (((m.copyTo w 0 src)[i]?).getD [])[x]? =
      if i = w.arr ∧ w.off ≤ x ∧ x < w.off + src.length then src[x - w.off]? else ((m[i]?).getD [])[x]? := by
  unfold copyTo
  rw [List.getElem?_modify]
  by_cases hi : i = w.arr
  · subst hi
    simp only [if_true]
    by_cases hlen : w.arr < m.length
    · obtain ⟨a, ha⟩ : ∃ a, m[w.arr]? = some a := ⟨_, List.getElem?_eq_getElem hlen⟩
      rw [ha]
      simp only [Option.map_eq_map, Option.map_some, Option.getD_some, Nat.add_zero, Nat.sub_zero]
      rw [List.take_of_length_le hs, Nat.min_eq_left hs]
      have hle : src.length = 0 ∨ w.off + src.length ≤ a.length := by
        have h1 := hw.1
        rcases hw.2 with h | ⟨_, h⟩
        · left; omega
        · right; rw [ha] at h; simp only [Option.getD_some] at h; omega
      rcases hle with h0 | hle
      · have : src = [] := List.eq_nil_of_length_eq_zero h0
        subst this
        simp only [List.append_nil, List.length_nil, Nat.add_zero, List.take_append_drop]
        rw [if_neg (by omega)]
      rw [List.append_assoc, List.getElem?_append, List.getElem?_append, List.length_take,
        Nat.min_eq_left (by omega)]
      by_cases h1 : x < w.off
      · rw [if_pos h1, if_neg (by omega), List.getElem?_take_of_lt h1]
      · rw [if_neg h1]
        by_cases h2 : x - w.off < src.length
        · rw [if_pos h2, if_pos ⟨trivial, by omega, by omega⟩]
        · rw [if_neg h2, if_neg (by omega), List.getElem?_drop]
          congr 1; omega
    · have hn : m[w.arr]? = none := List.getElem?_eq_none (by omega)
      have h0 : src.length = 0 := by
        have h1 := hw.1
        rcases hw.2 with h | ⟨h, _⟩ <;> omega
      rw [hn]
      simp only [Option.map_eq_map, Option.map_none, Option.getD_none, List.getElem?_nil]
      rw [if_neg (by omega)]
  · have hi' : ¬ (w.arr = i) := fun h => hi h.symm
    rw [if_neg (fun (h : i = w.arr ∧ _) => hi h.1)]
    simp [hi']

theorem copyTo_length (m : Mem) (w : Win) (p : Nat) (src : Bytes) : (m.copyTo w p src).length = m.length := by
  unfold copyTo; rw [List.length_modify]

theorem capBytes_get (m : Mem) (w : Win) (x : Nat) :
    (m.capBytes w)[x]? = if x < w.cap then ((m[w.arr]?).getD [])[w.off + x]? else none := by
  unfold capBytes
  by_cases h : x < w.cap
  · rw [if_pos h, List.getElem?_take_of_lt h, List.getElem?_drop]
  · rw [if_neg h, List.getElem?_take_eq_none (by omega)]

theorem getElem?_ext' {l l' : Bytes} (h : ∀ x : Nat, l[x]? = l'[x]?) : l = l' := List.ext_getElem? h

/-- A write does not change slices elsewhere. -/
theorem capBytes_frame {m : Mem} {w v : Win} {src : Bytes} (hw : m.Ok w) (hs : src.length ≤ w.len)
    (hd : w.Disj v) : (m.copyTo w 0 src).capBytes v = m.capBytes v := by
  apply List.ext_getElem?
  intro x
  rw [capBytes_get, capBytes_get]
  by_cases h : x < v.cap
  · rw [if_pos h, if_pos h, copyTo_get m w src hw hs]
    rw [if_neg]
    rintro ⟨h1, h2, h3⟩
    have := hw.1
    unfold Win.Disj at hd
    omega
  · rw [if_neg h, if_neg h]

theorem sl_frame {m : Mem} {w v : Win} {src : Bytes} (hw : m.Ok w) (hs : src.length ≤ w.len)
    (hd : w.Disj v) : (m.copyTo w 0 src).sl v = m.sl v := by
  unfold sl; rw [capBytes_frame hw hs hd]

/-- A write does not change the length of any array. -/
theorem copyTo_arr_length {m : Mem} {w : Win} {src : Bytes} (hw : m.Ok w) (hs : src.length ≤ w.len) (i : Nat) :
    (((m.copyTo w 0 src)[i]?).getD []).length = ((m[i]?).getD []).length := by
  unfold copyTo
  rw [List.getElem?_modify]
  by_cases hi : w.arr = i
  · subst hi
    cases ha : m[w.arr]? with
    | none => simp
    | some a =>
      simp only [Option.map_eq_map, if_pos, Option.map_some, Option.getD_some, Nat.add_zero, Nat.sub_zero,
        List.length_append, List.length_take, List.length_drop]
      have h1 := hw.1
      rcases hw.2 with h | ⟨_, h⟩
      · omega
      · rw [ha] at h; simp only [Option.getD_some] at h; omega
  · simp [hi]

theorem Ok_copyTo {m : Mem} {w v : Win} {src : Bytes} (hw : m.Ok w) (hs : src.length ≤ w.len)
    (hv : m.Ok v) : (m.copyTo w 0 src).Ok v := by
  refine ⟨hv.1, ?_⟩
  rcases hv.2 with h | ⟨h1, h2⟩
  · exact Or.inl h
  · right; rw [copyTo_length, copyTo_arr_length hw hs]; exact ⟨h1, h2⟩

/-- A write through a window that lies inside the visible part of `v`. -/
theorem sl_inside {m : Mem} {w v : Win} {src : Bytes} {k : Nat} (hw : m.Ok w) (hv : m.Ok v)
    (hs : src.length ≤ w.len) (ha : w.arr = v.arr) (ho : w.off = v.off + k)
    (hk : k + src.length ≤ v.len) :
    (m.copyTo w 0 src).sl v = ⟨copyAt (m.sl v).data k src, (m.sl v).spare⟩ := by
  have hc : ∀ x, ((m.copyTo w 0 src).capBytes v)[x]? =
      if k ≤ x ∧ x < k + src.length then src[x - k]? else (m.capBytes v)[x]? := by
    intro x
    rw [capBytes_get, capBytes_get]
    have := hv.1
    by_cases h : x < v.cap
    · rw [if_pos h, if_pos h, copyTo_get m w src hw hs]
      by_cases h2 : k ≤ x ∧ x < k + src.length
      · rw [if_pos ⟨ha.symm, by omega, by omega⟩, if_pos h2]
        congr 1; omega
      · rw [if_neg (by omega), if_neg h2]
    · rw [if_neg h, if_neg h, if_neg (by omega)]
  have hl := capBytes_length hv
  have hl' := capBytes_length (Ok_copyTo hw hs hv)
  have := hv.1
  unfold sl
  simp only
  congr 1
  · apply List.ext_getElem?
    intro x
    rw [copyAt_getElem? _ _ _ _ (by rw [List.length_take]; omega)]
    by_cases hx : x < v.len
    · rw [List.getElem?_take_of_lt hx, List.getElem?_take_of_lt hx, hc]
    · rw [List.getElem?_take_eq_none (by omega), if_neg (by omega), List.getElem?_take_eq_none (by omega)]
  · apply List.ext_getElem?
    intro x
    rw [List.getElem?_drop, List.getElem?_drop, hc, if_neg (by omega)]

end Mem

/-- Two segments that show different offsets and live in different memory. -/
def HDiff.Ind (d e : HDiff) : Prop :=
  (d.off + d.w.len ≤ e.off ∨ e.off + e.w.len ≤ d.off) ∧ d.w.Disj e.w

theorem HDiff.Ind.symm {d e : HDiff} (h : d.Ind e) : e.Ind d := ⟨h.1.symm, h.2.symm⟩

instance : Std.Symm HDiff.Ind := ⟨fun _ _ h => h.symm⟩

/-- The segments of a buffer show different offsets, and no memory is shared between the segments and the
initial bytes. -/
structure HBase.Inv (m : Mem) (b : HBase) : Prop where
  ok : b.Ok m
  ind : b.diffs.Pairwise HDiff.Ind
  base : ∀ d ∈ b.diffs, b.bytes.Disj d.w

namespace HBase
variable {m : Mem} {b : HBase}

theorem covers_iff (d : HDiff) (x : Nat) : d.covers x = true ↔ d.off ≤ x ∧ x < d.off + d.w.len := by
  simp [HDiff.covers]

/-- With separate segments, any covering segment gives the current byte. -/
theorem Inv.content_cover (h : b.Inv m) {d : HDiff} (hd : d ∈ b.diffs) {x : Nat} (hx : d.off ≤ x)
    (hx' : x < d.off + d.w.len) : (b.val m).content x = (m.sl d.w).data[x - d.off]? := by
  rw [content_eq]
  have hv : (b.val m).diffs = b.diffs.map (HDiff.val m) := rfl
  rw [hv]
  cases hl : lastOf (fun d => d.covers x) (b.diffs.map (HDiff.val m)) with
  | none =>
    have := lastOf_none.mp hl (d.val m) (List.mem_map_of_mem hd)
    rw [val_covers (h.ok.2 d hd)] at this
    have h2 := (covers_iff d x).mpr ⟨hx, hx'⟩
    rw [h2] at this; cases this
  | some e' =>
    obtain ⟨he, hc⟩ := lastOf_some hl
    obtain ⟨e, he2, rfl⟩ := List.mem_map.mp he
    replace he := he2
    rw [val_covers (h.ok.2 e he), covers_iff] at hc
    by_cases hed : e = d
    · subst hed; rfl
    · have := (h.ind.forall he hd hed).1; omega

theorem content_uncover (h : b.Ok m) {x : Nat}
    (hx : ∀ d ∈ b.diffs, ¬ (d.off ≤ x ∧ x < d.off + d.w.len)) :
    (b.val m).content x = (m.sl b.bytes).data[x]? := by
  rw [content_eq]
  have hv : (b.val m).diffs = b.diffs.map (HDiff.val m) := rfl
  rw [hv, lastOf_none.mpr]
  · rfl
  · intro a ha
    obtain ⟨e, he, rfl⟩ := List.mem_map.mp ha
    rw [val_covers (h.2 e he), ← Bool.not_eq_true, covers_iff]
    exact hx e he

/-- Two buffers with separate segments, whose segments are the same up to order except for the memory
contents, written inside the segment `d`. -/
theorem put_in_seg (h : b.Inv m) {d : HDiff} (hd : d ∈ b.diffs) {w : Win} {v : Bytes} {k : Nat}
    (hw : m.Ok w) (hv : v.length ≤ w.len) (ha : w.arr = d.w.arr) (ho : w.off = d.w.off + k)
    (hc : w.cap ≤ d.w.cap - k) (hk : k + v.length ≤ d.w.len) :
    b.Inv (m.copyTo w 0 v) ∧ (b.val (m.copyTo w 0 v)).content = (b.val m).content.put (d.off + k) v := by
  have hdw := h.ok.2 d hd
  have hin := Mem.sl_inside hw hdw hv ha ho hk
  have hsub : ∀ u : Win, d.w.Disj u → w.Disj u := by
    intro u hu
    unfold Win.Disj at *
    have := hdw.1
    have := hw.1
    omega
  have hfr : ∀ u : Win, d.w.Disj u → (m.copyTo w 0 v).sl u = m.sl u := fun u hu =>
    Mem.sl_frame hw hv (hsub u hu)
  have hok : b.Ok (m.copyTo w 0 v) :=
    ⟨Mem.Ok_copyTo hw hv h.ok.1, fun e he => Mem.Ok_copyTo hw hv (h.ok.2 e he)⟩
  have hinv : b.Inv (m.copyTo w 0 v) := ⟨hok, h.ind, h.base⟩
  refine ⟨hinv, ?_⟩
  funext x
  rw [put_apply]
  by_cases hcov : ∃ e ∈ b.diffs, e.off ≤ x ∧ x < e.off + e.w.len
  · obtain ⟨e, he, h1, h2⟩ := hcov
    rw [hinv.content_cover he h1 h2, h.content_cover he h1 h2]
    by_cases hed : e = d
    · subst hed
      rw [hin]
      simp only
      rw [copyAt_getElem? _ _ _ _ (by rw [Mem.sl_data_length hdw]; exact hk)]
      by_cases h3 : k ≤ x - e.off ∧ x - e.off < k + v.length
      · rw [if_pos h3, if_pos (by omega)]
        congr 1; omega
      · rw [if_neg h3, if_neg (by omega)]
    · have hI := h.ind.forall hd he (fun h => hed h.symm)
      rw [hfr _ hI.2, if_neg (by have := hI.1; omega)]
  · have hcov' : ∀ e ∈ b.diffs, ¬ (e.off ≤ x ∧ x < e.off + e.w.len) := fun e he h => hcov ⟨e, he, h⟩
    rw [content_uncover hok hcov', content_uncover h.ok hcov', hfr _ (h.base d hd).symm,
      if_neg (by have := hcov' d hd; omega)]

/-- A write inside the visible initial bytes, away from every segment. -/
theorem put_in_base (h : b.Inv m) {w : Win} {v : Bytes} {k : Nat}
    (hw : m.Ok w) (hv : v.length ≤ w.len) (ha : w.arr = b.bytes.arr) (ho : w.off = b.bytes.off + k)
    (hc : w.cap ≤ b.bytes.cap - k) (hk : k + v.length ≤ b.bytes.len)
    (hfree : ∀ e ∈ b.diffs, e.off + e.w.len ≤ k ∨ k + v.length ≤ e.off) :
    b.Inv (m.copyTo w 0 v) ∧ (b.val (m.copyTo w 0 v)).content = (b.val m).content.put k v := by
  have hbw := h.ok.1
  have hin := Mem.sl_inside hw hbw hv ha ho hk
  have hsub : ∀ u : Win, b.bytes.Disj u → w.Disj u := by
    intro u hu
    unfold Win.Disj at *
    have := hbw.1
    have := hw.1
    omega
  have hfr : ∀ u : Win, b.bytes.Disj u → (m.copyTo w 0 v).sl u = m.sl u := fun u hu =>
    Mem.sl_frame hw hv (hsub u hu)
  have hok : b.Ok (m.copyTo w 0 v) :=
    ⟨Mem.Ok_copyTo hw hv h.ok.1, fun e he => Mem.Ok_copyTo hw hv (h.ok.2 e he)⟩
  have hinv : b.Inv (m.copyTo w 0 v) := ⟨hok, h.ind, h.base⟩
  refine ⟨hinv, ?_⟩
  funext x
  rw [put_apply]
  by_cases hcov : ∃ e ∈ b.diffs, e.off ≤ x ∧ x < e.off + e.w.len
  · obtain ⟨e, he, h1, h2⟩ := hcov
    rw [hinv.content_cover he h1 h2, h.content_cover he h1 h2, hfr _ (h.base e he),
      if_neg (by have := hfree e he; omega)]
  · have hcov' : ∀ e ∈ b.diffs, ¬ (e.off ≤ x ∧ x < e.off + e.w.len) := fun e he h => hcov ⟨e, he, h⟩
    rw [content_uncover hok hcov', content_uncover h.ok hcov', hin]
    simp only
    rw [copyAt_getElem? _ _ _ _ (by rw [Mem.sl_data_length hbw]; exact hk)]

/-- Reordering separate segments changes nothing. -/
theorem Inv.perm (h : b.Inv m) {ds : List HDiff} (hp : ds.Perm b.diffs) :
    ({ b with diffs := ds } : HBase).Inv m ∧
      (({ b with diffs := ds } : HBase).val m).content = (b.val m).content := by
  have hinv : ({ b with diffs := ds } : HBase).Inv m :=
    ⟨⟨h.ok.1, fun d hd => h.ok.2 d (hp.mem_iff.mp hd)⟩,
      (hp.pairwise_iff (fun hh => HDiff.Ind.symm hh)).mpr h.ind,
      fun d hd => h.base d (hp.mem_iff.mp hd)⟩
  refine ⟨hinv, ?_⟩
  funext x
  by_cases hcov : ∃ e ∈ b.diffs, e.off ≤ x ∧ x < e.off + e.w.len
  · obtain ⟨e, he, h1, h2⟩ := hcov
    rw [hinv.content_cover (d := e) (hp.mem_iff.mpr he) h1 h2, h.content_cover he h1 h2]
  · have hcov' : ∀ e ∈ b.diffs, ¬ (e.off ≤ x ∧ x < e.off + e.w.len) := fun e he h => hcov ⟨e, he, h⟩
    rw [content_uncover hinv.ok (fun d hd => hcov' d (hp.mem_iff.mp hd)), content_uncover h.ok hcov']

/-- The in-place update at `off` of `n` bytes reaches exactly the bytes it should: the range lies inside
one segment and no other segment's memory could be mistaken for it, or no segment is near it and it starts
within the initial bytes or does not fit them. -/
def Fits (b : HBase) (off n : Nat) : Prop :=
  0 < n ∧
  ((∃ d ∈ b.diffs, d.off ≤ off ∧ off + n ≤ d.off + d.w.len ∧
      ∀ e ∈ b.diffs, e ≠ d → ¬ (e.off ≤ off ∧ off < e.off + e.w.cap)) ∨
   ((∀ e ∈ b.diffs, ¬ (e.off ≤ off ∧ off < e.off + e.w.cap) ∧ (e.off + e.w.len ≤ off ∨ off + n ≤ e.off)) ∧
      (off ≤ b.bytes.len ∨ b.bytes.cap < off + n)))

theorem foldl_len_perm {ds es : List HDiff} (hp : ds.Perm es) (x : Nat) :
    ds.foldl (fun m d => if d.off + d.w.len > m then d.off + d.w.len else m) x =
      es.foldl (fun m d => if d.off + d.w.len > m then d.off + d.w.len else m) x := by
  apply hp.foldl_eq'
  intro a _ c _ z
  repeat' split
  all_goals omega

/-- An in-place update writes the bytes. -/
theorem nlUpdate_put (h : b.Inv m) {off : Nat} {v : Bytes} (hf : b.Fits off v.length) :
    ∃ m' b', b.nlUpdate m off v = some (m', b') ∧ b'.Inv m' ∧
      (b'.val m').content = (b.val m).content.put off v ∧ b'.seekCur = b.seekCur := by
  obtain ⟨hn, hf⟩ := hf
  unfold nlUpdate nlU
  rcases hf with ⟨d, hd, h1, h2, h3⟩ | ⟨h3, h4⟩
  · have hdw := h.ok.2 d hd
    have hdc := hdw.1
    cases hl : lastIndexOf (fun d : HDiff => decide (d.off ≤ off) && decide (off < d.off + d.w.cap)) b.diffs with
    | none =>
      have := lastIndexOf_none.mp hl d hd
      simp only [Bool.and_eq_false_iff, decide_eq_false_iff_not] at this
      omega
    | some sn =>
      obtain ⟨e, he, hp⟩ := lastIndexOf_lt hl
      simp only [Bool.and_eq_true, decide_eq_true_eq] at hp
      have hed : e = d := by
        by_contra hne
        exact h3 e (List.mem_of_getElem? he) hne hp
      subst hed
      simp only [he]
      by_cases ho : e.off = off
      · rw [if_pos ho]
        obtain ⟨hm1, hm2⟩ := Props.moveLast_spec b.diffs sn e he
        rw [hm1]
        simp only
        rw [if_neg (by omega), if_neg (by omega)]
        obtain ⟨hI, hC⟩ := h.perm (hm2 _ hm1)
        obtain ⟨hI', hC'⟩ := put_in_seg hI (d := e) (w := e.w) (v := v) (k := 0)
          (by simp) hdw (by omega) rfl rfl (by omega) (by omega)
        refine ⟨_, _, rfl, hI', ?_, rfl⟩
        rw [hC', hC, Nat.add_zero, ho]
      · rw [if_neg ho]
        have hs : e.w.sub (off - e.off) (off - e.off + v.length) =
            some ⟨e.w.arr, e.w.off + (off - e.off), v.length, e.w.cap - (off - e.off)⟩ := by
          unfold Win.sub
          rw [if_pos (by omega), Nat.add_sub_cancel_left]
        rw [hs]
        obtain ⟨hI', hC'⟩ := put_in_seg h hd (v := v) (k := off - e.off)
          (Mem.Ok_sub hdw (off - e.off) v.length (by omega)) (Nat.le_refl _) rfl rfl (Nat.le_refl _) (by omega)
        refine ⟨_, _, rfl, hI', ?_, rfl⟩
        rw [hC']; congr 1; omega
  · have hbw := h.ok.1
    have hbc := hbw.1
    have hl : lastIndexOf (fun d : HDiff => decide (d.off ≤ off) && decide (off < d.off + d.w.cap)) b.diffs = none := by
      rw [lastIndexOf_none]
      intro e he
      have := (h3 e he).1
      rw [← Bool.not_eq_true, Bool.and_eq_true, decide_eq_true_eq, decide_eq_true_eq]
      exact this
    rw [hl]
    simp only
    by_cases hb1 : off + v.length ≤ b.bytes.len
    · rw [if_pos hb1]
      obtain ⟨hI', hC'⟩ := put_in_base h (v := v) (k := off)
        (Mem.Ok_drop hbw off (by omega)) (by simp only; omega) rfl rfl (Nat.le_refl _) hb1 (fun e he => (h3 e he).2)
      exact ⟨_, _, rfl, hI', hC', rfl⟩
    · rw [if_neg hb1]
      by_cases hb2 : off + v.length ≤ b.bytes.cap
      · rw [if_pos hb2]
        have hoff : off ≤ b.bytes.len := by omega
        have hext : ({ b with bytes := { b.bytes with len := off + v.length } } : HBase).Inv m :=
          ⟨⟨Mem.Ok_take hbw _ hb2, h.ok.2⟩, h.ind, h.base⟩
        obtain ⟨hI', hC'⟩ := put_in_base hext (v := v) (k := off)
          (w := ⟨b.bytes.arr, b.bytes.off + off, v.length, b.bytes.cap - off⟩)
          (Mem.Ok_sub hbw off v.length hb2) (Nat.le_refl _) rfl rfl (Nat.le_refl _) (Nat.le_refl _)
          (fun e he => (h3 e he).2)
        refine ⟨_, _, rfl, hI', ?_, rfl⟩
        rw [hC']
        funext x
        rw [put_apply, put_apply]
        by_cases hx : off ≤ x ∧ x < off + v.length
        · rw [if_pos hx, if_pos hx]
        · rw [if_neg hx, if_neg hx]
          by_cases hcov : ∃ e ∈ b.diffs, e.off ≤ x ∧ x < e.off + e.w.len
          · obtain ⟨e, he, g1, g2⟩ := hcov
            rw [hext.content_cover he g1 g2, h.content_cover he g1 g2]
          · have hcov' : ∀ e ∈ b.diffs, ¬ (e.off ≤ x ∧ x < e.off + e.w.len) := fun e he h => hcov ⟨e, he, h⟩
            rw [content_uncover hext.ok hcov', content_uncover h.ok hcov']
            simp only [Mem.sl, Mem.capBytes]
            by_cases hx2 : x < off
            · rw [List.getElem?_take_of_lt (i := x) (j := off + v.length) (by omega),
                List.getElem?_take_of_lt (i := x) (j := b.bytes.len) (by omega)]
            · rw [List.getElem?_take_eq_none (by omega), List.getElem?_take_eq_none (by omega)]
      · rw [if_neg hb2]
        have hpre := Mem.alloc_prefix m ⟨zeros v.length, zeros (max 512 v.length - v.length)⟩
        have haok := Mem.alloc_Ok m ⟨zeros v.length, zeros (max 512 v.length - v.length)⟩
        have hasl := Mem.alloc_sl m ⟨zeros v.length, zeros (max 512 v.length - v.length)⟩
        have harr : (m.alloc ⟨zeros v.length, zeros (max 512 v.length - v.length)⟩).2.arr = m.length := rfl
        have hlen : (m.alloc ⟨zeros v.length, zeros (max 512 v.length - v.length)⟩).2.len = v.length := by
          simp [Mem.alloc, Slice.len, zeros]
        generalize m.alloc ⟨zeros v.length, zeros (max 512 v.length - v.length)⟩ = mw at *
        obtain ⟨m1, w⟩ := mw
        simp only at *
        have hfresh : ∀ u : Win, m.Ok u → u.Disj w := by
          intro u hu
          unfold Win.Disj
          have := hu.2
          omega
        have hI1 : ({ b with diffs := b.diffs ++ [⟨off, w⟩] } : HBase).Inv m1 := by
          refine ⟨⟨Mem.Ok_ext hpre hbw, ?_⟩, ?_, ?_⟩
          · intro e he
            rcases List.mem_append.mp he with he | he
            · exact Mem.Ok_ext hpre (h.ok.2 e he)
            · rw [List.mem_singleton.mp he]; exact haok
          · rw [List.pairwise_append]
            refine ⟨h.ind, List.pairwise_singleton _ _, ?_⟩
            intro e he f hf
            rw [List.mem_singleton.mp hf]
            refine ⟨?_, hfresh _ (h.ok.2 e he)⟩
            simp only
            have := (h3 e he).2
            omega
          · intro e he
            rcases List.mem_append.mp he with he | he
            · exact h.base e he
            · rw [List.mem_singleton.mp he]; exact hfresh _ hbw
        obtain ⟨hI', hC'⟩ := put_in_seg hI1 (d := ⟨off, w⟩) (w := w) (v := v) (k := 0)
          (by simp) haok (by omega) rfl rfl (by simp) (by simp only; omega)
        refine ⟨_, _, rfl, hI', ?_, rfl⟩
        rw [hC', Nat.add_zero]
        funext x
        rw [put_apply, put_apply]
        by_cases hx : off ≤ x ∧ x < off + v.length
        · rw [if_pos hx, if_pos hx]
        · rw [if_neg hx, if_neg hx]
          by_cases hcov : ∃ e ∈ b.diffs, e.off ≤ x ∧ x < e.off + e.w.len
          · obtain ⟨e, he, g1, g2⟩ := hcov
            rw [hI1.content_cover (d := e) (List.mem_append_left _ he) g1 g2, h.content_cover he g1 g2,
              Mem.sl_ext hpre (h.ok.2 e he)]
          · have hcov' : ∀ e ∈ b.diffs, ¬ (e.off ≤ x ∧ x < e.off + e.w.len) := fun e he h => hcov ⟨e, he, h⟩
            rw [content_uncover hI1.ok, content_uncover h.ok hcov']
            · simp only; rw [Mem.sl_ext hpre hbw]
            · intro e he
              rcases List.mem_append.mp he with he | he
              · exact hcov' e he
              · rw [List.mem_singleton.mp he]; simp only; omega

end HBase
end Fbs
