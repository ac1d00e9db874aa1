import Verif.ListEdit
import Verif.TableSet
import Mathlib.Data.List.Forall2
/-!
# Lists of scalars and structs: how the operations act on their representation
-/

namespace Fbs
open CNode

/-- `t` is a type whose values are stored inline and take `sz` bytes. -/
structure DirElt (s : Sch) (t : Name) (sz : Nat) : Prop where
  size : directSize s t = some (some sz)
  grp  : ∃ g, getTypeGroup s.toReg t = some g ∧ (isFieldBasicType g || isFieldStruct g) = true
  pos  : 0 < sz

theorem isList_of_name {c : CNode} {t : Name} (h : c.name = '[' :: ']' :: t) : c.isList = some true := by
  unfold CNode.isList
  rw [h]
  rw [if_neg (by rintro ⟨h, -⟩; cases h), if_neg (by simp)]
  rfl

theorem at_direct {s : Sch} {t : Name} {sz : Nat} (hd : DirElt s t sz) {c : CNode} {n : Nat}
    (hn : c.name = '[' :: ']' :: t) (hl : c.listLen = some n) (hp : 0 ≤ c.vi.pos) (i : Int) :
    c.at_ s i = if i ≥ n ∨ i < 0 then some (.error .invalidIndex)
      else some (.ok { name := t, io := c.io, pos := (c.vi.pos + i * sz).toNat }) := by
  obtain ⟨g, hg, hb⟩ := hd.grp
  unfold CNode.at_
  rw [isList_of_name hn, hl]
  simp only [Option.bind_eq_bind, Option.bind_some, Bool.not_true, Bool.false_eq_true, if_false]
  by_cases hi : i ≥ (n : Int) ∨ i < 0
  · rw [if_pos hi, if_pos hi]; rfl
  · rw [if_neg hi, if_neg hi, if_neg (by rw [hn]; simp)]
    have hdr : c.name.drop 2 = t := by rw [hn]; rfl
    rw [hdr, hg]
    simp only [Option.bind_some, hb, if_true]
    rw [hd.size]
    simp only [Option.bind_some]
    have hnn : (0 : Int) ≤ i * (sz : Int) := Int.mul_nonneg (by omega) (by omega)
    by_cases h0 : i > 0
    · rw [if_pos h0, if_neg (by omega)]; rfl
    · have : i = 0 := by omega
      subst this
      rw [if_neg h0, if_neg (by omega)]
      simp

theorem infoF_direct {s : Sch} {t : Name} {sz : Nat} (hd : DirElt s t sz) (k : Nat) {e : CNode} (he : e.name = t) :
    infoF s (k + 1) (some e) = some { pos := e.pos, size := sz, vlen := 0 } := by
  unfold infoF
  rw [he, hd.size]
  rfl

theorem mapM_some {α β : Type} (f : α → Option β) (l : List α) (h : ∀ a ∈ l, (f a).isSome) :
    ∃ r, l.mapM f = some r := by
  induction l with
  | nil => exact ⟨[], rfl⟩
  | cons a l ih =>
    obtain ⟨b, hb⟩ := Option.isSome_iff_exists.mp (h a (List.mem_cons_self ..))
    obtain ⟨r, hr⟩ := ih (fun x hx => h x (List.mem_cons_of_mem _ hx))
    refine ⟨b :: r, ?_⟩
    rw [List.mapM_cons, hb, hr]
    rfl

theorem allFrom_gen {s : Sch} {c : CNode} (A : Int → Except Err CNode) (hA : ∀ i, c.at_ s i = some (A i)) (m i : Nat) :
    ∃ es, c.allFrom s i m = some es ∧ ∀ e ∈ es, ∃ j : Nat, A j = .ok e := by
  induction m generalizing i with
  | zero => exact ⟨[], rfl, fun e he => (by cases he)⟩
  | succ m ih =>
    obtain ⟨es, h1, h2⟩ := ih (i + 1)
    unfold CNode.allFrom
    rw [hA, h1]
    cases hx : A i with
    | error e => exact ⟨es, by simp only [Option.bind_eq_bind, Option.bind_some]; rfl, h2⟩
    | ok e =>
      refine ⟨e :: es, by simp only [Option.bind_eq_bind, Option.bind_some]; rfl, ?_⟩
      intro e' he
      rcases List.mem_cons.mp he with rfl | he
      · exact ⟨i, hx⟩
      · exact h2 e' he

/-- `InfoSlice` of a list whose elements are not scalars, given what `At` and `Info` return. -/
theorem infoSlice_gen {s : Sch} {t : Name} {c : CNode} {n g k : Nat} (hn : c.name = '[' :: ']' :: t)
    (hg : getTypeGroup s.toReg t = some g) (hb : isFieldBasicType g = false) (hl : c.listLen = some n)
    (A : Int → Except Err CNode) (hA : ∀ i, c.at_ s i = some (A i)) (I : CNode → VInfo)
    (hI : ∀ i e, A i = .ok e → infoF s k (some e) = some (I e)) :
    infoSliceF s (k + 1) c = some (growInfo { pos := c.vi.pos, size := if n = 0 then 0 else -1, vlen := n }
      (match A ((n : Int) - 1) with | .ok e => I e | .error _ => {})) := by
  have hdr : c.name.drop 2 = t := by rw [hn]; rfl
  obtain ⟨es, h2, h3⟩ := allFrom_gen A hA c.vi.vlen 0
  obtain ⟨is, h4⟩ := mapM_some (fun e => infoF s k (some e)) es (fun e he => by
    obtain ⟨j, hj⟩ := h3 e he
    simp only [hI j e hj]; rfl)
  have h2' : c.all s = some es := by unfold CNode.all; rw [hl]; exact h2
  unfold infoSliceF
  rw [if_neg (by rw [hn]; simp), hdr]
  simp only [Option.bind_eq_bind, hg, Option.bind_some, hb, Bool.false_eq_true, if_false, hl, hA, h2', h4, pure]
  cases h5 : A ((n : Int) - 1) with
  | error e1 =>
    cases h6 : A (maxPosScan true is 0 0 (-1)) with
    | error e2 => rfl
    | ok e2 => simp only [hI _ _ h6, Option.bind_some]
  | ok e1 =>
    cases h6 : A (maxPosScan true is 0 0 (-1)) with
    | error e2 => simp only [hI _ _ h5, Option.bind_some]
    | ok e2 => simp only [hI _ _ h5, hI _ _ h6, Option.bind_some]

/-- `InfoSlice` of a list of inline elements never fails and reports the count stored in the buffer. -/
theorem infoSlice_direct {s : Sch} {t : Name} {sz : Nat} (hd : DirElt s t sz) {c : CNode} {n : Nat}
    (hn : c.name = '[' :: ']' :: t) (hl : c.listLen = some n) (hp : 0 ≤ c.vi.pos) (k : Nat) :
    ∃ v, infoSliceF s (k + 2) c = some v ∧ v.pos = c.vi.pos ∧ v.vlen = n := by
  obtain ⟨g, hg, hb⟩ := hd.grp
  have hdr : c.name.drop 2 = t := by rw [hn]; rfl
  have hgrow : ∀ (a v : VInfo), (growInfo a v).pos = a.pos ∧ (growInfo a v).vlen = a.vlen := by
    intro a v; unfold growInfo; split <;> exact ⟨rfl, rfl⟩
  by_cases hbb : isFieldBasicType g = true
  · unfold infoSliceF
    rw [if_neg (by rw [hn]; simp), hdr]
    simp only [Option.bind_eq_bind, hg, Option.bind_some, hbb, if_true, hl, pure]
    exact ⟨_, rfl, (hgrow _ _).1, (hgrow _ _).2⟩
  · have := infoSlice_gen (k := k + 1) hn hg (by simpa using hbb) hl
      (fun i => if i ≥ n ∨ i < 0 then .error .invalidIndex else .ok { name := t, io := c.io, pos := (c.vi.pos + i * sz).toNat })
      (fun i => by rw [at_direct hd hn hl hp]; split <;> rfl)
      (fun e => { pos := e.pos, size := sz, vlen := 0 })
      (fun i e he => by
        apply infoF_direct hd k
        split at he
        · cases he
        · cases he; rfl)
    exact ⟨_, this, (hgrow _ _).1, (hgrow _ _).2⟩

theorem dPrefix_sub {b : Base} {off size : Nat} {d : Diff} (h : d ∈ b.dPrefix off size) :
    d ∈ b.diffs ∨ (off ≤ d.off ∧ d.off + d.sl.len = off + size) ∨
      (∃ d0 ∈ b.diffs, d0.covers off = true ∧ d0.off ≤ d.off ∧ d.off + d.sl.len ≤ d0.off + d0.sl.len) := by
  unfold Base.dPrefix at h
  unfold Base.D at h
  cases hl : lastIndexOf (fun d => d.covers off) b.diffs with
  | none =>
    simp only [hl, List.dropLast_concat] at h
    split at h
    · rename_i hc
      simp only [List.mem_append, List.mem_singleton] at h
      rcases h with h | rfl
      · exact Or.inl h
      · have hlen : ((b.bytes.arr.take (off + size)).drop off).length = size := by
          rw [List.length_drop, List.length_take]
          have : b.bytes.arr.length = b.bytes.cap := by simp [Slice.arr, Slice.cap]
          omega
        refine Or.inr (Or.inl ?_)
        simp only [Slice.len, hlen]; exact ⟨Nat.le_refl _, trivial⟩
    · exact Or.inl h
  | some sn =>
    obtain ⟨d0, hd0, hcov⟩ := lastIndexOf_lt hl
    simp only [hl, hd0] at h
    have hmem0 : d0 ∈ b.diffs := List.mem_of_getElem? hd0
    have hsn : sn < b.diffs.length := (List.getElem?_eq_some_iff.mp hd0).1
    split at h
    · simp only [List.dropLast_concat] at h
      exact Or.inl h
    · rename_i hlt
      have hc2 := hcov
      rw [covers_iff] at hc2
      simp only [List.dropLast_concat] at h
      rw [insertOr_of_le (by rw [List.length_set]; omega)] at h
      simp only [List.mem_append, List.mem_singleton, or_assoc] at h
      have hset : ∀ e, e ∈ b.diffs.set sn ⟨d0.off, ⟨d0.sl.data.take (off + size - d0.off),
          d0.sl.data.drop (off + size - d0.off) ++ d0.sl.spare⟩⟩ → e ∈ b.diffs ∨ (off ≤ e.off ∧ e.off + e.sl.len = off + size) ∨
          (∃ d0 ∈ b.diffs, d0.covers off = true ∧ d0.off ≤ e.off ∧ e.off + e.sl.len ≤ d0.off + d0.sl.len) := by
        intro e he
        rcases List.mem_or_eq_of_mem_set he with he | rfl
        · exact Or.inl he
        · refine Or.inr (Or.inr ⟨d0, hmem0, hcov, Nat.le_refl _, ?_⟩)
          simp only [Slice.len, List.length_take]; omega
      rcases h with h | rfl | h
      · exact hset d (List.mem_of_mem_take h)
      · refine Or.inr (Or.inr ⟨d0, hmem0, hcov, by simp only; omega, ?_⟩)
        simp only [Slice.len, List.length_drop] at *; omega
      · exact hset d (List.mem_of_mem_drop h)

/-- Every segment is one element or lies in the count. -/
def Tile (sz : Nat) (b : Base) : Prop :=
  b.bytes.len = 4 ∧ ∀ d ∈ b.diffs, d.off + d.sl.len ≤ 4 ∨ ∃ i : Nat, d.off = 4 + i * sz ∧ d.sl.len = sz

/-- The count is changed, or an element is copied. -/
theorem Tile.count {sz : Nat} {b : Base} (h : Tile sz b) (w : Bytes) (hw : w.length = 4) : Tile sz (b.updateU 0 4 w) := by
  rw [updateU_struct b 0 4 w hw]
  refine ⟨h.1, ?_⟩
  intro d hd
  simp only [List.mem_append, List.mem_singleton] at hd
  rcases hd with hd | rfl
  · rcases dPrefix_sub hd with h1 | ⟨h1, h2⟩ | ⟨d0, h1, h2, h3⟩
    · exact h.2 d h1
    · exact Or.inl (by omega)
    · rw [covers_iff] at h2
      rcases h.2 d0 h1 with h4 | ⟨i, h4, -⟩ <;> exact Or.inl (by omega)
  · exact Or.inl (by simp only [Slice.len]; omega)

theorem Tile.elem {sz : Nat} {b src : Base} {so i : Nat} {w : Bytes} (h : Tile sz b) (hs : Holds src so w) (hw : w.length = sz) :
    Tile sz (b.copy (fun p n => src.R p n) so sz (4 + i * sz) 0) := by
  obtain ⟨sp, hc⟩ := copy_one (b := b) (dst := 4 + i * sz) (ext := 0) hs
  rw [hw] at hc
  rw [hc, copyExtend_zero_diffs, if_neg (by have := h.1; omega), List.nil_append]
  refine ⟨h.1, ?_⟩
  intro d hd
  rcases List.mem_append.mp hd with hd | hd
  · exact h.2 d hd
  · rw [List.mem_singleton.mp hd]
    exact Or.inr ⟨i, rfl, hw⟩

/-- `c` represents the array `es` of elements of `sz` bytes: a list in a buffer of its own. -/
structure LI (t : Name) (sz : Nat) (c : CNode) (es : List Bytes) : Prop where
  name  : c.name = '[' :: ']' :: t
  cpos  : c.pos = 4
  vpos  : c.vi.pos = 4
  vlen  : c.vi.vlen = es.length
  small : es.length < 4294967296
  wid   : ∀ e ∈ es, e.length = sz
  hdr   : Holds c.io 0 (putLE 4 es.length)
  elt   : ∀ i e, es[i]? = some e → Holds c.io (4 + i * sz) e
  len   : c.io.bytes.len ≤ 4 + es.length * sz
  below : Below c.io (4 + es.length * sz)
  clean : Clean c.io (4 + es.length * sz)
  tile  : Tile sz c.io

theorem LI.listLen {t : Name} {sz : Nat} {c : CNode} {es : List Bytes} (h : LI t sz c es) :
    c.listLen = some es.length := by
  unfold CNode.listLen CNode.u32
  rw [h.vpos]
  have := holds_getN h.hdr
  rw [Nat.mod_eq_of_lt (by have := h.small; omega)] at this
  exact this

theorem LI.refresh {s : Sch} {t : Name} {sz : Nat} (hd : DirElt s t sz) {c : CNode} {n : Nat}
    (hn : c.name = '[' :: ']' :: t) (hl : c.listLen = some n) (hp : 0 ≤ c.vi.pos) (k : Nat) :
    ∃ v, c.refresh s (k + 2) = some { c with vi := v } ∧ v.pos = c.vi.pos ∧ v.vlen = n := by
  obtain ⟨v, h1, h2⟩ := infoSlice_direct hd hn hl hp k
  refine ⟨v, ?_, h2⟩
  unfold CNode.refresh
  rw [h1]
  rfl

theorem LI.vlenTotal {s : Sch} {t : Name} {sz : Nat} (hd : DirElt s t sz) {c : CNode} {es : List Bytes} (h : LI t sz c es)
    (k : Nat) : ∃ v, c.vlenTotal s (k + 2) = some { c with vi := v } ∧ v.pos = 4 ∧ v.vlen = es.length := by
  have hp := h.vpos
  have hv := h.vlen
  unfold CNode.vlenTotal
  by_cases hc : c.vi.pos = 0 ∨ c.vi.vlen = 0 ∨ c.vi.size = 0
  · obtain ⟨v, h1, h2, h3⟩ := infoSlice_direct hd h.name h.listLen (by omega) k
    rw [if_pos hc, h1]
    simp only [Option.bind_eq_bind, Option.bind_some, pure]
    split
    · exact ⟨{ v with size := 0 }, rfl, by simp only; omega, h3⟩
    · exact ⟨v, rfl, by omega, h3⟩
  · rw [if_neg hc]
    simp only [Option.bind_eq_bind, Option.bind_some, pure]
    rw [if_neg (by omega)]
    exact ⟨c.vi, rfl, hp, hv⟩

/-- `f` is a value of type `t` with the bytes `e`. -/
structure ElSrc (t : Name) (sz : Nat) (f : CNode) (e : Bytes) : Prop where
  name : f.name = t
  wid  : e.length = sz
  mem  : Holds f.io f.pos e
  size : f.size ≤ 0 ∨ f.size = sz

theorem ElSrc.elmSize {s : Sch} {t : Name} {sz : Nat} (hd : DirElt s t sz) {f : CNode} {e : Bytes} (h : ElSrc t sz f e) (k : Nat) :
    CNode.elmSize s (k + 1) f = some (sz : Int) := by
  unfold CNode.elmSize
  split
  · rw [infoF_direct hd k h.name]; rfl
  · rcases h.size with h | h
    · contradiction
    · rw [h]; rfl

/-- Setting an element at an existing index or at the end. -/
theorem LI.setStructAt {s : Sch} {t : Name} {sz : Nat} (hd : DirElt s t sz) {c : CNode} {es : List Bytes} (h : LI t sz c es)
    {f : CNode} {e : Bytes} (hf : ElSrc t sz f e) (i : Nat) (hi : i ≤ es.length) (hsm : es.length + 1 < 4294967296) (k : Nat) :
    ∃ c', c.setStructAt s (k + 2) i f = some (c', none) ∧
      LI t sz c' (if i = es.length then es ++ [e] else es.set i e) := by
  have hsz := hd.pos
  have hv := h.vlen
  obtain ⟨v, hvt, v1, v2⟩ := h.vlenTotal hd k
  have hsl := hf.wid
  have hes := hf.elmSize hd (k + 1)
  unfold CNode.setStructAt
  rw [if_neg (by omega), hvt]
  simp only [Option.bind_eq_bind, Option.bind_some]
  rw [hes]
  simp only [Option.bind_some, v1, v2]
  have hmul : (4 : Int) + (i : Int) * (sz : Int) = ((4 + i * sz : Nat) : Int) := by
    rw [Int.natCast_add, Int.natCast_mul]; rfl
  have hle : i * sz ≤ es.length * sz := Nat.mul_le_mul_right _ hi
  rw [hmul]
  by_cases hin : i = es.length
  · -- append
    rw [if_pos (by omega : ((es.length : Nat) : Int) = (i : Int))]
    rw [if_pos hin]
    have hcp := copyI_below (b := c.io) (src := f.io) (sp := f.pos) (k := sz) (dst := 4 + i * sz) (ext := (sz : Int))
      (by omega) (by rw [hin]; exact h.len) (by rw [hin]; exact h.below)
    rw [hcp]
    simp only [Option.bind_some]
    rw [if_pos (by omega)]
    have hsl2 : sz = e.length := hsl.symm
    generalize hb1 : c.io.copy (fun p n => f.io.R p n) f.pos sz (4 + i * sz) 0 = b1
    have hput : b1.putN 4 (4 - 4) (es.length + 1) = some (b1.updateU 0 4 (putLE 4 (es.length + 1))) := by
      unfold Base.putN
      rw [if_neg (by omega)]; rfl
    rw [hput]
    simp only [Option.bind_some]
    have hw4 : (putLE 4 (es.length + 1)).length = 4 := putLE_length _ _
    have hholdEnd : Holds b1 (4 + es.length * sz) e := by
      rw [← hb1, hin, hsl2, ← hsl2]
      have := holds_copy_end (b := c.io) hf.mem h.len h.below h.clean
      rw [hsl] at this
      exact this
    have hother : ∀ x w, Holds c.io x w → x + w.length ≤ 4 + es.length * sz → Holds b1 x w := by
      intro x w hw hx
      rw [← hb1, hin]
      have := holds_copy_other (b := c.io) (dst := 4 + es.length * sz) hf.mem hw (Or.inl hx)
      rw [hsl] at this
      exact this
    have hbytes : b1.bytes = c.io.bytes := by
      obtain ⟨sp, hc⟩ := copy_one (b := c.io) (dst := 4 + i * sz) (ext := 0) hf.mem
      rw [hsl] at hc
      rw [← hb1, hc]
    have hend : es.length * sz + sz = (es.length + 1) * sz := by rw [Nat.add_mul, Nat.one_mul]
    have hbel : Below b1 (4 + (es.length + 1) * sz) := by
      rw [← hb1, hin]
      have := below_copy (b := c.io) (dst := 4 + es.length * sz) (x := 4 + (es.length + 1) * sz) hf.mem
        (fun d hd => by have := h.below d hd; omega) (by omega)
      rw [hsl] at this
      exact this
    have hclean : Clean b1 (4 + (es.length + 1) * sz) := by
      have hc0 : Clean c.io (4 + (es.length + 1) * sz) := by
        intro d hd
        have h1 := h.below d hd
        have h2 := h.clean d hd
        unfold Straddles at h2 ⊢
        omega
      have hlen := h.len
      have := clean_copy_zero (b := c.io) (dst := 4 + es.length * sz) (x := 4 + (es.length + 1) * sz) hf.mem hc0
        (Or.inr (by omega)) (Or.inl (by omega))
      rw [hsl] at this
      rw [← hb1, hin]
      exact this
    have hhdr : Holds (b1.updateU 0 4 (putLE 4 (es.length + 1))) 0 (putLE 4 (es.length + 1)) := by
      have h0 := hother 0 _ h.hdr (by rw [putLE_length]; omega)
      have hc := h0.2.1
      rw [putLE_length] at hc
      have := holds_updateU_same (b := b1) (off := 0) (w := putLE 4 (es.length + 1))
        (by intro h; have := congrArg List.length h; rw [putLE_length] at this; simp at this) (by rw [putLE_length]; exact hc)
      rw [putLE_length] at this
      exact this
    generalize hb2 : b1.updateU 0 4 (putLE 4 (es.length + 1)) = b2
    rw [hb2] at hhdr
    have hl2 : ({ name := c.name, io := b2, pos := c.pos, size := c.size, tlen := c.tlen, vi := v } : CNode).listLen
        = some (es.length + 1) := by
      unfold CNode.listLen CNode.u32
      simp only
      rw [v1]
      have := holds_getN hhdr
      rw [Nat.mod_eq_of_lt (by omega)] at this
      exact this
    obtain ⟨v', hr, r1, r2⟩ := LI.refresh hd (c := { name := c.name, io := b2, pos := c.pos, size := c.size, tlen := c.tlen, vi := v })
      h.name hl2 (by simp only; omega) k
    rw [hr]
    refine ⟨_, rfl, ⟨h.name, h.cpos, by simp only at r1 ⊢; omega, by simp only [List.length_append, List.length_singleton]; exact r2, by
      rw [List.length_append, List.length_singleton]; omega, ?_, ?_, ?_, ?_, ?_, ?_, ?_⟩⟩
    · intro x hx
      rcases List.mem_append.mp hx with hx | hx
      · exact h.wid x hx
      · rw [List.mem_singleton.mp hx]; exact hsl
    · rw [List.length_append, List.length_singleton]; exact hhdr
    · intro j x hj
      simp only
      rw [← hb2]
      by_cases hjl : j < es.length
      · rw [List.getElem?_append_left hjl] at hj
        have hx := h.wid x (List.mem_of_getElem? hj)
        have h3 : (j + 1) * sz ≤ es.length * sz := Nat.mul_le_mul_right _ hjl
        rw [Nat.add_mul, Nat.one_mul] at h3
        exact holds_updateU_other hw4 (hother _ _ (h.elt j x hj) (by omega)) (Or.inr (by omega))
      · rw [List.getElem?_append_right (by omega)] at hj
        have hj0 : j - es.length = 0 := by
          by_contra hne
          rw [List.getElem?_eq_none (by simp; omega)] at hj
          cases hj
        rw [hj0] at hj
        cases hj
        have : j = es.length := by omega
        rw [this]
        exact holds_updateU_other hw4 hholdEnd (Or.inr (by omega))
    · rw [List.length_append, List.length_singleton]
      simp only
      rw [← hb2, updateU_struct b1 0 4 _ hw4, hbytes]
      have := h.len
      omega
    · rw [List.length_append, List.length_singleton]
      simp only
      rw [← hb2]
      exact below_updateU hw4 hbel (by omega)
    · rw [List.length_append, List.length_singleton]
      simp only
      rw [← hb2]
      exact clean_updateU hw4 hclean (Or.inr (by omega))
    · simp only
      rw [← hb2, ← hb1]
      exact (h.tile.elem hf.mem hsl).count _ hw4
  · -- replace
    have hlt : i < es.length := by omega
    rw [if_neg (by omega), if_neg hin]
    have hcp := copyI_zero c.io f.io f.pos sz (4 + i * sz)
    rw [hcp]
    simp only [Option.bind_some]
    rw [if_neg (by omega)]
    simp only [Option.bind_some]
    generalize hb1 : c.io.copy (fun p n => f.io.R p n) f.pos sz (4 + i * sz) 0 = b1
    have hsl2 : sz = e.length := hsl.symm
    have h3 : (i + 1) * sz ≤ es.length * sz := Nat.mul_le_mul_right _ hlt
    rw [Nat.add_mul, Nat.one_mul] at h3
    have hother : ∀ x w, Holds c.io x w → x + w.length ≤ 4 + i * sz ∨ 4 + i * sz + sz ≤ x → Holds b1 x w := by
      intro x w hw hx
      rw [← hb1]
      have := holds_copy_other (b := c.io) (dst := 4 + i * sz) hf.mem hw (by rw [hsl]; exact hx)
      rw [hsl] at this
      exact this
    have hthis : Holds b1 (4 + i * sz) e := by
      obtain ⟨x, hx⟩ : ∃ x, es[i]? = some x := ⟨_, List.getElem?_eq_getElem hlt⟩
      have hh := h.elt i x hx
      have hxl := h.wid x (List.mem_of_getElem? hx)
      have hc := hh.2.1
      rw [hxl] at hc
      have := holds_copy_same (b := c.io) (dst := 4 + i * sz) hf.mem (by rw [hsl]; exact hc)
      rw [hsl] at this
      rw [← hb1]
      exact this
    have hbytes : b1.bytes = c.io.bytes := by
      obtain ⟨sp, hc⟩ := copy_one (b := c.io) (dst := 4 + i * sz) (ext := 0) hf.mem
      rw [hsl] at hc
      rw [← hb1, hc]
    have hhdr := hother 0 _ h.hdr (Or.inl (by rw [putLE_length]; omega))
    have hl2 : ({ name := c.name, io := b1, pos := c.pos, size := c.size, tlen := c.tlen, vi := v } : CNode).listLen
        = some es.length := by
      unfold CNode.listLen CNode.u32
      simp only
      rw [v1]
      have := holds_getN hhdr
      rw [Nat.mod_eq_of_lt (by omega)] at this
      exact this
    obtain ⟨v', hr, r1, r2⟩ := LI.refresh hd (c := { name := c.name, io := b1, pos := c.pos, size := c.size, tlen := c.tlen, vi := v })
      h.name hl2 (by simp only; omega) k
    rw [hr]
    refine ⟨_, rfl, ⟨h.name, h.cpos, by simp only at r1 ⊢; omega, by simp only [List.length_set]; exact r2, by
      rw [List.length_set]; exact h.small, ?_, ?_, ?_, ?_, ?_, ?_, ?_⟩⟩
    · intro x hx
      rcases List.mem_or_eq_of_mem_set hx with hx | hx
      · exact h.wid x hx
      · rw [hx]; exact hsl
    · rw [List.length_set]; exact hhdr
    · intro j x hj
      simp only
      by_cases hji : j = i
      · subst hji
        rw [List.getElem?_set_self hlt] at hj
        cases hj
        exact hthis
      · rw [List.getElem?_set_ne (Ne.symm hji)] at hj
        have hx := h.wid x (List.mem_of_getElem? hj)
        refine hother _ _ (h.elt j x hj) ?_
        rcases Nat.lt_or_gt_of_ne hji with hlt' | hgt
        · left
          have : (j + 1) * sz ≤ i * sz := Nat.mul_le_mul_right _ hlt'
          rw [Nat.add_mul, Nat.one_mul] at this
          omega
        · right
          have : (i + 1) * sz ≤ j * sz := Nat.mul_le_mul_right _ hgt
          rw [Nat.add_mul, Nat.one_mul] at this
          omega
    · rw [List.length_set]; simp only; rw [hbytes]; exact h.len
    · rw [List.length_set]
      simp only
      rw [← hb1]
      have := below_copy (b := c.io) (dst := 4 + i * sz) hf.mem h.below (by omega)
      rw [hsl] at this
      exact this
    · rw [List.length_set]
      simp only
      rw [← hb1]
      have := clean_copy_zero (b := c.io) (dst := 4 + i * sz) hf.mem h.clean (Or.inr (by omega)) (Or.inl h.len)
      rw [hsl] at this
      exact this
    · simp only
      rw [← hb1]
      exact h.tile.elem hf.mem hsl

theorem initList_LI (t : Name) (sz : Nat) : LI t sz (initList ('[' :: ']' :: t)) [] := by
  refine ⟨rfl, rfl, rfl, rfl, by decide, fun e he => (by cases he), ?_, fun i e h => (by simp at h), ?_, ?_, ?_, rfl, fun d hd => (by cases hd)⟩
  · exact holds_flat (by decide) (by decide) (by decide)
  · simp [initList, Base.new, Slice.len, zeros]
  · intro d hd; cases hd
  · intro d hd; cases hd

theorem LI.at_eq {s : Sch} {t : Name} {sz : Nat} (hd : DirElt s t sz) {c : CNode} {es : List Bytes} (h : LI t sz c es) (i : Nat)
    (hi : i < es.length) : c.at_ s i = some (.ok { name := t, io := c.io, pos := 4 + i * sz }) := by
  rw [at_direct hd h.name h.listLen (by rw [h.vpos]; omega), if_neg (by omega), h.vpos]
  have hmul : (4 : Int) + (i : Int) * (sz : Int) = ((4 + i * sz : Nat) : Int) := by
    rw [Int.natCast_add, Int.natCast_mul]; rfl
  rw [hmul, Int.toNat_natCast]

theorem LI.at_src {t : Name} {sz : Nat} {c : CNode} {es : List Bytes} (h : LI t sz c es) {i : Nat} {e : Bytes}
    (hi : es[i]? = some e) : ElSrc t sz { name := t, io := c.io, pos := 4 + i * sz } e :=
  ⟨rfl, h.wid e (List.mem_of_getElem? hi), h.elt i e hi, Or.inl (by simp only; omega)⟩

theorem LI.allFrom {s : Sch} {t : Name} {sz : Nat} (hd : DirElt s t sz) {c : CNode} {es : List Bytes} (h : LI t sz c es)
    (m i : Nat) (hm : i + m = es.length) :
    ∃ ns, c.allFrom s i m = some ns ∧ List.Forall₂ (ElSrc t sz) ns (es.drop i) := by
  induction m generalizing i with
  | zero => exact ⟨[], rfl, by rw [List.drop_eq_nil_of_le (by omega)]; exact .nil⟩
  | succ m ih =>
    obtain ⟨ns, h1, h2⟩ := ih (i + 1) (by omega)
    have hi : i < es.length := by omega
    refine ⟨{ name := t, io := c.io, pos := 4 + i * sz } :: ns, ?_, ?_⟩
    · unfold CNode.allFrom
      rw [h.at_eq hd i hi, h1]; rfl
    · rw [List.drop_eq_getElem_cons hi]
      exact .cons (h.at_src (List.getElem?_eq_getElem hi)) h2

theorem LI.all {s : Sch} {t : Name} {sz : Nat} (hd : DirElt s t sz) {c : CNode} {es : List Bytes} (h : LI t sz c es) :
    ∃ ns, c.all s = some ns ∧ List.Forall₂ (ElSrc t sz) ns es := by
  obtain ⟨ns, h1, h2⟩ := h.allFrom hd c.vi.vlen 0 (by rw [h.vlen]; omega)
  refine ⟨ns, ?_, h2⟩
  unfold CNode.all; rw [h.listLen]; exact h1

theorem LI.addElms {s : Sch} {t : Name} {sz : Nat} (hd : DirElt s t sz) {c : CNode} {es : List Bytes} (h : LI t sz c es)
    {ns : List CNode} {fs : List Bytes} (hf : List.Forall₂ (ElSrc t sz) ns fs) (hsm : es.length + fs.length < 4294967296) (k : Nat) :
    ∃ c', c.addElms s (k + 2) ns = some (c', none) ∧ LI t sz c' (es ++ fs) := by
  induction hf generalizing c es with
  | nil => exact ⟨c, rfl, by rw [List.append_nil]; exact h⟩
  | cons hx _ ih =>
    rw [List.length_cons] at hsm
    obtain ⟨c1, h1, h2⟩ := h.setStructAt hd hx es.length (Nat.le_refl _) (by omega) k
    rw [if_pos rfl] at h2
    obtain ⟨c', h3, h4⟩ := ih h2 (by rw [List.length_append, List.length_singleton]; omega)
    refine ⟨c', ?_, by rw [List.append_assoc] at h4; exact h4⟩
    unfold CNode.addElms
    rw [h.listLen]
    simp only [Option.bind_eq_bind, Option.bind_some]
    rw [h1]
    simp only [Option.bind_some]
    exact h3

/-- A list that starts its buffer is not inside a root. -/
theorem inRoot_false {c : CNode} {n : Nat} (h : Holds c.io 0 (putLE 4 n)) (hp : c.pos < 8) : c.inRoot = some false := by
  have h2 := holds_sub h 0 2 (by omega) (by rw [putLE_length]; omega)
  obtain ⟨r1, r2⟩ := holds_read h2 2
  have hl : (((putLE 4 n).drop 0).take 2).length = 2 := by rw [List.length_take, List.length_drop, putLE_length]; rfl
  have hu : ∃ p, c.u16 0 = some p := by
    refine ⟨leVal (((putLE 4 n).drop 0).take 2), ?_⟩
    have := holds_getN' h2
    rw [hl] at this
    exact this
  obtain ⟨p, hp'⟩ := hu
  unfold CNode.inRoot
  rw [hp']
  simp only [Option.bind_eq_bind, Option.bind_some]
  unfold CNode.R Base.Ri
  rw [if_neg (by omega)]
  simp only [Option.bind_some]
  split
  · rfl
  · rfl

end Fbs
