import Verif.Cells
import Verif.NodeEdit
import Mathlib.Tactic.ByContra
/-!
# Invariant of a table built by `Init` and edited by `SetFieldAt`

Lemmas only; the property theorems are in `Verif.Props.NodeEdit`.
-/

namespace Fbs

theorem dPrefix_off {b : Base} {off size : Nat} {d : Diff} (h : d ∈ b.dPrefix off size) :
    (∃ d0 ∈ b.diffs, d.off = d0.off) ∨ d.off = off ∨
      (d.off = off + size ∧ ∃ d0 ∈ b.diffs, d0.off ≤ off ∧ off + size < d0.off + d0.sl.len) := by
  unfold Base.dPrefix at h
  unfold Base.D at h
  cases hl : lastIndexOf (fun d => d.covers off) b.diffs with
  | none =>
    simp only [hl, List.dropLast_concat] at h
    split at h
    · simp only [List.mem_append, List.mem_singleton] at h
      rcases h with h | rfl
      · exact Or.inl ⟨d, h, rfl⟩
      · exact Or.inr (Or.inl rfl)
    · exact Or.inl ⟨d, h, rfl⟩
  | some sn =>
    obtain ⟨d0, hd0, hcov⟩ := lastIndexOf_lt hl
    simp only [hl, hd0] at h
    have hmem0 : d0 ∈ b.diffs := List.mem_of_getElem? hd0
    have hsn : sn < b.diffs.length := (List.getElem?_eq_some_iff.mp hd0).1
    split at h
    · simp only [List.dropLast_concat] at h
      exact Or.inl ⟨d, h, rfl⟩
    · rename_i hlt
      simp only [List.dropLast_concat] at h
      rw [insertOr_of_le (by rw [List.length_set]; omega)] at h
      simp only [List.mem_append, List.mem_singleton, or_assoc] at h
      have hset : ∀ e, e ∈ b.diffs.set sn ⟨d0.off, ⟨d0.sl.data.take (off + size - d0.off),
          d0.sl.data.drop (off + size - d0.off) ++ d0.sl.spare⟩⟩ → ∃ d0 ∈ b.diffs, e.off = d0.off := by
        intro e he
        rcases List.mem_or_eq_of_mem_set he with he | rfl
        · exact ⟨e, he, rfl⟩
        · exact ⟨d0, hmem0, rfl⟩
      rcases h with h | rfl | h
      · exact Or.inl (hset d (List.mem_of_mem_take h))
      · rw [covers_iff] at hcov
        exact Or.inr (Or.inr ⟨rfl, d0, hmem0, hcov.1, by omega⟩)
      · exact Or.inl (hset d (List.mem_of_mem_drop h))

/-- Every segment starts before `x`. -/
def Below (b : Base) (x : Nat) : Prop := ∀ d ∈ b.diffs, d.off < x

theorem below_updateU {b : Base} {off size x : Nat} {w : Bytes} (hw : w.length = size) (h : Below b x)
    (hx : off + size < x) : Below (b.updateU off size w) x := by
  rw [updateU_struct b off size w hw]
  intro d hd
  simp only [List.mem_append, List.mem_singleton] at hd
  rcases hd with hd | rfl
  · rcases dPrefix_off hd with ⟨d0, h0, h1⟩ | h1 | ⟨h1, -⟩
    · rw [h1]; exact h d0 h0
    · omega
    · omega
  · simp only; omega

/-- The same for an update ending at `x`. -/
theorem below_updateU_end {b : Base} {off size x : Nat} {w : Bytes} (hw : w.length = size) (h : Below b x)
    (hcl : Clean b x) (hs : 0 < size) (hx : off + size = x) : Below (b.updateU off size w) x := by
  rw [updateU_struct b off size w hw]
  intro d hd
  simp only [List.mem_append, List.mem_singleton] at hd
  rcases hd with hd | rfl
  · rcases dPrefix_off hd with ⟨d0, h0, h1⟩ | h1 | ⟨-, d0, h0, h1, h2⟩
    · rw [h1]; exact h d0 h0
    · omega
    · have := hcl d0 h0; unfold Straddles at this; omega
  · simp only; omega

theorem below_insertSpace {b : Base} {pos size : Nat} (hcl : Clean b pos) (hlen : b.bytes.len ≤ pos)
    (h : Below b pos) (hs : 0 < size) : Below (b.insertSpace pos size true) (pos + size) := by
  obtain ⟨-, h2⟩ := insertSpace_diffs (size := size) hcl true
  intro d hd
  rw [h2, if_neg (by omega)] at hd
  simp only [List.mem_append, List.mem_map, List.nil_append, if_true, List.mem_singleton] at hd
  rcases hd with ⟨d0, h0, rfl⟩ | rfl
  · have := h d0 h0
    unfold shiftD
    rw [if_neg (by omega)]; omega
  · simp only; omega

/-- With nothing at or behind the destination, making room there changes nothing. -/
theorem copyExtend_below {b : Base} {dst : Nat} (ext : Nat) (hlen : b.bytes.len ≤ dst) (h : Below b dst) :
    b.copyExtend dst ext = b := by
  unfold Base.copyExtend
  have : (b.diffs.map fun d => if d.off ≥ dst then (⟨d.off + ext, d.sl⟩ : Diff) else d) = b.diffs := by
    have e : (b.diffs.map fun d => if d.off ≥ dst then (⟨d.off + ext, d.sl⟩ : Diff) else d) = b.diffs.map id := by
      apply List.map_congr_left
      intro d hd
      have := h d hd
      rw [if_neg (by omega)]; rfl
    rw [e, List.map_id]
  simp only [if_neg (show ¬ b.bytes.len > dst by omega), this]

theorem holds_lt_lenBuf {b : Base} {x : Nat} {w : Bytes} (h : Holds b x w) : x < b.lenBuf := by
  by_contra hc
  have h1 := content_none_of_ge b x (by omega)
  have hl : 0 < w.length := List.length_pos_iff.mpr h.1
  have h2 := h.2.2 0 hl
  rw [Nat.add_zero, h1, List.getElem?_eq_getElem hl] at h2
  cases h2

/-- The shape of a table with `n` slots whose vtable is at 0: table length `t`, slot values `vo`, inline
bytes `fx`. -/
structure TI (nm : Name) (n : Nat) (c : CNode) (t : Nat) (vo : Nat → Nat) (fx : Nat → Option Bytes) : Prop where
  name : c.name = nm
  pos : c.pos = 4 + 2 * n
  hp : 4 + 2 * n < 65536
  ht : t < 65536
  t4 : 4 ≤ t
  soff : Holds c.io (4 + 2 * n) (putLE 4 (4 + 2 * n))
  vl : Holds c.io 0 (putLE 2 (4 + 2 * n))
  tl : Holds c.io 2 (putLE 2 t)
  slot : ∀ i, i < n → Holds c.io (4 + 2 * i) (putLE 2 (vo i))
  abs : ∀ i, i < n → fx i = none → vo i = 0
  fld : ∀ i, i < n → ∀ w, fx i = some w → 4 ≤ vo i ∧ vo i + w.length ≤ t ∧ Holds c.io (4 + 2 * n + vo i) w
  disj : ∀ i j, i < n → j < n → i ≠ j → ∀ w w', fx i = some w → fx j = some w' →
    vo i + w.length ≤ vo j ∨ vo j + w'.length ≤ vo i
  clean : Clean c.io (4 + 2 * n + t)
  len : c.io.bytes.len ≤ 4 + 2 * n + t

namespace TI

variable {nm : Name} {n t : Nat} {c : CNode} {vo : Nat → Nat} {fx : Nat → Option Bytes}

theorem vo_lt (h : TI nm n c t vo fx) {i : Nat} (hi : i < n) : vo i < 65536 := by
  cases hf : fx i with
  | none => rw [h.abs i hi hf]; omega
  | some w => have := h.fld i hi w hf; have := h.ht; omega

theorem u32_pos (h : TI nm n c t vo fx) : c.u32 c.pos = some (4 + 2 * n) := by
  unfold CNode.u32
  rw [h.pos, holds_getN h.soff]
  have := h.hp
  rw [Nat.mod_eq_of_lt (by omega)]

theorem vtab (h : TI nm n c t vo fx) {i : Nat} (hi : i < n) : c.vtab (i : Int) = some (4 + 2 * n + vo i) := by
  unfold CNode.vtab
  have hs := h.slot i hi
  have h1 := holds_lt_lenBuf hs
  have h2 := holds_getN hs
  have h3 := h.vo_lt hi
  rw [h.u32_pos, h.pos]
  simp only [Option.bind_eq_bind, Option.bind_some]
  rw [if_neg (by omega)]
  unfold CNode.u16
  rw [show (((4 + 2 * n : Nat) : Int) - ((4 + 2 * n : Nat) : Int) + 4 + (i : Int) * 2) = ((4 + 2 * i : Nat) : Int) by omega, h2]
  simp only [Option.bind_some, pure]
  rw [Nat.mod_eq_of_lt (by omega)]

theorem isZero (h : TI nm n c t vo fx) {i : Nat} (hi : i < n) : c.isZero (i : Int) = some (fx i).isNone := by
  unfold CNode.isZero
  rw [h.vtab hi, h.pos]
  simp only [Option.bind_eq_bind, Option.bind_some, pure, Option.some.injEq]
  cases hf : fx i with
  | none => rw [h.abs i hi hf]; simp
  | some w => have := h.fld i hi w hf; simp only [Option.isNone_some, beq_eq_false_iff_ne, ne_eq]; omega

theorem u16_2 (h : TI nm n c t vo fx) : c.io.getN 2 2 = some t := by
  have := holds_getN h.tl
  have h2 := h.ht
  rw [Nat.mod_eq_of_lt (by omega)] at this
  exact this

theorem u16_0 (h : TI nm n c t vo fx) : c.io.getN 2 0 = some (4 + 2 * n) := by
  have := holds_getN h.vl
  have h2 := h.hp
  rw [Nat.mod_eq_of_lt (by omega)] at this
  exact this

theorem tableLen (h : TI nm n c t vo fx) : c.tableLen = some t := by
  unfold CNode.tableLen
  rw [h.u32_pos, h.pos]
  simp only [Option.bind_eq_bind, Option.bind_some]
  unfold CNode.u16
  rw [show (((4 + 2 * n : Nat) : Int) - ((4 + 2 * n : Nat) : Int) + 2) = 2 by omega, h.u16_2]

theorem preLoop (h : TI nm n c t vo fx) (i k : Nat) (hk : i + k ≤ n) :
    CNode.preLoop c.io ((4 + 2 * i : Nat) : Int) k = some () := by
  induction k generalizing i with
  | zero => rfl
  | succ k ih =>
    unfold CNode.preLoop
    have h1 := (holds_read (h.slot i (by omega)) 2).1
    rw [putLE_length] at h1
    unfold Base.Ri
    rw [if_neg (by omega)]
    simp only [Option.bind_eq_bind, Option.bind_some, Int.toNat_natCast]
    rw [if_neg (by omega)]
    have := ih (i + 1) (by omega)
    rw [show ((4 + 2 * (i + 1) : Nat) : Int) = ((4 + 2 * i : Nat) : Int) + 2 by omega] at this
    exact this

theorem preLoad (h : TI nm n c t vo fx) : CNode.preLoad c.io c.pos = some t := by
  unfold CNode.preLoad
  have := h.u32_pos
  unfold CNode.u32 at this
  rw [this, h.pos]
  simp only [Option.bind_eq_bind, Option.bind_some]
  rw [show (((4 + 2 * n : Nat) : Int) - ((4 + 2 * n : Nat) : Int)) = 0 by omega, h.u16_0]
  simp only [Option.bind_some, Int.zero_add]
  rw [h.u16_2]
  simp only [Option.bind_some]
  have := h.preLoop 0 n (by omega)
  rw [show (4 + 2 * n - 3) / 2 = n by omega, show (4 : Int) = ((4 + 2 * 0 : Nat) : Int) by omega, this]
  rfl

/-- The name of a table. -/
def TName (nm : Name) : Prop := 2 ≤ nm.length ∧ nm.take 2 ≠ "[]".toList

theorem isList (h : TI nm n c t vo fx) (hn : TName nm) : c.isList = some false := by
  unfold CNode.isList
  obtain ⟨h1, h2⟩ := hn
  rw [← h.name] at h1 h2
  rw [if_neg (by rintro ⟨h3, -⟩; rw [h3] at h1; simp at h1), if_neg (by omega)]
  exact congrArg some (decide_eq_false h2)

theorem inRoot (h : TI nm n c t vo fx) : c.inRoot = some false := by
  unfold CNode.inRoot
  have h0 := h.u16_0
  have hp := h.u32_pos
  rw [h.pos] at hp
  unfold CNode.u16
  rw [h0]
  simp only [Option.bind_eq_bind, Option.bind_some]
  unfold CNode.R Base.Ri
  rw [if_neg (by omega)]
  have h1 := (holds_read h.soff 4).1
  rw [putLE_length] at h1
  simp only [Option.bind_some, Int.toNat_natCast]
  rw [if_neg (by omega)]
  split
  · rfl
  · rw [hp]; simp

theorem table_absent (h : TI nm n c t vo fx) {i : Nat} (hi : i < n) (hf : fx i = none) : c.table i = some (-1) := by
  unfold CNode.table
  rw [h.vtab hi, h.isZero hi, hf]
  rfl

theorem table_present (h : TI nm n c t vo fx) {i v : Nat} (hi : i < n) (hf : fx i = some (putLE 4 v)) (hv : v < 4294967296) :
    c.table i = some ((4 + 2 * n + vo i + v : Nat) : Int) := by
  unfold CNode.table
  rw [h.vtab hi, h.isZero hi, hf]
  simp only [Option.bind_eq_bind, Option.bind_some, Option.isNone_some]
  have := holds_getN (h.fld i hi _ hf).2.2
  unfold CNode.u32
  rw [this, Nat.mod_eq_of_lt (by omega)]
  simp only [Option.bind_some, pure]
  congr 1

/-- Overwriting an inline cell by an update of the same width. -/
theorem write (h : TI nm n c t vo fx) {j : Nat} {w w' : Bytes} (hj : j < n) (hf : fx j = some w)
    (hl : w'.length = w.length) (c' : CNode)
    (hc : c'.name = c.name ∧ c'.pos = c.pos ∧
      c'.io = c.io.updateU (4 + 2 * n + vo j) w'.length w') :
    TI nm n c' t vo (fun i => if i = j then some w' else fx i) := by
  obtain ⟨e1, e2, e3⟩ := hc
  obtain ⟨f1, f2, f3⟩ := h.fld j hj w hf
  have hw : w' ≠ [] := by
    intro hh; have := f3.1; rw [hh] at hl; exact this (List.eq_nil_of_length_eq_zero hl.symm)
  have p1 : ∀ {x : Nat} {v : Bytes}, Holds c.io x v → x + v.length ≤ 4 + 2 * n + vo j ∨ 4 + 2 * n + vo j + w'.length ≤ x →
      Holds c'.io x v := by
    intro x v hv hd; rw [e3]; exact holds_updateU_other rfl hv hd
  refine ⟨by rw [e1, h.name], by rw [e2, h.pos], h.hp, h.ht, h.t4, p1 h.soff (by rw [putLE_length]; omega),
    p1 h.vl (by rw [putLE_length]; omega), p1 h.tl (by rw [putLE_length]; omega),
    fun i hi => p1 (h.slot i hi) (by rw [putLE_length]; omega), ?_, ?_, ?_, ?_, ?_⟩
  · intro i hi hh
    split at hh
    · cases hh
    · exact h.abs i hi hh
  · intro i hi v hv
    split at hv
    · rename_i hij
      cases hv; subst hij
      refine ⟨f1, by omega, ?_⟩
      rw [e3]
      refine holds_updateU_same hw ?_
      rw [hl]; exact f3.2.1
    · rename_i hij
      obtain ⟨g1, g2, g3⟩ := h.fld i hi v hv
      refine ⟨g1, g2, p1 g3 ?_⟩
      have := h.disj i j hi hj hij v w hv hf
      omega
  · intro i k hi hk hik v v' hv hv'
    split at hv <;> split at hv'
    · omega
    · cases hv; subst_vars; have := h.disj _ k hi hk hik w v' hf hv'; omega
    · cases hv'; subst_vars; have := h.disj i _ hi hk hik v w hv hf; omega
    · exact h.disj i k hi hk hik v v' hv hv'
  · rw [e3]; exact clean_updateU rfl h.clean (by omega)
  · rw [e3, updateU_struct _ _ _ _ rfl]; exact h.len

/-- Overwriting an inline cell by a copy of the same width. -/
theorem copy (h : TI nm n c t vo fx) {j : Nat} {w w' : Bytes} (hj : j < n) (hf : fx j = some w)
    (hl : w'.length = w.length) {src : Base} {sp : Nat} (hs : Holds src sp w') (c' : CNode)
    (hc : c'.name = c.name ∧ c'.pos = c.pos ∧
      c'.io = c.io.copy (fun p n => src.R p n) sp w'.length (4 + 2 * n + vo j) 0) :
    TI nm n c' t vo (fun i => if i = j then some w' else fx i) := by
  obtain ⟨e1, e2, e3⟩ := hc
  obtain ⟨f1, f2, f3⟩ := h.fld j hj w hf
  have p1 : ∀ {x : Nat} {v : Bytes}, Holds c.io x v → x + v.length ≤ 4 + 2 * n + vo j ∨ 4 + 2 * n + vo j + w'.length ≤ x →
      Holds c'.io x v := by
    intro x v hv hd; rw [e3]; exact holds_copy_other hs hv hd
  refine ⟨by rw [e1, h.name], by rw [e2, h.pos], h.hp, h.ht, h.t4, p1 h.soff (by rw [putLE_length]; omega),
    p1 h.vl (by rw [putLE_length]; omega), p1 h.tl (by rw [putLE_length]; omega),
    fun i hi => p1 (h.slot i hi) (by rw [putLE_length]; omega), ?_, ?_, ?_, ?_, ?_⟩
  · intro i hi hh
    split at hh
    · cases hh
    · exact h.abs i hi hh
  · intro i hi v hv
    split at hv
    · rename_i hij
      cases hv; subst hij
      refine ⟨f1, by omega, ?_⟩
      rw [e3]
      refine holds_copy_same hs ?_
      rw [hl]; exact f3.2.1
    · rename_i hij
      obtain ⟨g1, g2, g3⟩ := h.fld i hi v hv
      refine ⟨g1, g2, p1 g3 ?_⟩
      have := h.disj i j hi hj hij v w hv hf
      omega
  · intro i k hi hk hik v v' hv hv'
    split at hv <;> split at hv'
    · omega
    · cases hv; subst_vars; have := h.disj _ k hi hk hik w v' hf hv'; omega
    · cases hv'; subst_vars; have := h.disj i _ hi hk hik v w hv hf; omega
    · exact h.disj i k hi hk hik v v' hv hv'
  · rw [e3]; exact clean_copy_zero hs h.clean (by omega) (Or.inl h.len)
  · rw [e3]
    obtain ⟨sp, hcp⟩ := copy_one (b := c.io) (dst := 4 + 2 * n + vo j) (ext := 0) hs
    rw [hcp]; exact h.len

/-- The buffer after making room for a new field at the end of the table and recording it in the vtable. -/
def grown (b : Base) (n t idx k : Nat) : Base :=
  ((b.insertSpace (4 + 2 * n + t) k true).updateU (4 + 2 * idx) 2 (putLE 2 t)).updateU 2 2 (putLE 2 ((t + k) % 65536))

theorem grow (h : TI nm n c t vo fx) {idx k : Nat} (hi : idx < n) (hf : fx idx = none) (hk : 0 < k) (htk : t + k < 65536)
    (c' : CNode) (hc : c'.name = c.name ∧ c'.pos = c.pos ∧ c'.io = grown c.io n t idx k) :
    TI nm n c' (t + k) (fun i => if i = idx then t else vo i) (fun i => if i = idx then some (zeros k) else fx i) := by
  obtain ⟨e1, e2, e3⟩ := hc
  have hz : (zeros k).length = k := by simp [zeros]
  have l2 : ∀ v, (putLE 2 v).length = 2 := fun v => putLE_length 2 v
  have l4 : ∀ v, (putLE 4 v).length = 4 := fun v => putLE_length 4 v
  have ne2 : ∀ v, putLE 2 v ≠ [] := fun v hh => by have := l2 v; rw [hh] at this; simp at this
  have hcl := h.clean
  have hlen := h.len
  have ht4 := h.t4
  -- cells not written by the two updates
  have p0 : ∀ {x : Nat} {v : Bytes}, Holds (c.io.insertSpace (4 + 2 * n + t) k true) x v →
      (x + v.length ≤ 2 ∨ 4 ≤ x) → (x + v.length ≤ 4 + 2 * idx ∨ 4 + 2 * idx + 2 ≤ x) → Holds c'.io x v := by
    intro x v hv h1 h2
    rw [e3]; unfold grown
    exact holds_updateU_other (l2 _) (holds_updateU_other (l2 _) hv (by omega)) (by omega)
  have p1 : ∀ {x : Nat} {v : Bytes}, Holds c.io x v → x + v.length ≤ 4 + 2 * n + t →
      (x + v.length ≤ 2 ∨ 4 ≤ x) → (x + v.length ≤ 4 + 2 * idx ∨ 4 + 2 * idx + 2 ≤ x) → Holds c'.io x v := by
    intro x v hv h0 h1 h2
    exact p0 (holds_insertSpace_lt hcl hv h0) h1 h2
  refine ⟨by rw [e1, h.name], by rw [e2, h.pos], h.hp, htk, by omega,
    p1 h.soff (by rw [l4]; omega) (by rw [l4]; omega) (by rw [l4]; omega),
    p1 h.vl (by rw [l2]; omega) (by rw [l2]; omega) (by rw [l2]; omega), ?_, ?_, ?_, ?_, ?_, ?_, ?_⟩
  · rw [e3]; unfold grown
    have : (t + k) % 65536 = t + k := Nat.mod_eq_of_lt htk
    rw [this]
    have hh := holds_updateU_same (b := (c.io.insertSpace (4 + 2 * n + t) k true).updateU (4 + 2 * idx) 2 (putLE 2 t))
      (off := 2) (ne2 (t + k)) (by
        rw [l2]
        have := (holds_updateU_other (off := 4 + 2 * idx) (l2 t) (holds_insertSpace_lt (size := k) (cr := true) hcl h.tl (by rw [l2]; omega))
          (by rw [l2]; omega)).2.1
        rw [l2] at this; exact this)
    rw [l2] at hh; exact hh
  · intro i hin
    split
    · rename_i hii; subst hii
      rw [e3]; unfold grown
      refine holds_updateU_other (l2 _) ?_ (by rw [l2]; omega)
      have hh := holds_updateU_same (b := c.io.insertSpace (4 + 2 * n + t) k true)
        (off := 4 + 2 * i) (ne2 t) (by
          rw [l2]
          have := (holds_insertSpace_lt (size := k) (cr := true) hcl (h.slot i hin) (by rw [l2]; omega)).2.1
          rw [l2] at this; exact this)
      rw [l2] at hh; exact hh
    · exact p1 (h.slot i hin) (by rw [l2]; omega) (by rw [l2]; omega) (by rw [l2]; omega)
  · intro i hin hh
    split at hh
    · cases hh
    · rename_i hii; rw [if_neg hii]; exact h.abs i hin hh
  · intro i hin v hv
    split at hv
    · rename_i hii; cases hv; rw [if_pos hii]
      refine ⟨ht4, by omega, p0 (holds_insertSpace_new hcl hk) (by omega) (by omega)⟩
    · rename_i hii; rw [if_neg hii]
      obtain ⟨g1, g2, g3⟩ := h.fld i hin v hv
      exact ⟨g1, by omega, p1 g3 (by omega) (by omega) (by omega)⟩
  · intro i j hin hjn hij v v' hv hv'
    split at hv <;> split at hv'
    · omega
    · rename_i a b; rw [if_pos a, if_neg b]
      have := h.fld j hjn v' hv'; omega
    · rename_i a b; rw [if_neg a, if_pos b]
      have := h.fld i hin v hv; omega
    · rename_i a b; rw [if_neg a, if_neg b]
      exact h.disj i j hin hjn hij v v' hv hv'
  · rw [e3]; unfold grown
    refine clean_updateU (l2 _) (clean_updateU (l2 _) (clean_insertSpace hcl (Or.inr ⟨by omega, ?_, Or.inl hlen⟩)) (by omega)) (by omega)
    rw [show 4 + 2 * n + (t + k) - k = 4 + 2 * n + t by omega]; exact hcl
  · rw [e3]; unfold grown
    rw [updateU_struct _ _ _ _ (l2 _), updateU_struct _ _ _ _ (l2 _)]
    simp only
    rw [(insertSpace_diffs (size := k) hcl true).1, if_neg (by omega)]
    omega

/-- What lies behind the table moves up with it. -/
theorem grow_tail (h : TI nm n c t vo fx) {idx k : Nat} (hi : idx < n) {x : Nat} {w : Bytes}
    (hw : Holds c.io (4 + 2 * n + t + x) w) : Holds (grown c.io n t idx k) (4 + 2 * n + (t + k) + x) w := by
  unfold grown
  have ht4 := h.t4
  have := holds_insertSpace_ge (size := k) (cr := true) h.clean hw (by omega)
  rw [show 4 + 2 * n + (t + k) + x = 4 + 2 * n + t + x + k by omega]
  exact holds_updateU_other (putLE_length 2 _) (holds_updateU_other (putLE_length 2 _) this (by omega)) (by omega)

theorem grow_below (h : TI nm n c t vo fx) {idx k : Nat} (hi : idx < n) (hk : 0 < k)
    (hb : Below c.io (4 + 2 * n + t)) : Below (grown c.io n t idx k) (4 + 2 * n + (t + k)) := by
  unfold grown
  have ht4 := h.t4
  have := below_insertSpace (size := k) h.clean h.len hb hk
  rw [show 4 + 2 * n + (t + k) = 4 + 2 * n + t + k by omega]
  exact below_updateU (putLE_length 2 _) (below_updateU (putLE_length 2 _) this (by omega)) (by omega)

/-- The one variable-length value: its offset leads `gap` bytes behind the end of the table, and `cells` are
stored (positions relative to that end). -/
structure Tail where
  gap : Nat
  cells : List (Nat × Bytes)

/-- The one variable-length value, stored directly behind the table. -/
def VecOk (n t : Nat) (c : CNode) (vo : Nat → Nat) (fx : Nat → Option Bytes) : Option (Nat × Tail) → Prop
  | none => Below c.io (4 + 2 * n + t)
  | some (j, r) => j < n ∧ r.gap < 65536 ∧ fx j = some (putLE 4 (t - vo j + r.gap)) ∧
      ∀ q ∈ r.cells, Holds c.io (4 + 2 * n + t + q.1) q.2

/-- Field `i` is stored inline (scalar or struct). -/
def Inl (s : Sch) (nm : Name) (i : Nat) : Prop :=
  ∀ f, (s.fields nm)[i]? = some f →
    (!isFieldSlice f.grp && (isFieldBasicType f.grp || isFieldStruct f.grp)) = true

/-- The groups of lists (among them byte vectors), tables and unions. -/
def VarGrp (g : Nat) : Prop := isFieldSlice g = true ∨ g = ftTable ∨ g = ftUnion

instance (g : Nat) : Decidable (VarGrp g) := inferInstanceAs (Decidable (_ ∨ _))

/-- Field `i` is a list, a table or a union. -/
def ByteVec (s : Sch) (nm : Name) (i : Nat) : Prop :=
  ∃ f, (s.fields nm)[i]? = some f ∧ VarGrp f.grp

theorem fieldT_eq (h : TI nm n c t vo fx) {s : Sch} {i : Nat} {f : FieldT} (hf : (s.fields nm)[i]? = some f) :
    c.fieldT s i = f := by
  unfold CNode.fieldT
  rw [if_neg (by omega), Int.toNat_natCast, h.name, hf]; rfl

theorem shift_skip (h : TI nm n c t vo fx) {s : Sch} (hn : n = (s.fields nm).length) (idx wPos k : Nat) (l : List Nat)
    (hl : ∀ i ∈ l, i < n ∧ (i = idx ∨ Inl s nm i ∨ fx i = none)) :
    CNode.shiftFields s idx wPos k l c = some c := by
  induction l with
  | nil => rfl
  | cons i l ih =>
    have ih' := ih (fun j hj => hl j (List.mem_cons_of_mem _ hj))
    obtain ⟨hi, hc⟩ := hl i List.mem_cons_self
    unfold CNode.shiftFields
    simp only
    split
    · exact ih'
    · rename_i hne
      split
      · exact ih'
      · rename_i hg
        rcases hc with hc | hc | hc
        · exact absurd hc hne
        · obtain ⟨f, hf⟩ : ∃ f, (s.fields nm)[i]? = some f := ⟨_, List.getElem?_eq_getElem (by omega)⟩
          rw [h.fieldT_eq hf] at hg
          exact absurd (hc f hf) hg
        · rw [h.table_absent hi hc]
          simp only [Option.bind_eq_bind, Option.bind_some]
          rw [if_neg (by omega)]
          exact ih'

theorem shift_append (s : Sch) (idx wPos k : Nat) (l1 l2 : List Nat) (c : CNode) :
    CNode.shiftFields s idx wPos k (l1 ++ l2) c =
      (CNode.shiftFields s idx wPos k l1 c).bind (CNode.shiftFields s idx wPos k l2) := by
  induction l1 generalizing c with
  | nil => rfl
  | cons i l ih =>
    simp only [List.cons_append]
    unfold CNode.shiftFields
    simp only
    split
    · exact ih c
    · split
      · exact ih c
      · cases hT : c.table i with
        | none => rfl
        | some tt =>
          simp only [Option.bind_eq_bind, Option.bind_some]
          split
          · cases hm : c.movePos s i wPos k with
            | none => rfl
            | some c' => simp only [Option.bind_some]; exact ih c'
          · exact ih c

theorem movePos_vec (h : TI nm n c t vo fx) {s : Sch} (hnm : TName nm) (hst : s.isStruct nm = false) {j v wPos k : Nat}
    (hj : j < n) (hb : ByteVec s nm j) (hf : fx j = some (putLE 4 v)) (hv : v < 4294967296)
    (hw : wPos ≤ 4 + 2 * n + vo j + v) :
    c.movePos s j wPos k = some { c with io := c.io.updateU (4 + 2 * n + vo j) 4 (putLE 4 (v + k)) } := by
  obtain ⟨f, hff, hg⟩ := hb
  unfold CNode.movePos
  rw [h.isList hnm, h.name, hst, h.fieldT_eq hff]
  simp only [Option.bind_eq_bind, Option.bind_some, Bool.false_eq_true, if_false]
  have : (isFieldUnion f.grp || isFieldTable f.grp || isFieldSlice f.grp || isFieldBytes f.grp) = true := by
    rcases hg with h | h | h <;> rw [h] <;> first | decide | simp
  rw [this, if_pos rfl, h.vtab hj]
  simp only [Option.bind_some]
  have hr := holds_getN (h.fld j hj _ hf).2.2
  unfold CNode.u32
  rw [hr, Nat.mod_eq_of_lt (by omega)]
  simp only [Option.bind_some]
  rw [if_neg (by omega)]
  unfold Base.putN
  rw [if_neg (by omega)]
  simp only [Option.bind_some, Int.toNat_natCast, pure]

/-- The node with another buffer. -/
def withIO (c : CNode) (t : Nat) (b : Base) : CNode := { c with tlen := t, io := b }

/-- The inline bytes after a field of `k` bytes was added at `idx`. -/
def grownFx (t k idx : Nat) (vo : Nat → Nat) (fx : Nat → Option Bytes) (vec : Option (Nat × Tail)) (i : Nat) : Option Bytes :=
  if i = idx then some (zeros k)
  else match vec with
    | none => fx i
    | some (j, r) => if i = j then some (putLE 4 (t + k - vo j + r.gap)) else fx i

/-- The buffer after `insertVTable`. -/
def grownV (b : Base) (n t idx k : Nat) (vo : Nat → Nat) : Option (Nat × Tail) → Base
  | none => grown b n t idx k
  | some (j, r) => (grown b n t idx k).updateU (4 + 2 * n + vo j) 4 (putLE 4 (t + k - vo j + r.gap))

theorem insertVTable (h : TI nm n c t vo fx) {s : Sch} (hn : n = (s.fields nm).length) (hnm : TName nm)
    (hst : s.isStruct nm = false) {vec : Option (Nat × Tail)} (hv : VecOk n t c vo fx vec)
    (hvb : ∀ p ∈ vec, ByteVec s nm p.1)
    (hfx : ∀ i, i < n → fx i ≠ none → Inl s nm i ∨ ∃ data, vec = some (i, data))
    {fuel idx k : Nat} (hi : idx < n) (hf : fx idx = none) (hk : 0 < k) (htk : t + k < 65536) :
    ∃ c', c.insertVTable s fuel idx k = some (c', 4 + 2 * n + t) ∧
      TI nm n c' (t + k) (fun i => if i = idx then t else vo i) (grownFx t k idx vo fx vec) ∧
      VecOk n (t + k) c' (fun i => if i = idx then t else vo i) (grownFx t k idx vo fx vec) vec ∧
      c'.io = grownV c.io n t idx k vo vec ∧ c'.size = c.size := by
  have ht4 := h.t4
  have hht := h.ht
  -- the part before the loop
  have hpre : c.insertVTable s fuel idx k =
      (CNode.shiftFields s idx (4 + 2 * n + t) k (List.range n)
        (withIO c t (grown c.io n t idx k))).bind (fun c' => some (c', 4 + 2 * n + t)) := by
    unfold CNode.insertVTable
    rw [h.tableLen]
    simp only [Option.bind_eq_bind, Option.bind_some]
    have h1 : TI nm n ({ c with tlen := t } : CNode) t vo fx := ⟨h.name, h.pos, h.hp, h.ht, h.t4, h.soff, h.vl, h.tl, h.slot,
      h.abs, h.fld, h.disj, h.clean, h.len⟩
    have hins : ({ c with tlen := t } : CNode).insertSpace s fuel (c.pos + t) k true =
        some { c with tlen := t, io := c.io.insertSpace (4 + 2 * n + t) k true } := by
      rw [CNode.insertSpace_out h1.inRoot, h1.isList hnm]
      simp only [Option.bind_eq_bind, Option.bind_some, Bool.false_eq_true, if_false, h.pos]
      rw [if_neg (by omega)]
      rfl
    rw [hins]
    simp only [Option.bind_some]
    have hso := holds_insertSpace_lt (size := k) (cr := true) h.clean h.soff (by rw [putLE_length]; omega)
    have hu : ({ c with tlen := t, io := c.io.insertSpace (4 + 2 * n + t) k true } : CNode).u32 c.pos = some (4 + 2 * n) := by
      unfold CNode.u32
      simp only
      rw [h.pos, holds_getN hso]
      have := h.hp
      rw [Nat.mod_eq_of_lt (by omega)]
    rw [hu]
    simp only [Option.bind_some, h.pos]
    unfold Base.putN
    rw [if_neg (by omega)]
    simp only [Option.bind_some]
    rw [if_neg (by omega)]
    simp only [Option.bind_some]
    rw [show (((4 + 2 * n : Nat) : Int) - ((4 + 2 * n : Nat) : Int) + 4 + (idx : Int) * 2).toNat = 4 + 2 * idx by omega,
      show (((4 + 2 * n : Nat) : Int) - ((4 + 2 * n : Nat) : Int) + 2).toNat = 2 by omega, h.name, ← hn]
    simp only [withIO, grown, h.pos, h.name]
    rfl
  have hg : TI nm n (withIO c t (grown c.io n t idx k)) (t + k) _ _ :=
    h.grow hi hf hk htk _ ⟨rfl, rfl, rfl⟩
  rw [hpre]
  cases vec with
  | none =>
    have hs := hg.shift_skip hn idx (4 + 2 * n + t) k (List.range n) (by
      intro i hi
      rw [List.mem_range] at hi
      refine ⟨hi, ?_⟩
      by_cases hii : i = idx
      · exact Or.inl hii
      · simp only [if_neg hii]
        cases hfi : fx i with
        | none => exact Or.inr (Or.inr rfl)
        | some w =>
          rcases hfx i hi (by rw [hfi]; simp) with h1 | ⟨d, h1⟩
          · exact Or.inr (Or.inl h1)
          · cases h1)
    rw [hs]
    refine ⟨_, rfl, ?_, ?_, rfl, rfl⟩
    · exact hg
    · exact h.grow_below hi hk hv
  | some p =>
    obtain ⟨j, data⟩ := p
    obtain ⟨hj, hgap, hjf, hjd⟩ := hv
    have hjb := hvb (j, data) rfl
    have hij : j ≠ idx := by intro e; rw [e, hf] at hjf; cases hjf
    obtain ⟨l1, l2, hl⟩ := List.append_of_mem (List.mem_range.mpr hj)
    have hnd : (l1 ++ j :: l2).Nodup := by rw [← hl]; exact List.nodup_range
    have hnd1 : j ∉ l1 := fun hm => (List.nodup_append.mp hnd).2.2 j hm j List.mem_cons_self rfl
    have hnd2 : j ∉ l2 := (List.nodup_cons.mp (List.nodup_append.mp hnd).2.1).1
    have hlt : ∀ i, i ∈ l1 ∨ i ∈ l2 → i < n := by
      intro i hi
      have : i ∈ List.range n := by rw [hl]; rcases hi with h | h <;> simp [h]
      exact List.mem_range.mp this
    have hcond : ∀ i, i ∈ l1 ∨ i ∈ l2 → i < n ∧ i ≠ j ∧
        (i = idx ∨ Inl s nm i ∨ (if i = idx then some (zeros k) else fx i) = none) := by
      intro i hi
      have hin := hlt i hi
      have hne : i ≠ j := by rintro rfl; rcases hi with h | h <;> contradiction
      refine ⟨hin, hne, ?_⟩
      by_cases hii : i = idx
      · exact Or.inl hii
      · simp only [if_neg hii]
        cases hfi : fx i with
        | none => exact Or.inr (Or.inr rfl)
        | some w =>
          rcases hfx i hin (by rw [hfi]; simp) with h1 | ⟨d, h1⟩
          · exact Or.inr (Or.inl h1)
          · cases h1; exact absurd rfl hne
    have hvo := h.fld j hj _ hjf
    rw [putLE_length] at hvo
    have hgj : (fun i => if i = idx then some (zeros k) else fx i) j = some (putLE 4 (t - vo j + data.gap)) := by
      simp only [if_neg hij]; exact hjf
    have hm := hg.movePos_vec (s := s) hnm hst (k := k) (wPos := 4 + 2 * n + t) hj hjb hgj (by omega)
      (by simp only [if_neg hij]; omega)
    have hw := hg.write (w' := putLE 4 (t - vo j + data.gap + k)) hj hgj (by rw [putLE_length, putLE_length])
      (withIO c t ((grown c.io n t idx k).updateU (4 + 2 * n + (if j = idx then t else vo j)) 4
        (putLE 4 (t - vo j + data.gap + k)))) ⟨rfl, rfl, by rw [putLE_length]; rfl⟩
    have e : t - vo j + data.gap + k = t + k - vo j + data.gap := by omega
    have efx : (fun i => if i = j then some (putLE 4 (t - vo j + data.gap + k)) else if i = idx then some (zeros k) else fx i) =
        grownFx t k idx vo fx (some (j, data)) := by
      funext i
      unfold grownFx
      simp only
      by_cases h1 : i = idx
      · subst h1; rw [if_neg (fun e => hij e.symm), if_pos rfl, if_pos rfl]
      · rw [if_neg h1, if_neg h1, e]
    rw [efx] at hw
    have hstep : CNode.shiftFields s idx (4 + 2 * n + t) k (List.range n)
        (withIO c t (grown c.io n t idx k)) =
        some (withIO c t ((grown c.io n t idx k).updateU (4 + 2 * n + (if j = idx then t else vo j)) 4
          (putLE 4 (t - vo j + data.gap + k)))) := by
      rw [hl, shift_append, hg.shift_skip hn idx _ k l1 (fun i hi => ⟨(hcond i (Or.inl hi)).1, (hcond i (Or.inl hi)).2.2⟩)]
      simp only [Option.bind_some]
      unfold CNode.shiftFields
      simp only
      rw [if_neg hij]
      have hgrp : (!isFieldSlice (CNode.fieldT s (withIO c t (grown c.io n t idx k)) j).grp &&
          (isFieldBasicType (CNode.fieldT s (withIO c t (grown c.io n t idx k)) j).grp ||
          isFieldStruct (CNode.fieldT s (withIO c t (grown c.io n t idx k)) j).grp)) = false := by
        obtain ⟨f, hff, hgf⟩ := hjb
        rw [hg.fieldT_eq hff]; rcases hgf with h | h | h <;> rw [h] <;> first | rfl | decide
      rw [hgrp, hg.table_present hj hgj (by omega), hm]
      simp only [Bool.false_eq_true, if_false, Option.bind_eq_bind, Option.bind_some, if_neg hij]
      rw [if_pos (by omega)]
      simp only [if_neg hij] at hw
      refine hw.shift_skip hn idx _ k l2 (fun i hi => ⟨(hcond i (Or.inr hi)).1, ?_⟩)
      obtain ⟨-, h2, h3⟩ := hcond i (Or.inr hi)
      unfold grownFx
      simp only [if_neg h2]
      exact h3
    rw [hstep]
    refine ⟨_, rfl, hw, ⟨hj, hgap, ?_, ?_⟩, by simp only [withIO, grownV, if_neg hij, e], rfl⟩
    · unfold grownFx
      simp only [if_neg hij, if_true]
    · intro q hq
      exact holds_updateU_other (putLE_length 4 _) (h.grow_tail hi (hjd q hq)) (by simp only [if_neg hij]; omega)

/-! ## every segment is one cell of the table -/

/-- The cells of a table: the two lengths, the slots, the offset to the vtable, the inline values. -/
def Cell (n : Nat) (vo : Nat → Nat) (fx : Nat → Option Bytes) (x l : Nat) : Prop :=
  (x = 0 ∧ l = 2) ∨ (x = 2 ∧ l = 2) ∨ (∃ i, i < n ∧ x = 4 + 2 * i ∧ l = 2) ∨ (x = 4 + 2 * n ∧ l = 4) ∨
    ∃ i w, i < n ∧ fx i = some w ∧ x = 4 + 2 * n + vo i ∧ l = w.length

/-- A cell of what is stored behind the table. -/
def TailCell (n t : Nat) (r : List (Nat × Bytes)) (x l : Nat) : Prop := ∃ q ∈ r, x = 4 + 2 * n + t + q.1 ∧ l = q.2.length

/-- Length of what is stored behind the table. -/
def tailSum (r : List (Nat × Bytes)) : Nat := (r.map fun q => q.2.length).sum

/-- A cell behind the table, or something in the `z` bytes behind all of it. -/
def Outer (n t : Nat) (r : List (Nat × Bytes)) (z x l : Nat) : Prop :=
  TailCell n t r x l ∨ 4 + 2 * n + t + tailSum r ≤ x ∧ x + l ≤ 4 + 2 * n + t + tailSum r + z

theorem outer_ge {n t : Nat} {r : List (Nat × Bytes)} {z x l : Nat} (h : Outer n t r z x l) : 4 + 2 * n + t ≤ x := by
  rcases h with ⟨q, -, h, -⟩ | h <;> omega

/-- The cells stored behind the table. -/
def tailCells : Option (Nat × Tail) → List (Nat × Bytes)
  | none => []
  | some (_, r) => r.cells

/-- The room left over behind them: `SetFieldAt` makes room for a table twice. -/
def tailSlack : Option (Nat × Tail) → Nat
  | none => 0
  | some (_, r) => if r.gap = 0 then 0 else tailSum r.cells

/-- Every segment is one cell of the table or of what is stored behind it (`r`), or lies in the `z` bytes behind all of it, the initial bytes
are those of the fresh table, and the inline values fill the table. -/
structure Cellular (n t : Nat) (b : Base) (vo : Nat → Nat) (fx : Nat → Option Bytes) (r : List (Nat × Bytes)) (z : Nat) : Prop where
  seg : ∀ d ∈ b.diffs, Cell n vo fx d.off d.sl.len ∨ Outer n t r z d.off d.sl.len
  base : b.bytes.len = 8 + 2 * n
  tile : ∀ y, 4 ≤ y → y < t → ∃ i w, i < n ∧ fx i = some w ∧ vo i ≤ y ∧ y < vo i + w.length
  last : t = 4 ∨ ∃ i w, i < n ∧ fx i = some w ∧ vo i + w.length = t

/-- Two cells that overlap are the same. -/
theorem cell_eq (h : TI nm n c t vo fx) {x l x' l' : Nat} (h1 : Cell n vo fx x l) (h2 : Cell n vo fx x' l')
    (a : x ≤ x') (b : x' < x + l) : x = x' ∧ l = l' := by
  rcases h1 with h1 | h1 | ⟨i, h1, h1'⟩ | h1 | ⟨i, w, h1, hf, h1'⟩ <;>
    rcases h2 with h2 | h2 | ⟨j, h2, h2'⟩ | h2 | ⟨j, w', h2, hf', h2'⟩ <;>
    first
    | omega
    | (have := h.fld j h2 w' hf'; omega)
    | (have := h.fld i h1 w hf; omega)
    | (have := h.fld i h1 w hf
       obtain ⟨_, _, g3⟩ := h.fld j h2 w' hf'
       have := List.length_pos_iff.mpr g3.1
       by_cases hij : i = j
       · subst hij; rw [hf] at hf'; cases hf'; omega
       · have := h.disj i j h1 h2 hij w w' hf hf'; omega)

/-- An update of a window whose start is only covered by that very window. -/
theorem dPrefix_exact {b : Base} {off size : Nat} (hc : ∀ d ∈ b.diffs, d.covers off = true → d.off + d.sl.len ≤ off + size)
    {d : Diff} (h : d ∈ b.dPrefix off size) : d ∈ b.diffs ∨ (d.off = off ∧ d.sl.len = size) := by
  unfold Base.dPrefix at h
  unfold Base.D at h
  cases hl : lastIndexOf (fun d => d.covers off) b.diffs with
  | none =>
    simp only [hl, List.dropLast_concat] at h
    split at h
    · simp only [List.mem_append, List.mem_singleton] at h
      rcases h with h | rfl
      · exact Or.inl h
      · have hlen : ((b.bytes.arr.take (off + size)).drop off).length = size := by
          rw [List.length_drop, List.length_take]
          have : b.bytes.arr.length = b.bytes.cap := by simp [Slice.arr, Slice.cap]
          omega
        exact Or.inr ⟨rfl, hlen⟩
    · exact Or.inl h
  | some sn =>
    obtain ⟨d0, hd0, hcov⟩ := lastIndexOf_lt hl
    simp only [hl, hd0] at h
    rw [if_pos (hc d0 (List.mem_of_getElem? hd0) hcov)] at h
    simp only [List.dropLast_concat] at h
    exact Or.inl h

/-- Writing a cell by an update. -/
theorem cell_le (h : TI nm n c t vo fx) {x l : Nat} (hc : Cell n vo fx x l) : x + l ≤ 4 + 2 * n + t ∧ 0 < l := by
  have ht4 := h.t4
  rcases hc with hc | hc | ⟨i, hi, hc⟩ | hc | ⟨i, w, hi, hw, hc⟩
  · omega
  · omega
  · omega
  · omega
  · obtain ⟨g1, g2, g3⟩ := h.fld i hi w hw
    have := List.length_pos_iff.mpr g3.1
    omega

theorem seg_updateU (h : TI nm n c t vo fx) {b : Base} {r : List (Nat × Bytes)} {z : Nat}
    (hs : ∀ d ∈ b.diffs, Cell n vo fx d.off d.sl.len ∨ Outer n t r z d.off d.sl.len) {x l : Nat} {w : Bytes}
    (hw : w.length = l) (hc : Cell n vo fx x l) :
    ∀ d ∈ (b.updateU x l w).diffs, Cell n vo fx d.off d.sl.len ∨ Outer n t r z d.off d.sl.len := by
  intro d hd
  rw [updateU_struct b x l w hw] at hd
  simp only [List.mem_append, List.mem_singleton] at hd
  rcases hd with hd | rfl
  · have := dPrefix_exact (b := b) (off := x) (size := l) (by
      intro d hd hcov
      rw [covers_iff] at hcov
      rcases hs d hd with hd | hd
      · have := h.cell_eq hd hc hcov.1 hcov.2
        omega
      · have := outer_ge hd
        have := h.cell_le hc
        omega) hd
    rcases this with h1 | ⟨h1, h2⟩
    · exact hs d h1
    · rw [h1, h2]; exact Or.inl hc
  · simp only [Slice.len, hw]; exact Or.inl hc

theorem cell_grow {n t : Nat} {vo : Nat → Nat} {fx : Nat → Option Bytes} {idx k x l : Nat} (hf : fx idx = none)
    (h : Cell n vo fx x l) : Cell n (fun i => if i = idx then t else vo i) (fun i => if i = idx then some (zeros k) else fx i) x l := by
  rcases h with h | h | h | h | ⟨i, w, h1, h2, h3⟩
  · exact Or.inl h
  · exact Or.inr (Or.inl h)
  · exact Or.inr (Or.inr (Or.inl h))
  · exact Or.inr (Or.inr (Or.inr (Or.inl h)))
  · have : i ≠ idx := by rintro rfl; rw [hf] at h2; cases h2
    refine Or.inr (Or.inr (Or.inr (Or.inr ⟨i, w, h1, ?_, ?_⟩)))
    · simp only [if_neg this]; exact h2
    · simp only [if_neg this]; exact h3

theorem cellular_grow (h : TI nm n c t vo fx) {r : List (Nat × Bytes)} {z : Nat} (hC : Cellular n t c.io vo fx r z) {idx k : Nat} (hi : idx < n) (hf : fx idx = none)
    (hk : 0 < k) (htk : t + k < 65536) :
    Cellular n (t + k) (grown c.io n t idx k) (fun i => if i = idx then t else vo i)
      (fun i => if i = idx then some (zeros k) else fx i) r z := by
  have hz : (zeros k).length = k := by simp [zeros]
  have hT := h.grow hi hf hk htk (withIO c t (grown c.io n t idx k)) ⟨rfl, rfl, rfl⟩
  have hb := hC.base
  have ht4 := h.t4
  obtain ⟨h1, h2⟩ := insertSpace_diffs (size := k) h.clean true
  rw [if_neg (by omega)] at h1
  rw [if_neg (by omega)] at h2
  refine ⟨?_, ?_, ?_, ?_⟩
  · unfold grown
    refine hT.seg_updateU (hT.seg_updateU ?_ (putLE_length 2 _) ?_) (putLE_length 2 _) ?_
    · intro d hd
      rw [h2] at hd
      simp only [List.nil_append, if_true, List.mem_append, List.mem_map, List.mem_singleton] at hd
      rcases hd with ⟨d0, hd0, rfl⟩ | rfl
      · rcases hC.seg d0 hd0 with hc0 | hc0
        · have hlt := h.cell_le hc0
          unfold shiftD
          rw [if_neg (by omega)]
          exact Or.inl (cell_grow hf hc0)
        · have hge := outer_ge hc0
          unfold shiftD
          rw [if_pos hge]
          rcases hc0 with ⟨q, h1, h2, h3⟩ | h1
          · exact Or.inr (Or.inl ⟨q, h1, by simp only; omega, h3⟩)
          · exact Or.inr (Or.inr (by simp only; omega))
      · refine Or.inl (Or.inr (Or.inr (Or.inr (Or.inr ⟨idx, zeros k, hi, by simp only [if_true], ?_, ?_⟩))))
        · simp only [if_true]
        · simp only [Slice.make, Slice.len]
    · exact Or.inr (Or.inr (Or.inl ⟨idx, hi, rfl, rfl⟩))
    · exact Or.inr (Or.inl ⟨rfl, rfl⟩)
  · unfold grown
    rw [updateU_struct _ _ _ _ (putLE_length 2 _), updateU_struct _ _ _ _ (putLE_length 2 _)]
    simp only
    rw [h1]; exact hb
  · intro y hy1 hy2
    by_cases hyt : y < t
    · obtain ⟨i, w, g1, g2, g3⟩ := hC.tile y hy1 hyt
      have : i ≠ idx := by rintro rfl; rw [hf] at g2; cases g2
      exact ⟨i, w, g1, by simp only [if_neg this]; exact g2, by simp only [if_neg this]; exact g3⟩
    · exact ⟨idx, zeros k, hi, by simp only [if_true], by simp only [if_true, hz]; omega⟩
  · exact Or.inr ⟨idx, zeros k, hi, by simp only [if_true], by simp only [if_true, hz]⟩

/-- Overwriting an inline cell by a copy of the same width. -/
theorem cellular_copy (h : TI nm n c t vo fx) {r : List (Nat × Bytes)} {z : Nat} (hC : Cellular n t c.io vo fx r z) {j : Nat} {w w' : Bytes} (hj : j < n) (hf : fx j = some w)
    (hl : w'.length = w.length) {src : Base} {sp : Nat} (hs : Holds src sp w') :
    Cellular n t (c.io.copy (fun p n => src.R p n) sp w'.length (4 + 2 * n + vo j) 0) vo (fun i => if i = j then some w' else fx i) r z := by
  have hb := hC.base
  obtain ⟨f1, f2, f3⟩ := h.fld j hj w hf
  obtain ⟨sp', hcp⟩ := copy_one (b := c.io) (dst := 4 + 2 * n + vo j) (ext := 0) hs
  have hce : c.io.copyExtend (4 + 2 * n + vo j) 0 = c.io := by
    unfold Base.copyExtend
    rw [if_neg (by omega)]
    simp
  rw [hce] at hcp
  rw [hcp]
  have hcell : ∀ {x l : Nat}, Cell n vo fx x l → Cell n vo (fun i => if i = j then some w' else fx i) x l := by
    intro x l hx
    rcases hx with h | h | h | h | ⟨i, v, h1, h2, h3⟩
    · exact Or.inl h
    · exact Or.inr (Or.inl h)
    · exact Or.inr (Or.inr (Or.inl h))
    · exact Or.inr (Or.inr (Or.inr (Or.inl h)))
    · by_cases hij : i = j
      · subst hij
        rw [hf] at h2; cases h2
        exact Or.inr (Or.inr (Or.inr (Or.inr ⟨i, w', h1, by simp only [if_true], h3.1, by omega⟩)))
      · exact Or.inr (Or.inr (Or.inr (Or.inr ⟨i, v, h1, by simp only [if_neg hij]; exact h2, h3⟩)))
  refine ⟨?_, hb, ?_, ?_⟩
  · intro d hd
    simp only [List.mem_append, List.mem_singleton] at hd
    rcases hd with hd | rfl
    · exact (hC.seg d hd).imp_left hcell
    · exact Or.inl (Or.inr (Or.inr (Or.inr (Or.inr ⟨j, w', hj, by simp only [if_true], rfl, rfl⟩))))
  · intro y hy1 hy2
    obtain ⟨i, v, g1, g2, g3⟩ := hC.tile y hy1 hy2
    by_cases hij : i = j
    · subst hij
      rw [hf] at g2; cases g2
      exact ⟨i, w', g1, by simp only [if_true], by omega⟩
    · exact ⟨i, v, g1, by simp only [if_neg hij]; exact g2, g3⟩
  · rcases hC.last with h1 | ⟨i, v, g1, g2, g3⟩
    · exact Or.inl h1
    · right
      by_cases hij : i = j
      · subst hij
        rw [hf] at g2; cases g2
        exact ⟨i, w', g1, by simp only [if_true], by omega⟩
      · exact ⟨i, v, g1, by simp only [if_neg hij]; exact g2, g3⟩

theorem cellular_update (h : TI nm n c t vo fx) {r : List (Nat × Bytes)} {z : Nat} (hC : Cellular n t c.io vo fx r z) {j : Nat} {w w' : Bytes} (hj : j < n) (hf : fx j = some w)
    (hl : w'.length = w.length) :
    Cellular n t (c.io.updateU (4 + 2 * n + vo j) w'.length w') vo (fun i => if i = j then some w' else fx i) r z := by
  have hb := hC.base
  obtain ⟨f1, f2, f3⟩ := h.fld j hj w hf
  have hcell : ∀ {x l : Nat}, Cell n vo fx x l → Cell n vo (fun i => if i = j then some w' else fx i) x l := by
    intro x l hx
    rcases hx with h | h | h | h | ⟨i, v, h1, h2, h3⟩
    · exact Or.inl h
    · exact Or.inr (Or.inl h)
    · exact Or.inr (Or.inr (Or.inl h))
    · exact Or.inr (Or.inr (Or.inr (Or.inl h)))
    · by_cases hij : i = j
      · subst hij
        rw [hf] at h2; cases h2
        exact Or.inr (Or.inr (Or.inr (Or.inr ⟨i, w', h1, by simp only [if_true], h3.1, by omega⟩)))
      · exact Or.inr (Or.inr (Or.inr (Or.inr ⟨i, v, h1, by simp only [if_neg hij]; exact h2, h3⟩)))
  refine ⟨?_, ?_, ?_, ?_⟩
  · intro d hd
    exact Or.imp_left hcell (h.seg_updateU hC.seg rfl (Or.inr (Or.inr (Or.inr (Or.inr ⟨j, w, hj, hf, rfl, hl⟩)))) d hd)
  · rw [updateU_struct _ _ _ _ rfl]; exact hb
  · intro y hy1 hy2
    obtain ⟨i, v, g1, g2, g3⟩ := hC.tile y hy1 hy2
    by_cases hij : i = j
    · subst hij
      rw [hf] at g2; cases g2
      exact ⟨i, w', g1, by simp only [if_true], by omega⟩
    · exact ⟨i, v, g1, by simp only [if_neg hij]; exact g2, g3⟩
  · rcases hC.last with h1 | ⟨i, v, g1, g2, g3⟩
    · exact Or.inl h1
    · right
      by_cases hij : i = j
      · subst hij
        rw [hf] at g2; cases g2
        exact ⟨i, w', g1, by simp only [if_true], by omega⟩
      · exact ⟨i, v, g1, by simp only [if_neg hij]; exact g2, g3⟩

/-- The buffer after `insertVTable`, cell by cell. -/
theorem cellular_growV (h : TI nm n c t vo fx) {vec : Option (Nat × Tail)} (hC : Cellular n t c.io vo fx (tailCells vec) (tailSlack vec))
    (hv : VecOk n t c vo fx vec) {idx k : Nat} (hi : idx < n) (hf : fx idx = none) (hk : 0 < k) (htk : t + k < 65536) :
    Cellular n (t + k) (grownV c.io n t idx k vo vec) (fun i => if i = idx then t else vo i) (grownFx t k idx vo fx vec)
      (tailCells vec) (tailSlack vec) := by
  have hG := h.cellular_grow hC hi hf hk htk
  cases vec with
  | none =>
    have e : (fun i => if i = idx then some (zeros k) else fx i) = grownFx t k idx vo fx none := by
      funext i; unfold grownFx; rfl
    rw [← e]; exact hG
  | some p =>
    obtain ⟨j, r⟩ := p
    obtain ⟨hj, hgap, hjf, hjd⟩ := hv
    have hij : j ≠ idx := by intro e; rw [e, hf] at hjf; cases hjf
    have hT := h.grow hi hf hk htk (withIO c t (grown c.io n t idx k)) ⟨rfl, rfl, rfl⟩
    have hgj : (fun i => if i = idx then some (zeros k) else fx i) j = some (putLE 4 (t - vo j + r.gap)) := by
      simp only [if_neg hij]; exact hjf
    have hU := hT.cellular_update hG (w' := putLE 4 (t + k - vo j + r.gap)) hj hgj (by rw [putLE_length, putLE_length])
    have efx : (fun i => if i = j then some (putLE 4 (t + k - vo j + r.gap)) else if i = idx then some (zeros k) else fx i) =
        grownFx t k idx vo fx (some (j, r)) := by
      funext i
      unfold grownFx
      simp only
      by_cases h1 : i = idx
      · subst h1; rw [if_neg (fun e => hij e.symm), if_pos rfl, if_pos rfl]
      · rw [if_neg h1, if_neg h1]
    rw [efx, putLE_length] at hU
    simp only [if_neg hij] at hU
    exact hU

end TI

end Fbs
