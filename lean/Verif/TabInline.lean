import Verif.ListSwap
/-!
# Tables of inline fields as list elements

Instances of `SelfC`: tables all of whose fields are scalars or structs, with the virtual table directly in
front (as `Init` and `SetFieldAt` build them).
-/

namespace Fbs
open CNode

/-- Wherever the pieces are stored, the bytes `w` are found `i` bytes behind their beginning. -/
def InP (ps : List Bytes) (i : Nat) (w : Bytes) : Prop := ∀ b x, HoldsC b (cellsAt x ps) → Holds b (x + i) w

theorem inP_one {p w : Bytes} {i : Nat} (hw : w ≠ []) (h : (p.drop i).take w.length = w) : InP [p] i w := by
  intro b x hb
  have h1 := hb (x, p) (by simp [cellsAt])
  have hl : 0 < w.length := List.length_pos_iff.mpr hw
  have hlen := congrArg List.length h
  rw [List.length_take, List.length_drop] at hlen
  have h2 := holds_sub h1 i w.length hl (by simp only; omega)
  simp only [h] at h2
  exact h2

/-- What a field contributes to the extent of the table: offset plus width; an absent struct nothing. -/
def fieldExt (f : FieldT) (w fo : Nat) : Nat := if f.grp = ftStruct ∧ fo = 0 then 0 else fo + w

/-- The extent of the table. -/
def extMax (l : List Nat) : Int := l.foldl (fun a (e : Nat) => max a (e : Int)) (-1)

theorem foldl_max (l : List Nat) (a : Int) (m : Nat) (ha : a ≤ m) (hb : ∀ e ∈ l, e ≤ m) :
    l.foldl (fun a (e : Nat) => max a (e : Int)) a ≤ m ∧ a ≤ l.foldl (fun a (e : Nat) => max a (e : Int)) a ∧
      ∀ e ∈ l, (e : Int) ≤ l.foldl (fun a (e : Nat) => max a (e : Int)) a := by
  induction l generalizing a with
  | nil => exact ⟨ha, Int.le_refl _, fun e he => (by cases he)⟩
  | cons x l ih =>
    have hx := hb x (List.mem_cons_self ..)
    obtain ⟨h1, h2, h3⟩ := ih (max a (x : Int)) (by omega) (fun e he => hb e (List.mem_cons_of_mem _ he))
    simp only [List.foldl_cons]
    refine ⟨h1, by omega, ?_⟩
    intro e he
    rcases List.mem_cons.mp he with rfl | he
    · omega
    · exact h3 e he

theorem extMax_eq {l : List Nat} {m : Nat} (hb : ∀ e ∈ l, e ≤ m) (hm : m ∈ l) : extMax l = m := by
  obtain ⟨h1, -, h3⟩ := foldl_max l (-1) m (by omega) hb
  have := h3 m hm
  unfold extMax; omega

/-- Type `t` is a table with scalar and struct fields only. -/
structure InlTab (s : Sch) (t : Name) : Prop where
  dir : directSize s t = some none
  nst : s.isStruct t = false
  inl : ∀ f ∈ s.fields t, InlGrp f.grp ∧ (f.grp = ftStruct → directSize s f.tname = some (some (fieldWidth s f)))
  sml : 4 + 2 * (s.fields t).length < 65536

/-- The pieces `ps` are such a table with the slot values `fo`. -/
structure InlPs (s : Sch) (t : Name) (ps : List Bytes) (fo : Nat → Nat) : Prop where
  vl : InP ps 0 (putLE 2 (4 + 2 * (s.fields t).length))
  tl : ∃ n, InP ps 2 (putLE 2 n)
  slot : ∀ i, i < (s.fields t).length → fo i < 65536 ∧ InP ps (4 + 2 * i) (putLE 2 (fo i))
  soff : InP ps (4 + 2 * (s.fields t).length) (putLE 4 (4 + 2 * (s.fields t).length))

/-- Its extents. -/
def exts (s : Sch) (t : Name) (fo : Nat → Nat) : List Nat :=
  (List.range (s.fields t).length).map fun i =>
    fieldExt (((s.fields t)[i]?).getD ⟨[], 0, none⟩) (fieldWidth s (((s.fields t)[i]?).getD ⟨[], 0, none⟩)) (fo i)

section
variable {s : Sch} {t : Name} {ps : List Bytes} {fo : Nat → Nat} {b : Base} {x : Nat} {c : CNode}

theorem InlPs.u32_pos (h : InlPs s t ps fo) (ht : InlTab s t) (hb : HoldsC b (cellsAt x ps)) (hio : c.io = b)
    (hp : c.pos = x + (4 + 2 * (s.fields t).length)) : c.u32 c.pos = some (4 + 2 * (s.fields t).length) := by
  unfold CNode.u32
  rw [hio, hp]
  have := holds_getN (h.soff b x hb)
  rw [Nat.mod_eq_of_lt (by have := ht.sml; omega)] at this
  exact this

theorem InlPs.vtab (h : InlPs s t ps fo) (ht : InlTab s t) (hb : HoldsC b (cellsAt x ps)) (hio : c.io = b)
    (hp : c.pos = x + (4 + 2 * (s.fields t).length)) {i : Nat} (hi : i < (s.fields t).length) :
    c.vtab (i : Int) = some (c.pos + fo i) := by
  obtain ⟨hlt, hs⟩ := h.slot i hi
  have hs := hs b x hb
  have h1 := holds_lt_lenBuf hs
  unfold CNode.vtab
  rw [h.u32_pos ht hb hio hp]
  simp only [Option.bind_eq_bind, Option.bind_some]
  rw [hio, if_neg (by omega)]
  unfold CNode.u16
  have e : ((c.pos : Int) - ((4 + 2 * (s.fields t).length : Nat) : Int) + 4 + (i : Int) * 2) = ((x + (4 + 2 * i) : Nat) : Int) := by omega
  rw [e, hio]
  have := holds_getN hs
  rw [Nat.mod_eq_of_lt (by omega)] at this
  rw [this]
  rfl

theorem InlPs.isZero (h : InlPs s t ps fo) (ht : InlTab s t) (hb : HoldsC b (cellsAt x ps)) (hio : c.io = b)
    (hp : c.pos = x + (4 + 2 * (s.fields t).length)) {i : Nat} (hi : i < (s.fields t).length) :
    c.isZero (i : Int) = some (decide (fo i = 0)) := by
  unfold CNode.isZero
  rw [h.vtab ht hb hio hp hi]
  simp only [Option.bind_eq_bind, Option.bind_some, pure, Option.some.injEq]
  by_cases h0 : fo i = 0
  · simp [h0]
  · simp [h0]

theorem inlGrp_flags {g : Nat} (h : InlGrp g) (hs : g ≠ ftStruct) : isFieldStruct g = false ∧ isFieldUnion g = false ∧
    isFieldBytes g = false ∧ isFieldSlice g = false ∧ isFieldTable g = false ∧ isFieldBasicType g = true := by
  rcases h with h | h | h | h | h <;> first | exact absurd h hs | (rw [h]; decide)

theorem InlPs.valueInfo (h : InlPs s t ps fo) (ht : InlTab s t) (hb : HoldsC b (cellsAt x ps)) (hn : c.name = t) (hio : c.io = b)
    (hp : c.pos = x + (4 + 2 * (s.fields t).length)) {i : Nat} (hi : i < (s.fields t).length) (k : Nat) :
    ∃ v, valueInfoF s (k + 2) c i = some v ∧
      v.pos + v.size = c.pos + (fieldExt (s.fields t)[i] (fieldWidth s (s.fields t)[i]) (fo i) : Nat) := by
  obtain ⟨hg, hst⟩ := ht.inl _ (List.getElem_mem hi)
  have hfT : c.fieldT s (i : Int) = (s.fields t)[i] := by
    unfold CNode.fieldT
    rw [if_neg (by omega), hn, Int.toNat_natCast, List.getElem?_eq_getElem hi]; rfl
  unfold valueInfoF
  simp only [hfT]
  by_cases hs : ((s.fields t)[i]).grp = ftStruct
  · have hf : isFieldStruct ((s.fields t)[i]).grp = true := by rw [hs]; decide
    rw [if_pos hf, h.vtab ht hb hio hp hi]
    simp only [Option.bind_eq_bind, Option.bind_some]
    unfold CNode.fieldAt
    rw [hfT, hn, ht.nst, h.isZero ht hb hio hp hi]
    simp only [Option.bind_eq_bind, Option.bind_some, Bool.false_eq_true, if_false]
    by_cases h0 : fo i = 0
    · simp only [h0, decide_true, if_true, pure, Option.bind_some]
      refine ⟨_, by unfold infoF; rfl, ?_⟩
      simp [fieldExt, hs]
    · simp only [h0, decide_false, Bool.false_eq_true, if_false]
      rw [if_pos hf, h.vtab ht hb hio hp hi]
      simp only [Option.bind_some, pure]
      refine ⟨_, by unfold infoF; simp only [hst hs, Option.bind_eq_bind, Option.bind_some, pure]; rfl, ?_⟩
      simp only [fieldExt, h0, and_false, if_false]
      omega
  · obtain ⟨f1, f2, f3, f4, f5, f6⟩ := inlGrp_flags hg hs
    simp only [f1, f2, f3, f4, f5, f6, if_true, Bool.false_eq_true, if_false]
    rw [h.vtab ht hb hio hp hi]
    refine ⟨_, rfl, ?_⟩
    have hw : fieldWidth s (s.fields t)[i] = ((s.fields t)[i]).size := by
      unfold fieldWidth
      rw [if_neg hs, if_neg (inlGrp_notVec hg)]
    simp only [fieldExt, hs, false_and, if_false, hw]
    omega

theorem growInfo_ext (p : Int) (a : Int) (v : VInfo) (e : Nat) (hv : v.pos + v.size = p + e) :
    growInfo { pos := p, size := a, vlen := 0 } v = { pos := p, size := max a (e : Int), vlen := 0 } := by
  unfold growInfo
  simp only [hv]
  split
  · simp only [VInfo.mk.injEq, true_and, and_true]; omega
  · simp only [VInfo.mk.injEq, true_and, and_true]; omega

theorem foldlM_ext (V : Nat → Go VInfo) (E : Nat → Nat) (p : Int) (l : List Nat)
    (h : ∀ i ∈ l, ∃ v, V i = some v ∧ v.pos + v.size = p + (E i : Nat)) (a : Int) :
    l.foldlM (fun (acc : VInfo) (i : Nat) => do
        let v ← V i
        return growInfo acc v) { pos := p, size := a, vlen := 0 } =
      (some { pos := p, size := (l.map E).foldl (fun a (e : Nat) => max a (e : Int)) a, vlen := 0 } : Go VInfo) := by
  induction l generalizing a with
  | nil => rfl
  | cons i l ih =>
    obtain ⟨v, h1, h2⟩ := h i (List.mem_cons_self ..)
    rw [List.foldlM_cons, h1]
    simp only [Option.bind_eq_bind, Option.bind_some, pure, List.map_cons, List.foldl_cons]
    rw [growInfo_ext p a v (E i) h2]
    have := ih (fun j hj => h j (List.mem_cons_of_mem _ hj)) (max a (E i : Int))
    simp only [Option.bind_eq_bind, pure] at this
    exact this

theorem InlPs.info (h : InlPs s t ps fo) (ht : InlTab s t) (hb : HoldsC b (cellsAt x ps)) (hn : c.name = t) (hio : c.io = b)
    (hp : c.pos = x + (4 + 2 * (s.fields t).length)) (k : Nat) :
    infoF s (k + 3) (some c) = some { pos := c.pos, size := extMax (exts s t fo), vlen := 0 } := by
  unfold infoF
  rw [hn, ht.dir]
  simp only [Option.bind_eq_bind, Option.bind_some]
  have := foldlM_ext (fun i => valueInfoF s (k + 2) c i)
    (fun i => fieldExt (((s.fields t)[i]?).getD ⟨[], 0, none⟩) (fieldWidth s (((s.fields t)[i]?).getD ⟨[], 0, none⟩)) (fo i))
    (c.pos : Int) (List.range (s.fields t).length) (by
      intro i hi
      rw [List.mem_range] at hi
      obtain ⟨v, h1, h2⟩ := h.valueInfo ht hb hn hio hp hi k
      refine ⟨v, h1, ?_⟩
      rw [h2, List.getElem?_eq_getElem hi]; rfl) (-1)
  simp only [Option.bind_eq_bind] at this
  rw [this]
  rfl

/-- Such a table is a list element. -/
theorem InlPs.selfC (h : InlPs s t ps fo) (ht : InlTab s t) {m : Nat} (hm : extMax (exts s t fo) = m) (hpos : 0 < m)
    (hl : tot ps = 4 + 2 * (s.fields t).length + m) : SelfC s 3 t (4 + 2 * (s.fields t).length) ps m := by
  refine ⟨hl, hpos, ?_, ?_, ?_⟩
  · intro b x hb
    obtain ⟨n, hn⟩ := h.tl
    have hsm := ht.sml
    unfold CNode.preLoad
    have e1 := holds_getN (h.soff b x hb)
    rw [Nat.mod_eq_of_lt (by omega)] at e1
    have e2 := holds_getN (h.vl b x hb)
    rw [Nat.mod_eq_of_lt (by omega)] at e2
    have e3 := holds_getN (hn b x hb)
    rw [e1]
    simp only [Option.bind_eq_bind, Option.bind_some]
    rw [show ((x + (4 + 2 * (s.fields t).length) : Nat) : Int) - ((4 + 2 * (s.fields t).length : Nat) : Int) =
      ((x + 0 : Nat) : Int) by omega, e2]
    simp only [Option.bind_some]
    rw [show ((x + 0 : Nat) : Int) + 2 = ((x + 2 : Nat) : Int) by omega, e3]
    simp only [Option.bind_some]
    rw [show ((x + 0 : Nat) : Int) + 4 = ((x + 4 : Nat) : Int) by omega, preLoop_cells]
    · exact ⟨_, rfl⟩
    · intro k hk
      refine ⟨putLE 2 (fo k), putLE_length _ _, ?_⟩
      rw [show x + 4 + 2 * k = x + (4 + 2 * k) by omega]
      exact (h.slot k (by omega)).2 b x hb
  · intro b x hb k hk c hn hio hp
    obtain ⟨k', rfl⟩ : ∃ k', k = k' + 3 := ⟨k - 3, by omega⟩
    rw [h.info ht hb hn hio hp, hm, hp, Int.natCast_add]
  · intro b x hb c hio hp
    unfold CNode.vtableLen
    rw [h.u32_pos ht hb hio hp]
    simp only [Option.bind_eq_bind, Option.bind_some]
    unfold CNode.u16
    rw [hio, hp, show ((x + (4 + 2 * (s.fields t).length) : Nat) : Int) - ((4 + 2 * (s.fields t).length : Nat) : Int) =
      ((x + 0 : Nat) : Int) by omega]
    have := holds_getN (h.vl b x hb)
    rw [Nat.mod_eq_of_lt (by have := ht.sml; omega)] at this
    exact this

end

end Fbs
