import Verif.TabCells
import Verif.SplitLemmas
import Verif.EditIn
/-!
# Values of any depth (lemmas)

Tables that hold a byte vector, a table, a union member or a list of tables, stored piece by piece or, after
`Flatten`, in one, wherever their bytes are found in a buffer.
-/

namespace Fbs
open CNode Props

/-- Bytes of a flattened buffer, found elsewhere. -/
theorem flat_sub {io : Base} {y L : Nat} {v : Bytes} (hv : Holds io y v) (hl : y + v.length ≤ L)
    (hL : L ≤ io.flatten.bytes.data.length) {b : Base} {x : Nat} (hb : Holds b x (io.flatten.bytes.data.take L)) :
    Holds b (x + y) v := by
  obtain ⟨h1, h2⟩ := holds_flattened hv
  have hpos : 0 < v.length := List.length_pos_iff.mpr hv.1
  have hlen : (io.flatten.bytes.data.take L).length = L := by rw [List.length_take]; omega
  have h3 := holds_sub hb y v.length hpos (by omega)
  have e : ((io.flatten.bytes.data.take L).drop y).take v.length = v := by
    apply List.ext_getElem?
    intro k
    rw [List.getElem?_take]
    by_cases hk : k < v.length
    · rw [if_pos hk, List.getElem?_drop, List.getElem?_take, if_pos (by omega), h2 k hk]
    · rw [if_neg hk, List.getElem?_eq_none (by omega)]
  rw [e] at h3
  exact h3

/-- The first bytes of a flattened buffer are found in it. -/
theorem flat_take {io : Base} {L : Nat} (hL : L ≤ io.flatten.bytes.data.length) (h0 : 0 < L) :
    Holds io.flatten 0 (io.flatten.bytes.data.take L) := by
  have hlen : (io.flatten.bytes.data.take L).length = L := by rw [List.length_take]; omega
  refine ⟨List.length_pos_iff.mp (by omega), ⟨fun d hd => (by cases hd), ?_⟩, ?_⟩
  · rw [hlen]
    simp only [Slice.len]
    omega
  · intro k hk
    rw [hlen] at hk
    rw [List.getElem?_take, if_pos hk, Nat.zero_add]; rfl

/-! ## `Info` of a table from its fields -/

theorem growInfo_le (p a : Int) (v : VInfo) (m : Int) (hv : v.pos + v.size ≤ p + m) (ha : a ≤ m) :
    ∃ a', growInfo { pos := p, size := a, vlen := 0 } v = { pos := p, size := a', vlen := 0 } ∧ a ≤ a' ∧ a' ≤ m ∧
      v.pos + v.size ≤ p + a' := by
  unfold growInfo
  split
  · rename_i h
    simp only at h
    exact ⟨v.pos + v.size - p, rfl, by omega, by omega, by omega⟩
  · rename_i h
    simp only at h
    exact ⟨a, rfl, Int.le_refl _, ha, by omega⟩

theorem foldlM_grow (V : Nat → Go VInfo) (p m : Int) (l : List Nat)
    (h : ∀ i ∈ l, ∃ v, V i = some v ∧ v.pos + v.size ≤ p + m) (a : Int) (ha : a ≤ m) :
    ∃ a', l.foldlM (fun (acc : VInfo) (i : Nat) => do
        let v ← V i
        return growInfo acc v) { pos := p, size := a, vlen := 0 } = (some { pos := p, size := a', vlen := 0 } : Go VInfo) ∧
      a ≤ a' ∧ a' ≤ m ∧ ∀ i ∈ l, ∀ v, V i = some v → v.pos + v.size ≤ p + a' := by
  induction l generalizing a with
  | nil => exact ⟨a, rfl, Int.le_refl _, ha, fun i hi => (by cases hi)⟩
  | cons i l ih =>
    obtain ⟨v, h1, h2⟩ := h i (List.mem_cons_self ..)
    obtain ⟨a1, g1, g2, g3, g4⟩ := growInfo_le p a v m h2 ha
    obtain ⟨a2, k1, k2, k3, k4⟩ := ih (fun j hj => h j (List.mem_cons_of_mem _ hj)) a1 g3
    refine ⟨a2, ?_, by omega, k3, ?_⟩
    · rw [List.foldlM_cons, h1]
      simp only [Option.bind_eq_bind, Option.bind_some, pure, g1]
      simp only [Option.bind_eq_bind, pure] at k1
      exact k1
    · intro j hj w hw
      rcases List.mem_cons.mp hj with rfl | hj
      · rw [h1] at hw; cases hw; omega
      · exact k4 j hj w hw

theorem infoF_of {s : Sch} {c : CNode} (hd : directSize s c.name = some none) {k m : Nat}
    (h : ∀ i, i < (s.fields c.name).length → ∃ v, valueInfoF s k c i = some v ∧ v.pos + v.size ≤ c.pos + m)
    (hm : ∃ i, i < (s.fields c.name).length ∧ ∀ v, valueInfoF s k c i = some v → v.pos + v.size = c.pos + m) :
    infoF s (k + 1) (some c) = some { pos := c.pos, size := m, vlen := 0 } := by
  unfold infoF
  rw [hd]
  simp only [Option.bind_eq_bind, Option.bind_some]
  obtain ⟨a', h1, h2, h3, h4⟩ := foldlM_grow (fun i => valueInfoF s k c i) (c.pos : Int) (m : Int)
    (List.range (s.fields c.name).length) (fun i hi => h i (List.mem_range.mp hi)) (-1) (by omega)
  simp only [Option.bind_eq_bind] at h1
  rw [h1]
  obtain ⟨i, hi, hv⟩ := hm
  obtain ⟨v, hv1, -⟩ := h i hi
  have h5 := h4 i (List.mem_range.mpr hi) v hv1
  have h6 := hv v hv1
  have : a' = m := by omega
  rw [this]

/-! ## `ValueInfo` of the fields -/

/-- Groups of lists other than byte vectors. -/
def ListGrp (g : Nat) : Prop :=
  g = ftSlice ||| ftTable ∨ g = ftSlice ||| ftBasic2 ∨ g = ftSlice ||| ftBasic4 ∨ g = ftSlice ||| ftBasic8

theorem listGrp_flags {g : Nat} (h : ListGrp g) : isFieldStruct g = false ∧ isFieldUnion g = false ∧ isFieldBytes g = false ∧
    isFieldSlice g = true := by
  rcases h with h | h | h | h <;> rw [h] <;> decide

section
variable {s : Sch} {nm : Name} {b : Base} {x : Nat} {vo : Nat → Nat} {fx : Nat → Option Bytes} {c : CNode}

theorem fieldT_name {i : Nat} {fd : FieldT} (hn : c.name = nm) (hfd : (s.fields nm)[i]? = some fd) : c.fieldT s (i : Int) = fd := by
  unfold CNode.fieldT
  rw [if_neg (by omega), hn, Int.toNat_natCast, hfd]; rfl

theorem fieldAt_zero (hst : s.isStruct nm = false) (hn : c.name = nm) {i : Nat} (hz : c.isZero i = some true) :
    c.fieldAt s i = some none := by
  unfold CNode.fieldAt
  rw [hn, hst, hz]; rfl

/-- An inline field contributes its end; an absent scalar its width. -/
theorem value_inline (hst : s.isStruct nm = false) (h : FldAt b x (s.fields nm).length vo fx) (hn : c.name = nm) (hio : c.io = b)
    (hp : c.pos = x + (4 + 2 * (s.fields nm).length)) {i : Nat} {fd : FieldT} (hfd : (s.fields nm)[i]? = some fd) (hg : InlGrp fd.grp)
    (hdir : fd.grp = ftStruct → directSize s fd.tname = some (some (fieldWidth s fd))) (k : Nat) :
    ∃ v, valueInfoF s (k + 2) c i = some v ∧
      v.pos + v.size = c.pos + (fieldExt fd (fieldWidth s fd) (vo i) : Nat) := by
  have hi := (List.getElem?_eq_some_iff.mp hfd).1
  have hfT := fieldT_name hn hfd
  have hv := TabAt_vtab h.tab hio hp hi
  have hz := TabAt_isZero h.tab hio hp hi
  unfold valueInfoF
  simp only [hfT]
  by_cases hs : fd.grp = ftStruct
  · have hf : isFieldStruct fd.grp = true := by rw [hs]; decide
    rw [if_pos hf, hv]
    simp only [Option.bind_eq_bind, Option.bind_some]
    by_cases h0 : vo i = 0
    · rw [h0] at hz
      rw [fieldAt_zero hst hn (by simpa using hz)]
      simp only [Option.bind_some]
      refine ⟨_, by unfold infoF; rfl, ?_⟩
      simp [fieldExt, hs, h0]
    · have hfa : c.fieldAt s i = some (some { name := fd.tname, io := c.io, pos := c.pos + vo i }) := by
        unfold CNode.fieldAt
        rw [hfT, hn, hst, hz]
        simp only [Option.bind_eq_bind, Option.bind_some, h0, decide_false, Bool.false_eq_true, if_false]
        rw [if_pos hf, hv]; rfl
      rw [hfa]
      simp only [Option.bind_some]
      refine ⟨_, by unfold infoF; simp only [hdir hs, Option.bind_eq_bind, Option.bind_some, pure]; rfl, ?_⟩
      simp only [fieldExt, h0, and_false, if_false]
      omega
  · obtain ⟨f1, f2, f3, f4, f5, f6⟩ := inlGrp_flags hg hs
    simp only [f1, f2, f3, f4, f5, f6, if_true, Bool.false_eq_true, if_false]
    rw [hv]
    refine ⟨_, rfl, ?_⟩
    have hw : fieldWidth s fd = fd.size := by
      unfold fieldWidth
      rw [if_neg hs, if_neg (inlGrp_notVec hg)]
    simp only [fieldExt, hs, false_and, if_false, hw]
    omega

/-- An absent list contributes nothing. -/
theorem value_list_absent (hst : s.isStruct nm = false) (h : FldAt b x (s.fields nm).length vo fx) (hn : c.name = nm) (hio : c.io = b)
    (hp : c.pos = x + (4 + 2 * (s.fields nm).length)) {i : Nat} {fd : FieldT} (hfd : (s.fields nm)[i]? = some fd) (hg : ListGrp fd.grp)
    (h0 : vo i = 0) (k : Nat) : ∃ v, valueInfoF s (k + 1) c i = some v ∧ v.pos + v.size ≤ 0 := by
  have hi := (List.getElem?_eq_some_iff.mp hfd).1
  have hv := TabAt_vtab h.tab hio hp hi
  have hz := TabAt_isZero h.tab hio hp hi
  rw [h0] at hz
  have hz : c.isZero i = some true := by simpa using hz
  obtain ⟨f1, f2, f3, f4⟩ := listGrp_flags hg
  unfold valueInfoF
  simp only [fieldT_name hn hfd, f1, f2, f3, f4, if_true, Bool.false_eq_true, if_false]
  unfold CNode.infoPosList
  rw [hv, hz, fieldAt_zero hst hn hz]
  exact ⟨_, rfl, by simp⟩

/-- An absent table contributes nothing. -/
theorem value_table_absent (hst : s.isStruct nm = false) (h : FldAt b x (s.fields nm).length vo fx) (hn : c.name = nm) (hio : c.io = b)
    (hp : c.pos = x + (4 + 2 * (s.fields nm).length)) {i : Nat} {fd : FieldT} (hfd : (s.fields nm)[i]? = some fd) (hg : fd.grp = ftTable)
    (h0 : vo i = 0) (k : Nat) : ∃ v, valueInfoF s (k + 2) c i = some v ∧ v.pos + v.size ≤ 0 := by
  have hi := (List.getElem?_eq_some_iff.mp hfd).1
  have hv := TabAt_vtab h.tab hio hp hi
  have hz := TabAt_isZero h.tab hio hp hi
  rw [h0] at hz
  have hz : c.isZero i = some true := by simpa using hz
  unfold valueInfoF
  simp only [fieldT_name hn hfd, hg, show isFieldStruct ftTable = false by decide, show isFieldUnion ftTable = false by decide,
    show isFieldBytes ftTable = false by decide, show isFieldSlice ftTable = false by decide,
    show isFieldTable ftTable = true by decide, Bool.false_eq_true, if_false, if_true]
  unfold CNode.table
  rw [hv, hz, fieldAt_zero hst hn hz]
  exact ⟨{ pos := -1, size := 0, vlen := 0 }, rfl, by simp⟩

/-- The tag of a union whose value field is `i`: absent, or one byte that is zero or the number of a member. -/
def TagRead (s : Sch) (c : CNode) (i : Nat) (members : Nat) : Prop :=
  c.fieldAt s ((i : Int) - 1) = some none ∨
    ∃ nd t, c.fieldAt s ((i : Int) - 1) = some (some nd) ∧ CNode.scalar 1 (some nd) = some t ∧ t ≤ members ∧ t < 256

/-- An absent union contributes nothing. -/
theorem value_union_absent (hst : s.isStruct nm = false) (h : FldAt b x (s.fields nm).length vo fx) (hn : c.name = nm) (hio : c.io = b)
    (hp : c.pos = x + (4 + 2 * (s.fields nm).length)) {i : Nat} {fd : FieldT} (hfd : (s.fields nm)[i]? = some fd) (hg : fd.grp = ftUnion)
    (h0 : vo i = 0) (ht : TagRead s c i ((s.unions fd.tname).getD []).length) (k : Nat) :
    ∃ v, valueInfoF s (k + 2) c i = some v ∧ v.pos + v.size ≤ 0 := by
  have hi := (List.getElem?_eq_some_iff.mp hfd).1
  have hv := TabAt_vtab h.tab hio hp hi
  have hz := TabAt_isZero h.tab hio hp hi
  rw [h0] at hz
  have hz : c.isZero i = some true := by simpa using hz
  have hfa := fieldAt_zero hst hn hz
  have htab : c.table i = some (-1) := by
    unfold CNode.table
    rw [hv, hz]; rfl
  unfold valueInfoF
  simp only [fieldT_name hn hfd, hg, show isFieldStruct ftUnion = false by decide, show isFieldUnion ftUnion = true by decide,
    Bool.false_eq_true, if_false, if_true]
  rw [htab]
  simp only [Option.bind_eq_bind, Option.bind_some]
  unfold CNode.canFollow
  rcases ht with ht | ⟨nd, t, n1, n2, n3, n4⟩
  · rw [ht]
    exact ⟨{ pos := -1, size := 0, vlen := 0 }, rfl, by simp⟩
  · rw [n1]
    simp only [Option.bind_eq_bind, Option.bind_some]
    rw [n2]
    simp only [Option.bind_some, pure]
    by_cases h0 : t > 0
    · simp only [h0, decide_true, if_true]
      unfold CNode.followUnion
      rw [n1]
      simp only [Option.bind_eq_bind, Option.bind_some]
      rw [n2]
      simp only [Option.bind_some]
      have e : (t + 255) % 256 = t - 1 := by omega
      rw [fieldT_name hn hfd, e, List.getElem?_eq_getElem (show t - 1 < _ by omega)]
      simp only
      rw [hfa]
      exact ⟨{ pos := -1, size := 0, vlen := 0 }, rfl, by simp⟩
    · simp only [h0, decide_false, Bool.false_eq_true, if_false]
      exact ⟨{ pos := -1, size := 0, vlen := 0 }, rfl, by simp⟩

end

/-! ## lists anywhere in a buffer -/

/-- A list of tables whose count is at `X`. -/
structure LAt (s : Sch) (k0 : Nat) (t : Name) (vs X : Nat) (c : CNode) (es : List El) : Prop where
  name   : c.name = '[' :: ']' :: t
  vpos   : c.vi.pos = ((X + 4 : Nat) : Int)
  small  : elEnd es < 4294967296
  hdr    : Holds c.io X (putLE 4 es.length)
  off    : ∀ i, i < es.length → Holds c.io (X + (4 + 4 * i)) (putLE 4 (elX es i + vs - (4 + 4 * i)))
  elt    : ∀ i e, es[i]? = some e → HoldsC c.io (cellsAt (X + elX es i) e.ps)
  self   : ∀ e ∈ es, SelfC s k0 t vs e.ps e.m

section
variable {s : Sch} {k0 : Nat} {t : Name} {vs X : Nat} {c : CNode} {es : List El}

theorem LAt.listLen (h : LAt s k0 t vs X c es) : c.listLen = some es.length := by
  have hsm := h.small
  unfold elEnd at hsm
  unfold CNode.listLen CNode.u32
  rw [h.vpos, show ((X + 4 : Nat) : Int) - 4 = (X : Int) by omega, holds_getN h.hdr, Nat.mod_eq_of_lt (by omega)]

theorem LAt.at_eq (h : LAt s k0 t vs X c es) (ht : TabElt s t) {i : Nat} {e : El} (hi : es[i]? = some e) :
    ∃ tl, c.at_ s i = some (.ok { name := t, io := c.io, pos := X + elX es i + vs, tlen := tl }) := by
  have hlt := (List.getElem?_eq_some_iff.mp hi).1
  have hse := h.self e (List.mem_of_getElem? hi)
  obtain ⟨tl, htl⟩ := hse.pre _ _ (h.elt i e hi)
  have hX := elX_end hi
  have hsm := h.small
  have hlen := hse.len
  have hle : 4 + 4 * i ≤ elX es i := by unfold elX; omega
  refine ⟨tl, at_tab (p := X + 4) ht h.name h.listLen h.vpos hlt (by omega) (by omega) ?_ htl⟩
  have := h.off i hlt
  rw [show X + 4 + 4 * i = X + (4 + 4 * i) by omega,
    show X + elX es i + vs - (X + (4 + 4 * i)) = elX es i + vs - (4 + 4 * i) by omega]
  exact this

theorem LAt.at_some (h : LAt s k0 t vs X c es) (ht : TabElt s t) (i : Int) : ∃ r, c.at_ s i = some r ∧
    ∀ e, r = .ok e → ∃ (j : Nat) (el : El), i = j ∧ es[j]? = some el ∧ e.name = t ∧ e.io = c.io ∧ e.pos = X + elX es j + vs := by
  by_cases hi : i ≥ es.length ∨ i < 0
  · exact ⟨_, at_out h.name h.listLen i hi, fun e he => (by cases he)⟩
  · have hj : i.toNat < es.length := by omega
    obtain ⟨tl, h1⟩ := h.at_eq ht (List.getElem?_eq_getElem hj)
    have e1 : ((i.toNat : Nat) : Int) = i := by omega
    rw [e1] at h1
    refine ⟨_, h1, ?_⟩
    intro e he
    cases he
    exact ⟨i.toNat, _, e1.symm, List.getElem?_eq_getElem hj, rfl, rfl, rfl⟩

/-- `InfoSlice` reaches to the end of the last element. -/
theorem LAt.infoSlice (h : LAt s k0 t vs X c es) (ht : TabElt s t) (k : Nat) (hk : k0 ≤ k) :
    infoSliceF s (k + 1) c = some { pos := ((X + 4 : Nat) : Int), size := ((elEnd es - 4 : Nat) : Int), vlen := es.length } := by
  obtain ⟨g, hg, hb, -, -, -⟩ := id ht
  have hAll : ∀ i, ∃ r, c.at_ s i = some r := fun i => by
    obtain ⟨r, h1, -⟩ := h.at_some ht i; exact ⟨r, h1⟩
  let A : Int → Except Err CNode := fun i => (c.at_ s i).getD (.error .notFound)
  have hA : ∀ i, c.at_ s i = some (A i) := by
    intro i
    obtain ⟨r, hr⟩ := hAll i
    show c.at_ s i = some ((c.at_ s i).getD _)
    rw [hr]; rfl
  have hI : ∀ i e, A i = .ok e → infoF s k (some e) = some ((infoF s k (some e)).getD {}) := by
    intro i e he
    obtain ⟨r, h1, h2⟩ := h.at_some ht i
    have : r = .ok e := by
      have h3 := hA i
      rw [h1] at h3
      injection h3 with h3
      rw [h3, he]
    obtain ⟨j, el, -, h4, h5, h6, h7⟩ := h2 e this
    rw [(h.self el (List.mem_of_getElem? h4)).info _ _ (h.elt j el h4) k hk e h5 h6 h7]
    rfl
  have key := infoSlice_gen (k := k) h.name hg hb h.listLen A hA (fun e => (infoF s k (some e)).getD {}) hI
  rw [key]
  congr 1
  by_cases hne : es = []
  · subst hne
    have hlast : A (((([] : List El).length : Nat) : Int) - 1) = .error .invalidIndex := by
      have h3 := hA (((([] : List El).length : Nat) : Int) - 1)
      rw [at_out h.name h.listLen _ (Or.inr (by simp))] at h3
      injection h3 with h3
      exact h3.symm
    rw [hlast]
    simp only [List.length_nil, if_true]
    unfold growInfo
    rw [h.vpos, if_neg (by simp only; omega)]
    simp [elEnd, sumTot]
  · have hpos : 0 < es.length := List.length_pos_iff.mpr hne
    have hil : es.length - 1 < es.length := by omega
    have hget := List.getElem?_eq_getElem hil
    obtain ⟨tl, h1⟩ := h.at_eq ht hget
    have e1 : ((es.length - 1 : Nat) : Int) = (es.length : Int) - 1 := by omega
    rw [e1] at h1
    have hlast : A ((es.length : Int) - 1) = .ok { name := t, io := c.io, pos := X + elX es (es.length - 1) + vs, tlen := tl } := by
      have h3 := hA ((es.length : Int) - 1)
      rw [h1] at h3
      injection h3 with h3
      exact h3.symm
    rw [hlast]
    simp only
    have hse := h.self _ (List.mem_of_getElem? hget)
    rw [hse.info _ _ (h.elt _ _ hget) k hk { name := t, io := c.io, pos := X + elX es (es.length - 1) + vs, tlen := tl } rfl rfl rfl]
    simp only [Option.getD_some]
    have hl1 := hse.len
    have hsum := sumTot_take_succ hget
    have hfull : es.take (es.length - 1 + 1) = es := List.take_of_length_le (by omega)
    rw [hfull] at hsum
    have hX : elX es (es.length - 1) = 4 + 4 * es.length + sumTot (es.take (es.length - 1)) := rfl
    have hE : elEnd es = 4 + 4 * es.length + sumTot es := rfl
    have hm := hse.mpos
    rw [if_neg (by omega)]
    unfold growInfo
    rw [if_pos (by simp only [h.vpos]; omega)]
    simp only [VInfo.mk.injEq, h.vpos, and_true, true_and]
    omega

end

theorem cellsAt_base (X : Nat) (ps : List Bytes) (x : Nat) {q : Nat × Bytes} (hq : q ∈ cellsAt (X + x) ps) :
    ∃ y, q.1 = X + y ∧ (y, q.2) ∈ cellsAt x ps ∧ y + q.2.length ≤ x + tot ps := by
  induction ps generalizing x with
  | nil => cases hq
  | cons w ps ih =>
    simp only [cellsAt, List.mem_cons] at hq ⊢
    rcases hq with rfl | hq
    · exact ⟨x, rfl, Or.inl rfl, by simp [tot]⟩
    · obtain ⟨y, h1, h2, h3⟩ := ih (x + w.length) (by rw [← Nat.add_assoc]; exact hq)
      refine ⟨y, h1, Or.inr h2, ?_⟩
      simp only [tot, List.map_cons, List.sum_cons] at h3 ⊢
      omega

/-- A list found as a whole elsewhere. -/
theorem TView.found {s : Sch} {k0 : Nat} {t : Name} {vs : Nat} {c : CNode} {es : List El} (h : TView s k0 t vs c es)
    (hL : elEnd es ≤ c.io.flatten.bytes.data.length) {nd : CNode} {e : Nat} (hn : nd.name = '[' :: ']' :: t)
    (hv : nd.vi.pos = ((e + 4 : Nat) : Int)) (hH : Holds nd.io e (c.io.flatten.bytes.data.take (elEnd es))) :
    LAt s k0 t vs e nd es := by
  refine ⟨hn, hv, h.small, ?_, ?_, ?_, h.self⟩
  · have := flat_sub h.hdr (by rw [putLE_length]; unfold elEnd; omega) hL hH
    rwa [Nat.add_zero] at this
  · intro i hi
    exact flat_sub (h.off i hi) (by rw [putLE_length]; unfold elEnd; omega) hL hH
  · intro i el hi q hq
    obtain ⟨y, h1, h2, h3⟩ := cellsAt_base e el.ps (elX es i) hq
    have h4 := elX_end hi
    have h5 := flat_sub (h.elt i el hi (y, q.2) h2) (by simp only; omega) hL hH
    simp only at h5
    rw [h1]; exact h5

/-! ## the pieces of a list that is not merged -/

/-- The count, the offsets, the elements. -/
def listPs (vs : Nat) (es : List El) : List Bytes :=
  putLE 4 es.length :: ((List.range es.length).map (fun i => putLE 4 (elX es i + vs - (4 + 4 * i))) ++ allPs es)

theorem tot_fours (f : Nat → Nat) (n : Nat) : tot ((List.range n).map fun i => putLE 4 (f i)) = 4 * n := by
  induction n with
  | zero => rfl
  | succ n ih =>
    rw [List.range_succ, List.map_append, ← tot_flatten, List.flatten_append, List.length_append, tot_flatten, ih]
    simp [putLE_length]
    omega

theorem cells_fours (f : Nat → Nat) (x : Nat) {q : Nat × Bytes} (n : Nat) :
    q ∈ cellsAt x ((List.range n).map fun i => putLE 4 (f i)) ↔ ∃ i, i < n ∧ q = (x + 4 * i, putLE 4 (f i)) := by
  induction n with
  | zero => simp [cellsAt]
  | succ n ih =>
    rw [List.range_succ, List.map_append, cellsAt_append, List.mem_append, ih, tot_fours]
    simp only [List.map_cons, List.map_nil, cellsAt, List.mem_singleton]
    constructor
    · rintro (⟨i, hi, rfl⟩ | rfl)
      · exact ⟨i, by omega, rfl⟩
      · exact ⟨n, by omega, rfl⟩
    · rintro ⟨i, hi, rfl⟩
      by_cases h : i = n
      · subst h; exact Or.inr rfl
      · exact Or.inl ⟨i, by omega, rfl⟩

theorem tot_listPs (vs : Nat) (es : List El) : tot (listPs vs es) = elEnd es := by
  unfold listPs elEnd
  rw [tot_cons, putLE_length, ← tot_flatten, List.flatten_append, List.length_append, tot_flatten, tot_flatten, tot_fours, tot_allPs]
  omega

theorem cells_listPs (vs : Nat) (es : List El) (X : Nat) {q : Nat × Bytes} : q ∈ cellsAt X (listPs vs es) ↔
    q = (X, putLE 4 es.length) ∨ (∃ i, i < es.length ∧ q = (X + (4 + 4 * i), putLE 4 (elX es i + vs - (4 + 4 * i)))) ∨
    ∃ i e, es[i]? = some e ∧ q ∈ cellsAt (X + elX es i) e.ps := by
  unfold listPs
  simp only [cellsAt, List.mem_cons]
  rw [cellsAt_append, List.mem_append, cells_fours, tot_fours, cells_allPs, putLE_length]
  simp only [elX, Nat.add_assoc]

theorem reads_of_exact {b : Base} {x : Nat} {ps : List Bytes} (h : ∀ q ∈ cellsAt x ps, q.2 ≠ [] ∧ (b.R q.1 0).data = q.2) : Reads b x ps := by
  induction ps generalizing x with
  | nil => trivial
  | cons w ps ih =>
    obtain ⟨h1, h2⟩ := h (x, w) (List.mem_cons_self ..)
    refine ⟨h1, ?_, ih fun q hq => h q (List.mem_cons_of_mem _ hq)⟩
    simp only at h2
    rw [h2, List.take_of_length_le]
    rw [tot_cons]
    omega

theorem initList_aligned {t : Name} : Aligned (initList t).io 0 := ⟨rfl, fun d hd => (by cases hd)⟩

/-- A list read as `Copy` reads it. -/
theorem TLI.pieces {s : Sch} {k0 : Nat} {t : Name} {vs : Nat} {c : CNode} {es : List El} (h : TLI s k0 t vs c es) (ha : Aligned c.io es.length) :
    tot (listPs vs es) = elEnd es ∧ Reads c.io 0 (listPs vs es) ∧ HoldsC c.io (cellsAt 0 (listPs vs es)) := by
  have hH : HoldsC c.io (cellsAt 0 (listPs vs es)) := by
    intro q hq
    rcases (cells_listPs vs es 0).mp hq with rfl | ⟨i, hi, rfl⟩ | ⟨i, e, hi, hq⟩
    · exact h.hdr
    · simp only [Nat.zero_add]; exact h.off i hi
    · rw [Nat.zero_add] at hq; exact h.elt i e hi q hq
  refine ⟨tot_listPs vs es, reads_of_exact ?_, hH⟩
  intro q hq
  refine ⟨(hH q hq).1, ?_⟩
  rcases (cells_listPs vs es 0).mp hq with rfl | ⟨i, hi, rfl⟩ | ⟨i, e, hi, hq⟩
  · exact ha.read (i := 0) (Nat.zero_le _) h.hdr
  · have := h.off i hi
    simp only [Nat.zero_add]
    rw [show 4 + 4 * i = 4 * (i + 1) by omega] at this ⊢
    exact ha.read (by omega) this
  · rw [Nat.zero_add] at hq
    exact exact_read (h.exact i e hi q hq) (h.elt i e hi q hq).1

/-- The list is found wherever its pieces are. -/
theorem listPs_LAt {s : Sch} {k0 : Nat} {t : Name} {vs : Nat} {c : CNode} {es : List El} (h : TLI s k0 t vs c es) {nd : CNode} {e : Nat}
    (hn : nd.name = '[' :: ']' :: t) (hv : nd.vi.pos = ((e + 4 : Nat) : Int)) (hH : HoldsC nd.io (cellsAt e (listPs vs es))) :
    LAt s k0 t vs e nd es := by
  refine ⟨hn, hv, h.small, ?_, ?_, ?_, h.self⟩
  · exact hH _ ((cells_listPs vs es e).mpr (Or.inl rfl))
  · intro i hi
    exact hH _ ((cells_listPs vs es e).mpr (Or.inr (Or.inl ⟨i, hi, rfl⟩)))
  · intro i el hi q hq
    exact hH q ((cells_listPs vs es e).mpr (Or.inr (Or.inr ⟨i, el, hi, hq⟩)))

theorem TView.bytes_len {s : Sch} {k0 : Nat} {t : Name} {vs : Nat} {c : CNode} {es : List El} (h : TView s k0 t vs c es) :
    elEnd es ≤ c.io.flatten.bytes.data.length := by
  by_cases hne : es = []
  · subst hne
    have := (holds_flattened h.hdr).1
    rw [putLE_length] at this
    simpa [elEnd, sumTot] using this
  · have hpos : 0 < es.length := List.length_pos_iff.mpr hne
    have hget := List.getElem?_eq_getElem (show es.length - 1 < es.length by omega)
    have hse := h.self _ (List.mem_of_getElem? hget)
    have hsum := sumTot_take_succ hget
    rw [List.take_of_length_le (by omega)] at hsum
    have hne' : es[es.length - 1].ps.flatten ≠ [] := by
      intro h0
      have h1 := hse.len
      have h2 := hse.mpos
      rw [← tot_flatten, h0] at h1
      simp at h1
      omega
    have hl := List.length_pos_iff.mpr hne'
    have h1 := (h.one hget).2.2 (es[es.length - 1].ps.flatten.length - 1) (by omega)
    rw [List.getElem?_eq_getElem (by omega)] at h1
    have h2 : c.io.flatten.bytes.data[elX es (es.length - 1) + (es[es.length - 1].ps.flatten.length - 1)]? = some _ := h1
    have h3 := (List.getElem?_eq_some_iff.mp h2).1
    rw [tot_flatten] at hl h3
    unfold elEnd
    unfold elX at h3
    omega

/-! ## the variable-length field of a table -/

/-- The offset in field `i` of `c` leads `gap` bytes behind the position `e`. -/
structure Leads (s : Sch) (nm : Name) (c : CNode) (i e gap : Nat) : Prop where
  name : c.name = nm
  zero : c.isZero i = some false
  ex   : ∃ p off, c.vtab i = some p ∧ off < 4294967296 ∧ Holds c.io p (putLE 4 off) ∧ p + off = e + gap

section
variable {s : Sch} {nm : Name} {c : CNode} {i e gap : Nat}

theorem Leads.table (h : Leads s nm c i e gap) : c.table i = some ((e + gap : Nat) : Int) := by
  obtain ⟨p, off, h1, h2, h3, h4⟩ := h.ex
  unfold CNode.table CNode.u32
  rw [h1, h.zero]
  simp only [Option.bind_eq_bind, Option.bind_some, Bool.false_eq_true, if_false]
  rw [holds_getN h3, Nat.mod_eq_of_lt (by omega)]
  simp only [Option.bind_some, pure, ← h4]
  rfl

theorem Leads.list (h : Leads s nm c i e 0) {n : Nat} (hn : n < 4294967296) (hH : Holds c.io e (putLE 4 n)) :
    c.infoPosList i = some { pos := ((e + 4 : Nat) : Int), size := 0, vlen := n } := by
  obtain ⟨p, off, h1, h2, h3, h4⟩ := h.ex
  unfold CNode.infoPosList CNode.u32
  rw [h1, h.zero]
  simp only [Option.bind_eq_bind, Option.bind_some, Bool.false_eq_true, if_false]
  rw [holds_getN h3, Nat.mod_eq_of_lt (by omega)]
  simp only [Option.bind_some]
  rw [show (p : Int) + (off : Int) = (e : Int) by omega, holds_getN hH, Nat.mod_eq_of_lt (by omega)]
  rfl

theorem holdsC_single {b : Base} {x : Nat} {w : Bytes} (h : Holds b x w) : HoldsC b (cellsAt x [w]) := by
  intro q hq
  simp only [cellsAt, List.mem_singleton] at hq
  rw [hq]; exact h

/-- A byte vector. -/
theorem tail_bytes (hst : s.isStruct nm = false) (h : Leads s nm c i e 0) {fd : FieldT} (hfd : (s.fields nm)[i]? = some fd)
    (hg : fd.grp = ftSlice ||| ftBasic1) (htn : fd.tname = "[]byte".toList) {data : Bytes} (hd : data.length < 4294967296)
    (hH : Holds c.io e (putLE 4 data.length ++ data)) :
    (∃ nd, c.fieldAt s i = some (some nd) ∧ CNode.bytes (some nd) = some data) ∧
    ∀ k, ∃ v, valueInfoF s (k + 2) c i = some v ∧ v.pos + v.size = (e + (putLE 4 data.length ++ data).length : Nat) := by
  have hfT := fieldT_name h.name hfd
  have hl4 : (putLE 4 data.length ++ data).length = 4 + data.length := by rw [List.length_append, putLE_length]
  have hhd : Holds c.io e (putLE 4 data.length) := by
    have hh := holds_sub hH 0 4 (by omega) (by omega)
    rwa [List.drop_zero, List.take_append_of_le_length (by rw [putLE_length]; exact Nat.le_refl _),
      List.take_of_length_le (by rw [putLE_length]; exact Nat.le_refl _), Nat.add_zero] at hh
  have hinfo := h.list hd hhd
  have hfa : c.fieldAt s i = some (some { name := fd.tname, io := c.io, pos := e + 4, size := data.length, vi := { pos := ((e + 4 : Nat) : Int), size := data.length, vlen := data.length } }) := by
    unfold CNode.fieldAt
    rw [h.name, hst, h.zero, hfT, hinfo]
    simp only [Option.bind_eq_bind, Option.bind_some, Bool.false_eq_true, if_false]
    rw [if_neg (by rw [hg]; decide), if_neg (by rw [hg]; decide), if_pos (by rw [hg]; decide)]
    rfl
  refine ⟨⟨_, hfa, ?_⟩, ?_⟩
  · unfold CNode.bytes
    simp only
    rw [if_neg (by omega)]
    unfold CNode.R Base.Ri
    rw [if_neg (by omega)]
    simp only [Option.bind_eq_bind, Option.bind_some, Int.toNat_natCast]
    by_cases he : data = []
    · subst he
      simp [Slice.takeTo]
    · have hh := holds_sub hH 4 data.length (List.length_pos_iff.mpr he) (by omega)
      rw [List.drop_append_of_le_length (by rw [putLE_length]; exact Nat.le_refl _),
        List.drop_of_length_le (by rw [putLE_length]; exact Nat.le_refl _), List.nil_append, List.take_length] at hh
      obtain ⟨h1, h2⟩ := holds_read hh data.length
      unfold Slice.takeTo
      simp only [Slice.len] at h1
      rw [if_pos (by simp only [Slice.cap]; omega)]
      simp only [Option.bind_some, pure, Slice.arr]
      rw [List.take_append_of_le_length h1, h2]
  · intro k
    unfold valueInfoF
    simp only [hfT]
    rw [if_neg (by rw [hg]; decide), if_neg (by rw [hg]; decide), if_pos (by rw [hg]; decide), hinfo, hfa]
    simp only [Option.bind_eq_bind, Option.bind_some]
    have hll : CNode.listLen { name := fd.tname, io := c.io, pos := e + 4, size := data.length, vi := { pos := ((e + 4 : Nat) : Int), size := data.length, vlen := data.length } } = some data.length := by
      unfold CNode.listLen CNode.u32
      simp only
      rw [show ((e + 4 : Nat) : Int) - 4 = (e : Int) by omega, holds_getN hhd, Nat.mod_eq_of_lt (by omega)]
    obtain ⟨g, hgt, hgb⟩ : ∃ g, getTypeGroup s.toReg "byte".toList = some g ∧ isFieldBasicType g = true := ⟨ftBasic1, by
      unfold getTypeGroup
      rw [show nameToType "byte".toList = some .byte by decide]
      rfl, by decide⟩
    unfold infoSliceF
    rw [if_neg (by simp only [htn]; decide), hll]
    simp only [htn, show List.drop 2 "[]byte".toList = "byte".toList by decide, hgt, hgb, Option.bind_eq_bind, Option.bind_some, if_true,
      show sizeOfName "byte".toList = 1 by decide]
    refine ⟨_, rfl, ?_⟩
    unfold growInfo
    by_cases h0 : data.length = 0
    · simp only [h0, if_true] at *
      rw [if_neg (by omega)]
      simp only
      omega
    · rw [if_pos (by simp only [h0, if_false]; omega)]
      simp only
      omega

/-- A table. -/
theorem tail_table (hst : s.isStruct nm = false) {t : Name} {vs m k0 : Nat} {w : List Bytes} (h : Leads s nm c i e vs) {fd : FieldT}
    (hfd : (s.fields nm)[i]? = some fd) (hg : fd.grp = ftTable) (htn : fd.tname = t) (hself : SelfC s k0 t vs w m)
    (hH : HoldsC c.io (cellsAt e w)) :
    (∃ tl, c.fieldAt s i = some (some { name := t, io := c.io, pos := e + vs, tlen := tl })) ∧
    ∀ k, k0 ≤ k → ∃ v, valueInfoF s (k + 1) c i = some v ∧ v.pos + v.size = (e + tot w : Nat) := by
  have hfT := fieldT_name h.name hfd
  have hC := hH
  obtain ⟨tl, htl⟩ := hself.pre _ _ hC
  have hfa : c.fieldAt s i = some (some { name := t, io := c.io, pos := e + vs, tlen := tl }) := by
    unfold CNode.fieldAt
    rw [h.name, hst, h.zero, hfT]
    simp only [hg, show isFieldStruct ftTable = false by decide, show isFieldUnion ftTable = false by decide,
      show isFieldBytes ftTable = false by decide, show isFieldSlice ftTable = false by decide,
      show isFieldTable ftTable = true by decide, Option.bind_eq_bind, Option.bind_some, Bool.false_eq_true, if_false, if_true]
    rw [h.table]
    simp only [Option.bind_some]
    rw [if_neg (by omega), Int.toNat_natCast]
    unfold newNode
    rw [htl]
    simp only [Option.bind_eq_bind, Option.bind_some, pure, htn]
  refine ⟨⟨tl, hfa⟩, ?_⟩
  intro k hk
  have hlen := hself.len
  unfold valueInfoF
  simp only [hfT, hg, show isFieldStruct ftTable = false by decide, show isFieldUnion ftTable = false by decide,
    show isFieldBytes ftTable = false by decide, show isFieldSlice ftTable = false by decide,
    show isFieldTable ftTable = true by decide, Bool.false_eq_true, if_false, if_true]
  rw [h.table, hfa]
  simp only [Option.bind_eq_bind, Option.bind_some]
  rw [hself.info _ _ hC k hk { name := t, io := c.io, pos := e + vs, tlen := tl } rfl rfl rfl]
  refine ⟨_, rfl, ?_⟩
  simp only
  omega

/-- A member of a union. -/
theorem tail_union (hst : s.isStruct nm = false) {t : Name} {vs m k0 tag : Nat} {w : List Bytes} (h : Leads s nm c (i + 1) e vs) {fd : FieldT}
    (hfd : (s.fields nm)[i + 1]? = some fd) (hg : fd.grp = ftUnion) (h0 : 0 < tag) (hlt : tag < 256)
    (hmem : ((s.unions fd.tname).getD [])[tag - 1]? = some t)
    {nd : CNode} (hnd : c.fieldAt s (i : Int) = some (some nd)) (htag : CNode.scalar 1 (some nd) = some tag)
    (hself : SelfC s k0 t vs w m) (hH : HoldsC c.io (cellsAt e w)) :
    (∃ tl, c.followUnion s ((i + 1 : Nat) : Int) = some (some (t, some { name := t, io := c.io, pos := e + vs, tlen := tl }))) ∧
    ∀ k, k0 ≤ k → ∃ v, valueInfoF s (k + 1) c (i + 1) = some v ∧ v.pos + v.size = (e + tot w : Nat) := by
  have hfT := fieldT_name h.name hfd
  have hC := hH
  obtain ⟨tl, htl⟩ := hself.pre _ _ hC
  have hsub1 : ((i + 1 : Nat) : Int) - 1 = (i : Int) := by omega
  have hfa : c.fieldAt s ((i + 1 : Nat) : Int) = some (some { name := fd.tname, io := c.io, pos := e + vs, tlen := tl }) := by
    unfold CNode.fieldAt
    rw [h.name, hst, h.zero, hfT]
    simp only [hg, show isFieldStruct ftUnion = false by decide, show isFieldUnion ftUnion = true by decide,
      Option.bind_eq_bind, Option.bind_some, Bool.false_eq_true, if_false, if_true]
    rw [h.table]
    simp only [Option.bind_some]
    rw [if_neg (by omega), Int.toNat_natCast]
    unfold newNode
    rw [htl]
    simp only [Option.bind_eq_bind, Option.bind_some, pure]
  have hfu : c.followUnion s ((i + 1 : Nat) : Int) = some (some (t, some { name := t, io := c.io, pos := e + vs, tlen := tl })) := by
    unfold CNode.followUnion
    rw [hsub1, hnd]
    simp only [Option.bind_eq_bind, Option.bind_some]
    rw [htag]
    simp only [Option.bind_some]
    rw [hfT, show (tag + 255) % 256 = tag - 1 by omega, hmem]
    simp only
    rw [hfa]
    rfl
  refine ⟨⟨tl, hfu⟩, ?_⟩
  intro k hk
  have hlen := hself.len
  unfold valueInfoF
  simp only [hfT, hg, show isFieldStruct ftUnion = false by decide, show isFieldUnion ftUnion = true by decide,
    Bool.false_eq_true, if_false, if_true]
  rw [h.table]
  simp only [Option.bind_eq_bind, Option.bind_some]
  unfold CNode.canFollow
  rw [hsub1, hnd]
  simp only [Option.bind_eq_bind, Option.bind_some]
  rw [htag]
  simp only [Option.bind_some, pure, h0, decide_true, if_true]
  rw [hfu]
  simp only [Option.bind_some]
  rw [hself.info _ _ hC k hk { name := t, io := c.io, pos := e + vs, tlen := tl } rfl rfl rfl]
  refine ⟨_, rfl, ?_⟩
  simp only
  omega

/-- The node of a list field. -/
theorem tail_list (hst : s.isStruct nm = false) {t : Name} {vs k0 n : Nat} {es : List El} (h : Leads s nm c i e 0) {fd : FieldT}
    (hfd : (s.fields nm)[i]? = some fd) (hg : fd.grp = ftSlice ||| ftTable) (htn : fd.tname = '[' :: ']' :: t) (ht : TabElt s t)
    (hpre : ∃ tl, CNode.preLoad c.io c.pos = some tl) (hn : n < 4294967296) (hhd : Holds c.io e (putLE 4 n))
    (hL : ∀ nd : CNode, nd.name = '[' :: ']' :: t → nd.io = c.io → nd.vi.pos = ((e + 4 : Nat) : Int) → LAt s k0 t vs e nd es) :
    (∃ nd, c.fieldAt s i = some (some nd) ∧ nd.io = c.io ∧ LAt s k0 t vs e nd es) ∧
    ∀ k, k0 ≤ k → ∃ v, valueInfoF s (k + 2) c i = some v ∧ v.pos + v.size = (e + elEnd es : Nat) := by
  have hfT := fieldT_name h.name hfd
  have hinfo := h.list hn hhd
  obtain ⟨tl, htl⟩ := hpre
  have hfa : c.fieldAt s i = some (some { name := fd.tname, io := c.io, pos := c.pos, tlen := tl, vi := { pos := ((e + 4 : Nat) : Int), size := 0, vlen := n } }) := by
    unfold CNode.fieldAt
    rw [h.name, hst, h.zero, hfT, hinfo]
    simp only [hg, show isFieldStruct (ftSlice ||| ftTable) = false by decide, show isFieldUnion (ftSlice ||| ftTable) = false by decide,
      show isFieldBytes (ftSlice ||| ftTable) = false by decide, show isFieldSlice (ftSlice ||| ftTable) = true by decide,
      Option.bind_eq_bind, Option.bind_some, Bool.false_eq_true, if_false, if_true]
    unfold newNode
    rw [htl]
    rfl
  refine ⟨⟨_, hfa, rfl, hL _ htn rfl rfl⟩, ?_⟩
  intro k hk
  unfold valueInfoF
  simp only [hfT, hg, show isFieldStruct (ftSlice ||| ftTable) = false by decide, show isFieldUnion (ftSlice ||| ftTable) = false by decide,
      show isFieldBytes (ftSlice ||| ftTable) = false by decide, show isFieldSlice (ftSlice ||| ftTable) = true by decide,
      Bool.false_eq_true, if_false, if_true]
  rw [hinfo, hfa]
  simp only [Option.bind_eq_bind, Option.bind_some]
  rw [(hL { name := fd.tname, io := c.io, pos := c.pos, tlen := tl, vi := { pos := ((e + 4 : Nat) : Int), size := 0, vlen := n } } htn rfl rfl).infoSlice ht k hk]
  refine ⟨_, rfl, ?_⟩
  have : 4 ≤ elEnd es := by unfold elEnd; omega
  simp only
  omega

end

/-! ## a table in pieces -/

/-- What a variable-length field adds behind the table. -/
def tailLen : Option (Nat × Nat × List Bytes) → Nat
  | none => 0
  | some (_, _, W) => tot W

/-- The variable-length field as `Rep` has it. -/
def tailOf : Option (Nat × Nat × List Bytes) → Option (Nat × TI.Tail)
  | none => none
  | some (i, gap, W) => some (i, ⟨gap, cellsAt 0 W⟩)

/-- `w` are the pieces of a table of type `nm` with its variable-length field behind it; `t` is the length of the table itself. -/
structure Piece (s : Sch) (nm : Name) (cur : Nat → Option Bytes) (vec : Option (Nat × Nat × List Bytes)) (w : List Bytes) (t : Nat)
    (vo : Nat → Nat) (fx : Nat → Option Bytes) : Prop where
  hp   : 4 + 2 * (s.fields nm).length < 65536
  t4   : 4 ≤ t
  ht   : t < 65536
  tlen : t = 4 + ((List.range (s.fields nm).length).map (fun i => ((fx i).map List.length).getD 0)).sum
  len  : tot w = 4 + 2 * (s.fields nm).length + t + tailLen vec
  tab  : ∀ b x, HoldsC b (cellsAt x w) → FldAt b x (s.fields nm).length vo fx
  tl   : ∀ b x, HoldsC b (cellsAt x w) → Holds b (x + 2) (putLE 2 t)
  tail : ∀ i gap W, vec = some (i, gap, W) → i < (s.fields nm).length ∧ gap < 65536 ∧ fx i = some (putLE 4 (t - vo i + gap)) ∧
    ∀ b x, HoldsC b (cellsAt x w) → HoldsC b (cellsAt (x + (4 + 2 * (s.fields nm).length + t)) W)
  inl  : ∀ i fd, (s.fields nm)[i]? = some fd → InlGrp fd.grp → fx i = cur i
  oth  : ∀ i fd, (s.fields nm)[i]? = some fd → ¬ InlGrp fd.grp → (∀ q, vec ≠ some (i, q)) → fx i = none
  wid  : ∀ i fd v, (s.fields nm)[i]? = some fd → fx i = some v → 4 ≤ vo i ∧ vo i + fieldWidth s fd ≤ t
  last : vec = none → (∃ i, i < (s.fields nm).length ∧ fx i ≠ none) →
    ∃ i fd, (s.fields nm)[i]? = some fd ∧ fx i ≠ none ∧ vo i + fieldWidth s fd = t
  eqw  : ∀ i fd v, (s.fields nm)[i]? = some fd → fx i = some v → v.length = fieldWidth s fd
  disj : ∀ i j, i < (s.fields nm).length → j < (s.fields nm).length → i ≠ j → ∀ v v', fx i = some v → fx j = some v' →
    vo i + v.length ≤ vo j ∨ vo j + v'.length ≤ vo i

/-- The pieces of the variable-length field. -/
def tailPs : Option (Nat × Nat × List Bytes) → List Bytes
  | none => []
  | some (_, _, W) => W

theorem tailLen_eq (vec : Option (Nat × Nat × List Bytes)) : tailLen vec = tot (tailPs vec) := by
  cases vec <;> rfl

theorem tailCells_of (vec : Option (Nat × Nat × List Bytes)) : TI.tailCells (tailOf vec) = cellsAt 0 (tailPs vec) := by
  cases vec <;> rfl

/-- A built table, as it is copied. -/
theorem rep_piece {s : Sch} {nm : Name} {c : CNode} {cur : Nat → Option Bytes} {vec : Option (Nat × Nat × List Bytes)}
    (h : Rep s nm c cur (tailOf vec)) :
    ∃ w t vo fx, Piece s nm cur vec w t vo fx ∧ Fbs.Reads c.io 0 w ∧ HoldsC c.io (cellsAt 0 w) ∧ c.name = nm ∧
      c.pos = 4 + 2 * (s.fields nm).length ∧ c.size = -1 ∧ c.io.lenBuf ≤ tot w + TI.tailSlack (tailOf vec) := by
  obtain ⟨t, vo, fx, hT, hV, hI, hN, hB, hW, ht, hCel, hsz⟩ := h.ex
  have ht4 := hT.t4
  have hC := hCel trivial
  rw [tailCells_of] at hC
  have htp : ∀ q ∈ cellsAt 0 (tailPs vec), Holds c.io (4 + 2 * (s.fields nm).length + t + q.1) q.2 := by
    cases vec with
    | none => intro q hq; cases hq
    | some p => exact hV.2.2.2
  obtain ⟨hcs, hbd⟩ := hT.cells hC htp
  rw [← tailLen_eq] at hcs hbd
  obtain ⟨w, p1, p2, p3, p4⟩ := hcs.reads hbd (4 + 2 * (s.fields nm).length + t + tailLen vec) 0 (by omega) (by omega)
    (Or.inr ⟨2, Or.inl (Or.inl ⟨rfl, rfl⟩)⟩)
  have sub : ∀ {y : Nat} {v : Bytes}, Holds c.io y v → AllCell (s.fields nm).length t vo fx (tailPs vec) y v.length → ∀ {b : Base} {x : Nat},
      HoldsC b (cellsAt x w) → Holds b (x + y) v := by
    intro y v hv hl b x hb
    have := p4 y v hl (Nat.zero_le _) hv.2.2 b x hb
    rwa [Nat.sub_zero] at this
  refine ⟨w, t, vo, fx, ⟨hT.hp, hT.t4, hT.ht, ht, by omega, ?_, ?_, ?_, hI, ?_, ?_, ?_, hW, hT.disj⟩, p1, p3, hT.name, hT.pos, hsz, ?_⟩
  · intro b x hb
    refine ⟨⟨hT.hp, ?_, ?_, ?_⟩, hT.abs, ?_⟩
    · have := sub hT.vl (Or.inl (Or.inl ⟨rfl, putLE_length ..⟩)) hb
      rwa [Nat.add_zero] at this
    · exact sub hT.soff (Or.inl (Or.inr (Or.inr (Or.inr (Or.inl ⟨rfl, putLE_length ..⟩))))) hb
    · intro i hi
      exact ⟨hT.vo_lt hi, sub (hT.slot i hi) (Or.inl (Or.inr (Or.inr (Or.inl ⟨i, hi, rfl, putLE_length ..⟩)))) hb⟩
    · intro i hi v hv
      obtain ⟨g1, g2, g3⟩ := hT.fld i hi v hv
      refine ⟨by omega, ?_⟩
      rw [Nat.add_assoc]
      exact sub g3 (Or.inl (Or.inr (Or.inr (Or.inr (Or.inr ⟨i, v, hi, hv, rfl, rfl⟩))))) hb
  · intro b x hb
    exact sub hT.tl (Or.inl (Or.inr (Or.inl ⟨rfl, putLE_length ..⟩))) hb
  · intro i gap W hv
    subst hv
    obtain ⟨g1, g2, g3, g4⟩ := hV
    refine ⟨g1, g2, g3, ?_⟩
    intro b x hb q hq
    have e := cellsAt_shift 0 (x + (4 + 2 * (s.fields nm).length + t)) W
    rw [Nat.zero_add] at e
    rw [e, List.mem_map] at hq
    obtain ⟨q', hq', rfl⟩ := hq
    have := sub (g4 q' hq') (Or.inr ⟨q', hq', rfl, rfl⟩) hb
    rw [show x + (4 + 2 * (s.fields nm).length + t + q'.1) = q'.1 + (x + (4 + 2 * (s.fields nm).length + t)) by omega] at this
    exact this
  · intro i fd hfd hng hv
    rcases hN i fd hfd hng with ⟨h1, -⟩ | ⟨d, h1, -⟩
    · exact h1
    · exfalso
      cases vec with
      | none => cases h1
      | some p =>
        obtain ⟨j, gap, W⟩ := p
        simp only [tailOf, Option.some.injEq, Prod.mk.injEq] at h1
        exact hv (gap, W) (by rw [h1.1])
  · intro i fd v hfd hv
    have hi := (List.getElem?_eq_some_iff.mp hfd).1
    obtain ⟨g1, g2, g3⟩ := hT.fld i hi v hv
    have := hW i fd v hfd hv
    exact ⟨g1, by omega⟩
  · intro hv ⟨i, hi, hf⟩
    rcases hC.last with h4 | ⟨j, w, g1, g2, g3⟩
    · exfalso
      cases hfx : fx i with
      | none => exact hf hfx
      | some w =>
        obtain ⟨g1, g2, g3⟩ := hT.fld i hi w hfx
        have := List.length_pos_iff.mpr g3.1
        omega
    · have hfj := List.getElem?_eq_getElem g1
      have := hW j _ w hfj g2
      exact ⟨j, _, hfj, by rw [g2]; simp, by omega⟩
  · rw [lenBuf_eq, maxEnd_le_iff]
    have hb := hC.base
    have e : tot w = 4 + 2 * (s.fields nm).length + t + tailLen vec := by omega
    rw [e]
    refine ⟨by omega, ?_⟩
    intro d hd
    rcases hC.seg d hd with h1 | ⟨q, q1, q2, q3⟩ | h1
    · have := hT.cell_le h1
      omega
    · have := cellsAt_mem q1
      rw [← tailLen_eq] at this
      omega
    · rw [tailSum_cellsAt, ← tailLen_eq] at h1
      omega

section
variable {s : Sch} {nm : Name} {cur : Nat → Option Bytes} {vec : Option (Nat × Nat × List Bytes)} {w : List Bytes} {t : Nat} {vo : Nat → Nat}
  {fx : Nat → Option Bytes}

theorem Piece.leads (h : Piece s nm cur vec w t vo fx) {i gap : Nat} {W : List Bytes} (hv : vec = some (i, gap, W)) {b : Base} {x : Nat}
    (hb : HoldsC b (cellsAt x w)) {c : CNode} (hn : c.name = nm) (hio : c.io = b) (hp : c.pos = x + (4 + 2 * (s.fields nm).length)) :
    Leads s nm c i (x + (4 + 2 * (s.fields nm).length + t)) gap := by
  obtain ⟨h1, h2, h3, h4⟩ := h.tail i gap W hv
  have hF := h.tab b x hb
  obtain ⟨g0, g1⟩ := hF.fld i h1 _ h3
  have hfd := List.getElem?_eq_getElem h1
  have hw := h.wid i _ _ hfd h3
  have ht := h.ht
  refine ⟨hn, ?_, ?_⟩
  · rw [TabAt_isZero hF.tab hio hp h1]
    simp [g0]
  · refine ⟨_, _, TabAt_vtab hF.tab hio hp h1, ?_, by rw [hio, hp]; exact g1, by omega⟩
    omega

theorem Piece.preLoad (h : Piece s nm cur vec w t vo fx) {b : Base} {x : Nat} (hb : HoldsC b (cellsAt x w)) :
    CNode.preLoad b (x + (4 + 2 * (s.fields nm).length)) = some t :=
  tabAt_preLoad (h.tab b x hb).tab (h.tl b x hb) h.ht

theorem Piece.selfC (h : Piece s nm cur vec w t vo fx) (hdir : directSize s nm = some none) {K : Nat}
    (hle : ∀ b x, HoldsC b (cellsAt x w) → ∀ c : CNode, c.name = nm → c.io = b → c.pos = x + (4 + 2 * (s.fields nm).length) →
      ∀ i, i < (s.fields nm).length → ∀ k, K ≤ k → ∃ v, valueInfoF s k c i = some v ∧ v.pos + v.size ≤ c.pos + (t + tailLen vec : Nat))
    (heq : ∃ i, i < (s.fields nm).length ∧
      ∀ b x, HoldsC b (cellsAt x w) → ∀ c : CNode, c.name = nm → c.io = b → c.pos = x + (4 + 2 * (s.fields nm).length) →
        ∀ k, K ≤ k → ∃ v, valueInfoF s k c i = some v ∧ v.pos + v.size = c.pos + (t + tailLen vec : Nat)) :
    SelfC s (K + 1) nm (4 + 2 * (s.fields nm).length) w (t + tailLen vec) := by
  have ht4 := h.t4
  refine ⟨?_, by omega, ?_, ?_, ?_⟩
  · rw [h.len]; omega
  · intro b x hC
    exact ⟨t, h.preLoad hC⟩
  · intro b x hC k hk c hn hio hp
    obtain ⟨k, rfl⟩ : ∃ j, k = j + 1 := ⟨k - 1, by omega⟩
    obtain ⟨i, hi, he⟩ := heq
    have := infoF_of (s := s) (c := c) (k := k) (m := t + tailLen vec) (by rw [hn]; exact hdir) (by
      intro j hj
      rw [hn] at hj
      exact hle b x hC c hn hio hp j hj k (by omega)) ⟨i, by rw [hn]; exact hi, by
      intro v hv
      obtain ⟨v', h1, h2⟩ := he b x hC c hn hio hp k (by omega)
      rw [h1] at hv; cases hv; exact h2⟩
    rw [this, hp]
    rfl
  · intro b x hC c hio hp
    have hF := h.tab b x hC
    have h1 := holds_getN hF.tab.soff
    have h2 := holds_getN hF.tab.vl
    have := h.hp
    unfold CNode.vtableLen CNode.u32 CNode.u16
    rw [hio, hp, h1]
    simp only [Option.bind_eq_bind, Option.bind_some]
    rw [Nat.mod_eq_of_lt (by omega), show ((x + (4 + 2 * (s.fields nm).length) : Nat) : Int) - ((4 + 2 * (s.fields nm).length : Nat) : Int) = (x : Int) by omega, h2,
      Nat.mod_eq_of_lt (by omega)]

/-- What the inline fields read, wherever the table is found. -/
theorem Piece.read (h : Piece s nm cur vec w t vo fx) (hst : s.isStruct nm = false) {b : Base} {x : Nat} (hb : HoldsC b (cellsAt x w)) {c : CNode}
    (hn : c.name = nm) (hio : c.io = b) (hp : c.pos = x + (4 + 2 * (s.fields nm).length)) {i : Nat} (hi : i < (s.fields nm).length)
    (hv : ∀ q, vec ≠ some (i, q)) (hc : cur i ≠ none → InlGrp ((s.fields nm)[i]).grp) : FieldRead s nm c i (cur i) := by
  have hfd := List.getElem?_eq_getElem hi
  have e : fx i = cur i := by
    by_cases hg : InlGrp ((s.fields nm)[i]).grp
    · exact h.inl i _ hfd hg
    · rw [h.oth i _ hfd hg hv]
      by_cases hcc : cur i = none
      · exact hcc.symm
      · exact absurd (hc hcc) hg
  rw [← e]
  refine fldAt_read hst (h.tab b x hb) hn hio hp hi ?_
  intro hne
  rw [e] at hne
  exact hc hne

/-- The types of fields that are dealt with. -/
inductive FieldOk (s : Sch) (nm : Name) (i : Nat) (fd : FieldT) : Prop
  | inline (h : InlGrp fd.grp) (hd : fd.grp = ftStruct → directSize s fd.tname = some (some (fieldWidth s fd)))
  | table (h : fd.grp = ftTable)
  | union (h : fd.grp = ftUnion) (j : Nat) (td : FieldT) (hj : i = j + 1) (htd : (s.fields nm)[j]? = some td) (htg : td.grp = ftBasic1)
  | list (h : ListGrp fd.grp)
  | bytes (h : fd.grp = ftSlice ||| ftBasic1) (hn : fd.tname = "[]byte".toList)

/-- The tags of the unions are zero or numbers of members. -/
def TagsOk (s : Sch) (nm : Name) (cur : Nat → Option Bytes) : Prop :=
  ∀ i fd, (s.fields nm)[i + 1]? = some fd → fd.grp = ftUnion →
    ∀ v, cur i = some v → ∃ b : UInt8, v = [b] ∧ b.toNat ≤ ((s.unions fd.tname).getD []).length

theorem listGrp_notInl {g : Nat} (h : ListGrp g) : ¬ InlGrp g := by
  intro h2
  have := inlGrp_slice h2
  rw [(listGrp_flags h).2.2.2] at this
  cases this

theorem inlGrp_basic1 {g : Nat} (h : g = ftBasic1) : InlGrp g := by rw [h]; exact Or.inr (Or.inl rfl)

/-- What the tag field reads. -/
theorem fieldRead_tag {c : CNode} {i : Nat} {b : UInt8} (h : FieldRead s nm c i (some [b])) :
    ∃ nd, c.fieldAt s (i : Int) = some (some nd) ∧ CNode.scalar 1 (some nd) = some b.toNat := by
  obtain ⟨nd, h1, -, h2, -⟩ := h.2 [b] rfl
  refine ⟨nd, h1, ?_⟩
  rw [show leVal [b] = b.toNat by simp [leVal]] at h2
  exact h2

theorem Piece.tags (h : Piece s nm cur vec w t vo fx) (hst : s.isStruct nm = false) (ht : TagsOk s nm cur)
    (hvec : ∀ i fd, (s.fields nm)[i]? = some fd → InlGrp fd.grp → ∀ q, vec ≠ some (i, q)) {b : Base} {x : Nat} (hb : HoldsC b (cellsAt x w)) {c : CNode}
    (hn : c.name = nm) (hio : c.io = b) (hp : c.pos = x + (4 + 2 * (s.fields nm).length)) {i : Nat} {fd td : FieldT}
    (hfd : (s.fields nm)[i + 1]? = some fd) (hg : fd.grp = ftUnion) (htd : (s.fields nm)[i]? = some td) (htg : td.grp = ftBasic1) :
    TagRead s c (i + 1) ((s.unions fd.tname).getD []).length := by
  obtain ⟨hi, htde⟩ := List.getElem?_eq_some_iff.mp htd
  have hr := h.read hst hb hn hio hp hi (hvec i td htd (inlGrp_basic1 htg)) (fun _ => by rw [htde]; exact inlGrp_basic1 htg)
  unfold TagRead
  rw [show (((i + 1 : Nat) : Int)) - 1 = (i : Int) by omega]
  cases hc : cur i with
  | none => exact Or.inl (hr.1 hc)
  | some v =>
    obtain ⟨y, rfl, h2⟩ := ht i fd hfd hg v hc
    rw [hc] at hr
    obtain ⟨nd, n1, n2⟩ := fieldRead_tag hr
    exact Or.inr ⟨nd, y.toNat, n1, n2, h2, y.toNat_lt⟩

/-- The extent of a table is that of the field that reaches furthest. -/
theorem Piece.self (h : Piece s nm cur vec w t vo fx) (hst : s.isStruct nm = false) (hdir : directSize s nm = some none)
    (hF : ∀ i fd, (s.fields nm)[i]? = some fd → FieldOk s nm i fd) (ht : TagsOk s nm cur)
    (hvec : ∀ i fd, (s.fields nm)[i]? = some fd → InlGrp fd.grp → ∀ q, vec ≠ some (i, q))
    (hwide : ∀ i fd, (s.fields nm)[i]? = some fd → InlGrp fd.grp → fd.grp ≠ ftStruct → cur i = none → fieldWidth s fd ≤ t + tailLen vec)
    (hby : ∀ i fd, (s.fields nm)[i]? = some fd → fd.grp = ftSlice ||| ftBasic1 → ∃ q, vec = some (i, q))
    {K : Nat} (hK : 2 ≤ K)
    (htail : ∀ i gap W, vec = some (i, gap, W) → ∀ b x, HoldsC b (cellsAt x w) → ∀ c : CNode, c.name = nm → c.io = b →
      c.pos = x + (4 + 2 * (s.fields nm).length) → ∀ k, K ≤ k → ∃ v, valueInfoF s k c i = some v ∧
        v.pos + v.size = (x + (4 + 2 * (s.fields nm).length + t) + tot W : Nat))
    (hne : vec = none → ∃ i fd, (s.fields nm)[i]? = some fd ∧ InlGrp fd.grp ∧ cur i ≠ none) :
    SelfC s (K + 1) nm (4 + 2 * (s.fields nm).length) w (t + tailLen vec) := by
  have h4 := h.t4
  have hin : ∀ b x, HoldsC b (cellsAt x w) → ∀ c : CNode, c.name = nm → c.io = b → c.pos = x + (4 + 2 * (s.fields nm).length) →
      ∀ i fd, (s.fields nm)[i]? = some fd → InlGrp fd.grp → ∀ k, K ≤ k → ∃ v, valueInfoF s k c i = some v ∧
        v.pos + v.size = c.pos + (fieldExt fd (fieldWidth s fd) (vo i) : Nat) := by
    intro b x hb c hn hio hp i fd hfd hg k hk
    obtain ⟨k, rfl⟩ : ∃ j, k = j + 2 := ⟨k - 2, by omega⟩
    refine value_inline hst (h.tab b x hb) hn hio hp hfd hg ?_ k
    intro hs
    cases hF i fd hfd with
    | inline _ hd => exact hd hs
    | table h => rw [h] at hs; exact absurd hs (by decide)
    | union h => rw [h] at hs; exact absurd hs (by decide)
    | list h => exact absurd hg (listGrp_notInl h)
    | bytes h => rw [h] at hs; exact absurd hs (by decide)
  refine h.selfC hdir ?_ ?_
  · intro b x hb c hn hio hp i hi k hk
    have hfd := List.getElem?_eq_getElem hi
    by_cases hv : ∃ q, vec = some (i, q)
    · obtain ⟨⟨gap, W⟩, hv⟩ := hv
      obtain ⟨v, v1, v2⟩ := htail i gap W hv b x hb c hn hio hp k hk
      refine ⟨v, v1, ?_⟩
      rw [hv, v2, hp]
      simp only [tailLen]
      omega
    · have hv' : ∀ q, vec ≠ some (i, q) := fun q hq => hv ⟨q, hq⟩
      by_cases hg : InlGrp ((s.fields nm)[i]).grp
      · obtain ⟨v, v1, v2⟩ := hin b x hb c hn hio hp i _ hfd hg k hk
        refine ⟨v, v1, ?_⟩
        rw [v2]
        have : fieldExt ((s.fields nm)[i]) (fieldWidth s ((s.fields nm)[i])) (vo i) ≤ t + tailLen vec := by
          unfold fieldExt
          split
          · omega
          · rename_i hh
            cases hfx : fx i with
            | none =>
              have h0 := (h.tab b x hb).abs i hi hfx
              have := hwide i _ hfd hg (fun e => hh ⟨e, h0⟩) (by rw [← h.inl i _ hfd hg]; exact hfx)
              omega
            | some u =>
              have := (h.wid i _ u hfd hfx).2
              omega
        omega
      · have hfx := h.oth i _ hfd hg hv'
        have h0 := (h.tab b x hb).abs i hi hfx
        obtain ⟨k, rfl⟩ : ∃ j, k = j + 2 := ⟨k - 2, by omega⟩
        have key : ∃ v, valueInfoF s (k + 2) c i = some v ∧ v.pos + v.size ≤ 0 := by
          cases hF i _ hfd with
          | inline hi' _ => exact absurd hi' hg
          | table hg' => exact value_table_absent hst (h.tab b x hb) hn hio hp hfd hg' h0 k
          | union hg' j td hj htd htg =>
            subst hj
            exact value_union_absent hst (h.tab b x hb) hn hio hp hfd hg' h0 (h.tags hst ht hvec hb hn hio hp hfd hg' htd htg) k
          | list hg' => exact value_list_absent hst (h.tab b x hb) hn hio hp hfd hg' h0 (k + 1)
          | bytes hg' _ =>
            obtain ⟨q, hq⟩ := hby i _ hfd hg'
            exact absurd hq (hv' q)
        obtain ⟨v, v1, v2⟩ := key
        exact ⟨v, v1, by omega⟩
  · cases hvc : vec with
    | some p =>
      obtain ⟨i, gap, W⟩ := p
      obtain ⟨g1, -⟩ := h.tail i gap W hvc
      refine ⟨i, g1, ?_⟩
      intro b x hb c hn hio hp k hk
      obtain ⟨v, v1, v2⟩ := htail i gap W hvc b x hb c hn hio hp k hk
      refine ⟨v, v1, ?_⟩
      rw [v2, hp]
      simp only [tailLen]
      omega
    | none =>
      obtain ⟨i, fd, hfd, hg, hc⟩ := hne hvc
      have hi := (List.getElem?_eq_some_iff.mp hfd).1
      obtain ⟨j, fdj, hfj, hxj, hend⟩ := h.last hvc ⟨i, hi, by rw [h.inl i fd hfd hg]; exact hc⟩
      refine ⟨j, (List.getElem?_eq_some_iff.mp hfj).1, ?_⟩
      have hgj : InlGrp fdj.grp := by
        by_cases hgj : InlGrp fdj.grp
        · exact hgj
        · exact absurd (h.oth j fdj hfj hgj (by intro q hq; rw [hvc] at hq; cases hq)) hxj
      intro b x hb c hn hio hp k hk
      obtain ⟨v, v1, v2⟩ := hin b x hb c hn hio hp j fdj hfj hgj k hk
      refine ⟨v, v1, ?_⟩
      rw [v2]
      obtain ⟨u, hu⟩ := Option.ne_none_iff_exists'.mp hxj
      have hw4 := (h.wid j fdj u hfj hu).1
      have : fieldExt fdj (fieldWidth s fdj) (vo j) = t := by
        unfold fieldExt
        rw [if_neg (by omega)]
        exact hend
      rw [this]
      simp [tailLen]

/-- The length of the table itself. -/
theorem Piece.size (h : Piece s nm cur vec w t vo fx) {cur0 : Nat → Option Bytes}
    (hc : ∀ i fd, (s.fields nm)[i]? = some fd → InlGrp fd.grp → cur i = cur0 i)
    (hn : ∀ i fd, (s.fields nm)[i]? = some fd → ¬ InlGrp fd.grp → cur0 i = none)
    (hvec : ∀ i fd, (s.fields nm)[i]? = some fd → InlGrp fd.grp → ∀ q, vec ≠ some (i, q)) :
    t = dataLen (s.fields nm).length cur0 + (if vec = none then 0 else 4) := by
  have hfx : ∀ i, i < (s.fields nm).length → (∀ q, vec ≠ some (i, q)) → fx i = cur0 i := by
    intro i hi hv
    have hfd := List.getElem?_eq_getElem hi
    by_cases hg : InlGrp ((s.fields nm)[i]).grp
    · rw [h.inl i _ hfd hg, hc i _ hfd hg]
    · rw [h.oth i _ hfd hg hv, hn i _ hfd hg]
  rw [h.tlen]
  unfold dataLen
  cases hv : vec with
  | none =>
    simp only [if_true, Nat.add_zero]
    congr 2
    apply List.map_congr_left
    intro i hi
    rw [hfx i (List.mem_range.mp hi) (by intro q hq; rw [hv] at hq; cases hq)]
  | some p =>
    obtain ⟨j, gap, W⟩ := p
    obtain ⟨h1, h2, h3, h4⟩ := h.tail j gap W hv
    have hfd := List.getElem?_eq_getElem h1
    have h0 : cur0 j = none := hn j _ hfd (fun hg => hvec j _ hfd hg _ hv)
    rw [if_neg (by simp), Nat.add_assoc]
    congr 1
    have e := sum_range_update (s.fields nm).length j 4
      (fun i => ((cur0 i).map List.length).getD 0) (fun i => if i = j then 4 else ((cur0 i).map List.length).getD 0) h1
      (fun i hi => if_neg hi) (by simp [h0])
    rw [← e]
    congr 1
    apply List.map_congr_left
    intro i hi
    by_cases hij : i = j
    · subst hij
      rw [if_pos rfl, h3]
      simp [putLE_length]
    · rw [if_neg hij, hfx i (List.mem_range.mp hi) (by intro q hq; rw [hv] at hq; cases hq; exact hij rfl)]

end

end Fbs
