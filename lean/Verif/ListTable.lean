import Verif.Pieces
/-!
# Lists of tables: how the operations act on their representation
-/

namespace Fbs
open CNode

/-- `t` is a table type. -/
def TabElt (s : Sch) (t : Name) : Prop :=
  ∃ g, getTypeGroup s.toReg t = some g ∧ isFieldBasicType g = false ∧ isFieldStruct g = false ∧
    isFieldUnion g = false ∧ isFieldTable g = true

theorem preLoad_read {b : Base} {x tl : Nat} (h : CNode.preLoad b x = some tl) : (b.R x 4).len ≠ 0 := by
  intro h0
  unfold CNode.preLoad Base.getN Base.Ri at h
  rw [if_neg (by omega)] at h
  simp only [Option.bind_eq_bind, Option.bind_some, Int.toNat_natCast] at h
  have : getLE 4 (b.R x 4).data = none := by
    unfold getLE
    simp only [Slice.len] at h0
    rw [if_neg (by omega)]
  rw [this] at h
  cases h

theorem at_out {s : Sch} {t : Name} {c : CNode} {n : Nat} (hn : c.name = '[' :: ']' :: t) (hl : c.listLen = some n)
    (i : Int) (hi : i ≥ n ∨ i < 0) : c.at_ s i = some (.error .invalidIndex) := by
  unfold CNode.at_
  rw [isList_of_name hn, hl]
  simp only [Option.bind_eq_bind, Option.bind_some, Bool.not_true, Bool.false_eq_true, if_false]
  rw [if_pos hi]; rfl

/-- `At` on a list of tables follows the offset. -/
theorem at_tab {s : Sch} {t : Name} (ht : TabElt s t) {c : CNode} {n p : Nat} (hn : c.name = '[' :: ']' :: t)
    (hl : c.listLen = some n) (hp : c.vi.pos = p) {i x tl : Nat} (hi : i < n) (hx : p + 4 * i ≤ x)
    (hb : x < 4294967296 + p + 4 * i)
    (ho : Holds c.io (p + 4 * i) (putLE 4 (x - (p + 4 * i)))) (hpre : CNode.preLoad c.io x = some tl) :
    c.at_ s i = some (.ok { name := t, io := c.io, pos := x, tlen := tl }) := by
  obtain ⟨g, hg, h1, h2, -, -⟩ := ht
  unfold CNode.at_
  rw [isList_of_name hn, hl]
  simp only [Option.bind_eq_bind, Option.bind_some, Bool.not_true, Bool.false_eq_true, if_false]
  rw [if_neg (by omega), if_neg (by rw [hn]; simp)]
  have hdr : c.name.drop 2 = t := by rw [hn]; rfl
  rw [hdr, hg]
  simp only [Option.bind_some, h1, h2, Bool.or_false, Bool.false_eq_true, if_false]
  have hpos : c.vi.pos + (i : Int) * 4 = ((p + 4 * i : Nat) : Int) := by omega
  have hu : c.u32 ((p + 4 * i : Nat) : Int) = some (x - (p + 4 * i)) := by
    unfold CNode.u32
    have := holds_getN ho
    rw [Nat.mod_eq_of_lt (by omega)] at this
    exact this
  unfold CNode.atTable
  rw [hpos, hu]
  simp only [Option.bind_eq_bind, Option.bind_some]
  have hx2 : ((p + 4 * i : Nat) : Int) + ((x - (p + 4 * i) : Nat) : Int) = (x : Int) := by omega
  rw [hx2]
  unfold CNode.R Base.Ri
  rw [if_neg (by omega)]
  simp only [Option.bind_some, Int.toNat_natCast]
  rw [if_neg (preLoad_read hpre)]
  unfold CNode.newNode
  rw [hpre]
  rfl

/-! ## adding to offsets -/

theorem putN_nat (b : Base) (k x v : Nat) : b.putN k (x : Int) v = some (b.updateU x k (putLE k v)) := by
  unfold Base.putN
  rw [if_neg (by omega), Int.toNat_natCast]

theorem u32_nat (v : Nat) (h : v < 4294967296) : Fbs.u32 (v : Int) = v := by
  unfold Fbs.u32; omega

/-- What changes when bytes in `[lo, hi)` are overwritten in place. -/
structure Within (b b' : Base) (lo hi : Nat) : Prop where
  bytes : b'.bytes = b.bytes
  other : ∀ x w, Holds b x w → x + w.length ≤ lo ∨ hi ≤ x → Holds b' x w
  clean : ∀ x, Clean b x → x ≤ lo ∨ hi ≤ x → Clean b' x
  below : ∀ x, Below b x → hi < x → Below b' x
  belowE : Below b hi → Clean b hi → Below b' hi
  exact : ∀ c, Exact1 b c → c.2 ≠ [] → c.1 + c.2.length ≤ lo ∨ hi ≤ c.1 → Exact1 b' c

theorem Within.refl (b : Base) (lo hi : Nat) : Within b b lo hi :=
  ⟨rfl, fun _ _ h _ => h, fun _ h _ => h, fun _ h _ => h, fun h _ => h, fun _ h _ _ => h⟩

theorem Within.trans {b b' b'' : Base} {lo mid hi : Nat} (h1 : Within b b' lo mid) (h2 : Within b' b'' mid hi)
    (hl : lo ≤ mid) (hm : mid < hi) : Within b b'' lo hi :=
  ⟨by rw [h2.bytes, h1.bytes], fun x w h hx => h2.other x w (h1.other x w h (by omega)) (by omega),
    fun x h hx => h2.clean x (h1.clean x h (by omega)) (by omega),
    fun x h hx => h2.below x (h1.below x h (by omega)) hx,
    fun h hc => h2.belowE (h1.below _ h (by omega)) (h1.clean _ hc (by omega)),
    fun c h hne hx => h2.exact c (h1.exact c h hne (by omega)) hne (by omega)⟩

theorem Within.mono {b b' : Base} {lo hi lo' hi' : Nat} (h : Within b b' lo hi) (h1 : lo' ≤ lo) (h2 : hi ≤ hi') :
    Within b b' lo' hi' :=
  ⟨h.bytes, fun x w hw hx => h.other x w hw (by omega), fun x hc hx => h.clean x hc (by omega),
    fun x hb hx => h.below x hb (by omega), fun hb hc => by
      by_cases he : hi = hi'
      · subst he; exact h.belowE hb hc
      · exact h.below _ hb (by omega), fun c he hne hx => h.exact c he hne (by omega)⟩

theorem within_updateU {b : Base} {off size : Nat} {w : Bytes} (hw : w.length = size) (hs : 0 < size) :
    Within b (b.updateU off size w) off (off + size) :=
  ⟨by rw [updateU_struct b off size w hw], fun _ _ h hx => holds_updateU_other hw h hx,
    fun _ h hx => clean_updateU hw h hx, fun _ h hx => below_updateU hw h hx,
    fun h hc => below_updateU_end hw h hc hs rfl, fun _ h hne hx => exact_updateU hw hs h hne hx⟩

theorem putLE4_ne (v : Nat) : putLE 4 v ≠ [] := by
  intro h; have := congrArg List.length h; rw [putLE_length] at this; simp at this

theorem holds_put4 {b : Base} {x : Nat} {w : Bytes} (h : Holds b x w) (hl : w.length = 4) (v : Nat) :
    Holds (b.updateU x 4 (putLE 4 v)) x (putLE 4 v) := by
  have := holds_updateU_same (b := b) (off := x) (w := putLE 4 v) (putLE4_ne v)
    (by rw [putLE_length]; have := h.2.1; rw [hl] at this; exact this)
  rw [putLE_length] at this
  exact this

theorem addOffs_eq {p d : Nat} (F : Nat → Nat) (n : Nat) :
    ∀ (i : Nat) (c : CNode), c.vi.pos = p → (∀ j, i ≤ j → j < i + n → Holds c.io (p + 4 * j) (putLE 4 (F j)) ∧ F j + d < 4294967296) →
      ∃ b, c.addOffs d i n = some { c with io := b } ∧ Within c.io b (p + 4 * i) (p + 4 * (i + n)) ∧
        ∀ j, i ≤ j → j < i + n → Holds b (p + 4 * j) (putLE 4 (F j + d)) := by
  induction n with
  | zero =>
    intro i c hp h
    exact ⟨c.io, rfl, Within.refl _ _ _, fun j h1 h2 => by omega⟩
  | succ n ih =>
    intro i c hp h
    obtain ⟨h0, hlt⟩ := h i (Nat.le_refl _) (by omega)
    have hpos : c.vi.pos + (i : Int) * 4 = ((p + 4 * i : Nat) : Int) := by omega
    have hu : c.u32 ((p + 4 * i : Nat) : Int) = some (F i) := by
      unfold CNode.u32
      have := holds_getN h0
      rw [Nat.mod_eq_of_lt (by omega)] at this
      exact this
    have hw4 : (putLE 4 (F i + d)).length = 4 := putLE_length _ _
    have hW := within_updateU (b := c.io) (off := p + 4 * i) hw4 (by omega)
    obtain ⟨b, h1, h2, h3⟩ := ih (i + 1) { c with io := c.io.updateU (p + 4 * i) 4 (putLE 4 (F i + d)) } hp (by
      intro j hj1 hj2
      obtain ⟨h4, h5⟩ := h j (by omega) (by omega)
      exact ⟨hW.other _ _ h4 (Or.inr (by omega)), h5⟩)
    have hE : p + 4 * i + 4 = p + 4 * (i + 1) := by omega
    refine ⟨b, ?_, ?_, ?_⟩
    · unfold CNode.addOffs
      rw [hpos, hu]
      simp only [Option.bind_eq_bind, Option.bind_some]
      have : ((F i : Nat) : Int) + (d : Int) = ((F i + d : Nat) : Int) := by omega
      rw [this, u32_nat _ hlt, putN_nat]
      simp only [Option.bind_some]
      exact h1
    · rw [hE] at hW
      have e2 : p + 4 * (i + 1 + n) = p + 4 * (i + (n + 1)) := by omega
      rw [e2] at h2
      by_cases hn : n = 0
      · subst hn
        have hid : b = c.io.updateU (p + 4 * i) 4 (putLE 4 (F i + d)) := by
          simp only [CNode.addOffs, Option.some.injEq, CNode.mk.injEq, true_and, and_true] at h1
          exact h1.symm
        rw [hid]
        exact hW
      · exact hW.trans h2 (by omega) (by omega)
    · intro j hj1 hj2
      by_cases hj : j = i
      · subst hj
        exact h2.other _ _ (holds_put4 h0 (putLE_length _ _) _) (Or.inl (by rw [putLE_length]; omega))
      · exact h3 j (by omega) (by omega)

/-! ## the front of a list -/

/-- The count and the offsets of the first `n` elements are segments of their own. -/
def Aligned (b : Base) (n : Nat) : Prop :=
  b.bytes.len = 4 ∧ ∀ d ∈ b.diffs, d.off < 4 + 4 * n → d.off % 4 = 0 ∧ d.sl.len = 4

theorem Aligned.updateU {b : Base} {n : Nat} (h : Aligned b n) {i v : Nat} (hi : i ≤ n) :
    Aligned (b.updateU (4 * i) 4 (putLE 4 v)) n := by
  rw [updateU_struct _ _ _ _ (putLE_length 4 v)]
  refine ⟨h.1, ?_⟩
  intro d hd hlt
  simp only [List.mem_append, List.mem_singleton] at hd
  rcases hd with hd | rfl
  · rcases TI.dPrefix_exact (by
      intro d hd hcov
      rw [covers_iff] at hcov
      have := h.2 d hd (by omega)
      omega) hd with h1 | h1
    · exact h.2 d h1 hlt
    · omega
  · exact ⟨by simp, by simp [Slice.len, putLE_length]⟩

theorem Aligned.addOffs {n : Nat} (d : Int) (k : Nat) : ∀ {i : Nat} {c c' : CNode}, Aligned c.io n → c.vi.pos = 4 → i + k ≤ n →
    c.addOffs d i k = some c' → Aligned c'.io n := by
  induction k with
  | zero => intro i c c' h _ _ he; cases he; exact h
  | succ k ih =>
    intro i c c' h hp hk he
    unfold CNode.addOffs at he
    rw [hp, show (4 : Int) + (i : Int) * 4 = ((4 * (i + 1) : Nat) : Int) by omega] at he
    cases hu : c.u32 ((4 * (i + 1) : Nat) : Int) with
    | none => rw [hu] at he; cases he
    | some off =>
      simp only [hu, putN_nat, Option.bind_eq_bind, Option.bind_some] at he
      exact ih (i := i + 1) (c := { c with io := c.io.updateU (4 * (i + 1)) 4 (putLE 4 (Fbs.u32 (off + d))) })
        (h.updateU (by omega)) hp (by omega) he

theorem Aligned.insert {b : Base} {n : Nat} (h : Aligned b n) (hcl : Clean b (4 + 4 * n)) :
    Aligned (b.insertSpace (4 + 4 * n) 4 true) (n + 1) := by
  obtain ⟨h1, h2⟩ := insertSpace_diffs (size := 4) hcl true
  have hb := h.1
  rw [if_neg (by omega)] at h1 h2
  refine ⟨by rw [h1]; exact hb, ?_⟩
  intro d hd hlt
  rw [h2] at hd
  simp only [List.nil_append, if_true, List.mem_append, List.mem_map, List.mem_singleton] at hd
  rcases hd with ⟨d0, hd0, rfl⟩ | rfl
  · unfold shiftD at hlt ⊢
    split
    · rename_i hge
      rw [if_pos hge] at hlt
      simp only at hlt
      omega
    · exact h.2 d0 hd0 (by omega)
  · simp only [Slice.make, Slice.len, zeros, List.length_replicate, and_true]
    omega

/-- Reading at the start of the count or of an offset returns just that. -/
theorem Aligned.read {b : Base} {n : Nat} (h : Aligned b n) {i : Nat} (hi : i ≤ n) {v : Nat} (hv : Holds b (4 * i) (putLE 4 v)) :
    (b.R (4 * i) 0).data = putLE 4 v := by
  obtain ⟨h1, h2⟩ := holds_read hv 0
  rw [putLE_length] at h1 h2
  have hlen : (b.R (4 * i) 0).data.length ≤ 4 := by
    rw [R_data]
    cases hlo : lastOf (fun d => d.covers (4 * i)) b.diffs with
    | some d =>
      obtain ⟨hd, hcov⟩ := lastOf_some hlo
      rw [covers_iff] at hcov
      have := (h.2 d hd (by omega)).2
      rw [writerR_cover hlo]
      simp only [Slice.len] at this
      simp only [List.length_drop]
      omega
    | none =>
      by_cases hx : 4 * i < b.bytes.len
      · rw [writerR_uncovered hlo (by omega)]
        have := stop_le b (4 * i)
        have := h.1
        simp only [Slice.len] at this
        simp only [List.length_drop, List.length_take]
        omega
      · exfalso
        have hc := hv.2.2 0 (by rw [putLE_length]; omega)
        rw [Nat.add_zero, content_eq, hlo, List.getElem?_eq_getElem (l := putLE 4 v) (by rw [putLE_length]; omega)] at hc
        have := (List.getElem?_eq_some_iff.mp hc).1
        simp only [Slice.len] at hx
        omega
  rw [List.take_of_length_le hlen] at h2
  exact h2

/-! ## elements -/

/-- A table of type `t` stored in the pieces `ps`, its virtual table of `vs` bytes in front and `m` bytes of
table data: wherever the pieces are stored, the table can be opened and its extent is found (with at least
`k0` units of fuel). -/
structure SelfC (s : Sch) (k0 : Nat) (t : Name) (vs : Nat) (ps : List Bytes) (m : Nat) : Prop where
  len  : tot ps = vs + m
  mpos : 0 < m
  pre  : ∀ b x, HoldsC b (cellsAt x ps) → ∃ tl, CNode.preLoad b (x + vs) = some tl
  info : ∀ b x, HoldsC b (cellsAt x ps) → ∀ k, k0 ≤ k → ∀ c : CNode, c.name = t → c.io = b → c.pos = x + vs →
    infoF s k (some c) = some { pos := x + vs, size := m, vlen := 0 }
  vtl  : ∀ b x, HoldsC b (cellsAt x ps) → ∀ c : CNode, c.io = b → c.pos = x + vs → c.vtableLen = some vs

/-- One element: its pieces and the length of its data. -/
structure El where
  ps : List Bytes
  m  : Nat

/-- Total length of the elements. -/
def sumTot (es : List El) : Nat := (es.map fun e => tot e.ps).sum

theorem sumTot_append (a b : List El) : sumTot (a ++ b) = sumTot a + sumTot b := by
  simp [sumTot]

theorem sumTot_take_succ {es : List El} {i : Nat} {e : El} (h : es[i]? = some e) :
    sumTot (es.take (i + 1)) = sumTot (es.take i) + tot e.ps := by
  rw [List.take_add_one, h, sumTot_append]
  simp [sumTot]

theorem sumTot_take_le (es : List El) (i : Nat) : sumTot (es.take i) ≤ sumTot es := by
  conv => rhs; rw [← List.take_append_drop i es, sumTot_append]
  omega

/-- Where element `i` begins. -/
def elX (es : List El) (i : Nat) : Nat := 4 + 4 * es.length + sumTot (es.take i)

/-- The end of the list. -/
def elEnd (es : List El) : Nat := 4 + 4 * es.length + sumTot es

theorem elX_end {es : List El} {i : Nat} {e : El} (h : es[i]? = some e) : elX es i + tot e.ps ≤ elEnd es := by
  have h1 := sumTot_take_succ h
  have h2 := sumTot_take_le es (i + 1)
  unfold elX elEnd
  omega

/-- `c` represents the array `es` of tables: a list in a buffer of its own, the elements in order. -/
structure TLI (s : Sch) (k0 : Nat) (t : Name) (vs : Nat) (c : CNode) (es : List El) : Prop where
  name   : c.name = '[' :: ']' :: t
  cpos   : c.pos = 4
  vpos   : c.vi.pos = 4
  vlen   : c.vi.vlen = es.length
  vsize  : es ≠ [] → c.vi.size = 4 * es.length + sumTot es
  small  : elEnd es < 4294967296
  hdr    : Holds c.io 0 (putLE 4 es.length)
  off    : ∀ i, i < es.length → Holds c.io (4 + 4 * i) (putLE 4 (elX es i + vs - (4 + 4 * i)))
  elt    : ∀ i e, es[i]? = some e → HoldsC c.io (cellsAt (elX es i) e.ps)
  self   : ∀ e ∈ es, SelfC s k0 t vs e.ps e.m
  len    : c.io.bytes.len ≤ 4
  clean0 : Clean c.io (4 + 4 * es.length)
  clean1 : Clean c.io (elEnd es)
  below  : Below c.io (elEnd es)
  exact  : ∀ i e, es[i]? = some e → ExactC c.io (cellsAt (elX es i) e.ps)

variable {s : Sch} {k0 : Nat} {t : Name} {vs : Nat} {c : CNode} {es : List El}

theorem listLen_of {n : Nat} (hv : c.vi.pos = 4) (hs : n < 4294967296) (hh : Holds c.io 0 (putLE 4 n)) :
    c.listLen = some n := by
  unfold CNode.listLen CNode.u32
  rw [hv]
  have := holds_getN hh
  rw [Nat.mod_eq_of_lt (by omega)] at this
  exact this

theorem TLI.listLen (h : TLI s k0 t vs c es) : c.listLen = some es.length :=
  listLen_of h.vpos (by have := h.small; unfold elEnd at this; omega) h.hdr

/-- The part of the invariant that determines what `At` and `Info` return. -/
structure TView (s : Sch) (k0 : Nat) (t : Name) (vs : Nat) (c : CNode) (es : List El) : Prop where
  name   : c.name = '[' :: ']' :: t
  vpos   : c.vi.pos = 4
  small  : elEnd es < 4294967296
  hdr    : Holds c.io 0 (putLE 4 es.length)
  off    : ∀ i, i < es.length → Holds c.io (4 + 4 * i) (putLE 4 (elX es i + vs - (4 + 4 * i)))
  elt    : ∀ i e, es[i]? = some e → HoldsC c.io (cellsAt (elX es i) e.ps)
  self   : ∀ e ∈ es, SelfC s k0 t vs e.ps e.m

theorem TLI.view (h : TLI s k0 t vs c es) : TView s k0 t vs c es :=
  ⟨h.name, h.vpos, h.small, h.hdr, h.off, h.elt, h.self⟩

theorem TView.listLen (h : TView s k0 t vs c es) : c.listLen = some es.length :=
  listLen_of h.vpos (by have := h.small; unfold elEnd at this; omega) h.hdr

theorem TView.at_eq (h : TView s k0 t vs c es) (ht : TabElt s t) {i : Nat} {e : El} (hi : es[i]? = some e) :
    ∃ tl, c.at_ s i = some (.ok { name := t, io := c.io, pos := elX es i + vs, tlen := tl }) := by
  have hlt := (List.getElem?_eq_some_iff.mp hi).1
  have hse := h.self e (List.mem_of_getElem? hi)
  obtain ⟨tl, htl⟩ := hse.pre _ _ (h.elt i e hi)
  have hX := elX_end hi
  have hsm := h.small
  have hlen := hse.len
  refine ⟨tl, at_tab (p := 4) ht h.name h.listLen h.vpos hlt ?_ (by omega) (h.off i hlt) htl⟩
  unfold elX
  omega

theorem TView.at_some (h : TView s k0 t vs c es) (ht : TabElt s t) (i : Int) : ∃ r, c.at_ s i = some r ∧
    ∀ e, r = .ok e → ∃ (j : Nat) (el : El), i = j ∧ es[j]? = some el ∧ e.name = t ∧ e.io = c.io ∧ e.pos = elX es j + vs := by
  by_cases hi : i ≥ es.length ∨ i < 0
  · exact ⟨_, at_out h.name h.listLen i hi, fun e he => (by cases he)⟩
  · have hj : i.toNat < es.length := by omega
    obtain ⟨tl, h1⟩ := h.at_eq ht (List.getElem?_eq_getElem hj)
    have e1 : ((i.toNat : Nat) : Int) = i := by omega
    rw [e1] at h1
    refine ⟨_, h1, ?_⟩
    intro e he
    cases he
    exact ⟨i.toNat, _, e1.symm, List.getElem?_eq_getElem hj, rfl, rfl, rfl⟩

/-- `InfoSlice` of a list of tables. -/
theorem TView.infoSlice (h : TView s k0 t vs c es) (ht : TabElt s t) (k : Nat) (hk : k0 ≤ k) :
    infoSliceF s (k + 1) c = some { pos := 4, size := if es = [] then 0 else 4 * es.length + sumTot es, vlen := es.length } := by
  obtain ⟨g, hg, hb, -, -, -⟩ := id ht
  have hAll : ∀ i, ∃ r, c.at_ s i = some r := fun i => by
    obtain ⟨r, h1, -⟩ := h.at_some ht i; exact ⟨r, h1⟩
  let A : Int → Except Err CNode := fun i => (c.at_ s i).getD (.error .notFound)
  have hA : ∀ i, c.at_ s i = some (A i) := by
    intro i
    obtain ⟨r, hr⟩ := hAll i
    show c.at_ s i = some ((c.at_ s i).getD _)
    rw [hr]; rfl
  have hI : ∀ i e, A i = .ok e → infoF s k (some e) = some ((infoF s k (some e)).getD {}) := by
    intro i e he
    obtain ⟨r, h1, h2⟩ := h.at_some ht i
    have : r = .ok e := by
      have h3 := hA i
      rw [h1] at h3
      injection h3 with h3
      rw [h3, he]
    obtain ⟨j, el, -, h4, h5, h6, h7⟩ := h2 e this
    rw [(h.self el (List.mem_of_getElem? h4)).info _ _ (h.elt j el h4) k hk e h5 h6 h7]
    rfl
  have key := infoSlice_gen (k := k) h.name hg hb h.listLen A hA (fun e => (infoF s k (some e)).getD {}) hI
  rw [key]
  congr 1
  by_cases hne : es = []
  · subst hne
    have hlast : A (((([] : List El).length : Nat) : Int) - 1) = .error .invalidIndex := by
      have h3 := hA (((([] : List El).length : Nat) : Int) - 1)
      rw [at_out h.name h.listLen _ (Or.inr (by simp))] at h3
      injection h3 with h3
      exact h3.symm
    rw [hlast]
    simp only [List.length_nil, if_true]
    unfold growInfo
    rw [h.vpos]
    rfl
  · have hpos : 0 < es.length := List.length_pos_iff.mpr hne
    have hil : es.length - 1 < es.length := by omega
    have hget := List.getElem?_eq_getElem hil
    obtain ⟨tl, h1⟩ := h.at_eq ht hget
    have e1 : ((es.length - 1 : Nat) : Int) = (es.length : Int) - 1 := by omega
    rw [e1] at h1
    have hlast : A ((es.length : Int) - 1) = .ok { name := t, io := c.io, pos := elX es (es.length - 1) + vs, tlen := tl } := by
      have h3 := hA ((es.length : Int) - 1)
      rw [h1] at h3
      injection h3 with h3
      exact h3.symm
    rw [hlast]
    simp only
    have hse := h.self _ (List.mem_of_getElem? hget)
    rw [hse.info _ _ (h.elt _ _ hget) k hk { name := t, io := c.io, pos := elX es (es.length - 1) + vs, tlen := tl } rfl rfl rfl]
    simp only [Option.getD_some]
    have hl1 := hse.len
    have hsum := sumTot_take_succ hget
    have hfull : es.take (es.length - 1 + 1) = es := List.take_of_length_le (by omega)
    rw [hfull] at hsum
    have hX : elX es (es.length - 1) = 4 + 4 * es.length + sumTot (es.take (es.length - 1)) := rfl
    have hm := hse.mpos
    rw [if_neg (by omega), if_neg hne]
    unfold growInfo
    rw [if_pos (by simp only [h.vpos]; omega)]
    simp only [VInfo.mk.injEq, h.vpos, and_true, true_and]
    omega

theorem initList_TLI : TLI s k0 t vs (initList ('[' :: ']' :: t)) [] := by
  refine ⟨rfl, rfl, rfl, rfl, fun h => absurd rfl h, by decide, ?_, fun i hi => by simp at hi, fun i e h => (by simp at h),
    fun e he => (by cases he), by simp [initList, Base.new, Slice.len, zeros], ?_, ?_, ?_, ?_⟩
  · exact holds_flat (by decide) (by decide) (by decide)
  · intro d hd; cases hd
  · intro d hd; cases hd
  · intro d hd; cases hd
  · intro i e h; simp at h

/-- `f` is a table whose bytes, from the start of its virtual table, are read in the pieces of `e`. -/
structure TSrc (s : Sch) (k0 : Nat) (t : Name) (vs : Nat) (f : CNode) (e : El) : Prop where
  name : f.name = t
  vpos : vs ≤ f.pos
  mem  : Reads f.io (f.pos - vs) e.ps
  self : SelfC s k0 t vs e.ps e.m
  size : f.size = e.m ∨ (f.size ≤ 0 ∧ ∀ k, k0 ≤ k → ∃ p, infoF s k (some f) = some { pos := p, size := e.m, vlen := 0 })

theorem TSrc.elmSize {f : CNode} {e : El} (h : TSrc s k0 t vs f e) (k : Nat) (hk : k0 ≤ k) :
    CNode.elmSize s k f = some (e.m : Int) := by
  have hm := h.self.mpos
  unfold CNode.elmSize
  rcases h.size with h1 | ⟨h1, h2⟩
  · rw [if_neg (by omega), h1]; rfl
  · obtain ⟨p, h3⟩ := h2 k hk
    rw [if_pos h1, h3]; rfl

theorem TLI.vlenTotal (h : TLI s k0 t vs c es) (ht : TabElt s t) (k : Nat) (hk : k0 ≤ k) :
    c.vlenTotal s (k + 1) = some { c with vi := ⟨4, if es = [] then 0 else 4 * es.length + sumTot es, es.length⟩ } := by
  have hp := h.vpos
  have hv := h.vlen
  unfold CNode.vlenTotal
  by_cases hne : es = []
  · rw [if_pos (Or.inr (Or.inl (by rw [hv, hne]; rfl))), h.view.infoSlice ht k hk]
    simp only [Option.bind_eq_bind, Option.bind_some, pure, hne, if_true, List.length_nil]
  · have hpos : 0 < es.length := List.length_pos_iff.mpr hne
    have hsz := h.vsize hne
    rw [if_neg (by omega)]
    simp only [Option.bind_eq_bind, Option.bind_some, pure]
    rw [if_neg (by omega), if_neg hne, ← hsz, ← hp, ← hv]

theorem elX_append {e : El} {i : Nat} (hi : i ≤ es.length) : elX (es ++ [e]) i = elX es i + 4 := by
  unfold elX
  rw [List.take_append_of_le_length hi, List.length_append, List.length_singleton]
  omega

theorem elEnd_append (e : El) : elEnd (es ++ [e]) = elEnd es + 4 + tot e.ps := by
  unfold elEnd
  rw [sumTot_append, List.length_append, List.length_singleton]
  simp [sumTot]
  omega

theorem elX_last : elX es es.length = elEnd es := by
  unfold elX elEnd; rw [List.take_length]

theorem below_insert4 {b : Base} {x y : Nat} (hcl : Clean b x) (hlen : b.bytes.len ≤ x) (hb : Below b y) (hxy : x ≤ y) :
    Below (b.insertSpace x 4 true) (y + 4) := by
  obtain ⟨-, h2⟩ := insertSpace_diffs (size := 4) hcl true
  intro d hd
  rw [h2, if_neg (by omega)] at hd
  simp only [List.mem_append, List.mem_map, List.nil_append, if_true, List.mem_singleton] at hd
  rcases hd with ⟨d0, h0, rfl⟩ | rfl
  · have := hb d0 h0
    unfold shiftD
    split
    · simp only; omega
    · omega
  · simp only; omega

/-- Appending a table. -/
theorem TLI.append (h : TLI s k0 t vs c es) (ht : TabElt s t) (hvs : (s.fields t).length * 2 + 4 = vs) {f : CNode} {e : El}
    (hf : TSrc s k0 t vs f e) (hsm : elEnd (es ++ [e]) < 4294967296) (k : Nat) (hk : k0 ≤ k) :
    ∃ c', c.setTableAt s (k + 1) es.length f = some (c', none) ∧ TLI s k0 t vs c' (es ++ [e]) ∧
      (Aligned c.io es.length → Aligned c'.io (es ++ [e]).length) := by
  have hv := h.vlen
  have hel := hf.self.len
  have hm := hf.self.mpos
  have hE := elEnd_append (es := es) e
  have hEnd : elEnd es = 4 + 4 * es.length + sumTot es := rfl
  have hlen := h.len
  unfold CNode.setTableAt
  rw [if_neg (by omega), h.vlenTotal ht k hk]
  simp only [Option.bind_eq_bind, Option.bind_some]
  rw [hf.name, hvs]
  simp only [if_true]
  rw [hf.elmSize (k + 1) (by omega)]
  simp only [Option.bind_some]
  have hptr : (4 : Int) + (es.length : Int) * 4 = ((4 + 4 * es.length : Nat) : Int) := by omega
  have htot : (if es = [] then (0 : Int) else 4 * es.length + sumTot es) = ((4 * es.length + sumTot es : Nat) : Int) := by
    split
    · rename_i he; subst he; rfl
    · omega
  have htd : (4 : Int) + ((4 * es.length + sumTot es : Nat) : Int) + 4 = ((elEnd es + 4 : Nat) : Int) := by omega
  have hbody : max (0 : Int) ((e.m : Int) + (vs : Int)) = ((e.m + vs : Nat) : Int) := by omega
  rw [hptr, htot, hbody, if_neg (by omega), Int.toNat_natCast]
  -- space for the new offset
  generalize hc0 : ({ name := c.name, io := c.io, pos := c.pos, size := c.size, tlen := c.tlen, vi := ⟨4, ((4 * es.length + sumTot es : Nat) : Int), es.length⟩ } : CNode) = c0
  have hn0 : c0.name = '[' :: ']' :: t := by rw [← hc0]; exact h.name
  have hio0 : c0.io = c.io := by rw [← hc0]
  have hvi0 : c0.vi = ⟨4, ((4 * es.length + sumTot es : Nat) : Int), es.length⟩ := by rw [← hc0]
  have hps0 : c0.pos = 4 := by rw [← hc0]; exact h.cpos
  have hir : c0.inRoot = some false := inRoot_false (by rw [hio0]; exact h.hdr) (by omega)
  generalize hb1 : c.io.insertSpace (4 + 4 * es.length) 4 true = b1
  have hins : ∀ F, c0.insertSpace s F (4 + 4 * es.length) 4 true = some { c0 with io := b1 } := by
    intro F
    rw [CNode.insertSpace_out hir, isList_of_name hn0, hio0, hb1, hvi0]
    simp only [Option.bind_eq_bind, Option.bind_some, Bool.false_eq_true, if_false, if_true]
    rw [if_neg (by omega)]; rfl
  rw [hins]
  simp only [Option.bind_some]
  have b1_bytes : b1.bytes = c.io.bytes := by
    rw [← hb1, (insertSpace_diffs h.clean0 true).1, if_neg (by omega)]
  have b1_lt : ∀ x w, Holds c.io x w → x + w.length ≤ 4 + 4 * es.length → Holds b1 x w := by
    intro x w hw hx; rw [← hb1]; exact holds_insertSpace_lt h.clean0 hw hx
  have b1_ge : ∀ x w, Holds c.io x w → 4 + 4 * es.length ≤ x → Holds b1 (x + 4) w := by
    intro x w hw hx; rw [← hb1]; exact holds_insertSpace_ge h.clean0 hw hx
  have b1_new : Holds b1 (4 + 4 * es.length) (zeros 4) := by rw [← hb1]; exact holds_insertSpace_new h.clean0 (by omega)
  have b1_c1 : Clean b1 (8 + 4 * es.length) := by
    rw [← hb1]
    refine clean_insertSpace h.clean0 (Or.inr ⟨by omega, ?_, Or.inl (by omega)⟩)
    have : 8 + 4 * es.length - 4 = 4 + 4 * es.length := by omega
    rw [this]; exact h.clean0
  have b1_c2 : Clean b1 (elEnd es + 4) := by
    rw [← hb1]
    exact clean_insertSpace h.clean0 (Or.inr ⟨by omega, by rw [Nat.add_sub_cancel]; exact h.clean1, Or.inl (by omega)⟩)
  have b1_bel : Below b1 (elEnd es + 4) := by
    rw [← hb1]; exact below_insert4 h.clean0 (by omega) h.below (by omega)
  -- the existing offsets grow by four
  obtain ⟨b2, h2e, h2w, h2o⟩ := addOffs_eq (p := 4) (d := 4) (fun i => elX es i + vs - (4 + 4 * i)) es.length 0
    { c0 with io := b1 } (by simp only [hvi0]; rfl) (by
      intro j hj1 hj2
      have hjl : j < es.length := by omega
      have hX := elX_end (List.getElem?_eq_getElem hjl)
      have hsl := (h.self _ (List.getElem_mem hjl)).len
      exact ⟨b1_lt _ _ (h.off j hjl) (by rw [putLE_length]; omega), by omega⟩)
  simp only [Nat.zero_add, Nat.mul_zero, Nat.add_zero] at h2w h2o
  rw [show ((4 : Nat) : Int) = 4 from rfl] at h2e
  rw [h2e]
  simp only [Option.bind_some, hvi0]
  have hoffv : (4 : Int) + ((4 * es.length + sumTot es : Nat) : Int) + 4 + (vs : Int) - (4 + (es.length : Int) * 4) =
      ((elEnd es + 4 + vs - (4 + 4 * es.length) : Nat) : Int) := by omega
  rw [hoffv, u32_nat _ (by omega), hptr, putN_nat]
  simp only [Option.bind_some]
  rw [if_pos (by omega), htd, if_neg (by omega)]
  generalize hb3 : b2.updateU (4 + 4 * es.length) 4 (putLE 4 (elEnd es + 4 + vs - (4 + 4 * es.length))) = b3
  have hW3 : Within b2 b3 (4 + 4 * es.length) (8 + 4 * es.length) := by
    rw [← hb3]
    have := within_updateU (b := b2) (off := 4 + 4 * es.length) (putLE_length 4 (elEnd es + 4 + vs - (4 + 4 * es.length))) (by omega)
    have e : 4 + 4 * es.length + 4 = 8 + 4 * es.length := by omega
    rw [e] at this
    exact this
  have b2_new : Holds b2 (4 + 4 * es.length) (zeros 4) := h2w.other _ _ b1_new (Or.inr (Nat.le_refl _))
  have b3_off : Holds b3 (4 + 4 * es.length) (putLE 4 (elEnd es + 4 + vs - (4 + 4 * es.length))) := by
    rw [← hb3]; exact holds_put4 b2_new (by simp [zeros]) _
  have h2w' : Within b1 b3 4 (8 + 4 * es.length) := h2w.trans hW3 (by omega) (by omega)
  have b3_bel : Below b3 (elEnd es + 4) := by
    by_cases he : 8 + 4 * es.length = elEnd es + 4
    · rw [← he]; exact h2w'.belowE (by rw [he]; exact b1_bel) b1_c1
    · exact h2w'.below _ b1_bel (by omega)
  have b3_c1 : Clean b3 (8 + 4 * es.length) := h2w'.clean _ b1_c1 (Or.inr (Nat.le_refl _))
  have b3_c2 : Clean b3 (elEnd es + 4) := h2w'.clean _ b1_c2 (Or.inr (by omega))
  have b3_bytes : b3.bytes = c.io.bytes := by rw [h2w'.bytes, b1_bytes]
  have b1_hdr := b1_lt _ _ h.hdr (by rw [putLE_length]; omega)
  have b3_hdr : Holds b3 0 (putLE 4 es.length) := h2w'.other _ _ b1_hdr (Or.inl (by rw [putLE_length]; omega))
  -- space for the element: nothing is there
  generalize hc3 : ({ name := c0.name, io := b3, pos := c0.pos, size := c0.size, tlen := c0.tlen, vi := ⟨4, ((4 * es.length + sumTot es : Nat) : Int), es.length⟩ } : CNode) = c3
  have hn3 : c3.name = '[' :: ']' :: t := by rw [← hc3]; exact hn0
  have hio3 : c3.io = b3 := by rw [← hc3]
  have hvi3 : c3.vi = ⟨4, ((4 * es.length + sumTot es : Nat) : Int), es.length⟩ := by rw [← hc3]
  have hps3 : c3.pos = 4 := by rw [← hc3]; exact hps0
  have hir3 : c3.inRoot = some false := inRoot_false (by rw [hio3]; exact b3_hdr) (by omega)
  rw [Int.toNat_natCast, Int.toNat_natCast]
  obtain ⟨b4_bytes, b4_diffs⟩ := insertSpace_end (b := b3) (pos := elEnd es + 4) (size := e.m + vs)
    (by rw [b3_bytes]; omega) b3_bel b3_c2
  generalize hb4 : b3.insertSpace (elEnd es + 4) (e.m + vs) false = b4
  rw [hb4] at b4_bytes b4_diffs
  have hins3 : ∀ F, c3.insertSpace s F (elEnd es + 4) (e.m + vs) false = some { c3 with io := b4 } := by
    intro F
    rw [CNode.insertSpace_out hir3, isList_of_name hn3, hio3, hb4, hvi3]
    simp only [Option.bind_eq_bind, Option.bind_some, Bool.false_eq_true, if_false, if_true]
    rw [if_neg (by omega)]; rfl
  rw [hins3]
  simp only [Option.bind_some, hvi3]
  -- the count
  have hz : (4 : Int) - 4 = ((0 : Nat) : Int) := by omega
  rw [hz, putN_nat]
  simp only [Option.bind_some]
  generalize hb5 : b4.updateU 0 4 (putLE 4 (es.length + 1)) = b5
  have hW5 : Within b4 b5 0 4 := by rw [← hb5]; exact within_updateU (putLE_length _ _) (by omega)
  have b4_of : ∀ x w, Holds b3 x w → Holds b4 x w := fun x w hw => holds_congr b4_bytes b4_diffs hw
  have b5_hdr : Holds b5 0 (putLE 4 (es.length + 1)) := by
    rw [← hb5]; exact holds_put4 (b4_of _ _ b3_hdr) (putLE_length _ _) _
  have b5_of : ∀ x w, Holds b3 x w → 4 ≤ x → Holds b5 x w := fun x w hw hx => hW5.other _ _ (b4_of x w hw) (Or.inr hx)
  have b5_bytes : b5.bytes = c.io.bytes := by rw [hW5.bytes, b4_bytes, b3_bytes]
  have b4_bel : Below b4 (elEnd es + 4) := by unfold Below; rw [b4_diffs]; exact b3_bel
  have b4_c1 : Clean b4 (8 + 4 * es.length) := by unfold Clean; rw [b4_diffs]; exact b3_c1
  have b4_c2 : Clean b4 (elEnd es + 4) := by unfold Clean; rw [b4_diffs]; exact b3_c2
  have b5_bel : Below b5 (elEnd es + 4) := hW5.below _ b4_bel (by omega)
  have b5_c1 : Clean b5 (8 + 4 * es.length) := hW5.clean _ b4_c1 (Or.inr (by omega))
  have b5_c2 : Clean b5 (elEnd es + 4) := hW5.clean _ b4_c2 (Or.inr (by omega))
  -- the element
  have hsp : (f.pos : Int) - (vs : Int) = ((f.pos - vs : Nat) : Int) := by have := hf.vpos; omega
  have hsz : (e.m : Int) + (vs : Int) = ((tot e.ps : Nat) : Int) := by omega
  rw [hsp, hsz, copyI_zero]
  simp only [Option.bind_some]
  obtain ⟨pd, hcp, hpd⟩ := copy_reads (b := b5) (dst := elEnd es + 4) hf.mem (by rw [b5_bytes]; omega)
  rw [hcp]
  have hne := reads_ne hf.mem
  have b6_elt : HoldsC (b5.apps pd) (cellsAt (elEnd es + 4) e.ps) :=
    apps_same hpd hne (fun cc hcc => noCut_end (by rw [b5_bytes]; omega) b5_bel b5_c2 (cellsAt_mem hcc).1)
  have b6_of : ∀ x w, Holds b5 x w → x + w.length ≤ elEnd es + 4 → Holds (b5.apps pd) x w :=
    fun x w hw hx => apps_other hpd hw (Or.inl hx)
  have b6_c1 : Clean (b5.apps pd) (8 + 4 * es.length) := apps_clean hpd b5_c1 (Or.inl (by omega))
  have b6_c2 : Clean (b5.apps pd) (elEnd (es ++ [e])) := by
    refine apps_clean hpd ?_ (Or.inr (by omega))
    intro d hd
    have g1 := b5_bel d hd
    have g2 := b5_c2 d hd
    unfold Straddles at g2 ⊢
    omega
  have b6_bel : Below (b5.apps pd) (elEnd (es ++ [e])) :=
    apps_below hpd hne (fun d hd => by have := b5_bel d hd; omega) (by omega)
  generalize hb6 : b5.apps pd = b6
  rw [hb6] at b6_elt b6_of b6_c1 b6_c2 b6_bel
  have b6_bytes : b6.bytes = c.io.bytes := by rw [← hb6]; exact b5_bytes
  have hlen1 : (es ++ [e]).length = es.length + 1 := by simp
  have b6_hdr : Holds b6 0 (putLE 4 (es ++ [e]).length) := by
    rw [hlen1]; exact b6_of _ _ b5_hdr (by rw [putLE_length]; omega)
  have b6_off : ∀ i, i < (es ++ [e]).length → Holds b6 (4 + 4 * i) (putLE 4 (elX (es ++ [e]) i + vs - (4 + 4 * i))) := by
    intro i hi
    rw [hlen1] at hi
    have hil : i ≤ es.length := by omega
    rw [elX_append hil]
    by_cases hlast : i = es.length
    · subst hlast
      rw [elX_last]
      exact b6_of _ _ (b5_of _ _ b3_off (by omega)) (by rw [putLE_length]; omega)
    · have hlt : i < es.length := by omega
      have hX : 4 + 4 * es.length ≤ elX es i := by unfold elX; omega
      have := h2o i (by omega) hlt
      have e3 : elX es i + vs - (4 + 4 * i) + 4 = elX es i + 4 + vs - (4 + 4 * i) := by omega
      rw [e3] at this
      exact b6_of _ _ (b5_of _ _ (hW3.other _ _ this (Or.inl (by rw [putLE_length]; omega))) (by omega)) (by rw [putLE_length]; omega)
  have b6_el : ∀ i x, (es ++ [e])[i]? = some x → HoldsC b6 (cellsAt (elX (es ++ [e]) i) x.ps) := by
    intro i x hx
    by_cases hlt : i < es.length
    · rw [List.getElem?_append_left hlt] at hx
      rw [elX_append (by omega), cellsAt_shift]
      intro cc hcc
      obtain ⟨c1, hc1, rfl⟩ := List.mem_map.mp hcc
      have hmem := cellsAt_mem hc1
      have hX := elX_end hx
      have hX2 : 4 + 4 * es.length ≤ elX es i := by unfold elX; omega
      have g1 := b1_ge _ _ (h.elt i x hx c1 hc1) (by omega)
      have g3 := h2w'.other _ _ g1 (Or.inr (by omega))
      exact b6_of _ _ (b5_of _ _ g3 (by omega)) (by simp only; omega)
    · rw [List.getElem?_append_right (by omega)] at hx
      have hi0 : i = es.length := by
        by_contra hne
        rw [List.getElem?_eq_none (by simp; omega)] at hx
        cases hx
      subst hi0
      rw [Nat.sub_self] at hx
      cases hx
      rw [elX_append (Nat.le_refl _), elX_last]
      exact b6_elt
  have hself : ∀ x ∈ es ++ [e], SelfC s k0 t vs x.ps x.m := by
    intro x hx
    rcases List.mem_append.mp hx with hx | hx
    · exact h.self x hx
    · rw [List.mem_singleton.mp hx]; exact hf.self
  generalize hc6 : ({ name := c3.name, io := b6, pos := c3.pos, size := c3.size, tlen := c3.tlen, vi := ⟨4, ((4 * es.length + sumTot es : Nat) : Int), es.length⟩ } : CNode) = c6
  have hview : TView s k0 t vs c6 (es ++ [e]) := by
    rw [← hc6]
    exact ⟨hn3, rfl, hsm, b6_hdr, b6_off, b6_el, hself⟩
  have hio6 : c6.io = b6 := by rw [← hc6]
  unfold CNode.refresh
  rw [hview.infoSlice ht k hk]
  simp only [Option.bind_eq_bind, Option.bind_some, pure]
  have hal : Aligned c.io es.length → Aligned b6 (es ++ [e]).length := by
    intro ha
    rw [hlen1]
    have a1 : Aligned b1 (es.length + 1) := by rw [← hb1]; exact ha.insert h.clean0
    have a2 : Aligned b2 (es.length + 1) :=
      Aligned.addOffs (c := { c0 with io := b1 }) _ _ a1 (by simp only [hvi0]) (by omega) h2e
    have a3 : Aligned b3 (es.length + 1) := by
      rw [← hb3, show 4 + 4 * es.length = 4 * (es.length + 1) by omega]
      exact a2.updateU (Nat.le_refl _)
    have a4 : Aligned b4 (es.length + 1) := ⟨by rw [b4_bytes]; exact a3.1, by rw [b4_diffs]; exact a3.2⟩
    have a5 : Aligned b5 (es.length + 1) := by rw [← hb5]; exact a4.updateU (i := 0) (Nat.zero_le _)
    rw [← hb6]
    refine ⟨a5.1, ?_⟩
    intro d hd hlt
    rcases List.mem_append.mp hd with hd | hd
    · exact a5.2 d hd hlt
    · have hm : diffCell d ∈ cellsAt (elEnd es + 4) e.ps := by rw [← hpd]; exact List.mem_map_of_mem hd
      have h7 := (cellsAt_mem hm).1
      simp only [diffCell] at h7
      omega
  refine ⟨_, rfl, ?_, by simp only [hio6]; exact hal⟩
  refine ⟨hview.name, by rw [← hc6]; exact hps3, rfl, rfl, fun hne => by simp only; rw [if_neg hne], hsm, ?_, ?_, ?_, hself, ?_, ?_, ?_, ?_, ?_⟩
  · simp only [hio6]; exact b6_hdr
  · simp only [hio6]; exact b6_off
  · simp only [hio6]; exact b6_el
  · simp only [hio6, b6_bytes]; exact hlen
  · simp only [hio6, hlen1]
    have e4 : 4 + 4 * (es.length + 1) = 8 + 4 * es.length := by omega
    rw [e4]; exact b6_c1
  · simp only [hio6]; exact b6_c2
  · simp only [hio6]; exact b6_bel
  · simp only [hio6]
    intro i x hx
    by_cases hlt : i < es.length
    · rw [List.getElem?_append_left hlt] at hx
      rw [elX_append (by omega), cellsAt_shift]
      intro cc hcc
      obtain ⟨c1, hc1, rfl⟩ := List.mem_map.mp hcc
      have hmem := cellsAt_mem hc1
      have hX := elX_end hx
      have hX2 : 4 + 4 * es.length ≤ elX es i := by unfold elX; omega
      have hne1 := (h.elt i x hx c1 hc1).1
      have hl1 : 0 < c1.2.length := List.length_pos_iff.mpr hne1
      have g1 : Exact1 b1 (c1.1 + 4, c1.2) := by
        rw [← hb1]; exact exact_insertSpace_ge h.clean0 (by omega) (h.exact i x hx c1 hc1) (by omega)
      have g3 := h2w'.exact _ g1 hne1 (Or.inr (by simp only; omega))
      have g4 := hW5.exact _ (exact_congr b4_diffs g3) hne1 (Or.inr (by simp only; omega))
      rw [← hb6]
      exact exact_apps_other hpd g4 (Or.inl (by simp only; omega))
    · rw [List.getElem?_append_right (by omega)] at hx
      have hi0 : i = es.length := by
        by_contra hne
        rw [List.getElem?_eq_none (by simp; omega)] at hx
        cases hx
      subst hi0
      rw [Nat.sub_self] at hx
      cases hx
      rw [elX_append (Nat.le_refl _), elX_last, ← hb6]
      refine exact_apps_same hpd hne ?_
      intro d hd
      have g1 := b5_bel d hd
      have g2 := b5_c2 d hd
      unfold Straddles at g2
      omega

end Fbs
