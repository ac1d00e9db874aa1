import Verif.ListMixedAdd
import Verif.Props.ListDeep
/-!
# Lists that go on being used after their elements were exchanged: C107

`SwapAt` exchanges two offsets and leaves the elements where they are.  Whatever is appended afterwards, however the
elements are exchanged again, and whichever sub-list is taken in the end: the list reads as an array would.  But `Add` and
an append to the sub-list take the last element for the one that was stored last, and write over others if it is not.
-/

namespace Fbs.Props
open Fbs CNode

/-- A program that makes a list of tables and exchanges elements on the way. -/
inductive MixProg where
  /-- a list made without exchanges -/
  | prog (p : DeepProg)
  /-- `l.SetAt(t, l.Count())` with a table built by calls, merged by `Flatten` or not -/
  | app (m : MixProg) (fl : Bool) (v : Val)
  /-- `l.SetAt(r, l.Count())` with the root of a message that was saved and opened -/
  | load (m : MixProg) (v : Val) (sp : Bytes)
  /-- `l.SetAt(q.At(i), l.Count())` -/
  | copy (m q : MixProg) (i : Nat)
  /-- `l.SetAt(q.New(OptRange(a, b)).At(i), l.Count())` -/
  | copySub (m q : MixProg) (a b i : Nat)
  /-- `l.SwapAt(i, j)`, also with indices that are not there -/
  | swap (m : MixProg) (i j : Nat)
  /-- `l.Add(q)` -/
  | add (m q : MixProg)

/-- Run the calls; `none` is a panic, an error or nil; an error of `SwapAt` is ignored. -/
def MixProg.run (s : Sch) (t : Name) (fuel : Nat) : MixProg → Go CNode
  | .prog p => p.run s t fuel
  | .app m fl v => do
    let c ← m.run s t fuel
    let f ← v.node s fuel
    runAppend s fuel c [stored fl f]
  | .load m v sp => do
    let c ← m.run s t fuel
    let f ← v.node s fuel
    let d ← f.finish
    let r ← CNode.openByBuf v.name ⟨d, sp⟩
    runAppend s fuel c [r]
  | .copy m q i => do
    let c ← m.run s t fuel
    let d ← q.run s t fuel
    match ← d.at_ s i with
    | .ok n => runAppend s fuel c [n]
    | .error _ => none
  | .copySub m q a b i => do
    let c ← m.run s t fuel
    let d ← q.run s t fuel
    match ← d.newRange s fuel a b with
    | none => none
    | some d =>
      match ← d.at_ s i with
      | .ok n => runAppend s fuel c [n]
      | .error _ => none
  | .swap m i j => do
    let c ← m.run s t fuel
    let (c, _) ← c.swapAt s i j
    return c
  | .add m q => do
    let c ← m.run s t fuel
    let d ← q.run s t fuel
    match ← c.add s fuel d with
    | (c, _, none) => return c
    | (_, _, some _) => none

/-- Specification: the values in the list. -/
def MixProg.items : MixProg → List Val
  | .prog p => p.items
  | .app m _ v => m.items ++ [v]
  | .load m v _ => m.items ++ [v]
  | .copy m q i => m.items ++ (q.items[i]?).toList
  | .copySub m q a _ i => m.items ++ (q.items[a + i]?).toList
  | .swap m i j => swapL m.items i j
  | .add m q => m.items ++ q.items

/-- Specification: the order in which the elements were stored: for every element its number. -/
def MixProg.order : MixProg → List Nat
  | .prog p => List.range p.items.length
  | .app m _ _ => m.order ++ [m.items.length]
  | .load m _ _ => m.order ++ [m.items.length]
  | .copy m _ _ => m.order ++ [m.items.length]
  | .copySub m _ _ _ _ => m.order ++ [m.items.length]
  | .swap m i j => swapL m.order i j
  | .add m q => m.order ++ q.order.map (m.items.length + ·)

/-- Specification: the last element is the one that was stored last. -/
def MixProg.Settled (m : MixProg) : Prop := m.order[m.items.length - 1]? = some (m.items.length - 1)

/-- Specification: every step makes sense for arrays, the values are of the type of the elements, and every list made on
the way is smaller than 4 GiB; in lists that are added, or added to, the last element is the one that was stored last (see
`swapped_add_fails` and `add_swapped_fails`), and the added list is not empty.  `F` bounds the depth of the values. -/
def MixProg.Ok (s : Sch) (t : Name) (F : Nat) : MixProg → Prop
  | .prog p => p.Ok s t F
  | .app m _ v => m.Ok s t F ∧ (v.Fits s (F + 1) ∧ v.need ≤ F ∧ v.name = t) ∧ valsSize s t (m.items ++ [v]) < 4294967296
  | .load m v _ => m.Ok s t F ∧ (v.Fits s (F + 1) ∧ v.need ≤ F ∧ v.name = t) ∧ valsSize s t (m.items ++ [v]) < 4294967296
  | .copy m q i => m.Ok s t F ∧ q.Ok s t F ∧ i < q.items.length ∧ valsSize s t (m.items ++ (q.items[i]?).toList) < 4294967296
  | .copySub m q a b i => m.Ok s t F ∧ q.Ok s t F ∧ a + i ≤ b ∧ b < q.items.length ∧ valsSize s t (m.items ++ (q.items[a + i]?).toList) < 4294967296
  | .swap m _ _ => m.Ok s t F
  | .add m q => m.Ok s t F ∧ q.Ok s t F ∧ (m.items ≠ [] → m.Settled) ∧ q.Settled ∧ q.items ≠ [] ∧
      valsSize s t (m.items ++ q.items) + (4 + 2 * (s.fields t).length) < 4294967296

theorem valsSize_perm {s : Sch} {t : Name} {l m : List Val} (h : l.Perm m) : valsSize s t l = valsSize s t m := by
  unfold valsSize
  induction h with
  | nil => rfl
  | cons a _ ih => simp only [List.map_cons, List.sum_cons]; omega
  | swap a b _ => simp only [List.map_cons, List.sum_cons]; omega
  | trans _ _ ih1 ih2 => rw [ih1, ih2]

section
variable {s : Sch} {k0 : Nat} {t : Name} {vs : Nat} {c : CNode} {es : List El} {I : List Nat}

theorem TLX.plain (h : TLX s k0 t vs c [] I) : TLI s k0 t vs c [] :=
  ⟨h.name, h.cpos, h.vpos, h.vlen, h.vsize, h.small, h.hdr, fun i hi => by simp at hi, h.elt, h.self, h.len, h.clean0, h.clean1, h.below, h.exact⟩

/-- Appending to a list whose elements may have been exchanged. -/
theorem append_TLX (h : TLX s k0 t vs c es I) (ht : TabElt s t) (hvs : (s.fields t).length * 2 + 4 = vs) {f : CNode} {e : El}
    (hf : TSrc s k0 t vs f e) (hsm : elEnd (es ++ [e]) < 4294967296) (k : Nat) (hk : k0 ≤ k) :
    ∃ c', runAppend s (k + 1) c [f] = some c' ∧ TLX s k0 t vs c' (es ++ [e]) (I ++ [es.length]) := by
  have hlen := h.ilen
  obtain ⟨c1, h1, h2⟩ : ∃ c', c.setTableAt s (k + 1) es.length f = some (c', none) ∧ TLX s k0 t vs c' (es ++ [e]) (I ++ [es.length]) := by
    by_cases hes : es = []
    · subst hes
      obtain rfl : I = [] := List.length_eq_zero_iff.mp hlen
      obtain ⟨c', q1, q2, -⟩ := (TLX.plain h).append ht hvs hf hsm k hk
      exact ⟨c', q1, q2.mixed⟩
    · exact h.append hes ht hvs hf hsm k hk
  refine ⟨c1, ?_, h2⟩
  obtain ⟨g, hg, g1, g2, g3, g4⟩ := ht
  simp only [runAppend]
  rw [h.view.listLen, hlen]
  simp only [Option.bind_eq_bind, Option.bind_some]
  have hset : c.setAt s (k + 1) (es.length : Nat) f = some (c1, none) := by
    unfold CNode.setAt
    rw [if_neg (by rw [h.vlen]; omega), hf.name, hg]
    simp only [Option.bind_eq_bind, Option.bind_some, g1, g2, g3, g4, Bool.or_false, Bool.false_eq_true, if_false, if_true]
    exact h1
  rw [hset]
  simp only [Option.bind_some, Option.isSome_none, Bool.false_eq_true, if_false]
end

/-- The values of a list whose elements may have been exchanged: `ms` in the order of the buffer. -/
structure Mixed (s : Sch) (t : Name) (F : Nat) (c : CNode) (l : List Val) (es : List El) (I : List Nat) (ms : List Val) : Prop where
  tlx   : TLX s F t (4 + 2 * (s.fields t).length) c es I
  vals  : List.Forall₂ (ElVal s t F) es ms
  order : l.map some = I.map (ms[·]?)
  perm  : l.Perm ms

section
variable {s : Sch} {t : Name} {F : Nat} {c : CNode} {l : List Val} {es : List El} {I : List Nat} {ms : List Val}

theorem Mixed.get (h : Mixed s t F c l es I ms) {i : Nat} {v : Val} (hv : l[i]? = some v) :
    ∃ j e, I[i]? = some j ∧ es[j]? = some e ∧ ElVal s t F e v := by
  have h1 : (l.map some)[i]? = some (some v) := by rw [List.getElem?_map, hv]; rfl
  rw [h.order, List.getElem?_map] at h1
  cases hj : I[i]? with
  | none => rw [hj] at h1; cases h1
  | some j =>
    rw [hj] at h1
    simp only [Option.map_some, Option.some.injEq] at h1
    obtain ⟨e, he, hE⟩ := forall₂_get h.vals h1
    exact ⟨j, e, rfl, he, hE⟩

theorem Mixed.len (h : Mixed s t F c l es I ms) : l.length = I.length := by
  have := congrArg List.length h.order
  simpa using this

theorem Mixed.append (h : Mixed s t F c l es I ms) (ht : TabElt s t) {f : CNode} {e : El} {v : Val}
    (hf : TSrc s F t (4 + 2 * (s.fields t).length) f e) (hE : ElVal s t F e v) (hsm : valsSize s t (l ++ [v]) < 4294967296) :
    ∃ c', runAppend s (F + 1) c [f] = some c' ∧ Mixed s t F c' (l ++ [v]) (es ++ [e]) (I ++ [es.length]) (ms ++ [v]) := by
  have hF := forall₂_app h.vals (.cons hE .nil)
  have hp : (l ++ [v]).Perm (ms ++ [v]) := h.perm.append_right _
  obtain ⟨c', q1, q2⟩ := append_TLX h.tlx ht (by omega) hf (by rw [elEnd_vals hF, ← valsSize_perm hp]; exact hsm) F (Nat.le_refl _)
  refine ⟨c', q1, q2, hF, ?_, hp⟩
  have hlen := h.vals.length_eq
  rw [List.map_append, List.map_append, h.order]
  congr 1
  · apply List.map_congr_left
    intro j hj
    have := h.tlx.irng j hj
    rw [List.getElem?_append_left (by omega)]
  · simp [hlen]

theorem Mixed.swap (h : Mixed s t F c l es I ms) (ht : TabElt s t) (i j : Nat) :
    ∃ c' e, c.swapAt s i j = some (c', e) ∧ Mixed s t F c' (swapL l i j) es (swapL I i j) ms := by
  have hlen := h.len
  have hord : (swapL l i j).map some = (swapL I i j).map (ms[·]?) := by
    rw [← swapL_map, h.order, swapL_map]
  have hperm := (swapL_perm l i j).trans h.perm
  by_cases hin : i < I.length ∧ j < I.length ∧ i ≠ j
  · obtain ⟨c', h1, h2⟩ := h.tlx.swap ht hin.1 hin.2.1 hin.2.2
    exact ⟨c', none, h1, h2, h.vals, hord, hperm⟩
  · have ho : I.length ≤ i ∨ I.length ≤ j ∨ i = j := by omega
    obtain ⟨e, he⟩ := h.tlx.swap_none ho
    refine ⟨c, e, he, ?_⟩
    have : swapL I i j = I := by
      rcases ho with ho | ho | ho
      · exact swapL_out _ (Or.inl ho)
      · exact swapL_out _ (Or.inr ho)
      · subst ho; exact swapL_same _ _
    rw [this] at hord ⊢
    exact ⟨h.tlx, h.vals, hord, hperm⟩

theorem Mixed.count (h : Mixed s t F c l es I ms) : es.length = l.length := by
  rw [h.vals.length_eq, h.perm.length_eq]

theorem Mixed.add {d : CNode} {l' : List Val} {fs : List El} {J : List Nat} {ns : List Val} (h : Mixed s t F c l es I ms) (hd : Mixed s t F d l' fs J ns)
    (ht : TabElt s t) (hT : l ≠ [] → I[l.length - 1]? = some (l.length - 1)) (hU : J[l'.length - 1]? = some (l'.length - 1)) (hne : l' ≠ [])
    (hI : I.Perm (List.range l.length)) (hJ : J.Perm (List.range l'.length))
    (hsm : valsSize s t (l ++ l') + (4 + 2 * (s.fields t).length) < 4294967296) :
    ∃ c', (∃ a', c.add s (F + 1) d = some (c', a', none)) ∧ Mixed s t F c' (l ++ l') (es ++ fs) (I ++ J.map (es.length + ·)) (ms ++ ns) := by
  have h1 := h.count
  have h2 := hd.count
  have hF := forall₂_app h.vals hd.vals
  have hp : (l ++ l').Perm (ms ++ ns) := h.perm.append hd.perm
  have hl' : 0 < l'.length := List.length_pos_iff.mpr hne
  have hfe : fs ≠ [] := by rintro rfl; simp at h2; omega
  obtain ⟨c', a', q1, q2⟩ := h.tlx.add hd.tlx ht (fun hes => by
      have hl : l ≠ [] := by rintro rfl; exact hes (List.length_eq_zero_iff.mp h1)
      have : 0 < l.length := List.length_pos_iff.mpr hl
      exact ⟨hI.mem_iff.mpr (List.mem_range.mpr this), by rw [h1]; exact hT hl⟩)
    ⟨hJ.mem_iff.mpr (List.mem_range.mpr hl'), by rw [h2]; exact hU⟩ hfe (by rw [elEnd_vals hF, ← valsSize_perm hp]; exact hsm) F (Nat.le_refl _)
  refine ⟨c', ⟨a', q1⟩, q2, hF, ?_, hp⟩
  have hlen := h.vals.length_eq
  rw [List.map_append, List.map_append, h.order, hd.order, List.map_map]
  congr 1
  · apply List.map_congr_left
    intro j hj
    have := h.tlx.irng j hj
    rw [List.getElem?_append_left (by omega)]
  · apply List.map_congr_left
    intro j hj
    simp only [Function.comp]
    rw [List.getElem?_append_right (by omega), hlen, Nat.add_sub_cancel_left]

/-- An element of such a list reads as its value. -/
theorem ElVal.reads {e : El} {v : Val} (h : ElVal s t F e v) {b : Base} {x : Nat} (hb : HoldsC b (cellsAt x e.ps)) {n : CNode}
    (h1 : n.name = t) (h2 : n.io = b) (h3 : n.pos = x + (4 + 2 * (s.fields t).length)) : v.Reads s n := by
  obtain ⟨rfl, fl, f, w, hg, rfl⟩ := h
  exact hg.reads b x (held_pieces (fl := fl) (reads_ne hg.mem) hb) _ h1 h2 h3

end

theorem MixProg.order_perm {s : Sch} {t : Name} {F : Nat} (m : MixProg) (hm : m.Ok s t F) : m.order.Perm (List.range m.items.length) := by
  have snoc : ∀ (I : List Nat) (n : Nat) (v : Val) (l : List Val), I.Perm (List.range l.length) → n = l.length → (I ++ [n]).Perm (List.range (l ++ [v]).length) := by
    intro I n v l h hn
    rw [List.length_append, List.length_singleton, List.range_succ, hn]
    exact h.append_right _
  induction m with
  | prog p => exact List.Perm.refl _
  | app m fl v ih => exact snoc _ _ _ _ (ih hm.1) rfl
  | load m v sp ih => exact snoc _ _ _ _ (ih hm.1) rfl
  | copy m q i ih _ =>
    simp only [MixProg.items, MixProg.order]
    rw [List.getElem?_eq_getElem hm.2.2.1]
    exact snoc _ _ _ _ (ih hm.1) rfl
  | copySub m q a b i ih _ =>
    have h3 := hm.2.2.1
    have h4 := hm.2.2.2.1
    simp only [MixProg.items, MixProg.order]
    rw [List.getElem?_eq_getElem (show a + i < q.items.length by omega)]
    exact snoc _ _ _ _ (ih hm.1) rfl
  | swap m i j ih =>
    simp only [MixProg.items, MixProg.order, swapL_length]
    exact (swapL_perm _ i j).trans (ih hm)
  | add m q ihm ihq =>
    simp only [MixProg.items, MixProg.order, List.length_append, List.range_add]
    exact (ihm hm.1).append ((ihq hm.2.1).map _)

theorem prog_mixed {s : Sch} {t : Name} {F : Nat} (ht : TabElt s t) (m : MixProg) (hm : m.Ok s t F) :
    ∃ c es ms, m.run s t (F + 1) = some c ∧ Mixed s t F c m.items es m.order ms := by
  induction m with
  | prog p =>
    obtain ⟨c, es, r1, r2, r3⟩ := prog_deep ht p hm
    have hmix := r2.mixed
    rw [r3.length_eq] at hmix
    refine ⟨c, es, p.items, r1, hmix, r3, ?_, List.Perm.refl _⟩
    apply List.ext_getElem?
    intro i
    simp only [MixProg.items, MixProg.order, List.getElem?_map]
    by_cases hi : i < p.items.length
    · rw [List.getElem?_range hi]
      simp only [Option.map_some]
      rw [List.getElem?_eq_getElem hi]; rfl
    · rw [List.getElem?_eq_none (by omega), List.getElem?_eq_none (by simp; omega)]; rfl
  | app m fl v ih =>
    obtain ⟨h1, ⟨h2, h2n, rfl⟩, h3⟩ := hm
    obtain ⟨c, es, ms, r1, r2⟩ := ih h1
    obtain ⟨f, w, hg⟩ := val_good s F v h2 h2n
    obtain ⟨c', q1, q2⟩ := r2.append ht (hg.src fl h2n) ⟨rfl, fl, f, w, hg, rfl⟩ h3
    rw [r2.count] at q2
    refine ⟨c', _, _, ?_, q2⟩
    simp only [MixProg.run, Option.bind_eq_bind]
    rw [r1, Option.bind_some, hg.node, Option.bind_some]
    exact q1
  | load m v sp ih =>
    obtain ⟨h1, ⟨h2, h2n, rfl⟩, h3⟩ := hm
    obtain ⟨c, es, ms, r1, r2⟩ := ih h1
    obtain ⟨f, w, hg⟩ := val_good s F v h2 h2n
    obtain ⟨d, r, o1, o2, o3⟩ := hg.srcRoot sp h2n
    obtain ⟨c', q1, q2⟩ := r2.append ht o3 ⟨rfl, true, f, w, hg, rfl⟩ h3
    rw [r2.count] at q2
    refine ⟨c', _, _, ?_, q2⟩
    simp only [MixProg.run, Option.bind_eq_bind]
    rw [r1, Option.bind_some, hg.node, Option.bind_some, o1, Option.bind_some, o2, Option.bind_some]
    exact q1
  | copy m q i ihm ihq =>
    obtain ⟨h1, h2, h3, h4⟩ := hm
    obtain ⟨c, es, ms, r1, r2⟩ := ihm h1
    obtain ⟨d, fs, ns, u1, u2⟩ := ihq h2
    obtain ⟨v, hv⟩ : ∃ v, q.items[i]? = some v := ⟨_, List.getElem?_eq_getElem h3⟩
    obtain ⟨j, e, hj, he, hE⟩ := u2.get hv
    obtain ⟨tl, hat⟩ := u2.tlx.view.at_eq ht hj he
    simp only [MixProg.items, MixProg.order]
    rw [hv] at h4 ⊢
    obtain ⟨c', q1, q2⟩ := r2.append ht (u2.tlx.src he tl) hE h4
    rw [r2.count] at q2
    refine ⟨c', _, _, ?_, q2⟩
    simp only [MixProg.run, Option.bind_eq_bind]
    rw [r1, Option.bind_some, u1, Option.bind_some, hat, Option.bind_some]
    exact q1
  | copySub m q a b i ihm ihq =>
    obtain ⟨h1, h2, h3, h3', h4⟩ := hm
    obtain ⟨c, es, ms, r1, r2⟩ := ihm h1
    obtain ⟨d, fs, ns, u1, u2⟩ := ihq h2
    have hl := u2.len
    have hl' := u2.tlx.ilen
    obtain ⟨d', L, w1, w2, w3, w4⟩ := u2.tlx.newRange ht (by omega) F (Nat.le_refl _) a (b + 1 - a) (by omega) (by omega)
    have e0 : (a : Int) + ((b + 1 - a : Nat) : Int) - 1 = (b : Int) := by omega
    rw [e0] at w1
    obtain ⟨qe, hqe⟩ : ∃ qe, L[i]? = some qe := ⟨_, List.getElem?_eq_getElem (show i < L.length by omega)⟩
    obtain ⟨j, hj, hje⟩ := w4 i qe hqe
    obtain ⟨v, hv⟩ : ∃ v, q.items[a + i]? = some v := ⟨_, List.getElem?_eq_getElem (show a + i < q.items.length by omega)⟩
    obtain ⟨j', e, hj', he, hE⟩ := u2.get hv
    rw [hj] at hj'
    cases hj'
    rw [hje] at he
    cases he
    obtain ⟨tl, hat⟩ := w2.at_eq ht hqe
    simp only [MixProg.items, MixProg.order]
    rw [hv] at h4 ⊢
    obtain ⟨c', q1, q2⟩ := r2.append ht (w2.src (List.mem_of_getElem? hqe) tl) hE h4
    rw [r2.count] at q2
    refine ⟨c', _, _, ?_, q2⟩
    simp only [MixProg.run, Option.bind_eq_bind]
    rw [r1, Option.bind_some, u1, Option.bind_some, w1, Option.bind_some]
    simp only
    rw [hat, Option.bind_some]
    exact q1
  | swap m i j ih =>
    obtain ⟨c, es, ms, r1, r2⟩ := ih hm
    obtain ⟨c', e, q1, q2⟩ := r2.swap ht i j
    refine ⟨c', _, _, ?_, q2⟩
    simp only [MixProg.run, Option.bind_eq_bind]
    rw [r1, Option.bind_some, q1]
    rfl
  | add m q ihm ihq =>
    obtain ⟨h1, h2, h3, h4, h5, h6⟩ := hm
    obtain ⟨c, es, ms, r1, r2⟩ := ihm h1
    obtain ⟨d, fs, ns, u1, u2⟩ := ihq h2
    obtain ⟨c', q1, q2⟩ := r2.add u2 ht h3 h4 h5 (m.order_perm h1) (q.order_perm h2) h6
    rw [r2.count] at q2
    refine ⟨c', _, _, ?_, q2⟩
    simp only [MixProg.run, Option.bind_eq_bind]
    obtain ⟨a', q1⟩ := q1
    rw [r1, Option.bind_some, u1, Option.bind_some, q1]
    rfl

/-- C107: appends, copies of elements, exchanges and `Add` in any order: the list counts and reads exactly like the array
it stands for, and so does every sub-list of it.  (Missing, because the code does otherwise: `Add` with a list the last
element of which is not the one stored last, and appends to the sub-list, see `add_swapped_fails`, `swapped_add_fails` and
`range_swapped_fails`.) -/
theorem list_mixed_partial (s : Sch) (t : Name) (F : Nat) (ht : TabElt s t) (m : MixProg) (hm : m.Ok s t F) :
    ∃ c, m.run s t (F + 1) = some c ∧ c.listLen = some m.items.length ∧
      (∀ (i : Nat) (v : Val), m.items[i]? = some v → ∃ n, c.at_ s i = some (.ok n) ∧ v.Reads s n) ∧
      ∀ a b : Nat, a ≤ b → b < m.items.length → ∃ d, c.newRange s (F + 1) a b = some (some d) ∧ d.listLen = some (b + 1 - a) ∧
        ∀ (i : Nat) (v : Val), a + i ≤ b → m.items[a + i]? = some v → ∃ n, d.at_ s i = some (.ok n) ∧ v.Reads s n := by
  obtain ⟨c, es, ms, r1, r2⟩ := prog_mixed ht m hm
  refine ⟨c, r1, by rw [r2.len]; exact r2.tlx.view.listLen, ?_, ?_⟩
  · intro i v hv
    obtain ⟨j, e, hj, he, hE⟩ := r2.get hv
    obtain ⟨tl, hat⟩ := r2.tlx.view.at_eq ht hj he
    exact ⟨_, hat, hE.reads (r2.tlx.elt j e he) rfl rfl rfl⟩
  · intro a b hab hb
    have hl := r2.len
    have hl' := r2.tlx.ilen
    obtain ⟨d, L, w1, w2, w3, w4⟩ := r2.tlx.newRange ht (by omega) F (Nat.le_refl _) a (b + 1 - a) (by omega) (by omega)
    have e0 : (a : Int) + ((b + 1 - a : Nat) : Int) - 1 = (b : Int) := by omega
    rw [e0] at w1
    refine ⟨d, w1, by rw [w2.listLen, w3], ?_⟩
    intro i v hi hv
    obtain ⟨qe, hqe⟩ : ∃ qe, L[i]? = some qe := ⟨_, List.getElem?_eq_getElem (show i < L.length by omega)⟩
    obtain ⟨j, hj, hje⟩ := w4 i qe hqe
    obtain ⟨j', e, hj', he, hE⟩ := r2.get hv
    rw [hj] at hj'
    cases hj'
    rw [hje] at he
    cases he
    obtain ⟨tl, hat⟩ := w2.at_eq ht hqe
    exact ⟨_, hat, hE.reads (w2.elt _ (List.mem_of_getElem? hqe)) rfl rfl rfl⟩

-- the hypotheses can be met: a list with elements exchanged, one appended, again exchanged, one taken from its sub-list
def mixProg : MixProg :=
  .copySub (.swap (.app (.swap (.prog deepProg) 0 3) true (deepChain [65, 66] 2)) 1 4) (.swap (.prog deepProg) 1 3) 1 3 0

/-- The last element of both lists was stored last. -/
def mixAdd : MixProg := .swap (.add mixProg (.swap (.prog deepProg) 0 1)) 2 8

theorem mixProg_ok : mixProg.Ok deepSch "NN".toList 29 :=
  ⟨⟨deepProg_ok, ⟨(deepChain_fits 29 _ (by decide) 2).1, by decide, rfl⟩, by decide⟩, deepProg_ok, by decide, by decide, by decide⟩

theorem mixAdd_ok : mixAdd.Ok deepSch "NN".toList 29 :=
  ⟨mixProg_ok, deepProg_ok, fun _ => (by decide : mixProg.order[5]? = some 5), (by decide : (swapL (List.range 4) 0 1)[3]? = some 3),
    List.cons_ne_nil _ _, by decide⟩

example : mixAdd.items = [deepTree [65, 66] 3, deepChain [65, 66] 2, deepEnd [68], deepChain [65, 66] 3, deepEnd [67], deepTree [65, 66] 3,
    deepEnd [67], deepChain [65, 66] 3, deepEnd [68], deepTree [65, 66] 3] := rfl

example : ∃ c, mixAdd.run deepSch "NN".toList 30 = some c ∧ c.listLen = some mixAdd.items.length ∧
      (∀ (i : Nat) (v : Val), mixAdd.items[i]? = some v → ∃ n, c.at_ deepSch i = some (.ok n) ∧ v.Reads deepSch n) ∧
      ∀ a b : Nat, a ≤ b → b < mixAdd.items.length → ∃ d, c.newRange deepSch 30 a b = some (some d) ∧ d.listLen = some (b + 1 - a) ∧
        ∀ (i : Nat) (v : Val), a + i ≤ b → mixAdd.items[a + i]? = some v → ∃ n, d.at_ deepSch i = some (.ok n) ∧ v.Reads deepSch n :=
  list_mixed_partial deepSch "NN".toList 29 ⟨ftTable, by decide, by decide, by decide, by decide, by decide⟩ mixAdd mixAdd_ok

/-! ## where the code goes wrong -/

/-- A table with nothing but a number. -/
def idVal (k : Nat) : Val := .tab "NN".toList [deepId k] .none []

/-- The list of the tables 1, 2, 3 with the first and the last exchanged: 3, 2, 1. -/
def swapped3 : MixProg := .swap (.app (.app (.app (.prog .init) false (idVal 1)) false (idVal 2)) false (idVal 3)) 0 2

/-- The list of the tables 5, 6. -/
def plain2 : MixProg := .app (.app (.prog .init) false (idVal 5)) false (idVal 6)

/-- The numbers of the tables of a list. -/
def listNums (c : CNode) : Go (List (Option Bytes)) := do
  let n ← c.listLen
  return (List.range n).map fun i => do
    match ← c.at_ deepSch i with
    | .ok n => CNode.bytes (← n.fieldAt deepSch 2)
    | .error _ => none

/-- What `m.Add(q)` leaves in the list, and whether it reports an error. -/
def numsAdd (m q : MixProg) : Go (List (Option Bytes) × Bool) := do
  let c ← m.run deepSch "NN".toList 30
  let d ← q.run deepSch "NN".toList 30
  let (c, _, e) ← c.add deepSch 30 d
  return (← listNums c, e.isSome)

/-- C107 is violated: a list added to one with exchanged elements is written over two of these. -/
theorem swapped_add_fails : numsAdd swapped3 plain2 =
    some ([some [6, 0, 0, 0], some [5, 0, 0, 0], some [1, 0, 0, 0], some [5, 0, 0, 0], some [6, 0, 0, 0]], false) := by decide +kernel

/-- C107 is violated: of a list with exchanged elements that is added to another one only the last element arrives. -/
theorem add_swapped_fails : numsAdd plain2 swapped3 =
    some ([some [5, 0, 0, 0], some [6, 0, 0, 0], none, none, some [1, 0, 0, 0]], false) := by decide +kernel

/-- C107 is violated: an element appended to a sub-list of a list with exchanged elements is written over another one. -/
theorem range_swapped_fails : (do
      let c ← swapped3.run deepSch "NN".toList 30
      match ← c.newRange deepSch 30 0 1 with
      | some d =>
        let before ← listNums d
        let d ← runAppend deepSch 30 d [← (idVal 9).node deepSch 30]
        return (before, ← listNums d)
      | none => none) =
    some ([some [3, 0, 0, 0], some [2, 0, 0, 0]], [some [9, 0, 0, 0], some [2, 0, 0, 0], some [9, 0, 0, 0]]) := by decide +kernel

-- without the exchange all is well
example : numsAdd plain2 plain2 = some ([some [5, 0, 0, 0], some [6, 0, 0, 0], some [5, 0, 0, 0], some [6, 0, 0, 0]], false) := by decide +kernel

end Fbs.Props
