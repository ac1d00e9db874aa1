import Verif.Props.ListProg
import Verif.LaidWire
/-!
# Programs over lists of values of any depth: C48, C49, C51, C54, C55

As `Verif/Props/ListProg.lean`, with elements of any depth: tables with byte vectors, tables, unions and lists of tables
inside, built by calls, merged by `Flatten` or not, or taken from a message that was saved and opened again.
-/

namespace Fbs.Props
open Fbs CNode

/-- A program that makes a list of tables. -/
inductive DeepProg where
  /-- an empty list -/
  | init
  /-- `l.SetAt(t, l.Count())` with a table built by calls, merged by `Flatten` or not -/
  | app (p : DeepProg) (fl : Bool) (v : Val)
  /-- `l.SetAt(r, l.Count())` with the root of a message that was saved and opened -/
  | load (p : DeepProg) (v : Val) (sp : Bytes)
  /-- `l.SetAt(m.At(i), l.Count())` -/
  | copy (p q : DeepProg) (i : Nat)
  /-- `l.Add(m)` -/
  | add (p q : DeepProg)
  /-- `l.New(OptRange(a, b))` -/
  | sub (p : DeepProg) (a b : Nat)

/-- Run the calls; `none` is a panic, an error or nil. -/
def DeepProg.run (s : Sch) (t : Name) (fuel : Nat) : DeepProg → Go CNode
  | .init => some (initList ('[' :: ']' :: t))
  | .app p fl v => do
    let c ← p.run s t fuel
    let f ← v.node s fuel
    runAppend s fuel c [stored fl f]
  | .load p v sp => do
    let c ← p.run s t fuel
    let f ← v.node s fuel
    let d ← f.finish
    let r ← CNode.openByBuf v.name ⟨d, sp⟩
    runAppend s fuel c [r]
  | .copy p q i => do
    let c ← p.run s t fuel
    let d ← q.run s t fuel
    match ← d.at_ s i with
    | .ok n => runAppend s fuel c [n]
    | .error _ => none
  | .add p q => do
    let c ← p.run s t fuel
    let d ← q.run s t fuel
    match ← c.add s fuel d with
    | (c, _, none) => return c
    | (_, _, some _) => none
  | .sub p a b => do
    let c ← p.run s t fuel
    match ← c.newRange s fuel a b with
    | some c => return c
    | none => none

/-- Specification: the values in the list. -/
def DeepProg.items : DeepProg → List Val
  | .init => []
  | .app p _ v => p.items ++ [v]
  | .load p v _ => p.items ++ [v]
  | .copy p q i => p.items ++ (q.items[i]?).toList
  | .add p q => p.items ++ q.items
  | .sub p a b => (p.items.drop a).take (b + 1 - a)

/-- Specification: bytes of a list of these values. -/
def valsSize (s : Sch) (t : Name) (l : List Val) : Nat :=
  4 + (l.map fun v => 8 + 2 * (s.fields t).length + v.data s).sum

/-- Specification: every step makes sense for arrays (indices inside, ranges inside), the values are of the type of the
elements, and every list made on the way is smaller than 4 GiB; moreover the added list is not empty (see
`add_empty_fails`).  `F` bounds the depth of the values. -/
def DeepProg.Ok (s : Sch) (t : Name) (F : Nat) : DeepProg → Prop
  | .init => True
  | .app p _ v => p.Ok s t F ∧ (v.Fits s (F + 1) ∧ v.need ≤ F ∧ v.name = t) ∧ valsSize s t (p.items ++ [v]) < 4294967296
  | .load p v _ => p.Ok s t F ∧ (v.Fits s (F + 1) ∧ v.need ≤ F ∧ v.name = t) ∧ valsSize s t (p.items ++ [v]) < 4294967296
  | .copy p q i => p.Ok s t F ∧ q.Ok s t F ∧ i < q.items.length ∧ valsSize s t (p.items ++ (q.items[i]?).toList) < 4294967296
  | .add p q => p.Ok s t F ∧ q.Ok s t F ∧ q.items ≠ [] ∧
      valsSize s t (p.items ++ q.items) + (4 + 2 * (s.fields t).length) < 4294967296
  | .sub p a b => p.Ok s t F ∧ a ≤ b ∧ b < p.items.length

/-- The pieces of a list element are the value. -/
def ElVal (s : Sch) (t : Name) (F : Nat) (e : El) (v : Val) : Prop :=
  v.name = t ∧ ∃ fl c w, Good s F v c w ∧ e = ⟨pieces fl w, v.data s⟩

theorem elEnd_vals {s : Sch} {t : Name} {F : Nat} {es : List El} {l : List Val} (h : List.Forall₂ (ElVal s t F) es l) :
    elEnd es = valsSize s t l := by
  unfold elEnd valsSize sumTot
  induction h with
  | nil => rfl
  | cons hab _ ih =>
    obtain ⟨h1, fl, c, w, hg, rfl⟩ := hab
    have h2 := hg.len
    rw [h1] at h2
    simp only [List.map_cons, List.sum_cons, List.length_cons, tot_pieces] at ih ⊢
    omega

theorem holds_new {d sp : Bytes} {x : Nat} {w : Bytes} (hw : w ≠ []) (h : (Base.new ⟨d, sp⟩).content.Spells x w) : Holds (Base.new ⟨d, sp⟩) x w := by
  have hd : ∀ k, k < w.length → d[x + k]? = w[k]? := h
  refine holds_flat hw hd ?_
  have hp := List.length_pos_iff.mpr hw
  have h1 := hd (w.length - 1) (by omega)
  rw [List.getElem?_eq_getElem (l := w) (by omega)] at h1
  have := (List.getElem?_eq_some_iff.mp h1).1
  omega

/-- The root of the saved message is a table that can be stored. -/
theorem Good.srcRoot {s : Sch} {F : Nat} {v : Val} {c : CNode} {w : List Bytes} (h : Good s F v c w) (sp : Bytes) {K : Nat} (hK : v.need ≤ K) :
    ∃ d r, c.finish = some d ∧ CNode.openByBuf v.name ⟨d, sp⟩ = some r ∧
      TSrc s K v.name (4 + 2 * (s.fields v.name).length) r ⟨pieces true w, v.data s⟩ := by
  obtain ⟨hfin, hH, hroot, tl, ho⟩ := h.saved sp
  have hp := h.pos
  have hne := reads_ne h.mem
  have hs := SelfC_pieces (h.self.mono hK) true hne
  refine ⟨_, _, hfin, ho, ?_⟩
  have hw : w.flatten ≠ [] := by
    intro h0
    have h1 := h.len
    have h2 := h.self.mpos
    rw [← tot_flatten, h0] at h1
    simp at h1
    omega
  have h0 := holds_new hw (holdsC_spells (hH sp))
  have hx : (8 + c.pos) - (4 + 2 * (s.fields v.name).length) = 8 := by omega
  refine ⟨rfl, by simp only; omega, ?_, hs, Or.inr ⟨by simp only; omega, ?_⟩⟩
  · simp only [hroot, hx]
    exact reads_one h0
  · intro k hk
    exact ⟨_, hs.info _ 8 (holdsC_single h0) k hk _ rfl rfl (by simp only; omega)⟩

theorem prog_deep {s : Sch} {t : Name} {F : Nat} (ht : TabElt s t) (p : DeepProg) (hp : p.Ok s t F) :
    ∃ c es, p.run s t (F + 1) = some c ∧ TLI s F t (4 + 2 * (s.fields t).length) c es ∧ List.Forall₂ (ElVal s t F) es p.items := by
  induction p with
  | init => exact ⟨_, [], rfl, initList_TLI, .nil⟩
  | app p fl v ih =>
    obtain ⟨h1, ⟨h2, h2n, rfl⟩, h3⟩ := hp
    obtain ⟨c, es, r1, r2, r3⟩ := ih h1
    obtain ⟨f, w, hg⟩ := val_good s F v h2 h2n
    have hF : List.Forall₂ (ElVal s v.name F) (es ++ [(⟨pieces fl w, v.data s⟩ : El)]) (p.items ++ [v]) :=
      forall₂_app r3 (.cons ⟨rfl, fl, f, w, hg, rfl⟩ .nil)
    have hE := elEnd_vals hF
    obtain ⟨c', q1, q2⟩ := append_TLI (k := F) ht (by omega) (Nat.le_refl _) [(stored fl f, (⟨pieces fl w, v.data s⟩ : El))] r2
      (by intro x hx; rw [List.mem_singleton.mp hx]; exact hg.src fl h2n) (by rw [List.map_cons, List.map_nil, hE]; exact h3)
    refine ⟨c', _, ?_, q2, hF⟩
    simp only [DeepProg.run, Option.bind_eq_bind]
    rw [r1, Option.bind_some, hg.node, Option.bind_some]
    exact q1
  | load p v sp ih =>
    obtain ⟨h1, ⟨h2, h2n, rfl⟩, h3⟩ := hp
    obtain ⟨c, es, r1, r2, r3⟩ := ih h1
    obtain ⟨f, w, hg⟩ := val_good s F v h2 h2n
    obtain ⟨d, r, o1, o2, o3⟩ := hg.srcRoot sp h2n
    have hF : List.Forall₂ (ElVal s v.name F) (es ++ [(⟨pieces true w, v.data s⟩ : El)]) (p.items ++ [v]) :=
      forall₂_app r3 (.cons ⟨rfl, true, f, w, hg, rfl⟩ .nil)
    have hE := elEnd_vals hF
    obtain ⟨c', q1, q2⟩ := append_TLI (k := F) ht (by omega) (Nat.le_refl _) [(r, (⟨pieces true w, v.data s⟩ : El))] r2
      (by intro x hx; rw [List.mem_singleton.mp hx]; exact o3) (by rw [List.map_cons, List.map_nil, hE]; exact h3)
    refine ⟨c', _, ?_, q2, hF⟩
    simp only [DeepProg.run, Option.bind_eq_bind]
    rw [r1, Option.bind_some, hg.node, Option.bind_some, o1, Option.bind_some, o2, Option.bind_some]
    exact q1
  | copy p q i ihp ihq =>
    obtain ⟨h1, h2, h3, h4⟩ := hp
    obtain ⟨c, es, r1, r2, r3⟩ := ihp h1
    obtain ⟨d, fs, u1, u2, u3⟩ := ihq h2
    obtain ⟨v, hv⟩ : ∃ v, q.items[i]? = some v := ⟨_, List.getElem?_eq_getElem h3⟩
    obtain ⟨e, he, hE0⟩ := forall₂_get u3 hv
    obtain ⟨tl, hat⟩ := u2.view.at_eq ht he
    have hF : List.Forall₂ (ElVal s t F) (es ++ [e]) (p.items ++ (q.items[i]?).toList) := by
      rw [hv]; exact forall₂_app r3 (.cons hE0 .nil)
    have hsrc := elt_src u2 he tl
    have hE := elEnd_vals hF
    obtain ⟨c', q1, q2⟩ := append_TLI (k := F) ht (by omega) (Nat.le_refl _)
      [({ name := t, io := d.io, pos := elX fs i + (4 + 2 * (s.fields t).length), tlen := tl }, e)] r2
      (by intro x hx; rw [List.mem_singleton.mp hx]; exact hsrc) (by rw [List.map_cons, List.map_nil, hE]; exact h4)
    refine ⟨c', _, ?_, q2, hF⟩
    simp only [DeepProg.run, Option.bind_eq_bind]
    rw [r1, Option.bind_some, u1, Option.bind_some, hat, Option.bind_some]
    exact q1
  | add p q ihp ihq =>
    obtain ⟨h1, h2, h3, h4⟩ := hp
    obtain ⟨c, es, r1, r2, r3⟩ := ihp h1
    obtain ⟨d, fs, u1, u2, u3⟩ := ihq h2
    have hF := forall₂_app r3 u3
    have hE := elEnd_vals hF
    have hfe : fs ≠ [] := by
      rintro rfl
      have := u3.length_eq
      exact h3 (List.length_eq_zero_iff.mp this.symm)
    obtain ⟨c', a', q1, q2⟩ := add_TLI (k := F) ht (Nat.le_refl _) r2 u2 hfe (by rw [hE]; exact h4)
    refine ⟨c', _, ?_, q2, hF⟩
    simp only [DeepProg.run, Option.bind_eq_bind]
    rw [r1, Option.bind_some, u1, Option.bind_some, q1]
    rfl
  | sub p a b ih =>
    obtain ⟨h1, h2, h3⟩ := hp
    obtain ⟨c, es, r1, r2, r3⟩ := ih h1
    have hl := r3.length_eq
    obtain ⟨c', q1, q2⟩ := r2.newRange ht (by omega) F (Nat.le_refl _) a (b + 1 - a) (by omega) (by omega)
    refine ⟨c', _, ?_, q2, ?_⟩
    · simp only [DeepProg.run, Option.bind_eq_bind]
      have e : (a : Int) + ((b + 1 - a : Nat) : Int) - 1 = (b : Int) := by omega
      rw [e] at q1
      rw [r1, Option.bind_some, q1]
      rfl
    · exact List.forall₂_take _ (List.forall₂_drop _ r3)

/-- Such a list as a vector of offsets. -/
theorem tabList_deep {s : Sch} {t : Name} {F : Nat} {c : CNode} {es : List El} {l : List Val}
    (h : TLI s F t (4 + 2 * (s.fields t).length) c es) (hF : List.Forall₂ (ElVal s t F) es l) :
    TabList t c 4 ((List.range es.length).map fun i => elX es i + (4 + 2 * (s.fields t).length)) := by
  have hsm := h.small
  have hEnd : elEnd es = 4 + 4 * es.length + sumTot es := rfl
  have hlen : ((List.range es.length).map fun i => elX es i + (4 + 2 * (s.fields t).length)).length = es.length := by simp
  have hget : ∀ x, x ∈ (List.range es.length).map (fun i => elX es i + (4 + 2 * (s.fields t).length)) →
      ∃ i e, es[i]? = some e ∧ x = elX es i + (4 + 2 * (s.fields t).length) := by
    intro x hx
    obtain ⟨i, hi, rfl⟩ := List.mem_map.mp hx
    rw [List.mem_range] at hi
    exact ⟨i, es[i], List.getElem?_eq_getElem hi, rfl⟩
  refine ⟨h.name, h.vpos, Nat.le_refl _, by rw [hlen]; omega, by rw [hlen]; exact h.hdr, ?_, ?_, ?_⟩
  · intro i x hx
    have hi : i < es.length := by
      have := (List.getElem?_eq_some_iff.mp hx).1
      rw [hlen] at this; exact this
    rw [List.getElem?_map, List.getElem?_range hi] at hx
    cases hx
    exact h.off i hi
  · intro x hx
    obtain ⟨i, e, hi, rfl⟩ := hget x hx
    have h1 := elX_end hi
    have h2 := (h.self e (List.mem_of_getElem? hi)).len
    have h3 : 4 + 4 * es.length ≤ elX es i := by unfold elX; omega
    rw [hlen]; omega
  · intro x hx
    obtain ⟨i, e, hi, rfl⟩ := hget x hx
    have hlt := (List.getElem?_eq_some_iff.mp hi).1
    have hb := h.elt i e hi
    obtain ⟨v, hv⟩ : ∃ v, l[i]? = some v := ⟨_, List.getElem?_eq_getElem (by rw [← hF.length_eq]; exact hlt)⟩
    obtain ⟨e', he', rfl, fl, f, w, hg, rfl⟩ := forall₂_get hF hv
    rw [hi] at he'; cases he'
    have h3 : 4 + 4 * es.length ≤ elX es i := by unfold elX; omega
    obtain ⟨nm, pre, sub, post⟩ := v
    obtain ⟨n, ⟨vo, fx, hL, -⟩, -⟩ := laid_frame.mp (hg.laid _ _ (held_pieces (reads_ne hg.mem) hb))
    simp only [Val.name] at *
    rw [hlen]
    have c1 := hL.at_.tab.soff
    have c2 := hL.at_.tab.vl
    have c3 := hL.tl
    have hfew := hg.few
    simp only [Val.name] at hfew
    refine ⟨n, 4 + 2 * (s.fields nm).length, 4 + 2 * (s.fields nm).length, by omega, by omega, by omega, hL.ht, c1, ?_, ?_, ?_, ?_, ?_, ?_⟩
    · unfold Out; omega
    · rw [Nat.add_sub_cancel]; exact c2
    · unfold Out; omega
    · rw [Nat.add_sub_cancel]; exact c3
    · unfold Out; omega
    · intro k hk
      rw [Nat.add_sub_cancel]
      have := (hL.at_.tab.slot k (by omega)).2
      rw [← Nat.add_assoc] at this
      exact ⟨_, putLE_length _ _, this, by unfold Out; omega⟩

/-- C48, C49, C51, C54 and C55 for elements of any depth: every program of appends, adds and sub-lists whose steps make
sense for arrays runs without error, and after any sequence of swaps the list counts and reads exactly like the array it
stands for: `At(i)` reads as the `i`-th value, through all its levels.  (Missing: tables with several fields of variable
length; appending after swapping.) -/
theorem list_program_deep_partial (s : Sch) (t : Name) (F : Nat) (ht : TabElt s t) (p : DeepProg) (hp : p.Ok s t F) (sw : List (Nat × Nat)) :
    ∃ c c', p.run s t (F + 1) = some c ∧ runSwaps s c sw = some c' ∧ c'.listLen = some p.items.length ∧
      ∀ (i : Nat) (v : Val), (swapsL p.items sw)[i]? = some v → ∃ n, c'.at_ s i = some (.ok n) ∧ v.Reads s n := by
  obtain ⟨c, es, r1, r2, r3⟩ := prog_deep ht p hp
  obtain ⟨c', q1, q2, q3⟩ := runSwaps_exact ht sw (tabList_deep r2 r3)
  have hlen := r3.length_eq
  refine ⟨c, c', r1, q1, ?_, ?_⟩
  · rw [q2.listLen, swapsL_length]; simp [hlen]
  · intro i v hi
    -- positions and values move together
    generalize hI : swapsL (List.range es.length) sw = I
    have e1 : swapsL ((List.range es.length).map fun i => elX es i + (4 + 2 * (s.fields t).length)) sw =
        I.map fun i => elX es i + (4 + 2 * (s.fields t).length) := by rw [swapsL_map, hI]
    have e2 : p.items = (List.range es.length).map fun i => (p.items[i]?).getD v := by
      apply List.ext_getElem?
      intro j
      rw [List.getElem?_map]
      by_cases hj : j < es.length
      · rw [List.getElem?_range hj]
        simp only [Option.map_some]
        rw [List.getElem?_eq_getElem (show j < p.items.length by omega)]; rfl
      · rw [List.getElem?_eq_none (by omega), List.getElem?_eq_none (by simp; omega)]; rfl
    have e3 : swapsL p.items sw = I.map fun i => (p.items[i]?).getD v := by
      conv => lhs; rw [e2]
      rw [swapsL_map, hI]
    rw [e3, List.getElem?_map] at hi
    cases hj : I[i]? with
    | none => rw [hj] at hi; cases hi
    | some j =>
      rw [hj] at hi
      simp only [Option.map_some, Option.some.injEq] at hi
      have hjm : j ∈ List.range es.length := swapsL_mem sw (by rw [hI]; exact List.mem_of_getElem? hj)
      rw [List.mem_range] at hjm
      have hv : p.items[j]? = some v := by
        rw [List.getElem?_eq_getElem (show j < p.items.length by omega)] at hi ⊢
        simp only [Option.getD_some] at hi
        rw [hi]
      obtain ⟨e, he, rfl, fl, f, w, hg, rfl⟩ := forall₂_get r3 hv
      rw [e1] at q2
      obtain ⟨tl, -, hat⟩ := q2.at_eq ht (i := i) (x := elX es j + (4 + 2 * (s.fields v.name).length)) (by rw [List.getElem?_map, hj]; rfl)
      refine ⟨_, hat, hg.reads c'.io (elX es j) (held_pieces (fl := fl) (reads_ne hg.mem) ?_) _ rfl rfl rfl⟩
      intro cc hcc
      have hm := cellsAt_mem hcc
      have h3 : 4 + 4 * es.length ≤ elX es j := by unfold elX; omega
      exact q3 _ _ (by simp; omega) (r2.elt j _ he cc hcc)

-- the hypotheses can be met: a chain of tables, a saved and opened one, elements copied, sub-lists taken and added
def deepProg : DeepProg :=
  .add (.sub (.copy (.load (.app .init false (deepChain [65, 66] 3)) (deepEnd [67]) [1, 2]) (.app .init true (deepEnd [68])) 0) 0 2)
    (.app .init true (deepTree [65, 66] 3))

theorem deepProg_ok : deepProg.Ok deepSch "NN".toList 29 :=
  ⟨⟨⟨⟨⟨trivial, ⟨(deepChain_fits 29 _ (by decide) 3).1, by decide, rfl⟩, by decide⟩, ⟨deepEnd_fits 29 _ (by decide), by decide, rfl⟩, by decide⟩,
    ⟨trivial, ⟨deepEnd_fits 29 _ (by decide), by decide, rfl⟩, by decide⟩, by decide, by decide⟩, by decide, by decide⟩,
    ⟨trivial, ⟨deepTree_fits 29, by decide, rfl⟩, by decide⟩, List.cons_ne_nil _ _, by decide⟩

example : ∃ c c', deepProg.run deepSch "NN".toList 30 = some c ∧ runSwaps deepSch c [(0, 2), (1, 3)] = some c' ∧ c'.listLen = some 4 ∧
      ∀ (i : Nat) (v : Val), [deepEnd [68], deepTree [65, 66] 3, deepChain [65, 66] 3, deepEnd [67]][i]? = some v →
        ∃ n, c'.at_ deepSch i = some (.ok n) ∧ v.Reads deepSch n :=
  list_program_deep_partial deepSch "NN".toList 29 ⟨ftTable, by decide, by decide, by decide, by decide, by decide⟩ deepProg deepProg_ok [(0, 2), (1, 3)]

end Fbs.Props
