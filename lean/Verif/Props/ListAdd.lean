import Verif.ListAdd
import Verif.Props.ListTable
/-!
# Adding lists of tables: C55
-/

namespace Fbs.Props
open Fbs CNode

theorem add_TLI {s : Sch} {k0 k : Nat} {t : Name} {vs : Nat} {c a : CNode} {es fs : List El} (ht : TabElt s t) (hk : k0 ≤ k)
    (h : TLI s k0 t vs c es) (ha : TLI s k0 t vs a fs) (hfe : fs ≠ []) (hsm : elEnd (es ++ fs) + vs < 4294967296) :
    ∃ c' a', c.add s (k + 1) a = some (c', a', none) ∧ TLI s k0 t vs c' (es ++ fs) := by
  have hfpos : 0 < fs.length := List.length_pos_iff.mpr hfe
  have hlist : ∃ c' a', c.addTableList s (k + 1) a = some (c', a', none) ∧ TLI s k0 t vs c' (es ++ fs) := by
    by_cases hne : es = []
    · subst hne
      unfold CNode.addTableList
      rw [ha.listLen, h.listLen]
      simp only [Option.bind_eq_bind, Option.bind_some]
      rw [if_neg (by omega)]
      simp only [List.length_nil, if_true]
      obtain ⟨a1, h1, h2, h3⟩ := ha.dupList ht k hk
      rw [h1]
      simp only [Option.bind_some]
      have h4 : TLI s k0 t vs { name := c.name, io := a1.io.dup, pos := c.pos, size := c.size, tlen := c.tlen, vi := { a1.vi with pos := a1.vi.pos } } fs :=
        ⟨h.name, h.cpos, h3.vpos, h3.vlen, h3.vsize, h3.small, h3.dup.hdr, h3.dup.off, h3.dup.elt, h3.self, h3.len, h3.dup.clean0,
          h3.dup.clean1, h3.dup.below, h3.dup.exact⟩
      have hv : TView s k0 t vs { name := c.name, io := a1.io.dup, pos := c.pos, size := c.size, tlen := c.tlen, vi := { c.vi with pos := a1.vi.pos } } fs :=
        ⟨h.name, h3.vpos, h3.small, h3.dup.hdr, h3.dup.off, h3.dup.elt, h3.self⟩
      unfold CNode.refresh
      rw [hv.infoSlice ht k hk]
      simp only [pure]
      refine ⟨_, _, rfl, ?_⟩
      exact ⟨h.name, h.cpos, rfl, rfl, fun hn => by simp only; rw [if_neg hfe]; rfl, h3.small, h4.hdr, h4.off, h4.elt, h4.self, h4.len,
        h4.clean0, h4.clean1, h4.below, h4.exact⟩
    · exact h.addTables ha ht hne hfe hsm k hk
  obtain ⟨c', a', h1, h2⟩ := hlist
  refine ⟨c', a', ?_, h2⟩
  obtain ⟨tl, h3⟩ := ha.view.at_eq ht (List.getElem?_eq_getElem hfpos)
  simp only [Int.natCast_zero] at h3
  obtain ⟨g, hg, g1, g2, g3, g4⟩ := ht
  unfold CNode.add
  rw [inRoot_false h.hdr (by rw [h.cpos]; omega)]
  simp only [Option.bind_eq_bind, Option.bind_some, Bool.false_eq_true, if_false]
  rw [h3]
  simp only [Option.bind_some]
  rw [hg]
  simp only [Option.bind_some, g1, g2, g3, g4, Bool.or_false, Bool.false_eq_true, if_false, if_true]
  exact h1

/-- How a list of tables can be built: an empty list, a table from a flat buffer (buffer, position, size of
its data) appended with `SetAt(t, Count())`, or a second list added with `Add`. -/
inductive Build where
  | init
  | app (b : Build) (x : Slice × Nat × Nat)
  | add (b c : Build)

/-- Run the calls. -/
def Build.run (s : Sch) (t : Name) (fuel : Nat) : Build → Go CNode
  | .init => some (initList ('[' :: ']' :: t))
  | .app b x => do
    let c ← b.run s t fuel
    runAppend s fuel c [{ name := t, io := Base.new x.1, pos := x.2.1 }]
  | .add b d => do
    let c ← b.run s t fuel
    let a ← d.run s t fuel
    let (c, _, e) ← c.add s fuel a
    if e.isSome then none else some c

/-- Specification: the array. -/
def Build.items : Build → List (Slice × Nat × Nat)
  | .init => []
  | .app b x => b.items ++ [x]
  | .add b d => b.items ++ d.items

/-- No empty list is added. -/
def Build.NonEmpty : Build → Prop
  | .init => True
  | .app b _ => b.NonEmpty
  | .add b d => b.NonEmpty ∧ d.NonEmpty ∧ d.items ≠ []

/-- Specification: the size of the list as one message. -/
def listSize (s : Sch) (t : Name) (l : List (Slice × Nat × Nat)) : Nat :=
  4 + (l.map fun x => 8 + 2 * (s.fields t).length + x.2.2).sum

def tabEl (s : Sch) (t : Name) (x : Slice × Nat × Nat) : El := ⟨[tabBytes s t x.1.data x.2.1 x.2.2], x.2.2⟩

theorem elEnd_items {s : Sch} {t : Name} (l : List (Slice × Nat × Nat)) (hok : ∀ x ∈ l, FlatTab s t x.1.data x.2.1 x.2.2) :
    elEnd (l.map (tabEl s t)) = listSize s t l := by
  unfold elEnd sumTot listSize
  induction l with
  | nil => rfl
  | cons x l ih =>
    have h1 := tabBytes_length (hok x (List.mem_cons_self ..))
    have h2 := ih (fun y hy => hok y (List.mem_cons_of_mem _ hy))
    simp only [List.map_cons, List.sum_cons, List.length_cons, tabEl, tot, List.map_nil, List.sum_nil] at h2 ⊢
    omega

theorem listSize_append (s : Sch) (t : Name) (l m : List (Slice × Nat × Nat)) :
    listSize s t (l ++ m) + 4 = listSize s t l + listSize s t m := by
  unfold listSize; simp; omega

theorem build_TLI {s : Sch} {t : Name} {k : Nat} (ht : TabElt s t) (hT : InlTab s t) (b : Build) (hn : b.NonEmpty)
    (hok : ∀ x ∈ b.items, FlatTab s t x.1.data x.2.1 x.2.2)
    (hl : listSize s t b.items + (4 + 2 * (s.fields t).length) < 4294967296) :
    ∃ c, b.run s t (k + 4) = some c ∧ TLI s 3 t (4 + 2 * (s.fields t).length) c (b.items.map (tabEl s t)) := by
  induction b with
  | init => exact ⟨_, rfl, initList_TLI⟩
  | app b x ih =>
    have h0 := listSize_append s t b.items [x]
    have h0' : 4 ≤ listSize s t [x] := by unfold listSize; omega
    have hokb : ∀ y ∈ b.items, FlatTab s t y.1.data y.2.1 y.2.2 := fun y hy => hok y (List.mem_append_left _ hy)
    simp only [Build.items] at hl
    obtain ⟨c, h1, h2⟩ := ih hn hokb (by omega)
    have hx := hok x (List.mem_append_right _ (List.mem_singleton.mpr rfl))
    obtain ⟨c', h3, h4⟩ := append_TLI (k := k + 3) ht (by omega) (by omega)
      [({ name := t, io := Base.new x.1, pos := x.2.1 }, tabEl s t x)] h2 (by
        intro y hy
        rw [List.mem_singleton] at hy
        subst hy
        exact flat_src hT hx _ rfl rfl rfl rfl) (by
        have := elEnd_items _ hok
        simp only [Build.items, List.map_append] at this
        simp only [List.map_cons, List.map_nil] at this ⊢
        rw [this]; omega)
    refine ⟨c', ?_, ?_⟩
    · simp only [Build.run]
      rw [h1]; exact h3
    · simp only [Build.items, List.map_append]; exact h4
  | add b d ihb ihd =>
    have h0 := listSize_append s t b.items d.items
    have hb4 : 4 ≤ listSize s t b.items := by unfold listSize; omega
    have hd4 : 4 ≤ listSize s t d.items := by unfold listSize; omega
    have hall := elEnd_items _ hok
    simp only [Build.items] at hl hok hall
    obtain ⟨n1, n2, n3⟩ := hn
    obtain ⟨c, h1, h2⟩ := ihb n1 (fun y hy => hok y (List.mem_append_left _ hy)) (by omega)
    obtain ⟨a, h3, h4⟩ := ihd n2 (fun y hy => hok y (List.mem_append_right _ hy)) (by omega)
    obtain ⟨c', a', h5, h6⟩ := add_TLI (k := k + 3) ht (by omega) h2 h4 (by simpa using n3) (by rw [← List.map_append, hall]; exact hl)
    refine ⟨c', ?_, by simp only [Build.items, List.map_append]; exact h6⟩
    simp only [Build.run]
    rw [h1, h3]
    simp only [Option.bind_eq_bind, Option.bind_some]
    rw [h5]
    rfl

/-- C55 for tables with scalar and struct fields in flat buffers, together with C48: a list built by any
combination of appending tables and adding other lists built like that is the concatenation.  The count is
the sum, and `At(i)` is a table with the bytes of the `i`-th table, including its virtual table. -/
theorem add_tables_partial (s : Sch) (t : Name) (k : Nat) (ht : TabElt s t) (hT : InlTab s t) (b : Build) (hn : b.NonEmpty)
    (hok : ∀ x ∈ b.items, FlatTab s t x.1.data x.2.1 x.2.2)
    (hl : listSize s t b.items + (4 + 2 * (s.fields t).length) < 4294967296) :
    ∃ c, b.run s t (k + 4) = some c ∧ c.listLen = some b.items.length ∧
      ∀ (i : Nat) (x : Slice × Nat × Nat), b.items[i]? = some x → ∃ n, c.at_ s i = some (.ok n) ∧ n.name = t ∧
        4 + 2 * (s.fields t).length ≤ n.pos ∧
        ∀ j : Nat, j < 4 + 2 * (s.fields t).length + x.2.2 →
          n.io.content (n.pos - (4 + 2 * (s.fields t).length) + j) = x.1.data[x.2.1 - (4 + 2 * (s.fields t).length) + j]? := by
  obtain ⟨c, h1, h2⟩ := build_TLI (k := k) ht hT b hn hok hl
  refine ⟨c, h1, by rw [h2.listLen]; simp, ?_⟩
  intro i x hx
  have hx' : (b.items.map (tabEl s t))[i]? = some (tabEl s t x) := by simp [hx]
  obtain ⟨tl, hat⟩ := h2.view.at_eq ht hx'
  refine ⟨_, hat, rfl, by simp only; omega, ?_⟩
  have hsp := holdsC_spells (h2.elt i _ hx')
  intro j hj
  have hlen := tabBytes_length (hok x (List.mem_of_getElem? hx))
  simp only [tabEl, List.flatten_cons, List.flatten_nil, List.append_nil] at hsp
  simp only [Nat.add_sub_cancel]
  rw [hsp j (by omega)]
  unfold tabBytes
  rw [List.getElem?_take_of_lt (by omega), List.getElem?_drop]

-- the hypotheses of `add_tables_partial` are satisfiable
example : ∃ b : Build, b.NonEmpty ∧ b.items.length = 3 ∧ (∀ x ∈ b.items, FlatTab tabSch "TT".toList x.1.data x.2.1 x.2.2) ∧
    listSize tabSch "TT".toList b.items + (4 + 2 * (tabSch.fields "TT".toList).length) < 4294967296 := by
  refine ⟨.add (.app .init (oneTable, 8, 6)) (.app (.app .init (oneTable, 8, 6)) (oneTable, 8, 6)), ?_, rfl, ?_, by decide⟩
  · simp [Build.NonEmpty, Build.items]
  · intro x hx
    simp [Build.items] at hx
    subst hx; exact flatTab_one

/-- C55 is violated for an empty source: adding an empty list of tables reports an error (nothing is
changed). -/
theorem add_empty_fails (s : Sch) (k : Nat) (t : Name) (vs k0 : Nat) (c : CNode) (es : List El) (h : TLI s k0 t vs c es) :
    c.add s k (initList ('[' :: ']' :: t)) = some (c, initList ('[' :: ']' :: t), some .invalidIndex) := by
  unfold CNode.add
  rw [inRoot_false h.hdr (by rw [h.cpos]; omega)]
  have h1 : (initList ('[' :: ']' :: t)).at_ s 0 = some (.error .invalidIndex) := by
    have h2 : TLI s k0 t vs (initList ('[' :: ']' :: t)) [] := initList_TLI
    unfold CNode.at_
    rw [isList_of_name h2.name, h2.listLen]
    simp
  simp only [Option.bind_eq_bind, Option.bind_some, Bool.false_eq_true, if_false]
  rw [h1]
  rfl

end Fbs.Props
