import Verif.Props.Split
import Verif.Props.ListDeep
/-!
# Lists with their data written elsewhere, tables of any depth: C90, C91

As `Verif/Props/Split.lean`, with elements of any depth.
-/

namespace Fbs.Props
open Fbs CNode

/-- A program that makes a list whose elements are in a file. -/
inductive SplitVals where
  /-- `SetDataWriter` with a new file and `WriteDataAll` -/
  | split (p : DeepProg)
  /-- `l.SetAt(t, l.Count())` with a table built by calls and merged by `Flatten` -/
  | app (p : SplitVals) (v : Val)
  /-- `l.Add(m)`, after rewinding the file of `m` -/
  | add (p q : SplitVals)

/-- Run the calls; `none` is a panic or an error. -/
def SplitVals.run (s : Sch) (t : Name) (fuel : Nat) : SplitVals → Go CList
  | .split p => do
    let c ← p.run s t fuel
    match ← (({ node := c } : CList).setDataWriter { kind := .file }).writeDataAll s fuel with
    | (l, none) => return l
    | (_, some _) => none
  | .app p v => do
    let l ← p.run s t fuel
    let f ← v.node s fuel
    match ← l.setAt s fuel l.node.vi.vlen (stored true f) with
    | (l, none) => return l
    | (_, some _) => none
  | .add p q => do
    let l ← p.run s t fuel
    let a ← q.run s t fuel
    match ← l.add s { a with w := a.w.map Writer.seekStart } with
    | .ok (r, _, _) => return r
    | .error _ => none

/-- Specification: the values in the list. -/
def SplitVals.items : SplitVals → List Val
  | .split p => p.items
  | .app p v => p.items ++ [v]
  | .add p q => p.items ++ q.items

/-- Specification: the program uses `Add`. -/
def SplitVals.adds : SplitVals → Prop
  | .split _ => False
  | .app p _ => p.adds
  | .add _ _ => True

/-- Specification: the values are of the type of the elements, every list made on the way is smaller than 4 GiB, nothing is appended to the
result of an `Add` (see `split_add_append_fails`), and the field of variable length of a value appended is no table and no member of a union
(see `split_nested_fails`): it is a byte vector, a list, or there is none. -/
def SplitVals.Ok (s : Sch) (t : Name) (F : Nat) : SplitVals → Prop
  | .split p => p.Ok s t F
  | .app p v => p.Ok s t F ∧ ¬ p.adds ∧ (v.Fits s (F + 1) ∧ v.need ≤ F ∧ v.name = t ∧ v.spare s = 0) ∧ valsSize s t (p.items ++ [v]) < 4294967296
  | .add p q => p.Ok s t F ∧ q.Ok s t F ∧ valsSize s t (p.items ++ q.items) < 4294967296

/-- The merged buffer is the pieces, if no room is left over. -/
theorem Good.exact {s : Sch} {F : Nat} {v : Val} {c : CNode} {w : List Bytes} (h : Good s F v c w) (hv : v.spare s = 0) :
    c.io.flatten.bytes.data = w.flatten := by
  have hw : w.flatten ≠ [] := by
    intro h0
    have h1 := h.len
    have h2 := h.self.mpos
    rw [← tot_flatten, h0] at h1
    simp at h1
    omega
  have h0 : Holds c.io.flatten 0 w.flatten := spells_flatten hw (holdsC_spells h.held)
  have hr := h.room
  rw [hv, Nat.add_zero, ← tot_flatten] at hr
  have hbl := (flatten_bytes c.io).1
  apply List.ext_getElem?
  intro j
  by_cases hj : j < w.flatten.length
  · have := h0.2.2 j hj
    rw [Nat.zero_add] at this
    exact this
  · rw [List.getElem?_eq_none (by omega), List.getElem?_eq_none (by omega)]

theorem split_deep {s : Sch} {t : Name} {F : Nat} (ht : TabElt s t)
    (hg : ∃ g, getTypeGroup s.toReg ('[' :: ']' :: t) = some g ∧ isFieldTable g = true) (p : SplitVals) (hp : p.Ok s t F) :
    ∃ l es, p.run s t (F + 1) = some l ∧ SplitI s F t (4 + 2 * (s.fields t).length) l es ∧ List.Forall₂ (ElVal s t F) es p.items ∧
      (¬ p.adds → Sized l.node es) := by
  induction p with
  | split p =>
    obtain ⟨c, es, r1, r2, r3⟩ := prog_deep ht p hp
    obtain ⟨l, q1, q2, q3, -⟩ := r2.split ht (by omega) (F + 1) (by omega) (({ node := c } : CList).setDataWriter { kind := .file }) rfl rfl rfl rfl rfl rfl
    refine ⟨l, es, ?_, q2, r3, fun _ => q3⟩
    simp only [SplitVals.run, Option.bind_eq_bind]
    rw [r1, Option.bind_some, q1]; rfl
  | app p v ih =>
    obtain ⟨h1, h2, ⟨h3, h3n, rfl, h3s⟩, h4⟩ := hp
    obtain ⟨l, es, r1, r2, r3, r4⟩ := ih h1
    obtain ⟨f, w, hgd⟩ := val_good s F v h3 h3n
    have hB : (stored true f).io.bytes.data = w.flatten := hgd.exact h3s
    have b4 := hgd.src true h3n
    have hF : List.Forall₂ (ElVal s v.name F) (es ++ [(⟨pieces true w, v.data s⟩ : El)]) (p.items ++ [v]) :=
      forall₂_app r3 (.cons ⟨rfl, true, f, w, hgd, rfl⟩ .nil)
    have hE := elEnd_vals hF
    have hw : w.flatten ≠ [] := by
      intro h0
      have h1 := hgd.len
      have h2 := hgd.self.mpos
      rw [← tot_flatten, h0] at h1
      simp at h1
      omega
    have hH : Holds (stored true f).io 0 w.flatten := spells_flatten hw (holdsC_spells hgd.held)
    obtain ⟨l', q1, q2, q3⟩ := r2.setAt (B := w.flatten) (r4 h2) ht (by omega) b4 hgd.pos rfl hB (by
      intro j hj
      exact ⟨_, b4.self.info _ 0 (holdsC_single hH) j hj _ b4.name rfl (by
        show f.pos = _
        rw [hgd.pos]; omega)⟩) (by
      show elEnd (es ++ [(⟨pieces true w, v.data s⟩ : El)]) < _
      rw [hE]; exact h4) F (Nat.le_refl _)
    refine ⟨l', _, ?_, q2, hF, fun _ => q3⟩
    simp only [SplitVals.run, Option.bind_eq_bind]
    rw [r1, Option.bind_some, hgd.node, Option.bind_some, r2.node.vlen, q1]; rfl
  | add p q ihp ihq =>
    obtain ⟨h1, h2, h3⟩ := hp
    obtain ⟨l, es, r1, r2, r3, -⟩ := ihp h1
    obtain ⟨a, fs, u1, u2, u3, -⟩ := ihq h2
    have hF := forall₂_app r3 u3
    have hE := elEnd_vals hF
    obtain ⟨w, w1, w2, w3⟩ := u2.file
    have u2' : SplitI s F t (4 + 2 * (s.fields t).length) { a with w := a.w.map Writer.seekStart } fs := by
      refine ⟨u2.node, u2.dlen, ⟨w.seekStart, by simp only [w1, Option.map_some], ?_, ?_⟩, u2.ne⟩ <;> simp [Writer.seekStart, w2, w3]
    obtain ⟨r, l', a', q1, q2, -⟩ := r2.add u2' (by omega) hg (by
      intro v hv
      simp only [w1, Option.map_some, Option.some.injEq] at hv
      rw [← hv]
      simp [Writer.seekStart, w2]) (by rw [hE]; exact h3)
    refine ⟨r, _, ?_, q2, hF, fun hn => absurd trivial hn⟩
    simp only [SplitVals.run, Option.bind_eq_bind]
    rw [r1, Option.bind_some, u1, Option.bind_some, q1]; rfl

/-- C90 and C91 for tables of any depth: every program that moves the elements of lists of tables to files, appends merged tables and adds
such lists runs without error; the count is kept in memory, and count, offsets and file put together count and read exactly like the array of
values, through all their levels.  (Missing: appending after `Add`, tables not merged or with room left over, writers other than files.) -/
theorem split_deep_partial (s : Sch) (t : Name) (F : Nat) (ht : TabElt s t)
    (hg : ∃ g, getTypeGroup s.toReg ('[' :: ']' :: t) = some g ∧ isFieldTable g = true) (p : SplitVals) (hp : p.Ok s t F) :
    ∃ l, p.run s t (F + 1) = some l ∧ l.node.listLen = some p.items.length ∧ l.node.vi.vlen = p.items.length ∧
      (putTogether l).listLen = some p.items.length ∧
      ∀ (i : Nat) (v : Val), p.items[i]? = some v → ∃ n, (putTogether l).at_ s i = some (.ok n) ∧ v.Reads s n := by
  obtain ⟨l, es, r1, r2, r3, -⟩ := split_deep ht hg p hp
  have hv := r2.joined
  have hlen := r3.length_eq
  refine ⟨l, r1, by rw [r2.node.listLen, hlen], by rw [r2.node.vlen, hlen], by rw [← hlen]; exact hv.listLen, ?_⟩
  intro i v hi
  obtain ⟨e, he, rfl, fl, f, w, hgd, rfl⟩ := forall₂_get r3 hi
  obtain ⟨tl, hat⟩ := hv.at_eq ht he
  exact ⟨_, hat, hgd.reads l.joined.io (elX es i) (held_pieces (fl := fl) (reads_ne hgd.mem) (hv.elt i _ he)) _ rfl rfl rfl⟩

/-- C90, the bytes, for tables of any depth: after `WriteDataAll` of any program's list to a new file, count and offsets are in memory, and
followed by the file they are the bytes of the list. -/
theorem split_deep_bytes_partial (s : Sch) (t : Name) (F : Nat) (ht : TabElt s t) (p : DeepProg) (hp : p.Ok s t F) :
    ∃ c l w, p.run s t (F + 1) = some c ∧
      (({ node := c } : CList).setDataWriter { kind := .file }).writeDataAll s (F + 1) = some (l, none) ∧ l.w = some w ∧
      l.dLen = w.data.length ∧ l.node.io.flatten.bytes.data.length = 4 + 4 * p.items.length ∧
      l.node.io.flatten.bytes.data ++ w.data = c.io.flatten.bytes.data := by
  obtain ⟨c, es, r1, r2, r3⟩ := prog_deep ht p hp
  obtain ⟨l, q1, q2, -, q4⟩ := r2.split ht (by omega) (F + 1) (by omega) (({ node := c } : CList).setDataWriter { kind := .file }) rfl rfl rfl rfl rfl rfl
  obtain ⟨w, w1, w2, w3⟩ := q2.file
  have hlen := r3.length_eq
  have hl := q2.length
  refine ⟨c, l, w, r1, q1, w1, by rw [q2.dlen, w3, allPs_length], by rw [hl, hlen], ?_⟩
  have hup := lenBuf_upto (Nat.le_trans r2.len (by unfold elEnd; omega)) r2.below r2.clean1
  have hbl := (flatten_bytes c.io).1
  have hE : elEnd es = 4 + 4 * es.length + sumTot es := rfl
  have hS : c.io.content.Spells (4 + 4 * es.length) (allPs es).flatten := by
    apply holdsC_spells
    intro cc hcc
    obtain ⟨i, e, hi, hm⟩ := (cells_allPs _ es).mp hcc
    exact r2.elt i e hi cc hm
  have hd : c.io.flatten.bytes.data.drop (4 + 4 * es.length) = (allPs es).flatten := by
    by_cases h0 : (allPs es).flatten = []
    · have := allPs_length es
      rw [h0] at this ⊢
      simp only [List.length_nil] at this
      exact List.drop_eq_nil_iff.mpr (by omega)
    · have hF := spells_flatten h0 hS
      have hl2 := allPs_length es
      apply List.ext_getElem?
      intro j
      rw [List.getElem?_drop]
      by_cases hj : j < (allPs es).flatten.length
      · exact hF.2.2 j hj
      · rw [List.getElem?_eq_none (by omega), List.getElem?_eq_none (by omega)]
  rw [q4, w3, ← hd, List.take_append_drop]

-- the hypotheses can be met: a list of tables of several levels written out, a table with a list of tables appended, another list added
def splitVals : SplitVals := .add (.app (.split deepProg) (deepTree [65, 66] 3)) (.split (.app .init true (deepChain [65, 66] 3)))

theorem splitVals_ok : splitVals.Ok deepSch "NN".toList 29 :=
  ⟨⟨deepProg_ok, id, ⟨deepTree_fits 29, by decide, rfl, rfl⟩, by decide⟩, ⟨trivial, ⟨(deepChain_fits 29 _ (by decide) 3).1, by decide, rfl⟩, by decide⟩, by decide⟩

example : ∃ l, splitVals.run deepSch "NN".toList 30 = some l ∧ l.node.listLen = some 6 ∧ l.node.vi.vlen = 6 ∧ (putTogether l).listLen = some 6 ∧
    ∀ (i : Nat) (v : Val), splitVals.items[i]? = some v → ∃ n, (putTogether l).at_ deepSch i = some (.ok n) ∧ v.Reads deepSch n :=
  split_deep_partial deepSch "NN".toList 29 ⟨ftTable, by decide, by decide, by decide, by decide, by decide⟩ ⟨ftSlice ||| ftTable, by decide, by decide⟩
    splitVals splitVals_ok

/-- The number in the `i`-th table of a list. -/
def idOf (c : CNode) (i : Nat) : Option Nat :=
  match c.at_ deepSch i with
  | some (.ok n) =>
    match n.fieldAt deepSch 2 with
    | some (some f) => f.io.getN 4 f.pos
    | _ => none
  | _ => none

/-- A list of one table in a file, and the same with a table appended that has a table in it. -/
def oneOut : SplitVals := .split (.app .init true (deepEnd [67]))
def nestedOut : SplitVals := .app oneOut (deepChain [65] 1)

/-- C91 fails when a table with a table in it has been appended: more bytes are written to the file than are counted (the room that is left
over, see C92).  A list added afterwards stands in the file behind these, where its offsets do not lead: its table is lost.  Added to another
list, the list with the appended table is refused as wrongly written. -/
theorem split_nested_fails :
    (nestedOut.run deepSch "NN".toList 40).map (fun l => (l.dLen, l.w.map fun w => w.data.length)) = some (126, some 176) ∧
    (nestedOut.run deepSch "NN".toList 40).map (fun l => [idOf (putTogether l) 0, idOf (putTogether l) 1]) = some [some 5, some 0] ∧
    (oneOut.run deepSch "NN".toList 40).map (fun l => [idOf (putTogether l) 0]) = some [some 5] ∧
    (SplitVals.run deepSch "NN".toList 40 (.add nestedOut oneOut)).map (fun l => [idOf (putTogether l) 0, idOf (putTogether l) 1, idOf (putTogether l) 2]) =
      some [some 5, some 0, none] ∧
    (SplitVals.run deepSch "NN".toList 40 (.add oneOut nestedOut)).isNone = true := by
  refine ⟨?_, ?_, ?_, ?_, ?_⟩ <;> decide +kernel

end Fbs.Props
