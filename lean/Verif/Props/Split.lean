import Verif.SplitAppend
import Verif.Props.ListProg
/-!
# Lists with their data written elsewhere: C90, C91

`CommonList.SetDataWriter` and `WriteDataAll` move the elements of a list of tables to a file; further tables
are appended with `SetAt`, and two such lists are joined with `Add`.
-/

namespace Fbs.Props
open Fbs CNode

/-- A table built by `Init`, the settings and `Merge`. -/
def buildMerged (s : Sch) (fuel : Nat) (t : Name) (ops : List Setting) : Go CNode := do
  let f ← build s fuel t ops
  return { f with io := f.io.flatten }

/-- A program that makes a list whose elements are in a file. -/
inductive SplitProg where
  /-- `SetDataWriter` with a new file and `WriteDataAll` -/
  | split (p : ListProg)
  /-- `l.SetAt(t, l.Count())` with a table built by `Init`, the settings and `Merge` -/
  | app (p : SplitProg) (ops : List Setting)
  /-- `l.Add(m)`, after rewinding the file of `m` -/
  | add (p q : SplitProg)

/-- Run the calls; `none` is a panic or an error. -/
def SplitProg.run (s : Sch) (t : Name) (fuel : Nat) : SplitProg → Go CList
  | .split p => do
    let c ← p.run s t fuel
    match ← (({ node := c } : CList).setDataWriter { kind := .file }).writeDataAll s fuel with
    | (l, none) => return l
    | (_, some _) => none
  | .app p ops => do
    let l ← p.run s t fuel
    let f ← buildMerged s fuel t ops
    match ← l.setAt s fuel l.node.vi.vlen f with
    | (l, none) => return l
    | (_, some _) => none
  | .add p q => do
    let l ← p.run s t fuel
    let a ← q.run s t fuel
    match ← l.add s { a with w := a.w.map Writer.seekStart } with
    | .ok (r, _, _) => return r
    | .error _ => none

/-- Specification: the tables in the list, each as its settings. -/
def SplitProg.items : SplitProg → List (List Setting)
  | .split p => p.items
  | .app p ops => p.items ++ [ops]
  | .add p q => p.items ++ q.items

/-- Specification: the program uses `Add`. -/
def SplitProg.adds : SplitProg → Prop
  | .split _ => False
  | .app p _ => p.adds
  | .add _ _ => True

/-- Specification: every list made on the way is smaller than 4 GiB, and nothing is appended to the result of an
`Add` (see `split_add_append_fails`). -/
def SplitProg.Ok (s : Sch) (t : Name) : SplitProg → Prop
  | .split p => p.Ok s t
  | .app p ops => p.Ok s t ∧ ¬ p.adds ∧ TableOps s t ops ∧ itemsSize s t (p.items ++ [ops]) < 4294967296
  | .add p q => p.Ok s t ∧ q.Ok s t ∧ itemsSize s t (p.items ++ q.items) < 4294967296

/-- Specification: what a reader gets that is given the count and offsets followed by the file. -/
def putTogether (l : CList) : CNode :=
  { l.node with io := Base.new ⟨l.node.io.flatten.bytes.data ++ (l.w.map Writer.data).getD [], []⟩ }

theorem merged_src {s : Sch} {t : Name} (hs : SmallTable s t) (hT : InlTab s t) (fuel : Nat) {ops : List Setting} (ho : TableOps s t ops) :
    ∃ f vo, buildMerged s (fuel + 1) t ops = some f ∧ f.pos = 4 + 2 * (s.fields t).length ∧ f.io.diffs = [] ∧
      TSrc s 3 t (4 + 2 * (s.fields t).length) f ⟨[f.io.bytes.data], dataLen (s.fields t).length (lastSet ops)⟩ ∧
      Carries s t [f.io.bytes.data] (lastSet ops) vo := by
  obtain ⟨g, hg, hgs⟩ := hs.notList
  obtain ⟨c0, h0, r0⟩ := init_rep hs.ok hg hgs
  obtain ⟨c, h1, r1⟩ := inline_run hs.ok fuel r0 ops ho.src
  simp only [Option.or_none] at r1
  have hne : ∃ i, i < (s.fields t).length ∧ lastSet ops i ≠ none := by
    cases hops : ops with
    | nil => exact absurd hops ho.some_
    | cons o l =>
      have hm : o ∈ ops := by rw [hops]; exact List.mem_cons_self ..
      obtain ⟨fd, hfd, -⟩ := ho.src o hm
      exact ⟨o.field, (List.getElem?_eq_some_iff.mp hfd).1, by rw [← hops]; exact lastSet_mem hm⟩
  obtain ⟨vo, hp, h2, h3⟩ := rep_merged hT r1 hne ho.wide
  refine ⟨{ c with io := c.io.flatten }, vo, ?_, hp, rfl, h2, h3⟩
  unfold buildMerged build
  rw [h0]
  simp only [Option.bind_eq_bind, Option.bind_some]
  rw [h1]; rfl

theorem split_SplitI {s : Sch} {t : Name} (hs : SmallTable s t) (ht : TabElt s t) (hT : InlTab s t)
    (hg : ∃ g, getTypeGroup s.toReg ('[' :: ']' :: t) = some g ∧ isFieldTable g = true) (k : Nat) (p : SplitProg) (hp : p.Ok s t) :
    ∃ l es, p.run s t (k + 4) = some l ∧ SplitI s 3 t (4 + 2 * (s.fields t).length) l es ∧ List.Forall₂ (ElOps s t) es p.items ∧
      (¬ p.adds → Sized l.node es) := by
  induction p with
  | split p =>
    obtain ⟨c, es, r1, r2, r3⟩ := prog_TLI hs ht hT k p hp
    obtain ⟨l, q1, q2, q3, -⟩ := r2.split ht (by omega) (k + 4) (by omega) (({ node := c } : CList).setDataWriter { kind := .file }) rfl rfl rfl rfl rfl rfl
    refine ⟨l, es, ?_, q2, r3, fun _ => q3⟩
    simp only [SplitProg.run, Option.bind_eq_bind]
    rw [r1, Option.bind_some, q1]; rfl
  | app p ops ih =>
    obtain ⟨h1, h2, h3, h4⟩ := hp
    obtain ⟨l, es, r1, r2, r3, r4⟩ := ih h1
    obtain ⟨f, vo, b1, b2, b3, b4, b5⟩ := merged_src hs hT (k + 3) h3
    have hF : List.Forall₂ (ElOps s t) (es ++ [(⟨[f.io.bytes.data], dataLen (s.fields t).length (lastSet ops)⟩ : El)]) (p.items ++ [ops]) :=
      forall₂_app r3 (.cons ⟨rfl, vo, b5⟩ .nil)
    have hE := elEnd_size hF (by
      intro e he
      rcases List.mem_append.mp he with he | he
      · exact (r2.node.self e he).len
      · rw [List.mem_singleton.mp he]; exact b4.self.len)
    have hB : Holds f.io 0 f.io.bytes.data := by
      have hln := b4.self.len
      simp only [tot, List.map_cons, List.map_nil, List.sum_cons, List.sum_nil] at hln
      refine holds_congr (b' := f.io) (b := Base.new ⟨f.io.bytes.data, f.io.bytes.spare⟩) rfl b3 (holds_flat (w := f.io.bytes.data) ?_ ?_ (by omega))
      · intro h0
        rw [h0] at hln
        simp only [List.length_nil] at hln
        omega
      · intro j _
        rw [Nat.zero_add]
    obtain ⟨l', q1, q2, q3⟩ := r2.setAt (r4 h2) ht (by omega) b4 b2 b3 rfl (by
      intro j hj
      refine ⟨_, b4.self.info _ 0 ?_ j hj _ b4.name rfl (by rw [b2]; omega)⟩
      intro cc hcc
      simp only [cellsAt, List.mem_singleton] at hcc
      rw [hcc]
      exact hB) (by rw [hE]; exact h4) (k + 3) (by omega)
    refine ⟨l', _, ?_, q2, hF, fun _ => q3⟩
    simp only [SplitProg.run, Option.bind_eq_bind]
    rw [r1, Option.bind_some, b1, Option.bind_some, r2.node.vlen, q1]; rfl
  | add p q ihp ihq =>
    obtain ⟨h1, h2, h3⟩ := hp
    obtain ⟨l, es, r1, r2, r3, -⟩ := ihp h1
    obtain ⟨a, fs, u1, u2, u3, -⟩ := ihq h2
    have hF := forall₂_app r3 u3
    have hE := elEnd_size hF (by
      intro e he
      rcases List.mem_append.mp he with he | he
      · exact (r2.node.self e he).len
      · exact (u2.node.self e he).len)
    obtain ⟨w, w1, w2, w3⟩ := u2.file
    have u2' : SplitI s 3 t (4 + 2 * (s.fields t).length) { a with w := a.w.map Writer.seekStart } fs := by
      refine ⟨u2.node, u2.dlen, ⟨w.seekStart, by simp only [w1, Option.map_some], ?_, ?_⟩, u2.ne⟩ <;> simp [Writer.seekStart, w2, w3]
    obtain ⟨r, l', a', q1, q2, -⟩ := r2.add u2' (by omega) hg (by
      intro v hv
      simp only [w1, Option.map_some, Option.some.injEq] at hv
      rw [← hv]
      simp [Writer.seekStart, w2]) (by rw [hE]; exact h3)
    refine ⟨r, _, ?_, q2, hF, fun hn => absurd trivial hn⟩
    simp only [SplitProg.run, Option.bind_eq_bind]
    rw [r1, Option.bind_some, u1, Option.bind_some, q1]; rfl

/-- C90 and C91 for tables of scalar and struct fields: every program that moves the elements of lists of tables
to files, appends merged tables and adds such lists runs without error; the count is kept in memory, and count,
offsets and file put together count and read exactly like the array of tables.  (Missing: appending after `Add`,
tables not merged, writers other than files: see the witnesses below.) -/
theorem split_program_partial (s : Sch) (t : Name) (hs : SmallTable s t) (ht : TabElt s t) (hT : InlTab s t)
    (hg : ∃ g, getTypeGroup s.toReg ('[' :: ']' :: t) = some g ∧ isFieldTable g = true) (k : Nat) (p : SplitProg) (hp : p.Ok s t) :
    ∃ l, p.run s t (k + 4) = some l ∧ l.node.listLen = some p.items.length ∧ l.node.vi.vlen = p.items.length ∧
      (putTogether l).listLen = some p.items.length ∧
      ∀ (i : Nat) (ops : List Setting), p.items[i]? = some ops →
        ∃ n, (putTogether l).at_ s i = some (.ok n) ∧ n.name = t ∧ FieldsRead s t n (lastSet ops) := by
  obtain ⟨l, es, r1, r2, r3, -⟩ := split_SplitI hs ht hT hg k p hp
  have hv := r2.joined
  have hlen := r3.length_eq
  refine ⟨l, r1, by rw [r2.node.listLen, hlen], by rw [r2.node.vlen, hlen], by rw [← hlen]; exact hv.listLen, ?_⟩
  intro i ops hi
  obtain ⟨e, he, -, vo, hcar⟩ := forall₂_get r3 hi
  obtain ⟨tl, hat⟩ := hv.at_eq ht he
  exact ⟨_, hat, rfl, carries_read (b := l.joined.io) (x := elX es i) hT hcar (hv.elt i e he) rfl rfl rfl⟩

/-- C90, the bytes: after `WriteDataAll` of any program's list to a new file, count, offsets and file are exactly
the bytes of the list. -/
theorem split_bytes_partial (s : Sch) (t : Name) (hs : SmallTable s t) (ht : TabElt s t) (hT : InlTab s t) (k : Nat) (p : ListProg) (hp : p.Ok s t) :
    ∃ c l w, p.run s t (k + 4) = some c ∧
      (({ node := c } : CList).setDataWriter { kind := .file }).writeDataAll s (k + 4) = some (l, none) ∧ l.w = some w ∧
      l.dLen = w.data.length ∧ l.node.io.flatten.bytes.data.length = 4 + 4 * p.items.length ∧
      l.node.io.flatten.bytes.data ++ w.data = c.io.flatten.bytes.data := by
  obtain ⟨c, es, r1, r2, r3⟩ := prog_TLI hs ht hT k p hp
  obtain ⟨l, q1, q2, -, q4⟩ := r2.split ht (by omega) (k + 4) (by omega) (({ node := c } : CList).setDataWriter { kind := .file }) rfl rfl rfl rfl rfl rfl
  obtain ⟨w, w1, w2, w3⟩ := q2.file
  have hlen := r3.length_eq
  have hl := q2.length
  refine ⟨c, l, w, r1, q1, w1, by rw [q2.dlen, w3, allPs_length], by rw [hl, hlen], ?_⟩
  have hup := lenBuf_upto (Nat.le_trans r2.len (by unfold elEnd; omega)) r2.below r2.clean1
  have hbl := (flatten_bytes c.io).1
  have hE : elEnd es = 4 + 4 * es.length + sumTot es := rfl
  have hS : c.io.content.Spells (4 + 4 * es.length) (allPs es).flatten := by
    apply holdsC_spells
    intro cc hcc
    obtain ⟨i, e, hi, hm⟩ := (cells_allPs _ es).mp hcc
    exact r2.elt i e hi cc hm
  have hd : c.io.flatten.bytes.data.drop (4 + 4 * es.length) = (allPs es).flatten := by
    by_cases h0 : (allPs es).flatten = []
    · have := allPs_length es
      rw [h0] at this ⊢
      simp only [List.length_nil] at this
      exact List.drop_eq_nil_iff.mpr (by omega)
    · have hF := spells_flatten h0 hS
      have hl2 := allPs_length es
      apply List.ext_getElem?
      intro j
      rw [List.getElem?_drop]
      by_cases hj : j < (allPs es).flatten.length
      · exact hF.2.2 j hj
      · rw [List.getElem?_eq_none (by omega), List.getElem?_eq_none (by omega)]
  rw [q4, w3, ← hd, List.take_append_drop]

-- the hypotheses can be met: two lists written out, a table appended, both added
example : (SplitProg.add (.app (.split (.app .init nestSub)) nestSub) (.split (.app .init nestSub))).Ok nestSch "TT".toList :=
  ⟨⟨⟨trivial, nest_ops, by decide⟩, id, nest_ops, by decide⟩, ⟨trivial, nest_ops, by decide⟩, by decide⟩

example : ∃ g, getTypeGroup nestSch.toReg ('[' :: ']' :: "TT".toList) = some g ∧ isFieldTable g = true := ⟨ftSlice ||| ftTable, by decide, by decide⟩

/-- C90: giving a list a data writer starts over: nothing counts as written, whatever was written before. -/
theorem data_writer_fresh (l : CList) (w : Writer) :
    (l.setDataWriter w).dLen = 0 ∧ (l.setDataWriter w).dCur = 0 ∧ (l.setDataWriter w).w = some w ∧ (l.setDataWriter w).node = l.node :=
  ⟨rfl, rfl, rfl, rfl⟩

/-- C91, the cached numbers of the result of `Add`, for any two lists: lengths of data add up, and so do the sizes
except that four is subtracted.  (The sizes do not contain the counts, so the sum is four too small: see
`split_add_append_fails`.) -/
theorem add_cached (s : Sch) (l a r l' a' : CList) (h : l.add s a = some (.ok (r, l', a'))) :
    r.node.name = l.node.name ∧ r.node.pos = 4 ∧ r.node.vi.size = l.node.vi.size + a.node.vi.size - 4 ∧
      r.dLen = l.dLen + a.dLen ∧ r.dCur = l.dCur + a.dCur := by
  unfold CList.add at h
  simp only [Option.bind_eq_bind, pure] at h
  split at h
  · simp at h
  · obtain ⟨g, -, h⟩ := Option.bind_eq_some_iff.mp h
    split at h
    · simp at h
    · split at h
      · obtain ⟨dn, -, h⟩ := Option.bind_eq_some_iff.mp h
        obtain ⟨sn, -, h⟩ := Option.bind_eq_some_iff.mp h
        obtain ⟨io1, -, h⟩ := Option.bind_eq_some_iff.mp h
        obtain ⟨io2, -, h⟩ := Option.bind_eq_some_iff.mp h
        obtain ⟨vl, -, h⟩ := Option.bind_eq_some_iff.mp h
        split at h
        · simp at h
        · split at h
          · simp at h
          · split at h
            · simp at h
            · simp only [Option.some.injEq, Except.ok.injEq, Prod.mk.injEq] at h
              obtain ⟨rfl, -, -⟩ := h
              exact ⟨rfl, rfl, rfl, rfl, rfl⟩
      · simp at h

/-! ## what goes wrong -/

/-- The second field of the `i`-th table of a list. -/
def secondOf (c : CNode) (i : Nat) : Option Nat :=
  match c.at_ nestSch i with
  | some (.ok n) =>
    match n.fieldAt nestSch 1 with
    | some (some f) => f.io.getN 8 f.pos
    | _ => none
  | _ => none

/-- The list `[9, ..., 9]` of `n` tables. -/
def nines (n : Nat) : ListProg :=
  match n with
  | 0 => .init
  | n + 1 => .app (nines n) nestSub

/-- Write a list out. -/
def writeOut (k : WKind) (c : CNode) : Go CList := do
  match ← (({ node := c } : CList).setDataWriter { kind := k }).writeDataAll nestSch 9 with
  | (l, none) => return l
  | (_, some _) => none

/-- `l.SetAt(f, l.Count())`, no error. -/
def appendTo (l : CList) (f : CNode) : Go CList := do
  match ← l.setAt nestSch 9 l.node.vi.vlen f with
  | (l, none) => return l
  | (_, some _) => none

-- what it looks like when it goes well
example : ((do
    let c ← (nines 2).run nestSch "TT".toList 9
    let l ← writeOut .file c
    let f ← buildMerged nestSch 9 "TT".toList nestSub
    let l ← appendTo l f
    return [secondOf (putTogether l) 0, secondOf (putTogether l) 1, secondOf (putTogether l) 2]) : Go (List (Option Nat))) =
      some [some 9, some 9, some 9] := by decide +kernel

/-- C90 fails for a list whose elements have been swapped: the header is cut at the first element, which is no
longer the first in memory, so offsets and file do not belong together. -/
theorem split_swapped_fails : ((do
    let c ← (nines 2).run nestSch "TT".toList 9
    let (c, _) ← c.swapAt nestSch 0 1
    let l ← writeOut .file c
    return (secondOf c 0, secondOf c 1, l.node.vi.vlen, l.node.io.bytes.data.length)) : Go (Option Nat × Option Nat × Nat × Nat)) =
      some (some 9, some 9, 2, 32) := by decide +kernel

/-- C90 fails for a table that has not been merged: bytes of it do not reach the file. -/
theorem split_append_fails : ((do
    let c ← (nines 1).run nestSch "TT".toList 9
    let l ← writeOut .file c
    let f ← build nestSch 9 "TT".toList nestSub
    let l ← appendTo l f
    return (l.node.vi.vlen, secondOf (putTogether l) 0, secondOf (putTogether l) 1)) : Go (Nat × Option Nat × Option Nat)) =
      some (2, some 9, none) := by decide +kernel

/-- C90 fails for an element of another list: the whole other list is written to the file. -/
theorem split_append_at_fails : ((do
    let c ← (nines 2).run nestSch "TT".toList 9
    let l ← writeOut .file c
    match ← { c with io := c.io.flatten }.at_ nestSch 0 with
    | .ok f =>
      let l ← appendTo l f
      return (l.node.vi.vlen, l.dLen, (l.w.map fun w => w.data.length), secondOf (putTogether l) 2)
    | .error _ => none) : Go (Nat × Int × Option Nat × Option Nat)) = some (3, 60, some 92, some 38654705672) := by decide +kernel

/-- C90 fails for a writer that is not a file, here a `bytes.Buffer`: the appended table is lost though the count
and the length of the data grow. -/
theorem split_writer_fails : ((do
    let c ← (nines 1).run nestSch "TT".toList 9
    let l ← writeOut .buffer c
    let f ← buildMerged nestSch 9 "TT".toList nestSub
    let l' ← appendTo l f
    return (l'.node.vi.vlen, l.dLen, l'.dLen, (l.w.map fun w => w.data.length), (l'.w.map fun w => w.data.length))) :
      Go (Nat × Int × Int × Option Nat × Option Nat)) = some (2, 20, 40, some 20, some 20) := by decide +kernel

/-- C91 fails when a table is appended to the result of `Add`: its offset is four too small and what was
appended stays in memory behind the offsets, where the file should follow; the tables already there are lost. -/
theorem split_add_append_fails : ((do
    let c ← (nines 1).run nestSch "TT".toList 9
    let l ← writeOut .file c
    let m ← writeOut .file c
    match ← l.add nestSch { m with w := m.w.map Writer.seekStart } with
    | .ok (r, _, _) =>
      let f ← buildMerged nestSch 9 "TT".toList nestSub
      let r' ← appendTo r f
      return (secondOf (putTogether r) 0, secondOf (putTogether r) 1, secondOf (putTogether r') 0, secondOf (putTogether r') 1)
    | .error _ => none) : Go (Option Nat × Option Nat × Option Nat × Option Nat)) = some (some 9, some 9, none, none) := by decide +kernel

/-- C91 fails when the file of the added list has not been rewound, as right after `WriteDataAll`: `Add` reads
nothing and reports an error. -/
theorem split_add_cursor_fails : ((do
    let c ← (nines 1).run nestSch "TT".toList 9
    let l ← writeOut .file c
    let m ← writeOut .file c
    match ← l.add nestSch m with
    | .ok _ => none
    | .error (e, _, _) => return e) : Go AddErr) = some .writeSize := by decide +kernel

end Fbs.Props
