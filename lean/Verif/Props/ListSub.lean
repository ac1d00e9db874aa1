import Verif.DirRange
import Verif.Props.List
/-!
# Programs on lists of scalars and structs, and their sub-lists: C47, C54, C55
-/

namespace Fbs.Props
open Fbs CNode

/-! ## programs -/

/-- Programs building a list of scalars or structs: a new list, `SetAt(i, f)` with a value `f` whose bytes are
`e`, and `Add` of another list built in the same way. -/
inductive DirProg where
  | init : DirProg
  | set  : DirProg → Nat → CNode → Bytes → DirProg
  | add  : DirProg → DirProg → DirProg

/-- The program run by the code; an error ends it. -/
def DirProg.run (s : Sch) (t : Name) (fuel : Nat) : DirProg → Go CNode
  | .init => some (initList ('[' :: ']' :: t))
  | .set p i f _ => do
    let c ← p.run s t fuel
    let (c, e) ← c.setAt s fuel i f
    if e.isSome then none else some c
  | .add p q => do
    let c ← p.run s t fuel
    let a ← q.run s t fuel
    let (c, _, e) ← c.add s fuel a
    if e.isSome then none else some c

/-- Specification: the array the program stands for. -/
def DirProg.items : DirProg → List Bytes
  | .init => []
  | .set p i _ e => (arrSet p.items i e).1
  | .add p q => p.items ++ q.items

/-- The steps make sense for arrays, and the list stays countable in four bytes. -/
def DirProg.Ok (t : Name) (sz : Nat) : DirProg → Prop
  | .init => True
  | .set p i f e => p.Ok t sz ∧ ElSrc t sz f e ∧ i ≤ p.items.length ∧ p.items.length + 1 < 4294967296
  | .add p q => p.Ok t sz ∧ q.Ok t sz ∧ q.items ≠ [] ∧ p.items.length + q.items.length < 4294967296

theorem dirProg_LI {s : Sch} {t : Name} {sz : Nat} (hd : DirElt s t sz) (k : Nat) (p : DirProg) (hp : p.Ok t sz) :
    ∃ c, p.run s t (k + 2) = some c ∧ LI t sz c p.items := by
  induction p with
  | init => exact ⟨_, rfl, initList_LI t sz⟩
  | set p i f e ih =>
    obtain ⟨h1, h2, h3, h4⟩ := hp
    obtain ⟨c, r1, r2⟩ := ih h1
    obtain ⟨c', r3, r4⟩ := LI_setAt hd r2 h2 i h4 k
    refine ⟨c', ?_, r4⟩
    have he : (arrSet p.items i e).2 = none := by
      unfold arrSet
      split
      · rfl
      · rw [if_pos (by omega)]
    simp only [DirProg.run]
    rw [r1]
    simp only [Option.bind_eq_bind, Option.bind_some]
    rw [r3, he]
    rfl
  | add p q ihp ihq =>
    obtain ⟨h1, h2, h3, h4⟩ := hp
    obtain ⟨c, r1, r2⟩ := ihp h1
    obtain ⟨a, r3, r4⟩ := ihq h2
    obtain ⟨c', r5, r6⟩ := add_direct s t sz k hd c a _ _ r2 r4 h3 h4
    refine ⟨c', ?_, r6⟩
    simp only [DirProg.run]
    rw [r1]
    simp only [Option.bind_eq_bind, Option.bind_some]
    rw [r3]
    simp only [Option.bind_some]
    rw [r5]
    rfl

/-- What it means for a list to be read as the array `es`. -/
def ReadsAs (s : Sch) (t : Name) (sz : Nat) (c : CNode) (es : List Bytes) : Prop :=
  c.listLen = some es.length ∧
  ∀ (i : Nat) (e : Bytes), es[i]? = some e → ∃ n, c.at_ s i = some (.ok n) ∧ n.name = t ∧
    (∀ (j : Nat), j < sz → n.io.content (n.pos + j) = e[j]?) ∧ (n.io.R n.pos sz).data.take sz = e

theorem LI_readsAs {s : Sch} {t : Name} {sz : Nat} (hd : DirElt s t sz) {c : CNode} {es : List Bytes} (h : LI t sz c es) :
    ReadsAs s t sz c es := by
  refine ⟨h.listLen, ?_⟩
  intro i e hi
  have hlt := (List.getElem?_eq_some_iff.mp hi).1
  have hw := h.wid e (List.mem_of_getElem? hi)
  refine ⟨_, h.at_eq hd i hlt, rfl, ?_, ?_⟩
  · intro j hj
    exact (h.elt i e hi).2.2 j (by omega)
  · have hr := (holds_read (h.elt i e hi) sz).2
    rw [hw] at hr
    exact hr

/-- C47 and C55 together: every program of `SetAt` and `Add` on lists of scalars or structs whose steps make
sense for arrays runs without error and leaves a list that reads as the array. -/
theorem direct_program (s : Sch) (t : Name) (sz k : Nat) (hd : DirElt s t sz) (p : DirProg) (hp : p.Ok t sz) :
    ∃ c, p.run s t (k + 2) = some c ∧ ReadsAs s t sz c p.items := by
  obtain ⟨c, h1, h2⟩ := dirProg_LI hd k p hp
  exact ⟨c, h1, LI_readsAs hd h2⟩

theorem elSrc_int32 (e : Bytes) (he : e.length = 4) : ElSrc "Int32".toList 4 { name := "Int32".toList, io := Base.new ⟨e, []⟩, pos := 0 } e :=
  ⟨rfl, he, holds_flat (by intro h; rw [h] at he; cases he) (fun k _ => by simp only [Nat.zero_add]) (by simp only [Nat.zero_add]; exact Nat.le_refl _), Or.inl (by simp only; decide)⟩

example : (DirProg.add (.set .init 0 { name := "Int32".toList, io := Base.new ⟨[1, 2, 3, 4], []⟩, pos := 0 } [1, 2, 3, 4])
    (.set .init 0 { name := "Int32".toList, io := Base.new ⟨[5, 6, 7, 8], []⟩, pos := 0 } [5, 6, 7, 8])).Ok "Int32".toList 4 :=
  ⟨⟨trivial, elSrc_int32 _ rfl, by decide, by decide⟩, ⟨trivial, elSrc_int32 _ rfl, by decide, by decide⟩, by decide, by decide⟩

/-! ## C54 sub-lists of lists of scalars and structs -/

theorem subL_readsAs {s : Sch} {t : Name} {sz : Nat} (hd : DirElt s t sz) {c : CNode} {es : List Bytes}
    (hs : es.length < 4294967296) (hw : ∀ e ∈ es, e.length = sz) {ps : List Bytes} (h : SubL t c es.length ps)
    (hin : ∀ (i : Nat) (e : Bytes), es[i]? = some e → ∃ cc ∈ cellsAt 4 ps, ∃ o, cc.1 + o = 4 + i * sz ∧ o + sz ≤ cc.2.length ∧ (cc.2.drop o).take sz = e) :
    ReadsAs s t sz c es := by
  have hsz := hd.pos
  have hl := h.listLen hs
  refine ⟨hl, ?_⟩
  intro i e hi
  have hlt := (List.getElem?_eq_some_iff.mp hi).1
  have hew := hw e (List.mem_of_getElem? hi)
  obtain ⟨cc, hcc, o, ho, hol, he⟩ := hin i e hi
  have hat := at_direct hd h.name hl (by rw [h.vpos]; omega) (i : Int)
  have hpos : (c.vi.pos + (i : Int) * (sz : Int)).toNat = 4 + i * sz := by
    rw [h.vpos, ← Int.natCast_mul]; omega
  rw [if_neg (by omega), hpos] at hat
  refine ⟨_, hat, rfl, ?_, ?_⟩
  · intro j hj
    simp only
    rw [← ho, Nat.add_assoc, h.cont cc hcc (o + j) (by omega), ← he, List.getElem?_take_of_lt hj, List.getElem?_drop]
  · simp only
    rw [← ho, h.piece cc hcc o (by omega)]
    exact he

/-- C54 for lists built by programs (elements of 4, 8, 12, ... bytes): the sub-list of any range inside the list
reads as the corresponding part of the array.  (Missing: elements of other sizes, where the code panics, see
`range_small_fails`; ranges going beyond the end, which are not refused, see `range_beyond_fails`.) -/
theorem sub_built_partial (s : Sch) (t : Name) (sz k : Nat) (hd : DirElt s t sz) (h4 : sz % 4 = 0) (p : DirProg) (hp : p.Ok t sz)
    (a cnt : Nat) (hc : 0 < cnt) (hac : a + cnt ≤ p.items.length) :
    ∃ c c', p.run s t (k + 2) = some c ∧ c.newRange s (k + 2) a ((a : Int) + cnt - 1) = some (some c') ∧
      ReadsAs s t sz c' ((p.items.drop a).take cnt) := by
  obtain ⟨c, h1, h2⟩ := dirProg_LI hd k p hp
  generalize p.items = es at *
  have hsz := hd.pos
  have hsm := h2.small
  have hw' : ∀ e ∈ (es.drop a).take cnt, e.length = sz := fun e he => h2.wid e (List.mem_of_mem_drop (List.mem_of_mem_take he))
  have hl' : ((es.drop a).take cnt).length = cnt := by rw [List.length_take, List.length_drop]; omega
  obtain ⟨c', h5, h6⟩ := newRange_direct hd h2.name h2.listLen hsm (p := 4) (by rw [h2.vpos]; rfl) k a cnt hc hac
    (ps := (es.drop a).take cnt) (fun i hi => by
      -- the place lies in an element
      obtain ⟨m, rfl⟩ : ∃ m, sz = 4 * m := ⟨sz / 4, by omega⟩
      have hm : 0 < m := by omega
      have hlt : (a + i) / m < es.length := Nat.lt_of_le_of_lt (Nat.div_le_self _ _) (by omega)
      have hH := h2.elt _ _ (List.getElem?_eq_getElem hlt)
      have hwl := h2.wid _ (List.getElem_mem hlt)
      have hmod := Nat.mod_lt (a + i) hm
      have hdm := Nat.div_add_mod (a + i) m
      have hS := holds_sub hH (4 * ((a + i) % m)) 4 (by omega) (by rw [hwl]; omega)
      have hlen : ((es[(a + i) / m].drop (4 * ((a + i) % m))).take 4).length = 4 := by
        rw [List.length_take, List.length_drop, hwl]; omega
      have hG := holds_getN' hS
      rw [hlen] at hG
      have hx : 4 + (a + i) / m * (4 * m) + 4 * ((a + i) % m) = 4 + 4 * (a + i) := by
        have : (a + i) / m * (4 * m) = 4 * (m * ((a + i) / m)) := by
          rw [Nat.mul_left_comm, Nat.mul_comm ((a + i) / m) m]
        rw [this]; omega
      rw [hx] at hG
      exact ⟨_, hG⟩)
    (h2.reads hsz a cnt) (by rw [tot_uniform hw', hl'])
  refine ⟨c, c', h1, h5, ?_⟩
  refine subL_readsAs hd (by omega) hw' (ps := (es.drop a).take cnt) (by rw [hl']; exact h6) ?_
  intro i e hi
  have hew := hw' e (List.mem_of_getElem? hi)
  exact ⟨(4 + i * sz, e), cellsAt_uniform hw' hi, 0, rfl, by simp only; omega, by simp only [List.drop_zero]; exact List.take_of_length_le (by omega)⟩

/-- C54 for lists in flat buffers: any element size, as long as the buffer has four bytes per element in front
of the end of the range (always so for elements of four bytes and more). -/
theorem sub_flat_partial (s : Sch) (t : Name) (sz k : Nat) (hd : DirElt s t sz) (bs sp : Bytes) (c : CNode) (p n : Nat)
    (hio : c.io = Base.new ⟨bs, sp⟩) (hn : c.name = '[' :: ']' :: t) (hp : c.vi.pos = (p : Int)) (hl : c.listLen = some n)
    (hn32 : n < 4294967296) (hfit : p + n * sz ≤ bs.length)
    (a cnt : Nat) (hc : 0 < cnt) (hac : a + cnt ≤ n) (h4 : 4 ≤ sz ∨ p + 4 * (a + cnt) ≤ bs.length) :
    ∃ c', c.newRange s (k + 2) a ((a : Int) + cnt - 1) = some (some c') ∧
      ReadsAs s t sz c' ((List.range cnt).map fun i => (bs.drop (p + (a + i) * sz)).take sz) := by
  have hsz := hd.pos
  have hle : (a + cnt) * sz ≤ n * sz := Nat.mul_le_mul_right _ hac
  have hmul : (a + cnt) * sz = a * sz + cnt * sz := Nat.add_mul ..
  have h4' : p + 4 * (a + cnt) ≤ bs.length := by
    rcases h4 with h4 | h4
    · have : 4 * (a + cnt) ≤ (a + cnt) * sz := by rw [Nat.mul_comm]; exact Nat.mul_le_mul_left _ h4
      omega
    · exact h4
  have hc0 : 0 < cnt * sz := Nat.mul_pos hc hsz
  have sub : ∀ x m, 0 < m → x + m ≤ bs.length → Holds c.io x ((bs.drop x).take m) := by
    intro x m hm hx
    have hlen : ((bs.drop x).take m).length = m := by rw [List.length_take, List.length_drop]; omega
    rw [hio]
    refine holds_flat (by intro h; rw [h] at hlen; simp at hlen; omega) ?_ (by omega)
    intro k hk
    rw [List.getElem?_take_of_lt (by omega), List.getElem?_drop]
  have hWl : ((bs.drop (p + a * sz)).take (cnt * sz)).length = cnt * sz := by rw [List.length_take, List.length_drop]; omega
  obtain ⟨c', h5, h6⟩ := newRange_direct hd hn hl hn32 hp k a cnt hc hac
    (ps := [(bs.drop (p + a * sz)).take (cnt * sz)]) (fun i hi => by
      have hS := holds_getN' (sub (p + 4 * (a + i)) 4 (by omega) (by omega))
      have hlen : ((bs.drop (p + 4 * (a + i))).take 4).length = 4 := by rw [List.length_take, List.length_drop]; omega
      rw [hlen] at hS
      exact ⟨_, hS⟩)
    (reads_one (holds_dup (sub (p + a * sz) (cnt * sz) hc0 (by omega)))) (by simp only [tot, List.map_cons, List.map_nil, List.sum_cons, List.sum_nil, Nat.add_zero]; exact hWl)
  refine ⟨c', h5, ?_⟩
  have hl' : ((List.range cnt).map fun (i : Nat) => (bs.drop (p + (a + i) * sz)).take sz).length = cnt := by simp
  have hfit2 : ∀ i, i < cnt → i * sz + sz ≤ cnt * sz := by
    intro i hi
    have : (i + 1) * sz ≤ cnt * sz := Nat.mul_le_mul_right _ hi
    rw [Nat.add_mul, Nat.one_mul] at this; exact this
  refine subL_readsAs hd (by omega) ?_ (ps := [(bs.drop (p + a * sz)).take (cnt * sz)]) (by rw [hl']; exact h6) ?_
  · intro e he
    obtain ⟨i, hi, rfl⟩ := List.mem_map.mp he
    have := hfit2 i (List.mem_range.mp hi)
    have hm : (a + i) * sz = a * sz + i * sz := Nat.add_mul ..
    rw [List.length_take, List.length_drop]; omega
  · intro i e hi
    have hlt : i < cnt := by have := (List.getElem?_eq_some_iff.mp hi).1; omega
    rw [List.getElem?_map, List.getElem?_range hlt] at hi
    simp only [Option.map_some, Option.some.injEq] at hi
    have := hfit2 i hlt
    refine ⟨(4, (bs.drop (p + a * sz)).take (cnt * sz)), List.mem_singleton_self _, i * sz, rfl, by simp only [hWl]; omega, ?_⟩
    simp only
    rw [List.drop_take, List.drop_drop, List.take_take, Nat.min_eq_left (by omega), ← hi, Nat.add_mul]
    congr 2
    omega

-- the hypotheses can be met
example : ∃ c', ({ name := "[]Int32".toList, io := Base.new ⟨[3, 0, 0, 0, 1, 0, 0, 0, 2, 0, 0, 0, 3, 0, 0, 0], []⟩, pos := 4, vi := { pos := 4, vlen := 3 } } : CNode).newRange {} 2 (1 : Nat) (((1 : Nat) : Int) + (2 : Nat) - 1) = some (some c') ∧
    ReadsAs {} "Int32".toList 4 c' [[2, 0, 0, 0], [3, 0, 0, 0]] :=
  sub_flat_partial {} "Int32".toList 4 0 (dirElt_int32 _) [3, 0, 0, 0, 1, 0, 0, 0, 2, 0, 0, 0, 3, 0, 0, 0] [] _ 4 3 rfl rfl rfl (by decide)
    (by decide) (by decide) 1 2 (by decide) (by decide) (Or.inl (by decide))

/-! ### where C54 does not hold -/

/-- A list of the given scalars, built by `SetAt`. -/
def builtList (t : String) (k : Nat) (l : List Nat) : Go CNode := do
  let (c, _) ← runSetAt {} 9 (initList ("[]" ++ t).toList) (l.zipIdx.map fun (v, i) => (i, fromScalar t.toList k v))
  return c

/-- The count and the elements of a list of scalars of `k` bytes. -/
def readList (k : Nat) (c : CNode) : Go (Nat × List (Option Nat)) := do
  let n ← c.listLen
  return (n, (List.range n).map fun (i : Nat) => match c.at_ {} i with | some (.ok e) => scalar k (some e) | _ => none)

/-- C54 is violated: a range that goes beyond the end is not refused.  From the list 1, 2, 3 of int64 the range
1..3 gives a list of count 3 whose third element cannot be read; the same range on a list of int32 panics. -/
theorem range_beyond_fails :
    (do let c ← builtList "Int64" 8 [1, 2, 3]
        let d ← c.newRange {} 9 1 3
        let d ← d
        readList 8 d) = some (3, [some 2, some 3, none]) ∧
    ((do let c ← builtList "Int32" 4 [1, 2, 3]
         c.newRange {} 9 1 3).isNone) := by
  constructor <;> decide +kernel

/-- C54 is violated: a range inside a list of int16 panics, because four bytes per element are read. -/
theorem range_small_fails :
    (do let c ← builtList "Int16" 2 [1, 2, 3]
        c.newRange {} 9 0 1).isNone ∧
    (do let c ← builtList "Int16" 2 [1, 2, 3]
        readList 2 c) = some (3, [some 1, some 2, some 3]) := by
  constructor <;> decide +kernel

/-- C54 is violated for sub-lists of changed sub-lists: the sub-list 0..2 of 1, 2, 3 in a flat buffer is changed
to 1, 77, 3 and reads so, but its own sub-list 0..2 reads 1, 2, 3. -/
theorem range_stale_fails :
    (do let c : CNode := { name := "[]Int32".toList, io := Base.new ⟨[3, 0, 0, 0, 1, 0, 0, 0, 2, 0, 0, 0, 3, 0, 0, 0], []⟩, pos := 4, vi := { pos := 4, vlen := 3 } }
        let d ← c.newRange {} 9 0 2
        let d ← d
        let (d, _) ← d.setAt {} 9 1 (fromScalar "Int32".toList 4 77)
        let x ← readList 4 d
        let e ← d.newRange {} 9 0 2
        let e ← e
        let y ← readList 4 e
        return (x, y)) = some ((3, [some 1, some 77, some 3]), (3, [some 1, some 2, some 3])) := by decide +kernel

end Fbs.Props
