import Verif.Sort
import Verif.Props.Misc
import Verif.Props.ListMixed
/-!
# Sorting: C109

Whatever algorithm `sort.Sort` uses, as long as it sorts arrays it sorts lists of tables of any depth, however they were
made, and the sorted list can be searched, cut and added to like any other.
-/

namespace Fbs.Props
open Fbs CNode

/-- Specification: the algorithm on an array. -/
def onArray {α : Type} (lt : α → α → Bool) : SortAlg → List α → List α
  | .done, l => l
  | .less i j k, l =>
    match l[i]?, l[j]? with
    | some a, some b => onArray lt (k (lt a b)) l
    | _, _ => l
  | .swap i j k, l => onArray lt k (swapL l i j)

/-- Specification: the algorithm compares nothing outside of `n` elements. -/
def Inside (n : Nat) : SortAlg → Prop
  | .done => True
  | .less i j k => i < n ∧ j < n ∧ ∀ b, Inside n (k b)
  | .swap _ _ k => Inside n k

/-- Specification: no later element is less than an earlier one. -/
def Ordered {α : Type} (lt : α → α → Bool) (l : List α) : Prop :=
  ∀ (i j : Nat) (a b : α), i < j → l[i]? = some a → l[j]? = some b → lt b a = false

/-- Specification: the list counts and reads as the array. -/
def ListReads (s : Sch) (c : CNode) (l : List Val) : Prop :=
  c.isList = some true ∧ c.listLen = some l.length ∧ ∀ (i : Nat) (v : Val), l[i]? = some v → ∃ n, c.at_ s i = some (.ok n) ∧ v.Reads s n

/-- Specification: the function compares elements by what they read as, whichever list of the values `m` it is given. -/
def Compares (s : Sch) (m : List Val) (less : CNode → Nat → Nat → Go Bool) (lt : Val → Val → Bool) : Prop :=
  ∀ c l, l.Perm m → ListReads s c l → ∀ (i j : Nat) (a b : Val), l[i]? = some a → l[j]? = some b → less c i j = some (lt a b)

theorem onArray_perm {α : Type} (lt : α → α → Bool) (g : SortAlg) : ∀ l : List α, (onArray lt g l).Perm l := by
  induction g with
  | done => exact fun l => List.Perm.refl _
  | less i j k ih =>
    intro l
    unfold onArray
    split
    · exact ih _ l
    · exact List.Perm.refl _
  | swap i j k ih => exact fun l => (ih _).trans (swapL_perm l i j)

theorem mix_reads {s : Sch} {t : Name} {F : Nat} (ht : TabElt s t) (m : MixProg) (hm : m.Ok s t F) {c : CNode} (hc : m.run s t (F + 1) = some c) :
    ListReads s c m.items := by
  obtain ⟨c', es, ms, r1, r2⟩ := prog_mixed ht m hm
  rw [hc] at r1
  cases r1
  refine ⟨isList_of_name r2.tlx.name, by rw [r2.len]; exact r2.tlx.view.listLen, ?_⟩
  intro i v hv
  obtain ⟨j, e, hj, he, hE⟩ := r2.get hv
  obtain ⟨tl, hat⟩ := r2.tlx.view.at_eq ht hj he
  exact ⟨_, hat, hE.reads (r2.tlx.elt j e he) rfl rfl rfl⟩

/-- The calls of a sorting algorithm make a list that some exchanges make. -/
theorem sortRun_mix {s : Sch} {t : Name} {F : Nat} (ht : TabElt s t) {l0 : List Val} {less : CNode → Nat → Nat → Go Bool} {lt : Val → Val → Bool}
    (hless : Compares s l0 less lt) (g : SortAlg) : ∀ (m : MixProg), m.Ok s t F → ∀ c, m.run s t (F + 1) = some c → m.items.Perm l0 →
      Inside l0.length g →
      ∃ c' m', sortRun s less g c = some c' ∧ MixProg.Ok s t F m' ∧ m'.run s t (F + 1) = some c' ∧ m'.items = onArray lt g m.items := by
  induction g with
  | done => exact fun m hm c hc _ _ => ⟨c, m, rfl, hm, hc, rfl⟩
  | less i j k ih =>
    intro m hm c hc hp hI
    have hl := hp.length_eq
    have h1 : m.items[i]? = some _ := List.getElem?_eq_getElem (show i < m.items.length by have := hI.1; omega)
    have h2 : m.items[j]? = some _ := List.getElem?_eq_getElem (show j < m.items.length by have := hI.2.1; omega)
    obtain ⟨c', m', q1, q2, q3, q4⟩ := ih _ m hm c hc hp (hI.2.2 _)
    refine ⟨c', m', ?_, q2, q3, ?_⟩
    · unfold sortRun
      rw [hless c _ hp (mix_reads ht m hm hc) i j _ _ h1 h2]
      exact q1
    · rw [q4]
      conv => rhs; unfold onArray
      rw [h1, h2]
  | swap i j k ih =>
    intro m hm c hc hp hI
    obtain ⟨c1, es, ms, r1, -⟩ := prog_mixed ht (.swap m i j) hm
    obtain ⟨c', m', q1, q2, q3, q4⟩ := ih (.swap m i j) hm c1 r1 ((swapL_perm _ i j).trans hp) hI
    refine ⟨c', m', ?_, q2, q3, q4⟩
    unfold sortRun
    simp only [MixProg.run, Option.bind_eq_bind] at r1
    rw [hc, Option.bind_some] at r1
    cases hs : c.swapAt s i j with
    | none => rw [hs] at r1; cases r1
    | some r =>
      rw [hs] at r1
      cases r1
      exact q1

/-- `IsSorted` is the check of neighbours. -/
theorem isSorted_array {s : Sch} {l0 l : List Val} {less : CNode → Nat → Nat → Go Bool} {lt : Val → Val → Bool} (hless : Compares s l0 less lt)
    {c : CNode} (hp : l.Perm l0) (hc : ListReads s c l) :
    ∃ b, isSorted less c = some b ∧ (b = true ↔ ∀ (i : Nat) (x y : Val), l[i]? = some x → l[i + 1]? = some y → lt y x = false) := by
  have loop : ∀ n, n < l.length → ∃ b, sortedFrom less c n = some b ∧
      (b = true ↔ ∀ (i : Nat) (x y : Val), i < n → l[i]? = some x → l[i + 1]? = some y → lt y x = false) := by
    intro n
    induction n with
    | zero => exact fun _ => ⟨true, rfl, by simp⟩
    | succ n ih =>
      intro hn
      obtain ⟨b, h1, h2⟩ := ih (by omega)
      have g1 : l[n]? = some _ := List.getElem?_eq_getElem (show n < l.length by omega)
      have g2 : l[n + 1]? = some _ := List.getElem?_eq_getElem hn
      unfold sortedFrom
      rw [hless c l hp hc _ _ _ _ g2 g1]
      simp only [Option.bind_eq_bind, Option.bind_some]
      cases hb : lt l[n + 1] l[n] with
      | true =>
        refine ⟨false, rfl, by simp, ?_⟩
        intro h
        rw [h n _ _ (by omega) g1 g2] at hb
        cases hb
      | false =>
        refine ⟨b, h1, ?_⟩
        rw [h2]
        constructor
        · intro h i x y hi hx hy
          by_cases hin : i = n
          · subst hin
            rw [g1] at hx; rw [g2] at hy
            cases hx; cases hy
            exact hb
          · exact h i x y (by omega) hx hy
        · exact fun h i x y hi => h i x y (by omega)
  unfold isSorted
  rw [hc.1, hc.2.1]
  simp only [Option.bind_eq_bind, Option.bind_some, Bool.not_true, Bool.false_eq_true, if_false]
  by_cases hl : l = []
  · subst hl
    exact ⟨true, rfl, by simp⟩
  · have : 0 < l.length := List.length_pos_iff.mpr hl
    obtain ⟨b, h1, h2⟩ := loop (l.length - 1) (by omega)
    refine ⟨b, h1, ?_⟩
    rw [h2]
    constructor
    · intro h i x y hx hy
      have := (List.getElem?_eq_some_iff.mp hy).1
      exact h i x y (by omega) hx hy
    · exact fun h i x y _ => h i x y

/-- The search in a list is the search in the array. -/
theorem search_first {s : Sch} {l : List Val} {c : CNode} (hc : ListReads s c l) (fn : CNode → Bool) (p : Val → Bool)
    (hfn : ∀ v ∈ l, ∀ n, v.Reads s n → fn n = p v) (t : Nat) (ht : t ≤ l.length) (hlo : ∀ (k : Nat) (v : Val), k < t → l[k]? = some v → p v = false)
    (hhi : ∀ (k : Nat) (v : Val), t ≤ k → l[k]? = some v → p v = true) : c.search s l.length fn = t := by
  have hat : ∀ k, k < l.length → ∃ n v, c.at_ s (k : Nat) = some (.ok n) ∧ l[k]? = some v ∧ fn n = p v := by
    intro k hk
    have hv : l[k]? = some l[k] := List.getElem?_eq_getElem hk
    obtain ⟨n, h1, h2⟩ := hc.2.2 k _ hv
    exact ⟨n, _, h1, hv, hfn _ (List.getElem_mem hk) n h2⟩
  unfold search searchIndex
  apply searchLoop_spec _ _ _ _ (Nat.zero_le _) t (Nat.zero_le _) ht
  · intro k _ hk
    obtain ⟨n, v, h1, h2, h3⟩ := hat k (by omega)
    exact ⟨n, by rw [h1], by rw [h3]; exact hlo k v hk h2⟩
  · intro k h1 h2 e he
    obtain ⟨n, v, g1, g2, g3⟩ := hat k h2
    rw [g1] at he
    cases he
    rw [g3]
    exact hhi k v h1 g2

/-- C109: for every algorithm that sorts the array of the values, `SortBy` makes of every list of tables, however it was
made, a list of the same values in order; `IsSorted` then says so; `SearchIndex` finds the first element of those that
satisfy a condition that with an element also the greater ones satisfy.  The list is one that a program with exchanges makes,
so that `list_mixed_partial` applies to all further use.  (Missing, because the code does otherwise: lists of numbers and
structs, see `sort_scalar_fails`.) -/
theorem sort_by_partial (s : Sch) (t : Name) (F : Nat) (ht : TabElt s t) (m : MixProg) (hm : m.Ok s t F) (alg : Nat → SortAlg)
    (less : CNode → Nat → Nat → Go Bool) (lt : Val → Val → Bool) (hless : Compares s m.items less lt)
    (hI : Inside m.items.length (alg m.items.length)) (hS : Ordered lt (onArray lt (alg m.items.length) m.items)) :
    ∃ (c c' : CNode) (m' : MixProg), m.run s t (F + 1) = some c ∧ sortBy s alg less c = some (c', none) ∧
      m'.run s t (F + 1) = some c' ∧ m'.Ok s t F ∧ m'.items.Perm m.items ∧ Ordered lt m'.items ∧
      ListReads s c' m'.items ∧ isSorted less c' = some true ∧
      ∀ (fn : CNode → Bool) (p : Val → Bool), (∀ v ∈ m.items, ∀ n, v.Reads s n → fn n = p v) →
        (∀ a b, p a = true → lt b a = false → p b = true) →
        ∀ i, c'.search s m.items.length fn = i → i ≤ m.items.length ∧ (∀ (k : Nat) (v : Val), k < i → m'.items[k]? = some v → p v = false) ∧
          ∀ (k : Nat) (v : Val), i ≤ k → m'.items[k]? = some v → p v = true := by
  obtain ⟨c, es, ms, r1, -⟩ := prog_mixed ht m hm
  have hc := mix_reads ht m hm r1
  obtain ⟨c', m', q1, q2, q3, q4⟩ := sortRun_mix ht hless _ m hm c r1 (List.Perm.refl _) hI
  have hp : m'.items.Perm m.items := by rw [q4]; exact onArray_perm _ _ _
  have hc' := mix_reads ht m' q2 q3
  have hO : Ordered lt m'.items := by rw [q4]; exact hS
  refine ⟨c, c', m', r1, ?_, q3, q2, hp, hO, hc', ?_, ?_⟩
  · unfold sortBy
    rw [hc.1, hc.2.1]
    simp only [Option.bind_eq_bind, Option.bind_some, Bool.not_true, Bool.false_eq_true, if_false]
    rw [q1]
    rfl
  · obtain ⟨b, h1, h2⟩ := isSorted_array hless hp hc'
    rw [h1, h2.mpr fun i x y hx hy => hO i (i + 1) x y (by omega) hx hy]
  · intro fn p hfn hup i hi
    have hlen := hp.length_eq
    -- the first element that satisfies the condition
    obtain ⟨u, hu, hlo, hhi⟩ : ∃ u, u ≤ m'.items.length ∧ (∀ (k : Nat) (v : Val), k < u → m'.items[k]? = some v → p v = false) ∧
        ∀ (k : Nat) (v : Val), u ≤ k → m'.items[k]? = some v → p v = true := by
      refine ⟨m'.items.findIdx p, List.findIdx_le_length, ?_, ?_⟩
      · intro k v hk hv
        obtain ⟨hkl, rfl⟩ := List.getElem?_eq_some_iff.mp hv
        simpa using List.not_of_lt_findIdx hk
      · intro k v hk hv
        obtain ⟨hkl, rfl⟩ := List.getElem?_eq_some_iff.mp hv
        have hlt : m'.items.findIdx p < m'.items.length := by omega
        have hpf := List.findIdx_getElem (w := hlt)
        by_cases he : m'.items.findIdx p = k
        · subst he; exact hpf
        · exact hup _ _ hpf (hO _ _ _ _ (by omega) (List.getElem?_eq_getElem hlt) hv)
    have := search_first hc' fn p (fun v hv => hfn v (hp.mem_iff.mp hv)) u hu hlo hhi
    rw [hlen, hi] at this
    subst this
    exact ⟨by omega, hlo, hhi⟩

/-! ## an algorithm -/

/-- Specification: a strict weak order. -/
structure WeakOrder {α : Type} (lt : α → α → Bool) : Prop where
  asymm : ∀ a b, lt a b = true → lt b a = false
  trans : ∀ a b c, lt b a = false → lt c b = false → lt c a = false

section
variable {α : Type} {lt : α → α → Bool}

/-- The first `i + 1` elements are in order but for number `j` being less than some before. -/
def Almost (lt : α → α → Bool) (i j : Nat) (l : List α) : Prop :=
  ∀ (a b : Nat) (x y : α), a < b → b ≤ i → b ≠ j → l[a]? = some x → l[b]? = some y → lt y x = false

/-- The first `n` elements are in order. -/
def OrderedTo (lt : α → α → Bool) (n : Nat) (l : List α) : Prop :=
  ∀ (a b : Nat) (x y : α), a < b → b < n → l[a]? = some x → l[b]? = some y → lt y x = false

theorem insertInner_spec (hw : WeakOrder lt) (i : Nat) (k : SortAlg) : ∀ (j : Nat) (l : List α), j ≤ i → i < l.length → Almost lt i j l →
    ∃ l', onArray lt (insertInner j k) l = onArray lt k l' ∧ l'.length = l.length ∧ OrderedTo lt (i + 1) l' := by
  intro j
  induction j with
  | zero =>
    intro l _ _ h
    exact ⟨l, rfl, rfl, fun a b x y h1 h2 => h a b x y h1 (by omega) (by omega)⟩
  | succ j ih =>
    intro l hj hi h
    have g1 : l[j]? = some _ := List.getElem?_eq_getElem (show j < l.length by omega)
    have g2 : l[j + 1]? = some _ := List.getElem?_eq_getElem (show j + 1 < l.length by omega)
    have step : onArray lt (insertInner (j + 1) k) l =
        onArray lt (if lt l[j + 1] l[j] then SortAlg.swap (j + 1) j (insertInner j k) else k) l := by
      conv => lhs; unfold insertInner onArray
      rw [g1, g2]
    rw [step]
    cases hb : lt l[j + 1] l[j] with
    | true =>
      rw [if_pos rfl, onArray]
      have hA : Almost lt i j (swapL l (j + 1) j) := by
        intro a b x y hab hbi hbj hx hy
        rw [swapL_get l (by omega) (by omega)] at hx hy
        have hlo := hw.asymm _ _ hb
        by_cases c1 : b = j + 1
        · subst c1
          rw [if_neg hbj, if_pos rfl, g1] at hy
          cases hy
          by_cases c2 : a = j
          · subst c2
            rw [if_pos rfl, g2] at hx
            cases hx
            exact hlo
          · rw [if_neg c2, if_neg (by omega)] at hx
            exact h a j x _ (by omega) (by omega) (by omega) hx g1
        · rw [if_neg hbj, if_neg c1] at hy
          by_cases c2 : a = j + 1
          · subst c2
            rw [if_neg (by omega), if_pos rfl] at hx
            exact h j b x y (by omega) hbi c1 hx hy
          · by_cases c3 : a = j
            · subst c3
              rw [if_pos rfl] at hx
              exact h (a + 1) b x y (by omega) hbi c1 hx hy
            · rw [if_neg c3, if_neg c2] at hx
              exact h a b x y hab hbi c1 hx hy
      obtain ⟨l', e1, e2, e3⟩ := ih (swapL l (j + 1) j) (by omega) (by rw [swapL_length]; exact hi) hA
      exact ⟨l', e1, by rw [e2, swapL_length], e3⟩
    | false =>
      rw [if_neg (by simp)]
      refine ⟨l, rfl, rfl, ?_⟩
      intro a b x y hab hbi hx hy
      by_cases c1 : b = j + 1
      · subst c1
        rw [g2] at hy
        cases hy
        by_cases c2 : a = j
        · subst c2
          rw [g1] at hx
          cases hx
          exact hb
        · exact hw.trans _ _ _ (h a j x _ (by omega) (by omega) (by omega) hx g1) hb
      · exact h a b x y hab (by omega) c1 hx hy

theorem insertOuter_spec (hw : WeakOrder lt) : ∀ (c i : Nat) (l : List α), i + c = l.length → OrderedTo lt i l →
    Ordered lt (onArray lt (insertOuter i c) l) := by
  intro c
  induction c with
  | zero =>
    intro i l hl h a b x y hab hx hy
    have : b < l.length := (List.getElem?_eq_some_iff.mp hy).1
    exact h a b x y hab (by omega) hx hy
  | succ c ih =>
    intro i l hl h
    obtain ⟨l', e1, e2, e3⟩ := insertInner_spec hw i (insertOuter (i + 1) c) i l (Nat.le_refl _) (by omega)
      (fun a b x y h1 h2 h3 => h a b x y h1 (by omega))
    unfold insertOuter
    rw [e1]
    exact ih (i + 1) l' (by omega) e3

/-- Insertion sort sorts arrays. -/
theorem insertionSort_sorts (hw : WeakOrder lt) (l : List α) : Ordered lt (onArray lt (insertionSort l.length) l) := by
  match l with
  | [] => intro a b x y _ hx; simp [onArray, insertionSort, insertOuter] at hx
  | x :: l =>
    apply insertOuter_spec hw
    · simp; omega
    · intro a b x y h1 h2; omega

end

theorem insertInner_inside {n : Nat} {k : SortAlg} (hk : Inside n k) : ∀ j, j < n → Inside n (insertInner j k) := by
  intro j
  induction j with
  | zero => exact fun _ => hk
  | succ j ih =>
    intro hj
    refine ⟨hj, by omega, ?_⟩
    intro b
    cases b with
    | true => exact ih (by omega)
    | false => exact hk

theorem insertionSort_inside (n : Nat) : Inside n (insertionSort n) := by
  have : ∀ c i, i + c ≤ n → Inside n (insertOuter i c) := by
    intro c
    induction c with
    | zero => exact fun _ _ => trivial
    | succ c ih => exact fun i hi => insertInner_inside (ih (i + 1) (by omega)) i (by omega)
  unfold insertionSort
  match n with
  | 0 => trivial
  | n + 1 => exact this _ 1 (by omega)

/-! ## a comparison -/

/-- Specification: the number in a field of fixed size; an absent field is zero. -/
def Val.key (k : Nat) : Val → Nat
  | .tab _ pre _ post => ((lastSet (pre ++ post) k).map leVal).getD 0

/-- Specification: the field exists and holds a number of `w` bytes. -/
def Val.HasKey (s : Sch) (k w : Nat) : Val → Prop
  | .tab nm pre sub post => k < (s.fields nm).length ∧ sub.field ≠ some k ∧ ∀ x, lastSet (pre ++ post) k = some x → x.length = w

theorem key_read {s : Sch} {k w : Nat} {v : Val} (hv : v.HasKey s k w) {n : CNode} (hn : v.Reads s n) :
    (n.fieldAt s k).bind (scalar w) = some (v.key k) := by
  obtain ⟨nm, pre, sub, post⟩ := v
  obtain ⟨h1, h2, h3⟩ := hv
  have hf := hn.2.1 k h1 h2
  show _ = some (((lastSet (pre ++ post) k).map leVal).getD 0)
  cases hl : lastSet (pre ++ post) k with
  | none => rw [hf.1 hl]; rfl
  | some x =>
    obtain ⟨nd, g1, -, g2, -⟩ := hf.2 x hl
    rw [g1]
    rw [h3 x hl] at g2
    exact g2

/-- Comparing by a number in a field. -/
theorem lessField_compares {s : Sch} {k w : Nat} {m : List Val} (hm : ∀ v ∈ m, v.HasKey s k w) :
    Compares s m (lessField s k w) fun a b => decide (a.key k < b.key k) := by
  intro c l hp hc i j a b ha hb
  obtain ⟨x, x1, x2⟩ := hc.2.2 i a ha
  obtain ⟨y, y1, y2⟩ := hc.2.2 j b hb
  have hx := key_read (hm a (hp.mem_iff.mp (List.mem_of_getElem? ha))) x2
  have hy := key_read (hm b (hp.mem_iff.mp (List.mem_of_getElem? hb))) y2
  unfold lessField
  rw [x1, y1]
  simp only [Option.bind_eq_bind, Option.bind_some]
  cases hxf : x.fieldAt s k with
  | none => rw [hxf] at hx; cases hx
  | some xf =>
    cases hyf : y.fieldAt s k with
    | none => rw [hyf] at hy; cases hy
    | some yf =>
      rw [hxf, Option.bind_some] at hx
      rw [hyf, Option.bind_some] at hy
      simp only [Option.bind_some, hx, hy]
      rfl

theorem key_order (k : Nat) : WeakOrder fun a b : Val => decide (a.key k < b.key k) where
  asymm := fun a b h => by simp only [decide_eq_true_eq, decide_eq_false_iff_not] at *; omega
  trans := fun a b c h1 h2 => by simp only [decide_eq_false_iff_not] at *; omega

/-- C109: sorting by a number in a field with the algorithm Go uses for short lists. -/
theorem sort_field_partial (s : Sch) (t : Name) (F : Nat) (ht : TabElt s t) (m : MixProg) (hm : m.Ok s t F) (k w : Nat)
    (hk : ∀ v ∈ m.items, v.HasKey s k w) :
    ∃ (c c' : CNode) (r : List Val), m.run s t (F + 1) = some c ∧ sortBy s insertionSort (lessField s k w) c = some (c', none) ∧
      r.Perm m.items ∧ (∀ (i j : Nat) (a b : Val), i < j → r[i]? = some a → r[j]? = some b → a.key k ≤ b.key k) ∧ ListReads s c' r ∧
      isSorted (lessField s k w) c' = some true := by
  obtain ⟨c, c', m', h1, h2, h3, h4, h5, h6, h7, h8, -⟩ := sort_by_partial s t F ht m hm insertionSort _ _ (lessField_compares hk)
    (insertionSort_inside _) (insertionSort_sorts (key_order k) _)
  refine ⟨c, c', m'.items, h1, h2, h5, ?_, h7, h8⟩
  intro i j a b hij ha hb
  have := h6 i j a b hij ha hb
  simp only [decide_eq_false_iff_not] at this
  omega

/-- C109: what is not a list is left alone. -/
theorem sort_refuses (s : Sch) (alg : Nat → SortAlg) (less : CNode → Nat → Nat → Go Bool) (c : CNode) (h : c.isList = some false) :
    sortBy s alg less c = some (c, some .noSupport) ∧ isSorted less c = some false := by
  unfold sortBy isSorted
  rw [h]
  exact ⟨rfl, rfl⟩

-- the hypotheses can be met, and the calls do what the theorem says
example : ∃ (c c' : CNode) (r : List Val), mixAdd.run deepSch "NN".toList 30 = some c ∧ sortBy deepSch insertionSort (lessField deepSch 2 4) c = some (c', none) ∧
      r.Perm mixAdd.items ∧ (∀ (i j : Nat) (a b : Val), i < j → r[i]? = some a → r[j]? = some b → a.key 2 ≤ b.key 2) ∧ ListReads deepSch c' r ∧
      isSorted (lessField deepSch 2 4) c' = some true :=
  sort_field_partial deepSch "NN".toList 29 ⟨ftTable, by decide, by decide, by decide, by decide, by decide⟩ mixAdd mixAdd_ok 2 4
    (by
      intro v hv
      have hk : ∀ v ∈ [deepTree [65, 66] 3, deepChain [65, 66] 2, deepEnd [68], deepChain [65, 66] 3, deepEnd [67], deepTree [65, 66] 3,
        deepEnd [67], deepChain [65, 66] 3, deepEnd [68], deepTree [65, 66] 3], v.HasKey deepSch 2 4 := by
        simp only [List.forall_mem_cons, List.not_mem_nil, false_implies, implies_true, and_true]
        refine ⟨?_, ?_, ?_, ?_, ?_, ?_, ?_, ?_, ?_, ?_⟩ <;> exact ⟨by decide, by decide, by intro x hx; cases hx; rfl⟩
      exact hk v hv)

example : (do
      let c ← swapped3.run deepSch "NN".toList 30
      let before ← isSorted (lessField deepSch 2 4) c
      let (c, _) ← sortBy deepSch insertionSort (lessField deepSch 2 4) c
      return (before, ← isSorted (lessField deepSch 2 4) c, ← listNums c)) =
    some (false, true, [some [1, 0, 0, 0], some [2, 0, 0, 0], some [3, 0, 0, 0]]) := by decide +kernel

/-- C109 is violated for numbers: the elements that are exchanged are destroyed. -/
theorem sort_scalar_fails : (do
      let c : CNode := { name := "[]Int32".toList, io := Base.new ⟨[2, 0, 0, 0, 7, 0, 0, 0, 1, 0, 0, 0], []⟩, pos := 4, vi := { pos := 4, vlen := 2 } }
      let less := fun (c : CNode) i j => do
        match ← c.at_ {} (i : Nat), ← c.at_ {} (j : Nat) with
        | .ok a, .ok b => return decide ((← scalar 4 (some a)) < (← scalar 4 (some b)))
        | _, _ => none
      let (c', _) ← sortBy {} insertionSort less c
      return ((c'.io.R 4 4).data.take 4, (c'.io.R 8 4).data.take 4)) = some ([0, 0, 0, 0], [0, 0, 0, 0]) := by decide +kernel

end Fbs.Props
