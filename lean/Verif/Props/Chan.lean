import Verif.Chan
/-!
# Properties of the goroutine pairs (C57-C60)
-/

namespace Fbs.Props
open Fbs

/-! ## specification: depth-first list of descendants -/

section
variable {α : Type}

mutual
/-- All descendants of a node (without the node itself), parents before children, siblings in order. -/
def descendants : Rose α → List (Rose α)
  | .node _ cs => descendantsL cs
/-- The nodes of a list of trees, depth first. -/
def descendantsL : List (Rose α) → List (Rose α)
  | [] => []
  | c :: cs => (c :: descendants c) ++ descendantsL cs
end

theorem descendants_eq (t : Rose α) : descendants t = descendantsL t.childs := by cases t; rfl

/-- What is still to be delivered by the active calls. -/
def todoF (cond : Rose α → Bool) : List (List (Rose α)) → List (Rose α)
  | [] => []
  | f :: fs => (descendantsL f).filter cond ++ todoF cond fs

/-- Nothing is lost, duplicated or reordered. -/
structure FindInv (cond : Rose α → Bool) (t : Rose α) (s : FindSt α) : Prop where
  stream : s.rcvd ++ s.ch ++ s.pending.toList ++ todoF cond s.frames = (descendants t).filter cond
  closed : s.closed = true → s.frames = [] ∧ s.pending = none
  done : s.done = true → s.closed = true ∧ s.ch = []
  cap : s.ch.length ≤ findCap

theorem findInv_init (cond : Rose α → Bool) (t : Rose α) : FindInv cond t (findInit t) := by
  refine ⟨?_, ?_, ?_, ?_⟩
  · simp [findInit, todoF, descendants_eq]
  · simp [findInit]
  · simp [findInit]
  · simp [findInit]

theorem findInv_step (cond : Rose α → Bool) (t : Rose α) {s s' : FindSt α} (h : FindInv cond t s)
    (st : AnyStep cond s s') : FindInv cond t s' := by
  obtain ⟨h1, h2, h3, h4⟩ := h
  rcases st with st | st | st
  · cases st with
    | visit c cs fs hf hp =>
      refine ⟨?_, ?_, ?_, h4⟩
      · rw [← h1]
        simp only [hf, hp, todoF, descendantsL, descendants_eq]
        by_cases hc : cond c = true <;> simp [hc]
      · intro hc; have := (h2 hc).1; rw [hf] at this; simp at this
      · intro hd; have := (h2 (h3 hd).1).1; rw [hf] at this; simp at this
    | send c hp hl =>
      refine ⟨?_, ?_, ?_, ?_⟩
      · rw [← h1]; simp [hp]
      · intro hc; have := (h2 hc).2; rw [hp] at this; simp at this
      · intro hd; have := (h2 (h3 hd).1).2; rw [hp] at this; simp at this
      · simp; omega
    | ret fs hf hp =>
      refine ⟨?_, ?_, ?_, h4⟩
      · rw [← h1]; simp [hf, hp, todoF, descendantsL]
      · intro hc; have := (h2 hc).1; rw [hf] at this; simp at this
      · exact h3
    | close hf hp hc =>
      refine ⟨h1, fun _ => ⟨hf, hp⟩, ?_, h4⟩
      intro hd
      exact ⟨rfl, (h3 hd).2⟩
  · cases st with
    | recv c r hs hc =>
      refine ⟨?_, h2, ?_, ?_⟩
      · rw [← h1]; simp [hc]
      · intro hd; have := (h3 hd).2; rw [hc] at this; simp at this
      · rw [hc] at h4; simp at h4 ⊢; omega
    | seeClose hs hc hcl hd => exact ⟨h1, h2, fun _ => ⟨hcl, hc⟩, h4⟩
  · cases st with
    | stop hs => exact ⟨h1, h2, h3, h4⟩

theorem inv_of_reach {σ : Type} {R : σ → σ → Prop} {P : σ → Prop} {a b : σ} (h0 : P a)
    (hs : ∀ x y, P x → R x y → P y) (hr : Reach R a b) : P b := by
  obtain ⟨n, hr⟩ := hr
  induction hr with
  | refl => exact h0
  | tail _ st ih => exact hs _ _ (ih h0) st

theorem reach_mono {σ : Type} {R R' : σ → σ → Prop} (hR : ∀ x y, R x y → R' x y) {a b : σ} (hr : Reach R a b) :
    Reach R' a b := by
  obtain ⟨n, hr⟩ := hr
  refine ⟨n, ?_⟩
  induction hr with
  | refl => exact .refl _
  | tail _ st ih => exact .tail ih (hR _ _ st)

theorem drain_any (cond : Rose α → Bool) (x y : FindSt α) (h : DrainStep cond x y) : AnyStep cond x y := by
  rcases h with h | h
  · exact .inl h
  · exact .inr (.inl h)

/-- C57: at every moment of every interleaving - also when the caller stops early - what was received is
an initial part of the matching descendants in depth-first order. -/
theorem findTree_prefix (cond : Rose α → Bool) (t : Rose α) (s : FindSt α)
    (h : Reach (AnyStep cond) (findInit t) s) : s.rcvd <+: (descendants t).filter cond := by
  have hi := inv_of_reach (findInv_init cond t) (fun x y hx st => findInv_step cond t hx st) h
  exact ⟨s.ch ++ s.pending.toList ++ todoF cond s.frames,
    by rw [← hi.stream]; simp [List.append_assoc]⟩

/-- C57: when the caller sees the end of the channel, it has received exactly the matching descendants,
each once, in depth-first order. -/
theorem findTree_complete (cond : Rose α → Bool) (t : Rose α) (s : FindSt α)
    (h : Reach (DrainStep cond) (findInit t) s) (hd : s.done = true) : s.rcvd = (descendants t).filter cond := by
  have hi := inv_of_reach (findInv_init cond t) (fun x y hx st => findInv_step cond t hx st) (reach_mono (drain_any cond) h)
  obtain ⟨hc, he⟩ := hi.done hd
  obtain ⟨hf, hp⟩ := hi.closed hc
  have := hi.stream
  rw [he, hf, hp] at this
  simpa [todoF] using this

/-- C57: a draining search is never stuck before the caller has seen the end of the channel. -/
theorem findTree_progress (cond : Rose α → Bool) (t : Rose α) (s : FindSt α)
    (h : Reach (DrainStep cond) (findInit t) s) (hd : s.done = false) : ∃ s', DrainStep cond s s' := by
  have hst : s.stopped = false :=
    inv_of_reach (P := fun x => x.stopped = false) rfl
      (by intro x y hx st; rcases st with st | st <;> cases st <;> exact hx) h
  cases hch : s.ch with
  | cons c r => exact ⟨_, .inr (.recv s c r hst hch)⟩
  | nil =>
    cases hp : s.pending with
    | some c => exact ⟨_, .inl (.send s c hp (by rw [hch]; exact Nat.zero_lt_succ 9))⟩
    | none =>
      cases hf : s.frames with
      | nil =>
        cases hc : s.closed with
        | false => exact ⟨_, .inl (.close s hf hp hc)⟩
        | true => exact ⟨_, .inr (.seeClose s hst hch hc hd)⟩
      | cons f fs =>
        cases f with
        | nil => exact ⟨_, .inl (.ret s fs hf hp)⟩
        | cons c cs => exact ⟨_, .inl (.visit s c cs fs hf hp)⟩

/-- Number of nodes still to visit. -/
def sizeF : List (List (Rose α)) → Nat
  | [] => 0
  | f :: fs => (descendantsL f).length + sizeF fs

/-- Work left in a search. -/
def findWork (s : FindSt α) : Nat :=
  5 * sizeF s.frames + s.frames.length + 2 * s.pending.toList.length + s.ch.length +
    (if s.closed then 0 else 2) + (if s.done then 0 else 1)

theorem findWork_step (cond : Rose α → Bool) {s s' : FindSt α} (st : DrainStep cond s s') :
    findWork s' < findWork s := by
  rcases st with st | st
  · cases st with
    | visit c cs fs hf hp =>
      simp only [findWork, hf, hp, sizeF, descendantsL, descendants_eq]
      by_cases hc : cond c = true <;> simp [hc] <;> omega
    | send c hp hl => simp [findWork, hp]; omega
    | ret fs hf hp => simp [findWork, hf, sizeF, descendantsL]
    | close hf hp hc => simp [findWork, hc]
  · cases st with
    | recv c r hs hc => simp [findWork, hc]
    | seeClose hs hc hcl hd => simp [findWork, hd]

/-- C57: every interleaving of a draining search ends: no execution is longer than a bound given by the
size of the tree.  With `findTree_progress` and `findTree_complete`: every maximal execution delivers
exactly the matches and then the end of the channel. -/
theorem findTree_terminates (cond : Rose α → Bool) (t : Rose α) (n : Nat) (s : FindSt α)
    (h : StepsN (DrainStep cond) n (findInit t) s) : n ≤ 5 * (descendants t).length + 4 := by
  have key : ∀ n a b, StepsN (DrainStep cond) n a b → findWork b + n ≤ findWork a := by
    intro n a b hr
    induction hr with
    | refl => simp
    | tail _ st ih => have := findWork_step cond st; omega
  have h1 := key _ _ _ h
  have h2 : findWork (findInit t) = 5 * (descendants t).length + 4 := by
    simp [findWork, findInit, sizeF, descendants_eq]
  omega

example : ((descendants (.node 0 [.node 1 [.node 2 []], .node 3 []] : Rose Nat)).filter
    (fun r => r.val % 2 = 1)).map Rose.val = [1, 3] := by decide

/-- C58 (partial): if at most ten matches remain undelivered when the caller stops, the producer still
finishes: as long as the channel is not closed the producer has a step. -/
theorem findTree_abandon_partial (cond : Rose α → Bool) (t : Rose α) (s : FindSt α)
    (h : Reach (AnyStep cond) (findInit t) s)
    (hfew : ((descendants t).filter cond).length ≤ s.rcvd.length + findCap) (hc : s.closed = false) :
    ∃ s', ProdStep cond s s' := by
  have hi := inv_of_reach (findInv_init cond t) (fun x y hx st => findInv_step cond t hx st) h
  cases hp : s.pending with
  | some c =>
    refine ⟨_, .send s c hp ?_⟩
    have := congrArg List.length hi.stream
    rw [hp] at this
    simp at this
    omega
  | none =>
    cases hf : s.frames with
    | nil => exact ⟨_, .close s hf hp hc⟩
    | cons f fs =>
      cases f with
      | nil => exact ⟨_, .ret s fs hf hp⟩
      | cons c cs => exact ⟨_, .visit s c cs fs hf hp⟩

/-- The producer alone, `k` more matches without children. -/
theorem produce_run (cond : Rose α → Bool) (hc : ∀ r, cond r = true) (cs : List (Rose α)) :
    ∀ (n : Nat) (s : FindSt α), (∀ c ∈ cs, c.childs = []) → s.frames = [cs] → s.pending = none →
      s.ch.length + n ≤ findCap → n ≤ cs.length →
      Reach (ProdStep cond) s { s with frames := [cs.drop n], ch := s.ch ++ cs.take n } := by
  intro n
  induction n with
  | zero => intro s _ hf hp _ _; exact ⟨0, by simp [← hf]; exact .refl _⟩
  | succ n ih =>
    intro s hch hf hp hl hn
    obtain ⟨m, hr⟩ := ih s hch hf hp (by omega) (by omega)
    have hd : cs.drop n = cs[n] :: cs.drop (n + 1) := List.drop_eq_getElem_cons (by omega)
    have ht : cs.take (n + 1) = cs.take n ++ [cs[n]] := by
      rw [List.take_add_one, List.getElem?_eq_getElem (by omega)]; simp
    refine ⟨m + 3, ?_⟩
    have s1 := StepsN.tail hr (ProdStep.visit _ cs[n] (cs.drop (n + 1)) [] (by rw [hd]) hp)
    have s2 := StepsN.tail s1 (ProdStep.send _ cs[n] (by simp [hc]) (by simp; omega))
    have s3 := StepsN.tail s2 (ProdStep.ret _ [cs.drop (n + 1)] (by simp [hch cs[n] (by simp)]) rfl)
    rw [ht, ← List.append_assoc]
    have e : ({ s with frames := [cs.drop (n + 1)], ch := s.ch ++ cs.take n ++ [cs[n]] } : FindSt α) =
        { s with frames := [cs.drop (n + 1)], pending := none, ch := s.ch ++ cs.take n ++ [cs[n]] } := by rw [← hp]
    rw [e]
    exact s3

/-- C58 fails: with more than ten matches left, a caller that stops leaves the producer goroutine blocked
forever: there is an execution after which no producer step is ever enabled and the channel is not
closed. -/
theorem findTree_abandon_fails (cs : List (Rose α)) (hcs : ∀ c ∈ cs, c.childs = []) (hlen : findCap < cs.length)
    (v : α) : ∃ s, Reach (AnyStep fun _ => true) (findInit (.node v cs)) s ∧ s.stopped = true ∧ s.closed = false ∧
      ∀ s', ¬ AnyStep (fun _ => true) s s' := by
  let cond : Rose α → Bool := fun _ => true
  obtain ⟨m, hr⟩ := produce_run cond (fun _ => rfl) cs findCap (findInit (.node v cs)) hcs rfl rfl
    (by simp [findInit]) (by omega)
  have hd : cs.drop findCap = cs[findCap] :: cs.drop (findCap + 1) := List.drop_eq_getElem_cons hlen
  have this : ∀ n a b, StepsN (ProdStep cond) n a b → StepsN (AnyStep cond) n a b := by
    intro n a b h
    induction h with
    | refl => exact .refl _
    | tail _ st ih => exact .tail ih (.inl st)
  have hr' := this _ _ _ hr
  have s1 := StepsN.tail hr' (.inl (ProdStep.visit _ cs[findCap] (cs.drop (findCap + 1)) [] (by rw [hd]) rfl))
  have s2 := StepsN.tail s1 (.inr (.inr (AbandonStep.stop _ rfl)))
  refine ⟨_, ⟨_, s2⟩, rfl, rfl, ?_⟩
  intro s' st
  rcases st with st | st | st
  · cases st with
    | visit c cs fs hf hp => simp [cond] at hp
    | send c hp hl => simp [findInit, findCap] at hl; simp [findCap] at hlen; omega
    | ret fs hf hp => simp [cond] at hp
    | close hf hp hc => simp [cond] at hp
  · cases st with
    | recv c r hs hc => simp at hs
    | seeClose hs hc hcl hd => simp at hs
  · cases st with
    | stop hs => simp at hs

example : ∃ cs : List (Rose Nat), (∀ c ∈ cs, c.childs = []) ∧ findCap < cs.length :=
  ⟨List.replicate 11 (.node 0 []), by simp +contextual [Rose.childs], by decide⟩

end

/-! ## dump histories -/

/-- The text printed for each entry: the first in full, the others as a difference to their
predecessor. -/
def expected (diff : List Char → List Char → List Char) (prev : Option History) : List History → List (List Char)
  | [] => []
  | e :: es =>
    (match prev with
      | none => e.name ++ '\n' :: e.dump ++ ['\n']
      | some p => e.name ++ '\n' :: '\n' :: diff p.dump e.dump ++ ['\n']) :: expected diff (some e) es

theorem expected_getElem? (diff : List Char → List Char → List Char) (es : List History) :
    ∀ (i : Nat), (expected diff none es)[i]? = stringBy diff es i := by
  have gen : ∀ (es : List History) (p : History) (i : Nat),
      (expected diff (some p) es)[i]? = stringBy diff (p :: es) (i + 1) := by
    intro es
    induction es with
    | nil => intro p i; simp [expected, stringBy]
    | cons e es ih =>
      intro p i
      cases i with
      | zero => simp [expected, stringBy]
      | succ i =>
        simp only [expected, List.getElem?_cons_succ]
        rw [ih e i]
        simp [stringBy]
  intro i
  cases es with
  | nil => simp [expected, stringBy]
  | cons e es =>
    cases i with
    | zero => simp [expected, stringBy]
    | succ i => simp only [expected, List.getElem?_cons_succ]; exact gen es e i

theorem expected_length (diff : List Char → List Char → List Char) (es : List History) :
    ∀ p, (expected diff p es).length = es.length := by
  induction es with
  | nil => intro p; rfl
  | cons e es ih => intro p; simp [expected, ih]

/-- `stringBy` for an entry that exists only looks at existing entries. -/
theorem stringBy_append (diff : List Char → List Char → List Char) (a b : List History) (i : Nat) (h : i < a.length) :
    stringBy diff (a ++ b) i = stringBy diff a i := by
  unfold stringBy
  rw [List.getElem?_append_left h]
  cases hi : a[i]? with
  | none => rfl
  | some log =>
    simp only []
    by_cases h0 : i = 0
    · simp [h0]
    · rw [if_neg h0, if_neg h0, List.getElem?_append_left (by omega)]

/-- The indices that are in the queue. -/
def idxs (ch : List (Option Nat)) : List Nat := ch.filterMap id

def _root_.Fbs.MainPc.idx : MainPc → List Nat
  | .sending i => [i]
  | _ => []

def _root_.Fbs.ConsPc.idx : ConsPc → List Nat
  | .print i => [i]
  | _ => []

/-- Nothing lost, duplicated, reordered; the end marker is last. -/
structure DumpInv (diff : List Char → List Char → List Char) (es : List History) (s : DumpSt) : Prop where
  all : s.logs ++ s.todo = es
  out : s.out = (expected diff none es).take s.out.length
  order : s.cons ≠ .done → List.range s.out.length ++ s.cons.idx ++ idxs s.ch ++ s.main.idx = List.range s.logs.length
  fin : (s.main = .finSend ∨ s.main = .waiting ∨ s.main = .finished) → s.todo = []
  ends : s.cons ≠ .done → s.main = .waiting → ∃ l, s.ch = l ++ [none] ∧ none ∉ l
  noend : s.main ≠ .waiting → s.main ≠ .finished → none ∉ s.ch ∧ s.cons ≠ .done
  done : s.cons = .done → s.out.length = es.length
  finished : s.main = .finished → s.cons = .done
  present : s.cons ≠ .absent
  closed : s.closed = true → s.main = .finished

theorem dumpInv_init (diff : List Char → List Char → List Char) (es : List History) :
    DumpInv diff es (dumpInit true es) := by
  constructor <;> simp [dumpInit, ConsPc.idx, MainPc.idx, idxs]

/-- The next index to be printed. -/
theorem range_cons_eq {n m i : Nat} {l : List Nat} (h : List.range n ++ i :: l = List.range m) : i = n ∧ n < m := by
  have h1 := congrArg (fun x => x[n]?) h
  rw [List.getElem?_append_right (by simp)] at h1
  simp at h1
  have hl := congrArg List.length h
  simp at hl
  have : n < m := by omega
  rw [List.getElem?_range this] at h1
  simp at h1
  exact ⟨h1, this⟩

theorem dumpInv_step (diff : List Char → List Char → List Char) (es : List History) {s s' : DumpSt}
    (h : DumpInv diff es s) (st : DumpStep diff s s') : DumpInv diff es s' := by
  obtain ⟨all, out, order, fin, ends, noend, done, finished, present, closed⟩ := h
  rcases st with st | st
  · have hopen : s.main ≠ .finished → s.closed = true → False := fun h1 h2 => h1 (closed h2)
    cases st with
    | append e r hm ht =>
      have hne := noend (by simp [hm]) (by simp [hm])
      refine ⟨by simp [← all, ht], out, ?_, by simp, by simp, fun _ _ => hne, done, by simp, present, fun hx => (hopen (by simp [hm]) hx).elim⟩
      intro hc
      have := order hc
      simp only [hm, MainPc.idx, List.append_nil] at this
      simp only [MainPc.idx, List.length_append, List.length_cons, List.length_nil, Nat.zero_add,
        Nat.add_sub_cancel, List.range_succ]
      rw [this]
    | send i hm hl =>
      have hne := noend (by simp [hm]) (by simp [hm])
      refine ⟨all, out, ?_, by simp, by simp, fun _ _ => ⟨by simp [hne.1], hne.2⟩, done, by simp, present, fun hx => (hopen (by simp [hm]) hx).elim⟩
      intro hc
      have := order hc
      simp only [hm, MainPc.idx] at this
      simp [MainPc.idx, idxs, ← this]
    | finish hm ht =>
      have hne := noend (by simp [hm]) (by simp [hm])
      refine ⟨all, out, ?_, fun _ => ht, by simp, fun _ _ => hne, done, by simp, present, fun hx => (hopen (by simp [hm]) hx).elim⟩
      intro hc
      have := order hc
      simpa [hm, MainPc.idx] using this
    | sendEnd hm hl =>
      have hne := noend (by simp [hm]) (by simp [hm])
      refine ⟨all, out, ?_, fun _ => fin (.inl hm), fun _ _ => ⟨s.ch, rfl, hne.1⟩, by simp, done, by simp, present, fun hx => (hopen (by simp [hm]) hx).elim⟩
      intro hc
      have := order hc
      simpa [hm, MainPc.idx, idxs] using this
    | wait hm hc =>
      have hcd : s.cons = .done := by rcases hc with hc | hc; exact absurd hc present; exact hc
      exact ⟨all, out, fun hx => absurd hcd hx, fun _ => fin (.inr (.inl hm)), by simp, by simp, done, fun _ => hcd, present, fun _ => rfl⟩
  · cases st with
    | recv i r hc hch =>
      refine ⟨all, out, ?_, fin, ?_, ?_, by simp, ?_, by simp, closed⟩
      · intro _
        have := order (by simp [hc])
        simpa [hc, hch, ConsPc.idx, idxs] using this
      · intro _ hm
        obtain ⟨l, hl, hn⟩ := ends (by simp [hc]) hm
        rw [hch] at hl
        cases l with
        | nil => simp at hl
        | cons x l =>
          simp at hl
          exact ⟨l, hl.2, fun hx => hn (by simp [hx])⟩
      · intro h1 h2
        have := (noend h1 h2).1
        rw [hch] at this
        exact ⟨fun hx => this (by simp [hx]), by simp⟩
      · intro hm
        have := finished hm
        rw [hc] at this; cases this
    | stop r hc hch =>
      have hw : s.main = .waiting := by
        by_cases h1 : s.main = .waiting
        · exact h1
        · by_cases h2 : s.main = .finished
          · have := finished h2; rw [hc] at this; cases this
          · have := (noend h1 h2).1; rw [hch] at this; simp at this
      obtain ⟨l, hl, hn⟩ := ends (by simp [hc]) hw
      have hl0 : l = [] := by
        cases l with
        | nil => rfl
        | cons x l => rw [hch] at hl; simp at hl; exact absurd (by simp [hl.1]) hn
      subst hl0
      have htodo := fin (.inr (.inl hw))
      have ho := order (by simp [hc])
      rw [hc, hl, hw] at ho
      have hlen := congrArg List.length ho
      simp [ConsPc.idx, idxs, MainPc.idx] at hlen
      have hes : s.logs = es := by rw [← all, htodo]; simp
      refine ⟨all, out, by simp, fin, by simp, ?_, ?_, by simp, by simp, closed⟩
      · intro h1 _; exact absurd hw h1
      · intro _; rw [← hes]; exact hlen
    | print i x hc hx =>
      have ho := order (by simp [hc])
      simp only [hc, ConsPc.idx, List.append_assoc, List.singleton_append] at ho
      obtain ⟨hi, hlt⟩ := range_cons_eq ho
      subst hi
      have hxe : (expected diff none es)[s.out.length]? = some x := by
        rw [expected_getElem?, ← all, stringBy_append diff _ _ _ hlt]; exact hx
      refine ⟨all, ?_, ?_, fin, ?_, ?_, by simp, ?_, by simp, closed⟩
      · show s.out ++ [x] = _
        rw [List.length_append, List.length_singleton, List.take_add_one, ← out, hxe]
        rfl
      · intro _
        simp only [ConsPc.idx, List.length_append, List.length_singleton, List.range_succ, List.append_nil]
        rw [← ho]
        simp
      · intro _ hm; exact ends (by simp [hc]) hm
      · intro h1 h2; exact ⟨(noend h1 h2).1, by simp⟩
      · intro hm
        have := finished hm
        rw [hc] at this; cases this
    | closed hc hch hcl =>
      -- unreachable: the channel is closed only after the goroutine finished
      have := finished (closed hcl)
      rw [hc] at this; cases this

/-- C60: at every moment of every interleaving of the dumping program and the printing goroutine, the
output is an initial part of the expected one (each entry once, in order). -/
theorem streamOut_prefix (diff : List Char → List Char → List Char) (es : List History) (s : DumpSt)
    (h : Reach (DumpStep diff) (dumpInit true es) s) : s.out <+: expected diff none es := by
  have hi := inv_of_reach (dumpInv_init diff es) (fun x y hx st => dumpInv_step diff es hx st) h
  rw [hi.out]
  exact List.take_prefix _ _

/-- C60: when `Finish` has returned, the output contains every dumped entry exactly once, in order. -/
theorem streamOut_complete (diff : List Char → List Char → List Char) (es : List History) (s : DumpSt)
    (h : Reach (DumpStep diff) (dumpInit true es) s) (hf : s.main = .finished) : s.out = expected diff none es := by
  have hi := inv_of_reach (dumpInv_init diff es) (fun x y hx st => dumpInv_step diff es hx st) h
  have hl := hi.done (hi.finished hf)
  rw [hi.out, hl, ← expected_length diff es none, List.take_length]

/-- C60: the printing goroutine never indexes out of range. -/
theorem streamOut_no_panic (diff : List Char → List Char → List Char) (es : List History) (s : DumpSt)
    (h : Reach (DumpStep diff) (dumpInit true es) s) (i : Nat) (hc : s.cons = .print i) :
    (stringBy diff s.logs i).isSome := by
  have hi := inv_of_reach (dumpInv_init diff es) (fun x y hx st => dumpInv_step diff es hx st) h
  have ho := hi.order (by simp [hc])
  simp only [hc, ConsPc.idx, List.append_assoc, List.singleton_append] at ho
  obtain ⟨hii, hlt⟩ := range_cons_eq ho
  subst hii
  unfold stringBy
  rw [List.getElem?_eq_getElem hlt]
  simp only []
  by_cases h0 : s.out.length = 0
  · rw [if_pos h0]; rfl
  · rw [if_neg h0, List.getElem?_eq_getElem (by omega)]; rfl

/-- C59/C60: with the printing goroutine running, no reachable state is stuck: a `Dump` that waits for
space in the queue, and `Finish`, are always eventually able to continue (see `streamOut_terminates`). -/
theorem streamOut_progress (diff : List Char → List Char → List Char) (es : List History) (s : DumpSt)
    (h : Reach (DumpStep diff) (dumpInit true es) s) (hf : s.main ≠ .finished) : ∃ s', DumpStep diff s s' := by
  have hi := inv_of_reach (dumpInv_init diff es) (fun x y hx st => dumpInv_step diff es hx st) h
  cases hc : s.cons with
  | absent => exact absurd hc hi.present
  | print i =>
    have := streamOut_no_panic diff es s h i hc
    obtain ⟨x, hx⟩ := Option.isSome_iff_exists.1 this
    exact ⟨_, .inr (.print s i x hc hx)⟩
  | done =>
    have hm : s.main = .waiting := by
      by_cases h1 : s.main = .waiting
      · exact h1
      · exact absurd hc (hi.noend h1 hf).2
    exact ⟨_, .inl (.wait s hm (.inr hc))⟩
  | recv =>
    cases hch : s.ch with
    | cons x r =>
      cases x with
      | none => exact ⟨_, .inr (.stop s r hc hch)⟩
      | some i => exact ⟨_, .inr (.recv s i r hc hch)⟩
    | nil =>
      have hl : s.ch.length < dumpCap := by rw [hch]; exact Nat.zero_lt_succ 99
      cases hm : s.main with
      | ready =>
        cases ht : s.todo with
        | nil => exact ⟨_, .inl (.finish s hm ht)⟩
        | cons e r => exact ⟨_, .inl (.append s e r hm ht)⟩
      | sending i => exact ⟨_, .inl (.send s i hm hl)⟩
      | finSend => exact ⟨_, .inl (.sendEnd s hm hl)⟩
      | waiting =>
        obtain ⟨l, hl, _⟩ := hi.ends (by simp [hc]) hm
        rw [hch] at hl; simp at hl
      | finished => exact absurd hm hf

/-- Work left. -/
def dumpWork (s : DumpSt) : Nat :=
  4 * s.todo.length + 2 * s.ch.length +
    (match s.main with | .ready => 5 | .sending _ => 8 | .finSend => 4 | .waiting => 1 | .finished => 0) +
    (match s.cons with | .absent => 0 | .recv => 1 | .print _ => 2 | .done => 0)

theorem dumpWork_step (diff : List Char → List Char → List Char) {s s' : DumpSt} (st : DumpStep diff s s') :
    dumpWork s' < dumpWork s := by
  rcases st with st | st
  · cases st with
    | append e r hm ht => simp [dumpWork, hm, ht]; omega
    | send i hm hl => simp [dumpWork, hm]; omega
    | finish hm ht => simp [dumpWork, hm]
    | sendEnd hm hl => simp [dumpWork, hm]; omega
    | wait hm hc => simp [dumpWork, hm]
  · cases st with
    | recv i r hc hch => simp [dumpWork, hc, hch]; omega
    | stop r hc hch => simp [dumpWork, hc, hch]; omega
    | print i x hc hx => simp [dumpWork, hc]
    | closed hc hch hcl => simp [dumpWork, hc]

/-- C59/C60: every execution is finite, with a bound linear in the number of entries.  Together with
`streamOut_progress`: under every scheduling the program gets through all its `Dump` calls and
`Finish`. -/
theorem streamOut_terminates (diff : List Char → List Char → List Char) (es : List History) (n : Nat) (s : DumpSt)
    (h : StepsN (DumpStep diff) n (dumpInit true es) s) : n ≤ 4 * es.length + 6 := by
  have key : ∀ n a b, StepsN (DumpStep diff) n a b → dumpWork b + n ≤ dumpWork a := by
    intro n a b hr
    induction hr with
    | refl => simp
    | tail _ st ih => have := dumpWork_step diff st; omega
  have h1 := key _ _ _ h
  have h2 : dumpWork (dumpInit true es) = 4 * es.length + 6 := by simp [dumpWork, dumpInit]
  omega

example : expected (fun _ b => b) none [⟨['a'], ['x']⟩, ⟨['b'], ['y']⟩] =
    [['a', '\n', 'x', '\n'], ['b', '\n', '\n', 'y', '\n']] := by decide

/-- Without `StreamOut` the queue only grows: every finished `Dump` occupies a place. -/
structure QuietInv (es : List History) (s : DumpSt) : Prop where
  cons : s.cons = .absent
  all : s.logs ++ s.todo = es
  count : s.ch.length + s.main.idx.length = s.logs.length + (if s.main = .waiting ∨ s.main = .finished then 1 else 0)

theorem quietInv_step (diff : List Char → List Char → List Char) (es : List History) {s s' : DumpSt}
    (h : QuietInv es s) (st : DumpStep diff s s') : QuietInv es s' := by
  obtain ⟨h1, h2, h3⟩ := h
  rcases st with st | st
  · cases st with
    | append e r hm ht =>
      refine ⟨h1, by simp [← h2, ht], ?_⟩
      simp [hm, MainPc.idx] at h3 ⊢; omega
    | send i hm hl => refine ⟨h1, h2, ?_⟩; simp [hm, MainPc.idx] at h3 ⊢; omega
    | finish hm ht => refine ⟨h1, h2, ?_⟩; simp [hm, MainPc.idx] at h3 ⊢; omega
    | sendEnd hm hl => refine ⟨h1, h2, ?_⟩; simp [hm, MainPc.idx] at h3 ⊢; omega
    | wait hm hc => refine ⟨h1, h2, ?_⟩; simp [hm, MainPc.idx] at h3 ⊢; omega
  · cases st <;> simp_all

/-- C59 (partial): without `StreamOut`, a program that dumps fewer than 100 entries never blocks, neither
in `Dump` nor in `Finish`. -/
theorem dump_nonblocking_partial (diff : List Char → List Char → List Char) (es : List History) (s : DumpSt)
    (hes : es.length < dumpCap) (h : Reach (DumpStep diff) (dumpInit false es) s) (hf : s.main ≠ .finished) :
    ∃ s', MainStep s s' := by
  have hi : QuietInv es s := inv_of_reach
    ⟨by simp [dumpInit], by simp [dumpInit], by simp [dumpInit, MainPc.idx]⟩
    (fun x y hx st => quietInv_step diff es hx st) h
  have hle : s.logs.length ≤ es.length := by rw [← hi.all]; simp
  have hcnt := hi.count
  cases hm : s.main with
  | ready =>
    cases ht : s.todo with
    | nil => exact ⟨_, .finish s hm ht⟩
    | cons e r => exact ⟨_, .append s e r hm ht⟩
  | sending i => refine ⟨_, .send s i hm ?_⟩; simp [hm, MainPc.idx] at hcnt; omega
  | finSend => refine ⟨_, .sendEnd s hm ?_⟩; simp [hm, MainPc.idx] at hcnt; omega
  | waiting => exact ⟨_, .wait s hm (.inl hi.cons)⟩
  | finished => exact absurd hm hf

/-- The dumping program alone. -/
theorem dump_run (diff : List Char → List Char → List Char) (es : List History) : ∀ n, n ≤ dumpCap → n ≤ es.length →
    ∃ s, Reach (DumpStep diff) (dumpInit false es) s ∧ s.main = .ready ∧ s.ch.length = n ∧ s.todo = es.drop n ∧
      s.cons = .absent := by
  intro n
  induction n with
  | zero => intro _ _; exact ⟨_, ⟨0, .refl _⟩, rfl, rfl, rfl, rfl⟩
  | succ n ih =>
    intro h1 h2
    obtain ⟨s, ⟨m, hr⟩, hm, hl, ht, hc⟩ := ih (by omega) (by omega)
    have hd : es.drop n = es[n] :: es.drop (n + 1) := List.drop_eq_getElem_cons (by omega)
    rw [hd] at ht
    have s1 := StepsN.tail hr (.inl (MainStep.append s _ _ hm ht))
    have s2 := StepsN.tail s1 (.inl (MainStep.send _ _ rfl (by show s.ch.length < _; omega)))
    refine ⟨_, ⟨_, s2⟩, rfl, ?_, rfl, hc⟩
    simp [hl]

theorem outStep_present {diff : List Char → List Char → List Char} {s s' : DumpSt} (st : OutStep diff s s') :
    s.cons ≠ .absent := by
  cases st <;> simp_all

/-- C59 fails: without `StreamOut` the 101st `Dump` blocks forever: no step of any goroutine is
enabled. -/
theorem dump_blocks_fails (diff : List Char → List Char → List Char) (es : List History) (h : dumpCap < es.length) :
    ∃ s, Reach (DumpStep diff) (dumpInit false es) s ∧ s.main = .sending s.logs.length.pred ∧
      ∀ s', ¬ DumpStep diff s s' := by
  obtain ⟨s, ⟨m, hr⟩, hm, hl, ht, hc⟩ := dump_run diff es dumpCap (by omega) (by omega)
  have hd : es.drop dumpCap = es[dumpCap] :: es.drop (dumpCap + 1) := List.drop_eq_getElem_cons h
  rw [hd] at ht
  have s1 := StepsN.tail hr (.inl (MainStep.append s _ _ hm ht))
  refine ⟨_, ⟨_, s1⟩, ?_, ?_⟩
  · simp
  · intro s' st
    rcases st with st | st
    · cases st with
      | append e r hm ht => simp at hm
      | send i hm hl' => simp at hl'; omega
      | finish hm ht => simp at hm
      | sendEnd hm hl => simp at hm
      | wait hm hc => simp at hm
    · exact outStep_present st hc

example : ∃ es : List History, dumpCap < es.length := ⟨List.replicate 101 ⟨[], []⟩, by decide⟩

end Fbs.Props
