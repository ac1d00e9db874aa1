import Verif.EditForest
/-!
# `FindTree` (C106; common.go 816-840)
-/
namespace Fbs.Props
open Fbs CNode

variable {s : Sch}

theorem collect_rooted {α : Type} {f : α → Go (List Visit)} {p : Int} : ∀ {l : List α} {r : List Visit}, collect f l = some r →
    (∀ a ∈ l, ∀ x, f a = some x → Rooted s p x) → Rooted s p r
  | [], r, h, _ => by
    simp only [collect, Option.some.injEq] at h; subst h; exact rooted_nil _ _
  | a :: l, r, h, hf => by
    simp only [collect, Option.bind_eq_bind, pure] at h
    obtain ⟨x, hx, h⟩ := Option.bind_eq_some_iff.mp h
    obtain ⟨z, hz, h⟩ := Option.bind_eq_some_iff.mp h
    simp only [Option.some.injEq] at h
    subst h
    exact rooted_append (hf a (by simp) x hx) (collect_rooted hz (fun b hb => hf b (by simp [hb])))

theorem ListsWhole.below {c n : CNode} (h : ListsWhole s c) (hb : Below1 s c n) : ListsWhole s n :=
  fun d i l hr => h d i l (.step _ _ _ hb hr)

theorem standsV_field {c n : CNode} {i : Nat} {p q z : Int} (hc : c.vi = {}) (hf : c.fieldAt s i = some (some n)) (hp : treePos (some n) = p) :
    StandsV s ⟨c, i, q, z, -1⟩ p := by
  refine ⟨n, ?_, hp⟩
  unfold treeNode
  simp only [hc]
  rw [if_neg (by decide)]
  simp only [Option.bind_eq_bind, hf, Option.bind_some, pure]

theorem treePos_plain {n : CNode} (h : n.vi = {}) : treePos (some n) = n.pos := by
  show (if n.vi.pos > 0 then n.vi.pos else (n.pos : Int)) = n.pos
  rw [h]; rfl

theorem treePos_list {n : CNode} (h : 0 < n.vi.pos) : treePos (some n) = n.vi.pos := by
  show (if n.vi.pos > 0 then n.vi.pos else (n.pos : Int)) = n.vi.pos
  rw [if_pos h]

/-- In a walk every owner comes before what it owns. -/
theorem walk_rooted (hst : SaneVectors s) : ∀ (k : Nat) (c : CNode) (vs : List Visit), traverseF s k c = some vs → c.vi = {} → ListsWhole s c →
    Rooted s c.pos vs := by
  intro k
  induction k using Nat.strongRecOn with
  | ind k ih =>
    intro c vs h hc hw
    cases k with
    | zero => simp [traverseF] at h
    | succ k =>
      unfold traverseF at h
      refine collect_rooted h ?_
      intro i hi x hx
      rw [List.mem_range] at hi
      cases k with
      | zero => simp [traverseAt] at hx
      | succ k =>
        cases traverseAt_at1 hx with
        | leaf v _ _ _ => exact rooted_one rfl
        | nounion _ _ _ => exact rooted_nil _ _
        | absent _ _ _ _ => exact rooted_nil _ _
        | union a n v t r hl hu hf hv ht h0 h1 =>
          obtain ⟨u, hu', hn⟩ := followUnion_field hf
          have hvi := fieldAt_vi hu' (Or.inr (Or.inr (Or.inl hu)))
          have hnv : n.vi = {} := by rw [hn]; exact hvi
          have hpos : n.pos = u.pos := by rw [hn]
          refine rooted_cons rfl (standsV_field (p := n.pos) hc hu' (by rw [treePos_plain hvi, hpos])) ?_
          by_cases e : (v : Int) = t
          · rw [h0 e]; exact rooted_nil _ _
          · exact ih k (by omega) n r (h1 e) hnv (hw.below (.member i a n hi hu hf ⟨v, t, hv, ht, e⟩))
        | other n r hl hu hs hf h1 h2 =>
          have hvi : n.vi = {} := by
            refine fieldAt_vi hf (Or.inr (Or.inr (Or.inr ⟨?_, hs⟩)))
            unfold isFieldBytes
            have : isMatchBit (c.fieldT s i).grp ftSlice = false := hs
            rw [this, Bool.false_and]
          refine rooted_cons rfl (standsV_field (p := n.pos) hc hf (treePos_plain hvi)) ?_
          by_cases ht : isFieldTable (c.fieldT s i).grp = true
          · obtain ⟨v, t, hv, hvt, g1, g2⟩ := h1 ht
            by_cases e : (v : Int) = t
            · rw [g1 e]; exact rooted_nil _ _
            · exact ih k (by omega) n r (g2 e) hvi (hw.below (.field i n hi hl hu hs hf (fun _ => ⟨v, t, hv, hvt, e⟩)))
          · have ht : isFieldTable (c.fieldT s i).grp = false := by simpa using ht
            exact ih k (by omega) n r (h2 ht) hvi (hw.below (.field i n hi hl hu hs hf (fun e => by rw [ht] at e; cases e)))
        | slice n r hl hu hs hf h1 =>
          obtain ⟨hns, hys⟩ := hst.at_ hi hs
          have hpos := fieldAt_list_pos hf hys hns hu hs
          refine rooted_cons rfl (standsV_field (p := n.vi.pos) hc hf (treePos_list hpos)) ?_
          cases k with
          | zero => simp [traverseSliceF] at h1
          | succ k =>
            unfold traverseSliceF at h1
            simp only [Option.bind_eq_bind, pure] at h1
            obtain ⟨es, hes, h1⟩ := Option.bind_eq_some_iff.mp h1
            refine collect_rooted h1 ?_
            intro p hp y hy
            obtain ⟨z, hz, hy⟩ := Option.bind_eq_some_iff.mp hy
            simp only [Option.some.injEq] at hy
            subst hy
            obtain ⟨e, j⟩ := p
            have hj : es[j]? = some e := by simpa using List.mem_zipIdx_iff_getElem?.mp hp
            have hat := all_get hes (hw c i n (.here _) hf hs) j e hj
            have hev := at_vi hat
            refine rooted_cons (p' := e.pos) rfl ⟨e, ?_, treePos_plain hev⟩ ?_
            · unfold treeNode
              simp only
              rw [if_pos hpos]
              simp only [Option.bind_eq_bind, hat, Option.bind_some, pure]
            · exact ih k (by omega) e z hz hev (hw.below (.element i n e es hi hl hu hs hf hes (List.mem_of_getElem? hj)))

/-- C106: of the trees `AllTree` made, `FindTree` delivers those that satisfy the condition, all of them, each once; the
first tree (the node itself) is never delivered. -/
theorem find_complete_partial (fuel : Nat) (c : CNode) (t : Forest) (hst : SaneVectors s) (hc : c.vi = {}) (hw : ListsWhole s c)
    (h : allTree s fuel c = some t) (cond : Nat → Bool) :
    (t.find cond).Nodup ∧ ∀ i, i ∈ t.find cond ↔ 1 ≤ i ∧ i < t.node.length ∧ cond i = true := by
  obtain ⟨vs, hvs, -⟩ := allTree_trees h
  have htot : ∀ u ∈ vs, ∃ o, treeNode s u = some (some o) := by
    intro u hu
    obtain ⟨j, hj⟩ := List.getElem?_of_mem hu
    obtain ⟨vs', hvs', hlen, -, h0, hp0, ht⟩ := allTree_trees h
    rw [hvs] at hvs'
    cases hvs'
    obtain ⟨o, q, ho, -⟩ := ht j u hj
    cases o with
    | some o => exact ⟨o, ho⟩
    | none =>
      exfalso
      have hz := ho
      unfold treeNode at hz
      split at hz
      · rename_i hpos
        cases walk_sound fuel c vs hvs u hu with
        | leaf w hr _ _ hp =>
          rw [(reached_tree hvs hw hc hst hr).1] at hpos; exact absurd hpos (by decide)
        | field n hr _ _ _ _ hp =>
          rw [(reached_tree hvs hw hc hst hr).1] at hpos; exact absurd hpos (by decide)
        | member a n hr _ _ _ hp =>
          rw [(reached_tree hvs hw hc hst hr).1] at hpos; exact absurd hpos (by decide)
        | element d i es e hr hi hl hu hs hf hes he hp _ _ =>
          have hat := all_get hes (hw d i _ hr hf hs) _ _ he
          rw [hat] at hz
          cases hz
      · simp only [Option.bind_eq_bind, pure] at hz
        obtain ⟨f, -, hz⟩ := Option.bind_eq_some_iff.mp hz
        cases hz
  obtain ⟨t', ht', hG⟩ := allTree_grown hvs hc htot (walk_rooted hst fuel c vs hvs hc hw)
  rw [h] at ht'
  cases ht'
  have := find_spec hG.ok hG.len cond
  rw [hG.len]
  exact this

/-! ## an example -/

/-- The hypotheses of `find_complete_partial` hold for the message of `treeSch`, and the trees that stand behind position 40 are found. -/
example : SaneVectors treeSch ∧ treeMsg.vi = {} ∧ ListsWhole treeSch treeMsg ∧
    (allTree treeSch 9 treeMsg).map (fun t => t.find fun i => decide (50 < treePos (t.at_ i))) = some [8, 9] :=
  ⟨treeSane, rfl, treeWhole, by decide +kernel⟩
end Fbs.Props
