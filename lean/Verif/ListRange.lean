import Verif.ListAdd
import Verif.ListSwap
/-!
# Sub-lists: `New(OptRange(a, b))`
-/

namespace Fbs
open CNode

/-! ## layouts -/

theorem tot_append (a b : List Bytes) : tot (a ++ b) = tot a + tot b := by simp [tot]

theorem sumTot_take_add (es : List El) (a i : Nat) : sumTot (es.take (a + i)) = sumTot (es.take a) + sumTot ((es.drop a).take i) := by
  rw [List.take_add, sumTot_append]

/-- Element `i` of a block of four byte numbers. -/
theorem flat4 (f : Nat → Nat) (n i : Nat) (h : i < n) :
    ((((List.range n).map fun (j : Nat) => putLE 4 (f j)).flatten).drop (4 * i)).take 4 = putLE 4 (f i) := by
  induction n with
  | zero => omega
  | succ n ih =>
    have hl : (((List.range n).map fun (j : Nat) => putLE 4 (f j)).flatten).length = 4 * n := by
      rw [List.length_flatten, List.map_map]
      have : (List.length ∘ fun (j : Nat) => putLE 4 (f j)) = fun _ => 4 := by funext j; simp [putLE_length]
      rw [this]; simp [Nat.mul_comm]
    rw [List.range_succ, List.map_append, List.flatten_append]
    by_cases hi : i < n
    · rw [List.drop_append_of_le_length (by omega), List.take_append_of_le_length (by rw [List.length_drop]; omega)]
      exact ih hi
    · have : i = n := by omega
      subst this
      rw [← hl, List.drop_left]
      simp only [List.map_cons, List.map_nil, List.flatten_cons, List.flatten_nil, List.append_nil]
      rw [List.take_of_length_le (by rw [putLE_length]; omega)]

theorem flat4_length (f : Nat → Nat) (n : Nat) :
    (((List.range n).map fun (j : Nat) => putLE 4 (f j)).flatten).length = 4 * n := by
  rw [List.length_flatten, List.map_map]
  have : (List.length ∘ fun (j : Nat) => putLE 4 (f j)) = fun _ => 4 := by funext j; simp [putLE_length]
  rw [this]; simp [Nat.mul_comm]

/-! ## the new buffer -/

theorem init_updateU (nm : Name) (w : Bytes) (k : Nat) (hw : w.length = k) :
    (initList nm).io.updateU 4 k w = { bytes := ⟨zeros 4, []⟩, diffs := [⟨4, ⟨w, []⟩⟩] } := by
  rw [updateU_struct _ _ _ _ hw]
  unfold Base.dPrefix Base.D initList Base.new
  simp only [lastIndexOf, Slice.cap, zeros, List.length_replicate, List.length_nil]
  simp

/-- Exchanging initial bytes of the same length touches nothing behind them. -/
theorem holds_setBytes {b : Base} {s : Slice} (hl : s.len = b.bytes.len) {x : Nat} {w : Bytes} (h : Holds b x w)
    (hx : b.bytes.len ≤ x) : Holds { b with bytes := s } x w := by
  obtain ⟨h1, h2, h3⟩ := h
  refine ⟨h1, ?_, ?_⟩
  · rw [noCut_iff] at h2 ⊢
    rintro e (he | he)
    · exact h2 e (Or.inl (by simp only at he; omega))
    · exact h2 e (Or.inr he)
  · intro k hk
    have := h3 k hk
    rw [content_eq] at this ⊢
    simp only
    cases hlo : lastOf (fun d => d.covers (x + k)) b.diffs with
    | some d => rw [hlo] at this; exact this
    | none =>
      rw [hlo] at this
      simp only at this ⊢
      unfold Slice.len at hl hx
      rw [List.getElem?_eq_none (by omega)] at this ⊢
      exact this

variable {s : Sch} {k0 : Nat} {t : Name} {vs : Nat} {c : CNode} {es : List El}

theorem TLI.atWithBegin (h : TLI s k0 t vs c es) (ht : TabElt s t) {i : Nat} {e : El} (hi : es[i]? = some e) :
    ∃ tl, c.atWithBegin s i = some (.ok ({ name := t, io := c.io, pos := elX es i + vs, tlen := tl }, (elX es i : Int))) := by
  obtain ⟨tl, h1⟩ := h.view.at_eq ht hi
  refine ⟨tl, ?_⟩
  unfold CNode.atWithBegin
  rw [h1]
  simp only [Option.bind_eq_bind, Option.bind_some]
  rw [not_direct ht h.name]
  simp only [Option.bind_some, Bool.false_eq_true, if_false]
  rw [(h.self e (List.mem_of_getElem? hi)).vtl _ _ (h.elt i e hi) { name := t, io := c.io, pos := elX es i + vs, tlen := tl } rfl rfl]
  simp only [Option.bind_some, pure]
  congr 4
  omega

theorem elX_succ {i : Nat} {e : El} (hi : es[i]? = some e) : elX es (i + 1) = elX es i + tot e.ps := by
  unfold elX
  rw [sumTot_take_succ hi]; omega

theorem TLI.dataRange (h : TLI s k0 t vs c es) (ht : TabElt s t) (k : Nat) (hk : k0 ≤ k) (x : Nat) (m : Nat) :
    ∀ i, i + m ≤ es.length → x ≤ elX es i → c.dataRange s k i m ((x : Int), (elX es i : Int)) = some ((x : Int), (elX es (i + m) : Int)) := by
  induction m with
  | zero => intro i _ _; rfl
  | succ m ih =>
    intro i hi hx
    have hi' : i < es.length := by omega
    obtain ⟨e, he⟩ : ∃ e, es[i]? = some e := ⟨_, List.getElem?_eq_getElem hi'⟩
    obtain ⟨tl, h1⟩ := h.atWithBegin ht he
    have hs := h.self e (List.mem_of_getElem? he)
    have hlen := hs.len
    have hX := elX_succ he
    unfold CNode.dataRange
    rw [h1]
    simp only [Option.bind_eq_bind, Option.bind_some]
    rw [hs.info _ _ (h.elt i e he) k hk { name := t, io := c.io, pos := elX es i + vs, tlen := tl } rfl rfl rfl]
    simp only [Option.bind_some]
    have e1 : min (x : Int) (elX es i : Int) = x := by omega
    have e2 : max (elX es i : Int) (((elX es i + vs : Nat) : Int) + (e.m : Int)) = (elX es (i + 1) : Int) := by omega
    rw [e1, e2, ih (i + 1) (by omega) (by omega)]
    congr 3
    rw [Nat.add_right_comm]; rfl

/-- The sub-list of a list of tables in a buffer of its own is again such a list. -/
theorem TLI.newRange (h : TLI s k0 t vs c es) (ht : TabElt s t) (hvs : 0 < vs) (k : Nat) (hk : k0 ≤ k) (a cnt : Nat) (hc : 0 < cnt)
    (hac : a + cnt ≤ es.length) :
    ∃ c', c.newRange s (k + 1) a ((a : Int) + cnt - 1) = some (some c') ∧ TLI s k0 t vs c' ((es.drop a).take cnt) := by
  have hsm := h.small
  have hEnd : elEnd es = 4 + 4 * es.length + sumTot es := rfl
  obtain ⟨e0, he0⟩ : ∃ e, es[a]? = some e := ⟨_, List.getElem?_eq_getElem (show a < es.length by omega)⟩
  obtain ⟨tl, h1⟩ := h.atWithBegin ht he0
  have hs0 := h.self e0 (List.mem_of_getElem? he0)
  have hl0 := hs0.len
  have hX0 := elX_succ he0
  unfold CNode.newRange
  rw [if_neg (by omega), h.listLen]
  simp only [Option.bind_eq_bind, Option.bind_some]
  rw [if_neg (by omega)]
  have ecnt : ((a : Int) + cnt - 1 - a + 1).toNat = cnt := by omega
  rw [Int.toNat_natCast, ecnt]
  -- the offsets
  have hoff : ((List.range cnt).mapM fun (i : Nat) => c.u32 (c.vi.pos + ((a + i : Nat) : Int) * 4)) =
      some ((List.range cnt).map fun (i : Nat) => elX es (a + i) + vs - (4 + 4 * (a + i))) := by
    apply mapM_eq
    intro i hi
    rw [List.mem_range] at hi
    have hlt : a + i < es.length := by omega
    have := h.off (a + i) hlt
    have hX := elX_end (List.getElem?_eq_getElem hlt)
    have hsl := (h.self _ (List.getElem_mem hlt)).len
    have e1 : c.vi.pos + ((a + i : Nat) : Int) * 4 = ((4 + 4 * (a + i) : Nat) : Int) := by rw [h.vpos]; omega
    rw [e1]
    exact u32_of_holds this (by omega)
  rw [hoff]
  simp only [Option.bind_some]
  rw [h1]
  simp only [Option.bind_some]
  rw [hs0.info _ _ (h.elt a e0 he0) (k + 1) (by omega) { name := t, io := c.io, pos := elX es a + vs, tlen := tl } rfl rfl rfl]
  simp only [Option.bind_some]
  have e2 : max (-1 : Int) (((elX es a + vs : Nat) : Int) + (e0.m : Int)) = (elX es (a + 1) : Int) := by omega
  rw [e2, h.dataRange ht (k + 1) (by omega) (elX es a) (cnt - 1) (a + 1) (by omega) (by omega)]
  have e3 : a + 1 + (cnt - 1) = a + cnt := by omega
  rw [e3]
  simp only [Option.bind_some]
  rw [if_pos (by omega)]
  -- the elements taken over
  generalize hes' : (es.drop a).take cnt = es'
  have hl' : es'.length = cnt := by rw [← hes', List.length_take, List.length_drop]; omega
  have hget : ∀ i, i < cnt → es'[i]? = es[a + i]? := by
    intro i hi
    rw [← hes', List.getElem?_take_of_lt hi, List.getElem?_drop]
  have htake : ∀ i, i ≤ cnt → sumTot (es.take (a + i)) = sumTot (es.take a) + sumTot (es'.take i) := by
    intro i hi
    rw [sumTot_take_add, ← hes', List.take_take, Nat.min_eq_left hi]
  have hXe : ∀ i, i ≤ cnt → elX es (a + i) = elX es a + sumTot (es'.take i) := by
    intro i hi; unfold elX; rw [htake i hi]; omega
  have hX' : ∀ i, elX es' i = 4 + 4 * cnt + sumTot (es'.take i) := by intro i; unfold elX; rw [hl']
  have hE' : elEnd es' = 4 + 4 * cnt + sumTot es' := by unfold elEnd; rw [hl']
  have hXend : elX es (a + cnt) = elX es a + sumTot es' := by
    rw [hXe cnt (Nat.le_refl _), List.take_of_length_le (by omega)]
  have hle : sumTot es' ≤ sumTot es := by
    have := sumTot_take_le es (a + cnt)
    have h2 := htake cnt (Nat.le_refl _)
    rw [List.take_of_length_le (show es'.length ≤ cnt by omega)] at h2
    omega
  have hsm' : elEnd es' < 4294967296 := by omega
  have hself : ∀ e ∈ es', SelfC s k0 t vs e.ps e.m := by
    intro e he
    rw [← hes'] at he
    exact h.self e (List.mem_of_mem_drop (List.mem_of_mem_take he))
  -- the new offsets
  generalize hf : (fun (i : Nat) => elX es' i + vs - (4 + 4 * i)) = f
  have hw : ((List.map (fun (o : Nat) => putLE 4 (Fbs.u32 ((o : Int) - (((es.length : Int) - a - cnt) * 4 + ((elX es a : Int) - (c.vi.pos + es.length * 4))))))
      ((List.range cnt).map fun (i : Nat) => elX es (a + i) + vs - (4 + 4 * (a + i)))).flatten) =
      ((List.range cnt).map fun (i : Nat) => putLE 4 (f i)).flatten := by
    rw [List.map_map]
    congr 1
    apply List.map_congr_left
    intro i hi
    rw [List.mem_range] at hi
    have e4 := hXe i (by omega)
    have e5 := hX' i
    have e7 := h.vpos
    have e8 : elX es a = 4 + 4 * es.length + sumTot (es.take a) := rfl
    have e6 : (((elX es (a + i) + vs - (4 + 4 * (a + i)) : Nat) : Int) - (((es.length : Int) - a - cnt) * 4 + ((elX es a : Int) - (c.vi.pos + es.length * 4)))) =
        ((f i : Nat) : Int) := by
      rw [← hf]; simp only; omega
    have e9 := elX_end (es := es') (i := i) (List.getElem?_eq_getElem (by omega))
    have e10 := (hself _ (List.getElem_mem (show i < es'.length by omega))).len
    simp only [Function.comp_apply]
    rw [e6, u32_nat _ (by rw [← hf]; simp only; omega)]
  rw [hw, init_updateU _ _ (4 * cnt) (flat4_length _ _)]
  generalize hb0 : (({ bytes := ⟨zeros 4, []⟩, diffs := [⟨4, ⟨((List.range cnt).map fun (i : Nat) => putLE 4 (f i)).flatten, []⟩⟩] } : Base)) = b0
  have b0d : b0.diffs = [⟨4, ⟨((List.range cnt).map fun (i : Nat) => putLE 4 (f i)).flatten, []⟩⟩] := by rw [← hb0]
  have b0b : b0.bytes.len = 4 := by rw [← hb0]; rfl
  have b0end : ∀ d ∈ b0.diffs, d.off = 4 ∧ d.sl.len = 4 * cnt := by
    intro d hd
    rw [b0d, List.mem_singleton] at hd
    rw [hd]; exact ⟨rfl, flat4_length _ _⟩
  have b0cl : Clean b0 (4 + 4 * cnt) := by
    intro d hd; have := b0end d hd; unfold Straddles; omega
  have b0bel : Below b0 (4 + 4 * cnt) := by
    intro d hd; have := b0end d hd; omega
  have b0w : Holds b0 4 ((List.range cnt).map fun (i : Nat) => putLE 4 (f i)).flatten := by
    refine ⟨?_, ?_, ?_⟩
    · intro hh; have := flat4_length f cnt; rw [hh] at this; simp at this; omega
    · rw [noCut_iff, flat4_length]
      rintro e (he | ⟨d, hd, he⟩)
      · omega
      · have := b0end d hd; omega
    · intro j hj
      rw [content_eq, b0d]
      have hcv : lastOf (fun d : Diff => d.covers (4 + j)) [(⟨4, ⟨((List.range cnt).map fun (i : Nat) => putLE 4 (f i)).flatten, []⟩⟩ : Diff)] =
          some ⟨4, ⟨((List.range cnt).map fun (i : Nat) => putLE 4 (f i)).flatten, []⟩⟩ := by
        have : (⟨4, ⟨((List.range cnt).map fun (i : Nat) => putLE 4 (f i)).flatten, []⟩⟩ : Diff).covers (4 + j) = true := by
          rw [covers_iff]; simp only [Slice.len]; omega
        cases hlo : lastOf (fun d : Diff => d.covers (4 + j)) [(⟨4, ⟨((List.range cnt).map fun (i : Nat) => putLE 4 (f i)).flatten, []⟩⟩ : Diff)] with
        | none =>
          have h9 := lastOf_none.mp hlo _ (List.mem_singleton_self _)
          rw [this] at h9; cases h9
        | some d => rw [List.mem_singleton.mp (lastOf_some hlo).1]
      rw [hcv]
      simp only
      congr 1; omega
  -- copying
  have hR : Reads c.io.dup (elX es a) (allPs es') := by
    apply exact_reads
    · intro cc hcc
      obtain ⟨i, e, hi, hm⟩ := (cells_allPs _ _).mp hcc
      have hil : i < cnt := by have := (List.getElem?_eq_some_iff.mp hi).1; omega
      rw [← hXe i (by omega)] at hm
      exact exact_dup (h.exact (a + i) e (by rw [← hget i hil]; exact hi) cc hm)
    · intro w hw
      obtain ⟨e, he, hwe⟩ := List.mem_flatMap.mp hw
      obtain ⟨i, hi⟩ := List.getElem?_of_mem he
      have hil : i < cnt := by have := (List.getElem?_eq_some_iff.mp hi).1; omega
      rw [hget i hil] at hi
      have hh := h.elt (a + i) e hi
      have : ∀ (x : Nat) (ps : List Bytes), HoldsC c.io (cellsAt x ps) → ∀ w ∈ ps, w ≠ [] := by
        intro x ps
        induction ps generalizing x with
        | nil => intro _ w hw; cases hw
        | cons v ps ih =>
          intro hC w hw
          rcases List.mem_cons.mp hw with rfl | hw
          · exact (hC (x, w) (List.mem_cons_self ..)).1
          · exact ih _ (fun cc hcc => hC cc (List.mem_cons_of_mem _ hcc)) w hw
      exact this _ _ hh w hwe
  have e11 : (elX es (a + cnt) : Int) - (elX es a : Int) = ((tot (allPs es') : Nat) : Int) := by
    rw [tot_allPs]; omega
  have e12 : (4 : Int) + (cnt : Int) * 4 = ((4 + 4 * cnt : Nat) : Int) := by omega
  rw [e11, e12, copyI_zero]
  obtain ⟨pd, hcp, hpd⟩ := copy_reads (b := b0) (dst := 4 + 4 * cnt) hR (by omega)
  rw [hcp]
  simp only [Option.bind_some]
  have hne := reads_ne hR
  have b1_elt : HoldsC (b0.apps pd) (cellsAt (4 + 4 * cnt) (allPs es')) :=
    apps_same hpd hne (fun cc hcc => noCut_end (by omega) b0bel b0cl (cellsAt_mem hcc).1)
  have b1_off := apps_other hpd b0w (Or.inl (by rw [flat4_length]; omega))
  have b1_cl0 : Clean (b0.apps pd) (4 + 4 * cnt) := apps_clean hpd b0cl (Or.inl (Nat.le_refl _))
  have b1_cl1 : Clean (b0.apps pd) (elEnd es') := by
    refine apps_clean hpd ?_ (Or.inr (by rw [tot_allPs]; omega))
    intro d hd; have := b0end d hd; unfold Straddles; omega
  have b1_bel : Below (b0.apps pd) (elEnd es') := by
    apply apps_below hpd hne
    · intro d hd; have := b0end d hd; omega
    · rw [tot_allPs]; omega
  have b1_ex : ExactC (b0.apps pd) (cellsAt (4 + 4 * cnt) (allPs es')) := by
    apply exact_apps_same hpd hne
    intro d hd; have := b0end d hd; omega
  have b1_b : (b0.apps pd).bytes.len = 4 := b0b
  have b1_lo : ∀ d ∈ (b0.apps pd).diffs, 4 ≤ d.off := by
    intro d hd
    rcases List.mem_append.mp hd with hd | hd
    · have := b0end d hd; omega
    · have hm : diffCell d ∈ cellsAt (4 + 4 * cnt) (allPs es') := by rw [← hpd]; exact List.mem_map_of_mem hd
      have := cellsAt_mem hm
      simp only [diffCell] at this; omega
  generalize hb1 : b0.apps pd = b1 at *
  -- the count
  have hlen4 : (⟨putLE 4 cnt, []⟩ : Slice).len = b1.bytes.len := by rw [b1_b]; exact putLE_length _ _
  have hof : ∀ x w, Holds b1 x w → 4 ≤ x → Holds { b1 with bytes := (⟨putLE 4 cnt, []⟩ : Slice) } x w :=
    fun x w hw hx => holds_setBytes hlen4 hw (by omega)
  have hview : TView s k0 t vs { name := c.name, io := { b1 with bytes := (⟨putLE 4 cnt, []⟩ : Slice) }, pos := 4, vi := { pos := 4 } } es' := by
    refine ⟨h.name, rfl, hsm', ?_, ?_, ?_, hself⟩
    · rw [hl']
      refine ⟨putLE4_ne _, ?_, ?_⟩
      · rw [noCut_iff, putLE_length]
        rintro e (he | ⟨d, hd, he⟩)
        · simp only [Slice.len, putLE_length] at he; omega
        · have := b1_lo d hd; omega
      · intro j hj
        rw [putLE_length] at hj
        rw [content_eq]
        have : lastOf (fun d : Diff => d.covers j) b1.diffs = none := by
          rw [lastOf_none]
          intro d hd
          have := b1_lo d hd
          rw [Bool.eq_false_iff, ne_eq, covers_iff]; omega
        simp only [Nat.zero_add, this]
    · intro i hi
      rw [hl'] at hi
      have := holds_sub b1_off (4 * i) 4 (by omega) (by rw [flat4_length]; omega)
      rw [flat4 f cnt i hi, ← hf] at this
      exact hof _ _ this (by omega)
    · intro i e hi cc hcc
      have hm := cellsAt_mem hcc
      rw [hX' i] at hcc hm
      exact hof _ _ (b1_elt cc ((cells_allPs _ _).mpr ⟨i, e, hi, hcc⟩)) (by omega)
  have hfin := hview.infoSlice ht k hk
  unfold CNode.refresh
  simp only [initList]
  rw [hfin]
  simp only [Option.bind_eq_bind, Option.bind_some, pure]
  refine ⟨_, rfl, ?_⟩
  refine ⟨hview.name, rfl, rfl, rfl, fun hne => by simp only; rw [if_neg hne], hsm', hview.hdr, hview.off, hview.elt, hself, ?_, ?_, b1_cl1, b1_bel, ?_⟩
  · simp only [hlen4, b1_b]; omega
  · rw [hl']; exact b1_cl0
  · intro i e hi cc hcc
    rw [hX' i] at hcc
    exact b1_ex cc ((cells_allPs _ _).mpr ⟨i, e, hi, hcc⟩)

end Fbs
