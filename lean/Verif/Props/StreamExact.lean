import Verif.Props.Stream
import Verif.Props.Misc
/-!
# C25: which sequences of reads from a stream get what they ask for
-/

namespace Fbs.Props
open Fbs Fbs.SBase

/-- Specification: the bytes of the stream in a range. -/
def cut (s : Bytes) (off n : Nat) : Bytes := (s.drop off).take n

/-- Specification: the later range lies in the earlier one, or has nothing in common with it. -/
def Clear (q : Nat × Nat) (off req : Nat) : Prop :=
  (q.1 ≤ off ∧ off + req ≤ q.1 + q.2) ∨ q.1 + q.2 ≤ off ∨ off + req ≤ q.1

/-- What holds of a buffer from which the ranges `L` were read. -/
structure SInv (s : Bytes) (L : List (Nat × Nat)) (b : SBase) : Prop where
  src   : b.src = .file s
  diffs : b.diffs = []
  lec   : b.len ≤ b.cap
  cel   : b.cap ≤ b.arr.length
  pre   : ∀ x, x < b.len → b.arr[x]? = s[x]?
  les   : b.len ≤ s.length
  seg   : ∀ d ∈ b.rdiffs, d.data = cut s d.off d.data.length ∧ d.off + d.data.length ≤ s.length ∧ 0 < d.data.length ∧ b.len ≤ d.off
  caps  : b.rdiffs ≠ [] → b.cap = b.len
  sorted : b.rdiffs.Pairwise fun d e => d.off + d.data.length ≤ e.off
  cov   : ∀ q ∈ L, q.1 + q.2 ≤ b.len ∨ ∃ d ∈ b.rdiffs, d.off ≤ q.1 ∧ q.1 + q.2 ≤ d.off + d.data.length
  ledge : b.len = 0 ∨ ∃ q ∈ L, q.1 + q.2 = b.len
  edge  : ∀ d ∈ b.rdiffs, (∃ q ∈ L, q.1 = d.off) ∧ ∃ q ∈ L, q.1 + q.2 = d.off + d.data.length
  pos   : ∀ q ∈ L, 0 < q.2

theorem cut_len {s : Bytes} {o n : Nat} (h : o + n ≤ s.length) : (cut s o n).length = n := by
  unfold cut
  rw [List.length_take, List.length_drop]
  omega

theorem cut_sub {s : Bytes} {o n x k : Nat} (h1 : o ≤ x) (h2 : x + k ≤ o + n) : ((cut s o n).drop (x - o)).take k = cut s x k := by
  unfold cut
  rw [List.drop_take, List.drop_drop, List.take_take, show o + (x - o) = x by omega, show min k (n - (x - o)) = k by omega]

theorem arr_take {s : Bytes} {L : List (Nat × Nat)} {b : SBase} (h : SInv s L b) : b.arr.take b.len = cut s 0 b.len := by
  unfold cut
  rw [List.drop_zero]
  refine List.ext_getElem? fun x => ?_
  rw [List.getElem?_take, List.getElem?_take]
  by_cases hx : x < b.len
  · rw [if_pos hx, if_pos hx, h.pre x hx]
  · rw [if_neg hx, if_neg hx]

theorem open_inv (s : Bytes) (cap : Nat) : SInv s [] (SBase.open (.file s) cap) where
  src := rfl
  diffs := rfl
  lec := Nat.zero_le _
  cel := by unfold SBase.open zeros; simp
  pre := fun x hx => absurd hx (Nat.not_lt_zero _)
  les := Nat.zero_le _
  seg := by intro d hd; cases hd
  caps := fun h => absurd rfl h
  sorted := List.Pairwise.nil
  cov := by intro d hd; cases hd
  ledge := Or.inl rfl
  edge := by intro d hd; cases hd
  pos := by intro d hd; cases hd

/-- What `writerR` sees of a buffer nothing was written to. -/
theorem writer_data {s : Bytes} {L : List (Nat × Nat)} {b : SBase} (h : SInv s L b) (off : Nat) :
    (b.base.writerR off).data = (b.arr.take b.len).drop off := by
  have hd : b.base.diffs = [] := h.diffs
  have hb : b.base.bytes.data = b.arr.take b.len := rfl
  unfold Base.writerR
  rw [hd]
  simp only [lastIndexOf, List.isEmpty_nil, if_true]
  split
  · rename_i hl
    rw [List.drop_eq_nil_of_le (by rw [← hb]; exact Nat.le_of_lt hl)]
    rfl
  · rfl

theorem writer_len {s : Bytes} {L : List (Nat × Nat)} {b : SBase} (h : SInv s L b) (off : Nat) :
    (b.base.writerR off).data.length = b.len - off := by
  rw [writer_data h, List.length_drop, List.length_take]
  have := h.lec; have := h.cel
  omega

/-- The segment `readerR` finds first. -/
theorem first_seg {s : Bytes} {L : List (Nat × Nat)} {b : SBase} (h : SInv s L b) {off req k : Nat} {d : RDiff} (hd : d ∈ b.rdiffs)
    (h1 : d.off ≤ off) (h2 : off + req ≤ d.off + d.data.length) (h3 : req ≤ k) (h4 : off + k ≤ d.off + d.data.length) :
    ∃ n e, lastIndexOf (fun d : RDiff => decide (d.off ≤ off) && decide (off + req ≤ d.off + d.data.length)) b.rdiffs = some n ∧
      b.rdiffs[n]? = some e ∧ (e.data.drop (off - e.off)).take k = cut s off k := by
  cases hn : lastIndexOf (fun d : RDiff => decide (d.off ≤ off) && decide (off + req ≤ d.off + d.data.length)) b.rdiffs with
  | none =>
    have := lastIndexOf_none.mp hn d hd
    simp only [Bool.and_eq_false_iff, decide_eq_false_iff_not] at this
    omega
  | some n =>
    obtain ⟨e, he, hp⟩ := lastIndexOf_lt hn
    simp only [Bool.and_eq_true, decide_eq_true_eq] at hp
    refine ⟨n, e, rfl, he, ?_⟩
    obtain ⟨m, hm⟩ := List.mem_iff_getElem?.mp hd
    have hmn := lastIndexOf_last hn hm (by simp only [Bool.and_eq_true, decide_eq_true_eq]; omega)
    have hes := h.seg e (List.mem_of_getElem? he)
    rw [hes.1]
    by_cases hk : k = 0
    · subst hk; unfold cut; simp
    refine cut_sub hp.1 ?_
    rcases Nat.lt_or_eq_of_le hmn with hlt | rfl
    · have := (List.pairwise_iff_getElem.mp h.sorted) m n (List.getElem?_eq_some_iff.mp hm).1 (List.getElem?_eq_some_iff.mp he).1 hlt
      rw [(List.getElem?_eq_some_iff.mp hm).2, (List.getElem?_eq_some_iff.mp he).2] at this
      omega
    · rw [hm] at he
      cases he
      omega

/-- What was read once can be read again, in full or in part, with any size. -/
theorem step_known {s : Bytes} {L : List (Nat × Nat)} {b : SBase} (h : SInv s L b) {off req want fuel : Nat}
    (hk : ∃ q ∈ L, q.1 ≤ off ∧ off + max req want ≤ q.1 + q.2) :
    ∃ r, b.R fuel off req = some (b, r) ∧ r.take want = cut s off want := by
  obtain ⟨q, hq, h1, h2⟩ := hk
  have ht : ∀ k, off + k ≤ b.len → ((b.arr.take b.len).drop off).take k = cut s off k := by
    intro k hk
    rw [arr_take h]
    exact cut_sub (Nat.zero_le _) (by omega)
  unfold SBase.R
  simp only
  rw [writer_len h]
  rcases h.cov q hq with hc | ⟨d, hd, hc1, hc2⟩
  · by_cases hw : b.len - off = 0
    · rw [if_pos hw]
      have h0 : want = 0 := by omega
      unfold SBase.readerR
      subst h0
      split
      · rename_i n hn
        obtain ⟨e, he, -⟩ := lastIndexOf_lt hn
        exact ⟨_, by rw [he]; rfl, by unfold cut; simp⟩
      · rw [if_neg (by omega)]
        exact ⟨_, rfl, by unfold cut; simp⟩
    · rw [if_neg hw, writer_data h]
      exact ⟨_, rfl, ht _ (by omega)⟩
  · have := (h.seg d hd).2.2.2
    by_cases hw : b.len - off = 0
    · rw [if_pos hw]
      obtain ⟨n, e, hn, he, hr⟩ := first_seg h hd (Nat.le_trans hc1 h1) (off := off) (req := req) (k := max req want) (by omega) (by omega) (by omega)
      unfold SBase.readerR
      simp only [hn, he]
      refine ⟨_, rfl, ?_⟩
      have := congrArg (List.take want) hr
      rw [List.take_take, show min want (max req want) = want by omega] at this
      rw [this]
      unfold cut
      rw [List.take_take, show min want (max req want) = want by omega]
    · omega

theorem SInv.more {s : Bytes} {L : List (Nat × Nat)} {b : SBase} (h : SInv s L b) {q : Nat × Nat} (hq : 0 < q.2)
    (hc : q.1 + q.2 ≤ b.len ∨ ∃ d ∈ b.rdiffs, d.off ≤ q.1 ∧ q.1 + q.2 ≤ d.off + d.data.length) : SInv s (q :: L) b where
  src := h.src
  diffs := h.diffs
  lec := h.lec
  cel := h.cel
  pre := h.pre
  les := h.les
  seg := h.seg
  caps := h.caps
  sorted := h.sorted
  cov := by
    intro p hp
    rcases List.mem_cons.mp hp with rfl | hp
    · exact hc
    · exact h.cov p hp
  ledge := h.ledge.imp_right fun ⟨p, hp, e⟩ => ⟨p, List.mem_cons_of_mem _ hp, e⟩
  edge := fun d hd => ⟨(h.edge d hd).1.imp fun p hp => ⟨List.mem_cons_of_mem _ hp.1, hp.2⟩, (h.edge d hd).2.imp fun p hp => ⟨List.mem_cons_of_mem _ hp.1, hp.2⟩⟩
  pos := by
    intro p hp
    rcases List.mem_cons.mp hp with rfl | hp
    · exact hq
    · exact h.pos p hp

theorem readFile (s : Bytes) {n off : Nat} (h : off + n ≤ s.length) : (Src.file s).readAt n off = (.file s, cut s off n, .ok) := by
  unfold Src.readAt
  simp only
  rw [if_neg]
  · rfl
  · have := cut_len h
    unfold cut at this
    omega

theorem calc_enough {n : Nat} (h : n < 16777216) : n ≤ calcBufSize (max n 512) := by
  have := (calcBufSize_partial (max n 512)).2.2
  have h2 : max n 512 < 16777216 := by omega
  have := this (by omega)
  omega

/-- Loading a range nothing of which was loaded. -/
theorem load_fresh {s : Bytes} {L : List (Nat × Nat)} {b : SBase} (h : SInv s L b) {off req : Nat} (hr : 0 < req) (hsm : req < 16777216)
    (hs : off + req ≤ s.length) (hc : ∀ q ∈ L, Clear q off req) (hlen : b.len ≤ off)
    (hno : ∀ d ∈ b.rdiffs, d.off ≤ off → d.off + d.data.length ≤ off) :
    ∃ b', loadBuf 2 b off req = some (b', .ok) ∧ SInv s ((off, req) :: L) b' := by
  have hafter : ∀ d ∈ b.rdiffs, off < d.off → off + req ≤ d.off := by
    intro d hd hlt
    obtain ⟨q, hq, he⟩ := (h.edge d hd).1
    have := h.pos q hq
    rcases hc q hq with hh | hh | hh <;> omega
  rw [loadBuf]
  by_cases hA : off + req ≤ b.cap ∧ b.len < off + req
  · rw [if_pos hA]
    have hnil : b.rdiffs = [] := by
      by_cases hn : b.rdiffs = []
      · exact hn
      · have := h.caps hn; omega
    refine ⟨{ b with arr := copyAt b.arr b.len (cut s b.len (off + req - b.len)), len := off + req }, ?_, ?_⟩
    · unfold loadBytes
      rw [h.src, readFile s (by omega)]
      simp only [cut_len (show b.len + (off + req - b.len) ≤ s.length by omega)]
      rw [if_pos (by omega), show b.len + (off + req - b.len) = off + req by omega, ← h.src]
    · have hcl := cut_len (show b.len + (off + req - b.len) ≤ s.length by omega)
      have hce := h.cel
      exact {
        src := h.src
        diffs := h.diffs
        lec := hA.1
        cel := by show b.cap ≤ (copyAt _ _ _).length; rw [copyAt_length _ _ _ (by omega)]; exact h.cel
        pre := by
          intro x hx
          show (copyAt _ _ _)[x]? = _
          rw [copyAt_getElem? _ _ _ _ (by omega)]
          split
          · rename_i hxx
            unfold cut
            rw [List.getElem?_take, if_pos (by omega), List.getElem?_drop, show b.len + (x - b.len) = x by omega]
          · exact h.pre x (by simp only at hx; omega)
        les := hs
        seg := by intro d hd; simp only [hnil] at hd; cases hd
        caps := fun hn => absurd hnil hn
        sorted := h.sorted
        cov := by
          intro q hq
          left
          rcases List.mem_cons.mp hq with rfl | hq
          · exact Nat.le_refl _
          · rcases h.cov q hq with hh | ⟨d, hd, -⟩
            · simp only; omega
            · rw [hnil] at hd; cases hd
        ledge := Or.inr ⟨(off, req), List.mem_cons_self, rfl⟩
        edge := by intro d hd; simp only [hnil] at hd; cases hd
        pos := by
          intro q hq
          rcases List.mem_cons.mp hq with rfl | hq
          · exact hr
          · exact h.pos q hq }
  rw [if_neg hA]
  -- the buffer is cut off at what it has
  obtain ⟨b0, hb0, hi0, hcap0, hrd0, hlen0⟩ : ∃ b0, b0 = { b with cap := b.len } ∧ SInv s L b0 ∧ b0.cap = b0.len ∧ b0.rdiffs = b.rdiffs ∧ b0.len = b.len :=
    ⟨{ b with cap := b.len }, rfl, ⟨h.src, h.diffs, Nat.le_refl _, Nat.le_trans h.lec h.cel, h.pre, h.les, h.seg, fun _ => rfl, h.sorted, h.cov, h.ledge, h.edge, h.pos⟩, rfl, rfl, rfl⟩
  rw [← hb0]
  rw [← hlen0] at hlen
  rw [← hrd0] at hno hafter
  clear hb0 hrd0 hlen0 hA h
  clear b
  rename' b0 => b, hi0 => h
  -- a new segment
  have hnew : ∀ (b : SBase) (capLimit : Nat), SInv s L b → b.cap = b.len → b.len ≤ off → (∀ d ∈ b.rdiffs, d.off ≤ off → d.off + d.data.length ≤ off) →
      (∀ d ∈ b.rdiffs, off < d.off → off + req ≤ d.off) → (0 < capLimit → req ≤ capLimit) →
      ∃ b', loadBuf.loadNew 1 b off req req capLimit = some (b', .ok) ∧ SInv s ((off, req) :: L) b' := by
    intro b capLimit h hcap hlen hno hafter hl
    rw [loadBuf.loadNew]
    simp only [ne_eq, not_true_eq_false, if_false]
    have hge : req ≤ (if 0 < capLimit ∧ capLimit < calcBufSize (max req 512) then capLimit else calcBufSize (max req 512)) := by
      split
      · rename_i hh; exact hl hh.1
      · exact calc_enough hsm
    rw [Nat.min_eq_left hge, h.src, readFile s hs]
    simp only [cut_len hs, if_pos hr]
    refine ⟨_, rfl, ?_⟩
    generalize hC : (if 0 < capLimit ∧ capLimit < calcBufSize (max req 512) then capLimit else calcBufSize (max req 512)) = C
    have hadd : addR b.rdiffs ⟨off, cut s off req, C⟩ = sortR (b.rdiffs ++ [⟨off, cut s off req, C⟩]) := by
      rcases addR_cases b.rdiffs ⟨off, cut s off req, C⟩ with hh | ⟨-, e, he, h1, h2⟩
      · exact hh
      · have := hno e he (by simp only at h1; omega)
        simp only at h2
        omega
    rw [hadd]
    have hp := sortR_perm (b.rdiffs ++ [⟨off, cut s off req, C⟩])
    have hmem : ∀ d, d ∈ sortR (b.rdiffs ++ [⟨off, cut s off req, C⟩]) ↔ d ∈ b.rdiffs ∨ d = ⟨off, cut s off req, C⟩ := by
      intro d
      rw [hp.mem_iff, List.mem_append, List.mem_singleton]
    exact {
      src := rfl
      diffs := h.diffs
      lec := h.lec
      cel := h.cel
      pre := h.pre
      les := h.les
      seg := by
        intro d hd
        rcases (hmem d).mp hd with hd | rfl
        · exact h.seg d hd
        · simp only [cut_len hs]
          exact ⟨trivial, hs, hr, hlen⟩
      caps := fun _ => hcap
      sorted := by
        have h1 : (sortR (b.rdiffs ++ [⟨off, cut s off req, C⟩])).Pairwise fun d e => d.off + d.data.length ≤ e.off ∨ e.off + e.data.length ≤ d.off := by
          refine (hp.pairwise_iff (fun {x y} hxy => Or.symm hxy)).mpr ?_
          refine List.pairwise_append.mpr ⟨h.sorted.imp fun hh => Or.inl hh, List.pairwise_singleton _ _, ?_⟩
          intro d hd e he
          rw [List.mem_singleton] at he
          subst he
          simp only [cut_len hs]
          by_cases hdo : d.off ≤ off
          · exact Or.inl (hno d hd hdo)
          · exact Or.inr (hafter d hd (by omega))
        have h2 := sortR_sorted (b.rdiffs ++ [⟨off, cut s off req, C⟩])
        have h3 : ∀ d ∈ sortR (b.rdiffs ++ [⟨off, cut s off req, C⟩]), 0 < d.data.length := by
          intro d hd
          rcases (hmem d).mp hd with hd | rfl
          · exact (h.seg d hd).2.2.1
          · simp only [cut_len hs]; exact hr
        refine List.Pairwise.imp_of_mem ?_ (h1.and h2)
        intro d e hd he hh
        have := h3 e he
        rcases hh with ⟨hh | hh, h4⟩
        · exact hh
        · omega
      cov := by
        intro q hq
        rcases List.mem_cons.mp hq with rfl | hq
        · exact Or.inr ⟨_, (hmem _).mpr (Or.inr rfl), Nat.le_refl _, by simp only [cut_len hs]; exact Nat.le_refl _⟩
        · rcases h.cov q hq with hh | ⟨d, hd, hh⟩
          · exact Or.inl hh
          · exact Or.inr ⟨d, (hmem _).mpr (Or.inl hd), hh⟩
      ledge := h.ledge.imp_right fun ⟨p, hp, e⟩ => ⟨p, List.mem_cons_of_mem _ hp, e⟩
      edge := by
        intro d hd
        rcases (hmem d).mp hd with hd | rfl
        · exact ⟨(h.edge d hd).1.imp fun p hp => ⟨List.mem_cons_of_mem _ hp.1, hp.2⟩, (h.edge d hd).2.imp fun p hp => ⟨List.mem_cons_of_mem _ hp.1, hp.2⟩⟩
        · exact ⟨⟨_, List.mem_cons_self, rfl⟩, ⟨_, List.mem_cons_self, by simp only [cut_len hs]⟩⟩
      pos := by
        intro q hq
        rcases List.mem_cons.mp hq with rfl | hq
        · exact hr
        · exact h.pos q hq }
  simp only
  cases hsml : smallerR b.rdiffs off with
  | none =>
    have hrq : requireR b.rdiffs none off req = (req, 0) := by
      unfold requireR
      simp only
      cases hrd : b.rdiffs with
      | nil => rfl
      | cons e l =>
        have he : e ∈ b.rdiffs := by rw [hrd]; exact List.mem_cons_self
        have hgt : off < e.off := by
          unfold smallerR at hsml
          split at hsml
          · rename_i n hn
            obtain ⟨a, ha, -⟩ := lastIndexOf_lt hn
            rw [ha] at hsml
            cases hsml
          · rename_i hn
            have := lastIndexOf_none.mp hn e he
            simpa using this
        have := hafter e he hgt
        simp only
        rw [Nat.min_eq_left (by omega)]
    rw [hrq]
    exact hnew b 0 h hcap0 hlen hno hafter (fun hh => absurd hh (Nat.lt_irrefl 0))
  | some p =>
    obtain ⟨n, d⟩ := p
    obtain ⟨hn, hdo, hlast⟩ : b.rdiffs[n]? = some d ∧ d.off ≤ off ∧ ∀ m e, b.rdiffs[m]? = some e → e.off ≤ off → m ≤ n := by
      unfold smallerR at hsml
      split at hsml
      · rename_i k hk
        obtain ⟨a, ha, hpa⟩ := lastIndexOf_lt hk
        rw [ha] at hsml
        simp only [Option.map_some, Option.some.injEq, Prod.mk.injEq] at hsml
        obtain ⟨rfl, rfl⟩ := hsml
        exact ⟨ha, by simpa using hpa, fun m e hm he => lastIndexOf_last hk hm (by simpa using he)⟩
      · cases hsml
    have hdm := List.mem_of_getElem? hn
    have hde := hno d hdm hdo
    have hrq : ∃ cl, requireR b.rdiffs (some (n, d)) off req = (req, cl) ∧ (0 < cl → req ≤ cl) := by
      unfold requireR
      simp only
      cases hn1 : b.rdiffs[n + 1]? with
      | none => exact ⟨0, rfl, fun hh => absurd hh (Nat.lt_irrefl 0)⟩
      | some e =>
        have hgt : off < e.off := by
          by_cases hh : e.off ≤ off
          · have := hlast _ _ hn1 hh; omega
          · omega
        have := hafter e (List.mem_of_getElem? hn1) hgt
        refine ⟨e.off - off, ?_, fun _ => by omega⟩
        simp only
        rw [Nat.min_eq_left (by omega)]
    obtain ⟨cl, hrq, hcl⟩ := hrq
    rw [hrq]
    simp only
    by_cases hX : d.off + d.cap ≥ off + req
    · rw [if_pos hX, if_neg (by omega), h.src, readFile s (by omega)]
      simp only [cut_len (show d.off + d.data.length + (off + req - (d.off + d.data.length)) ≤ s.length by omega)]
      rw [if_pos (by omega)]
      refine ⟨_, rfl, ?_⟩
      have hs1 := h.seg d hdm
      have hdat : d.data ++ cut s (d.off + d.data.length) (off + req - (d.off + d.data.length)) = cut s d.off (off + req - d.off) := by
        conv => lhs; arg 1; rw [hs1.1]
        unfold cut
        rw [← List.drop_drop, show off + req - d.off = d.data.length + (off + req - (d.off + d.data.length)) by omega, List.take_add]
      rw [hdat]
      have hcl' := cut_len (show d.off + (off + req - d.off) ≤ s.length by omega)
      obtain ⟨hnl, hnd⟩ := List.getElem?_eq_some_iff.mp hn
      have hmem : ∀ x ∈ b.rdiffs.set n { d with data := cut s d.off (off + req - d.off) }, x = { d with data := cut s d.off (off + req - d.off) } ∨ x ∈ b.rdiffs := by
        intro x hx
        exact (List.mem_or_eq_of_mem_set hx).symm
      have hin : ({ d with data := cut s d.off (off + req - d.off) } : RDiff) ∈ b.rdiffs.set n { d with data := cut s d.off (off + req - d.off) } :=
        List.mem_set hnl _
      have hkeep : ∀ x ∈ b.rdiffs, x = d ∨ x ∈ b.rdiffs.set n { d with data := cut s d.off (off + req - d.off) } := by
        intro x hx
        obtain ⟨m, hm⟩ := List.mem_iff_getElem?.mp hx
        by_cases hmn : m = n
        · subst hmn; rw [hm] at hn; cases hn; exact Or.inl rfl
        · right
          refine List.mem_of_getElem? (i := m) ?_
          rw [List.getElem?_set_ne (fun hh => hmn hh.symm)]
          exact hm
      exact {
        src := rfl
        diffs := h.diffs
        lec := h.lec
        cel := h.cel
        pre := h.pre
        les := h.les
        seg := by
          intro x hx
          rcases hmem x hx with rfl | hx
          · simp only [hcl']
            exact ⟨trivial, by omega, by omega, hs1.2.2.2⟩
          · exact h.seg x hx
        caps := fun _ => hcap0
        sorted := by
          rw [List.pairwise_iff_getElem]
          intro i j hi hj hij
          rw [List.length_set] at hi hj
          have hso := (List.pairwise_iff_getElem.mp h.sorted)
          rw [List.getElem_set, List.getElem_set]
          by_cases hin : n = i
          · subst hin
            rw [if_pos rfl, if_neg (by omega)]
            simp only [hcl']
            have hje : b.rdiffs[j]? = some b.rdiffs[j] := List.getElem?_eq_getElem hj
            have hgt : off < b.rdiffs[j].off := by
              by_cases hh : b.rdiffs[j].off ≤ off
              · have := hlast _ _ hje hh; omega
              · omega
            have := hafter _ (List.mem_of_getElem? hje) hgt
            omega
          · rw [if_neg hin]
            by_cases hjn : n = j
            · subst hjn
              rw [if_pos rfl]
              have := hso i n hi hj hij
              rw [hnd] at this
              exact this
            · rw [if_neg hjn]
              exact hso i j hi hj hij
        cov := by
          intro q hq
          rcases List.mem_cons.mp hq with rfl | hq
          · exact Or.inr ⟨_, hin, hdo, by simp only [hcl']; omega⟩
          · rcases h.cov q hq with hh | ⟨x, hx, hh⟩
            · exact Or.inl hh
            · rcases hkeep x hx with rfl | hx
              · exact Or.inr ⟨_, hin, hh.1, by simp only [hcl']; omega⟩
              · exact Or.inr ⟨x, hx, hh⟩
        ledge := h.ledge.imp_right fun ⟨p, hp, e⟩ => ⟨p, List.mem_cons_of_mem _ hp, e⟩
        edge := by
          intro x hx
          rcases hmem x hx with rfl | hx
          · refine ⟨(h.edge d hdm).1.imp fun p hp => ⟨List.mem_cons_of_mem _ hp.1, hp.2⟩, ⟨_, List.mem_cons_self, ?_⟩⟩
            simp only [hcl']
            omega
          · exact ⟨(h.edge x hx).1.imp fun p hp => ⟨List.mem_cons_of_mem _ hp.1, hp.2⟩, (h.edge x hx).2.imp fun p hp => ⟨List.mem_cons_of_mem _ hp.1, hp.2⟩⟩
        pos := by
          intro q hq
          rcases List.mem_cons.mp hq with rfl | hq
          · exact hr
          · exact h.pos q hq }
    · rw [if_neg hX]
      split
      · -- only the capacity of the segment changes
        obtain ⟨hnl, hnd⟩ := List.getElem?_eq_some_iff.mp hn
        have hmem : ∀ x ∈ b.rdiffs.set n { d with cap := off - d.off }, ∃ y ∈ b.rdiffs, y.off = x.off ∧ y.data = x.data := by
          intro x hx
          rcases List.mem_or_eq_of_mem_set hx with hx | rfl
          · exact ⟨x, hx, rfl, rfl⟩
          · exact ⟨d, hdm, rfl, rfl⟩
        have hback : ∀ x ∈ b.rdiffs, ∃ y ∈ b.rdiffs.set n { d with cap := off - d.off }, y.off = x.off ∧ y.data = x.data := by
          intro x hx
          obtain ⟨m, hm⟩ := List.mem_iff_getElem?.mp hx
          by_cases hmn : m = n
          · subst hmn; rw [hm] at hn; cases hn; exact ⟨_, List.mem_set hnl _, rfl, rfl⟩
          · refine ⟨x, List.mem_of_getElem? (i := m) ?_, rfl, rfl⟩
            rw [List.getElem?_set_ne (fun hh => hmn hh.symm)]
            exact hm
        refine hnew _ cl ?_ hcap0 hlen ?_ ?_ hcl
        · exact {
            src := h.src
            diffs := h.diffs
            lec := h.lec
            cel := h.cel
            pre := h.pre
            les := h.les
            seg := by
              intro x hx
              obtain ⟨y, hy, e1, e2⟩ := hmem x hx
              rw [← e1, ← e2]
              exact h.seg y hy
            caps := fun _ => hcap0
            sorted := by
              rw [List.pairwise_iff_getElem]
              intro i j hi hj hij
              rw [List.length_set] at hi hj
              have hso := (List.pairwise_iff_getElem.mp h.sorted) i j hi hj hij
              rw [List.getElem_set, List.getElem_set]
              by_cases hin : n = i
              · subst hin
                rw [if_pos rfl, if_neg (by omega)]
                rw [hnd] at hso
                exact hso
              · rw [if_neg hin]
                by_cases hjn : n = j
                · subst hjn
                  rw [if_pos rfl]
                  rw [hnd] at hso
                  exact hso
                · rw [if_neg hjn]
                  exact hso
            cov := by
              intro q hq
              rcases h.cov q hq with hh | ⟨x, hx, hh⟩
              · exact Or.inl hh
              · obtain ⟨y, hy, e1, e2⟩ := hback x hx
                exact Or.inr ⟨y, hy, by rw [e1, e2]; exact hh⟩
            ledge := h.ledge
            edge := by
              intro x hx
              obtain ⟨y, hy, e1, e2⟩ := hmem x hx
              rw [← e1, ← e2]
              exact h.edge y hy
            pos := h.pos }
        · intro x hx
          obtain ⟨y, hy, e1, e2⟩ := hmem x hx
          rw [← e1, ← e2]
          exact hno y hy
        · intro x hx
          obtain ⟨y, hy, e1, e2⟩ := hmem x hx
          rw [← e1]
          exact hafter y hy
      · exact hnew b cl h hcap0 hlen hno hafter hcl

/-- A range that has nothing in common with earlier ones, or lies in them, is read in full. -/
theorem step_fresh {s : Bytes} {L : List (Nat × Nat)} {b : SBase} (h : SInv s L b) {off req : Nat} (hr : 0 < req) (hsm : req < 16777216)
    (hs : off + req ≤ s.length) (hc : ∀ q ∈ L, Clear q off req) :
    ∃ b' r, b.R 2 off req = some (b', r) ∧ r.take req = cut s off req ∧ SInv s ((off, req) :: L) b' := by
  have ht : ∀ {L' : List (Nat × Nat)} {b : SBase}, SInv s L' b → off + req ≤ b.len → ((b.arr.take b.len).drop off).take req = cut s off req := by
    intro L' b h hk
    rw [arr_take h]
    exact cut_sub (Nat.zero_le _) (by omega)
  unfold SBase.R
  simp only
  rw [writer_len h]
  by_cases hw : b.len - off = 0
  · rw [if_pos hw]
    unfold SBase.readerR
    by_cases hin : ∃ d ∈ b.rdiffs, d.off ≤ off ∧ off + req ≤ d.off + d.data.length
    · obtain ⟨d, hd, h1, h2⟩ := hin
      obtain ⟨n, e, hn, he, hr'⟩ := first_seg h hd h1 h2 (Nat.le_refl req) h2
      simp only [hn, he]
      exact ⟨_, _, rfl, hr', h.more hr (Or.inr ⟨d, hd, h1, h2⟩)⟩
    · have hn : lastIndexOf (fun d : RDiff => decide (d.off ≤ off) && decide (off + req ≤ d.off + d.data.length)) b.rdiffs = none := by
        refine lastIndexOf_none.mpr ?_
        intro d hd
        simp only [Bool.and_eq_false_iff, decide_eq_false_iff_not]
        by_cases h1 : d.off ≤ off
        · exact Or.inr fun h2 => hin ⟨d, hd, h1, h2⟩
        · exact Or.inl h1
      rw [hn]
      simp only
      rw [if_pos (by omega)]
      have hno : ∀ d ∈ b.rdiffs, d.off ≤ off → d.off + d.data.length ≤ off := by
        intro d hd hdo
        obtain ⟨q, hq, he⟩ := (h.edge d hd).2
        have := h.pos q hq
        have hnin : ¬ (off + req ≤ d.off + d.data.length) := fun h2 => hin ⟨d, hd, hdo, h2⟩
        rcases hc q hq with hh | hh | hh <;> omega
      obtain ⟨b', hb', hi⟩ := load_fresh h hr hsm hs hc (by omega) hno
      rw [hb']
      simp only
      by_cases hbl : off + max 1 req ≤ b'.len
      · rw [if_pos hbl]
        exact ⟨_, _, rfl, ht hi (by omega), hi⟩
      · rw [if_neg hbl]
        rw [if_neg (by decide)]
        rcases hi.cov _ List.mem_cons_self with hh | ⟨d, hd, h1, h2⟩
        · simp only at hh; omega
        · simp only at h1 h2
          cases hn2 : lastIndexOf (fun d : RDiff => decide (d.off ≤ off) && decide (d.off + d.data.length > off)) b'.rdiffs with
          | none =>
            have := lastIndexOf_none.mp hn2 d hd
            simp only [Bool.and_eq_false_iff, decide_eq_false_iff_not] at this
            omega
          | some n =>
            obtain ⟨e, he, hp⟩ := lastIndexOf_lt hn2
            simp only [Bool.and_eq_true, decide_eq_true_eq] at hp
            simp only [he]
            refine ⟨_, _, rfl, ?_, hi⟩
            obtain ⟨m, hm⟩ := List.mem_iff_getElem?.mp hd
            have hmn := lastIndexOf_last hn2 hm (by simp only [Bool.and_eq_true, decide_eq_true_eq]; omega)
            have hes := hi.seg e (List.mem_of_getElem? he)
            rw [hes.1]
            refine cut_sub hp.1 ?_
            rcases Nat.lt_or_eq_of_le hmn with hlt | rfl
            · have := (List.pairwise_iff_getElem.mp hi.sorted) m n (List.getElem?_eq_some_iff.mp hm).1 (List.getElem?_eq_some_iff.mp he).1 hlt
              rw [(List.getElem?_eq_some_iff.mp hm).2, (List.getElem?_eq_some_iff.mp he).2] at this
              omega
            · rw [hm] at he
              cases he
              omega
  · rw [if_neg hw, writer_data h]
    have hle : off + req ≤ b.len := by
      rcases h.ledge with h0 | ⟨q, hq, he⟩
      · omega
      · have := h.pos q hq
        rcases hc q hq with hh | hh | hh <;> omega
    exact ⟨_, _, rfl, ht h hle, h.more hr (Or.inl hle)⟩

/-- Specification: every read lies in the stream, asks for some bytes but less than 16 MiB, and earlier reads are clear of
it. -/
def Orderly (n : Nat) : List (Nat × Nat) → List (Nat × Nat) → Prop
  | _, [] => True
  | L, q :: l => 0 < q.2 ∧ q.2 < 16777216 ∧ q.1 + q.2 ≤ n ∧ (∀ p ∈ L, Clear p q.1 q.2) ∧ Orderly n (q :: L) l

/-- C25: whatever the capacity, such reads never panic, and each of them gets at least the bytes it asked for. -/
theorem stream_exact_partial (s : Bytes) (cap : Nat) (l : List (Nat × Nat)) (h : Orderly s.length [] l) :
    ∃ b' rs, (SBase.open (.file s) cap).reads 2 l = some (b', rs) ∧
      List.Forall₂ (fun (q : Nat × Nat) r => r.take q.2 = (s.drop q.1).take q.2 ∧ q.2 ≤ r.length) l rs := by
  have key : ∀ (l : List (Nat × Nat)) (L : List (Nat × Nat)) (b : SBase), SInv s L b → Orderly s.length L l →
      ∃ b' rs, b.reads 2 l = some (b', rs) ∧ List.Forall₂ (fun (q : Nat × Nat) r => r.take q.2 = (s.drop q.1).take q.2 ∧ q.2 ≤ r.length) l rs := by
    intro l
    induction l with
    | nil => intro L b _ _; exact ⟨b, [], rfl, .nil⟩
    | cons q l ih =>
      intro L b hb ho
      obtain ⟨h1, h2, h3, h4, h5⟩ := ho
      obtain ⟨b1, r, hr, he, hi⟩ := step_fresh hb h1 h2 h3 h4
      obtain ⟨b2, rs, hrs, hf⟩ := ih _ b1 hi h5
      refine ⟨b2, r :: rs, ?_, .cons ⟨he, ?_⟩ hf⟩
      · obtain ⟨o, n⟩ := q
        rw [SBase.reads, hr]
        simp only [Option.bind_eq_bind, Option.bind_some, hrs]
        rfl
      · have := congrArg List.length he
        rw [cut_len h3, List.length_take] at this
        omega
  exact key l [] _ (open_inv s cap) h

-- nested and separate ranges in any order, inside the capacity and beyond it
example : Orderly 6000 [] [(5000, 10), (0, 4), (5002, 4), (100, 8), (4000, 900), (5100, 4), (96, 4)] := by
  simp [Orderly, Clear]

/-- Reads that overlap without one containing the other get too few bytes, though the stream has them. -/
theorem stream_overlap_fails : ((SBase.open (.file [1, 2, 3, 4, 5, 6, 7, 8]) 512).reads 2 [(0, 4), (2, 4)]).map (fun r => r.2) =
    some [[1, 2, 3, 4], [3, 4]] := by decide +kernel

end Fbs.Props
