import Verif.Stream
import Verif.BufOps
import Mathlib.Tactic.Set
/-! # Lemmas about buffers over a random-access reader -/

namespace Fbs

/-- Specification: where both are defined, the bytes `l` at offset `off` are those of the stream `s`. -/
def Agrees (s : Bytes) (off : Nat) (l : Bytes) : Prop :=
  ∀ k, k < l.length → off + k < s.length → l[k]? = s[off + k]?

theorem Agrees.nil {s : Bytes} {o : Nat} : Agrees s o [] := fun k hk => by simp at hk

theorem Agrees.past {s : Bytes} {o : Nat} (l : Bytes) (h : s.length ≤ o) : Agrees s o l :=
  fun k _ h2 => by omega

theorem Agrees.sub (s : Bytes) (o n : Nat) : Agrees s o ((s.drop o).take n) := by
  intro k hk _
  simp only [List.length_take, List.length_drop] at hk
  rw [List.getElem?_take, if_pos (by omega), List.getElem?_drop]

theorem Agrees.append {s : Bytes} {o : Nat} {a b : Bytes} (ha : Agrees s o a)
    (hb : Agrees s (o + a.length) b) : Agrees s o (a ++ b) := by
  intro k hk h2
  rw [List.getElem?_append]
  split
  · exact ha k (by assumption) h2
  · simp only [List.length_append] at hk
    have := hb (k - a.length) (by omega) (by omega)
    rw [this]; congr 1; omega

theorem Agrees.drop {s : Bytes} {o : Nat} {l : Bytes} (k : Nat) (h : Agrees s o l) :
    Agrees s (o + k) (l.drop k) := by
  intro j hj h2
  simp only [List.length_drop] at hj
  rw [List.getElem?_drop, h (k + j) (by omega) (by omega), Nat.add_assoc]

theorem Agrees.drop' {s : Bytes} {o x : Nat} {l : Bytes} (h : Agrees s o l) (hx : o ≤ x) :
    Agrees s x (l.drop (x - o)) := by
  have := h.drop (x - o)
  rwa [show o + (x - o) = x by omega] at this

theorem insertR_perm (d : RDiff) (l : List RDiff) : (insertR d l).Perm (d :: l) := by
  induction l with
  | nil => exact List.Perm.refl _
  | cons e l ih =>
    simp only [insertR]
    split
    · exact List.Perm.refl _
    · exact (ih.cons e).trans (List.Perm.swap d e l)

theorem sortR_perm (l : List RDiff) : (sortR l).Perm l := by
  induction l with
  | nil => exact List.Perm.refl _
  | cons d l ih => exact (insertR_perm d _).trans (ih.cons d)

/-- Sorted by offset. -/
def SortedR (l : List RDiff) : Prop := l.Pairwise (fun a b => a.off ≤ b.off)

theorem insertR_sorted (d : RDiff) (l : List RDiff) (h : SortedR l) : SortedR (insertR d l) := by
  induction l with
  | nil => exact List.pairwise_singleton _ _
  | cons e l ih =>
    have hc := List.pairwise_cons.mp h
    simp only [insertR]
    split
    · refine List.pairwise_cons.mpr ⟨?_, h⟩
      intro x hx
      rcases List.mem_cons.mp hx with hx | hx
      · subst hx; omega
      · have := hc.1 x hx; omega
    · refine List.pairwise_cons.mpr ⟨?_, ih hc.2⟩
      intro x hx
      rcases List.mem_cons.mp ((insertR_perm d l).mem_iff.mp hx) with hx | hx
      · subst hx; omega
      · exact hc.1 x hx

theorem sortR_sorted (l : List RDiff) : SortedR (sortR l) := by
  induction l with
  | nil => exact List.Pairwise.nil
  | cons d l ih => exact insertR_sorted d _ ih

theorem addR_cases (rds : List RDiff) (d : RDiff) :
    (addR rds d = sortR (rds ++ [d])) ∨
    (addR rds d = rds ∧ ∃ e ∈ rds, e.off < d.off ∧ d.off < e.off + e.data.length) := by
  unfold addR
  cases hn : lastIndexOf (fun e : RDiff => decide (e.off < d.off)) rds with
  | none => exact .inl rfl
  | some n =>
    obtain ⟨e, he, hp⟩ := lastIndexOf_lt hn
    simp only [he]
    split
    · exact .inr ⟨rfl, e, List.mem_of_getElem? he, by simpa using hp, by assumption⟩
    · exact .inl rfl

theorem mem_addR {rds : List RDiff} {d e : RDiff} (h : e ∈ addR rds d) : e ∈ rds ∨ e = d := by
  rcases addR_cases rds d with h1 | ⟨h1, -⟩
  · rw [h1, (sortR_perm _).mem_iff] at h
    simpa using h
  · rw [h1] at h; exact .inl h

theorem addR_sorted {rds : List RDiff} (d : RDiff) (h : SortedR rds) : SortedR (addR rds d) := by
  rcases addR_cases rds d with h1 | ⟨h1, -⟩ <;> rw [h1]
  · exact sortR_sorted _
  · exact h

theorem set_sorted {rds : List RDiff} {n : Nat} {d e : RDiff} (h : SortedR rds) (hd : rds[n]? = some d)
    (he : e.off = d.off) : SortedR (rds.set n e) := by
  unfold SortedR at h ⊢
  rw [List.pairwise_iff_getElem] at h ⊢
  obtain ⟨hn, hd⟩ := List.getElem?_eq_some_iff.mp hd
  intro i j hi hj hij
  simp only [List.length_set] at hi hj
  rw [List.getElem_set, List.getElem_set]
  have := h i j hi hj hij
  split
  · split
    · omega
    · subst_vars; omega
  · split
    · subst_vars; omega
    · exact this

namespace SBase

/-- The invariant of a buffer over the random-access stream `s`, of which the first bytes are replaced by
`p` (empty, or what `Flatten` left there). -/
structure Ok (s p : Bytes) (b : SBase) : Prop where
  src : b.src = .file s
  len_le : b.len ≤ b.cap
  cap_le : b.cap ≤ b.arr.length
  pre_le : p.length ≤ b.len
  pre : ∀ k, k < p.length → b.arr[k]? = p[k]?
  bytes : ∀ k, p.length ≤ k → k < b.len → k < s.length → b.arr[k]? = s[k]?
  segs : ∀ d ∈ b.rdiffs, Agrees s d.off d.data
  sorted : SortedR b.rdiffs

theorem open_ok (s : Bytes) (cap : Nat) : Ok s [] (SBase.open (.file s) cap) := by
  refine ⟨rfl, Nat.zero_le _, ?_, Nat.le_refl _, ?_, ?_, ?_, List.Pairwise.nil⟩
  · simp [SBase.open, zeros]
  · intro k hk; simp at hk
  · intro k _ hk; simp [SBase.open] at hk
  · intro d hd; simp [SBase.open] at hd

theorem loadBytes_ok {s p : Bytes} {b : SBase} (h : Ok s p b) {off size : Nat} (h1 : off + size ≤ b.cap)
    (h2 : b.len < off + size) :
    Ok s p (b.loadBytes off size).1 ∧
    (b.loadBytes off size).1.diffs = b.diffs ∧ (b.loadBytes off size).1.rdiffs = b.rdiffs ∧
    (b.loadBytes off size).1.cap = b.cap ∧
    ((b.loadBytes off size).2 = .ok ∨ (b.loadBytes off size).2 = .eof) ∧
    ((b.loadBytes off size).2 = .ok → (b.loadBytes off size).1.len = off + size) ∧
    (off + size ≤ s.length → (b.loadBytes off size).2 = .ok) := by
  have hc := h.cap_le
  unfold loadBytes
  simp only [h.src, Src.readAt]
  set dt := (s.drop b.len).take (off + size - b.len) with hdt
  have hdl : dt.length = min (off + size - b.len) (s.length - b.len) := by
    rw [hdt]; simp
  have hcl : (copyAt b.arr b.len dt).length = b.arr.length := copyAt_length _ _ _ (by omega)
  refine ⟨⟨rfl, ?_, ?_, ?_, ?_, ?_, h.segs, h.sorted⟩, trivial, trivial, trivial, ?_, ?_, ?_⟩
  · show (if 0 < dt.length then b.len + dt.length else off + size) ≤ b.cap
    split <;> omega
  · show b.cap ≤ _
    rw [hcl]; exact hc
  · show p.length ≤ (if 0 < dt.length then b.len + dt.length else off + size)
    have := h.pre_le
    split <;> omega
  · intro k hk
    have := h.pre_le
    show (copyAt b.arr b.len dt)[k]? = _
    rw [copyAt_getElem? _ _ _ _ (by omega), if_neg (by omega)]
    exact h.pre k hk
  · intro k hp hk hks
    have hk : k < (if 0 < dt.length then b.len + dt.length else off + size) := hk
    show (copyAt b.arr b.len dt)[k]? = _
    rw [copyAt_getElem? _ _ _ _ (by omega)]
    split
    · rename_i hk2
      rw [hdt, List.getElem?_take, if_pos (by omega), List.getElem?_drop]
      congr 1; omega
    · rename_i hk2
      by_cases hk3 : k < b.len
      · exact h.bytes k hp hk3 hks
      · exfalso
        split at hk <;> omega
  · show (if _ then _ else _) = _ ∨ (if _ then _ else _) = _
    split <;> simp
  · intro h3
    show (if _ then _ else _) = _
    have h3 : (if dt.length < off + size - b.len then RErr.eof else .ok) = .ok := h3
    split at h3
    · cases h3
    · rw [if_pos (by omega)]; omega
  · intro h3
    exact if_neg (by omega)

theorem smallerR_some {rds : List RDiff} {off n : Nat} {d : RDiff} (h : smallerR rds off = some (n, d)) :
    rds[n]? = some d ∧ d.off ≤ off := by
  unfold smallerR at h
  cases hn : lastIndexOf (fun e : RDiff => decide (e.off ≤ off)) rds with
  | none => simp [hn] at h
  | some m =>
    obtain ⟨e, he, hp⟩ := lastIndexOf_lt hn
    simp only [hn, he, Option.map_some, Option.some.injEq, Prod.mk.injEq] at h
    obtain ⟨rfl, rfl⟩ := h
    exact ⟨he, by simpa using hp⟩

theorem requireR_le (rds : List RDiff) (sm : Option (Nat × RDiff)) (off size : Nat) :
    (requireR rds sm off size).1 ≤ size := by
  unfold requireR
  repeat' split
  all_goals simp only; omega

/-- What is known of a completed load. -/
structure Loaded (s p : Bytes) (b b' : SBase) (e : RErr) (off size : Nat) : Prop where
  ok : Ok s p b'
  diffs : b'.diffs = b.diffs
  err : e = .ok ∨ e = .eof
  inside : off + size ≤ s.length → e = .ok

theorem loadNew_ok {s p : Bytes} {b : SBase} (h : Ok s p b) {fuel off size req lim : Nat} (hr : req ≤ size)
    {b' : SBase} {e : RErr} (hl : loadBuf.loadNew fuel b off size req lim = some (b', e)) :
    Loaded s p b b' e off size := by
  cases fuel with
  | zero => simp [loadBuf.loadNew] at hl
  | succ fuel =>
    unfold loadBuf.loadNew at hl
    simp only [h.src, Src.readAt] at hl
    generalize hnc : (if 0 < lim ∧ lim < (if size ≠ req then req else calcBufSize (max size 512)) then lim
      else (if size ≠ req then req else calcBufSize (max size 512))) = ncap at hl
    set dt := (s.drop off).take (min req ncap) with hdt
    have hdl : dt.length = min (min req ncap) (s.length - off) := by rw [hdt]; simp
    have hag : Agrees s off (if 0 < dt.length then dt else zeros (min req ncap)) := by
      split
      · exact .sub _ _ _
      · by_cases hz : min req ncap = 0
        · rw [hz]; exact .nil
        · exact .past _ (by omega)
    split at hl
    · rename_i heq
      split at heq <;> cases heq
    · obtain ⟨rfl, rfl⟩ : _ = b' ∧ _ = e := by simpa using hl
      refine ⟨⟨rfl, h.len_le, h.cap_le, h.pre_le, h.pre, h.bytes, ?_, addR_sorted _ h.sorted⟩, rfl, ?_, ?_⟩
      · intro d hd
        rcases mem_addR hd with hd | rfl
        · exact h.segs d hd
        · exact hag
      · split <;> simp
      · intro h3; exact if_neg (by omega)

theorem loadBuf_ok {s p : Bytes} {b : SBase} (h : Ok s p b) {fuel off size : Nat}
    {b' : SBase} {e : RErr} (hl : loadBuf fuel b off size = some (b', e)) :
    Loaded s p b b' e off size := by
  cases fuel with
  | zero => simp [loadBuf] at hl
  | succ fuel =>
    unfold loadBuf at hl
    split at hl
    · rename_i hc
      have hb := loadBytes_ok h hc.1 hc.2
      simp only [Option.some.injEq] at hl
      rw [hl] at hb
      exact ⟨hb.1, hb.2.1, hb.2.2.2.2.1, hb.2.2.2.2.2.2⟩
    · have hclip : Ok s p { b with cap := b.len } :=
        ⟨h.src, Nat.le_refl _, by have := h.len_le; have := h.cap_le; show b.len ≤ b.arr.length; omega,
          h.pre_le, h.pre, h.bytes,
          h.segs, h.sorted⟩
      have hrq := requireR_le b.rdiffs (smallerR b.rdiffs off) off size
      simp only at hl
      split at hl
      · rename_i n d hsm
        obtain ⟨hd, hdo⟩ := smallerR_some hsm
        have hda := h.segs d (List.mem_of_getElem? hd)
        split at hl
        · split at hl
          · simp at hl
          · rename_i hst
            simp only [h.src, Src.readAt] at hl
            set want := off + (requireR b.rdiffs (smallerR b.rdiffs off) off size).1 - (d.off + d.data.length) with hw
            set dt := (s.drop (d.off + d.data.length)).take want with hdt
            have hdl : dt.length = min want (s.length - (d.off + d.data.length)) := by rw [hdt]; simp
            split at hl
            · rename_i heq
              split at heq <;> cases heq
            · obtain ⟨rfl, rfl⟩ : _ = b' ∧ _ = e := by simpa using hl
              have hag : Agrees s d.off (if 0 < dt.length then d.data ++ dt else d.data ++ zeros want) := by
                split
                · exact hda.append (.sub _ _ _)
                · by_cases hz : want = 0
                  · rw [hz]; exact hda.append .nil
                  · exact hda.append (.past _ (by omega))
              refine ⟨⟨rfl, hclip.len_le, hclip.cap_le, h.pre_le, h.pre, h.bytes, ?_, set_sorted h.sorted hd rfl⟩, rfl, ?_, ?_⟩
              · intro x hx
                rcases List.mem_or_eq_of_mem_set hx with hx | rfl
                · exact h.segs x hx
                · exact hag
              · split <;> simp
              · intro h3; exact if_neg (by omega)
        · have hx : ∀ b2 : SBase, (b2 = { b with cap := b.len } ∨
              b2 = { b with cap := b.len, rdiffs := b.rdiffs.set n { d with cap := off - d.off } }) →
              Ok s p b2 ∧ b2.diffs = b.diffs := by
            rintro b2 (rfl | rfl)
            · exact ⟨hclip, rfl⟩
            · refine ⟨⟨h.src, hclip.len_le, hclip.cap_le, h.pre_le, h.pre, h.bytes, ?_, set_sorted h.sorted hd rfl⟩, rfl⟩
              intro x hx
              rcases List.mem_or_eq_of_mem_set hx with hx | rfl
              · exact h.segs x hx
              · exact hda
          split at hl
          · have hq := hx _ (.inr rfl)
            have := loadNew_ok hq.1 hrq hl
            exact ⟨this.ok, this.diffs.trans hq.2, this.err, this.inside⟩
          · have hq := hx _ (.inl rfl)
            have := loadNew_ok hq.1 hrq hl
            exact ⟨this.ok, this.diffs.trans hq.2, this.err, this.inside⟩
      · have := loadNew_ok hclip hrq hl
        exact ⟨this.ok, this.diffs, this.err, this.inside⟩

theorem readerR_ok {s p : Bytes} {b : SBase} (h : Ok s p b) {fuel off req : Nat} {b' : SBase} {r : Bytes}
    (hp : p.length ≤ off) (hr : b.readerR fuel off req = some (b', r)) :
    Ok s p b' ∧ b'.diffs = b.diffs ∧ Agrees s off r ∧ (0 < req → off + req ≤ s.length → r ≠ []) := by
  have hbytes : ∀ b : SBase, Ok s p b → Agrees s off ((b.arr.take b.len).drop off) := by
    intro b h k hk hs
    simp only [List.length_drop, List.length_take] at hk
    rw [List.getElem?_drop, List.getElem?_take, if_pos (by omega)]
    exact h.bytes _ (by omega) (by omega) hs
  unfold readerR at hr
  split at hr
  · rename_i n hn
    obtain ⟨d, hd, hp⟩ := lastIndexOf_lt hn
    simp only [Bool.and_eq_true, decide_eq_true_eq] at hp
    simp only [hd, Option.map_some, Option.some.injEq, Prod.mk.injEq] at hr
    obtain ⟨rfl, rfl⟩ := hr
    refine ⟨h, rfl, (h.segs d (List.mem_of_getElem? hd)).drop' hp.1, ?_⟩
    intro h0 h1 h2
    have := congrArg List.length h2
    simp only [List.length_drop, List.length_nil] at this
    omega
  · split at hr
    · split at hr
      · simp at hr
      · rename_i b1 e hl
        have hL := loadBuf_ok h hl
        split at hr
        · rename_i hlen
          simp only [Option.some.injEq, Prod.mk.injEq] at hr
          obtain ⟨rfl, rfl⟩ := hr
          refine ⟨hL.ok, hL.diffs, hbytes _ hL.ok, ?_⟩
          intro h0 h1 h2
          have := congrArg List.length h2
          have h3 := hL.ok.len_le
          have h4 := hL.ok.cap_le
          simp only [List.length_drop, List.length_take, List.length_nil] at this
          omega
        · split at hr
          · rename_i hne
            simp only [Option.some.injEq, Prod.mk.injEq] at hr
            obtain ⟨rfl, rfl⟩ := hr
            refine ⟨hL.ok, hL.diffs, .nil, ?_⟩
            intro h0 h1
            rw [hL.inside h1] at hne
            simp [RErr.isOk] at hne
          · split at hr
            · rename_i n hn
              obtain ⟨d, hd, hp⟩ := lastIndexOf_lt hn
              simp only [Bool.and_eq_true, decide_eq_true_eq] at hp
              simp only [hd, Option.map_some, Option.some.injEq, Prod.mk.injEq] at hr
              obtain ⟨rfl, rfl⟩ := hr
              refine ⟨hL.ok, hL.diffs, (hL.ok.segs d (List.mem_of_getElem? hd)).drop' hp.1, ?_⟩
              intro h0 h1 h2
              have := congrArg List.length h2
              simp only [List.length_drop, List.length_nil] at this
              omega
            · simp at hr
    · simp only [Option.some.injEq, Prod.mk.injEq] at hr
      obtain ⟨rfl, rfl⟩ := hr
      refine ⟨h, rfl, hbytes _ h, ?_⟩
      intro h0 h1 h2
      have := congrArg List.length h2
      have h3 := h.len_le
      have h4 := h.cap_le
      simp only [List.length_drop, List.length_take, List.length_nil] at this
      omega

/-! ## Reads at increasing offsets -/

theorem calcBufSize_pos (n : Nat) : 0 < calcBufSize n := by
  unfold calcBufSize
  simp only
  repeat' split
  all_goals omega

/-- Some loaded segment contains the byte at `off`. -/
def SegAt (rds : List RDiff) (off : Nat) : Prop := ∃ d ∈ rds, d.off ≤ off ∧ off < d.off + d.data.length

theorem requireR_forward {rds : List RDiff} {off size : Nat} (hf : ∀ d ∈ rds, d.off ≤ off) :
    requireR rds (smallerR rds off) off size = (size, 0) := by
  unfold requireR
  cases hs : smallerR rds off with
  | none =>
    cases rds with
    | nil => rfl
    | cons e l =>
      exfalso
      unfold smallerR at hs
      cases hn : lastIndexOf (fun x : RDiff => decide (x.off ≤ off)) (e :: l) with
      | none =>
        have := lastIndexOf_none.mp hn e List.mem_cons_self
        have := hf e List.mem_cons_self
        simp_all
      | some n =>
        obtain ⟨a, ha, -⟩ := lastIndexOf_lt hn
        simp [hn, ha] at hs
  | some nd =>
    obtain ⟨n, d⟩ := nd
    have hn : lastIndexOf (fun x : RDiff => decide (x.off ≤ off)) rds = some n := by
      unfold smallerR at hs
      cases hn : lastIndexOf (fun x : RDiff => decide (x.off ≤ off)) rds with
      | none => simp [hn] at hs
      | some m =>
        obtain ⟨a, ha, -⟩ := lastIndexOf_lt hn
        simp only [hn, ha, Option.map_some, Option.some.injEq, Prod.mk.injEq] at hs
        rw [hs.1]
    simp only
    cases hx : rds[n + 1]? with
    | none => rfl
    | some e =>
      have := lastIndexOf_last hn hx (by simpa using hf e (List.mem_of_getElem? hx))
      omega

theorem loadNew_forward {s : Bytes} {b : SBase} (h : b.src = .file s) (fuel : Nat) {off size : Nat}
    (hf : ∀ d ∈ b.rdiffs, d.off ≤ off) (h0 : 0 < size) :
    ∃ b' e, loadBuf.loadNew (fuel + 1) b off size size 0 = some (b', e) ∧
      (∀ d ∈ b'.rdiffs, d.off ≤ off) ∧ (e = .ok → SegAt b'.rdiffs off) := by
  unfold loadBuf.loadNew
  have hc := calcBufSize_pos (max size 512)
  simp only [h, Src.readAt, ne_eq, not_true_eq_false, if_false, Nat.lt_irrefl, false_and]
  set nn := min size (calcBufSize (max size 512)) with hnn
  set dt := (s.drop off).take nn with hdt
  have hdl : dt.length = min nn (s.length - off) := by rw [hdt]; simp
  split
  · rename_i heq
    split at heq <;> cases heq
  · refine ⟨_, _, rfl, ?_, ?_⟩
    · intro d hd
      rcases mem_addR hd with hd | rfl
      · exact hf d hd
      · exact Nat.le_refl _
    · intro he
      have hlen : ¬ dt.length < nn := fun hlt => by rw [if_pos hlt] at he; cases he
      simp only [if_pos (show 0 < dt.length by omega)]
      rcases addR_cases b.rdiffs ⟨off, dt, calcBufSize (max size 512)⟩ with h1 | ⟨h1, x, hx, hx1, hx2⟩ <;> rw [h1]
      · refine ⟨_, (sortR_perm _).mem_iff.mpr (List.mem_append_right _ List.mem_cons_self), Nat.le_refl _, ?_⟩
        show off < off + dt.length
        omega
      · exact ⟨x, hx, Nat.le_of_lt hx1, hx2⟩

theorem loadBuf_forward {s p : Bytes} {b : SBase} (h : Ok s p b) (fuel : Nat) {off size : Nat}
    (hf : ∀ d ∈ b.rdiffs, d.off ≤ off) (h0 : 0 < size) (hend : ∀ d ∈ b.rdiffs, d.off + d.data.length < off + size) :
    ∃ b' e, loadBuf (fuel + 2) b off size = some (b', e) ∧ (∀ d ∈ b'.rdiffs, d.off ≤ off) ∧
      (e = .ok → off + size ≤ b'.len ∨ SegAt b'.rdiffs off) := by
  unfold loadBuf
  split
  · rename_i hc
    have hb := loadBytes_ok h hc.1 hc.2
    refine ⟨_, _, rfl, ?_, fun he => .inl (Nat.le_of_eq (hb.2.2.2.2.2.1 he).symm)⟩
    intro d hd; exact hf d hd
  · simp only [requireR_forward hf]
    split
    · rename_i n d hsm
      obtain ⟨hd, hdo⟩ := smallerR_some hsm
      have hdm := List.mem_of_getElem? hd
      have hde := hend d hdm
      split
      · rw [if_neg (by omega)]
        simp only [h.src, Src.readAt]
        set want := off + size - (d.off + d.data.length) with hw
        set dt := (s.drop (d.off + d.data.length)).take want with hdt
        have hdl : dt.length = min want (s.length - (d.off + d.data.length)) := by rw [hdt]; simp
        split
        · rename_i heq
          split at heq <;> cases heq
        · refine ⟨_, _, rfl, ?_, ?_⟩
          · intro x hx
            rcases List.mem_or_eq_of_mem_set hx with hx | rfl
            · exact hf x hx
            · exact hdo
          · intro he
            have hlen : ¬ dt.length < want := fun hlt => by rw [if_pos hlt] at he; cases he
            refine .inr ⟨⟨d.off, if 0 < dt.length then d.data ++ dt else d.data ++ zeros want, d.cap⟩, ?_, hdo, ?_⟩
            · exact List.mem_set (List.getElem?_eq_some_iff.mp hd).1 _
            · show off < d.off + (if 0 < dt.length then d.data ++ dt else d.data ++ zeros want).length
              rw [if_pos (by omega), List.length_append]
              omega
      · split
        · obtain ⟨b', e, h1, h2, h3⟩ := loadNew_forward
            (b := { b with cap := b.len, rdiffs := b.rdiffs.set n ⟨d.off, d.data, off - d.off⟩ }) h.src fuel
            (off := off) (size := size)
            (by intro x hx
                rcases List.mem_or_eq_of_mem_set hx with hx | rfl
                · exact hf x hx
                · exact hdo) h0
          exact ⟨b', e, h1, h2, fun he => .inr (h3 he)⟩
        · obtain ⟨b', e, h1, h2, h3⟩ := loadNew_forward (b := { b with cap := b.len }) h.src fuel (off := off)
            (size := size) hf h0
          exact ⟨b', e, h1, h2, fun he => .inr (h3 he)⟩
    · obtain ⟨b', e, h1, h2, h3⟩ := loadNew_forward (b := { b with cap := b.len }) h.src fuel (off := off)
        (size := size) hf h0
      exact ⟨b', e, h1, h2, fun he => .inr (h3 he)⟩

theorem readerR_forward {s p : Bytes} {b : SBase} (h : Ok s p b) (fuel : Nat) {off req : Nat}
    (hf : ∀ d ∈ b.rdiffs, d.off ≤ off) (h0 : 0 < req) :
    ∃ b' r, b.readerR (fuel + 2) off req = some (b', r) ∧ ∀ d ∈ b'.rdiffs, d.off ≤ off := by
  unfold readerR
  split
  · rename_i n hn
    obtain ⟨d, hd, hp⟩ := lastIndexOf_lt hn
    simp only [hd, Option.map_some]
    exact ⟨_, _, rfl, hf⟩
  · rename_i hn
    have hend : ∀ d ∈ b.rdiffs, d.off + d.data.length < off + req := by
      intro d hd
      have := lastIndexOf_none.mp hn d hd
      have := hf d hd
      simp_all
    split
    · obtain ⟨b', e, h1, h2, h3⟩ := loadBuf_forward h fuel hf h0 hend
      rw [h1]
      simp only
      split
      · exact ⟨_, _, rfl, h2⟩
      · split
        · exact ⟨_, _, rfl, h2⟩
        · rename_i hnl hok
          have he : e = .ok := by
            cases e <;> simp_all [RErr.isOk]
          rcases h3 he with h3 | ⟨d, hd, hd1, hd2⟩
          · omega
          · split
            · rename_i n hn2
              obtain ⟨x, hx, -⟩ := lastIndexOf_lt hn2
              simp only [hx, Option.map_some]
              exact ⟨_, _, rfl, h2⟩
            · rename_i hn2
              have := lastIndexOf_none.mp hn2 d hd
              simp_all
    · exact ⟨_, _, rfl, hf⟩

end SBase
end Fbs
