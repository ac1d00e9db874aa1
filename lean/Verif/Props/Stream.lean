import Verif.StreamLemmas
import Mathlib.Data.List.Forall2
/-!
# Properties of buffers over a reader

`SBase.open src cap` is a buffer opened on a reader, `b.R fuel off req` is `R(off, Size(req))`; `fuel` bounds
the number of nested loads, `none` is a panic or a load that has not ended within the bound.
-/

namespace Fbs.Props
open Fbs SBase

/-! ## C25 random-access streams -/

/-- Operations on a stream buffer. -/
inductive SOp where
  /-- `R(off, Size(req))` -/
  | read (off req : Nat)
  /-- `WriteAt(p, i)` -/
  | writeAt (p : Bytes) (i : Nat)
  /-- `Flatten()` -/
  | flatten

def sstep (fuel : Nat) (b : SBase) : SOp → Option (SBase × Option Bytes)
  | .read off req => (b.R fuel off req).map (fun r => (r.1, some r.2))
  | .writeAt p i => some (b.writeAt p i, none)
  | .flatten => some (b.flatten, none)

def srun (fuel : Nat) (b : SBase) : List SOp → Option (SBase × List (Option Bytes))
  | [] => some (b, [])
  | o :: l =>
    match sstep fuel b o with
    | none => none
    | some (b, r) =>
      match srun fuel b l with
      | none => none
      | some (b, rs) => some (b, r :: rs)

/-- The abstract buffer: the stream overlaid with what was written; `Flatten` does nothing. -/
def specStep (m : ByteMap) : SOp → ByteMap
  | .writeAt p i => m.put i p
  | _ => m

/-- `Flatten` is only used when no segment was loaded outside the initial buffer and there is no hole
between the bytes loaded and the bytes written. -/
def CleanFlat (b : SBase) : Prop := b.rdiffs = [] ∧ ∀ x, x < b.lenBuf → (b.base.content x).isSome

def FlatOk (fuel : Nat) (b : SBase) : List SOp → Prop
  | [] => True
  | o :: l => (o = .flatten → CleanFlat b) ∧ ∀ b' r, sstep fuel b o = some (b', r) → FlatOk fuel b' l

/-- What each read of a history must return: its first byte is the byte of the abstract buffer, and
something is returned if the stream has the bytes asked for. -/
def GoodReads (s : Bytes) : ByteMap → List SOp → List (Option Bytes) → Prop
  | _, [], [] => True
  | m, o :: l, r :: rs =>
    (match o, r with
      | .read off req, some d =>
        (∀ v, m off = some v → d ≠ [] → d.head? = some v) ∧ (0 < req → off + req ≤ s.length → d ≠ [])
      | .read _ _, none => False
      | _, _ => r = none) ∧ GoodReads s (specStep m o) l rs
  | _, _, _ => False

/-- The abstract state of a buffer. -/
def overlay (s p : Bytes) (ds : List Diff) : ByteMap :=
  contentOf (fun x => if x < p.length then p[x]? else s[x]?) ds

def SRepr (s : Bytes) (m : ByteMap) (b : SBase) : Prop :=
  ∃ p, SBase.Ok s p b ∧ ∀ x v, m x = some v → overlay s p b.diffs x = some v

theorem base_len {s p : Bytes} {b : SBase} (h : SBase.Ok s p b) : b.base.bytes.len = b.len := by
  have := h.len_le; have := h.cap_le
  simp only [SBase.base, Slice.len, List.length_take]; omega

theorem base_data (b : SBase) (x : Nat) : b.base.bytes.data[x]? = if x < b.len then b.arr[x]? else none := by
  simp only [SBase.base, List.getElem?_take]

/-- Where the buffer itself has a byte, it is the abstract one. -/
theorem base_content {s p : Bytes} {b : SBase} (h : SBase.Ok s p b) {x : Nat} {v w : UInt8}
    (hv : overlay s p b.diffs x = some v) (hc : b.base.content x = some w) : v = w := by
  rw [content_eq] at hc
  rw [overlay, contentOf_eq] at hv
  have hdd : b.base.diffs = b.diffs := rfl
  rw [hdd] at hc
  cases hl : lastOf (fun d => d.covers x) b.diffs with
  | some d => simp only [hl] at hc hv; rw [hc] at hv; exact (Option.some.inj hv).symm
  | none =>
    simp only [hl, base_data] at hc hv
    split at hc
    · rename_i hx
      split at hv
      · rename_i hp
        rw [h.pre x hp, hv] at hc; exact Option.some.inj hc
      · rename_i hp
        have hs := (List.getElem?_eq_some_iff.mp hv).1
        rw [h.bytes x (by omega) hx hs, hv] at hc; exact Option.some.inj hc
    · simp at hc

/-- An empty result of `writerR`: nothing there. -/
theorem writerR_empty {s p : Bytes} {b : SBase} (h : SBase.Ok s p b) {x : Nat}
    (he : (b.base.writerR x).data.length = 0) :
    b.len ≤ x ∧ lastOf (fun d => d.covers x) b.diffs = none := by
  have hdd : b.base.diffs = b.diffs := rfl
  have h0 : b.base.content x = none := by
    rw [← byte_eq_content, Base.byte, R_data, List.length_eq_zero_iff.mp he]; rfl
  rw [content_eq, hdd] at h0
  cases hl : lastOf (fun d => d.covers x) b.diffs with
  | some d =>
    exfalso
    have := (covers_iff d x).mp (lastOf_some hl).2
    simp only [hl] at h0
    have := List.getElem?_eq_none_iff.mp h0
    simp only [Slice.len] at *
    omega
  | none =>
    simp only [hl] at h0
    have := List.getElem?_eq_none_iff.mp h0
    have h2 := base_len h
    simp only [Slice.len] at h2
    exact ⟨by omega, rfl⟩

theorem read_repr {s : Bytes} {m : ByteMap} {b b' : SBase} {fuel off req : Nat} {r : Bytes}
    (h : SRepr s m b) (hr : b.R fuel off req = some (b', r)) :
    SRepr s m b' ∧ (∀ v, m off = some v → r ≠ [] → r.head? = some v) ∧
    (0 < req → off + req ≤ s.length → r ≠ []) := by
  obtain ⟨p, hok, hm⟩ := h
  unfold SBase.R at hr
  simp only at hr
  split at hr
  · rename_i he
    obtain ⟨hlen, hl⟩ := writerR_empty hok he
    have hp : p.length ≤ off := Nat.le_trans hok.pre_le hlen
    obtain ⟨h1, h2, h3, h4⟩ := readerR_ok hok hp hr
    refine ⟨⟨p, h1, by rw [h2]; exact hm⟩, ?_, h4⟩
    intro v hv hne
    have := hm off v hv
    rw [overlay, contentOf_eq, hl] at this
    simp only at this
    rw [if_neg (by omega)] at this
    have hs := (List.getElem?_eq_some_iff.mp this).1
    have h5 := h3 0 (List.length_pos_iff.mpr hne) (by omega)
    rw [List.head?_eq_getElem?, h5, Nat.add_zero, this]
  · rename_i he
    simp only [Option.some.injEq, Prod.mk.injEq] at hr
    obtain ⟨rfl, rfl⟩ := hr
    refine ⟨⟨p, hok, hm⟩, ?_, fun _ _ hn => he (by rw [hn]; rfl)⟩
    intro v hv _
    have hb : b.base.content off = (b.base.writerR off).data.head? := by
      rw [← byte_eq_content, Base.byte, R_data]
    rw [← hb]
    cases hc : b.base.content off with
    | none =>
      rw [hc] at hb
      exact absurd (by rw [List.head?_eq_none_iff.mp hb.symm]; rfl) he
    | some w => rw [base_content hok (hm off v hv) hc]

theorem write_repr {s : Bytes} {m : ByteMap} {b : SBase} (h : SRepr s m b) (w : Bytes) (i : Nat) :
    SRepr s (m.put i w) (b.writeAt w i) := by
  obtain ⟨p, hok, hm⟩ := h
  refine ⟨p, ⟨hok.src, hok.len_le, hok.cap_le, hok.pre_le, hok.pre, hok.bytes, hok.segs, hok.sorted⟩, ?_⟩
  intro x v hv
  simp only [overlay, SBase.writeAt]
  rw [contentOf_snoc]
  simp only [ByteMap.put] at hv ⊢
  split
  · rename_i hx; rw [if_pos hx] at hv; exact hv
  · rename_i hx; rw [if_neg hx] at hv; exact hm x v hv

/-! ### Flatten -/

theorem slenBuf_ge (b : SBase) : b.len ≤ b.lenBuf ∧ (∀ d ∈ b.diffs, d.off + d.sl.len ≤ b.lenBuf) ∧
    (∀ d ∈ b.rdiffs, d.off + d.data.length ≤ b.lenBuf) := by
  have hR : ∀ (l : List RDiff) (n : Nat),
      n ≤ l.foldl (fun m d => if d.off + d.data.length > m then d.off + d.data.length else m) n ∧
      ∀ d ∈ l, d.off + d.data.length ≤
        l.foldl (fun m d => if d.off + d.data.length > m then d.off + d.data.length else m) n := by
    intro l
    induction l with
    | nil => intro n; simp
    | cons d l ih =>
      intro n
      have := ih (if d.off + d.data.length > n then d.off + d.data.length else n)
      simp only [List.foldl_cons] at this ⊢
      refine ⟨?_, ?_⟩
      · exact Nat.le_trans (by split <;> omega) this.1
      · intro e he
        rcases List.mem_cons.mp he with rfl | he
        · exact Nat.le_trans (by split <;> omega) this.1
        · exact this.2 e he
  have hD : ∀ (l : List Diff) (n : Nat),
      n ≤ l.foldl (fun m d => if d.off + d.sl.len > m then d.off + d.sl.len else m) n ∧
      ∀ d ∈ l, d.off + d.sl.len ≤
        l.foldl (fun m d => if d.off + d.sl.len > m then d.off + d.sl.len else m) n := by
    intro l
    induction l with
    | nil => intro n; simp
    | cons d l ih =>
      intro n
      have := ih (if d.off + d.sl.len > n then d.off + d.sl.len else n)
      simp only [List.foldl_cons] at this ⊢
      refine ⟨?_, ?_⟩
      · exact Nat.le_trans (by split <;> omega) this.1
      · intro e he
        rcases List.mem_cons.mp he with rfl | he
        · exact Nat.le_trans (by split <;> omega) this.1
        · exact this.2 e he
  have h1 := hR b.rdiffs b.len
  have h2 := hD b.diffs (b.rdiffs.foldl (fun m d => if d.off + d.data.length > m then
      d.off + d.data.length else m) b.len)
  unfold SBase.lenBuf
  exact ⟨Nat.le_trans h1.1 h2.1, h2.2, fun d hd => Nat.le_trans (h1.2 d hd) h2.1⟩

/-- The bytes after `Flatten`. -/
theorem sflatten_bytes {s p : Bytes} {b : SBase} (h : SBase.Ok s p b) :
    b.flatten.arr.length = b.lenBuf ∧ b.flatten.len = b.lenBuf ∧ b.flatten.cap = b.lenBuf ∧
    ∀ x, b.flatten.arr[x]? = b.base.content.fill b.lenBuf x := by
  obtain ⟨hb1, hb2, -⟩ := slenBuf_ge b
  simp only [Slice.len] at hb2
  have hlen : (b.arr.take b.len).length = b.len := by
    have := base_len h; simpa [SBase.base, Slice.len] using this
  have hz : (zeros b.lenBuf).length = b.lenBuf := List.length_replicate
  have hl : (copyAt (zeros b.lenBuf) 0 (b.arr.take b.len)).length = b.lenBuf := by
    rw [copyAt_length _ _ _ (by omega), hz]
  obtain ⟨h1, h2⟩ := flatten_fold b.diffs (copyAt (zeros b.lenBuf) 0 (b.arr.take b.len))
    (fun d hd => by rw [hl]; exact hb2 d hd)
  refine ⟨h1.trans hl, h1.trans hl, h1.trans hl, ?_⟩
  intro x
  have : b.flatten.arr[x]? = _ := h2 x
  rw [this, contentOf_eq]
  simp only [ByteMap.fill, content_eq]
  have hdd : b.base.diffs = b.diffs := rfl
  rw [hdd]
  cases hx : lastOf (fun d => d.covers x) b.diffs with
  | some d =>
    have hd := lastOf_some hx
    have h3 := (covers_iff d x).mp hd.2
    have h4 := hb2 d hd.1
    simp only [Slice.len] at h3
    rw [if_pos (by omega)]
    simp only
    rw [List.getElem?_eq_getElem (by omega)]; rfl
  | none =>
    simp only [ByteMap.ofBytes]
    rw [copyAt_getElem? _ _ _ _ (by omega)]
    simp only [Nat.zero_le, true_and, Nat.zero_add, Nat.sub_zero, hlen]
    have hbd : b.base.bytes.data = b.arr.take b.len := rfl
    rw [hbd]
    by_cases hxb : x < b.len
    · rw [if_pos hxb, if_pos (by omega), List.getElem?_eq_getElem (by omega)]; rfl
    · rw [if_neg hxb, List.getElem?_eq_none (show (b.arr.take b.len).length ≤ x by omega)]
      simp only [zeros, List.getElem?_replicate, Option.getD_none]

theorem flatten_repr {s : Bytes} {m : ByteMap} {b : SBase} (h : SRepr s m b) (hc : CleanFlat b) :
    SRepr s m b.flatten := by
  obtain ⟨p, hok, hm⟩ := h
  obtain ⟨h1, h2, h3, h4⟩ := sflatten_bytes hok
  obtain ⟨hb1, hb2, -⟩ := slenBuf_ge b
  refine ⟨b.flatten.arr, ⟨hok.src, by omega, by omega, by omega, fun _ _ => rfl, ?_, ?_, ?_⟩, ?_⟩
  · intro k hk hk2; omega
  · have : b.flatten.rdiffs = [] := hc.1
    rw [this]; intro d hd; cases hd
  · have : b.flatten.rdiffs = [] := hc.1
    rw [this]; exact List.Pairwise.nil
  · intro x v hv
    have hx := hm x v hv
    have : b.flatten.diffs = [] := rfl
    rw [this]
    show (if x < b.flatten.arr.length then b.flatten.arr[x]? else s[x]?) = some v
    rw [h1]
    split
    · rename_i hxl
      obtain ⟨w, hw⟩ := Option.isSome_iff_exists.mp (hc.2 x hxl)
      rw [h4, ByteMap.fill, if_pos hxl, hw, base_content hok hx hw]; rfl
    · rename_i hxl
      have hun : lastOf (fun d => d.covers x) b.diffs = none := by
        rw [lastOf_none]
        intro d hd
        have := hb2 d hd
        rw [covers_false]
        omega
      rw [overlay, contentOf_eq, hun] at hx
      simp only at hx
      have := hok.pre_le
      rwa [if_neg (by omega)] at hx

/-- C25 (partial, with C05): in every history of reads and writes on a buffer over a random-access stream,
each read begins with the current byte, and something is returned if the stream has what was asked for.
Missing: reads may panic (`stream_reads_fails`); only the first byte is claimed because the slice may run into
bytes overwritten later; past the end of the stream zeros may be returned; `Flatten` is only covered when
nothing was loaded outside the initial buffer and there is no hole. -/
theorem stream_history_partial (s : Bytes) (cap fuel : Nat) (ops : List SOp) (b' : SBase)
    (rs : List (Option Bytes)) (hf : FlatOk fuel (SBase.open (.file s) cap) ops)
    (hr : srun fuel (SBase.open (.file s) cap) ops = some (b', rs)) :
    GoodReads s (ByteMap.ofBytes s) ops rs := by
  have key : ∀ (ops : List SOp) (b : SBase) (m : ByteMap) (rs : List (Option Bytes)), SRepr s m b →
      FlatOk fuel b ops → srun fuel b ops = some (b', rs) → GoodReads s m ops rs := by
    intro ops
    induction ops with
    | nil =>
      intro b m rs _ _ hr
      simp only [srun, Option.some.injEq, Prod.mk.injEq] at hr
      rw [← hr.2]; trivial
    | cons o l ih =>
      intro b m rs hR hF hr
      simp only [srun] at hr
      cases hs : sstep fuel b o with
      | none => simp [hs] at hr
      | some br =>
        obtain ⟨b1, r⟩ := br
        simp only [hs] at hr
        cases ht : srun fuel b1 l with
        | none => simp [ht] at hr
        | some bt =>
          obtain ⟨b2, rt⟩ := bt
          simp only [ht, Option.some.injEq, Prod.mk.injEq] at hr
          obtain ⟨rfl, rfl⟩ := hr
          have hF2 := hF.2 b1 r hs
          cases o with
          | read off req =>
            simp only [sstep] at hs
            cases hq : b.R fuel off req with
            | none => simp [hq] at hs
            | some q =>
              simp only [hq, Option.map_some, Option.some.injEq, Prod.mk.injEq] at hs
              obtain ⟨rfl, rfl⟩ := hs
              obtain ⟨h1, h2, h3⟩ := read_repr hR hq
              exact ⟨⟨h2, h3⟩, ih _ _ _ h1 hF2 ht⟩
          | writeAt p i =>
            simp only [sstep, Option.some.injEq, Prod.mk.injEq] at hs
            obtain ⟨rfl, rfl⟩ := hs
            exact ⟨rfl, ih _ _ _ (write_repr hR p i) hF2 ht⟩
          | flatten =>
            simp only [sstep, Option.some.injEq, Prod.mk.injEq] at hs
            obtain ⟨rfl, rfl⟩ := hs
            exact ⟨rfl, ih _ _ _ (flatten_repr hR (hF.1 rfl)) hF2 ht⟩
  refine key ops _ _ rs ⟨[], open_ok s cap, ?_⟩ hf hr
  intro x v hv
  show (if x < 0 then ([] : Bytes)[x]? else s[x]?) = some v
  exact hv

/-- A history meeting the hypotheses of `stream_history_partial`: load, overwrite, read across, flatten,
load the rest, write again. -/
example :
    (srun 2 (SBase.open (.file [1, 2, 3, 4, 5, 6, 7, 8]) 8)
      [.read 0 4, .writeAt [9, 9] 2, .read 2 1, .flatten, .read 2 2, .read 4 2, .writeAt [7] 0, .read 0 1]).map
      (fun r => r.2)
    = some [some [1, 2, 3, 4], none, some [9, 9], none, some [9, 9], some [5, 6], none, some [7]] := by decide +kernel

example : CleanFlat (SBase.writeAt { SBase.open (.file [1, 2, 3, 4]) 4 with arr := [1, 2, 3, 4], len := 4 } [9, 9] 2) := by
  refine ⟨rfl, ?_⟩
  have h : (SBase.writeAt { SBase.open (.file [1, 2, 3, 4]) 4 with arr := [1, 2, 3, 4], len := 4 } [9, 9] 2).lenBuf = 4 := by
    decide
  rw [h]
  intro x hx
  have : x = 0 ∨ x = 1 ∨ x = 2 ∨ x = 3 := by omega
  rcases this with rfl | rfl | rfl | rfl <;> decide

/-- A read of an unmodified buffer. -/
theorem read_plain {s : Bytes} {b b' : SBase} {fuel off req : Nat} {r : Bytes} (h : SBase.Ok s [] b)
    (hd : b.diffs = []) (hr : b.R fuel off req = some (b', r)) :
    SBase.Ok s [] b' ∧ b'.diffs = [] ∧ Agrees s off r ∧ (0 < req → off + req ≤ s.length → r ≠ []) := by
  unfold SBase.R at hr
  simp only at hr
  split at hr
  · obtain ⟨h1, h2, h3, h4⟩ := readerR_ok h (Nat.zero_le _) hr
    exact ⟨h1, by rw [h2, hd], h3, h4⟩
  · rename_i he
    simp only [Option.some.injEq, Prod.mk.injEq] at hr
    obtain ⟨rfl, rfl⟩ := hr
    refine ⟨h, hd, ?_, fun _ _ hn => he (by rw [hn]; rfl)⟩
    by_cases hx : b.base.bytes.len < off
    · rw [writerR_beyond (by rw [show b.base.diffs = [] from hd]; rfl) hx]; exact .nil
    · have hst : b.base.stop off = b.base.bytes.len := by
        unfold Base.stop
        rw [show b.base.diffs = [] from hd]; rfl
      rw [writerR_uncovered (by rw [show b.base.diffs = [] from hd]; rfl) (by omega), hst, base_len h]
      intro k hk hs
      simp only [List.length_drop, List.length_take] at hk
      rw [List.getElem?_drop, List.getElem?_take, if_pos (by omega), base_data, if_pos (by omega)]
      exact h.bytes _ (Nat.zero_le _) (by omega) hs

/-- C25 (partial): whatever was read before and in whatever order, every byte returned at a position before
the end of the stream is the stream's byte, and something is returned if the stream has what was asked for.
Missing: a read may panic (`stream_reads_fails`), may return fewer bytes than asked for, and past the end of
the stream zeros may be returned (`stream_end_fails`). -/
theorem stream_reads_partial (s : Bytes) (cap fuel : Nat) (l : List (Nat × Nat)) (b' : SBase) (rs : List Bytes)
    (hr : (SBase.open (.file s) cap).reads fuel l = some (b', rs)) :
    List.Forall₂ (fun (q : Nat × Nat) r => (∀ k, k < r.length → q.1 + k < s.length → r[k]? = s[q.1 + k]?) ∧
      (0 < q.2 → q.1 + q.2 ≤ s.length → r ≠ [])) l rs := by
  have key : ∀ (l : List (Nat × Nat)) (b : SBase) (rs : List Bytes), SBase.Ok s [] b → b.diffs = [] →
      b.reads fuel l = some (b', rs) →
      List.Forall₂ (fun (q : Nat × Nat) r => (∀ k, k < r.length → q.1 + k < s.length → r[k]? = s[q.1 + k]?) ∧
        (0 < q.2 → q.1 + q.2 ≤ s.length → r ≠ [])) l rs := by
    intro l
    induction l with
    | nil =>
      intro b rs _ _ hr
      simp only [SBase.reads, Option.some.injEq, Prod.mk.injEq] at hr
      rw [← hr.2]; exact .nil
    | cons q l ih =>
      intro b rs hok hd hr
      obtain ⟨off, req⟩ := q
      simp only [SBase.reads, Option.bind_eq_bind] at hr
      cases h1 : b.R fuel off req with
      | none => simp [h1] at hr
      | some br =>
        obtain ⟨b1, r⟩ := br
        simp only [h1, Option.bind_some] at hr
        cases h2 : b1.reads fuel l with
        | none => simp [h2] at hr
        | some bt =>
          obtain ⟨b2, rt⟩ := bt
          simp only [h2, Option.bind_some, Option.pure_def, Option.some.injEq, Prod.mk.injEq] at hr
          obtain ⟨rfl, rfl⟩ := hr
          obtain ⟨h3, h4, h5, h6⟩ := read_plain hok hd h1
          exact .cons ⟨h5, h6⟩ (ih _ _ h3 h4 h2)
  exact key l _ rs (open_ok s cap) rfl hr

/-- Reads at increasing offsets never panic, whatever the stream, the sizes and the capacity. -/
theorem stream_forward_partial (s : Bytes) (cap : Nat) (l : List (Nat × Nat))
    (hs : l.Pairwise (fun a b => a.1 ≤ b.1)) (hp : ∀ q ∈ l, 0 < q.2) (fuel : Nat) (hfuel : 2 ≤ fuel) :
    ∃ b' rs, (SBase.open (.file s) cap).reads fuel l = some (b', rs) := by
  obtain ⟨fuel, rfl⟩ : ∃ f, fuel = f + 2 := ⟨fuel - 2, by omega⟩
  have key : ∀ (l : List (Nat × Nat)) (b : SBase), l.Pairwise (fun a b => a.1 ≤ b.1) → (∀ q ∈ l, 0 < q.2) →
      SBase.Ok s [] b → b.diffs = [] → (∀ q ∈ l, ∀ d ∈ b.rdiffs, d.off ≤ q.1) →
      ∃ b' rs, b.reads (fuel + 2) l = some (b', rs) := by
    intro l
    induction l with
    | nil => intro b _ _ _ _ _; exact ⟨_, _, rfl⟩
    | cons q l ih =>
      intro b hs hp hok hd hf
      obtain ⟨off, req⟩ := q
      have hc := List.pairwise_cons.mp hs
      have hR : ∃ b1 r, b.R (fuel + 2) off req = some (b1, r) ∧ ∀ d ∈ b1.rdiffs, d.off ≤ off := by
        unfold SBase.R
        simp only
        split
        · exact readerR_forward hok fuel (hf _ List.mem_cons_self) (hp _ List.mem_cons_self)
        · exact ⟨_, _, rfl, hf _ List.mem_cons_self⟩
      obtain ⟨b1, r, h1, h2⟩ := hR
      obtain ⟨h3, h4, -, -⟩ := read_plain hok hd h1
      obtain ⟨b2, rt, h5⟩ := ih b1 hc.2 (fun q hq => hp q (List.mem_cons_of_mem _ hq)) h3 h4
        (fun q hq d hdm => Nat.le_trans (h2 d hdm) (hc.1 q hq))
      refine ⟨b2, r :: rt, ?_⟩
      simp [SBase.reads, h1, h5]
  exact key l _ hs hp (open_ok s cap) rfl (by intro q _ d hd; simp [SBase.open] at hd)

/-- Reads inside the initial capacity never panic, in whatever order. -/
theorem stream_capacity_partial (s : Bytes) (cap : Nat) (l : List (Nat × Nat))
    (hp : ∀ q ∈ l, 0 < q.2 ∧ q.1 + q.2 ≤ cap) (fuel : Nat) (hfuel : 1 ≤ fuel) :
    ∃ b' rs, (SBase.open (.file s) cap).reads fuel l = some (b', rs) := by
  obtain ⟨fuel, rfl⟩ : ∃ f, fuel = f + 1 := ⟨fuel - 1, by omega⟩
  have key : ∀ (l : List (Nat × Nat)) (b : SBase), (∀ q ∈ l, 0 < q.2 ∧ q.1 + q.2 ≤ cap) →
      SBase.Ok s [] b → b.diffs = [] → b.rdiffs = [] → b.cap = cap →
      ∃ b' rs, b.reads (fuel + 1) l = some (b', rs) := by
    intro l
    induction l with
    | nil => intro b _ _ _ _ _; exact ⟨_, _, rfl⟩
    | cons q l ih =>
      intro b hp hok hd hrd hcap
      obtain ⟨off, req⟩ := q
      obtain ⟨h0, hle⟩ := hp _ List.mem_cons_self
      simp only at h0 hle
      have hR : ∃ b1 r, b.R (fuel + 1) off req = some (b1, r) ∧ b1.rdiffs = [] ∧ b1.cap = cap := by
        unfold SBase.R
        simp only
        split
        · unfold SBase.readerR
          rw [hrd]
          simp only [lastIndexOf]
          split
          · unfold loadBuf
            rw [if_pos ⟨by omega, by omega⟩]
            obtain ⟨g1, g2, g3, g4, g5, g6, g7⟩ := loadBytes_ok hok (show off + req ≤ b.cap by omega) (by omega)
            generalize b.loadBytes off req = y at g1 g2 g3 g4 g5 g6 g7
            obtain ⟨b1, e⟩ := y
            simp only at g1 g2 g3 g4 g5 g6 g7 ⊢
            split
            · exact ⟨_, _, rfl, by rw [g3, hrd], by rw [g4, hcap]⟩
            · rename_i hn
              rcases g5 with rfl | rfl
              · have := g6 rfl; omega
              · exact ⟨b1, [], by simp [RErr.isOk], by rw [g3, hrd], by rw [g4, hcap]⟩
          · exact ⟨_, _, rfl, hrd, hcap⟩
        · exact ⟨_, _, rfl, hrd, hcap⟩
      obtain ⟨b1, r, h1, h2, h2'⟩ := hR
      obtain ⟨h3, h4, -, -⟩ := read_plain hok hd h1
      obtain ⟨b2, rt, h5⟩ := ih b1 (fun q hq => hp q (List.mem_cons_of_mem _ hq)) h3 h4 h2 h2'
      refine ⟨b2, r :: rt, ?_⟩
      simp [SBase.reads, h1, h5]
  exact key l _ hp (open_ok s cap) rfl rfl rfl

/-- Backwards and forwards inside the capacity, beyond it, and a partly loaded read. -/
example : ((SBase.open (.file [1, 2, 3, 4, 5, 6, 7, 8, 9]) 4).reads 2 [(2, 2), (0, 1), (6, 2), (5, 1), (6, 3)]).map
    (fun r => r.2) = some [[3, 4], [1, 2, 3, 4], [7, 8], [6], [7, 8, 9]] := by decide +kernel

example : [((0, 2) : Nat × Nat), (3, 2), (3, 5), (700, 4)].Pairwise (fun a b => a.1 ≤ b.1) := by decide

/-- C25 fails: past the end of the stream, once reading has reached it, zeros are returned that are not in the
stream, and the same read gives different results. -/
theorem stream_end_fails :
    ((SBase.open (.file [1, 2, 3, 4, 5, 6]) 16).reads 2 [(4, 4), (6, 2), (4, 4)]).map (fun r => r.2) =
      some [[], [0, 0], [5, 6, 0, 0]] := by decide +kernel

theorem ite_ne_must (c : Prop) [Decidable c] (o s : Nat) : (if c then RErr.eof else .ok) ≠ .mustRead o s := by
  split <;> simp

/-- On a random-access stream loads are never nested: two units of fuel suffice. -/
theorem loadBuf_fuel {s : Bytes} {b : SBase} (h : b.src = .file s) (fuel off size : Nat) :
    loadBuf (fuel + 2) b off size = loadBuf 2 b off size := by
  have hnew : ∀ (b : SBase), b.src = .file s → ∀ o z q l, loadBuf.loadNew (fuel + 1) b o z q l =
      loadBuf.loadNew 1 b o z q l := by
    intro b h o z q l
    unfold loadBuf.loadNew
    simp only [h, Src.readAt]
    split
    · rename_i heq
      exact absurd heq (ite_ne_must _ _ _)
    · rfl
  unfold loadBuf
  split
  · rfl
  · simp only
    split
    · split
      · split
        · rfl
        · simp only [h, Src.readAt]
          split
          · rename_i heq
            exact absurd heq (ite_ne_must _ _ _)
          · rfl
      · exact hnew _ (by split <;> exact h) _ _ _ _
    · exact hnew { b with cap := b.len } h _ _ _ _

theorem reads_fuel {s : Bytes} {b : SBase} (h : SBase.Ok s [] b) (hd : b.diffs = []) (fuel : Nat) (l : List (Nat × Nat)) :
    b.reads (fuel + 2) l = b.reads 2 l := by
  induction l generalizing b with
  | nil => rfl
  | cons q l ih =>
    obtain ⟨off, req⟩ := q
    have hR : b.R (fuel + 2) off req = b.R 2 off req := by
      unfold SBase.R SBase.readerR
      rw [loadBuf_fuel h.src]
    simp only [SBase.reads, hR]
    cases h1 : b.R 2 off req with
    | none => rfl
    | some br =>
      obtain ⟨b1, r⟩ := br
      obtain ⟨h3, h4, -, -⟩ := read_plain h hd h1
      simp only [Option.bind_eq_bind, Option.bind_some, ih h3 h4]

/-- C25 fails: reads inside the stream panic (a negative length in `loadBuf`) after overlapping loads. -/
theorem stream_reads_fails : ∃ l : List (Nat × Nat),
    (∀ q ∈ l, q.1 + q.2 ≤ 6000) ∧ ∀ fuel, 2 ≤ fuel → (SBase.open (.file (zeros 6000)) 4).reads fuel l = none := by
  refine ⟨[(5000, 10), (1000, 100), (4000, 1050), (1010, 4050)], by decide, ?_⟩
  intro fuel hf
  obtain ⟨fuel, rfl⟩ : ∃ f, fuel = f + 2 := ⟨fuel - 2, by omega⟩
  rw [reads_fuel (open_ok _ _) rfl]
  have : ((SBase.open (.file (zeros 6000)) 4).reads 2 [(5000, 10), (1000, 100), (4000, 1050), (1010, 4050)]).isNone := by
    decide +kernel
  exact Option.isNone_iff_eq_none.mp this

/-- C25 fails: a read without a size beyond what is loaded panics ("infinit loop"). -/
theorem stream_unsized_fails : (SBase.open (.file [1, 2, 3, 4, 5, 6]) 4).reads 2 [(5, 0)] = none := by
  have : ((SBase.open (.file [1, 2, 3, 4, 5, 6]) 4).reads 2 [(5, 0)]).isNone := by decide +kernel
  exact Option.isNone_iff_eq_none.mp this

/-! ## C02 Flatten of a stream buffer -/

/-- C02 (partial): `Flatten` keeps every byte that is in the initial buffer or was written, and every read of
such a byte afterwards, of any size, starts with it.  Missing: bytes that were loaded into separate segments,
or that would still have to be loaded, below the last byte written (`flatten_stream_fails`,
`flatten_hole_fails`). -/
theorem flatten_stream_partial {s p : Bytes} {b : SBase} (h : SBase.Ok s p b) {x : Nat} {v : UInt8}
    (hv : b.base.content x = some v) (fuel req : Nat) :
    ∃ r, b.flatten.R fuel x req = some (b.flatten, r) ∧ r.head? = some v := by
  obtain ⟨h1, h2, h3, h4⟩ := sflatten_bytes h
  obtain ⟨hb1, hb2, -⟩ := slenBuf_ge b
  have hx : x < b.lenBuf := by
    rw [content_eq] at hv
    cases hl : lastOf (fun d => d.covers x) b.base.diffs with
    | some d =>
      have := (covers_iff d x).mp (lastOf_some hl).2
      have := hb2 d (lastOf_some hl).1
      omega
    | none =>
      simp only [hl, base_data] at hv
      split at hv
      · omega
      · simp at hv
  have hlen : b.flatten.base.bytes.len = b.lenBuf := by
    simp only [SBase.base, Slice.len, List.length_take]; omega
  have hst : b.flatten.base.stop x = b.flatten.base.bytes.len := rfl
  have hw : (b.flatten.base.writerR x).data = b.flatten.arr.drop x := by
    rw [writerR_uncovered rfl (by omega), hst, hlen]
    simp only [SBase.base, h2]
    rw [List.take_of_length_le (by simp; omega), List.take_of_length_le (by omega)]
  unfold SBase.R
  simp only [hw]
  rw [if_neg (by rw [List.length_drop]; omega)]
  refine ⟨_, rfl, ?_⟩
  rw [List.head?_drop, h4, ByteMap.fill, if_pos hx, hv]; rfl

example : (((SBase.open (.file [1, 2, 3, 4, 5]) 5).writeAt [9] 1).R 2 3 2).map (fun r => r.2) = some [4, 5] ∧
    ((({ SBase.open (.file [1, 2, 3, 4, 5]) 5 with arr := [1, 2, 3, 4, 5], len := 5 } : SBase).writeAt [9] 1).flatten.R 2 0 5).map
      (fun r => r.2) = some [1, 9, 3, 4, 5] := by decide +kernel

/-- C02 fails: bytes loaded outside the initial buffer are zero after `Flatten`. -/
theorem flatten_stream_fails :
    (srun 2 (SBase.open (.file [1, 2, 3, 4, 5, 6, 7, 8]) 4) [.read 6 2, .flatten, .read 6 2]).map (fun r => r.2) =
      some [some [7, 8], none, some [0, 0]] := by decide +kernel

/-- C02 fails: bytes between what was loaded and what was written are zero after `Flatten`. -/
theorem flatten_hole_fails :
    (srun 2 (SBase.open (.file [1, 2, 3, 4, 5, 6, 7, 8]) 8) [.read 0 2, .writeAt [9] 6, .flatten, .read 2 1]).map
      (fun r => r.2) = some [some [1, 2], none, none, some [0, 0, 0, 0, 9]] ∧
    (srun 2 (SBase.open (.file [1, 2, 3, 4, 5, 6, 7, 8]) 8) [.read 0 2, .writeAt [9] 6, .read 2 1]).map
      (fun r => r.2) = some [some [1, 2], none, some [3]] := by decide +kernel

/-! ## C26 sequential streams -/

/-- C26 (partial): the first read, at offset 0 and within the capacity, returns the first bytes of the
stream, and so does every later read inside what was loaded.  Missing: everything else
(`seq_second_read_fails`, `seq_beyond_capacity_fails`). -/
theorem seq_first_read_partial (s : Bytes) (cap n fuel : Nat) (h0 : 0 < n) (hc : n ≤ cap) (hs : n ≤ s.length)
    (l : List (Nat × Nat)) (hl : ∀ q ∈ l, q.1 < n) :
    ((SBase.open (.seq s) cap).reads (fuel + 1) ((0, n) :: l)).map (fun r => r.2) =
      some (s.take n :: l.map (fun q => (s.take n).drop q.1)) := by
  have hdl : (s.take n).length = n := by simp; omega
  have harr : (copyAt (zeros cap) 0 (s.take n)).take n = s.take n := by
    unfold copyAt
    simp only [List.take_zero, List.nil_append, zeros, List.length_replicate, Nat.sub_zero]
    rw [List.take_of_length_le (l := s.take n) (by omega), List.take_append_of_le_length (by omega),
      List.take_of_length_le (by omega)]
  have h1 : (SBase.open (.seq s) cap).R (fuel + 1) 0 n =
      some ({ src := .seq (s.drop n), arr := copyAt (zeros cap) 0 (s.take n), len := n, cap := cap }, s.take n) := by
    unfold SBase.R
    have hw : ((SBase.open (.seq s) cap).base.writerR 0).data = [] := by
      simp [SBase.open, SBase.base, Base.writerR, lastIndexOf, Slice.len]
    simp only [hw, List.length_nil, if_true]
    unfold SBase.readerR
    simp only [SBase.open, lastIndexOf, Nat.zero_add]
    rw [if_pos (by omega)]
    unfold loadBuf
    simp only [Nat.zero_add]
    rw [if_pos ⟨hc, h0⟩]
    simp only [SBase.loadBytes, Src.readAt, Nat.lt_irrefl, if_false, Nat.zero_add, Nat.sub_zero, hdl, h0, if_true]
    rw [if_pos (by omega), harr, List.drop_zero]
  have key : ∀ (l : List (Nat × Nat)), (∀ q ∈ l, q.1 < n) →
      (SBase.reads (fuel + 1) { src := .seq (s.drop n), arr := copyAt (zeros cap) 0 (s.take n), len := n, cap := cap } l).map
        (fun r => r.2) = some (l.map (fun q => (s.take n).drop q.1)) ∧
      (SBase.reads (fuel + 1) { src := .seq (s.drop n), arr := copyAt (zeros cap) 0 (s.take n), len := n, cap := cap } l).map
        (fun r => r.1) = some { src := .seq (s.drop n), arr := copyAt (zeros cap) 0 (s.take n), len := n, cap := cap } := by
    intro l
    induction l with
    | nil => intro _; exact ⟨rfl, rfl⟩
    | cons q l ih =>
      intro hq
      obtain ⟨off, req⟩ := q
      have hoff : off < n := hq _ List.mem_cons_self
      have hR : SBase.R (fuel + 1) { src := .seq (s.drop n), arr := copyAt (zeros cap) 0 (s.take n), len := n, cap := cap }
          off req = some ({ src := .seq (s.drop n), arr := copyAt (zeros cap) 0 (s.take n), len := n, cap := cap },
            (s.take n).drop off) := by
        unfold SBase.R
        have hw : (Base.writerR (SBase.base { src := .seq (s.drop n), arr := copyAt (zeros cap) 0 (s.take n), len := n, cap := cap })
            off).data = (s.take n).drop off := by
          unfold Base.writerR
          simp only [SBase.base, lastIndexOf, harr, Slice.len, hdl]
          rw [if_neg (by omega)]
          simp
        simp only [hw]
        rw [if_neg (by rw [List.length_drop]; omega)]
      obtain ⟨i1, i2⟩ := ih (fun q hq' => hq q (List.mem_cons_of_mem _ hq'))
      simp only [SBase.reads, hR, Option.bind_eq_bind, Option.bind_some]
      cases hx : SBase.reads (fuel + 1) { src := .seq (s.drop n), arr := copyAt (zeros cap) 0 (s.take n), len := n, cap := cap } l with
      | none => simp [hx] at i1
      | some y =>
        simp only [hx, Option.map_some, Option.some.injEq] at i1 i2
        simp [i1, i2]
  obtain ⟨k1, -⟩ := key l hl
  simp only [SBase.reads, h1, Option.bind_eq_bind, Option.bind_some]
  cases hx : SBase.reads (fuel + 1) { src := .seq (s.drop n), arr := copyAt (zeros cap) 0 (s.take n), len := n, cap := cap } l with
  | none => simp [hx] at k1
  | some y =>
    simp only [hx, Option.map_some, Option.some.injEq] at k1
    simp [k1]

example : ((SBase.open (.seq [1, 2, 3, 4, 5, 6]) 8).reads 3 [(0, 4), (2, 2), (0, 1)]).map (fun r => r.2) =
    some [[1, 2, 3, 4], [3, 4], [1, 2, 3, 4]] := by decide +kernel

/-- C26 fails: a second load returns zeros instead of the stream. -/
theorem seq_second_read_fails :
    ((SBase.open (.seq [1, 2, 3, 4, 5, 6, 7, 8]) 8).reads 9 [(0, 4), (4, 4)]).map (fun r => r.2) =
      some [[1, 2, 3, 4], [0, 0, 0, 0]] := by decide +kernel

/-- The reader stays a sequential one. -/
def IsSeq (b : SBase) : Prop := ∃ r, b.src = .seq r

theorem load_seq (fuel : Nat) :
    (∀ b off size b' e, IsSeq b → loadBuf fuel b off size = some (b', e) → IsSeq b') ∧
    (∀ b off size req lim b' e, IsSeq b → loadBuf.loadNew fuel b off size req lim = some (b', e) → IsSeq b') := by
  have hra : ∀ (r : Bytes) (n off : Nat), ∃ r', ((Src.seq r).readAt n off).1 = .seq r' := by
    intro r n off
    unfold Src.readAt
    simp only
    split
    · exact ⟨_, rfl⟩
    · exact ⟨_, rfl⟩
  induction fuel with
  | zero =>
    refine ⟨?_, ?_⟩
    · intro b off size b' e _ h; simp [loadBuf] at h
    · intro b off size req lim b' e _ h; simp [loadBuf.loadNew] at h
  | succ fuel ih =>
    obtain ⟨ih1, ih2⟩ := ih
    refine ⟨?_, ?_⟩
    · intro b off size b' e hb h
      unfold loadBuf at h
      split at h
      · obtain ⟨r, hr⟩ := hb
        simp only [SBase.loadBytes, hr, Option.some.injEq, Prod.mk.injEq] at h
        obtain ⟨rfl, -⟩ := h
        exact hra _ _ _
      · simp only at h
        split at h
        · split at h
          · split at h
            · simp at h
            · obtain ⟨r, hr⟩ := hb
              rw [hr] at h
              split at h
              · split at h
                · simp at h
                · rename_i heq
                  simp only [Option.some.injEq, Prod.mk.injEq] at h
                  obtain ⟨rfl, -⟩ := h
                  refine ih1 _ _ _ _ _ ?_ heq
                  exact hra _ _ _
              · simp only [Option.some.injEq, Prod.mk.injEq] at h
                obtain ⟨rfl, -⟩ := h
                exact hra _ _ _
          · split at h
            · refine ih2 _ _ _ _ _ _ _ ?_ h
              exact hb
            · exact ih2 { b with cap := b.len } _ _ _ _ _ _ hb h
        · exact ih2 { b with cap := b.len } _ _ _ _ _ _ hb h
    · intro b off size req lim b' e hb h
      obtain ⟨r, hr⟩ := hb
      unfold loadBuf.loadNew at h
      simp only [hr] at h
      split at h
      · split at h
        · simp at h
        · rename_i heq
          refine ih2 _ _ _ _ _ _ _ (ih1 _ _ _ _ _ ?_ heq) h
          exact hra _ _ _
      · simp only [Option.some.injEq, Prod.mk.injEq] at h
        obtain ⟨rfl, -⟩ := h
        exact hra _ _ _

/-- On a sequential stream, loading a new segment at a positive offset never ends. -/
theorem loadNew_seq_hangs (fuel : Nat) : ∀ b off size req lim, IsSeq b → 0 < off →
    loadBuf.loadNew fuel b off size req lim = none := by
  induction fuel with
  | zero => intro b off size req lim _ _; simp [loadBuf.loadNew]
  | succ fuel ih =>
    intro b off size req lim hb h0
    obtain ⟨r, hr⟩ := hb
    unfold loadBuf.loadNew
    simp only [hr, Src.readAt, if_pos h0]
    cases hl : loadBuf fuel { b with src := .seq r } 0 off with
    | none => rfl
    | some x =>
      obtain ⟨b1, e⟩ := x
      simp only
      exact ih _ _ _ _ _ ((load_seq fuel).1 _ _ _ _ _ ⟨r, rfl⟩ hl) h0

/-- C26 fails: for every stream and capacity, a read at a positive offset that reaches beyond the capacity of
a fresh buffer never returns, however long one waits. -/
theorem seq_beyond_capacity_fails (s : Bytes) (cap off req : Nat) (h0 : 0 < off) (hc : cap < off + req) :
    ∀ fuel, (SBase.open (.seq s) cap).R fuel off req = none := by
  intro fuel
  unfold SBase.R
  have hw : ((SBase.open (.seq s) cap).base.writerR off).data = [] := by
    simp [SBase.open, SBase.base, Base.writerR, lastIndexOf, Slice.len, Slice.nil, h0]
  simp only [hw, List.length_nil, if_true]
  unfold SBase.readerR
  have hrd : (SBase.open (.seq s) cap).rdiffs = [] := rfl
  rw [hrd]
  simp only [lastIndexOf]
  rw [if_pos (show off + req > (SBase.open (.seq s) cap).len by simp only [SBase.open]; omega)]
  cases fuel with
  | zero => simp [loadBuf]
  | succ fuel =>
    unfold loadBuf
    rw [if_neg (by simp only [SBase.open]; omega)]
    have hsm : smallerR (SBase.open (.seq s) cap).rdiffs off = none := rfl
    simp only [hsm]
    rw [loadNew_seq_hangs fuel _ _ _ _ _ ⟨s, rfl⟩ h0]

/-! ## C27 chained messages -/

/-- A sequence of reads on one node. -/
def chainReads (fuel : Nat) (c : SChain) (i : Nat) : List (Nat × Nat) → Option (SChain × List Bytes)
  | [] => some (c, [])
  | (off, req) :: l => do
    let (c, r) ← c.R fuel i off req
    let (c, rs) ← chainReads fuel c i l
    return (c, r :: rs)

/-- `Next` on the root and then on each node made, with the given skips. -/
def nextLine (c : SChain) (i : Nat) : List Nat → Go SChain
  | [] => some c
  | s :: l => do
    let c ← c.next i s
    nextLine c c.kids.length l

/-- The offset the reader of the last of the nodes is meant to start at. -/
def meantOffset (skips : List Nat) : Nat := skips.sum

/-- The offset it does start at: every node adds up the skips of all nodes before it. -/
def actualOffset : List Nat → Nat
  | [] => 0
  | s :: l => s * (l.length + 1) + actualOffset l

theorem next_kids {c c' : SChain} {i skip : Nat} (h : c.next i skip = some c') :
    ∃ k, c'.kids.length = c.kids.length + 1 ∧ c'.kids[c.kids.length]? = some k ∧ k.parent = i ∧
      k.off = c.offOf i + skip ∧ k.len = 0 ∧
      ∀ (j : Nat) (n : SNode), c.kids[j]? = some n → ∃ n' : SNode, c'.kids[j]? = some n' ∧ n'.parent = n.parent ∧ n'.off = n.off := by
  unfold SChain.next at h
  cases hw : c.win i with
  | none => simp [hw] at h
  | some w =>
    obtain ⟨start, len, cap⟩ := w
    simp only [hw, Option.bind_eq_bind, Option.bind_some] at h
    split at h
    · simp only [Option.pure_def, Option.some.injEq] at h
      subst h
      refine ⟨⟨i, c.offOf i + skip, start, 0, cap⟩, by simp, by simp, rfl, rfl, rfl, ?_⟩
      intro j n hj
      refine ⟨n, ?_, rfl, rfl⟩
      simp only
      rw [List.getElem?_append_left (List.getElem?_eq_some_iff.mp hj).1, hj]
    · split at h
      · simp at h
      · simp only [Option.pure_def, Option.some.injEq] at h
        subst h
        have hkl : ∀ c' : SChain, c' = (if cap > skip then c.setLen i skip else c) →
            c'.kids.length = c.kids.length ∧
            ∀ (j : Nat) (n : SNode), c.kids[j]? = some n → ∃ n' : SNode, c'.kids[j]? = some n' ∧ n'.parent = n.parent ∧ n'.off = n.off := by
          rintro c' rfl
          split
          · cases i with
            | zero => exact ⟨rfl, fun j n hj => ⟨n, hj, rfl, rfl⟩⟩
            | succ i =>
              refine ⟨by simp [SChain.setLen], ?_⟩
              intro j n hj
              simp only [SChain.setLen, List.getElem?_modify, hj]
              split
              · exact ⟨_, rfl, rfl, rfl⟩
              · exact ⟨_, rfl, rfl, rfl⟩
          · exact ⟨rfl, fun j n hj => ⟨n, hj, rfl, rfl⟩⟩
        obtain ⟨h1, h2⟩ := hkl _ rfl
        refine ⟨⟨i, c.offOf i + skip, start + skip, 0, cap - skip⟩, by simp [h1], ?_, rfl, rfl, rfl, ?_⟩
        · simp only
          rw [List.getElem?_append_right (by omega), h1]; simp
        · intro j n hj
          obtain ⟨n', hn', hp⟩ := h2 j n hj
          refine ⟨n', ?_, hp⟩
          simp only
          rw [List.getElem?_append_left (List.getElem?_eq_some_iff.mp hn').1, hn']

theorem rootOff_mono {c c' : SChain}
    (h : ∀ (j : Nat) (n : SNode), c.kids[j]? = some n → ∃ n' : SNode, c'.kids[j]? = some n' ∧ n'.parent = n.parent ∧ n'.off = n.off)
    (k i x y : Nat) (hy : c.rootOff k i x = some y) : c'.rootOff k i x = some y := by
  induction k generalizing i x with
  | zero =>
    cases i with
    | zero => exact hy
    | succ i => simp [SChain.rootOff] at hy
  | succ k ih =>
    cases i with
    | zero => exact hy
    | succ i =>
      simp only [SChain.rootOff] at hy ⊢
      cases hn : c.kids[i]? with
      | none => simp [hn] at hy
      | some n =>
        obtain ⟨n', h1, h2, h3⟩ := h i n hn
        simp only [hn] at hy
        simp only [h1, h2, h3]
        exact ih _ _ hy

theorem nextLine_gen (l : List Nat) : ∀ (c c' : SChain) (A : Nat),
    (∀ x, c.rootOff c.kids.length c.kids.length x = some (A + x)) →
    nextLine c c.kids.length l = some c' →
    c'.kids.length = c.kids.length + l.length ∧
    ∀ x, c'.rootOff c'.kids.length c'.kids.length x =
      some (A + c.offOf c.kids.length * l.length + actualOffset l + x) := by
  induction l with
  | nil =>
    intro c c' A hA h
    simp only [nextLine, Option.some.injEq] at h
    subst h
    refine ⟨by simp, ?_⟩
    intro x; rw [hA]; simp [actualOffset]
  | cons s l ih =>
    intro c c' A hA h
    simp only [nextLine, Option.bind_eq_bind] at h
    cases hn : c.next c.kids.length s with
    | none => simp [hn] at h
    | some c1 =>
      simp only [hn, Option.bind_some] at h
      obtain ⟨k, h1, h2, h3, h4, h5, h6⟩ := next_kids hn
      have hoff : c1.offOf c1.kids.length = c.offOf c.kids.length + s := by
        rw [h1]; simp only [SChain.offOf, h2, h4]
      have hroot : ∀ x, c1.rootOff c1.kids.length c1.kids.length x =
          some (A + (c.offOf c.kids.length + s) + x) := by
        intro x
        rw [h1]
        simp only [SChain.rootOff, h2, h3, h4]
        rw [rootOff_mono h6 _ _ _ _ (hA _), ← Nat.add_assoc]
      obtain ⟨i1, i2⟩ := ih c1 c' _ hroot h
      refine ⟨by rw [i1, h1, List.length_cons]; omega, ?_⟩
      intro x
      rw [i2, hoff]
      simp only [actualOffset, List.length_cons, Nat.mul_add, Nat.add_mul, Nat.mul_one]
      congr 1
      omega

/-- How node offsets reach the stream, for every number of messages: the last node made by
`Next(s1).Next(s2)...` reads at the sum of all partial sums of the skips. -/
theorem next_line_offset (root : SBase) (skips : List Nat) (c' : SChain)
    (h : nextLine { root := root } 0 skips = some c') (off : Nat) :
    c'.kids.length = skips.length ∧
    c'.rootOff skips.length skips.length off = some (actualOffset skips + off) := by
  obtain ⟨h1, h2⟩ := nextLine_gen skips { root := root } c' 0 (fun x => by simp [SChain.rootOff]) h
  simp only [List.length_nil, Nat.zero_add] at h1
  refine ⟨h1, ?_⟩
  have := h2 off
  rw [h1] at this
  rw [this]
  simp [SChain.offOf]

/-- C27 fails: the second `Next` reads at `2*s1 + s2`, so with `s1 > 0` never where it should. -/
theorem next_next_offset_fails (root : SBase) (s1 s2 : Nat) (c' : SChain)
    (h : nextLine { root := root } 0 [s1, s2] = some c') (h1 : 0 < s1) (off : Nat) :
    c'.rootOff 2 2 off = some (2 * s1 + s2 + off) ∧ c'.rootOff 2 2 off ≠ some (meantOffset [s1, s2] + off) := by
  have := (next_line_offset root [s1, s2] c' h off).2
  simp only [List.length_cons, List.length_nil, Nat.zero_add, actualOffset, Nat.mul_one, Nat.add_zero] at this
  rw [this]
  refine ⟨by congr 1; omega, ?_⟩
  simp only [meantOffset, List.sum_cons, List.sum_nil, ne_eq, Option.some.injEq]
  omega

/-- C27 fails, observed through reads: with messages of four bytes the third is read at offset 12. -/
theorem next_next_read_fails :
    ((SBase.open (.file [1, 1, 1, 1, 2, 2, 2, 2, 3, 3, 3, 3, 4, 4, 4, 4]) 16).R 2 0 16).bind (fun r =>
      (nextLine { root := r.1 } 0 [4, 4]).bind (fun c => (c.R 2 2 0 4).map (fun q => q.2))) = some [4, 4, 4, 4] := by
  decide +kernel

/-- C27 (partial): after one `Next(skip)` on an unmodified buffer that has loaded more than `skip` bytes, every
sequence of reads of the new buffer returns the stream's bytes from `skip` on.  Missing: a second `Next`
(`next_next_offset_fails`), and `Next` when no more than `skip` bytes are loaded (`next_unloaded_fails`,
`next_capacity_fails`). -/
theorem next_one_partial {s : Bytes} {b : SBase} (h : SBase.Ok s [] b) {skip : Nat} (hl : skip < b.len) :
    ∃ c, SChain.next { root := b } 0 skip = some c ∧
      ∀ (l : List (Nat × Nat)) (fuel : Nat) (c' : SChain) (rs : List Bytes),
        chainReads fuel c 1 l = some (c', rs) →
        List.Forall₂ (fun (q : Nat × Nat) r =>
          (∀ k, k < r.length → skip + q.1 + k < s.length → r[k]? = s[skip + q.1 + k]?) ∧
          (0 < q.2 → skip + q.1 + q.2 ≤ s.length → r ≠ [])) l rs := by
  refine ⟨{ root := b, kids := [⟨0, skip, 0, 0, b.cap⟩] }, ?_, ?_⟩
  · simp only [SChain.next, SChain.win, Option.bind_eq_bind, Option.bind_some, SChain.offOf]
    rw [if_pos hl]
    simp
  intro l
  have key : ∀ (l : List (Nat × Nat)) (fuel : Nat) (b : SBase) (c' : SChain) (rs : List Bytes), SBase.Ok s [] b →
      ∀ cap, chainReads fuel { root := b, kids := [⟨0, skip, 0, 0, cap⟩] } 1 l = some (c', rs) →
      List.Forall₂ (fun (q : Nat × Nat) r =>
          (∀ k, k < r.length → skip + q.1 + k < s.length → r[k]? = s[skip + q.1 + k]?) ∧
          (0 < q.2 → skip + q.1 + q.2 ≤ s.length → r ≠ [])) l rs := by
    intro l
    induction l with
    | nil =>
      intro fuel b c' rs _ cap h
      simp only [chainReads, Option.some.injEq, Prod.mk.injEq] at h
      rw [← h.2]; exact .nil
    | cons q l ih =>
      intro fuel b c' rs hok cap h
      obtain ⟨off, req⟩ := q
      simp only [chainReads, SChain.R, SChain.rootOff, List.getElem?_cons_zero, Nat.not_lt_zero, if_false,
        Option.bind_eq_bind] at h
      cases h1 : b.readerR fuel (skip + off) req with
      | none => simp [h1] at h
      | some br =>
        obtain ⟨b1, r⟩ := br
        simp only [h1, Option.map_some, Option.bind_some] at h
        cases h2 : chainReads fuel { root := b1, kids := [⟨0, skip, 0, 0, cap⟩] } 1 l with
        | none => simp [h2] at h
        | some bt =>
          obtain ⟨c2, rt⟩ := bt
          simp only [h2, Option.bind_some, Option.pure_def, Option.some.injEq, Prod.mk.injEq] at h
          obtain ⟨rfl, rfl⟩ := h
          obtain ⟨h3, -, h5, h6⟩ := readerR_ok hok (Nat.zero_le _) h1
          exact .cons ⟨h5, h6⟩ (ih _ _ _ _ h3 cap h2)
  exact fun fuel c' rs hr => key l fuel b c' rs h b.cap hr

example : ((SBase.open (.file [1, 2, 3, 4, 5, 6, 7, 8]) 6).R 2 0 6).bind (fun r =>
      (SChain.next { root := r.1 } 0 4).bind (fun c =>
        (chainReads 2 c 1 [(0, 2), (2, 2), (1, 1)]).map (fun q => q.2))) = some [[5, 6], [7, 8], [6]] := by
  decide +kernel

/-- C27 fails: `Next` when no more than `skip` bytes are loaded makes the first buffer return zeros for bytes
it has not read. -/
theorem next_unloaded_fails :
    ((SBase.open (.file [1, 2, 3, 4, 5, 6, 7, 8]) 8).R 2 0 2).bind (fun r =>
      (SChain.next { root := r.1 } 0 4).bind (fun c =>
        (chainReads 2 c 0 [(0, 4)]).map (fun q => q.2))) = some [[1, 2, 0, 0]] := by
  decide +kernel

/-- C27 fails: a message longer than the capacity cannot be skipped at all (panic), whatever the stream. -/
theorem next_capacity_fails (b : SBase) (skip : Nat) (h1 : b.cap < skip) (h2 : b.len ≤ b.cap) :
    SChain.next { root := b } 0 skip = none := by
  simp only [SChain.next, SChain.win, Option.bind_eq_bind, Option.bind_some]
  rw [if_neg (by omega), if_pos h1]

end Fbs.Props
