import Verif.Props.StreamNode
import Verif.NodeLemmas
/-!
# C111: the accessors of a well-formed message in a stream see what they see in memory
-/

namespace Fbs.Props
open Fbs

/-! ## what is asked of the message -/

/-- Specification: the parts of a message.  `A`: the pieces that are read in one go; `T`: tables; `S`: structs. -/
structure Parts where
  A : Nat → Nat → Prop
  T : Name → Nat → Prop
  S : Name → Nat → Prop

/-- Not a list, no fields. -/
def NoFields (s : Sch) (nm : Name) : Prop := nm.take 2 ≠ "[]".toList ∧ s.fields nm = []

/-- Specification: the head and the table of fields of a table at `p`, whose table of fields is at `vp` and has `n` entries. -/
structure HeadLay (d : Bytes) (P : Parts) (p vp n : Nat) : Prop where
  le   : vp ≤ p
  off  : Fb.le d 4 p = p - vp
  head : P.A p 4
  len  : P.A vp 2
  size : P.A (vp + 2) 2
  num  : Fb.le d 2 vp = 4 + 2 * n
  ent  : ∀ j < n, P.A (vp + 4 + 2 * j) 2

/-- A number. -/
structure NumLay (s : Sch) (P : Parts) (nm : Name) (w q : Nat) : Prop where
  plain : NoFields s nm
  int8  : nm ≠ "Int8".toList
  pos   : 0 < w
  piece : P.A q w

/-- Where the element `j` of a list whose elements begin at `e` lies, and what it is. -/
inductive EltLay (s : Sch) (d : Bytes) (P : Parts) (t : Name) (e j : Nat) : Prop where
  | tab (g : Nat) (hg : getTypeGroup s.toReg t = some g) (hb : isFieldBasicType g = false) (hs : isFieldStruct g = false) (ha : P.A (e + 4 * j) 4)
      (ht : P.T t (e + 4 * j + Fb.le d 4 (e + 4 * j)))
  | num (g : Nat) (hg : getTypeGroup s.toReg t = some g) (hb : isFieldBasicType g = true) (hn : NumLay s P t (sizeOfName t) (e + j * sizeOfName t))
  | str (g : Nat) (hg : getTypeGroup s.toReg t = some g) (hb : isFieldBasicType g = false) (hs : isFieldStruct g = true) (hi : s.isStruct t = true)
      (hn : P.S t (e + j * sumSize (s.fields t)))

/-- A list whose length lies at `e - 4`. -/
structure ListLay (s : Sch) (d : Bytes) (P : Parts) (nm : Name) (e : Nat) : Prop where
  list  : nm.take 2 = "[]".toList
  str   : nm ≠ "[]byte".toList
  plain : s.fields nm = []
  four  : 4 ≤ e
  len   : P.A (e - 4) 4
  elts  : ∀ j < Fb.le d 4 (e - 4), EltLay s d P (nm.drop 2) e j

/-- Specification: a field at `q`. -/
inductive FieldLay (s : Sch) (d : Bytes) (P : Parts) (f : FieldT) (q : Nat) : Prop where
  | strct (h : isFieldStruct f.grp = true) (hs : P.S f.tname q)
  | union (h1 : isFieldStruct f.grp = false) (h2 : isFieldUnion f.grp = true) (hp : NoFields s f.tname) (hz : sizeOfName f.tname = 0) (ha : P.A q 4)
      (vp n : Nat) (hh : HeadLay d P (q + Fb.le d 4 q) vp n)
  | str (h1 : isFieldStruct f.grp = false) (h2 : isFieldUnion f.grp = false) (h3 : isFieldBytes f.grp = true) (hn : f.tname = "[]byte".toList)
      (hp : s.fields f.tname = []) (ha : P.A q 4) (hb : P.A (q + Fb.le d 4 q) 4)
      (hc : Fb.le d 4 (q + Fb.le d 4 q) = 0 ∨ P.A (q + Fb.le d 4 q + 4) (Fb.le d 4 (q + Fb.le d 4 q)))
  | list (h1 : isFieldStruct f.grp = false) (h2 : isFieldUnion f.grp = false) (h3 : isFieldBytes f.grp = false) (h4 : isFieldSlice f.grp = true)
      (ha : P.A q 4) (hl : ListLay s d P f.tname (q + Fb.le d 4 q + 4))
  | tab (h1 : isFieldStruct f.grp = false) (h2 : isFieldUnion f.grp = false) (h3 : isFieldBytes f.grp = false) (h4 : isFieldSlice f.grp = false)
      (h5 : isFieldTable f.grp = true) (ha : P.A q 4) (ht : P.T f.tname (q + Fb.le d 4 q))
  | num (h1 : isFieldStruct f.grp = false) (h2 : isFieldUnion f.grp = false) (h3 : isFieldBytes f.grp = false) (h4 : isFieldSlice f.grp = false)
      (h5 : isFieldTable f.grp = false) (h6 : isFieldBasicType f.grp = true) (hn : NumLay s P f.tname f.size q)

/-- Specification: a table. -/
structure TabLay (s : Sch) (d : Bytes) (P : Parts) (nm : Name) (p vp n : Nat) : Prop where
  head   : HeadLay d P p vp n
  len    : (s.fields nm).length ≤ n
  struct : s.isStruct nm = false
  list   : nm.take 2 ≠ "[]".toList
  size   : sizeOfName nm = 0
  field  : ∀ j f, (s.fields nm)[j]? = some f → Fb.le d 2 (vp + 4 + 2 * j) ≠ 0 → FieldLay s d P f (p + Fb.le d 2 (vp + 4 + 2 * j))
  /-- before a union lies its tag -/
  tag    : ∀ j f, (s.fields nm)[j + 1]? = some f → f.grp = ftUnion → ∃ g, (s.fields nm)[j]? = some g ∧ isFieldStruct g.grp = false ∧
    isFieldUnion g.grp = false ∧ isFieldBytes g.grp = false ∧ isFieldSlice g.grp = false ∧ isFieldTable g.grp = false ∧ isFieldBasicType g.grp = true ∧
    (Fb.le d 2 (vp + 4 + 2 * j) ≠ 0 → P.A (p + Fb.le d 2 (vp + 4 + 2 * j)) 1)
  /-- which tells the type of the table -/
  alt    : ∀ j f, (s.fields nm)[j + 1]? = some f → f.grp = ftUnion → Fb.le d 2 (vp + 4 + 2 * (j + 1)) ≠ 0 → ∀ a,
    ((s.unions f.tname).getD [])[((if Fb.le d 2 (vp + 4 + 2 * j) = 0 then 0 else Fb.le d 1 (p + Fb.le d 2 (vp + 4 + 2 * j))) + 255) % 256]? = some a →
      P.T a (p + Fb.le d 2 (vp + 4 + 2 * (j + 1)) + Fb.le d 4 (p + Fb.le d 2 (vp + 4 + 2 * (j + 1))))

/-- Specification: a struct. -/
structure StructLay (s : Sch) (P : Parts) (nm : Name) (q : Nat) : Prop where
  struct : s.isStruct nm = true
  list   : nm.take 2 ≠ "[]".toList
  size   : sizeOfName nm = 0
  field  : ∀ j f, (s.fields nm)[j]? = some f → f.grp ≠ ftUnion ∧
    (NumLay s P f.tname (sizeOfName f.tname) (q + sumSize ((s.fields nm).take j)) ∨ P.S f.tname (q + sumSize ((s.fields nm).take j)))

/-- Specification: a message: its pieces do not overlap, and are of less than 16 MiB. -/
structure Layout (s : Sch) (d : Bytes) (P : Parts) : Prop where
  piece : ∀ o k, P.A o k → 0 < k ∧ k < 16777216 ∧ o + k ≤ d.length
  apart : ∀ o k o' k', P.A o k → P.A o' k' → (o = o' ∧ k = k') ∨ o + k ≤ o' ∨ o' + k' ≤ o
  tab   : ∀ nm p, P.T nm p → ∃ vp n, TabLay s d P nm p vp n
  str   : ∀ nm q, P.S nm q → StructLay s P nm q

/-! ## programs and what they read -/

theorem events_bind {α β : Type} (b : Base) (f : α → Rd β) : ∀ (p : Rd α) (a : α), p.runM b = some a →
    events b (p.bind f) = events b p ++ events b (f a)
  | .ret a, a', h => by cases h; rfl
  | .panic, _, h => by cases h
  | .read pos req want k, a, h => by
    rw [Rd.runM] at h
    simp only [Option.bind_eq_bind] at h
    obtain ⟨sl, hsl, h⟩ := Option.bind_eq_some_iff.mp h
    rw [Rd.bind, events, events, hsl]
    simp only [List.cons_append]
    rw [events_bind b f _ a h]
  | .past x k, a, h => by
    rw [Rd.runM] at h
    rw [Rd.bind, events, events, List.cons_append, events_bind b f _ a h]

/-- What was read are pieces; the program reads pieces, and `Q` holds of what it gives. -/
def Tri (d sp : Bytes) (P : Parts) {α : Type} (L : List (Nat × Nat)) (p : Rd α) (Q : List (Nat × Nat) → α → Prop) : Prop :=
  (∀ q ∈ L, P.A q.1 q.2) → ∀ a, p.runM (Base.new ⟨d, sp⟩) = some a → ∃ L', (∀ q ∈ L, q ∈ L') ∧ (∀ q ∈ L', P.A q.1 q.2) ∧ Q L' a ∧
    ∀ e, Tidy d.length L' e → Tidy d.length L (events (Base.new ⟨d, sp⟩) p ++ e)

variable {s : Sch} {d sp : Bytes} {P : Parts}

theorem Tri.ret {α : Type} {L : List (Nat × Nat)} {a : α} {Q : List (Nat × Nat) → α → Prop} (h : Q L a) : Tri d sp P L (.ret a) Q := by
  intro hL a' ha
  cases ha
  exact ⟨L, fun _ h => h, hL, h, fun e he => he⟩

theorem Tri.pure {α : Type} {L : List (Nat × Nat)} {a : α} {Q : List (Nat × Nat) → α → Prop} (h : Q L a) : Tri d sp P L (Pure.pure a) Q := Tri.ret h

theorem Tri.panic {α : Type} {L : List (Nat × Nat)} {Q : List (Nat × Nat) → α → Prop} : Tri d sp P L .panic Q := by
  intro _ a ha
  cases ha

theorem Tri.bind {α β : Type} {L : List (Nat × Nat)} {p : Rd α} {f : α → Rd β} {Q : List (Nat × Nat) → α → Prop} {Q' : List (Nat × Nat) → β → Prop}
    (hp : Tri d sp P L p Q) (hf : ∀ L' a, (∀ q ∈ L, q ∈ L') → Q L' a → Tri d sp P L' (f a) Q') : Tri d sp P L (p >>= f) Q' := by
  intro hL c hc
  rw [runM_bind'] at hc
  obtain ⟨a, ha, hc⟩ := Option.bind_eq_some_iff.mp hc
  obtain ⟨L1, h1, h2, h3, h4⟩ := hp hL a ha
  obtain ⟨L2, k1, k2, k3, k4⟩ := hf L1 a h1 h3 h2 c hc
  refine ⟨L2, fun q hq => k1 q (h1 q hq), k2, k3, fun e he => ?_⟩
  show Tidy _ _ (events _ (p.bind f) ++ e)
  rw [events_bind _ _ _ a ha, List.append_assoc]
  exact h4 _ (k4 e he)

theorem Tri.mono {α : Type} {L : List (Nat × Nat)} {p : Rd α} {Q Q' : List (Nat × Nat) → α → Prop} (hp : Tri d sp P L p Q)
    (h : ∀ L' a, (∀ q ∈ L, q ∈ L') → Q L' a → Q' L' a) : Tri d sp P L p Q' := by
  intro hL a ha
  obtain ⟨L1, h1, h2, h3, h4⟩ := hp hL a ha
  exact ⟨L1, h1, h2, h _ _ h1 h3, h4⟩

/-- A piece is read. -/
theorem Tri.read {α : Type} (hl : Layout s d P) {L : List (Nat × Nat)} {o req want : Nat} {k : Bytes → Rd α} {Q : List (Nat × Nat) → α → Prop}
    (ha : P.A o req) (hw : want ≤ req) (hk : ∀ L', (∀ q ∈ L, q ∈ L') → (o, req) ∈ L' → Tri d sp P L' (k (cut d o want)) Q) :
    Tri d sp P L (.read (o : Int) req want k) Q := by
  intro hL a hr
  obtain ⟨hp1, hp2, hp3⟩ := hl.piece _ _ ha
  rw [Rd.runM] at hr
  have hri : (Base.new ⟨d, sp⟩).Ri (o : Int) req = some ((Base.new ⟨d, sp⟩).R o req) := by
    unfold Base.Ri
    rw [if_neg (by omega), Int.toNat_natCast]
  rw [hri] at hr
  simp only [Option.bind_eq_bind, Option.bind_some] at hr
  rw [new_R] at hr
  by_cases hm : (o, req) ∈ L
  · obtain ⟨L1, h1, h2, h3, h4⟩ := hk L (fun _ h => h) hm hL a hr
    refine ⟨L1, h1, h2, h3, fun e he => ?_⟩
    rw [events, hri]
    simp only [List.cons_append, Int.toNat_natCast]
    rw [new_R, Tidy]
    refine Or.inr ⟨⟨_, hm, Nat.le_refl _, ?_⟩, h4 e he⟩
    simp only
    omega
  · obtain ⟨L1, h1, h2, h3, h4⟩ := hk ((o, req) :: L) (fun _ h => List.mem_cons_of_mem _ h) List.mem_cons_self (by
      intro q hq
      rcases List.mem_cons.mp hq with rfl | hq
      · exact ha
      · exact hL q hq) a hr
    refine ⟨L1, fun q hq => h1 q (List.mem_cons_of_mem _ hq), h2, h3, fun e he => ?_⟩
    rw [events, hri]
    simp only [List.cons_append, Int.toNat_natCast]
    rw [new_R, Tidy]
    refine Or.inl ⟨hp1, hp2, hw, hp3, ?_, h4 e he⟩
    intro q hq
    rcases hl.apart _ _ _ _ (hL q hq) ha with ⟨h5, h6⟩ | h5 | h5
    · exfalso
      apply hm
      rw [← h5, ← h6]
      exact hq
    · exact Or.inr (Or.inl h5)
    · exact Or.inr (Or.inr h5)

/-- Nothing is read, at the end of what was read. -/
theorem Tri.nil {α : Type} {L : List (Nat × Nat)} {o : Nat} {k : Bytes → Rd α} {Q : List (Nat × Nat) → α → Prop}
    (ha : ∃ q ∈ L, q.1 ≤ o ∧ o ≤ q.1 + q.2) (hk : Tri d sp P L (k []) Q) : Tri d sp P L (.read (o : Int) 0 0 k) Q := by
  intro hL a hr
  rw [Rd.runM] at hr
  have hri : (Base.new ⟨d, sp⟩).Ri (o : Int) 0 = some ((Base.new ⟨d, sp⟩).R o 0) := by
    unfold Base.Ri
    rw [if_neg (by omega), Int.toNat_natCast]
  rw [hri] at hr
  simp only [Option.bind_eq_bind, Option.bind_some, List.take_zero] at hr
  obtain ⟨L1, h1, h2, h3, h4⟩ := hk hL a hr
  refine ⟨L1, h1, h2, h3, fun e he => ?_⟩
  rw [events, hri]
  simp only [List.cons_append, Int.toNat_natCast, List.take_zero]
  rw [Tidy]
  obtain ⟨q, hq, h5, h6⟩ := ha
  exact Or.inr ⟨⟨q, hq, h5, by simpa using h6⟩, h4 e he⟩

theorem Tri.past {α : Type} (hl : Layout s d P) {L : List (Nat × Nat)} {o w : Nat} {x : Int} {k : Bool → Rd α} {Q : List (Nat × Nat) → α → Prop}
    (hm : (o, w) ∈ L) (hx : x = (o : Int)) (hk : Tri d sp P L (k false) Q) : Tri d sp P L (.past x k) Q := by
  subst hx
  intro hL a hr
  obtain ⟨hp1, hp2, hp3⟩ := hl.piece _ _ (hL _ hm)
  simp only at hp1 hp2 hp3
  have hd : decide (((Base.new ⟨d, sp⟩).lenBuf : Int) ≤ (o : Int)) = false := by
    apply decide_eq_false
    rw [lenBuf_flat]
    simp only
    omega
  rw [Rd.runM, hd] at hr
  obtain ⟨L1, h1, h2, h3, h4⟩ := hk hL a hr
  refine ⟨L1, h1, h2, h3, fun e he => ?_⟩
  rw [events, hd, List.cons_append, Tidy]
  exact ⟨fun _ => ⟨_, hm, by simp only; omega⟩, h4 e he⟩

theorem cut_le {o k : Nat} (h : o + k ≤ d.length) : getLE k (cut d o k) = some (Fb.le d k o) := by
  unfold getLE cut Fb.le
  rw [List.length_take, List.length_drop, if_pos (by omega), List.take_take, Nat.min_self]

/-- A number is read. -/
theorem Tri.getN (hl : Layout s d P) {L : List (Nat × Nat)} {o k : Nat} {x : Int} (hx : x = (o : Int)) (ha : P.A o k) :
    Tri d sp P L (SHand.getN k x) (fun L' v => (o, k) ∈ L' ∧ v = Fb.le d k o) := by
  subst hx
  unfold SHand.getN
  refine Tri.read hl ha (Nat.le_refl _) fun L' h1 h2 => ?_
  rw [cut_le (hl.piece _ _ ha).2.2]
  exact Tri.ret ⟨h2, rfl⟩

theorem Tri.ite {α : Type} {c : Prop} [Decidable c] {L : List (Nat × Nat)} {p q : Rd α} {Q : List (Nat × Nat) → α → Prop}
    (hp : c → Tri d sp P L p Q) (hq : ¬ c → Tri d sp P L q Q) : Tri d sp P L (if c then p else q) Q := by
  split
  · exact hp ‹_›
  · exact hq ‹_›

/-! ## nodes -/

/-- The head and the table of fields of a table were read. -/
structure Loaded (L : List (Nat × Nat)) (p vp n : Nat) : Prop where
  head : (p, 4) ∈ L
  ent  : ∀ j < n, (vp + 4 + 2 * j, 2) ∈ L

theorem Loaded.mono {L L' : List (Nat × Nat)} {p vp n : Nat} (h : Loaded L p vp n) (hs : ∀ q ∈ L, q ∈ L') : Loaded L' p vp n :=
  ⟨hs _ h.head, fun j hj => hs _ (h.ent j hj)⟩

theorem Tri.preLoop (hl : Layout s d P) (c : Nat) : ∀ (n j : Nat) (L : List (Nat × Nat)), (∀ i < n, P.A (c + 2 * (j + i)) 2) →
    Tri d sp P L (SHand.preLoop ((c : Int) + 2 * j) n) (fun L' _ => ∀ i < n, (c + 2 * (j + i), 2) ∈ L')
  | 0, _, _, _ => Tri.ret fun i hi => by omega
  | n + 1, j, L, ha => by
    have h0 := ha 0 (by omega)
    rw [Nat.add_zero] at h0
    rw [SHand.preLoop, show ((c : Int) + 2 * j) = ((c + 2 * j : Nat) : Int) by omega]
    refine Tri.read hl h0 (Nat.le_refl _) fun L1 hL1 hm => ?_
    refine Tri.ite (fun _ => Tri.panic) fun _ => ?_
    refine Tri.bind (Tri.getN hl rfl h0) fun L2 v hL2 _ => ?_
    rw [show (((c + 2 * j : Nat) : Int) + 2) = (c : Int) + 2 * ((j + 1 : Nat) : Int) by omega]
    refine Tri.mono (Tri.preLoop hl c n (j + 1) L2 fun i hi => ?_) fun L3 _ hL3 hq i hi => ?_
    · have := ha (i + 1) (by omega)
      rwa [show j + 1 + i = j + (i + 1) by omega]
    · rcases i with _ | i
      · exact hL3 _ (hL2 _ hm)
      · have := hq i (by omega)
        rwa [show j + (i + 1) = j + 1 + i by omega]

theorem Tri.newNode (hl : Layout s d P) {L : List (Nat × Nat)} {nm : Name} {p vp n : Nat} (hh : HeadLay d P p vp n) :
    Tri d sp P L (SHand.newNode nm p) (fun L' h => Loaded L' p vp n ∧ h.name = nm ∧ h.pos = p ∧ h.size = -1) := by
  have hle := hh.le
  unfold SHand.newNode SHand.preLoad
  refine Tri.bind (Q := fun L' _ => Loaded L' p vp n) ?_ fun L1 t hL1 ht => Tri.pure ⟨ht, rfl, rfl, rfl⟩
  refine Tri.bind (Tri.getN hl rfl hh.head) fun L1 v hL1 hv => ?_
  obtain ⟨hm, rfl⟩ := hv
  rw [hh.off]
  simp only
  refine Tri.bind (Tri.getN hl (o := vp) (by omega) hh.len) fun L2 v hL2 hv => ?_
  obtain ⟨-, rfl⟩ := hv
  refine Tri.bind (Tri.getN hl (o := vp + 2) (by omega) hh.size) fun L3 v hL3 _ => ?_
  rw [hh.num, show (4 + 2 * n - 3) / 2 = n by omega]
  have hp := Tri.preLoop (sp := sp) hl (vp + 4) n 0 L3 (fun i hi => by rw [Nat.zero_add]; exact hh.ent i hi)
  rw [show (((vp + 4 : Nat) : Int) + 2 * ((0 : Nat) : Int)) = (p : Int) - ((p - vp : Nat) : Int) + 4 by omega] at hp
  refine Tri.bind hp fun L4 _ hL4 hq => Tri.pure ⟨hL4 _ (hL3 _ (hL2 _ hm)), fun j hj => ?_⟩
  have := hq j hj
  rwa [Nat.zero_add] at this

theorem Tri.vtab (hl : Layout s d P) {L : List (Nat × Nat)} {h : SHand} {vp n j : Nat} (hh : HeadLay d P h.pos vp n) (hL : Loaded L h.pos vp n) (hj : j < n) :
    Tri d sp P L (h.vtab (j : Int)) (fun _ v => v = h.pos + Fb.le d 2 (vp + 4 + 2 * j)) := by
  have hle := hh.le
  unfold SHand.vtab
  refine Tri.bind (Tri.getN hl rfl hh.head) fun L1 v hL1 hv => ?_
  obtain ⟨hm, rfl⟩ := hv
  rw [hh.off]
  have hx : (h.pos : Int) - ((h.pos - vp : Nat) : Int) + 4 + (j : Int) * 2 = ((vp + 4 + 2 * j : Nat) : Int) := by omega
  simp only
  refine Tri.past hl (hL1 _ (hL.ent j hj)) hx ?_
  rw [if_neg (by decide)]
  refine Tri.bind (Tri.getN hl hx (hh.ent j hj)) fun L2 v hL2 hv => ?_
  obtain ⟨-, rfl⟩ := hv
  refine Tri.ite (fun _ => ?_) fun _ => Tri.pure rfl
  exact Tri.bind (Tri.getN hl hx (hh.ent j hj)) fun L3 v hL3 _ => Tri.pure rfl

theorem Tri.isZero (hl : Layout s d P) {L : List (Nat × Nat)} {h : SHand} {vp n j : Nat} (hh : HeadLay d P h.pos vp n) (hL : Loaded L h.pos vp n) (hj : j < n) :
    Tri d sp P L (h.isZero (j : Int)) (fun _ v => v = decide (Fb.le d 2 (vp + 4 + 2 * j) = 0)) := by
  unfold SHand.isZero
  refine Tri.bind (Tri.vtab hl hh hL hj) fun L1 v hL1 hv => Tri.pure ?_
  subst hv
  by_cases h0 : Fb.le d 2 (vp + 4 + 2 * j) = 0
  · rw [h0]
    simp
  · rw [decide_eq_false h0, beq_eq_false_iff_ne]
    omega

theorem Tri.table (hl : Layout s d P) {L : List (Nat × Nat)} {h : SHand} {vp n j q : Nat} (hh : HeadLay d P h.pos vp n) (hL : Loaded L h.pos vp n) (hj : j < n)
    (h0 : Fb.le d 2 (vp + 4 + 2 * j) ≠ 0) (hq : q = h.pos + Fb.le d 2 (vp + 4 + 2 * j)) (ha : P.A q 4) :
    Tri d sp P L (h.table (j : Int)) (fun _ v => v = ((q + Fb.le d 4 q : Nat) : Int)) := by
  unfold SHand.table
  refine Tri.bind (Tri.vtab hl hh hL hj) fun L1 v hL1 hv => ?_
  rw [← hq] at hv
  subst hv
  refine Tri.bind (Tri.isZero hl hh (hL.mono hL1) hj) fun L2 z hL2 hz => ?_
  rw [decide_eq_false h0] at hz
  subst hz
  rw [if_neg (by decide)]
  refine Tri.bind (Tri.getN hl rfl ha) fun L3 v hL3 hv => Tri.pure ?_
  rw [hv.2]
  omega

theorem Tri.info (hl : Layout s d P) {L : List (Nat × Nat)} {h : SHand} {vp n j q : Nat} (hh : HeadLay d P h.pos vp n) (hL : Loaded L h.pos vp n) (hj : j < n)
    (h0 : Fb.le d 2 (vp + 4 + 2 * j) ≠ 0) (hq : q = h.pos + Fb.le d 2 (vp + 4 + 2 * j)) (ha : P.A q 4) (hb : P.A (q + Fb.le d 4 q) 4) :
    Tri d sp P L (h.infoPosList (j : Int)) (fun L' v => (q + Fb.le d 4 q, 4) ∈ L' ∧
      v = { pos := ((q + Fb.le d 4 q + 4 : Nat) : Int), size := 0, vlen := Fb.le d 4 (q + Fb.le d 4 q) }) := by
  unfold SHand.infoPosList
  refine Tri.bind (Tri.vtab hl hh hL hj) fun L1 v hL1 hv => ?_
  rw [← hq] at hv
  subst hv
  refine Tri.bind (Tri.isZero hl hh (hL.mono hL1) hj) fun L2 z hL2 hz => ?_
  rw [decide_eq_false h0] at hz
  subst hz
  rw [if_neg (by decide)]
  refine Tri.bind (Tri.getN hl rfl ha) fun L3 v hL3 hv => ?_
  obtain ⟨-, rfl⟩ := hv
  refine Tri.bind (Tri.getN hl (o := v + Fb.le d 4 v) (by omega) hb) fun L4 w hL4 hw => Tri.pure ?_
  obtain ⟨hm, rfl⟩ := hw
  refine ⟨hm, ?_⟩
  congr 1

/-- A node of a message, of whose pieces `L` were read. -/
inductive GoodNode (s : Sch) (d : Bytes) (P : Parts) (L : List (Nat × Nat)) (h : SHand) : Prop where
  | tab (vp n : Nat) (ht : TabLay s d P h.name h.pos vp n) (hz : h.size = -1) (hL : Loaded L h.pos vp n)
  | strct (hs : StructLay s P h.name h.pos) (hz : h.size = -1)
  | num (hn : NumLay s P h.name h.width h.pos)
  | list (e : Nat) (he : h.vi.pos = (e : Int)) (hl : ListLay s d P h.name e)
  | str (k : Nat) (hn : h.name = "[]byte".toList) (hp : s.fields h.name = []) (hk : h.size = (k : Int))
      (hL : ∃ q ∈ L, q.1 ≤ h.pos ∧ h.pos ≤ q.1 + q.2) (hc : k = 0 ∨ P.A h.pos k)
  | opaq (hp : NoFields s h.name) (hw : h.width = 0)

theorem GoodNode.mono {L L' : List (Nat × Nat)} {h : SHand} (hg : GoodNode s d P L h) (hs : ∀ q ∈ L, q ∈ L') : GoodNode s d P L' h := by
  cases hg with
  | tab vp n ht hz hL => exact .tab vp n ht hz (hL.mono hs)
  | strct hs hz => exact .strct hs hz
  | num hn => exact .num hn
  | list e he hl => exact .list e he hl
  | str k hn hp hk hL hc => obtain ⟨q, hq, hh⟩ := hL; exact .str k hn hp hk ⟨q, hs q hq, hh⟩ hc
  | opaq hp hw => exact .opaq hp hw

theorem width_neg {h : SHand} (hz : h.size = -1) : h.width = sizeOfName h.name := by
  unfold SHand.width
  rw [if_neg (by omega)]

/-- `FieldAt` of a table. -/
theorem Tri.fieldAtTab (hl : Layout s d P) {L : List (Nat × Nat)} {h : SHand} {vp n j : Nat} {f : FieldT} (ht : TabLay s d P h.name h.pos vp n)
    (hL : Loaded L h.pos vp n) (hf : (s.fields h.name)[j]? = some f) :
    Tri d sp P L (h.fieldAt s (j : Int)) (fun L' r => (Fb.le d 2 (vp + 4 + 2 * j) = 0 → r = none) ∧ (∀ x ∈ r, GoodNode s d P L' x) ∧
      (isFieldStruct f.grp = false → isFieldUnion f.grp = true → ∀ x ∈ r, ∀ a vp' n', TabLay s d P a (h.pos + Fb.le d 2 (vp + 4 + 2 * j) + Fb.le d 4 (h.pos + Fb.le d 2 (vp + 4 + 2 * j))) vp' n' →
        GoodNode s d P L' { x with name := a })) := by
  have hjl : j < (s.fields h.name).length := (List.getElem?_eq_some_iff.mp hf).1
  have hj : j < n := Nat.lt_of_lt_of_le hjl ht.len
  have hft : h.fieldT s (j : Int) = f := by
    unfold SHand.fieldT
    rw [if_neg (by omega), Int.toNat_natCast, hf]
    rfl
  unfold SHand.fieldAt
  simp only [hft]
  rw [if_neg (by rw [ht.struct]; decide)]
  refine Tri.bind (Tri.isZero hl ht.head hL hj) fun L1 z hL1 hz => ?_
  have hLL := hL.mono hL1
  by_cases h0 : Fb.le d 2 (vp + 4 + 2 * j) = 0
  · rw [decide_eq_true h0] at hz
    subst hz
    rw [if_pos rfl]
    refine Tri.pure ⟨fun _ => rfl, fun x hx => ?_, fun _ _ x hx => ?_⟩ <;> cases hx
  rw [decide_eq_false h0] at hz
  subst hz
  rw [if_neg (by decide)]
  have hlay := ht.field j f hf h0
  generalize hq : h.pos + Fb.le d 2 (vp + 4 + 2 * j) = q at hlay
  cases hlay with
  | strct h1 hs =>
    rw [if_pos h1]
    refine Tri.bind (Tri.vtab hl ht.head hLL hj) fun L2 v hL2 hv => Tri.pure ⟨fun hh => absurd hh h0, fun x hx => ?_, fun hh => ?_⟩
    · cases hx
      rw [hv, hq]
      exact .strct (hl.str _ _ hs) rfl
    · rw [h1] at hh; cases hh
  | union h1 h2 hp hz ha vp' n' hh =>
    rw [if_neg (by rw [h1]; decide), if_pos h2]
    refine Tri.bind (Tri.table hl ht.head hLL hj h0 hq.symm ha) fun L2 v hL2 hv => ?_
    subst hv
    rw [if_neg (by omega), Int.toNat_natCast]
    refine Tri.bind (Tri.newNode hl hh) fun L3 x hL3 hx => Tri.pure ⟨fun hh => absurd hh h0, fun y hy => ?_, fun _ _ y hy a vp'' n'' hta => ?_⟩
    · cases hy
      obtain ⟨-, e1, e2, e3⟩ := hx
      refine .opaq (by rw [e1]; exact hp) ?_
      rw [width_neg e3, e1, hz]
    · cases hy
      obtain ⟨e0, e1, e2, e3⟩ := hx
      have hvp : vp'' = vp' := by
        have a1 := hh.off
        have a2 := hta.head.off
        have a3 := hh.le
        have a4 := hta.head.le
        omega
      subst hvp
      have hn' : n'' = n' := by
        have a1 := hh.num
        have a2 := hta.head.num
        omega
      subst hn'
      refine .tab vp'' n'' ?_ e3 ?_
      · rw [e2]; exact hta
      · rw [e2]; exact e0
  | str h1 h2 h3 hn hp ha hb hc =>
    rw [if_neg (by rw [h1]; decide), if_neg (by rw [h2]; decide), if_pos h3]
    refine Tri.bind (Tri.info hl ht.head hLL hj h0 hq.symm ha hb) fun L2 v hL2 hv => Tri.pure ⟨fun hh => absurd hh h0, fun x hx => ?_, fun _ hh => ?_⟩
    · cases hx
      obtain ⟨hm, rfl⟩ := hv
      refine .str (Fb.le d 4 (q + Fb.le d 4 q)) hn hp rfl ⟨_, hm, ?_⟩ ?_
      · simp only [Int.toNat_natCast]
        omega
      · simp only [Int.toNat_natCast]
        exact hc
    · rw [h2] at hh; cases hh
  | list h1 h2 h3 h4 ha hlist =>
    rw [if_neg (by rw [h1]; decide), if_neg (by rw [h2]; decide), if_neg (by rw [h3]; decide), if_pos h4]
    have hb := hlist.len
    rw [Nat.add_sub_cancel] at hb
    refine Tri.bind (Tri.info hl ht.head hLL hj h0 hq.symm ha hb) fun L2 v hL2 hv => ?_
    refine Tri.bind (Tri.newNode hl ht.head) fun L3 x hL3 hx => Tri.pure ⟨fun hh => absurd hh h0, fun y hy => ?_, fun _ hh => ?_⟩
    · cases hy
      obtain ⟨-, rfl⟩ := hv
      obtain ⟨-, e1, e2, e3⟩ := hx
      refine .list (q + Fb.le d 4 q + 4) rfl ?_
      simp only [e1]
      exact hlist
    · rw [h2] at hh; cases hh
  | tab h1 h2 h3 h4 h5 ha htt =>
    rw [if_neg (by rw [h1]; decide), if_neg (by rw [h2]; decide), if_neg (by rw [h3]; decide), if_neg (by rw [h4]; decide), if_pos h5]
    refine Tri.bind (Tri.table hl ht.head hLL hj h0 hq.symm ha) fun L2 v hL2 hv => ?_
    subst hv
    rw [if_neg (by omega), Int.toNat_natCast]
    obtain ⟨vp', n', ht'⟩ := hl.tab _ _ htt
    refine Tri.bind (Tri.newNode hl ht'.head) fun L3 x hL3 hx => Tri.pure ⟨fun hh => absurd hh h0, fun y hy => ?_, fun _ hh => ?_⟩
    · cases hy
      obtain ⟨e0, e1, e2, e3⟩ := hx
      refine .tab vp' n' ?_ e3 ?_
      · rw [e1, e2]; exact ht'
      · rw [e2]; exact e0
    · rw [h2] at hh; cases hh
  | num h1 h2 h3 h4 h5 h6 hn =>
    rw [if_neg (by rw [h1]; decide), if_neg (by rw [h2]; decide), if_neg (by rw [h3]; decide), if_neg (by rw [h4]; decide), if_neg (by rw [h5]; decide), if_pos h6]
    refine Tri.bind (Tri.vtab hl ht.head hLL hj) fun L2 v hL2 hv => Tri.pure ⟨fun hh => absurd hh h0, fun x hx => ?_, fun _ hh => ?_⟩
    · cases hx
      rw [hv, hq]
      refine .num ?_
      unfold SHand.width
      simp only
      rw [if_pos (by omega), Int.toNat_natCast]
      exact hn
    · rw [h2] at hh; cases hh

/-- `FieldAt` of a field of a node of the message. -/
theorem Tri.fieldAt (hl : Layout s d P) {L : List (Nat × Nat)} {h : SHand} (hg : GoodNode s d P L h) {i : Nat} (hi : i < (s.fields h.name).length) :
    Tri d sp P L (h.fieldAt s (i : Int)) (fun L' r => ∀ x ∈ r, GoodNode s d P L' x) := by
  obtain ⟨f, hf⟩ : ∃ f, (s.fields h.name)[i]? = some f := ⟨_, List.getElem?_eq_getElem hi⟩
  have hft : h.fieldT s (i : Int) = f := by
    unfold SHand.fieldT
    rw [if_neg (by omega), Int.toNat_natCast, hf]
    rfl
  cases hg with
  | tab vp n ht hz hL => exact Tri.mono (Tri.fieldAtTab hl ht hL hf) fun _ _ _ h => h.2.1
  | strct hs hz =>
    unfold SHand.fieldAt
    simp only [hft]
    rw [if_pos hs.struct, Int.toNat_natCast]
    refine Tri.pure fun x hx => ?_
    cases hx
    rcases (hs.field i f hf).2 with hh | hh
    · refine .num ?_
      rw [width_neg rfl]
      exact hh
    · exact .strct (hl.str _ _ hh) rfl
  | num hn => rw [hn.plain.2] at hi; exact absurd hi (Nat.not_lt_zero _)
  | list e he hll => rw [hll.plain] at hi; exact absurd hi (Nat.not_lt_zero _)
  | str k hn hp hk hL hc => rw [hp] at hi; exact absurd hi (Nat.not_lt_zero _)
  | opaq hp hw => rw [hp.2] at hi; exact absurd hi (Nat.not_lt_zero _)

/-- The tag of a union. -/
theorem Tri.tag (hl : Layout s d P) {L : List (Nat × Nat)} {h : SHand} {vp n j : Nat} {g : FieldT} (ht : TabLay s d P h.name h.pos vp n)
    (hL : Loaded L h.pos vp n) (hf : (s.fields h.name)[j]? = some g) (h1 : isFieldStruct g.grp = false) (h2 : isFieldUnion g.grp = false)
    (h3 : isFieldBytes g.grp = false) (h4 : isFieldSlice g.grp = false) (h5 : isFieldTable g.grp = false) (h6 : isFieldBasicType g.grp = true)
    (ha : Fb.le d 2 (vp + 4 + 2 * j) ≠ 0 → P.A (h.pos + Fb.le d 2 (vp + 4 + 2 * j)) 1) :
    Tri d sp P L (do let f ← h.fieldAt s (j : Int); SHand.scalar 1 f)
      (fun _ t => t = if Fb.le d 2 (vp + 4 + 2 * j) = 0 then 0 else Fb.le d 1 (h.pos + Fb.le d 2 (vp + 4 + 2 * j))) := by
  have hj : j < n := Nat.lt_of_lt_of_le (List.getElem?_eq_some_iff.mp hf).1 ht.len
  have hft : h.fieldT s (j : Int) = g := by
    unfold SHand.fieldT
    rw [if_neg (by omega), Int.toNat_natCast, hf]
    rfl
  refine Tri.bind (Q := fun _ r => if Fb.le d 2 (vp + 4 + 2 * j) = 0 then r = none else ∃ x, r = some x ∧ x.pos = h.pos + Fb.le d 2 (vp + 4 + 2 * j)) ?_ ?_
  · unfold SHand.fieldAt
    simp only [hft]
    rw [if_neg (by rw [ht.struct]; decide)]
    refine Tri.bind (Tri.isZero hl ht.head hL hj) fun L1 z hL1 hz => ?_
    by_cases h0 : Fb.le d 2 (vp + 4 + 2 * j) = 0
    · rw [decide_eq_true h0] at hz
      subst hz
      rw [if_pos rfl]
      exact Tri.pure (by rw [if_pos h0])
    rw [decide_eq_false h0] at hz
    subst hz
    rw [if_neg (by decide)]
    rw [if_neg (by rw [h1]; decide), if_neg (by rw [h2]; decide), if_neg (by rw [h3]; decide), if_neg (by rw [h4]; decide), if_neg (by rw [h5]; decide), if_pos h6]
    exact Tri.bind (Tri.vtab hl ht.head (hL.mono hL1) hj) fun L2 v hL2 hv => Tri.pure (by rw [if_neg h0]; exact ⟨_, rfl, hv⟩)
  · intro L1 r hL1 hr
    by_cases h0 : Fb.le d 2 (vp + 4 + 2 * j) = 0
    · rw [if_pos h0] at hr
      subst hr
      rw [if_pos h0]
      exact Tri.ret rfl
    · rw [if_neg h0] at hr
      obtain ⟨x, rfl, hx⟩ := hr
      rw [if_neg h0]
      unfold SHand.scalar
      exact Tri.mono (Tri.getN hl (by rw [hx]) (ha h0)) fun _ _ _ h => h.2

theorem rd_bind_assoc {α β γ : Type} (f : α → Rd β) (g : β → Rd γ) : ∀ p : Rd α, (p.bind f).bind g = p.bind fun a => (f a).bind g
  | .ret a => rfl
  | .panic => rfl
  | .read pos req want k => by
    rw [Rd.bind, Rd.bind, Rd.bind]
    congr 1
    funext x
    exact rd_bind_assoc f g (k x)
  | .past x k => by
    rw [Rd.bind, Rd.bind, Rd.bind]
    congr 1
    funext y
    exact rd_bind_assoc f g (k y)

theorem Tri.followUnion (hl : Layout s d P) {L : List (Nat × Nat)} {h : SHand} (hg : GoodNode s d P L h) {j : Nat} (hi : j + 1 < (s.fields h.name).length)
    (hu : (h.fieldT s ((j + 1 : Nat) : Int)).grp = ftUnion) :
    Tri d sp P L (h.followUnion s ((j + 1 : Nat) : Int)) (fun L' r => ∀ x ∈ r.bind (·.2), GoodNode s d P L' x) := by
  obtain ⟨f, hf⟩ : ∃ f, (s.fields h.name)[j + 1]? = some f := ⟨_, List.getElem?_eq_getElem hi⟩
  have hft : h.fieldT s ((j + 1 : Nat) : Int) = f := by
    unfold SHand.fieldT
    rw [if_neg (by omega), Int.toNat_natCast, hf]
    rfl
  rw [hft] at hu
  have hpl : ¬ s.fields h.name = [] := by
    intro hh
    rw [hh] at hi
    exact absurd hi (Nat.not_lt_zero _)
  cases hg with
  | tab vp n ht hz hL =>
    obtain ⟨g, hgf, h1, h2, h3, h4, h5, h6, ha⟩ := ht.tag j f hf hu
    have halt := ht.alt j f hf hu
    unfold SHand.followUnion
    rw [show ((j + 1 : Nat) : Int) - 1 = (j : Int) by omega, hft]
    show Tri d sp P L ((h.fieldAt s (j : Int)).bind fun f' => (SHand.scalar 1 f').bind _) _
    rw [← rd_bind_assoc]
    refine Tri.bind (Tri.tag hl ht hL hgf h1 h2 h3 h4 h5 h6 ha) fun L1 t hL1 htg => ?_
    subst htg
    cases hal : ((s.unions f.tname).getD [])[((if Fb.le d 2 (vp + 4 + 2 * j) = 0 then 0 else Fb.le d 1 (h.pos + Fb.le d 2 (vp + 4 + 2 * j))) + 255) % 256]? with
    | none =>
      simp only [hal]
      refine Tri.pure fun x hx => ?_
      cases hx
    | some a =>
      simp only [hal]
      refine Tri.bind (Tri.fieldAtTab hl ht (hL.mono hL1) hf) fun L2 u hL2 hu2 => Tri.pure fun x hx => ?_
      obtain ⟨q1, -, q3⟩ := hu2
      cases u with
      | none => cases hx
      | some y =>
        cases hx
        have h0 : Fb.le d 2 (vp + 4 + 2 * (j + 1)) ≠ 0 := fun hh => by cases q1 hh
        obtain ⟨vp', n', ht'⟩ := hl.tab _ _ (halt h0 a hal)
        exact q3 (by rw [hu]; decide) (by rw [hu]; decide) y rfl a vp' n' ht'
  | strct hs hz => exact absurd hu (hs.field _ f hf).1
  | num hn => exact absurd hn.plain.2 hpl
  | list e he hll => exact absurd hll.plain hpl
  | str k hn hp hk hL hc => exact absurd hp hpl
  | opaq hp hw => exact absurd hp.2 hpl

theorem Tri.listLen (hl : Layout s d P) {L : List (Nat × Nat)} {h : SHand} {e : Nat} (he : h.vi.pos = (e : Int)) (hll : ListLay s d P h.name e) :
    Tri d sp P L h.listLen (fun _ v => v = Fb.le d 4 (e - 4)) := by
  have := hll.four
  unfold SHand.listLen
  exact Tri.mono (Tri.getN hl (o := e - 4) (by omega) hll.len) fun _ _ _ h => h.2

theorem Tri.at (hl : Layout s d P) {L : List (Nat × Nat)} {h : SHand} {e : Nat} (he : h.vi.pos = (e : Int)) (hll : ListLay s d P h.name e) (i : Int) :
    Tri d sp P L (h.at_ s i) (fun L' r => ∀ x, r = .ok x → GoodNode s d P L' x) := by
  have hlen : ¬ h.name.length < 2 := by
    intro hh
    have := congrArg List.length hll.list
    rw [List.length_take] at this
    have e2 : "[]".toList.length = 2 := rfl
    omega
  have his : h.isList = some true := by
    unfold SHand.isList
    rw [if_neg (by intro hh; rw [hh.1] at hlen; exact hlen (by decide)), if_neg hlen, decide_eq_true hll.list]
  unfold SHand.at_
  rw [his]
  refine Tri.bind (Q := fun _ b => b = true) (Tri.ret rfl) fun L1 b hL1 hb => ?_
  subst hb
  rw [if_neg (by decide)]
  refine Tri.bind (Tri.listLen hl he hll) fun L2 n hL2 hn => ?_
  subst hn
  refine Tri.ite (fun _ => Tri.pure fun x hx => by cases hx) fun hi => ?_
  rw [if_neg hlen]
  obtain ⟨j, rfl⟩ : ∃ j : Nat, i = (j : Int) := ⟨i.toNat, by omega⟩
  have hel := hll.elts j (by omega)
  cases hel with
  | tab g hg hb hs ha ht =>
    simp only [hg]
    refine Tri.bind (Q := fun _ b => b = g) (Tri.ret rfl) fun L3 b hL3 hb' => ?_
    subst hb'
    rw [hb, hs, if_neg (by decide)]
    unfold SHand.atTable
    refine Tri.bind (Tri.getN hl (o := e + 4 * j) (by omega) ha) fun L4 v hL4 hv => ?_
    obtain ⟨-, rfl⟩ := hv
    obtain ⟨vp, n, htl⟩ := hl.tab _ _ ht
    have hpos : h.vi.pos + (j : Int) * 4 + (Fb.le d 4 (e + 4 * j) : Int) = ((e + 4 * j + Fb.le d 4 (e + 4 * j) : Nat) : Int) := by omega
    simp only [hpos, Int.toNat_natCast]
    refine Tri.read hl htl.head.head (Nat.le_refl _) fun L5 hL5 _ => ?_
    refine Tri.ite (fun _ => Tri.ret fun x hx => by cases hx) fun _ => ?_
    refine Tri.bind (Tri.newNode hl htl.head) fun L6 x hL6 hx => Tri.pure fun y hy => ?_
    cases hy
    obtain ⟨e0, e1, e2, e3⟩ := hx
    refine .tab vp n ?_ e3 ?_
    · rw [e1, e2]; exact htl
    · rw [e2]; exact e0
  | num g hg hb hn =>
    simp only [hg]
    refine Tri.bind (Q := fun _ b => b = g) (Tri.ret rfl) fun L3 b hL3 hb' => ?_
    subst hb'
    rw [hb, Bool.true_or, if_pos rfl]
    have hds : CNode.directSize s (h.name.drop 2) = some (some (sizeOfName (h.name.drop 2))) := by
      unfold CNode.directSize
      rw [hg]
      simp only [Option.bind_eq_bind, Option.bind_some]
      rw [if_pos hb]
      rfl
    rw [hds]
    refine Tri.bind (Q := fun _ b => b = some (sizeOfName (h.name.drop 2))) (Tri.ret rfl) fun L4 b hL4 hb' => ?_
    subst hb'
    refine Tri.bind (Q := fun _ b => b = sizeOfName (h.name.drop 2)) (Tri.ret rfl) fun L5 b hL5 hb' => ?_
    subst hb'
    have hptr : (if (j : Int) > 0 then h.vi.pos + (j : Int) * ((sizeOfName (h.name.drop 2) : Nat) : Int) else h.vi.pos + (j : Int) * 4) =
        ((e + j * sizeOfName (h.name.drop 2) : Nat) : Int) := by
      rw [he]
      by_cases hj : j = 0
      · subst hj
        simp
      · rw [if_pos (by omega)]
        push_cast
        rfl
    rw [hptr, if_neg (by omega), Int.toNat_natCast]
    refine Tri.pure fun x hx => ?_
    cases hx
    refine .num ?_
    rw [width_neg rfl]
    exact hn
  | str g hg hb hs hi' hn =>
    simp only [hg]
    refine Tri.bind (Q := fun _ b => b = g) (Tri.ret rfl) fun L3 b hL3 hb' => ?_
    subst hb'
    rw [hb, hs, Bool.false_or, if_pos rfl]
    have hds : CNode.directSize s (h.name.drop 2) = some (some (sumSize (s.fields (h.name.drop 2)))) := by
      unfold CNode.directSize
      rw [hg]
      simp only [Option.bind_eq_bind, Option.bind_some]
      rw [if_neg (by rw [hb]; decide), if_pos hi']
      rfl
    rw [hds]
    refine Tri.bind (Q := fun _ b => b = some (sumSize (s.fields (h.name.drop 2)))) (Tri.ret rfl) fun L4 b hL4 hb' => ?_
    subst hb'
    refine Tri.bind (Q := fun _ b => b = sumSize (s.fields (h.name.drop 2))) (Tri.ret rfl) fun L5 b hL5 hb' => ?_
    subst hb'
    have hptr : (if (j : Int) > 0 then h.vi.pos + (j : Int) * ((sumSize (s.fields (h.name.drop 2)) : Nat) : Int) else h.vi.pos + (j : Int) * 4) =
        ((e + j * sumSize (s.fields (h.name.drop 2)) : Nat) : Int) := by
      rw [he]
      by_cases hj : j = 0
      · subst hj
        simp
      · rw [if_pos (by omega)]
        push_cast
        rfl
    rw [hptr, if_neg (by omega), Int.toNat_natCast]
    refine Tri.pure fun x hx => ?_
    cases hx
    exact .strct (hl.str _ _ hn) rfl

/-! ## calls -/

theorem nodeOf_mem {env : List (Option SHand)} {x : Nat} {h : SHand} (hx : nodeOf env x = some h) : some h ∈ env := by
  unfold nodeOf at hx
  cases he : env[x]? with
  | none => rw [he] at hx; cases hx
  | some o =>
    rw [he] at hx
    cases hx
    exact List.mem_of_getElem? he

/-- The nodes obtained are nodes of the message. -/
def GoodEnv (s : Sch) (d : Bytes) (P : Parts) (L : List (Nat × Nat)) (env : List (Option SHand)) : Prop := ∀ h, some h ∈ env → GoodNode s d P L h

theorem GoodEnv.mono {L L' : List (Nat × Nat)} {env : List (Option SHand)} (h : GoodEnv s d P L env) (hs : ∀ q ∈ L, q ∈ L') : GoodEnv s d P L' env :=
  fun x hx => (h x hx).mono hs

theorem GoodEnv.snoc {L : List (Nat × Nat)} {env : List (Option SHand)} {r : Option SHand} (h : GoodEnv s d P L env) (hr : ∀ x ∈ r, GoodNode s d P L x) :
    GoodEnv s d P L (env ++ [r]) := by
  intro x hx
  rcases List.mem_append.mp hx with hx | hx
  · exact h x hx
  · rw [List.mem_singleton] at hx
    exact hr x hx.symm

theorem byte_list : "[]byte".toList.take 2 = "[]".toList := rfl

theorem Tri.calls (hl : Layout s d P) : ∀ (l : List Call) (env : List (Option SHand)) (L : List (Nat × Nat)), GoodEnv s d P L env →
    Tri d sp P L (runCalls s l env) (fun _ _ => True)
  | [], _, _, _ => Tri.ret trivial
  | .field x i :: l, env, L, hE => by
    rw [runCalls]
    cases hx : nodeOf env x with
    | none => exact Tri.panic
    | some h =>
      have hg := hE h (nodeOf_mem hx)
      refine Tri.ite (fun hi => ?_) fun _ => Tri.panic
      refine Tri.bind (Tri.fieldAt hl hg hi) fun L1 r hL1 hr => ?_
      exact Tri.bind (Tri.calls hl l _ L1 ((hE.mono hL1).snoc hr)) fun _ _ _ _ => Tri.pure trivial
  | .union x i :: l, env, L, hE => by
    rw [runCalls]
    cases hx : nodeOf env x with
    | none => exact Tri.panic
    | some h =>
      have hg := hE h (nodeOf_mem hx)
      refine Tri.ite (fun hi => ?_) fun _ => Tri.panic
      obtain ⟨j, rfl⟩ : ∃ j, i = j + 1 := ⟨i - 1, by omega⟩
      refine Tri.bind (Tri.followUnion hl hg hi.2.1 hi.2.2) fun L1 r hL1 hr => ?_
      exact Tri.bind (Tri.calls hl l _ L1 ((hE.mono hL1).snoc hr)) fun _ _ _ _ => Tri.pure trivial
  | .elem x j :: l, env, L, hE => by
    rw [runCalls]
    cases hx : nodeOf env x with
    | none => exact Tri.panic
    | some h =>
      have hg := hE h (nodeOf_mem hx)
      refine Tri.ite (fun hi => ?_) fun _ => Tri.panic
      cases hg with
      | tab vp n ht hz hL => exact absurd hi.1 ht.list
      | strct hs hz => exact absurd hi.1 hs.list
      | num hn => exact absurd hi.1 hn.plain.1
      | str k hn hp hk hL hc => exact absurd hn hi.2
      | opaq hp hw => exact absurd hi.1 hp.1
      | list e he hll =>
        refine Tri.bind (Tri.at hl he hll j) fun L1 r hL1 hr => ?_
        refine Tri.bind (Tri.calls hl l _ L1 ((hE.mono hL1).snoc ?_)) fun _ _ _ _ => Tri.pure trivial
        intro y hy
        cases r with
        | error _ => cases hy
        | ok z => cases hy; exact hr _ rfl
  | .count x :: l, env, L, hE => by
    rw [runCalls]
    cases hx : nodeOf env x with
    | none => exact Tri.panic
    | some h =>
      have hg := hE h (nodeOf_mem hx)
      refine Tri.ite (fun hi => ?_) fun _ => Tri.panic
      cases hg with
      | tab vp n ht hz hL => exact absurd hi.1 ht.list
      | strct hs hz => exact absurd hi.1 hs.list
      | num hn => exact absurd hi.1 hn.plain.1
      | str k hn hp hk hL hc => exact absurd hn hi.2
      | opaq hp hw => exact absurd hi.1 hp.1
      | list e he hll =>
        refine Tri.bind (Tri.listLen hl he hll) fun L1 r hL1 hr => ?_
        exact Tri.bind (Tri.calls hl l _ L1 (hE.mono hL1)) fun _ _ _ _ => Tri.pure trivial
  | .num x :: l, env, L, hE => by
    rw [runCalls]
    cases hx : nodeOf env x with
    | none => exact Tri.panic
    | some h =>
      have hg := hE h (nodeOf_mem hx)
      refine Tri.ite (fun hi => ?_) fun _ => Tri.panic
      cases hg with
      | tab vp n ht hz hL => rw [width_neg hz, ht.size] at hi; exact absurd hi.2 (Nat.lt_irrefl 0)
      | strct hs hz => rw [width_neg hz, hs.size] at hi; exact absurd hi.2 (Nat.lt_irrefl 0)
      | opaq hp hw => rw [hw] at hi; exact absurd hi.2 (Nat.lt_irrefl 0)
      | list e he hll => exact absurd hll.list hi.1
      | str k hn hp hk hL hc => rw [hn] at hi; exact absurd byte_list hi.1
      | num hn =>
        rw [if_neg hn.int8]
        refine Tri.bind (Q := fun _ _ => True) ?_ fun L1 r hL1 hr => Tri.bind (Tri.calls hl l _ L1 (hE.mono hL1)) fun _ _ _ _ => Tri.pure trivial
        unfold SHand.scalar
        exact Tri.mono (Tri.getN hl rfl hn.piece) fun _ _ _ _ => trivial
  | .str x :: l, env, L, hE => by
    rw [runCalls]
    cases hx : nodeOf env x with
    | none => exact Tri.panic
    | some h =>
      have hg := hE h (nodeOf_mem hx)
      refine Tri.ite (fun hi => ?_) fun _ => Tri.panic
      have htk : h.name.take 2 = "[]".toList := by rw [hi]; exact byte_list
      cases hg with
      | tab vp n ht hz hL => exact absurd htk ht.list
      | strct hs hz => exact absurd htk hs.list
      | num hn => exact absurd htk hn.plain.1
      | opaq hp hw => exact absurd htk hp.1
      | list e he hll => exact absurd hi hll.str
      | str k hn hp hk hL hc =>
        refine Tri.bind (Q := fun _ _ => True) ?_ fun L1 r hL1 hr => Tri.bind (Tri.calls hl l _ L1 (hE.mono hL1)) fun _ _ _ _ => Tri.pure trivial
        unfold SHand.bytes
        simp only
        rw [if_neg (by omega), hk, Int.toNat_natCast]
        rcases hc with rfl | hc
        · exact Tri.nil hL (Tri.ite (fun _ => Tri.panic) fun _ => Tri.ret trivial)
        · exact Tri.read hl hc (Nat.le_refl _) fun _ _ _ => Tri.ite (fun _ => Tri.panic) fun _ => Tri.ret trivial

/-- C111: whatever calls are made on a well-formed message, opened from a stream they give what they give in memory. -/
theorem stream_calls_partial (hl : Layout s d P) {root : Name} (h0 : P.A 0 4) (hr : P.T root (Fb.le d 4 0)) (cap : Nat) (l : List Call) (o : List Seen)
    (hm : (openCalls s root l).runM (Base.new ⟨d, sp⟩) = some o) : ∃ b', (openCalls s root l).runS 2 true (SBase.open (.file d) cap) = some (b', o) := by
  refine stream_program_partial d sp cap _ o hm ?_
  have ht : Tri d sp P [] (openCalls s root l) (fun _ _ => True) := by
    unfold openCalls SHand.openRoot
    obtain ⟨vp, n, htl⟩ := hl.tab _ _ hr
    refine Tri.bind (Q := fun L' h => GoodNode s d P L' h) ?_ fun L1 h hL1 hg => Tri.calls hl l _ L1 ?_
    · refine Tri.bind (Tri.getN hl (o := 0) rfl h0) fun L1 v hL1 hv => ?_
      obtain ⟨-, rfl⟩ := hv
      refine Tri.mono (Tri.newNode hl htl.head) fun L2 x hL2 hx => ?_
      obtain ⟨e0, e1, e2, e3⟩ := hx
      refine .tab vp n ?_ e3 ?_
      · rw [e1, e2]; exact htl
      · rw [e2]; exact e0
    · intro x hx
      rw [List.mem_singleton] at hx
      cases hx
      exact hg
  obtain ⟨L', -, -, -, h4⟩ := ht (fun _ h => absurd h (List.not_mem_nil)) o hm
  have := h4 [] trivial
  rwa [List.append_nil] at this

/-! ## a message -/

def stSch : Sch where
  fields := fun n => if n = "RR".toList then [⟨"Uint32".toList, ftBasic4, some .uint32⟩, ⟨"[]byte".toList, ftSlice ||| ftBasic1, none⟩,
      ⟨"Byte".toList, ftBasic1, some .byte⟩, ⟨"UU".toList, ftUnion, none⟩, ⟨"[]BB".toList, ftSlice ||| ftTable, none⟩]
    else if n = "BB".toList then [⟨"Int16".toList, ftBasic2, some .int16⟩] else []
  unions := fun n => if n = "UU".toList then some ["BB".toList] else none

/-- A table with a number, a string, a union and a list of two tables. -/
def stMsg : Bytes := [18, 0, 0, 0, 14, 0, 22, 0, 4, 0, 8, 0, 12, 0, 14, 0, 18, 0, 14, 0, 0, 0, 7, 0, 0, 0, 14, 0, 0, 0, 1, 0, 22, 0, 0, 0, 24, 0, 0, 0, 2, 0, 0, 0, 104, 105, 0, 0, 6, 0, 6, 0, 4, 0, 6, 0, 0, 0, 11, 0, 2, 0, 0, 0, 8, 0, 0, 0, 10, 0, 0, 0, 24, 0, 0, 0, 12, 0, 30, 0, 0, 0, 13, 0]

def stPieces : List (Nat × Nat) := [(0, 4), (4, 2), (6, 2), (8, 2), (10, 2), (12, 2), (14, 2), (16, 2), (18, 4), (22, 4), (26, 4), (30, 1), (32, 4), (36, 4),
  (40, 4), (44, 2), (48, 2), (50, 2), (52, 2), (54, 4), (58, 2), (60, 4), (64, 4), (68, 4), (72, 4), (76, 2), (78, 4), (82, 2)]

def stParts : Parts where
  A := fun o k => (o, k) ∈ stPieces
  T := fun nm p => (nm, p) ∈ [("RR".toList, 18), ("BB".toList, 54), ("BB".toList, 72), ("BB".toList, 78)]
  S := fun _ _ => False

instance : ∀ o k, Decidable (stParts.A o k) := fun o k => inferInstanceAs (Decidable ((o, k) ∈ stPieces))
instance : ∀ nm p, Decidable (stParts.T nm p) := fun nm p => inferInstanceAs (Decidable ((nm, p) ∈ [("RR".toList, 18), ("BB".toList, 54), ("BB".toList, 72), ("BB".toList, 78)]))

theorem st_BB {p : Nat} (hp : p = 54 ∨ p = 72 ∨ p = 78) : TabLay stSch stMsg stParts "BB".toList p 48 1 where
  head := by
    rcases hp with rfl | rfl | rfl <;> exact ⟨by decide, by decide, by decide, by decide, by decide, by decide, by decide⟩
  len := by decide
  struct := rfl
  list := by decide
  size := by decide
  field := by
    intro j f hf h0
    match j, hf with
    | 0, h =>
      cases h
      refine .num (by decide) (by decide) (by decide) (by decide) (by decide) (by decide) ⟨⟨by decide, rfl⟩, by decide, by decide, ?_⟩
      rcases hp with rfl | rfl | rfl <;> decide
    | n + 1, h => cases h
  tag := by
    intro j f hf hu
    match j, hf with
    | n, h => cases h
  alt := by
    intro j f hf hu
    match j, hf with
    | n, h => cases h

theorem st_RR : TabLay stSch stMsg stParts "RR".toList 18 4 5 where
  head := ⟨by decide, by decide, by decide, by decide, by decide, by decide, by decide⟩
  len := by decide
  struct := rfl
  list := by decide
  size := by decide
  field := by
    intro j f hf h0
    match j, hf with
    | 0, h =>
      cases h
      exact .num (by decide) (by decide) (by decide) (by decide) (by decide) (by decide) ⟨⟨by decide, rfl⟩, by decide, by decide, by decide⟩
    | 1, h =>
      cases h
      exact .str (by decide) (by decide) (by decide) rfl rfl (by decide) (by decide) (Or.inr (by decide))
    | 2, h =>
      cases h
      exact .num (by decide) (by decide) (by decide) (by decide) (by decide) (by decide) ⟨⟨by decide, rfl⟩, by decide, by decide, by decide⟩
    | 3, h =>
      cases h
      exact .union (by decide) (by decide) ⟨by decide, rfl⟩ (by decide) (by decide) 48 1 (st_BB (Or.inl rfl)).head
    | 4, h =>
      cases h
      refine .list (by decide) (by decide) (by decide) (by decide) (by decide) ⟨rfl, by decide, rfl, by decide, by decide, ?_⟩
      intro j hj
      have hj2 : j < 2 := hj
      match j, hj2 with
      | 0, _ => exact .tab ftTable rfl (by decide) (by decide) (by decide) (by decide)
      | 1, _ => exact .tab ftTable rfl (by decide) (by decide) (by decide) (by decide)
    | n + 5, h => cases h
  tag := by
    intro j f hf hu
    match j, hf with
    | 0, h => cases h; cases hu
    | 1, h => cases h; cases hu
    | 2, h => cases h; exact ⟨_, rfl, by decide, by decide, by decide, by decide, by decide, by decide, by decide⟩
    | 3, h => cases h; cases hu
    | n + 4, h => cases h
  alt := by
    intro j f hf hu
    match j, hf with
    | 0, h => cases h; cases hu
    | 1, h => cases h; cases hu
    | 2, h =>
      cases h
      intro _ a ha
      cases ha
      decide
    | 3, h => cases h; cases hu
    | n + 4, h => cases h

theorem st_layout : Layout stSch stMsg stParts where
  piece := by
    have : ∀ q ∈ stPieces, 0 < q.2 ∧ q.2 < 16777216 ∧ q.1 + q.2 ≤ stMsg.length := by decide
    exact fun o k h => this (o, k) h
  apart := by
    have : ∀ q ∈ stPieces, ∀ r ∈ stPieces, (q.1 = r.1 ∧ q.2 = r.2) ∨ q.1 + q.2 ≤ r.1 ∨ r.1 + r.2 ≤ q.1 := by decide +kernel
    exact fun o k o' k' h h' => this (o, k) h (o', k') h'
  tab := by
    intro nm p h
    have h : (nm, p) ∈ [("RR".toList, 18), ("BB".toList, 54), ("BB".toList, 72), ("BB".toList, 78)] := h
    simp only [List.mem_cons, List.not_mem_nil, or_false, Prod.mk.injEq] at h
    rcases h with ⟨rfl, rfl⟩ | ⟨rfl, rfl⟩ | ⟨rfl, rfl⟩ | ⟨rfl, rfl⟩
    · exact ⟨_, _, st_RR⟩
    · exact ⟨_, _, st_BB (Or.inl rfl)⟩
    · exact ⟨_, _, st_BB (Or.inr (Or.inl rfl))⟩
    · exact ⟨_, _, st_BB (Or.inr (Or.inr rfl))⟩
  str := fun _ _ h => h.elim

/-- The number, the string, the number in the union, the count of the list and the number in its second table. -/
def stCalls : List Call := [.field 0 0, .num 1, .field 0 1, .str 2, .union 0 3, .field 3 0, .num 4, .field 0 4, .count 5, .elem 5 1, .field 6 0, .num 7, .elem 5 2]

example : ∃ b', (openCalls stSch "RR".toList stCalls).runS 2 true (SBase.open (.file stMsg) 512) =
    some (b', [.node true, .num 7, .node true, .str [104, 105], .node true, .node true, .num 11, .node true, .num 2, .node true, .node true, .num 13, .node false]) :=
  stream_calls_partial (sp := []) st_layout (by decide) (by decide) 512 stCalls _ (by decide +kernel)

/-- C111 is violated for `int8`: the field is read without its size (node.go 260), and nothing is loaded: the accessor panics where it
gives the number in memory. -/
theorem int8_stream_fails : ∃ (s : Sch) (d : Bytes) (l : List Call) (o : List Seen), (openCalls s "RR".toList l).runM (Base.new ⟨d, []⟩) = some o ∧
    (openCalls s "RR".toList l).runS 2 true (SBase.open (.file d) 512) = none :=
  ⟨{ fields := fun n => if n = "RR".toList then [⟨"Int8".toList, ftBasic1, some .int8⟩] else [] },
    [12, 0, 0, 0, 0, 0, 6, 0, 5, 0, 4, 0, 6, 0, 0, 0, 9], [.field 0 0, .num 1], [.node true, .num 9], by decide +kernel, by decide +kernel⟩

/-- C111 is violated for readers without random access: after the first four bytes zeros are read, without a word; a field that is there is
reported missing. -/
theorem stream_seq_fails : ∃ (s : Sch) (d : Bytes) (l : List Call), (openCalls s "RR".toList l).runM (Base.new ⟨d, []⟩) = some [.node true] ∧
    ((openCalls s "RR".toList l).runS 2 true (SBase.open (.seq d) 512)).map (·.2) = some [.node false] :=
  ⟨stSch, stMsg, [.field 0 0], by decide +kernel, by decide +kernel⟩

end Fbs.Props
