import Verif.Props.ListDeep
import Verif.Props.EditDeep
/-!
# C113: using a node again

`SetAt` and `SetFieldAt` write the size of the node they are given into that node, and use it the next time.
-/

namespace Fbs.Props
open Fbs CNode

/-- list.go 770-772 and 807-809: the element as the caller finds it after `SetAt`: its size is filled in. -/
def cacheElm (s : Sch) (fuel : Nat) (elm : CNode) : Go CNode := do
  let n ← elmSize s fuel elm
  return { elm with size := n }

/-- common.go 1161-1166 and 1216-1221: the field as the caller finds it after `c.SetFieldAt(idx, f)`: the size of a vector, table
or union is filled in. -/
def cacheField (s : Sch) (fuel : Nat) (c : CNode) (idx : Int) (f : CNode) : Go CNode := do
  let g := (c.fieldT s idx).grp
  if 0 < f.size then return f
  if isFieldSlice g then
    let i ← infoSliceF s fuel f
    if i.size < 0 then none
    return { f with size := i.size }
  else if isFieldStruct g || isFieldBasicType g then return f
  else if isFieldUnion g || isFieldTable g then
    let i ← infoF s fuel (some f)
    if i.size ≤ 0 then none
    return { f with size := i.size }
  else return f

/-- A program: for each group, set these fields of the one node `f`, then `l.SetAt(f, l.Count())`. -/
def fillFrom (s : Sch) (fuel : Nat) : CNode → CNode → List (List Setting) → Go CNode
  | l, _, [] => some l
  | l, f, g :: gs => do
    let f ← runSets s fuel f g
    let n ← l.listLen
    let (l, e) ← l.setAt s fuel n f
    if e.isSome then none
    let f ← cacheElm s fuel f
    fillFrom s fuel l f gs

/-- Specification: the values the node goes through. -/
def fillVals : Val → List (List Setting) → List Val
  | _, [] => []
  | v, g :: gs => v.with g :: fillVals (v.with g) gs

/-- Specification: the list goes on with these values, each built for itself. -/
def progOf (p : DeepProg) (vs : List Val) : DeepProg := vs.foldl (fun p v => .app p false v) p

/-- Specification: all values the node goes through are sound, and each group sets fields that have been set before. -/
def FillOk (s : Sch) (F : Nat) : Val → List (List Setting) → Prop
  | _, [] => True
  | v, g :: gs => (∀ m, m ≤ g.length → (v.with (g.take m)).Fits s (F + 1)) ∧ (∀ o ∈ g, v.cur o.field ≠ none) ∧ FillOk s F (v.with g) gs

theorem infoF_size (s : Sch) (k : Nat) (f : CNode) (n : Int) : infoF s k (some { f with size := n }) = infoF s k (some f) := by
  cases k with
  | zero => rfl
  | succ k =>
    have h : ∀ i : Nat, valueInfoF s k { f with size := n } i = valueInfoF s k f i := by
      intro i
      cases k with
      | zero => rfl
      | succ k => unfold valueInfoF; rfl
    unfold infoF
    simp only [h]

theorem setAt_size {s : Sch} {k : Nat} {c f : CNode} {i n : Int} (h : elmSize s k { f with size := n } = elmSize s k f) :
    c.setAt s k i { f with size := n } = c.setAt s k i f := by
  unfold CNode.setAt setStructAt setTableAt
  rw [h]

theorem setScalar_size {s : Sch} {k : Nat} {c f : CNode} {i : Nat} {n : Int} (hz : c.isZero i = some false) :
    ({ c with size := n } : CNode).setScalar s k i f = (c.setScalar s k i f).map fun c => { c with size := n } := by
  unfold CNode.setScalar
  simp only [Option.bind_eq_bind, Option.map_bind]
  congr 1
  funext a
  simp only [Function.comp, Option.map_bind]
  congr 1
  funext t
  have h1 : ({ c with size := n, tlen := t } : CNode).isZero i = some false := hz
  have h2 : ({ c with tlen := t } : CNode).isZero i = some false := hz
  have h3 : ({ c with size := n, tlen := t } : CNode).vtab i = ({ c with tlen := t } : CNode).vtab i := rfl
  simp only [Function.comp, h1, h2, h3, Option.bind_some, Bool.not_false, if_true, Option.map_bind]
  congr 1
  funext p
  simp only [Function.comp, Option.map_bind]
  congr 1

/-- Setting a field of a value that has been set before, with and without a size filled in. -/
theorem setPresent_size {s : Sch} {F : Nat} {v : Val} {c : CNode} {w : List Bytes} (hg : Good s F v c w) (hv : v.Fits s (F + 1)) {o : Setting}
    (ho : InlSrc s v.name o.field o.node o.val) (hcur : v.cur o.field ≠ none) (n : Int) :
    ({ c with size := n } : CNode).setFieldAt s (F + 1) o.field o.node =
      (c.setFieldAt s (F + 1) o.field o.node).map fun r => ({ r.1 with size := n }, r.2) := by
  obtain ⟨nm, pre, sub, post⟩ := v
  rw [Val.Fits] at hv
  have hs : SchOk s nm := hv.1.toSmallTable.ok
  have hn : c.name = nm := hg.name
  have hL := hg.laid c.io 0 hg.held
  rw [laid_frame] at hL
  obtain ⟨t, ⟨vo, fx, hT, hI, -, -⟩, -⟩ := hL
  have ho' := ho
  obtain ⟨fd, hfd, hgr, -⟩ := ho'
  have hfd : (s.fields nm)[o.field]? = some fd := hfd
  have hin : o.field < (s.fields nm).length := (List.getElem?_eq_some_iff.mp hfd).1
  have hz : c.isZero (o.field : Nat) = some false := by
    rw [hT.isZero (c := c) rfl (by rw [hg.pos]; simp [Val.name]) hin, hI _ fd hfd hgr]
    have : lastSet (pre ++ post) o.field ≠ none := hcur
    cases hl : lastSet (pre ++ post) o.field with
    | none => exact absurd hl this
    | some w => rfl
  rw [setFieldAt_inl (nm := nm) hs (c := { c with size := n }) hn ho, setFieldAt_inl (nm := nm) hs hn ho, setScalar_size hz]
  cases c.setScalar s (F + 1) o.field o.node <;> rfl

theorem with_node (s : Sch) (k : Nat) (v : Val) (ops : List Setting) : (v.with ops).node s k = (v.node s k).bind fun c => runSets s k c ops := by
  obtain ⟨nm, pre, sub, post⟩ := v
  rw [Val.with, Val.node, Val.node]
  cases sub.settings s k with
  | none => rfl
  | some l =>
    simp only [Option.bind_some]
    unfold build
    cases CNode.init s nm with
    | none => rfl
    | some c =>
      simp only [Option.bind_some]
      rw [← runSets_append]
      simp only [List.append_assoc]

theorem fits_width {s : Sch} {k : Nat} {v : Val} (h : v.Fits s k) {i : Nat} {w : Bytes} (hw : v.cur i = some w) :
    ∃ fd, (s.fields v.name)[i]? = some fd ∧ w.length = fieldWidth s fd := by
  obtain ⟨nm, pre, sub, post⟩ := v
  rw [Val.Fits] at h
  have hw : lastSet (pre ++ post) i = some w := hw
  unfold lastSet at hw
  obtain ⟨o, ho, rfl⟩ := Option.map_eq_some_iff.mp hw
  have hm := List.mem_of_getLast? ho
  rw [List.mem_filter] at hm
  obtain ⟨fd, h1, -, -, h2, -⟩ := h.2.1 o hm.1
  have : o.field = i := by simpa using hm.2
  exact ⟨fd, this ▸ h1, h2⟩

/-- Setting fields that have been set before keeps the length of the data. -/
theorem with_data {s : Sch} {k : Nat} {v : Val} {ops : List Setting} (h : v.Fits s k) (h' : (v.with ops).Fits s k)
    (hp : ∀ o ∈ ops, v.cur o.field ≠ none) : (v.with ops).data s = v.data s := by
  have hc : ∀ i, ((v.with ops).cur i).map List.length = (v.cur i).map List.length := by
    intro i
    cases hl : lastSet ops i with
    | none => rw [with_cur, hl]; rfl
    | some w =>
      have hw : (v.with ops).cur i = some w := by rw [with_cur, hl]; rfl
      have : v.cur i ≠ none := by
        have hl' := hl
        unfold lastSet at hl'
        obtain ⟨o, ho, -⟩ := Option.map_eq_some_iff.mp hl'
        have hm := List.mem_of_getLast? ho
        rw [List.mem_filter] at hm
        have e : o.field = i := by simpa using hm.2
        exact e ▸ hp o hm.1
      obtain ⟨w0, hw0⟩ := Option.ne_none_iff_exists'.mp this
      obtain ⟨fd, h1, h2⟩ := fits_width h hw0
      obtain ⟨fd', h3, h4⟩ := fits_width h' hw
      rw [with_name, h1] at h3
      cases h3
      rw [hw, hw0, Option.map_some, Option.map_some, h2, h4]
  obtain ⟨nm, pre, sub, post⟩ := v
  have hc : ∀ i, (lastSet (pre ++ (post ++ ops)) i).map List.length = (lastSet (pre ++ post) i).map List.length := hc
  rw [Val.with, Val.data, Val.data]
  unfold dataLen
  simp only [hc]

theorem with_need (v : Val) (ops : List Setting) : (v.with ops).need = v.need := by cases v; rw [Val.with, Val.need, Val.need]

/-- A group of settings of the node, with and without a size filled in. -/
theorem runSets_size {s : Sch} {F : Nat} (n : Int) : ∀ (g : List Setting) {v : Val} {f f1 : CNode}, v.need ≤ F → v.node s (F + 1) = some f →
    (∀ m, m ≤ g.length → (v.with (g.take m)).Fits s (F + 1)) → (∀ o ∈ g, v.cur o.field ≠ none) → (v.with g).node s (F + 1) = some f1 →
    runSets s (F + 1) { f with size := n } g = some { f1 with size := n }
  | [], v, f, f1, _, hf, _, _, h1 => by
    rw [with_nil, hf] at h1
    cases h1; rfl
  | o :: g, v, f, f1, hk, hf, hm, hp, h1 => by
    have hv := hm 0 (by omega)
    rw [List.take_zero, with_nil] at hv
    have hv1 := hm 1 (by simp)
    have e1 : (o :: g).take 1 = [o] := rfl
    rw [e1] at hv1
    obtain ⟨c, w, hg⟩ := val_good s F v hv hk
    have : c = f := by have := hg.node; rw [hf] at this; cases this; rfl
    subst this
    obtain ⟨c1, w1, hg1⟩ := val_good s F (v.with [o]) hv1 (by rw [with_need]; exact hk)
    have hs1 : c.setFieldAt s (F + 1) o.field o.node = some (c1, none) := by
      have := hg1.node
      rw [with_node, hf, Option.bind_some] at this
      unfold runSets at this
      split at this
      · next c2 e => unfold runSets at this; cases this; exact e
      · cases this
    have ho : InlSrc s v.name o.field o.node o.val := by
      obtain ⟨nm, pre, sub, post⟩ := v
      rw [Val.with, Val.Fits] at hv1
      exact hv1.2.1 o (by simp)
    have hs2 := setPresent_size hg hv ho (hp o (by simp)) n
    rw [hs1, Option.map_some] at hs2
    unfold runSets
    rw [hs2]
    refine runSets_size n g (v := v.with [o]) (by rw [with_need]; exact hk) hg1.node ?_ ?_ ?_
    · intro m hmm
      rw [with_with]
      exact hm (m + 1) (by simp; omega)
    · intro o' ho'
      rw [with_cur]
      have := hp o' (by simp [ho'])
      cases lastSet [o] o'.field with
      | none => exact this
      | some _ => simp
    · rw [with_with]; exact h1

theorem elmSize_good {s : Sch} {F : Nat} {v : Val} {c : CNode} {w : List Bytes} (hg : Good s F v c w) (hk : v.need ≤ F) {n : Int} (hn : n = -1 ∨ n = v.data s) :
    elmSize s (F + 1) { c with size := n } = some (v.data s : Int) := by
  have hi := hg.self.info c.io 0 hg.held (F + 1) (by omega) c hg.name rfl (by rw [hg.pos]; omega)
  have hpos := hg.self.mpos
  unfold elmSize
  rcases hn with rfl | rfl
  · simp only [infoF_size, hi]; rfl
  · have : ¬ ((v.data s : Int) ≤ 0) := by omega
    simp only [this, if_false]; rfl

theorem progOf_items (p : DeepProg) (vs : List Val) : (progOf p vs).items = p.items ++ vs := by
  induction vs generalizing p with
  | nil => simp [progOf]
  | cons v vs ih =>
    show (progOf (.app p false v) vs).items = _
    rw [ih, DeepProg.items, List.append_assoc]; rfl

theorem valsSize_le {s : Sch} {t : Name} (a b : List Val) : valsSize s t a ≤ valsSize s t (a ++ b) := by
  unfold valsSize
  rw [List.map_append, List.sum_append]; omega

theorem fill_run {s : Sch} {t : Name} {F : Nat} (ht : TabElt s t) : ∀ (gs : List (List Setting)) {p : DeepProg} {v : Val} {c f : CNode} {n : Int}, p.Ok s t F →
    p.run s t (F + 1) = some c → v.name = t → v.need ≤ F → v.node s (F + 1) = some f → (n = -1 ∨ n = v.data s) → FillOk s F v gs →
    valsSize s t (p.items ++ fillVals v gs) < 4294967296 →
    (progOf p (fillVals v gs)).Ok s t F ∧ fillFrom s (F + 1) c { f with size := n } gs = (progOf p (fillVals v gs)).run s t (F + 1)
  | [], p, v, c, f, n, hp, hc, _, _, _, _, _, _ => ⟨hp, hc.symm⟩
  | g :: gs, p, v, c, f, n, hp, hc, hvt, hk, hf, hn, hfo, hsz => by
    obtain ⟨hm, hpr, hrest⟩ := hfo
    have hv0 := hm 0 (by omega)
    rw [List.take_zero, with_nil] at hv0
    have hv1 := hm g.length (Nat.le_refl _)
    rw [List.take_length] at hv1
    have hk1 : (v.with g).need ≤ F := by rw [with_need]; exact hk
    obtain ⟨f1, w1, hg1⟩ := val_good s F (v.with g) hv1 hk1
    have hr := runSets_size n g hk hf hm hpr hg1.node
    have hd := with_data hv0 hv1 hpr
    have hn' : n = -1 ∨ n = (v.with g).data s := by rw [hd]; exact hn
    have he := elmSize_good hg1 hk1 hn'
    have he0 : elmSize s (F + 1) f1 = some ((v.with g).data s : Int) := by
      have := elmSize_good hg1 hk1 (Or.inl rfl)
      rwa [← hg1.size] at this
    have hset : ∀ i, c.setAt s (F + 1) i { f1 with size := n } = c.setAt s (F + 1) i f1 := fun i => setAt_size (by rw [he, he0])
    have hok : (DeepProg.app p false (v.with g)).Ok s t F := by
      refine ⟨hp, ⟨hv1, hk1, by rw [with_name]; exact hvt⟩, Nat.lt_of_le_of_lt ?_ hsz⟩
      have := valsSize_le (s := s) (t := t) (p.items ++ [v.with g]) (fillVals (v.with g) gs)
      rw [List.append_assoc] at this
      exact this
    obtain ⟨c1, es, hrun, -, -⟩ := prog_deep ht _ hok
    have hrun' := hrun
    rw [DeepProg.run, hc, hg1.node] at hrun'
    simp only [Option.bind_eq_bind, Option.bind_some, stored, Bool.false_eq_true, if_false, runAppend] at hrun'
    obtain ⟨len, hlen, hrun'⟩ := Option.bind_eq_some_iff.mp hrun'
    obtain ⟨⟨c2, e⟩, hsa, hrun'⟩ := Option.bind_eq_some_iff.mp hrun'
    have hee : e = none ∧ c2 = c1 := by
      cases e with
      | none => simpa using hrun'
      | some e => simp at hrun'
    obtain ⟨rfl, rfl⟩ := hee
    have ih := fill_run ht gs (p := .app p false (v.with g)) (n := (v.with g).data s) hok hrun (by rw [with_name]; exact hvt) hk1 hg1.node (Or.inr rfl) hrest
      (by rw [DeepProg.items, List.append_assoc]; exact hsz)
    refine ⟨ih.1, ?_⟩
    rw [fillFrom, hr]
    simp only [Option.bind_eq_bind, Option.bind_some, hlen, hset, hsa, cacheElm, he]
    exact ih.2

theorem infoSliceF_size (s : Sch) (k : Nat) (f : CNode) (n : Int) : infoSliceF s k { f with size := n } = infoSliceF s k f := by
  cases k with
  | zero => rfl
  | succ k =>
    have h1 : ({ f with size := n } : CNode).listLen = f.listLen := rfl
    have h2 : ∀ i, at_ s { f with size := n } i = at_ s f i := fun i => rfl
    have h3 : CNode.all s { f with size := n } = CNode.all s f := by
      have h4 : ∀ m j, allFrom s { f with size := n } j m = allFrom s f j m := by
        intro m
        induction m with
        | zero => intro j; rfl
        | succ m ih => intro j; unfold allFrom; simp only [h2, ih]
      unfold CNode.all
      simp only [h1, h4]
    unfold infoSliceF
    simp only [h1, h2, h3]

/-- A node that has been stored in a field may be stored again, in any field of the same kind of any table: storing the node
with the size filled in is storing it without. -/
theorem reuse_field (s : Sch) (k : Nat) (c d f f' : CNode) (i j : Int) (hc : cacheField s k c i f = some f')
    (hg : (d.fieldT s j).grp = (c.fieldT s i).grp) : d.setFieldAt s k j f' = d.setFieldAt s k j f := by
  unfold cacheField at hc
  by_cases hsz : 0 < f.size
  · rw [if_pos hsz] at hc; cases hc; rfl
  rw [if_neg hsz] at hc
  by_cases h1 : isFieldSlice (c.fieldT s i).grp = true
  · rw [if_pos h1] at hc
    obtain ⟨v, hv, hc⟩ := Option.bind_eq_some_iff.mp hc
    by_cases h0 : v.size < 0
    · rw [if_pos h0] at hc; cases hc
    rw [if_neg h0] at hc
    cases hc
    have hsl : ∀ idx, d.setSlice s k idx { f with size := v.size } = d.setSlice s k idx f := by
      intro idx
      unfold CNode.setSlice
      have e : ∀ n : Int, (if ({ f with size := n } : CNode).size ≤ 0 then (do
            let i ← infoSliceF s k { f with size := n }
            if i.size < 0 then none
            return i.size) else some ({ f with size := n } : CNode).size) = if n ≤ 0 then some v.size else some n := by
        intro n
        rw [infoSliceF_size, hv]
        by_cases hn : n ≤ 0
        · simp only [if_pos hn]
          show (if v.size < 0 then none else some v.size) = _
          rw [if_neg h0]
        · simp only [if_neg hn]
      have e1 := e v.size
      have hle : f.size ≤ 0 := by omega
      have e2 : (if f.size ≤ 0 then (do
            let i ← infoSliceF s k f
            if i.size < 0 then none
            return i.size) else some f.size) = some v.size := (e f.size).trans (if_pos hle)
      have h2 : (if v.size ≤ 0 then some v.size else some v.size) = some v.size := by split <;> rfl
      rw [h2] at e1
      simp only [e1, e2]
    unfold CNode.setFieldAt
    rw [hg]
    simp only [h1, if_true, hsl]
    rfl
  · rw [if_neg h1] at hc
    by_cases h2 : (isFieldStruct (c.fieldT s i).grp || isFieldBasicType (c.fieldT s i).grp) = true
    · rw [if_pos h2] at hc; cases hc; rfl
    rw [if_neg h2] at hc
    by_cases h3 : (isFieldUnion (c.fieldT s i).grp || isFieldTable (c.fieldT s i).grp) = true
    · rw [if_pos h3] at hc
      obtain ⟨v, hv, hc⟩ := Option.bind_eq_some_iff.mp hc
      by_cases h0 : v.size ≤ 0
      · rw [if_pos h0] at hc; cases hc
      rw [if_neg h0] at hc
      cases hc
      have hsl : ∀ idx, d.setTable s k idx { f with size := v.size } = d.setTable s k idx f := by
        intro idx
        unfold CNode.setTable
        have e : ∀ n : Int, (if ({ f with size := n } : CNode).size ≤ 0 then (do
              let i ← infoF s k (some { f with size := n })
              if i.size ≤ 0 then none
              return i.size) else some ({ f with size := n } : CNode).size) = if n ≤ 0 then some v.size else some n := by
          intro n
          rw [infoF_size, hv]
          by_cases hn : n ≤ 0
          · simp only [if_pos hn]
            show (if v.size ≤ 0 then none else some v.size) = _
            rw [if_neg h0]
          · simp only [if_neg hn]
        have e1 := e v.size
        have hle : f.size ≤ 0 := by omega
        have e2 : (if f.size ≤ 0 then (do
              let i ← infoF s k (some f)
              if i.size ≤ 0 then none
              return i.size) else some f.size) = some v.size := (e f.size).trans (if_pos hle)
        replace e1 := e1.trans (if_neg h0)
        simp only [e1, e2]
      unfold CNode.setFieldAt
      rw [hg]
      simp only [h1, h2, h3, if_true, hsl]
      rfl
    · rw [if_neg h3] at hc; cases hc; rfl

-- the hypotheses can be met: one table stored in two tables
example : ∃ f f' c c1 c2, build ediSch 30 "SS".toList [ediInt 0 9] = some f ∧ CNode.init ediSch "TT".toList = some c ∧ cacheField ediSch 30 c 4 f = some f' ∧
    f.size = -1 ∧ f'.size = 8 ∧ c.setFieldAt ediSch 30 4 f' = some (c1, none) ∧ c.setFieldAt ediSch 30 4 f = some (c2, none) := by
  obtain ⟨f, hf⟩ : ∃ f, build ediSch 30 "SS".toList [ediInt 0 9] = some f := Option.isSome_iff_exists.mp (by decide +kernel)
  obtain ⟨c, hc⟩ : ∃ c, CNode.init ediSch "TT".toList = some c := Option.isSome_iff_exists.mp (by decide +kernel)
  have h : ((do
      let f ← build ediSch 30 "SS".toList [ediInt 0 9]
      let c ← CNode.init ediSch "TT".toList
      let f' ← cacheField ediSch 30 c 4 f
      let (_, e) ← c.setFieldAt ediSch 30 4 f
      if e.isSome then none
      return (f.size, f'.size)) : Option (Int × Int)) = some (-1, 8) := by decide +kernel
  simp only [hf, hc, Option.bind_eq_bind, Option.bind_some] at h
  obtain ⟨f', hf', h⟩ := Option.bind_eq_some_iff.mp h
  obtain ⟨⟨c2, e⟩, h2, h⟩ := Option.bind_eq_some_iff.mp h
  cases e with
  | some e => simp at h
  | none =>
    simp only [Option.isSome_none, Bool.false_eq_true, if_false] at h
    have h1 := congrArg Prod.fst (Option.some.inj h)
    have h3 := congrArg Prod.snd (Option.some.inj h)
    exact ⟨f, f', c, c2, c2, hf, hc, hf', h1, h3, by rw [reuse_field _ _ _ _ _ _ _ _ hf' rfl]; exact h2, h2⟩

/-- One node may be used to fill a list: setting fields of the node that have been set before and appending it, again and
again, gives the list of the values the node went through, read through all their levels after any swaps.  (Missing: nodes
that grow between two uses, see `reuse_grown_fails`.) -/
theorem reuse_append_partial (s : Sch) (t : Name) (F : Nat) (ht : TabElt s t) (p : DeepProg) (hp : p.Ok s t F) (v : Val) (hvt : v.name = t)
    (hv : v.Fits s (F + 1)) (hk : v.need ≤ F) (gs : List (List Setting)) (hg : FillOk s F v gs)
    (hsz : valsSize s t (p.items ++ fillVals v gs) < 4294967296) (sw : List (Nat × Nat)) :
    ∃ c f c1 c2, p.run s t (F + 1) = some c ∧ v.node s (F + 1) = some f ∧ fillFrom s (F + 1) c f gs = some c1 ∧ runSwaps s c1 sw = some c2 ∧
      c2.listLen = some (p.items ++ fillVals v gs).length ∧
      ∀ (i : Nat) (u : Val), (swapsL (p.items ++ fillVals v gs) sw)[i]? = some u → ∃ n, c2.at_ s i = some (.ok n) ∧ u.Reads s n := by
  obtain ⟨c, es, hc, -, -⟩ := prog_deep ht p hp
  obtain ⟨f, w, hgd⟩ := val_good s F v hv hk
  obtain ⟨hok, hrun⟩ := fill_run ht gs hp hc hvt hk hgd.node (Or.inl hgd.size) hg hsz
  obtain ⟨c1, c2, h1, h2, h3, h4⟩ := list_program_deep_partial s t F ht _ hok sw
  rw [progOf_items] at h3 h4
  exact ⟨c, f, c1, c2, hc, hgd.node, by rw [← h1, ← hrun], h2, h3, h4⟩

-- the hypotheses can be met: a table with a member of a union is appended with three different numbers
theorem deepEnd_with (fuel : Nat) (bs : Bytes) (hb : bs.length < 4294967296) (l : List Nat) : ((deepEnd bs).with (l.map deepId)).Fits deepSch (fuel + 1) := by
  have h0 : ∀ l : List Nat, lastSet ([deepTag 1] ++ ([deepId 5] ++ l.map deepId)) 0 = some [1] := by
    intro l
    rw [← List.append_assoc, lastSet_append]
    have : lastSet (l.map deepId) 0 = none := by
      unfold lastSet
      rw [List.filter_eq_nil_iff.mpr]; rfl
      intro o ho
      obtain ⟨n, -, rfl⟩ := List.mem_map.mp ho
      simp [deepId]
    rw [this]; rfl
  have ht : ∀ ops, lastSet ops 0 = some [1] → TagsOk deepSch "NN".toList (lastSet ops) := by
    intro ops he
    refine deep_tags ?_
    intro v hv
    rw [he] at hv
    cases hv
    exact ⟨1, rfl, by decide⟩
  unfold deepEnd Val.with
  rw [Val.Fits, Sub.Fits]
  refine ⟨deep_NN, ?_, fun h => (by cases h), ?_, ?_, ht _ (h0 l), deepLeaf_fits fuel bs hb, ht _ rfl,
    ⟨"UU".toList, ftUnion, none⟩, 1, rfl, rfl, h0 l, by decide, rfl⟩
  · intro o ho
    simp only [List.cons_append, List.nil_append, List.mem_cons, List.mem_map] at ho
    rcases ho with rfl | rfl | ⟨n, -, rfl⟩
    · exact deep_tag 1
    · exact deep_id 5
    · exact deep_id n
  · intro i fd hfd hg _ _
    exact deep_wide _ (Nat.le_trans (dataLen_four ..) (Nat.le_add_right _ _)) i fd hfd hg
  · intro i fd hfd hg
    exact absurd hg (deep_nobytes i fd hfd)

theorem deepEnd_fill : FillOk deepSch 29 (deepEnd [65]) [[], [deepId 6, deepId 7], [deepId 8]] := by
  have hf := deepEnd_with 29 [65] (by decide)
  refine ⟨?_, by simp, ?_, ?_, ?_, ?_, trivial⟩
  · intro m hm
    rw [List.take_nil]; exact hf []
  · intro m hm
    rw [with_with]
    match m, hm with
    | 0, _ => exact hf []
    | 1, _ => exact hf [6]
    | 2, _ => exact hf [6, 7]
  · intro o ho
    simp only [List.mem_cons, List.not_mem_nil, or_false] at ho
    rcases ho with rfl | rfl <;> decide
  · intro m hm
    rw [with_with, with_with]
    match m, hm with
    | 0, _ => exact hf [6, 7]
    | 1, _ => exact hf [6, 7, 8]
  · intro o ho
    simp only [List.mem_cons, List.not_mem_nil, or_false] at ho
    subst ho; decide

example : ∃ c f c1 c2, deepProg.run deepSch "NN".toList 30 = some c ∧ (deepEnd [65]).node deepSch 30 = some f ∧
      fillFrom deepSch 30 c f [[], [deepId 6, deepId 7], [deepId 8]] = some c1 ∧ runSwaps deepSch c1 [(4, 6)] = some c2 ∧ c2.listLen = some 7 ∧
      ∀ (i : Nat) (u : Val), (swapsL (deepProg.items ++ fillVals (deepEnd [65]) [[], [deepId 6, deepId 7], [deepId 8]]) [(4, 6)])[i]? = some u →
        ∃ n, c2.at_ deepSch i = some (.ok n) ∧ u.Reads deepSch n :=
  reuse_append_partial deepSch "NN".toList 29 ⟨ftTable, by decide, by decide, by decide, by decide, by decide⟩ deepProg deepProg_ok (deepEnd [65]) rfl
    (deepEnd_fits 29 _ (by decide)) (by decide) _ deepEnd_fill (by decide) [(4, 6)]

/-- The number read in field `j` of element `i`; `none` is a panic. -/
def elmInt (s : Sch) (l : CNode) (i j : Nat) : Go Nat := do
  match ← l.at_ s i with
  | .ok n => CNode.scalar 4 (← n.fieldAt s j)
  | .error _ => none

/-- A node that has grown since it was appended must not be appended again: append a table, set a second field of it, append it
twice more.  No call fails, but reading the second field of the second element panics, and what is appended is too short. -/
theorem reuse_grown_fails : ∃ f l, build ediSch 30 "TT".toList [ediInt 0 1] = some f ∧
    fillFrom ediSch 30 (initList "[]TT".toList) f [[], [ediInt 1 77], []] = some l ∧ l.listLen = some 3 ∧
    elmInt ediSch l 1 0 = some 1 ∧ elmInt ediSch l 1 1 = none ∧
    -- a node of its own for every element reads 77
    ∃ g l', build ediSch 30 "TT".toList [ediInt 0 1, ediInt 1 77] = some g ∧
      runAppend ediSch 30 (initList "[]TT".toList) [f, g, g] = some l' ∧ elmInt ediSch l' 1 0 = some 1 ∧ elmInt ediSch l' 1 1 = some 77 := by
  have e : ∀ {α : Type} {P : α → Prop} (o : Option α) (h : o.isSome = true), P (o.get h) → ∃ a, o = some a ∧ P a :=
    fun o h hp => ⟨o.get h, by simp, hp⟩
  refine ⟨(build ediSch 30 "TT".toList [ediInt 0 1]).get (by decide +kernel),
    (fillFrom ediSch 30 (initList "[]TT".toList) ((build ediSch 30 "TT".toList [ediInt 0 1]).get (by decide +kernel)) [[], [ediInt 1 77], []]).get (by decide +kernel),
    by simp, by simp, by decide +kernel, by decide +kernel, by decide +kernel, ?_⟩
  exact ⟨(build ediSch 30 "TT".toList [ediInt 0 1, ediInt 1 77]).get (by decide +kernel),
    (runAppend ediSch 30 (initList "[]TT".toList) [(build ediSch 30 "TT".toList [ediInt 0 1]).get (by decide +kernel),
      (build ediSch 30 "TT".toList [ediInt 0 1, ediInt 1 77]).get (by decide +kernel),
      (build ediSch 30 "TT".toList [ediInt 0 1, ediInt 1 77]).get (by decide +kernel)]).get (by decide +kernel),
    by simp, by simp, by decide +kernel, by decide +kernel⟩

end Fbs.Props
