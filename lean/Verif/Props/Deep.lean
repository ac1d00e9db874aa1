import Verif.Deep
import Verif.SplitAppend
import Verif.Props.Message
/-!
# Values of any depth: C105

A value is a table with settings of its scalar and struct fields and at most one field of variable length: a byte
vector, a table, a member of a union, or a list of tables, whose contents are again such values.  It is built from the
inside out; every table or list is stored as it is, or merged by `Flatten` first.
-/

namespace Fbs.Props
open Fbs CNode

mutual
/-- Specification: a value. -/
inductive Val
  | tab (nm : Name) (pre : List Setting) (sub : Sub) (post : List Setting)
/-- Its field of variable length, set after `pre` and before `post`. -/
inductive Sub
  | none
  | bytes (i : Nat) (f : CNode) (data : Bytes)
  /-- `fl`: whether the value is merged first -/
  | table (i : Nat) (fl : Bool) (v : Val)
  /-- the tag is field `i`, the value field `i + 1` -/
  | union (i : Nat) (fl : Bool) (v : Val)
  | list (i : Nat) (fl : Bool) (t : Name) (vs : Vals)
inductive Vals
  | nil
  | cons (fl : Bool) (v : Val) (vs : Vals)
end

def Val.name : Val → Name
  | .tab nm _ _ _ => nm

/-- The field of variable length. -/
def Sub.field : Sub → Option Nat
  | .none => Option.none
  | .bytes i _ _ => some i
  | .table i _ _ => some i
  | .union i _ _ => some (i + 1)
  | .list i _ _ _ => some i

def Vals.count : Vals → Nat
  | .nil => 0
  | .cons _ _ vs => vs.count + 1

/-! ## the program that makes it -/

/-- The node merged by `Flatten`. -/
def merged (c : CNode) : CNode := { c with io := c.io.flatten }

/-- The node merged first, or as it is. -/
def stored (fl : Bool) (c : CNode) : CNode := if fl then merged c else c

mutual
/-- The program that makes the value. -/
def Val.node (s : Sch) (fuel : Nat) : Val → Option CNode
  | .tab nm pre sub post => (sub.settings s fuel).bind fun l => build s fuel nm (pre ++ l ++ post)
/-- The setting of the field of variable length. -/
def Sub.settings (s : Sch) (fuel : Nat) : Sub → Option (List Setting)
  | .none => some []
  | .bytes i f data => some [⟨i, f, data⟩]
  | .table i fl v => (v.node s fuel).map fun f => [⟨i, stored fl f, []⟩]
  | .union i fl v => (v.node s fuel).map fun f => [⟨i + 1, stored fl f, []⟩]
  | .list i fl t vs => (vs.nodes s fuel).bind fun fs =>
      (runAppend s fuel (initList ('[' :: ']' :: t)) fs).map fun l => [⟨i, stored fl l, []⟩]
def Vals.nodes (s : Sch) (fuel : Nat) : Vals → Option (List CNode)
  | .nil => some []
  | .cons fl v vs => (v.node s fuel).bind fun f => (vs.nodes s fuel).map fun l => stored fl f :: l
end

/-! ## what is read -/

mutual
/-- Specification: the node reads as the value. -/
def Val.Reads (s : Sch) : Val → CNode → Prop
  | .tab nm pre sub post, c => c.name = nm ∧
      (∀ i, i < (s.fields nm).length → sub.field ≠ some i → FieldRead s nm c i (lastSet (pre ++ post) i)) ∧ sub.Reads s c
def Sub.Reads (s : Sch) : Sub → CNode → Prop
  | .none, _ => True
  | .bytes i _ data, c => ∃ nd, c.fieldAt s i = some (some nd) ∧ CNode.bytes (some nd) = some data
  | .table i _ v, c => ∃ nd, c.fieldAt s i = some (some nd) ∧ v.Reads s nd
  | .union i _ v, c => ∃ nd, c.followUnion s ((i + 1 : Nat) : Int) = some (some (v.name, some nd)) ∧ v.Reads s nd
  | .list i _ _ vs, c => ∃ l, c.fieldAt s i = some (some l) ∧ l.listLen = some vs.count ∧ vs.Reads s l 0
/-- The elements of the list from number `k` on. -/
def Vals.Reads (s : Sch) : Vals → CNode → Nat → Prop
  | .nil, _, _ => True
  | .cons _ v vs, l, k => (∃ nd, l.at_ s (k : Int) = some (.ok nd) ∧ v.Reads s nd) ∧ vs.Reads s l (k + 1)
end

/-! ## what another reader of the bytes finds -/

mutual
/-- Specification: in the bytes `d` there is a flatbuffers table at `t` with the contents of the value. -/
def Val.Wire (s : Sch) (d : Bytes) : Val → Nat → Prop
  | .tab nm pre sub post, t => WireTable d t (s.fields nm).length ∧
      (∀ j, j < (s.fields nm).length → sub.field ≠ some j → WireField d t j (lastSet (pre ++ post) j)) ∧ sub.Wire s d t
def Sub.Wire (s : Sch) (d : Bytes) : Sub → Nat → Prop
  | .none, _ => True
  | .bytes i _ data, t => ∃ p, Fb.fieldPos d t i = some p ∧ Fb.BytesOk d p ∧ Fb.bytesAt d p = data
  | .table i _ v, t => ∃ p, Fb.fieldPos d t i = some p ∧ p + 4 ≤ d.length ∧ v.Wire s d (Fb.follow d p)
  | .union i _ v, t => ∃ p, Fb.fieldPos d t (i + 1) = some p ∧ p + 4 ≤ d.length ∧ v.Wire s d (Fb.follow d p)
  | .list i _ _ vs, t => ∃ p, Fb.fieldPos d t i = some p ∧ p + 4 ≤ d.length ∧ Fb.follow d p + 4 ≤ d.length ∧
      Fb.le d 4 (Fb.follow d p) = vs.count ∧ vs.Wire s d (Fb.follow d p + 4)
/-- The offsets of the elements start at `p`. -/
def Vals.Wire (s : Sch) (d : Bytes) : Vals → Nat → Prop
  | .nil, _ => True
  | .cons _ v vs, p => p + 4 ≤ d.length ∧ v.Wire s d (Fb.follow d p) ∧ vs.Wire s d (p + 4)
end

/-! ## where it lies -/

/-- A table of `n` fields at `x`: its length and the places of its fields, which do not overlap. -/
structure TabL (s : Sch) (nm : Name) (b : Base) (x t : Nat) (vo : Nat → Nat) (fx : Nat → Option Bytes) : Prop where
  at_  : FldAt b x (s.fields nm).length vo fx
  tl   : Holds b (x + 2) (putLE 2 t)
  t4   : 4 ≤ t
  ht   : t < 65536
  wid  : ∀ i fd v, (s.fields nm)[i]? = some fd → fx i = some v → 4 ≤ vo i ∧ v.length = fieldWidth s fd ∧ vo i + v.length ≤ t
  disj : ∀ i j, i < (s.fields nm).length → j < (s.fields nm).length → i ≠ j → ∀ v v', fx i = some v → fx j = some v' →
    vo i + v.length ≤ vo j ∨ vo j + v'.length ≤ vo i
  tlen : t = 4 + ((List.range (s.fields nm).length).map (fun i => ((fx i).map List.length).getD 0)).sum

/-- The offset of a table leads behind its virtual table. -/
def Sub.gap (s : Sch) : Sub → Nat
  | .none => 0
  | .bytes _ _ _ => 0
  | .table _ _ v => 4 + 2 * (s.fields v.name).length
  | .union _ _ v => 4 + 2 * (s.fields v.name).length
  | .list _ _ _ _ => 0

mutual
/-- The value lies in `b` from `x` to `y`: its virtual table, its table, and what its field of variable length leads to. -/
def Val.Laid (s : Sch) (b : Base) : Val → Nat → Nat → Prop
  | .tab nm pre sub post, x, y => ∃ t vo fx, TabL s nm b x t vo fx ∧
      (∀ i fd, (s.fields nm)[i]? = some fd → InlGrp fd.grp → fx i = lastSet (pre ++ post) i) ∧
      (∀ i fd, (s.fields nm)[i]? = some fd → ¬ InlGrp fd.grp → sub.field ≠ some i → fx i = Option.none) ∧
      (∀ i, sub.field = some i → fx i = some (putLE 4 (t - vo i + sub.gap s))) ∧
      sub.Laid s b (x + (4 + 2 * (s.fields nm).length + t)) y
def Sub.Laid (s : Sch) (b : Base) : Sub → Nat → Nat → Prop
  | .none, e, y => e ≤ y
  | .bytes _ _ data, e, y => Holds b e (putLE 4 data.length ++ data) ∧ e + (4 + data.length) ≤ y
  | .table _ _ v, e, y => v.Laid s b e y
  | .union _ _ v, e, y => v.Laid s b e y
  | .list _ _ _ vs, e, y => Holds b e (putLE 4 vs.count) ∧ vs.Laid s b (e + 4) (e + 4 + 4 * vs.count) y
/-- The offsets of the elements lie from `A`, the elements from `x` to `y`. -/
def Vals.Laid (s : Sch) (b : Base) : Vals → Nat → Nat → Nat → Prop
  | .nil, _, x, y => x ≤ y
  | .cons _ v vs, A, x, y => ∃ z, v.Laid s b x z ∧ Holds b A (putLE 4 (x + (4 + 2 * (s.fields v.name).length) - A)) ∧ vs.Laid s b (A + 4) z y
end

/-! ## its size -/

mutual
/-- Bytes behind the virtual table. -/
def Val.data (s : Sch) : Val → Nat
  | .tab nm pre sub post => dataLen (s.fields nm).length (lastSet (pre ++ post)) + sub.extra s
/-- The offset and what it leads to. -/
def Sub.extra (s : Sch) : Sub → Nat
  | .none => 0
  | .bytes _ _ data => 4 + (4 + data.length)
  | .table _ _ v => 4 + (4 + 2 * (s.fields v.name).length + v.data s)
  | .union _ _ v => 4 + (4 + 2 * (s.fields v.name).length + v.data s)
  | .list _ _ _ vs => 4 + (4 + 4 * vs.count + vs.total s)
def Vals.total (s : Sch) : Vals → Nat
  | .nil => 0
  | .cons _ v vs => 4 + 2 * (s.fields v.name).length + v.data s + vs.total s
end

/-- The room left over: room for a table is made twice. -/
def Val.spare (s : Sch) : Val → Nat
  | .tab _ _ sub _ => match sub with
    | .none => 0
    | .bytes _ _ _ => 0
    | .table _ _ v => 4 + 2 * (s.fields v.name).length + v.data s
    | .union _ _ v => 4 + 2 * (s.fields v.name).length + v.data s
    | .list _ _ _ _ => 0

mutual
/-- Depth of the calls of `Info`. -/
def Val.need : Val → Nat
  | .tab _ _ sub _ => sub.need + 3
def Sub.need : Sub → Nat
  | .none => 0
  | .bytes _ _ _ => 0
  | .table _ _ v => v.need
  | .union _ _ v => v.need
  | .list _ _ _ vs => vs.need
def Vals.need : Vals → Nat
  | .nil => 0
  | .cons _ v vs => max v.need vs.need
end

/-! ## when it can be made -/

/-- Specification: a table type all whose fields are of the types dealt with. -/
structure DeepType (s : Sch) (nm : Name) : Prop extends SmallTable s nm where
  plain : directSize s nm = some none
  flds  : ∀ i fd, (s.fields nm)[i]? = some fd → FieldOk s nm i fd

mutual
/-- Specification: the settings are of the types of the fields; something is set; scalars not set are no wider than the
data; a byte vector of the type is set; tags are those of members. -/
def Val.Fits (s : Sch) (fuel : Nat) : Val → Prop
  | .tab nm pre sub post => DeepType s nm ∧ (∀ o ∈ pre ++ post, InlSrc s nm o.field o.node o.val) ∧
      (sub.field = Option.none → pre ++ post ≠ []) ∧
      (∀ i fd, (s.fields nm)[i]? = some fd → InlGrp fd.grp → fd.grp ≠ ftStruct → lastSet (pre ++ post) i = Option.none →
        fieldWidth s fd ≤ dataLen (s.fields nm).length (lastSet (pre ++ post)) + sub.extra s) ∧
      (∀ i fd, (s.fields nm)[i]? = some fd → fd.grp = ftSlice ||| ftBasic1 → sub.field = some i) ∧
      TagsOk s nm (lastSet (pre ++ post)) ∧ sub.Fits s fuel nm (lastSet pre) (lastSet (pre ++ post))
def Sub.Fits (s : Sch) (fuel : Nat) (nm : Name) (before cur : Nat → Option Bytes) : Sub → Prop
  | .none => True
  | .bytes i f data => VecSrc s fuel nm i f data ∧ data.length < 4294967296
  | .table i _ v => v.Fits s fuel ∧ ∃ fd, (s.fields nm)[i]? = some fd ∧ fd.grp = ftTable ∧ fd.tname = v.name
  | .union i _ v => v.Fits s fuel ∧ TagsOk s nm before ∧ ∃ fd, ∃ tag : UInt8, (s.fields nm)[i + 1]? = some fd ∧ fd.grp = ftUnion ∧
      cur i = some [tag] ∧ 0 < tag.toNat ∧ ((s.unions fd.tname).getD [])[tag.toNat - 1]? = some v.name
  | .list i _ t vs => vs.Fits s fuel t ∧ TabElt s t ∧ 4 + 4 * vs.count + vs.total s < 4294967296 ∧
      ∃ fd, (s.fields nm)[i]? = some fd ∧ fd.grp = ftSlice ||| ftTable ∧ fd.tname = '[' :: ']' :: t
def Vals.Fits (s : Sch) (fuel : Nat) (t : Name) : Vals → Prop
  | .nil => True
  | .cons _ v vs => v.Fits s fuel ∧ v.name = t ∧ vs.Fits s fuel t
end

/-! ## the steps -/

theorem _root_.Fbs.SelfC.mono {s : Sch} {k k' : Nat} {t : Name} {vs : Nat} {ps : List Bytes} {m : Nat} (h : SelfC s k t vs ps m) (hk : k ≤ k') :
    SelfC s k' t vs ps m :=
  ⟨h.len, h.mpos, h.pre, fun b x hb j hj => h.info b x hb j (by omega), h.vtl⟩

/-- What is shown for a value. -/
structure Good (s : Sch) (F : Nat) (v : Val) (c : CNode) (w : List Bytes) : Prop where
  node  : v.node s (F + 1) = some c
  root  : c.inRoot = some false
  name  : c.name = v.name
  pos   : c.pos = 4 + 2 * (s.fields v.name).length
  size  : c.size = -1
  few   : 4 + 2 * (s.fields v.name).length < 65536
  mem   : Fbs.Reads c.io 0 w
  held  : HoldsC c.io (cellsAt 0 w)
  self  : SelfC s v.need v.name (4 + 2 * (s.fields v.name).length) w (v.data s)
  reads : ∀ b x, HoldsC b (cellsAt x w) → ∀ c : CNode, c.name = v.name → c.io = b → c.pos = x + (4 + 2 * (s.fields v.name).length) → v.Reads s c
  tab   : ∃ vo, TabAt c.io 0 (s.fields v.name).length vo
  room  : c.io.lenBuf ≤ tot w + v.spare s
  wire  : ∀ d x, HoldsC (Base.new ⟨d, []⟩) (cellsAt x w) → v.Wire s d (x + (4 + 2 * (s.fields v.name).length))
  laid  : ∀ b x, HoldsC b (cellsAt x w) → v.Laid s b x (x + tot w)

theorem Good.len {s : Sch} {F : Nat} {v : Val} {c : CNode} {w : List Bytes} (h : Good s F v c w) :
    tot w = 4 + 2 * (s.fields v.name).length + v.data s := h.self.len

theorem flatten_cell {x : Nat} {w : List Bytes} {q : Nat × Bytes} (hq : q ∈ cellsAt x w) : (w.flatten.drop (q.1 - x)).take q.2.length = q.2 := by
  induction w generalizing x with
  | nil => cases hq
  | cons v w ih =>
    rw [List.flatten_cons]
    rcases List.mem_cons.mp hq with rfl | hq
    · rw [Nat.sub_self, List.drop_zero, List.take_append_of_le_length (Nat.le_refl _), List.take_length]
    · have hm := cellsAt_mem hq
      rw [show q.1 - x = v.length + (q.1 - (x + v.length)) by omega, ← List.drop_drop, List.drop_left]
      exact ih hq

theorem holdsC_one {b : Base} {x : Nat} {w : Bytes} (h : HoldsC b (cellsAt x [w])) : Holds b x w := h (x, w) (by simp [cellsAt])

theorem held_flatten {b : Base} {l : List (Nat × Bytes)} (h : HoldsC b l) : HoldsC b.flatten l := fun q hq => holds_flatten (h q hq)

/-- The pieces in which a stored value is copied. -/
def pieces (fl : Bool) (w : List Bytes) : List Bytes := if fl then [w.flatten] else w

theorem tot_pieces (fl : Bool) (w : List Bytes) : tot (pieces fl w) = tot w := by
  cases fl
  · rfl
  · simp only [pieces, if_true]
    rw [tot_cons, tot_flatten]
    simp [tot]

theorem held_pieces {fl : Bool} {w : List Bytes} (hne : ∀ v ∈ w, v ≠ []) {b : Base} {x : Nat} (h : HoldsC b (cellsAt x (pieces fl w))) :
    HoldsC b (cellsAt x w) := by
  cases fl
  · exact h
  · intro q hq
    have h0 : Holds b x w.flatten := h (x, w.flatten) (by simp [pieces, cellsAt])
    have hm := cellsAt_mem hq
    have hql := List.length_pos_iff.mpr (cellsAt_ne hne hq)
    have := holds_sub h0 (q.1 - x) q.2.length hql (by rw [tot_flatten]; omega)
    rw [show x + (q.1 - x) = q.1 by omega, flatten_cell hq] at this
    exact this

theorem SelfC_pieces {s : Sch} {k : Nat} {t : Name} {vs : Nat} {w : List Bytes} {m : Nat} (h : SelfC s k t vs w m) (fl : Bool)
    (hne : ∀ v ∈ w, v ≠ []) : SelfC s k t vs (pieces fl w) m :=
  ⟨by rw [tot_pieces]; exact h.len, h.mpos, fun b x hb => h.pre b x (held_pieces hne hb), fun b x hb => h.info b x (held_pieces hne hb),
    fun b x hb => h.vtl b x (held_pieces hne hb)⟩

theorem Good.src {s : Sch} {F : Nat} {v : Val} {c : CNode} {w : List Bytes} (h : Good s F v c w) (fl : Bool) {K : Nat} (hK : v.need ≤ K) :
    TSrc s K v.name (4 + 2 * (s.fields v.name).length) (stored fl c) ⟨pieces fl w, v.data s⟩ := by
  have hne := reads_ne h.mem
  have hs := SelfC_pieces (h.self.mono hK) fl hne
  have hpos := h.pos
  have hmem : Fbs.Reads (stored fl c).io 0 (pieces fl w) ∧ HoldsC (stored fl c).io (cellsAt 0 (pieces fl w)) := by
    cases fl
    · exact ⟨h.mem, h.held⟩
    · have h0 : Holds c.io.flatten 0 w.flatten := by
        have hw : w.flatten ≠ [] := by
          intro h0
          have h1 := h.len
          have h2 := h.self.mpos
          rw [← tot_flatten, h0] at h1
          simp at h1
          omega
        exact spells_flatten hw (holdsC_spells h.held)
      exact ⟨reads_one h0, holdsC_single h0⟩
  have e : (stored fl c).name = v.name ∧ (stored fl c).pos = 4 + 2 * (s.fields v.name).length ∧ (stored fl c).size = -1 := by
    cases fl
    · exact ⟨h.name, h.pos, h.size⟩
    · exact ⟨h.name, h.pos, h.size⟩
  obtain ⟨e1, e2, e3⟩ := e
  refine ⟨e1, by rw [e2]; exact Nat.le_refl _, ?_, hs, Or.inr ⟨by rw [e3]; omega, ?_⟩⟩
  · rw [e2, Nat.sub_self]
    exact hmem.1
  · intro k hk
    exact ⟨_, hs.info _ 0 hmem.2 k hk _ e1 rfl (by rw [e2]; omega)⟩

/-- What is shown for the field of variable length: `l` sets it, `vec` is what is then behind the table. -/
structure SubGood (s : Sch) (F : Nat) (nm : Name) (before cur : Nat → Option Bytes) (sub : Sub) (l : List Setting)
    (vec : Option (Nat × Nat × List Bytes)) : Prop where
  sets  : sub.settings s (F + 1) = some l
  fld   : vec.map Prod.fst = sub.field
  spare : ∀ pre post, TI.tailSlack (tailOf vec) = (Val.tab nm pre sub post).spare s
  grp   : ∀ i fd q, vec = some (i, q) → (s.fields nm)[i]? = some fd → ¬ InlGrp fd.grp
  extra : (if vec = none then 0 else 4) + tailLen vec = sub.extra s
  step  : ∀ c, Rep s nm c before none → ∃ c' cur', runSets s (F + 1) c l = some c' ∧ Rep s nm c' cur' (tailOf vec) ∧
    ∀ j, (∀ q, vec ≠ some (j, q)) → cur' j = before j
  tail  : ∀ i gap W, vec = some (i, gap, W) → ∀ c e, Leads s nm c i e gap → HoldsC c.io (cellsAt e W) → (∃ tl, CNode.preLoad c.io c.pos = some tl) →
    (∀ j fd, (s.fields nm)[j]? = some fd → InlGrp fd.grp → FieldRead s nm c j (cur j)) →
    sub.Reads s c ∧ ∀ k, sub.need + 2 ≤ k → ∃ v, valueInfoF s k c i = some v ∧ v.pos + v.size = (e + tot W : Nat)
  none_ : vec = none → (∀ c, sub.Reads s c) ∧ ∀ d t, sub.Wire s d t
  wire  : ∀ i gap W, vec = some (i, gap, W) → ∀ d t p e, Fb.fieldPos d t i = some p → p + 4 ≤ d.length → Fb.follow d p = e + gap →
    HoldsC (Base.new ⟨d, []⟩) (cellsAt e W) → sub.Wire s d t
  laid  : ∀ i gap W, vec = some (i, gap, W) → gap = sub.gap s ∧ ∀ b e, HoldsC b (cellsAt e W) → sub.Laid s b e (e + tot W)
  laid0 : vec = none → ∀ b e, sub.Laid s b e e

/-- What is shown for the elements of a list. -/
structure ValsGood (s : Sch) (F : Nat) (t : Name) (vl : Vals) (items : List (CNode × El)) : Prop where
  nodes : vl.nodes s (F + 1) = some (items.map Prod.fst)
  src   : ∀ x ∈ items, TSrc s vl.need t (4 + 2 * (s.fields t).length) x.1 x.2
  count : items.length = vl.count
  total : sumTot (items.map Prod.snd) = vl.total s
  reads : ∀ l k, (∀ j e, (items.map Prod.snd)[j]? = some e → ∃ b x nd, l.at_ s ((k + j : Nat) : Int) = some (.ok nd) ∧ nd.name = t ∧
    nd.io = b ∧ nd.pos = x + (4 + 2 * (s.fields t).length) ∧ HoldsC b (cellsAt x e.ps)) → vl.Reads s l k
  wire  : ∀ d p, (∀ j e, (items.map Prod.snd)[j]? = some e → ∃ x, p + 4 * j + 4 ≤ d.length ∧
    Fb.follow d (p + 4 * j) = x + (4 + 2 * (s.fields t).length) ∧ HoldsC (Base.new ⟨d, []⟩) (cellsAt x e.ps)) → vl.Wire s d p
  laid  : ∀ b A x, (∀ j e, (items.map Prod.snd)[j]? = some e →
    Holds b (A + 4 * j) (putLE 4 (x + sumTot ((items.map Prod.snd).take j) + (4 + 2 * (s.fields t).length) - (A + 4 * j))) ∧
    HoldsC b (cellsAt (x + sumTot ((items.map Prod.snd).take j)) e.ps)) → vl.Laid s b A x (x + sumTot (items.map Prod.snd))

/-- A number in the bytes. -/
theorem held_le {d : Bytes} {p v : Nat} (h : Holds (Base.new ⟨d, []⟩) p (putLE 4 v)) (hv : v < 4294967296) : p + 4 ≤ d.length ∧ Fb.le d 4 p = v := by
  have h1 := spelt_of (h := []) h
  rw [flatten_new, List.nil_append, List.length_nil, Nat.zero_add] at h1
  have h2 := h1.1
  rw [putLE_length] at h2
  have h3 := le_spelt h1
  rw [Nat.mod_eq_of_lt (by omega)] at h3
  exact ⟨h2, h3⟩

theorem _root_.Fbs.TSrc.mono {s : Sch} {k k' : Nat} {t : Name} {vs : Nat} {f : CNode} {e : El} (h : TSrc s k t vs f e) (hk : k ≤ k') :
    TSrc s k' t vs f e :=
  ⟨h.name, h.vpos, h.mem, h.self.mono hk, h.size.imp_right fun h => ⟨h.1, fun j hj => h.2 j (by omega)⟩⟩

theorem sumTot_nil : sumTot [] = 0 := rfl

theorem sumTot_cons (e : El) (es : List El) : sumTot (e :: es) = tot e.ps + sumTot es := by simp [sumTot]

theorem vals_nil {s : Sch} {F : Nat} {t : Name} : ValsGood s F t .nil [] :=
  ⟨by rw [Vals.nodes]; rfl, fun x hx => (by cases hx), rfl, by rw [Vals.total]; rfl, fun l k _ => by rw [Vals.Reads]; trivial, fun d p _ => by rw [Vals.Wire]; trivial,
    fun b A x _ => by rw [Vals.Laid]; exact Nat.le_add_right _ _⟩

theorem vals_cons {s : Sch} {F : Nat} {t : Name} {v : Val} {vl : Vals} {c : CNode} {w : List Bytes} {items : List (CNode × El)} (fl : Bool)
    (hn : v.name = t) (hv : Good s F v c w) (hl : ValsGood s F t vl items) :
    ValsGood s F t (.cons fl v vl) ((stored fl c, ⟨pieces fl w, v.data s⟩) :: items) := by
  subst hn
  refine ⟨?_, ?_, ?_, ?_, ?_, ?_, ?_⟩
  · rw [Vals.nodes, hv.node, hl.nodes]; rfl
  · intro x hx
    rw [Vals.need]
    rcases List.mem_cons.mp hx with rfl | hx
    · exact hv.src fl (Nat.le_max_left _ _)
    · exact (hl.src x hx).mono (Nat.le_max_right _ _)
  · rw [List.length_cons, hl.count, Vals.count]
  · have h1 := hv.len
    have h2 := hl.total
    rw [Vals.total, ← h2]
    have h3 := tot_pieces fl w
    simp only [sumTot, List.map_cons, List.sum_cons, h3]
    omega
  · intro l k h
    rw [Vals.Reads]
    refine ⟨?_, ?_⟩
    · obtain ⟨b, x, nd, h1, h2, h3, h4, h5⟩ := h 0 ⟨pieces fl w, v.data s⟩ rfl
      exact ⟨nd, by simpa using h1, hv.reads b x (held_pieces (reads_ne hv.mem) h5) nd h2 h3 h4⟩
    · refine hl.reads l (k + 1) ?_
      intro j e he
      obtain ⟨b, x, nd, h1, h2⟩ := h (j + 1) e (by simpa using he)
      exact ⟨b, x, nd, by rw [show k + 1 + j = k + (j + 1) by omega]; exact h1, h2⟩
  · intro d p h
    rw [Vals.Wire]
    obtain ⟨x, h1, h2, h3⟩ := h 0 ⟨pieces fl w, v.data s⟩ rfl
    rw [Nat.mul_zero, Nat.add_zero] at h1 h2
    refine ⟨h1, ?_, ?_⟩
    · rw [h2]
      exact hv.wire d x (held_pieces (reads_ne hv.mem) h3)
    · refine hl.wire d (p + 4) ?_
      intro j e he
      obtain ⟨x, h1, h2, h3⟩ := h (j + 1) e (by simpa using he)
      exact ⟨x, by omega, by rw [show p + 4 + 4 * j = p + 4 * (j + 1) by omega]; exact h2, h3⟩
  · intro b A x h
    rw [Vals.Laid]
    have h3 := tot_pieces fl w
    obtain ⟨h1, h2⟩ := h 0 ⟨pieces fl w, v.data s⟩ rfl
    simp only [List.take_zero, sumTot_nil, Nat.mul_zero, Nat.add_zero] at h1 h2
    refine ⟨x + tot w, hv.laid b x (held_pieces (reads_ne hv.mem) h2), h1, ?_⟩
    have := hl.laid b (A + 4) (x + tot w) (by
      intro j e he
      obtain ⟨g1, g2⟩ := h (j + 1) e (by simpa using he)
      simp only [List.map_cons, List.take_succ_cons, sumTot_cons, h3] at g1 g2
      rw [show A + 4 + 4 * j = A + 4 * (j + 1) by omega, show ∀ z, x + tot w + z = x + (tot w + z) from fun z => Nat.add_assoc ..]
      exact ⟨g1, g2⟩)
    simp only [List.map_cons, sumTot_cons, h3]
    rw [← Nat.add_assoc]
    exact this

theorem sub_none {s : Sch} {F : Nat} {nm : Name} {before cur : Nat → Option Bytes} : SubGood s F nm before cur .none [] none := by
  refine ⟨by rw [Sub.settings], rfl, fun _ _ => rfl, fun i fd q h => (by cases h), by rw [Sub.extra]; rfl, ?_,
    fun i gap W h => (by cases h), fun _ => ⟨fun c => by rw [Sub.Reads]; trivial, fun d t => by rw [Sub.Wire]; trivial⟩, fun i gap W h => (by cases h),
    fun i gap W h => (by cases h), fun _ b e => by rw [Sub.Laid]; exact Nat.le_refl _⟩
  intro c h
  exact ⟨c, before, rfl, h, fun j _ => rfl⟩

theorem runSets_one {s : Sch} {fuel : Nat} {c c' : CNode} {o : Setting} (h : c.setFieldAt s fuel o.field o.node = some (c', none)) :
    runSets s fuel c [o] = some c' := by
  simp only [runSets, h]

theorem sub_bytes {s : Sch} {F : Nat} {nm : Name} (hs : DeepType s nm) {before cur : Nat → Option Bytes} {i : Nat} {f : CNode} {data : Bytes}
    (h : VecSrc s (F + 1) nm i f data) (hd : data.length < 4294967296) :
    SubGood s F nm before cur (.bytes i f data) [⟨i, f, data⟩] (some (i, 0, [putLE 4 data.length ++ data])) := by
  obtain ⟨fd, hfd, hg, hrest⟩ := id h
  have htn : fd.tname = "[]byte".toList := by
    cases hs.flds i fd hfd with
    | inline h' _ => rw [hg] at h'; exact absurd h' (by intro h'; rcases h' with h' | h' | h' | h' | h' <;> exact absurd h' (by decide))
    | table h' => rw [hg] at h'; exact absurd h' (by decide)
    | union h' => rw [hg] at h'; exact absurd h' (by decide)
    | list h' => rw [hg] at h'; exact absurd h' (by intro h'; rcases h' with h' | h' | h' | h' <;> exact absurd h' (by decide))
    | bytes _ h' => exact h'
  refine ⟨by rw [Sub.settings], rfl, fun _ _ => rfl, ?_, ?_, ?_, ?_, fun h => (by cases h), ?_, ?_, fun h => (by cases h)⟩
  · intro j fd' q hq hfd'
    cases hq
    rw [hfd] at hfd'; cases hfd'
    rw [hg]
    intro h'; rcases h' with h' | h' | h' | h' | h' <;> exact absurd h' (by decide)
  · rw [Sub.extra, if_neg (by simp), tailLen, tot_cons, List.length_append, putLE_length]; rfl
  · intro c hr
    obtain ⟨c', h1, h2⟩ := set_vector hs.ok hr h
    refine ⟨c', _, runSets_one (o := ⟨i, f, data⟩) h1, h2, ?_⟩
    intro j hj
    exact if_neg fun e : j = i => hj (_, _) (by rw [e])
  · intro j gap W hq c e hL hH _ _
    cases hq
    obtain ⟨h1, h2⟩ := tail_bytes hs.notStruct hL hfd hg htn hd (holdsC_one hH)
    refine ⟨by rw [Sub.Reads]; exact h1, ?_⟩
    intro k hk
    rw [Sub.need] at hk
    obtain ⟨k, rfl⟩ : ∃ j, k = j + 2 := ⟨k - 2, by omega⟩
    have := h2 k
    simpa [tot] using this
  · intro j gap W hq d t p e h1 h2 h3 hH
    cases hq
    rw [Nat.add_zero] at h3
    have h4 := spelt_of (h := []) (holdsC_one hH)
    rw [flatten_new, List.nil_append, List.length_nil, Nat.zero_add] at h4
    obtain ⟨h5, h6⟩ := spelt_append h4
    rw [putLE_length] at h6
    have h7 := h6.1
    have h8 := le_spelt h5
    rw [Nat.mod_eq_of_lt (by omega)] at h8
    rw [Sub.Wire]
    refine ⟨p, h1, ⟨h2, by rw [h3, h8]; omega⟩, ?_⟩
    unfold Fb.bytesAt
    rw [h3, h8]
    exact h6.2
  · intro j gap W hq
    cases hq
    refine ⟨rfl, fun b e hH => ?_⟩
    rw [Sub.Laid]
    have := holdsC_one hH
    refine ⟨this, ?_⟩
    rw [tot_cons, List.length_append, putLE_length]
    exact Nat.le_refl _

theorem sub_table {s : Sch} {F : Nat} {nm : Name} (hs : DeepType s nm) {before cur : Nat → Option Bytes} {i : Nat} {v : Val} {f : CNode}
    {w : List Bytes} {fd : FieldT} (fl : Bool) (hv : Good s F v f w) (hF : v.need ≤ F) (hF3 : 2 ≤ F) (hfd : (s.fields nm)[i]? = some fd) (hg : fd.grp = ftTable)
    (hn : fd.tname = v.name) :
    SubGood s F nm before cur (.table i fl v) [⟨i, stored fl f, []⟩] (some (i, 4 + 2 * (s.fields v.name).length, pieces fl w)) := by
  have hsrc := hv.src fl (K := F + 1) (by omega)
  have hname : (stored fl f).name = v.name := hsrc.name
  refine ⟨by rw [Sub.settings, hv.node]; rfl, rfl, ?_, ?_, ?_, ?_, ?_, fun h => (by cases h), ?_, ?_, fun h => (by cases h)⟩
  · intro pre post
    show (if 4 + 2 * (s.fields v.name).length = 0 then 0 else TI.tailSum (cellsAt 0 (pieces fl w))) = 4 + 2 * (s.fields v.name).length + v.data s
    rw [if_neg (by omega), tailSum_cellsAt, tot_pieces, hv.len]
  · intro j fd' q hq hfd'
    cases hq
    rw [hfd] at hfd'; cases hfd'
    rw [hg]
    intro h'; rcases h' with h' | h' | h' | h' | h' <;> exact absurd h' (by decide)
  · rw [Sub.extra, if_neg (by simp), tailLen, tot_pieces, hv.len]
  · intro c hr
    have hT : TabSrc s (F + 1) nm i fd (stored fl f) (pieces fl w) (v.data s) := by
      refine ⟨hfd, Or.inl hg, Or.inl (by rw [hname, hn]), ?_, ?_, ?_, ?_, hsrc.self.mpos, ?_⟩
      · rw [hname]; exact hsrc.vpos
      · rw [hname]; exact hv.few
      · rw [hname]; exact hsrc.mem
      · rw [hname]; exact hsrc.self.len
      · rcases hsrc.size with h | ⟨h1, h2⟩
        · exact Or.inl h
        · obtain ⟨p, hp⟩ := h2 (F + 1) (by omega)
          exact Or.inr ⟨h1, _, hp, rfl⟩
    obtain ⟨c', h1, h2⟩ := set_table hs.ok hr hT (by
      obtain ⟨k, rfl⟩ : ∃ j, F = j + 2 := ⟨F - 2, by omega⟩
      exact table_info_absent hs.toSmallTable hfd hg c hr)
    refine ⟨c', _, runSets_one (o := ⟨i, stored fl f, []⟩) h1, by rw [hname] at h2; exact h2, ?_⟩
    intro j hj
    exact if_neg fun e : j = i => hj (_, _) (by rw [e])
  · intro j gap W hq c e hL hH _ _
    cases hq
    obtain ⟨⟨tl, h1⟩, h2⟩ := tail_table hs.notStruct hL hfd hg hn (SelfC_pieces hv.self fl (reads_ne hv.mem)) hH
    refine ⟨by rw [Sub.Reads]; exact ⟨_, h1, hv.reads c.io e (held_pieces (reads_ne hv.mem) hH) _ rfl rfl rfl⟩, ?_⟩
    intro k hk
    rw [Sub.need] at hk
    obtain ⟨k, rfl⟩ : ∃ j, k = j + 1 := ⟨k - 1, by omega⟩
    exact h2 k (by omega)
  · intro j gap W hq d t p e h1 h2 h3 hH
    cases hq
    rw [Sub.Wire]
    exact ⟨p, h1, h2, by rw [h3]; exact hv.wire d e (held_pieces (reads_ne hv.mem) hH)⟩
  · intro j gap W hq
    cases hq
    refine ⟨rfl, fun b e hH => ?_⟩
    rw [Sub.Laid, tot_pieces]
    exact hv.laid b e (held_pieces (reads_ne hv.mem) hH)

theorem sub_union {s : Sch} {F : Nat} {nm : Name} (hs : DeepType s nm) {pre : List Setting} {cur : Nat → Option Bytes} {i : Nat} {v : Val} {f : CNode}
    {w : List Bytes} {fd : FieldT} (fl : Bool) {tag : UInt8} (hv : Good s F v f w) (hF : v.need ≤ F) (hF3 : 2 ≤ F) (hfd : (s.fields nm)[i + 1]? = some fd)
    (hg : fd.grp = ftUnion) (htags : TagsOk s nm (lastSet pre)) (hcur : cur i = some [tag]) (h0 : 0 < tag.toNat)
    (hmem : ((s.unions fd.tname).getD [])[tag.toNat - 1]? = some v.name) :
    SubGood s F nm (lastSet pre) cur (.union i fl v) [⟨i + 1, stored fl f, []⟩] (some (i + 1, 4 + 2 * (s.fields v.name).length, pieces fl w)) := by
  have hsrc := hv.src fl (K := F + 1) (by omega)
  have hname : (stored fl f).name = v.name := hsrc.name
  obtain ⟨td, htd, htg⟩ : ∃ td, (s.fields nm)[i]? = some td ∧ td.grp = ftBasic1 := by
    cases hs.flds (i + 1) fd hfd with
    | inline h' _ => rw [hg] at h'; exact absurd h' (by intro h'; rcases h' with h' | h' | h' | h' | h' <;> exact absurd h' (by decide))
    | table h' => rw [hg] at h'; exact absurd h' (by decide)
    | union _ j td hj htd htg =>
      have : i = j := by omega
      subst this
      exact ⟨td, htd, htg⟩
    | list h' => rw [hg] at h'; exact absurd h' (by intro h'; rcases h' with h' | h' | h' | h' <;> exact absurd h' (by decide))
    | bytes h' => rw [hg] at h'; exact absurd h' (by decide)
  refine ⟨by rw [Sub.settings, hv.node]; rfl, rfl, ?_, ?_, ?_, ?_, ?_, fun h => (by cases h), ?_, ?_, fun h => (by cases h)⟩
  · intro pre post
    show (if 4 + 2 * (s.fields v.name).length = 0 then 0 else TI.tailSum (cellsAt 0 (pieces fl w))) = 4 + 2 * (s.fields v.name).length + v.data s
    rw [if_neg (by omega), tailSum_cellsAt, tot_pieces, hv.len]
  · intro j fd' q hq hfd'
    cases hq
    rw [hfd] at hfd'; cases hfd'
    rw [hg]
    intro h'; rcases h' with h' | h' | h' | h' | h' <;> exact absurd h' (by decide)
  · rw [Sub.extra, if_neg (by simp), tailLen, tot_pieces, hv.len]
  · intro c hr
    have hT : TabSrc s (F + 1) nm (i + 1) fd (stored fl f) (pieces fl w) (v.data s) := by
      refine ⟨hfd, Or.inr hg, Or.inr ⟨hg, by rw [hname]; exact List.mem_of_getElem? hmem⟩, ?_, ?_, ?_, ?_, hsrc.self.mpos, ?_⟩
      · rw [hname]; exact hsrc.vpos
      · rw [hname]; exact hv.few
      · rw [hname]; exact hsrc.mem
      · rw [hname]; exact hsrc.self.len
      · rcases hsrc.size with h | ⟨h1, h2⟩
        · exact Or.inl h
        · obtain ⟨p, hp⟩ := h2 (F + 1) (by omega)
          exact Or.inr ⟨h1, _, hp, rfl⟩
    obtain ⟨c', h1, h2⟩ := set_table hs.ok hr hT (by
      obtain ⟨k, rfl⟩ : ∃ j, F = j + 2 := ⟨F - 2, by omega⟩
      exact union_info_absent hs.toSmallTable hfd hg htd htg (fun u hu => htags i fd hfd hg u hu) c hr)
    refine ⟨c', _, runSets_one (o := ⟨i + 1, stored fl f, []⟩) h1, by rw [hname] at h2; exact h2, ?_⟩
    intro j hj
    exact if_neg fun e : j = i + 1 => hj (_, _) (by rw [e])
  · intro j gap W hq c e hL hH _ hread
    cases hq
    have hr := hread i td htd (inlGrp_basic1 htg)
    rw [hcur] at hr
    obtain ⟨nd, n1, n2⟩ := fieldRead_tag hr
    obtain ⟨⟨tl, h1⟩, h2⟩ := tail_union hs.notStruct hL hfd hg h0 tag.toNat_lt hmem n1 n2 (SelfC_pieces hv.self fl (reads_ne hv.mem)) hH
    refine ⟨by rw [Sub.Reads]; exact ⟨_, h1, hv.reads c.io e (held_pieces (reads_ne hv.mem) hH) _ rfl rfl rfl⟩, ?_⟩
    intro k hk
    rw [Sub.need] at hk
    obtain ⟨k, rfl⟩ : ∃ j, k = j + 1 := ⟨k - 1, by omega⟩
    exact h2 k (by omega)
  · intro j gap W hq d t p e h1 h2 h3 hH
    cases hq
    rw [Sub.Wire]
    exact ⟨p, h1, h2, by rw [h3]; exact hv.wire d e (held_pieces (reads_ne hv.mem) hH)⟩
  · intro j gap W hq
    cases hq
    refine ⟨rfl, fun b e hH => ?_⟩
    rw [Sub.Laid, tot_pieces]
    exact hv.laid b e (held_pieces (reads_ne hv.mem) hH)

theorem sub_list {s : Sch} {F : Nat} {nm : Name} (hs : DeepType s nm) {before cur : Nat → Option Bytes} {i : Nat} {t : Name} {vl : Vals}
    {items : List (CNode × El)} {fd : FieldT} (fl : Bool) (hv : ValsGood s F t vl items) (hF : vl.need ≤ F) (hfd : (s.fields nm)[i]? = some fd)
    (hg : fd.grp = ftSlice ||| ftTable) (hn : fd.tname = '[' :: ']' :: t) (ht : TabElt s t) (hsm : 4 + 4 * vl.count + vl.total s < 4294967296) :
    ∃ l W, SubGood s F nm before cur (.list i fl t vl) [⟨i, stored fl l, []⟩] (some (i, 0, W)) := by
  have hE : elEnd (items.map Prod.snd) = 4 + 4 * vl.count + vl.total s := by
    unfold elEnd
    rw [List.length_map, hv.count, hv.total]
  obtain ⟨l, hl, hT, hal⟩ := append_TLI_al (k := F) ht (by omega) hF items (initList_TLI (s := s) (k0 := vl.need) (t := t)
    (vs := 4 + 2 * (s.fields t).length)) hv.src (by rw [List.nil_append, hE]; exact hsm)
  have hal := hal initList_aligned
  rw [List.nil_append] at hT hal
  have hV := hT.view
  have hE4 : 4 ≤ elEnd (items.map Prod.snd) := by unfold elEnd; omega
  obtain ⟨W, hWt, hcopy, hheld, hLat⟩ : ∃ W, tot W = elEnd (items.map Prod.snd) ∧ CopyEnd (stored fl l).io 0 (tot W) (cellsAt 0 W) ∧
      HoldsC (stored fl l).io (cellsAt 0 W) ∧ ∀ (nd : CNode) (e : Nat), nd.name = '[' :: ']' :: t → nd.vi.pos = ((e + 4 : Nat) : Int) →
      HoldsC nd.io (cellsAt e W) → LAt s vl.need t (4 + 2 * (s.fields t).length) e nd (items.map Prod.snd) := by
    cases fl with
    | false =>
      obtain ⟨h1, h2, h3⟩ := hT.pieces hal
      exact ⟨_, h1, copyEnd_reads h2, h3, fun nd e n1 n2 hH => listPs_LAt hT n1 n2 hH⟩
    | true =>
      have hlen := hV.bytes_len
      have hWl : (l.io.flatten.bytes.data.take (elEnd (items.map Prod.snd))).length = elEnd (items.map Prod.snd) := by
        rw [List.length_take]; omega
      have hheld := flat_take hlen (by omega)
      have hWt : tot [l.io.flatten.bytes.data.take (elEnd (items.map Prod.snd))] = elEnd (items.map Prod.snd) := by
        rw [tot_cons, hWl]; rfl
      exact ⟨[l.io.flatten.bytes.data.take (elEnd (items.map Prod.snd))], hWt, copyEnd_reads (reads_one hheld), holdsC_single hheld,
        fun nd e n1 n2 hH => hV.found hlen n1 n2 (holdsC_one hH)⟩
  have hfix : (stored fl l).name = '[' :: ']' :: t ∧ (stored fl l).vi = l.vi := by
    cases fl
    · exact ⟨hT.name, rfl⟩
    · exact ⟨hT.name, rfl⟩
  obtain ⟨f1, f2⟩ := hfix
  have hL0 := hLat (stored fl l) 0 f1 (by rw [f2, hT.vpos]; rfl) hheld
  refine ⟨l, W, by rw [Sub.settings, hv.nodes]; simp only [Option.bind_some]; rw [hl]; rfl, rfl, fun _ _ => rfl, ?_, ?_, ?_, ?_, fun h => (by cases h), ?_, ?_, fun h => (by cases h)⟩
  · intro j fd' q hq hfd'
    cases hq
    rw [hfd] at hfd'; cases hfd'
    rw [hg]
    intro h'; rcases h' with h' | h' | h' | h' | h' <;> exact absurd h' (by decide)
  · rw [Sub.extra, if_neg (by simp), tailLen, hWt, hE]
  · intro c hr
    have hS : SliceSrcC s (F + 1) nm i (stored fl l) (tot W) (cellsAt 0 W) := by
      refine ⟨fd, hfd, by rw [hg]; decide, by rw [hn]; exact f1, by rw [f2, hT.vpos]; omega, ?_, ?_, Or.inr ⟨_, hL0.infoSlice ht F hF, by simp only; omega⟩⟩
      · rw [hWt, f2]
        by_cases hne : items = []
        · subst hne
          simp only [List.map_nil, runAppend, Option.some.injEq] at hl
          subst hl
          simp [initList, elEnd, sumTot]
        · have := hT.vsize (by simpa using hne)
          rw [this]
          unfold elEnd
          omega
      · rw [f2, hT.vpos]
        exact hcopy
    obtain ⟨c', h1, h2⟩ := set_sliceC hs.ok hr [] hS
    refine ⟨c', _, runSets_one (o := ⟨i, stored fl l, []⟩) h1, h2, ?_⟩
    intro j hj
    exact if_neg fun e : j = i => hj (_, _) (by rw [e])
  · intro j gap V hq c e hL hH hpre _
    cases hq
    have hsm' : (items.map Prod.snd).length < 4294967296 := by
      have := hT.small
      unfold elEnd at this
      omega
    have hhd : Holds c.io e (putLE 4 (items.map Prod.snd).length) :=
      (hLat { name := '[' :: ']' :: t, io := c.io, pos := 0, vi := { pos := ((e + 4 : Nat) : Int) } } e rfl rfl hH).hdr
    obtain ⟨⟨nd, h1, h2, h3⟩, h4⟩ := tail_list (k0 := vl.need) (vs := 4 + 2 * (s.fields t).length) (es := items.map Prod.snd) hs.notStruct hL hfd hg hn ht hpre hsm' hhd
      (fun nd n1 n2 n3 => hLat nd e n1 n3 (by rw [n2]; exact hH))
    refine ⟨?_, ?_⟩
    · rw [Sub.Reads]
      refine ⟨nd, h1, by rw [h3.listLen, List.length_map, hv.count], hv.reads nd 0 ?_⟩
      intro j el hj
      obtain ⟨tl, h5⟩ := h3.at_eq ht hj
      exact ⟨nd.io, e + elX (items.map Prod.snd) j, { name := t, io := nd.io, pos := e + elX (items.map Prod.snd) j + (4 + 2 * (s.fields t).length), tlen := tl }, by rw [Nat.zero_add]; exact h5, rfl, rfl, rfl, h3.elt j el hj⟩
    · intro k hk
      rw [Sub.need] at hk
      obtain ⟨k, rfl⟩ : ∃ j, k = j + 2 := ⟨k - 2, by omega⟩
      rw [hWt]
      exact h4 k (by omega)
  · intro j gap V hq d x p e h1 h2 h3 hH
    cases hq
    rw [Nat.add_zero] at h3
    have hsm' : (items.map Prod.snd).length < 4294967296 := by
      have := hT.small
      unfold elEnd at this
      omega
    have hL := hLat { name := '[' :: ']' :: t, io := Base.new ⟨d, []⟩, pos := 0, vi := { pos := ((e + 4 : Nat) : Int) } } e rfl rfl hH
    obtain ⟨h5, h6⟩ := held_le hL.hdr hsm'
    rw [Sub.Wire]
    refine ⟨p, h1, h2, by rw [h3]; exact h5, by rw [h3, h6, List.length_map, hv.count], ?_⟩
    rw [h3]
    refine hv.wire d (e + 4) ?_
    intro j el hj
    have hjl := (List.getElem?_eq_some_iff.mp hj).1
    have h9 := elX_end hj
    have hsm := hT.small
    have hgap : 4 + 4 * j ≤ elX (items.map Prod.snd) j := by unfold elX; omega
    have hse := (hT.view.self el (List.mem_of_getElem? hj)).len
    have hvl : tot el.ps = 4 + 2 * (s.fields t).length + el.m := hse
    obtain ⟨h7, h8⟩ := held_le (hL.off j hjl) (by omega)
    refine ⟨e + elX (items.map Prod.snd) j, by omega, ?_, hL.elt j el hj⟩
    unfold Fb.follow
    rw [show e + 4 + 4 * j = e + (4 + 4 * j) by omega, h8]
    omega
  · intro j gap V hq
    cases hq
    refine ⟨rfl, fun b e hH => ?_⟩
    have hL := hLat { name := '[' :: ']' :: t, io := b, pos := 0, vi := { pos := ((e + 4 : Nat) : Int) } } e rfl rfl hH
    have hc : (items.map Prod.snd).length = vl.count := by rw [List.length_map, hv.count]
    rw [Sub.Laid, hWt]
    refine ⟨by rw [← hc]; exact hL.hdr, ?_⟩
    have := hv.laid b (e + 4) (e + 4 + 4 * vl.count) (by
      intro j el hj
      have hjl := (List.getElem?_eq_some_iff.mp hj).1
      have h1 := hL.off j hjl
      have h2 := hL.elt j el hj
      unfold elX at h1 h2
      rw [hc] at h1 h2
      refine ⟨?_, ?_⟩
      · convert h1 using 1
        · omega
        · congr 1; omega
      · convert h2 using 2
        omega)
    convert this using 1
    unfold elEnd
    omega

theorem _root_.Fbs.Piece.wire {s : Sch} {nm : Name} {cur : Nat → Option Bytes} {vec : Option (Nat × Nat × List Bytes)} {w : List Bytes} {t : Nat}
    {vo : Nat → Nat} {fx : Nat → Option Bytes} (h : Piece s nm cur vec w t vo fx) {d : Bytes} {x : Nat} (hb : HoldsC (Base.new ⟨d, []⟩) (cellsAt x w)) :
    WireTable d (x + (4 + 2 * (s.fields nm).length)) (s.fields nm).length ∧
    ∀ j (hj : j < (s.fields nm).length), (∀ q, vec ≠ some (j, q)) → (cur j ≠ none → InlGrp ((s.fields nm)[j]).grp) → WireField d (x + (4 + 2 * (s.fields nm).length)) j (cur j) := by
  have hT := h.tab _ x hb
  obtain ⟨w1, w2⟩ := wire_of hT.tab []
  rw [flatten_new, List.nil_append, List.length_nil, Nat.zero_add] at w1 w2
  refine ⟨w1, ?_⟩
  intro j hj hv hi
  have hfd : (s.fields nm)[j]? = some (s.fields nm)[j] := List.getElem?_eq_getElem hj
  cases hc : cur j with
  | none =>
    have hfx : fx j = none := by
      by_cases hg : InlGrp ((s.fields nm)[j]).grp
      · rw [h.inl j _ hfd hg, hc]
      · exact h.oth j _ hfd hg hv
    show Fb.fieldPos _ _ _ = none
    rw [w2 j hj, if_pos (hT.abs j hj hfx)]
  | some u =>
    obtain ⟨g1, g2⟩ := hT.fld j hj u (by rw [h.inl j _ hfd (hi (by rw [hc]; simp)), hc])
    have := spelt_of (h := []) g2
    rw [flatten_new, List.nil_append, List.length_nil, Nat.zero_add] at this
    exact ⟨_, by rw [w2 j hj, if_neg g1], this⟩

theorem _root_.Fbs.Piece.wire_tail {s : Sch} {nm : Name} {cur : Nat → Option Bytes} {vec : Option (Nat × Nat × List Bytes)} {w : List Bytes} {t : Nat}
    {vo : Nat → Nat} {fx : Nat → Option Bytes} (h : Piece s nm cur vec w t vo fx) {i gap : Nat} {W : List Bytes} (hv : vec = some (i, gap, W))
    {d : Bytes} {x : Nat} (hb : HoldsC (Base.new ⟨d, []⟩) (cellsAt x w)) :
    ∃ p, Fb.fieldPos d (x + (4 + 2 * (s.fields nm).length)) i = some p ∧ p + 4 ≤ d.length ∧
      Fb.follow d p = x + (4 + 2 * (s.fields nm).length + t) + gap := by
  obtain ⟨h1, h2, h3, h4⟩ := h.tail i gap W hv
  have hT := h.tab _ x hb
  obtain ⟨w1, w2⟩ := wire_of hT.tab []
  rw [flatten_new, List.nil_append, List.length_nil, Nat.zero_add] at w1 w2
  obtain ⟨g1, g2⟩ := hT.fld i h1 _ h3
  have ht := h.ht
  obtain ⟨g3, g4⟩ := held_le g2 (by omega)
  have hw := h.wid i _ _ (List.getElem?_eq_getElem h1) h3
  refine ⟨_, by rw [w2 i h1, if_neg g1], g3, ?_⟩
  unfold Fb.follow
  rw [g4]
  omega

theorem val_step {s : Sch} {F : Nat} {nm : Name} (hs : DeepType s nm) {pre post : List Setting} {sub : Sub}
    (hops : ∀ o ∈ pre ++ post, InlSrc s nm o.field o.node o.val) (hne : sub.field = none → pre ++ post ≠ [])
    (hwide : ∀ i fd, (s.fields nm)[i]? = some fd → InlGrp fd.grp → fd.grp ≠ ftStruct → lastSet (pre ++ post) i = none →
      fieldWidth s fd ≤ dataLen (s.fields nm).length (lastSet (pre ++ post)) + sub.extra s)
    (hby : ∀ i fd, (s.fields nm)[i]? = some fd → fd.grp = ftSlice ||| ftBasic1 → sub.field = some i)
    (htags : TagsOk s nm (lastSet (pre ++ post))) {l : List Setting} {vec : Option (Nat × Nat × List Bytes)}
    (hsub : SubGood s F nm (lastSet pre) (lastSet (pre ++ post)) sub l vec) :
    ∃ c w, Good s F (.tab nm pre sub post) c w := by
  obtain ⟨g, hgt, hgs⟩ := hs.notList
  obtain ⟨c0, h0, r0⟩ := init_rep hs.ok hgt hgs
  obtain ⟨c1, h1, r1⟩ := inline_run hs.ok F r0 pre (fun o ho => hops o (List.mem_append_left _ ho))
  simp only [Option.or_none] at r1
  obtain ⟨c2, cur2, h2, r2, hcur2⟩ := hsub.step c1 r1
  obtain ⟨c3, h3, r3⟩ := inline_run hs.ok F r2 post (fun o ho => hops o (List.mem_append_right _ ho))
  have hvec : ∀ i fd, (s.fields nm)[i]? = some fd → InlGrp fd.grp → ∀ q, vec ≠ some (i, q) :=
    fun i fd hfd hg q hq => hsub.grp i fd q hq hfd hg
  have hcur : ∀ j, (∀ q, vec ≠ some (j, q)) → (lastSet post j).or (cur2 j) = lastSet (pre ++ post) j := by
    intro j hj
    rw [hcur2 j hj, lastSet_append]
  obtain ⟨w, t, vo, fx, hP, hR, hH, hname, hpos, hsz, hroom⟩ := rep_piece r3
  have hinl : ∀ i fd, (s.fields nm)[i]? = some fd → InlGrp fd.grp → (lastSet post i).or (cur2 i) = lastSet (pre ++ post) i :=
    fun i fd hfd hg => hcur i (hvec i fd hfd hg)
  have hno : ∀ i fd, (s.fields nm)[i]? = some fd → ¬ InlGrp fd.grp → lastSet (pre ++ post) i = none := by
    intro i fd hfd hg
    by_cases hc : lastSet (pre ++ post) i = none
    · exact hc
    · obtain ⟨hi, he⟩ := List.getElem?_eq_some_iff.mp hfd
      have := lastSet_src hops hi hc
      rw [he] at this
      exact absurd this hg
  have hsize := hP.size hinl hno hvec
  have hm : t + tailLen vec = dataLen (s.fields nm).length (lastSet (pre ++ post)) + sub.extra s := by
    rw [hsize, ← hsub.extra]; omega
  have hread : ∀ b x, HoldsC b (cellsAt x w) → ∀ c : CNode, c.name = nm → c.io = b → c.pos = x + (4 + 2 * (s.fields nm).length) →
      ∀ i, i < (s.fields nm).length → (∀ q, vec ≠ some (i, q)) → FieldRead s nm c i (lastSet (pre ++ post) i) := by
    intro b x hb c hn hio hp i hi hv
    have := hP.read hs.notStruct hb hn hio hp hi hv (by
      intro hc
      rw [hcur i hv] at hc
      exact lastSet_src hops hi hc)
    rw [hcur i hv] at this
    exact this
  have htail : ∀ i gap W, vec = some (i, gap, W) → ∀ b x, HoldsC b (cellsAt x w) → ∀ c : CNode, c.name = nm → c.io = b →
      c.pos = x + (4 + 2 * (s.fields nm).length) → sub.Reads s c ∧ ∀ k, sub.need + 2 ≤ k → ∃ v, valueInfoF s k c i = some v ∧
        v.pos + v.size = (x + (4 + 2 * (s.fields nm).length + t) + tot W : Nat) := by
    intro i gap W hv b x hb c hn hio hp
    refine hsub.tail i gap W hv c _ (hP.leads hv hb hn hio hp) ?_ ⟨t, by rw [hio, hp]; exact hP.preLoad hb⟩ ?_
    · rw [hio]; exact (hP.tail i gap W hv).2.2.2 b x hb
    · intro j fd hfd hg
      exact hread b x hb c hn hio hp j (List.getElem?_eq_some_iff.mp hfd).1 (hvec j fd hfd hg)
  have hself := hP.self (K := sub.need + 2) hs.notStruct hs.plain hs.flds (by
      intro i fd hfd hg v hv
      cases hs.flds (i + 1) fd hfd with
      | union _ j td hj htd htg =>
        have : i = j := by omega
        subst this
        have hv : (lastSet post i).or (cur2 i) = some v := hv
        rw [hinl i td htd (inlGrp_basic1 htg)] at hv
        exact htags i fd hfd hg v hv
      | inline h' _ => rw [hg] at h'; exact absurd h' (by intro h'; rcases h' with h' | h' | h' | h' | h' <;> exact absurd h' (by decide))
      | table h' => rw [hg] at h'; exact absurd h' (by decide)
      | list h' => rw [hg] at h'; exact absurd h' (by intro h'; rcases h' with h' | h' | h' | h' <;> exact absurd h' (by decide))
      | bytes h' => rw [hg] at h'; exact absurd h' (by decide))
    hvec (by
      intro i fd hfd hg hns hc
      have hc : (lastSet post i).or (cur2 i) = none := hc
      rw [hinl i fd hfd hg] at hc
      rw [hm]
      exact hwide i fd hfd hg hns hc)
    (by
      intro i fd hfd hg
      have := hby i fd hfd hg
      rw [← hsub.fld] at this
      obtain ⟨⟨j, q⟩, h1, h2⟩ := Option.map_eq_some_iff.mp this
      exact ⟨q, by rw [h1]; simp only at h2; rw [h2]⟩)
    (by omega) (fun i gap W hv b x hb c hn hio hp => (htail i gap W hv b x hb c hn hio hp).2)
    (by
      intro hv
      have hf : sub.field = none := by rw [← hsub.fld, hv]; rfl
      obtain ⟨o, ho⟩ := List.exists_mem_of_ne_nil _ (hne hf)
      obtain ⟨fd, hfd, hg, -⟩ := hops o ho
      exact ⟨o.field, fd, hfd, hg, by
        show (lastSet post o.field).or (cur2 o.field) ≠ none
        rw [hinl _ fd hfd hg]; exact lastSet_mem ho⟩)
  refine ⟨c3, w, ?_, rep_inRoot r3, hname, hpos, hsz, hs.few, hR, hH, ?_, ?_, by obtain ⟨t, vo, fx, hT, -⟩ := r3.ex; exact ⟨vo, TI_tabAt hT⟩, by rw [← hsub.spare]; exact hroom, ?_, ?_⟩
  · rw [Val.node, hsub.sets]
    simp only [Option.bind_some]
    unfold build
    rw [h0]
    simp only [Option.bind_some]
    rw [runSets_append, runSets_append, h1]
    simp only [Option.bind_some]
    rw [h2]
    exact h3
  · rw [Val.need, Val.data, ← hm]
    exact hself
  · intro b x hb c hn hio hp
    rw [Val.Reads]
    refine ⟨hn, ?_, ?_⟩
    · intro i hi hf
      refine hread b x hb c hn hio hp i hi ?_
      intro q hq
      rw [← hsub.fld, hq] at hf
      exact hf rfl
    · cases hv : vec with
      | none => exact (hsub.none_ hv).1 c
      | some p =>
        obtain ⟨i, gap, W⟩ := p
        exact (htail i gap W hv b x hb c hn hio hp).1
  · intro d x hb
    obtain ⟨w1, w2⟩ := hP.wire hb
    rw [Val.Wire]
    refine ⟨w1, ?_, ?_⟩
    · intro j hj hf
      have hv : ∀ q, vec ≠ some (j, q) := by
        intro q hq
        rw [← hsub.fld, hq] at hf
        exact hf rfl
      have := w2 j hj hv (by
        intro hc
        have hc : (lastSet post j).or (cur2 j) ≠ none := hc
        rw [hcur j hv] at hc
        exact lastSet_src hops hj hc)
      have this : WireField d (x + (4 + 2 * (s.fields nm).length)) j ((lastSet post j).or (cur2 j)) := this
      rw [hcur j hv] at this
      exact this
    · cases hv : vec with
      | none => exact (hsub.none_ hv).2 d _
      | some p =>
        obtain ⟨i, gap, W⟩ := p
        obtain ⟨p, p1, p2, p3⟩ := hP.wire_tail hv hb
        exact hsub.wire i gap W hv d _ p _ p1 p2 p3 ((hP.tail i gap W hv).2.2.2 _ x hb)
  · intro b x hb
    rw [Val.Laid]
    refine ⟨t, vo, fx, ⟨hP.tab b x hb, hP.tl b x hb, hP.t4, hP.ht, ?_, hP.disj, hP.tlen⟩, ?_, ?_, ?_, ?_⟩
    · intro i fd v hfd hv
      have h1 := hP.wid i fd v hfd hv
      have h2 := hP.eqw i fd v hfd hv
      exact ⟨h1.1, h2, by omega⟩
    · intro i fd hfd hg
      rw [hP.inl i fd hfd hg]
      exact hinl i fd hfd hg
    · intro i fd hfd hg hf
      refine hP.oth i fd hfd hg ?_
      intro q hq
      rw [← hsub.fld, hq] at hf
      exact hf rfl
    · intro i hf
      rw [← hsub.fld] at hf
      obtain ⟨⟨j, gap, W⟩, h1, h2⟩ := Option.map_eq_some_iff.mp hf
      simp only at h2
      subst h2
      rw [← (hsub.laid j gap W h1).1]
      exact (hP.tail j gap W h1).2.2.1
    · cases hv : vec with
      | none =>
        rw [hP.len, hv]
        exact hsub.laid0 hv b _
      | some p =>
        obtain ⟨i, gap, W⟩ := p
        have h1 := (hsub.laid i gap W hv).2 b _ ((hP.tail i gap W hv).2.2.2 b x hb)
        have e : x + tot w = x + (4 + 2 * (s.fields nm).length + t) + tot W := by
          have e0 : tailLen (some (i, gap, W)) = tot W := rfl
          have := hP.len
          rw [hv, e0] at this
          omega
        rw [e]
        exact h1

/-! ## C105 -/

mutual
theorem val_good (s : Sch) (F : Nat) : ∀ v : Val, v.Fits s (F + 1) → v.need ≤ F → ∃ c w, Good s F v c w
  | .tab nm pre sub post => by
    intro h hF
    rw [Val.Fits] at h
    rw [Val.need] at hF
    obtain ⟨h1, h2, h3, h4, h5, h6, h7⟩ := h
    obtain ⟨l, vec, hg⟩ := sub_good s F nm h1 sub pre (lastSet (pre ++ post)) h7 (by omega) (by omega)
    exact val_step h1 h2 h3 h4 h5 h6 hg
theorem sub_good (s : Sch) (F : Nat) (nm : Name) (hs : DeepType s nm) : ∀ (sub : Sub) (pre : List Setting) (cur : Nat → Option Bytes),
    sub.Fits s (F + 1) nm (lastSet pre) cur → sub.need ≤ F → 2 ≤ F → ∃ l vec, SubGood s F nm (lastSet pre) cur sub l vec
  | .none => fun _ _ _ _ _ => ⟨_, _, sub_none⟩
  | .bytes i f data => by
    intro pre cur h _ _
    rw [Sub.Fits] at h
    exact ⟨_, _, sub_bytes hs h.1 h.2⟩
  | .table i fl v => by
    intro pre cur h hF hF2
    rw [Sub.Fits] at h
    rw [Sub.need] at hF
    obtain ⟨h1, fd, h2, h3, h4⟩ := h
    obtain ⟨c, w, hg⟩ := val_good s F v h1 hF
    exact ⟨_, _, sub_table hs fl hg hF hF2 h2 h3 h4⟩
  | .union i fl v => by
    intro pre cur h hF hF2
    rw [Sub.Fits] at h
    rw [Sub.need] at hF
    obtain ⟨h1, h0, fd, tag, h2, h3, h4, h5, h6⟩ := h
    obtain ⟨c, w, hg⟩ := val_good s F v h1 hF
    exact ⟨_, _, sub_union hs fl hg hF hF2 h2 h3 h0 h4 h5 h6⟩
  | .list i fl t vs => by
    intro pre cur h hF hF2
    rw [Sub.Fits] at h
    rw [Sub.need] at hF
    obtain ⟨h1, h2, h3, fd, h4, h5, h6⟩ := h
    obtain ⟨items, hg⟩ := vals_good s F t vs h1 hF
    obtain ⟨l, W, hh⟩ := sub_list hs fl hg hF h4 h5 h6 h2 h3
    exact ⟨_, _, hh⟩
theorem vals_good (s : Sch) (F : Nat) (t : Name) : ∀ vs : Vals, vs.Fits s (F + 1) t → vs.need ≤ F → ∃ items, ValsGood s F t vs items
  | .nil => fun _ _ => ⟨_, vals_nil⟩
  | .cons fl v vs => by
    intro h hF
    rw [Vals.Fits] at h
    rw [Vals.need] at hF
    obtain ⟨h1, h2, h3⟩ := h
    obtain ⟨c, w, hg⟩ := val_good s F v h1 (by omega)
    obtain ⟨items, hi⟩ := vals_good s F t vs h3 (by omega)
    exact ⟨_, vals_cons fl h2 hg hi⟩
end

/-- A value saved: the pieces are found behind the header. -/
theorem Good.saved {s : Sch} {F : Nat} {v : Val} {c : CNode} {w : List Bytes} (hg : Good s F v c w) (sp : Bytes) :
    c.finish = some (header c.pos ++ c.io.flatten.bytes.data) ∧
    (∀ sp : Bytes, HoldsC (Base.new ⟨header c.pos ++ c.io.flatten.bytes.data, sp⟩) (cellsAt 8 w)) ∧
    rootPos (header c.pos ++ c.io.flatten.bytes.data) = 8 + c.pos ∧
    ∃ tl, CNode.openByBuf v.name ⟨header c.pos ++ c.io.flatten.bytes.data, sp⟩ =
      some { name := v.name, io := Base.new ⟨header c.pos ++ c.io.flatten.bytes.data, sp⟩, pos := rootPos (header c.pos ++ c.io.flatten.bytes.data), tlen := tl } := by
  have hp := hg.pos
  have hfew := hg.few
  obtain ⟨vo, hT⟩ := hg.tab
  have hroot : rootPos (header c.pos ++ c.io.flatten.bytes.data) = 8 + c.pos := by
    unfold rootPos Fb.le header
    rw [List.drop_zero, List.append_assoc, List.take_append_of_le_length (by rw [putLE_length]; exact Nat.le_refl _),
      List.take_of_length_le (by rw [putLE_length]; exact Nat.le_refl _), leVal_putLE, hp, Nat.mod_eq_of_lt (by omega)]
    omega
  have hwire := (wire_of hT (header c.pos)).1
  rw [header_length, Nat.add_zero, ← hp, ← hroot] at hwire
  obtain ⟨tl, ho⟩ := open_wire v.name hwire sp
  refine ⟨finish_eq hg.root, ?_, hroot, tl, ho⟩
  intro sp q hq
  have e := cellsAt_shift 0 8 w
  rw [Nat.zero_add] at e
  rw [e, List.mem_map] at hq
  obtain ⟨q, hq, rfl⟩ := hq
  obtain ⟨h1, h2⟩ := holds_flattened (hg.held q hq)
  refine holds_flat (hg.held q hq).1 ?_ (by simp only; rw [List.length_append, header_length]; omega)
  intro k hk
  rw [List.getElem?_append_right (by rw [header_length]; omega), header_length, show q.1 + 8 + k - 8 = q.1 + k by omega]
  exact h2 k hk

/-- C105: a value of any depth is built, read, saved, opened and read again; the bytes saved are a flatbuffers message
with the contents of the value. -/
theorem value_deep_partial (s : Sch) (F : Nat) (v : Val) (h : v.Fits s (F + 1)) (hF : v.need ≤ F) (sp : Bytes) :
    ∃ c d r, v.node s (F + 1) = some c ∧ v.Reads s c ∧ v.Reads s (merged c) ∧ c.finish = some d ∧ v.Wire s d (rootPos d) ∧
      CNode.openByBuf v.name ⟨d, sp⟩ = some r ∧ v.Reads s r := by
  obtain ⟨c, w, hg⟩ := val_good s F v h hF
  have hp := hg.pos
  obtain ⟨hfin, hH, hroot, tl, ho⟩ := hg.saved sp
  refine ⟨c, _, _, hg.node, hg.reads _ 0 hg.held _ hg.name rfl (by rw [hp]; omega), hg.reads _ 0 (held_flatten hg.held) _ hg.name rfl (by simp only [merged, hp]; omega), hfin, ?_, ho, ?_⟩
  · have := hg.wire _ 8 (hH [])
    rw [← hp, ← hroot] at this
    exact this
  exact hg.reads _ 8 (hH sp) _ rfl rfl (by show rootPos _ = _; rw [hroot, hp])

/-- Specification for lists by themselves: a list of values of any depth, made by appending. -/
theorem list_deep_partial (s : Sch) (F : Nat) (t : Name) (vs : Vals) (h : vs.Fits s (F + 1) t) (hF : vs.need ≤ F) (ht : TabElt s t)
    (hsm : 4 + 4 * vs.count + vs.total s < 4294967296) :
    ∃ fs l, vs.nodes s (F + 1) = some fs ∧ runAppend s (F + 1) (initList ('[' :: ']' :: t)) fs = some l ∧
      l.listLen = some vs.count ∧ vs.Reads s l 0 ∧ (merged l).listLen = some vs.count ∧ vs.Reads s (merged l) 0 := by
  obtain ⟨items, hv⟩ := vals_good s F t vs h hF
  have hE : elEnd (items.map Prod.snd) = 4 + 4 * vs.count + vs.total s := by
    unfold elEnd
    rw [List.length_map, hv.count, hv.total]
  obtain ⟨l, hl, hT⟩ := append_TLI (k := F) ht (by omega) hF items (initList_TLI (s := s) (k0 := vs.need) (t := t)
    (vs := 4 + 2 * (s.fields t).length)) hv.src (by rw [List.nil_append, hE]; exact hsm)
  rw [List.nil_append] at hT
  have key : ∀ l : CNode, TView s vs.need t (4 + 2 * (s.fields t).length) l (items.map Prod.snd) →
      l.listLen = some vs.count ∧ vs.Reads s l 0 := by
    intro l hV
    refine ⟨by rw [hV.listLen, List.length_map, hv.count], hv.reads l 0 ?_⟩
    intro j e hj
    obtain ⟨tl, h5⟩ := hV.at_eq ht hj
    exact ⟨l.io, elX (items.map Prod.snd) j, { name := t, io := l.io, pos := elX (items.map Prod.snd) j + (4 + 2 * (s.fields t).length), tlen := tl },
      by rw [Nat.zero_add]; exact h5, rfl, rfl, rfl, hV.elt j e hj⟩
  obtain ⟨k1, k2⟩ := key l hT.view
  obtain ⟨k3, k4⟩ := key (merged l) hT.view.flatten
  exact ⟨_, l, hv.nodes, hl, k1, k2, k3, k4⟩

/-! ## the hypotheses can be met, at every depth -/

/-- `table BB { n: int16; s: [byte]; }`, `union UU { BB, NN }`, `table NN { u: UU; id: int32; next: NN; kids: [NN]; }`. -/
def deepSch : Sch where
  fields := fun n => if n = "BB".toList then [⟨"Int16".toList, ftBasic2, some .int16⟩, ⟨"[]byte".toList, ftSlice ||| ftBasic1, none⟩]
    else if n = "NN".toList then [⟨"Byte".toList, ftBasic1, some .byte⟩, ⟨"UU".toList, ftUnion, none⟩, ⟨"Int32".toList, ftBasic4, some .int32⟩,
      ⟨"NN".toList, ftTable, none⟩, ⟨"[]NN".toList, ftSlice ||| ftTable, none⟩] else []
  unions := fun n => if n = "UU".toList then some ["BB".toList, "NN".toList] else none

theorem deep_NN : DeepType deepSch "NN".toList where
  notStruct := rfl
  notList := ⟨ftTable, by decide, by decide⟩
  few := by decide
  name := by decide
  small := by decide
  plain := by decide
  flds := by
    intro i fd hfd
    match i, hfd with
    | 0, h => cases h; exact .inline (Or.inr (Or.inl rfl)) (by decide)
    | 1, h => cases h; exact .union rfl 0 _ rfl rfl rfl
    | 2, h => cases h; exact .inline (Or.inr (Or.inr (Or.inr (Or.inl rfl)))) (by decide)
    | 3, h => cases h; exact .table rfl
    | 4, h => cases h; exact .list (Or.inl rfl)
    | n + 5, h => cases h

theorem deep_BB : DeepType deepSch "BB".toList where
  notStruct := rfl
  notList := ⟨ftTable, by decide, by decide⟩
  few := by decide
  name := by decide
  small := by decide
  plain := by decide
  flds := by
    intro i fd hfd
    match i, hfd with
    | 0, h => cases h; exact .inline (Or.inr (Or.inr (Or.inl rfl))) (by decide)
    | 1, h => cases h; exact .bytes rfl rfl
    | n + 2, h => cases h

def deepNum (n : Nat) : Setting := ⟨0, fromScalar "Int16".toList 2 n, putLE 2 n⟩
def deepTag (n : Nat) : Setting := ⟨0, fromScalar "Byte".toList 1 n, putLE 1 n⟩
def deepId (n : Nat) : Setting := ⟨2, fromScalar "Int32".toList 4 n, putLE 4 n⟩

/-- A table with a number and a string. -/
def deepLeaf (bs : Bytes) : Val := .tab "BB".toList [deepNum 7] (.bytes 1 (fromBytes bs) bs) []
/-- It as the member of a union. -/
def deepEnd (bs : Bytes) : Val := .tab "NN".toList [deepTag 1] (.union 0 false (deepLeaf bs)) [deepId 5]
/-- `n` tables around it. -/
def deepChain (bs : Bytes) : Nat → Val
  | 0 => deepEnd bs
  | n + 1 => .tab "NN".toList [] (.table 3 (n % 2 == 0) (deepChain bs n)) [deepId n]
/-- A list of such. -/
def deepTree (bs : Bytes) (n : Nat) : Val :=
  .tab "NN".toList [deepId 1] (.list 4 (n % 2 == 1) "NN".toList (.cons false (deepChain bs n) (.cons true (deepEnd bs) .nil))) []

theorem deep_id (n : Nat) : InlSrc deepSch "NN".toList (deepId n).field (deepId n).node (deepId n).val :=
  fromScalar_src _ _ 2 4 n ⟨"Int32".toList, ftBasic4, some .int32⟩ (by decide) rfl (by decide) rfl

theorem deep_tag (n : Nat) : InlSrc deepSch "NN".toList (deepTag n).field (deepTag n).node (deepTag n).val :=
  fromScalar_src _ _ 0 1 n ⟨"Byte".toList, ftBasic1, some .byte⟩ (by decide) rfl (by decide) rfl

theorem deep_wide (m : Nat) (hm : 4 ≤ m) (i : Nat) (fd : FieldT) (hfd : (deepSch.fields "NN".toList)[i]? = some fd) (hg : InlGrp fd.grp) :
    fieldWidth deepSch fd ≤ m := by
  match i, hfd with
  | 0, h => cases h; exact Nat.le_trans (show _ ≤ 4 by decide) hm
  | 1, h => cases h; exact absurd hg (by unfold InlGrp; decide)
  | 2, h => cases h; exact Nat.le_trans (show _ ≤ 4 by decide) hm
  | 3, h => cases h; exact absurd hg (by unfold InlGrp; decide)
  | 4, h => cases h; exact absurd hg (by unfold InlGrp; decide)
  | n + 5, h => cases h

theorem deep_nobytes (i : Nat) (fd : FieldT) (hfd : (deepSch.fields "NN".toList)[i]? = some fd) : fd.grp ≠ ftSlice ||| ftBasic1 := by
  match i, hfd with
  | 0, h => cases h; decide
  | 1, h => cases h; decide
  | 2, h => cases h; decide
  | 3, h => cases h; decide
  | 4, h => cases h; decide
  | n + 5, h => cases h

theorem deep_tags {ops : List Setting} (h : ∀ v, lastSet ops 0 = some v → ∃ b : UInt8, v = [b] ∧ b.toNat ≤ 2) :
    TagsOk deepSch "NN".toList (lastSet ops) := by
  intro i fd hfd hg v hv
  match i, hfd with
  | 0, hfd => cases hfd; exact h v hv
  | 1, hfd => cases hfd; exact absurd hg (by decide)
  | 2, hfd => cases hfd; exact absurd hg (by decide)
  | 3, hfd => cases hfd; exact absurd hg (by decide)
  | n + 4, h => cases h

theorem dataLen_four (n : Nat) (cur : Nat → Option Bytes) : 4 ≤ dataLen n cur := by unfold dataLen; omega

theorem deepLeaf_fits (fuel : Nat) (bs : Bytes) (hb : bs.length < 4294967296) : (deepLeaf bs).Fits deepSch (fuel + 1) := by
  unfold deepLeaf
  rw [Val.Fits, Sub.Fits]
  refine ⟨deep_BB, ?_, ?_, ?_, ?_, ?_, fromBytes_src _ _ 1 fuel bs ⟨"[]byte".toList, ftSlice ||| ftBasic1, none⟩ rfl rfl rfl hb, hb⟩
  · intro o ho
    simp only [List.append_nil, List.mem_singleton] at ho
    subst ho
    exact fromScalar_src _ _ 0 2 7 ⟨"Int16".toList, ftBasic2, some .int16⟩ (by decide) rfl (by decide) rfl
  · intro h; cases h
  · intro i fd hfd hg _ _
    have h4 := dataLen_four (deepSch.fields "BB".toList).length (lastSet ([deepNum 7] ++ []))
    match i, hfd with
    | 0, h => cases h; exact Nat.le_trans (show _ ≤ 4 by decide) (by omega)
    | 1, h => cases h; exact absurd hg (by unfold InlGrp; decide)
    | n + 2, h => cases h
  · intro i fd hfd hg
    match i, hfd with
    | 0, h => cases h; exact absurd hg (by decide)
    | 1, h => rfl
    | n + 2, h => cases h
  · intro i fd hfd hg
    match i, hfd with
    | 0, h => cases h; exact absurd hg (by decide)
    | n + 1, h => cases h

theorem deepEnd_fits (fuel : Nat) (bs : Bytes) (hb : bs.length < 4294967296) : (deepEnd bs).Fits deepSch (fuel + 1) := by
  have ht : ∀ ops, lastSet ops 0 = lastSet [deepTag 1] 0 → TagsOk deepSch "NN".toList (lastSet ops) := by
    intro ops he
    refine deep_tags ?_
    intro v hv
    rw [he] at hv
    have hl : lastSet [deepTag 1] 0 = some [1] := rfl
    rw [hl] at hv
    cases hv
    exact ⟨1, rfl, by decide⟩
  unfold deepEnd
  rw [Val.Fits, Sub.Fits]
  refine ⟨deep_NN, ?_, fun h => (by cases h), ?_, ?_, ht _ rfl, deepLeaf_fits fuel bs hb, ht _ rfl,
    ⟨"UU".toList, ftUnion, none⟩, 1, rfl, rfl, rfl, by decide, rfl⟩
  · intro o ho
    simp only [List.cons_append, List.nil_append, List.mem_cons, List.not_mem_nil, or_false] at ho
    rcases ho with rfl | rfl
    · exact deep_tag 1
    · exact deep_id 5
  · intro i fd hfd hg _ _
    exact deep_wide _ (Nat.le_trans (dataLen_four ..) (Nat.le_add_right _ _)) i fd hfd hg
  · intro i fd hfd hg
    exact absurd hg (deep_nobytes i fd hfd)

theorem deepChain_fits (fuel : Nat) (bs : Bytes) (hb : bs.length < 4294967296) (n : Nat) :
    (deepChain bs n).Fits deepSch (fuel + 1) ∧ (deepChain bs n).name = "NN".toList := by
  induction n with
  | zero => exact ⟨deepEnd_fits fuel bs hb, rfl⟩
  | succ n ih =>
    refine ⟨?_, rfl⟩
    rw [deepChain, Val.Fits, Sub.Fits]
    refine ⟨deep_NN, ?_, fun h => (by cases h), ?_, ?_, ?_, ih.1, ⟨"NN".toList, ftTable, none⟩, rfl, rfl, ih.2.symm⟩
    · intro o ho
      simp only [List.nil_append, List.mem_singleton] at ho
      subst ho
      exact deep_id n
    · intro i fd hfd hg _ _
      exact deep_wide _ (Nat.le_trans (dataLen_four ..) (Nat.le_add_right _ _)) i fd hfd hg
    · intro i fd hfd hg
      exact absurd hg (deep_nobytes i fd hfd)
    · refine deep_tags ?_
      intro v hv
      cases hv

theorem deepTree_fits (fuel : Nat) : (deepTree [65, 66] 3).Fits deepSch (fuel + 1) := by
  unfold deepTree
  rw [Val.Fits, Sub.Fits, Vals.Fits, Vals.Fits, Vals.Fits]
  refine ⟨deep_NN, ?_, fun h => (by cases h), ?_, ?_, ?_,
    ⟨(deepChain_fits fuel _ (by decide) 3).1, rfl, deepEnd_fits fuel _ (by decide), rfl, trivial⟩,
    ⟨ftTable, by decide, by decide, by decide, by decide, by decide⟩, by decide, ⟨"[]NN".toList, ftSlice ||| ftTable, none⟩, rfl, rfl, rfl⟩
  · intro o ho
    simp only [List.append_nil, List.mem_singleton] at ho
    subst ho
    exact deep_id 1
  · intro i fd hfd hg _ _
    exact deep_wide _ (Nat.le_trans (dataLen_four ..) (Nat.le_add_right _ _)) i fd hfd hg
  · intro i fd hfd hg
    exact absurd hg (deep_nobytes i fd hfd)
  · refine deep_tags ?_
    intro v hv
    cases hv

-- a string under any number of tables
example (n : Nat) (bs : Bytes) (hb : bs.length < 4294967296) :
    ∃ c d r, (deepChain bs n).node deepSch ((deepChain bs n).need + 1) = some c ∧ (deepChain bs n).Reads deepSch c ∧ (deepChain bs n).Reads deepSch (merged c) ∧ c.finish = some d ∧ (deepChain bs n).Wire deepSch d (rootPos d) ∧
      CNode.openByBuf (deepChain bs n).name ⟨d, []⟩ = some r ∧ (deepChain bs n).Reads deepSch r :=
  value_deep_partial deepSch _ _ (deepChain_fits _ bs hb n).1 (Nat.le_refl _) []

example : ∃ c d r, (deepTree [65, 66] 3).node deepSch 30 = some c ∧ (deepTree [65, 66] 3).Reads deepSch c ∧ (deepTree [65, 66] 3).Reads deepSch (merged c) ∧ c.finish = some d ∧ (deepTree [65, 66] 3).Wire deepSch d (rootPos d) ∧
      CNode.openByBuf "NN".toList ⟨d, []⟩ = some r ∧ (deepTree [65, 66] 3).Reads deepSch r :=
  value_deep_partial deepSch 29 _ (deepTree_fits 29) (by decide) []

end Fbs.Props
