import Verif.Props.Deep
import Verif.Props.Find
/-!
# Values of any depth in a buffer

What the readers find where a value lies (`Val.Laid`), and the walk of `TraverseInfo` over it.
-/

namespace Fbs.Props
open Fbs CNode

mutual
/-- Specification: the value can be walked over: the types are of the kinds dealt with, every list of a type is set,
structs are of scalars, tags are those of members, a union's name is not that of a table. -/
def Val.Ok (s : Sch) : Val → Prop
  | .tab nm pre sub post => DeepType s nm ∧ (∀ o ∈ pre ++ post, InlSrc s nm o.field o.node o.val) ∧
      TagsOk s nm (lastSet (pre ++ post)) ∧
      (∀ fd ∈ s.fields nm, fd.grp = ftStruct → PlainStruct s fd.tname) ∧
      (∀ fd ∈ s.fields nm, fd.grp = ftUnion → TI.TName fd.tname ∧ s.isStruct fd.tname = false ∧ s.fields fd.tname = []) ∧
      (∀ i fd, (s.fields nm)[i]? = some fd → isFieldSlice fd.grp = true → sub.field = some i) ∧
      sub.Ok s nm (lastSet (pre ++ post))
def Sub.Ok (s : Sch) (nm : Name) (cur : Nat → Option Bytes) : Sub → Prop
  | .none => True
  | .bytes i _ _ => ∃ fd, (s.fields nm)[i]? = some fd ∧ fd.grp = ftSlice ||| ftBasic1
  | .table i _ v => v.Ok s ∧ ∃ fd, (s.fields nm)[i]? = some fd ∧ fd.grp = ftTable ∧ fd.tname = v.name
  | .union i _ v => v.Ok s ∧ ∃ fd, ∃ tag : UInt8, (s.fields nm)[i + 1]? = some fd ∧ fd.grp = ftUnion ∧
      cur i = some [tag] ∧ 0 < tag.toNat ∧ ((s.unions fd.tname).getD [])[tag.toNat - 1]? = some v.name
  | .list i _ t vs => vs.Ok s t ∧ TabElt s t ∧
      ∃ fd, (s.fields nm)[i]? = some fd ∧ fd.grp = ftSlice ||| ftTable ∧ fd.tname = '[' :: ']' :: t
def Vals.Ok (s : Sch) (t : Name) : Vals → Prop
  | .nil => True
  | .cons _ v vs => v.Ok s ∧ v.name = t ∧ vs.Ok s t
end

/-! ## sizes -/

theorem TabL.few {s : Sch} {nm : Name} {b : Base} {x t : Nat} {vo : Nat → Nat} {fx : Nat → Option Bytes} (h : TabL s nm b x t vo fx) :
    4 + 2 * (s.fields nm).length < 65536 := h.at_.tab.hp

mutual
theorem Val.laid_le {s : Sch} {b : Base} : ∀ (v : Val) ⦃x y : Nat⦄, v.Laid s b x y → x + (4 + 2 * (s.fields v.name).length) + 4 ≤ y
  | .tab nm pre sub post => by
    intro x y h
    rw [Val.Laid] at h
    obtain ⟨t, vo, fx, h1, -, -, -, h2⟩ := h
    have := Sub.laid_le sub h2
    have := h1.t4
    rw [Val.name]
    omega
theorem Sub.laid_le {s : Sch} {b : Base} : ∀ (v : Sub) ⦃x y : Nat⦄, v.Laid s b x y → x ≤ y
  | .none => by
    intro x y h; rw [Sub.Laid] at h; exact h
  | .bytes i f data => by
    intro x y h; rw [Sub.Laid] at h; omega
  | .table i fl v => by
    intro x y h; rw [Sub.Laid] at h; have := Val.laid_le v h; omega
  | .union i fl v => by
    intro x y h; rw [Sub.Laid] at h; have := Val.laid_le v h; omega
  | .list i fl t vs => by
    intro x y h; rw [Sub.Laid] at h; have := Vals.laid_le vs h.2; omega
theorem Vals.laid_le {s : Sch} {b : Base} : ∀ (v : Vals) ⦃A x y : Nat⦄, v.Laid s b A x y → x ≤ y
  | .nil => by
    intro A x y h; rw [Vals.Laid] at h; exact h
  | .cons fl v vs => by
    intro A x y h
    rw [Vals.Laid] at h
    obtain ⟨z, h1, -, h2⟩ := h
    have := Val.laid_le v h1
    have := Vals.laid_le vs h2
    omega
end

/-- What lies up to `y` also lies up to any later place. -/
theorem Vals.laid_mono {s : Sch} {b : Base} : ∀ (v : Vals) ⦃A x y y' : Nat⦄, v.Laid s b A x y → y ≤ y' → v.Laid s b A x y'
  | .nil => by
    intro A x y y' h hy; rw [Vals.Laid] at h ⊢; omega
  | .cons fl v vs => by
    intro A x y y' h hy
    rw [Vals.Laid] at h ⊢
    obtain ⟨z, h1, h2, h3⟩ := h
    exact ⟨z, h1, h2, Vals.laid_mono vs h3 hy⟩

/-! ## reading -/

section
variable {s : Sch} {nm : Name} {b : Base} {x t : Nat} {vo : Nat → Nat} {fx : Nat → Option Bytes} {c : CNode}

theorem TabL.preLoad (h : TabL s nm b x t vo fx) : CNode.preLoad b (x + (4 + 2 * (s.fields nm).length)) = some t :=
  tabAt_preLoad h.at_.tab h.tl h.ht

theorem TabL.leads (h : TabL s nm b x t vo fx) {i gap : Nat} (hi : i < (s.fields nm).length) (hf : fx i = some (putLE 4 (t - vo i + gap)))
    (hg : gap < 65536) (hn : c.name = nm) (hio : c.io = b) (hp : c.pos = x + (4 + 2 * (s.fields nm).length)) :
    Leads s nm c i (x + (4 + 2 * (s.fields nm).length + t)) gap := by
  obtain ⟨g0, g1⟩ := h.at_.fld i hi _ hf
  have hw := h.wid i _ _ (List.getElem?_eq_getElem hi) hf
  have ht := h.ht
  rw [putLE_length] at hw
  refine ⟨hn, ?_, ?_⟩
  · rw [TabAt_isZero h.at_.tab hio hp hi]
    simp [g0]
  · refine ⟨_, _, TabAt_vtab h.at_.tab hio hp hi, ?_, by rw [hio, hp]; exact g1, by omega⟩
    omega

variable {i e gap : Nat}

theorem _root_.Fbs.Leads.fieldAt_table (h : Leads s nm c i e gap) (hst : s.isStruct nm = false) {fd : FieldT} (hfd : (s.fields nm)[i]? = some fd)
    (hg : fd.grp = ftTable) {tl : Nat} (hpre : CNode.preLoad c.io (e + gap) = some tl) :
    c.fieldAt s i = some (some { name := fd.tname, io := c.io, pos := e + gap, tlen := tl }) := by
  have hfT := fieldT_name h.name hfd
  unfold CNode.fieldAt
  rw [h.name, hst, h.zero, hfT]
  simp only [hg, show isFieldStruct ftTable = false by decide, show isFieldUnion ftTable = false by decide,
    show isFieldBytes ftTable = false by decide, show isFieldSlice ftTable = false by decide,
    show isFieldTable ftTable = true by decide, Option.bind_eq_bind, Option.bind_some, Bool.false_eq_true, if_false, if_true]
  rw [h.table]
  simp only [Option.bind_some]
  rw [if_neg (by omega), Int.toNat_natCast]
  unfold newNode
  rw [hpre]
  simp only [Option.bind_eq_bind, Option.bind_some, pure]

theorem _root_.Fbs.Leads.fieldAt_union (h : Leads s nm c i e gap) (hst : s.isStruct nm = false) {fd : FieldT} (hfd : (s.fields nm)[i]? = some fd)
    (hg : fd.grp = ftUnion) {tl : Nat} (hpre : CNode.preLoad c.io (e + gap) = some tl) :
    c.fieldAt s i = some (some { name := fd.tname, io := c.io, pos := e + gap, tlen := tl }) := by
  have hfT := fieldT_name h.name hfd
  unfold CNode.fieldAt
  rw [h.name, hst, h.zero, hfT]
  simp only [hg, show isFieldStruct ftUnion = false by decide, show isFieldUnion ftUnion = true by decide,
    Option.bind_eq_bind, Option.bind_some, Bool.false_eq_true, if_false, if_true]
  rw [h.table]
  simp only [Option.bind_some]
  rw [if_neg (by omega), Int.toNat_natCast]
  unfold newNode
  rw [hpre]
  simp only [Option.bind_eq_bind, Option.bind_some, pure]

theorem _root_.Fbs.Leads.followUnion (h : Leads s nm c (i + 1) e gap) (hst : s.isStruct nm = false) {fd : FieldT} (hfd : (s.fields nm)[i + 1]? = some fd)
    (hg : fd.grp = ftUnion) {tl tag : Nat} (hpre : CNode.preLoad c.io (e + gap) = some tl) (h0 : 0 < tag) (hlt : tag < 256) {t : Name}
    (hmem : ((s.unions fd.tname).getD [])[tag - 1]? = some t)
    {nd : CNode} (hnd : c.fieldAt s (i : Int) = some (some nd)) (htag : CNode.scalar 1 (some nd) = some tag) :
    c.followUnion s ((i + 1 : Nat) : Int) = some (some (t, some { name := t, io := c.io, pos := e + gap, tlen := tl })) := by
  have hfT := fieldT_name h.name hfd
  unfold CNode.followUnion
  rw [show ((i + 1 : Nat) : Int) - 1 = (i : Int) by omega, hnd]
  simp only [Option.bind_eq_bind, Option.bind_some]
  rw [htag]
  simp only [Option.bind_some]
  rw [hfT, show (tag + 255) % 256 = tag - 1 by omega, hmem]
  simp only
  rw [h.fieldAt_union hst hfd hg hpre]
  rfl

theorem _root_.Fbs.Leads.fieldAt_list (h : Leads s nm c i e 0) (hst : s.isStruct nm = false) {fd : FieldT} (hfd : (s.fields nm)[i]? = some fd)
    (hg : fd.grp = ftSlice ||| ftTable) {tl n : Nat} (hpre : CNode.preLoad c.io c.pos = some tl) (hn : n < 4294967296)
    (hH : Holds c.io e (putLE 4 n)) :
    c.fieldAt s i = some (some { name := fd.tname, io := c.io, pos := c.pos, tlen := tl, vi := { pos := ((e + 4 : Nat) : Int), size := 0, vlen := n } }) := by
  have hfT := fieldT_name h.name hfd
  unfold CNode.fieldAt
  rw [h.name, hst, h.zero, hfT, h.list hn hH]
  simp only [hg, show isFieldStruct (ftSlice ||| ftTable) = false by decide, show isFieldUnion (ftSlice ||| ftTable) = false by decide,
    show isFieldBytes (ftSlice ||| ftTable) = false by decide, show isFieldSlice (ftSlice ||| ftTable) = true by decide,
    Option.bind_eq_bind, Option.bind_some, Bool.false_eq_true, if_false, if_true]
  unfold newNode
  rw [hpre]
  rfl

end

theorem bytes_tname {s : Sch} {nm : Name} (hs : DeepType s nm) {i : Nat} {fd : FieldT} (hfd : (s.fields nm)[i]? = some fd)
    (hg : fd.grp = ftSlice ||| ftBasic1) : fd.tname = "[]byte".toList := by
  cases hs.flds i fd hfd with
  | inline h' _ => rw [hg] at h'; exact absurd h' (by intro h'; rcases h' with h' | h' | h' | h' | h' <;> exact absurd h' (by decide))
  | table h' => rw [hg] at h'; exact absurd h' (by decide)
  | union h' => rw [hg] at h'; exact absurd h' (by decide)
  | list h' => rw [hg] at h'; exact absurd h' (by intro h'; rcases h' with h' | h' | h' | h' <;> exact absurd h' (by decide))
  | bytes _ h' => exact h'

theorem union_tag {s : Sch} {nm : Name} (hs : DeepType s nm) {i : Nat} {fd : FieldT} (hfd : (s.fields nm)[i + 1]? = some fd)
    (hg : fd.grp = ftUnion) : ∃ td, (s.fields nm)[i]? = some td ∧ td.grp = ftBasic1 := by
  cases hs.flds (i + 1) fd hfd with
  | inline h' _ => rw [hg] at h'; exact absurd h' (by intro h'; rcases h' with h' | h' | h' | h' | h' <;> exact absurd h' (by decide))
  | table h' => rw [hg] at h'; exact absurd h' (by decide)
  | union _ j td hj htd htg =>
    have : i = j := by omega
    subst this
    exact ⟨td, htd, htg⟩
  | list h' => rw [hg] at h'; exact absurd h' (by intro h'; rcases h' with h' | h' | h' | h' <;> exact absurd h' (by decide))
  | bytes h' => rw [hg] at h'; exact absurd h' (by decide)

/-- A list node at `A`. -/
structure LNode (s : Sch) (b : Base) (t : Name) (A n : Nat) (l : CNode) : Prop where
  name : l.name = '[' :: ']' :: t
  io   : l.io = b
  vpos : l.vi.pos = (A : Int)
  vlen : l.vi.vlen = n
  len  : l.listLen = some n

/-- The element of a list that lies at `x`. -/
theorem LNode.at_eq {s : Sch} {b : Base} {t : Name} {A n : Nat} {l : CNode} (h : LNode s b t A n l) (ht : TabElt s t) {v : Val} (hv : v.name = t)
    {k x y : Nat} (hk : k < n) (hl : v.Laid s b x y) (hA : A + 4 * k ≤ x) (hy : y < 4294967296)
    (ho : Holds b (A + 4 * k) (putLE 4 (x + (4 + 2 * (s.fields v.name).length) - (A + 4 * k)))) :
    ∃ tl, CNode.preLoad b (x + (4 + 2 * (s.fields t).length)) = some tl ∧
      l.at_ s (k : Int) = some (.ok { name := t, io := b, pos := x + (4 + 2 * (s.fields t).length), tlen := tl }) := by
  subst hv
  have hle := Val.laid_le v hl
  cases v with
  | tab nm pre sub post =>
    rw [Val.Laid] at hl
    obtain ⟨tl, vo, fx, h1, -⟩ := hl
    rw [Val.name] at *
    have hp := h1.preLoad
    refine ⟨tl, hp, ?_⟩
    have hh := h.io
    subst hh
    exact at_tab ht h.name h.len h.vpos hk (by omega) (by omega) ho hp

theorem Vals.laid_reads_lt {n k : Nat} {vs : Vals} (h : k + vs.count = n) {fl : Bool} {v : Val} {vs' : Vals} (e : vs = .cons fl v vs') : k < n ∧ k + 1 + vs'.count = n := by
  subst e
  rw [Vals.count] at h
  omega

mutual
/-- The node reads as the value that lies there. -/
theorem Val.laid_reads {s : Sch} {b : Base} : ∀ (v : Val), v.Ok s → ∀ {x y : Nat}, v.Laid s b x y → y < 4294967296 → ∀ {c : CNode}, c.name = v.name →
    c.io = b → c.pos = x + (4 + 2 * (s.fields v.name).length) → v.Reads s c
  | .tab nm pre sub post => by
    intro hok x y hl hy c hn hio hp
    rw [Val.Ok] at hok
    obtain ⟨o1, o2, o3, o4, o5, o6, o7⟩ := hok
    rw [Val.Laid] at hl
    obtain ⟨t, vo, fx, h1, h2, h3, h4, h5⟩ := hl
    rw [Val.name] at hn hp
    have hle := Sub.laid_le sub h5
    have hread : ∀ i, i < (s.fields nm).length → sub.field ≠ some i → FieldRead s nm c i (lastSet (pre ++ post) i) := by
      intro i hi hf
      have hfd := List.getElem?_eq_getElem hi
      have e : fx i = lastSet (pre ++ post) i := by
        by_cases hg : InlGrp ((s.fields nm)[i]).grp
        · exact h2 i _ hfd hg
        · rw [h3 i _ hfd hg hf]
          by_cases hcc : lastSet (pre ++ post) i = none
          · exact hcc.symm
          · exact absurd (lastSet_src o2 hi hcc) hg
      rw [← e]
      refine fldAt_read o1.notStruct h1.at_ hn hio hp hi ?_
      intro hne
      rw [e] at hne
      exact lastSet_src o2 hi hne
    rw [Val.Reads]
    refine ⟨hn, hread, ?_⟩
    refine Sub.laid_reads (pre := pre) (post := post) sub o1 o7 h5 hy hn hio ?_ ?_ ⟨t, by rw [hp]; exact h1.preLoad⟩
    · intro i hf hi hgap
      exact h1.leads hi (h4 i hf) hgap hn hio hp
    · intro i fd hfd hg hf
      exact hread i (List.getElem?_eq_some_iff.mp hfd).1 hf
theorem Sub.laid_reads {s : Sch} {b : Base} {nm : Name} {pre post : List Setting} : ∀ (sub : Sub), DeepType s nm → sub.Ok s nm (lastSet (pre ++ post)) →
    ∀ {e y : Nat}, sub.Laid s b e y → y < 4294967296 → ∀ {c : CNode}, c.name = nm → c.io = b →
    (∀ i, sub.field = some i → i < (s.fields nm).length → sub.gap s < 65536 → Leads s nm c i e (sub.gap s)) →
    (∀ i fd, (s.fields nm)[i]? = some fd → InlGrp fd.grp → sub.field ≠ some i → FieldRead s nm c i (lastSet (pre ++ post) i)) →
    (∃ tl, CNode.preLoad b c.pos = some tl) → sub.Reads s c
  | .none => by
    intro _ _ e y _ _ c _ _ _ _ _; rw [Sub.Reads]; trivial
  | .bytes i f data => by
    intro hs hok e y hl hy c hn hio hL hR hpre
    rw [Sub.Ok] at hok
    rw [Sub.Laid] at hl
    obtain ⟨fd, hfd, hg⟩ := hok
    have hi := (List.getElem?_eq_some_iff.mp hfd).1
    have hlead := hL i rfl hi (by rw [Sub.gap]; omega)
    rw [Sub.Reads]
    exact (tail_bytes hs.notStruct hlead hfd hg (bytes_tname hs hfd hg) (by omega) (by rw [hio]; exact hl.1)).1
  | .table i fl v => by
    intro hs hok e y hl hy c hn hio hL hR hpre
    rw [Sub.Ok] at hok
    rw [Sub.Laid] at hl
    obtain ⟨ho, fd, hfd, hg, htn⟩ := hok
    have hi := (List.getElem?_eq_some_iff.mp hfd).1
    have hl' := hl
    cases v with
    | tab nm' pre' sub' post' =>
      rw [Val.Laid] at hl'
      obtain ⟨t, vo, fx, h1, -⟩ := hl'
      have hlead := hL i rfl hi (by rw [Sub.gap, Val.name]; exact h1.few)
      rw [Sub.gap, Val.name] at hlead
      rw [Sub.Reads]
      refine ⟨_, hlead.fieldAt_table hs.notStruct hfd hg (tl := t) (by rw [hio]; exact h1.preLoad), ?_⟩
      exact Val.laid_reads (.tab nm' pre' sub' post') ho hl hy htn hio rfl
  | .union i fl v => by
    intro hs hok e y hl hy c hn hio hL hR hpre
    rw [Sub.Ok] at hok
    rw [Sub.Laid] at hl
    obtain ⟨ho, fd, tag, hfd, hg, hcur, h0, hmem⟩ := hok
    have hi := (List.getElem?_eq_some_iff.mp hfd).1
    obtain ⟨td, htd, htg⟩ := union_tag hs hfd hg
    have hr := hR i td htd (inlGrp_basic1 htg) (by rw [Sub.field]; simp)
    rw [hcur] at hr
    obtain ⟨nd, n1, n2⟩ := fieldRead_tag hr
    have hl' := hl
    cases v with
    | tab nm' pre' sub' post' =>
      rw [Val.Laid] at hl'
      obtain ⟨t, vo, fx, h1, -⟩ := hl'
      have hlead := hL (i + 1) rfl hi (by rw [Sub.gap, Val.name]; exact h1.few)
      rw [Sub.gap, Val.name] at hlead
      rw [Sub.Reads]
      refine ⟨_, hlead.followUnion hs.notStruct hfd hg (tl := t) (by rw [hio]; exact h1.preLoad) h0 tag.toNat_lt hmem n1 n2, ?_⟩
      exact Val.laid_reads (.tab nm' pre' sub' post') ho hl hy rfl hio rfl
  | .list i fl t vs => by
    intro hs hok e y hl hy c hn hio hL hR hpre
    rw [Sub.Ok] at hok
    rw [Sub.Laid] at hl
    obtain ⟨ho, ht, fd, hfd, hg, htn⟩ := hok
    have hi := (List.getElem?_eq_some_iff.mp hfd).1
    have hlead := hL i rfl hi (by rw [Sub.gap]; omega)
    have hle := Vals.laid_le vs hl.2
    obtain ⟨tl, hpre⟩ := hpre
    rw [Sub.Reads]
    have hnode := hlead.fieldAt_list hs.notStruct hfd hg (by rw [hio]; exact hpre) (n := vs.count) (by omega) (by rw [hio]; exact hl.1)
    have hlen : ({ name := fd.tname, io := c.io, pos := c.pos, tlen := tl, vi := { pos := ((e + 4 : Nat) : Int), size := 0, vlen := vs.count } } : CNode).listLen = some vs.count := by
      unfold CNode.listLen CNode.u32
      simp only
      rw [show ((e + 4 : Nat) : Int) - 4 = (e : Int) by omega, hio, holds_getN hl.1, Nat.mod_eq_of_lt (by omega)]
    refine ⟨_, hnode, hlen, ?_⟩
    have hl2 : vs.Laid s b (e + 4 + 4 * 0) (e + 4 + 4 * vs.count) y := hl.2
    exact Vals.laid_reads (n := vs.count) (k := 0) vs ho ht ⟨htn, hio, rfl, rfl, hlen⟩ (Nat.zero_add _) hl2 (Nat.le_refl _) hy
theorem Vals.laid_reads {s : Sch} {b : Base} {t : Name} {A n : Nat} {l : CNode} : ∀ (vs : Vals) ⦃k : Nat⦄, vs.Ok s t → TabElt s t → LNode s b t A n l →
    k + vs.count = n → ∀ {x y : Nat}, vs.Laid s b (A + 4 * k) x y → A + 4 * n ≤ x → y < 4294967296 → vs.Reads s l k
  | .nil => by
    intro k _ _ _ _ x y _ _ _; rw [Vals.Reads]; trivial
  | .cons fl v vs => by
    intro k hok ht hL hk x y hl hA hy
    rw [Vals.Ok] at hok
    rw [Vals.Laid] at hl
    rw [Vals.count] at hk
    obtain ⟨o1, o2, o3⟩ := hok
    obtain ⟨z, l1, l2, l3⟩ := hl
    have h1 := Val.laid_le v l1
    have h2 := Vals.laid_le vs l3
    obtain ⟨tl, h3, h4⟩ := hL.at_eq ht o2 (by omega) l1 (by omega) (by omega) l2
    rw [Vals.Reads]
    refine ⟨⟨_, h4, Val.laid_reads v o1 l1 (by omega) o2.symm rfl (by rw [o2])⟩, ?_⟩
    exact Vals.laid_reads vs o3 ht hL (by omega) (by rw [show A + 4 * (k + 1) = A + 4 * k + 4 by omega]; exact l3) (by omega) hy
end

/-! ## the walk -/

/-- The owner of the visit stands in the table from `P` to `E`, and so does its tree. -/
def Inn (s : Sch) (P E : Nat) (u : Visit) : Prop :=
  (P : Int) ≤ u.parent ∧ u.parent < E ∧ ∃ o, treeNode s u = some (some o) ∧ ∀ a, o = some a → (P : Int) < treePos (some a) ∧ treePos (some a) < E

/-- The same with a tree that may stand at the very end. -/
def VIn (s : Sch) (P y : Nat) (u : Visit) : Prop :=
  (P : Int) ≤ u.parent ∧ u.parent < y ∧ ∃ o, treeNode s u = some (some o) ∧ ∀ a, o = some a → (P : Int) < treePos (some a) ∧ treePos (some a) ≤ y

theorem Inn.vin {s : Sch} {P E y : Nat} {u : Visit} (h : Inn s P E u) (hy : E ≤ y) : VIn s P y u := by
  obtain ⟨h1, h2, o, h3, h4⟩ := h
  exact ⟨h1, by omega, o, h3, fun a ha => ⟨(h4 a ha).1, by have := (h4 a ha).2; omega⟩⟩

theorem VIn.mono {s : Sch} {P y P' y' : Nat} {u : Visit} (h : VIn s P y u) (hP : P' ≤ P) (hy : y ≤ y') : VIn s P' y' u := by
  obtain ⟨h1, h2, o, h3, h4⟩ := h
  exact ⟨by omega, by omega, o, h3, fun a ha => ⟨by have := (h4 a ha).1; omega, by have := (h4 a ha).2; omega⟩⟩

theorem treeNode_plain {s : Sch} {u : Visit} (h : u.node.vi = {}) {o : Option CNode} (ho : u.node.fieldAt s u.idx = some o) : treeNode s u = some (some o) := by
  unfold treeNode
  rw [h, if_neg (by decide), ho]
  rfl

theorem rooted_all {s : Sch} {p : Int} {vs : List Visit} (h : ∀ u ∈ vs, u.parent = p) : Rooted s p vs := by
  intro A u B e
  exact Or.inl (h u (by rw [e]; simp))

/-- The walk over a struct of scalars. -/
theorem walk_struct_in {s : Sch} {c : CNode} (hp : PlainStruct s c.name) (hvi : c.vi = {}) {P q : Nat} (hP : P < c.pos) (hq : c.pos + sumSize (s.fields c.name) ≤ q) (k : Nat) :
    ∃ vs, traverseF s (k + 2) c = some vs ∧ ∀ v ∈ vs, Inn s P q v ∧ v.parent = c.pos := by
  unfold traverseF
  refine collect_all _ _ _ fun i hi => ?_
  rw [List.mem_range] at hi
  obtain ⟨f1, f2, f3⟩ := hp.flds _ (List.getElem_mem hi)
  have hT := fieldT_get hi
  unfold traverseAt
  simp only [leaf_of f1 f2 (by rw [hT]), if_true, hp.st, Option.bind_eq_bind, Option.bind_some, pure]
  refine ⟨_, rfl, fun y hy => ?_⟩
  rw [List.mem_singleton] at hy
  subst hy
  have := sumSize_split _ i hi
  refine ⟨⟨by simp only; omega, by simp only; omega, some { name := (c.fieldT s i).tname, io := c.io, pos := c.pos + sumSize ((s.fields c.name).take (i : Int).toNat) }, treeNode_plain hvi ?_, ?_⟩, rfl⟩
  · unfold fieldAt
    simp only [hp.st, if_true, pure]
  · intro a ha
    simp only [Option.some.injEq] at ha
    subst ha
    rw [treePos_plain rfl]
    simp only [Int.toNat_natCast]
    omega

section
variable {s : Sch} {nm : Name} {b : Base} {x q : Nat} {vo : Nat → Nat} {c : CNode}

/-- The walk over one scalar or struct field. -/
theorem walk_inl_in (h : TabAt b x (s.fields c.name).length vo) (hio : c.io = b) (hp : c.pos = x + (4 + 2 * (s.fields c.name).length))
    (hst : s.isStruct c.name = false) (hvi : c.vi = {}) {i : Nat} (hi : i < (s.fields c.name).length)
    (hg : InlGrp (s.fields c.name)[i].grp) (hps : (s.fields c.name)[i].grp = ftStruct → PlainStruct s (s.fields c.name)[i].tname)
    (hw : vo i ≠ 0 → c.pos + vo i + fieldWidth s (s.fields c.name)[i] ≤ q) (hpos : vo i ≠ 0 → c.pos + vo i < q) (hq : c.pos < q) (k : Nat) :
    ∃ vs, traverseAt s (k + 3) c i = some vs ∧ (∀ v ∈ vs, Inn s c.pos q v) ∧ Rooted s c.pos vs := by
  have hT := fieldT_get hi
  have hv := tabAt_vtab h hio hp hi
  have hz := tabAt_isZero h hio hp hi
  unfold traverseAt
  by_cases hs : (s.fields c.name)[i].grp = ftStruct
  · have hlf : c.isLeafAt s i = false := by
      unfold isLeafAt
      simp only [hT, hs, show isFieldStruct ftStruct = true by decide, if_true]
    have hfA : c.fieldAt s (i : Int) = some (if vo i = 0 then none else some { name := (s.fields c.name)[i].tname, io := c.io, pos := c.pos + vo i }) := by
      unfold fieldAt
      simp only [hst, hz, hT, hs, hv, Option.bind_eq_bind, Option.bind_some, Bool.false_eq_true, if_false, pure,
        show isFieldStruct ftStruct = true by decide, if_true]
      by_cases h0 : vo i = 0 <;> simp [h0]
    simp only [hlf, hT, hs, Bool.false_eq_true, if_false, show isFieldUnion ftStruct = false by decide, hfA,
      Option.bind_eq_bind, Option.bind_some, show isFieldSlice ftStruct = false by decide, pure, show isFieldTable ftStruct = false by decide]
    by_cases h0 : vo i = 0
    · rw [if_pos h0]
      exact ⟨[], rfl, fun y hy => absurd hy (by simp), rooted_nil _ _⟩
    · rw [if_neg h0]
      have hww := hw h0
      unfold fieldWidth at hww
      rw [if_pos hs] at hww
      obtain ⟨vs, h1, h2⟩ := walk_struct_in (c := { name := (s.fields c.name)[i].tname, io := c.io, pos := c.pos + vo i }) (hps hs) rfl (P := c.pos) (q := q)
        (by simp only; omega) hww k
      simp only [h1, Option.bind_some]
      have hpp := hpos h0
      refine ⟨_, rfl, fun y hy => ?_, ?_⟩
      · rcases List.mem_cons.mp hy with rfl | hy
        · refine ⟨Int.le_refl _, by simp only; omega, _, treeNode_plain hvi (by rw [hfA, if_neg h0]), fun a ha => ?_⟩
          simp only [Option.some.injEq] at ha
          subst ha
          rw [treePos_plain rfl]
          simp only
          omega
        · exact (h2 y hy).1
      · refine rooted_cons rfl ⟨_, treeNode_plain hvi (by rw [hfA, if_neg h0]), ?_⟩ (rooted_all fun u hu => (h2 u hu).2)
        rw [treePos_plain rfl]
  · obtain ⟨f1, f2, f3, f4, f5, f6⟩ := inlGrp_flags hg hs
    have hlf := leaf_of (s := s) (c := c) (i := i) hg hs (by rw [hT])
    have hvI : ∃ w, valueInfoF s (k + 2) c i = some w := by
      unfold valueInfoF
      simp only [hT, f1, f2, f3, f4, f5, f6, if_true, Bool.false_eq_true, if_false, hv]
      exact ⟨_, rfl⟩
    obtain ⟨w, hvI⟩ := hvI
    simp only [hlf, if_true, hst, Bool.false_eq_true, if_false, hvI, Option.bind_eq_bind, Option.bind_some, pure]
    refine ⟨_, rfl, fun y hy => ?_, rooted_one rfl⟩
    rw [List.mem_singleton] at hy
    subst hy
    refine ⟨Int.le_refl _, by simp only; omega, if vo i = 0 then none else some { name := (s.fields c.name)[i].tname, io := c.io, pos := c.pos + vo i, size := (s.fields c.name)[i].size }, treeNode_plain hvi ?_, ?_⟩
    · unfold fieldAt
      simp only [hst, hz, hT, hv, Option.bind_eq_bind, Option.bind_some, Bool.false_eq_true, if_false, pure, f1, f2, f3, f4, f5, f6, if_true]
      by_cases h0 : vo i = 0 <;> simp [h0]
    · intro a ha
      by_cases h0 : vo i = 0
      · rw [if_pos h0] at ha; cases ha
      · rw [if_neg h0] at ha
        simp only [Option.some.injEq] at ha
        subst ha
        rw [treePos_plain rfl]
        have := hpos h0
        simp only
        omega

/-- An absent table or union field is not visited. -/
theorem walk_absent (h : TabAt b x (s.fields c.name).length vo) (hio : c.io = b) (hp : c.pos = x + (4 + 2 * (s.fields c.name).length))
    (hst : s.isStruct c.name = false) {i : Nat} (hi : i < (s.fields c.name).length) (h0 : vo i = 0)
    (hg : (s.fields c.name)[i].grp = ftTable ∨ ((s.fields c.name)[i].grp = ftUnion ∧ ∃ f t, c.fieldAt s ((i : Int) - 1) = some f ∧ CNode.scalar 1 f = some t)) (k : Nat) :
    traverseAt s (k + 1) c i = some [] := by
  have hT := fieldT_get hi
  have hz := tabAt_isZero h hio hp hi
  have hfA : c.fieldAt s (i : Int) = some none := by
    unfold fieldAt
    simp only [hst, hz, h0, decide_true, if_true, Option.bind_eq_bind, Option.bind_some, Bool.false_eq_true, if_false, pure]
  unfold traverseAt
  rcases hg with hg | ⟨hg, f, t, h1, h2⟩
  · have hlf : c.isLeafAt s i = false := by
      unfold isLeafAt
      simp only [hT, hg]
      decide
    simp only [hlf, hT, hg, Bool.false_eq_true, if_false, show isFieldUnion ftTable = false by decide, hfA,
      Option.bind_eq_bind, Option.bind_some, show isFieldSlice ftTable = false by decide, pure]
  · have hlf : c.isLeafAt s i = false := by
      unfold isLeafAt
      simp only [hT, hg]
      decide
    have hfu : ∃ r, c.followUnion s (i : Int) = some r ∧ ∀ a n, r ≠ some (a, some n) := by
      unfold CNode.followUnion
      simp only [h1, h2, hfA, Option.bind_eq_bind, Option.bind_some]
      split
      · exact ⟨_, rfl, fun a n => by simp⟩
      · exact ⟨_, rfl, fun a n => by simp⟩
    obtain ⟨r, r1, r2⟩ := hfu
    simp only [hlf, hT, hg, Bool.false_eq_true, if_false, show isFieldUnion ftUnion = true by decide, if_true, r1, Option.bind_eq_bind, Option.bind_some]
    rfl

end

theorem collect_append {α β : Type} (f : α → Go (List β)) : ∀ (l m : List α) {a b : List β}, collect f l = some a → collect f m = some b →
    collect f (l ++ m) = some (a ++ b)
  | [], m, a, b, h1, h2 => by
    simp only [collect, Option.some.injEq] at h1
    subst h1
    exact h2
  | x :: l, m, a, b, h1, h2 => by
    simp only [collect, Option.bind_eq_bind, pure] at h1
    obtain ⟨y, hy, h1⟩ := Option.bind_eq_some_iff.mp h1
    obtain ⟨z, hz, h1⟩ := Option.bind_eq_some_iff.mp h1
    simp only [Option.some.injEq] at h1
    subst h1
    have := collect_append f l m hz h2
    rw [List.cons_append]
    simp only [collect, hy, this, Option.bind_eq_bind, Option.bind_some, pure, List.append_assoc]

theorem collect_one {α β : Type} (f : α → Go (List β)) {x : α} {a : List β} (h : f x = some a) : collect f [x] = some a := by
  simp only [collect, h, Option.bind_eq_bind, Option.bind_some, pure, List.append_nil]

theorem range_at {n i : Nat} (hi : i < n) : ∃ l1 l2, List.range n = l1 ++ i :: l2 ∧ (∀ j ∈ l1, j < n ∧ j ≠ i) ∧ (∀ j ∈ l2, j < n ∧ j ≠ i) := by
  obtain ⟨l1, l2, h⟩ := List.append_of_mem (List.mem_range.mpr hi)
  have hn := List.nodup_range (n := n)
  rw [h] at hn
  have hn2 := List.nodup_append.mp hn
  refine ⟨l1, l2, h, fun j hj => ⟨List.mem_range.mp (by rw [h]; simp [hj]), ?_⟩, fun j hj => ⟨List.mem_range.mp (by rw [h]; simp [hj]), ?_⟩⟩
  · rintro rfl
    exact hn2.2.2 j hj j (by simp) rfl
  · rintro rfl
    exact (List.nodup_cons.mp hn2.2.1).1 hj

/-- The visits of the fields other than that of variable length. -/
def Plain (s : Sch) (P E : Nat) (A : List Visit) : Prop := (∀ u ∈ A, Inn s P E u) ∧ Rooted s P A

theorem plain_collect {α : Type} {s : Sch} {P E : Nat} (f : α → Go (List Visit)) : ∀ (l : List α), (∀ a ∈ l, ∃ x, f a = some x ∧ Plain s P E x) →
    ∃ r, collect f l = some r ∧ Plain s P E r
  | [], _ => ⟨[], rfl, fun y hy => absurd hy (by simp), rooted_nil _ _⟩
  | a :: l, h => by
    obtain ⟨x, hx, p1, p2⟩ := h a (by simp)
    obtain ⟨r, hr, q1, q2⟩ := plain_collect f l (fun b hb => h b (List.mem_cons_of_mem _ hb))
    refine ⟨x ++ r, by simp only [collect, hx, hr, Option.bind_eq_bind, Option.bind_some, pure], fun y hy => ?_, rooted_append p2 q2⟩
    rcases List.mem_append.mp hy with h | h
    · exact p1 y h
    · exact q1 y h

/-- The inline part of the value lies at `x`. -/
def Frame (s : Sch) (b : Base) (nm : Name) (cur : Nat → Option Bytes) (fld : Option Nat) (gap : Nat) (x t : Nat) : Prop :=
  ∃ vo fx, TabL s nm b x t vo fx ∧
    (∀ i fd, (s.fields nm)[i]? = some fd → InlGrp fd.grp → fx i = cur i) ∧
    (∀ i fd, (s.fields nm)[i]? = some fd → ¬ InlGrp fd.grp → fld ≠ some i → fx i = none) ∧
    (∀ i, fld = some i → fx i = some (putLE 4 (t - vo i + gap)))

theorem laid_frame {s : Sch} {b : Base} {nm : Name} {pre post : List Setting} {sub : Sub} {x y : Nat} :
    Val.Laid s b (.tab nm pre sub post) x y ↔
      ∃ t, Frame s b nm (lastSet (pre ++ post)) sub.field (sub.gap s) x t ∧ sub.Laid s b (x + (4 + 2 * (s.fields nm).length + t)) y := by
  rw [Val.Laid]
  constructor
  · rintro ⟨t, vo, fx, h1, h2, h3, h4, h5⟩
    exact ⟨t, ⟨vo, fx, h1, h2, h3, h4⟩, h5⟩
  · rintro ⟨t, ⟨vo, fx, h1, h2, h3, h4⟩, h5⟩
    exact ⟨t, vo, fx, h1, h2, h3, h4, h5⟩

section
variable {s : Sch} {nm : Name} {b : Base} {cur : Nat → Option Bytes} {fld : Option Nat} {gap x t : Nat} {c : CNode}

theorem Frame.t4 (h : Frame s b nm cur fld gap x t) : 4 ≤ t := by
  obtain ⟨vo, fx, h, -⟩ := h; exact h.t4

theorem Frame.few (h : Frame s b nm cur fld gap x t) : 4 + 2 * (s.fields nm).length < 65536 := by
  obtain ⟨vo, fx, h, -⟩ := h; exact h.few

theorem Frame.preLoad (h : Frame s b nm cur fld gap x t) : CNode.preLoad b (x + (4 + 2 * (s.fields nm).length)) = some t := by
  obtain ⟨vo, fx, h, -⟩ := h; exact h.preLoad

theorem Frame.leads (h : Frame s b nm cur fld gap x t) {i : Nat} (hi : i < (s.fields nm).length) (hf : fld = some i)
    (hg : gap < 65536) (hn : c.name = nm) (hio : c.io = b) (hp : c.pos = x + (4 + 2 * (s.fields nm).length)) :
    Leads s nm c i (x + (4 + 2 * (s.fields nm).length + t)) gap := by
  obtain ⟨vo, fx, h, -, -, h4⟩ := h
  exact h.leads hi (h4 i hf) hg hn hio hp

theorem Frame.read (h : Frame s b nm cur fld gap x t) (hs : DeepType s nm) (hn : c.name = nm) (hio : c.io = b) (hp : c.pos = x + (4 + 2 * (s.fields nm).length))
    {i : Nat} (hi : i < (s.fields nm).length) (hg : InlGrp (s.fields nm)[i].grp) : FieldRead s nm c i (cur i) := by
  obtain ⟨vo, fx, h1, h2, -, -⟩ := h
  have e := h2 i _ (List.getElem?_eq_getElem hi) hg
  rw [← e]
  exact fldAt_read hs.notStruct h1.at_ hn hio hp hi (fun _ => hg)

/-- The walk over the fields other than that of variable length. -/
theorem Frame.walk (h : Frame s b nm cur fld gap x t) (hs : DeepType s nm) (htag : TagsOk s nm cur)
    (hps : ∀ fd ∈ s.fields nm, fd.grp = ftStruct → PlainStruct s fd.tname)
    (hsl : ∀ i fd, (s.fields nm)[i]? = some fd → isFieldSlice fd.grp = true → fld = some i)
    (hn : c.name = nm) (hio : c.io = b) (hvi : c.vi = {}) (hp : c.pos = x + (4 + 2 * (s.fields nm).length))
    {i : Nat} (hi : i < (s.fields nm).length) (hf : fld ≠ some i) (k : Nat) :
    ∃ vs, traverseAt s (k + 3) c i = some vs ∧ Plain s c.pos (c.pos + t) vs := by
  have hread := fun (j : Nat) (hj : j < (s.fields nm).length) hg => h.read hs hn hio hp hj hg
  obtain ⟨vo, fx, h1, h2, h3, -⟩ := h
  subst hn
  have hfd := List.getElem?_eq_getElem hi
  have ht4 := h1.t4
  by_cases hg : InlGrp (s.fields c.name)[i].grp
  · have hpr : vo i ≠ 0 → ∃ v, fx i = some v := by
      intro h0
      cases hx : fx i with
      | some v => exact ⟨v, rfl⟩
      | none => exact absurd (h1.at_.abs i hi hx) h0
    refine walk_inl_in h1.at_.tab hio hp hs.notStruct hvi hi hg (hps _ (List.getElem_mem hi)) ?_ ?_ (by omega) k
    · intro h0
      obtain ⟨v, hv⟩ := hpr h0
      have := h1.wid i _ v hfd hv
      omega
    · intro h0
      obtain ⟨v, hv⟩ := hpr h0
      have := h1.wid i _ v hfd hv
      have hne := (h1.at_.fld i hi v hv).2.1
      have : 0 < v.length := List.length_pos_iff.mpr hne
      omega
  · have hnone := h3 i _ hfd hg hf
    have h0 := h1.at_.abs i hi hnone
    refine ⟨[], walk_absent h1.at_.tab hio hp hs.notStruct hi h0 ?_ (k + 2), fun y hy => absurd hy (by simp), rooted_nil _ _⟩
    cases hs.flds i _ hfd with
    | inline h' _ => exact absurd h' hg
    | table h' => exact Or.inl h'
    | union h' j td hj htd htg =>
      refine Or.inr ⟨h', ?_⟩
      subst hj
      have hj := (List.getElem?_eq_some_iff.mp htd).1
      have hjg : InlGrp (s.fields c.name)[j].grp := by
        rw [(List.getElem?_eq_some_iff.mp htd).2]; exact inlGrp_basic1 htg
      have hr := hread j hj hjg
      rw [show ((j + 1 : Nat) : Int) - 1 = (j : Int) by omega]
      cases hcur : cur j with
      | none =>
        rw [hcur] at hr
        exact ⟨none, 0, hr.1 rfl, rfl⟩
      | some v =>
        obtain ⟨bb, rfl, -⟩ := htag j _ hfd h' v hcur
        rw [hcur] at hr
        obtain ⟨nd, n1, n2⟩ := fieldRead_tag hr
        exact ⟨_, _, n1, n2⟩
    | list h' => exact absurd (hsl i _ hfd (listGrp_flags h').2.2.2) hf
    | bytes h' => exact absurd (hsl i _ hfd (by rw [h']; decide)) hf

/-- The shape of the walk over a table. -/
theorem Frame.shape (h : Frame s b nm cur fld gap x t) (hs : DeepType s nm) (htag : TagsOk s nm cur)
    (hps : ∀ fd ∈ s.fields nm, fd.grp = ftStruct → PlainStruct s fd.tname)
    (hsl : ∀ i fd, (s.fields nm)[i]? = some fd → isFieldSlice fd.grp = true → fld = some i)
    (hn : c.name = nm) (hio : c.io = b) (hvi : c.vi = {}) (hp : c.pos = x + (4 + 2 * (s.fields nm).length)) (k : Nat) :
    (fld = none → ∃ A, traverseF s (k + 4) c = some A ∧ Plain s c.pos (c.pos + t) A) ∧
    (∀ i H, fld = some i → i < (s.fields nm).length → traverseAt s (k + 3) c i = some H →
      ∃ A B, traverseF s (k + 4) c = some (A ++ H ++ B) ∧ Plain s c.pos (c.pos + t) A ∧ Plain s c.pos (c.pos + t) B) := by
  have hw := fun (j : Nat) (hj : j < (s.fields nm).length) hf => h.walk hs htag hps hsl hn hio hvi hp hj hf k
  constructor
  · intro hf
    unfold traverseF
    refine plain_collect _ _ fun i hi => ?_
    rw [List.mem_range, hn] at hi
    exact hw i hi (by rw [hf]; simp)
  · intro i H hf hi hH
    obtain ⟨l1, l2, e, m1, m2⟩ := range_at hi
    unfold traverseF
    rw [hn, e]
    obtain ⟨A, a1, a2⟩ := plain_collect (fun (i : Nat) => traverseAt s (k + 3) c i) l1 (fun j hj => hw j (m1 j hj).1 (by
      rw [hf]
      intro e
      exact (m1 j hj).2 (Option.some.inj e).symm))
    obtain ⟨B, b1, b2⟩ := plain_collect (fun (i : Nat) => traverseAt s (k + 3) c i) l2 (fun j hj => hw j (m2 j hj).1 (by
      rw [hf]
      intro e
      exact (m2 j hj).2 (Option.some.inj e).symm))
    refine ⟨A, B, ?_, a2, b2⟩
    rw [List.append_assoc, show i :: l2 = [i] ++ l2 from rfl]
    exact collect_append _ _ _ a1 (collect_append _ _ _ (collect_one _ hH) b1)

/-- The offset of variable length stands in front of what it leads to. -/
theorem Frame.vtab (h : Frame s b nm cur fld gap x t) {i : Nat} (hi : i < (s.fields nm).length) (hf : fld = some i)
    (hio : c.io = b) (hp : c.pos = x + (4 + 2 * (s.fields nm).length)) :
    ∃ p : Nat, c.vtab (i : Int) = some p ∧ p < x + (4 + 2 * (s.fields nm).length + t) := by
  obtain ⟨vo, fx, h1, -, -, h4⟩ := h
  have hw := h1.wid i _ _ (List.getElem?_eq_getElem hi) (h4 i hf)
  rw [putLE_length] at hw
  exact ⟨_, TabAt_vtab h1.at_.tab hio hp hi, by omega⟩

end

section
variable {s : Sch} {nm : Name} {c : CNode} {i e gap : Nat}

theorem _root_.Fbs.Leads.walk_bytes (h : Leads s nm c i e 0) (hst : s.isStruct nm = false) (hvi : c.vi = {}) {fd : FieldT} (hfd : (s.fields nm)[i]? = some fd)
    (hg : fd.grp = ftSlice ||| ftBasic1) (htn : fd.tname = "[]byte".toList) {data : Bytes} (hd : data.length < 4294967296)
    (hH : Holds c.io e (putLE 4 data.length ++ data)) (k : Nat) :
    ∃ u a, traverseAt s (k + 3) c i = some [u] ∧ u.parent = c.pos ∧ treeNode s u = some (some (some a)) ∧ treePos (some a) = ((e + 4 : Nat) : Int) := by
  have hfT := fieldT_name h.name hfd
  have hl4 : (putLE 4 data.length ++ data).length = 4 + data.length := by rw [List.length_append, putLE_length]
  have hhd : Holds c.io e (putLE 4 data.length) := by
    have hh := holds_sub hH 0 4 (by omega) (by omega)
    rwa [List.drop_zero, List.take_append_of_le_length (by rw [putLE_length]; exact Nat.le_refl _),
      List.take_of_length_le (by rw [putLE_length]; exact Nat.le_refl _), Nat.add_zero] at hh
  have hinfo := h.list hd hhd
  have hfa : c.fieldAt s i = some (some { name := fd.tname, io := c.io, pos := e + 4, size := data.length, vi := { pos := ((e + 4 : Nat) : Int), size := data.length, vlen := data.length } }) := by
    unfold CNode.fieldAt
    rw [h.name, hst, h.zero, hfT, hinfo]
    simp only [Option.bind_eq_bind, Option.bind_some, Bool.false_eq_true, if_false]
    rw [if_neg (by rw [hg]; decide), if_neg (by rw [hg]; decide), if_pos (by rw [hg]; decide)]
    rfl
  obtain ⟨v, hv, -⟩ := (tail_bytes hst h hfd hg htn hd hH).2 k
  have hlf : c.isLeafAt s i = true := by
    unfold isLeafAt
    simp only [hfT, hg]
    decide
  refine ⟨⟨c, i, c.pos, v.pos, v.size⟩, _, ?_, rfl, treeNode_plain hvi hfa, ?_⟩
  · unfold traverseAt
    simp only [hlf, if_true, h.name, hst, Bool.false_eq_true, if_false, hv, Option.bind_eq_bind, Option.bind_some, pure]
  · rw [treePos_list (by simp only; omega)]

theorem _root_.Fbs.Leads.walk_table (h : Leads s nm c i e gap) {fd : FieldT} (hfd : (s.fields nm)[i]? = some fd)
    (hg : fd.grp = ftTable) (hv : ∃ p : Nat, c.vtab (i : Int) = some p ∧ p < e + gap) {n : CNode} (hn : c.fieldAt s i = some (some n)) {k : Nat} {r : List Visit}
    (hr : traverseF s k n = some r) : traverseAt s (k + 1) c i = some (⟨c, i, c.pos, n.pos, -1⟩ :: r) := by
  have hfT := fieldT_name h.name hfd
  have hlf : c.isLeafAt s i = false := by
    unfold isLeafAt
    simp only [hfT, hg]
    decide
  obtain ⟨p, hv, hlt⟩ := hv
  unfold traverseAt
  simp only [hlf, hfT, hg, Bool.false_eq_true, if_false, show isFieldUnion ftTable = false by decide, hn,
    Option.bind_eq_bind, Option.bind_some, show isFieldSlice ftTable = false by decide, pure, show isFieldTable ftTable = true by decide, if_true, hv, h.table]
  rw [if_neg (by omega), hr]
  rfl

theorem _root_.Fbs.Leads.walk_union (h : Leads s nm c i e gap) {fd : FieldT} (hfd : (s.fields nm)[i]? = some fd)
    (hg : fd.grp = ftUnion) (hv : ∃ p : Nat, c.vtab (i : Int) = some p ∧ p < e + gap) {a : Name} {n : CNode} (hn : c.followUnion s i = some (some (a, some n))) {k : Nat} {r : List Visit}
    (hr : traverseF s k n = some r) : traverseAt s (k + 1) c i = some (⟨c, i, c.pos, n.pos, -1⟩ :: r) := by
  have hfT := fieldT_name h.name hfd
  have hlf : c.isLeafAt s i = false := by
    unfold isLeafAt
    simp only [hfT, hg]
    decide
  obtain ⟨p, hv, hlt⟩ := hv
  unfold traverseAt
  simp only [hlf, hfT, hg, Bool.false_eq_true, if_false, show isFieldUnion ftUnion = true by decide, hn,
    Option.bind_eq_bind, Option.bind_some, pure, if_true, hv, h.table]
  rw [if_neg (by omega), hr]
  rfl

theorem walk_list (hn : c.name = nm) {fd : FieldT} (hfd : (s.fields nm)[i]? = some fd)
    (hg : fd.grp = ftSlice ||| ftTable) {l : CNode} (hl : c.fieldAt s i = some (some l)) {k : Nat} {r : List Visit}
    (hr : traverseSliceF s k l = some r) : traverseAt s (k + 1) c i = some (⟨c, i, c.pos, l.vi.pos, -1⟩ :: r) := by
  have hfT := fieldT_name hn hfd
  have hlf : c.isLeafAt s i = false := by
    unfold isLeafAt
    simp only [hfT, hg]
    decide
  unfold traverseAt
  simp only [hlf, hfT, hg, Bool.false_eq_true, if_false, show isFieldUnion (ftSlice ||| ftTable) = false by decide, hl,
    Option.bind_eq_bind, Option.bind_some, show isFieldSlice (ftSlice ||| ftTable) = true by decide, pure, if_true, hr]

end

/-! ## the walk over a value -/

mutual
/-- Depth of the calls of `TraverseInfo`. -/
def Val.deep : Val → Nat
  | .tab _ _ sub _ => sub.deep + 4
def Sub.deep : Sub → Nat
  | .none => 0
  | .bytes _ _ _ => 0
  | .table _ _ v => v.deep
  | .union _ _ v => v.deep
  | .list _ _ _ vs => vs.deep
def Vals.deep : Vals → Nat
  | .nil => 0
  | .cons _ v vs => max v.deep vs.deep
end

/-- One element and what is below it. -/
def elemVisits (s : Sch) (k : Nat) (l : CNode) (p : CNode × Nat) : Go (List Visit) := do
  let r ← traverseF s k p.1
  return ⟨l, p.2, l.vi.pos, p.1.pos, -1⟩ :: r

/-- The walk over the elements of a list from the `j`-th on. -/
def elemsFrom (s : Sch) (k : Nat) (l : CNode) (j m : Nat) : Go (List Visit) := do
  let es ← l.allFrom s j m
  collect (elemVisits s k l) (es.zipIdx j)

theorem traverseSliceF_elems {s : Sch} {k : Nat} {l : CNode} {n : Nat} (h : l.listLen = some n) :
    traverseSliceF s (k + 1) l = elemsFrom s k l 0 l.vi.vlen := by
  unfold traverseSliceF elemsFrom CNode.all
  simp only [h, Option.bind_eq_bind, Option.bind_some]
  rfl

theorem elemsFrom_zero {s : Sch} {k j : Nat} {l : CNode} : elemsFrom s k l j 0 = some [] := rfl

theorem elemsFrom_succ {s : Sch} {k j m : Nat} {l e : CNode} (he : l.at_ s (j : Int) = some (.ok e)) {r : List Visit} (hr : traverseF s k e = some r)
    {R : List Visit} (hR : elemsFrom s k l (j + 1) m = some R) :
    elemsFrom s k l j (m + 1) = some (⟨l, j, l.vi.pos, e.pos, -1⟩ :: r ++ R) := by
  unfold elemsFrom at hR ⊢
  unfold CNode.allFrom
  simp only [Option.bind_eq_bind] at hR
  obtain ⟨es, h1, h2⟩ := Option.bind_eq_some_iff.mp hR
  simp only [he, h1, Option.bind_eq_bind, Option.bind_some, pure, List.zipIdx_cons, collect, elemVisits, hr]
  rw [h2]
  simp only [Option.bind_some, List.cons_append]

/-- The visits of the elements of a list at `A` from the `j`-th on, which lie from `x` to `y`. -/
structure VsIn (s : Sch) (A j n x y : Nat) (R : List Visit) : Prop where
  each : ∀ u ∈ R, (u.parent = (A : Int) ∧ ∃ a, treeNode s u = some (some (some a)) ∧ (x : Int) < treePos (some a) ∧ treePos (some a) ≤ y) ∨ VIn s (x + 1) y u
  idx  : (R.filter fun u => decide (u.parent = (A : Int))).map Visit.idx = List.range' j n
  rooted : Rooted s A R

theorem standsV_elem {s : Sch} {l e : CNode} {j : Nat} (hl : 0 < l.vi.pos) (he : l.at_ s (j : Int) = some (.ok e)) {p q z : Int} :
    treeNode s ⟨l, j, p, q, z⟩ = some (some (some e)) := by
  unfold treeNode
  simp only
  rw [if_pos hl]
  simp only [Option.bind_eq_bind, he, Option.bind_some, pure]

theorem VsIn.nil {s : Sch} {A j x y : Nat} : VsIn s A j 0 x y [] :=
  ⟨fun u hu => absurd hu (by simp), by simp, rooted_nil _ _⟩

theorem VsIn.cons {s : Sch} {A j n x y z P : Nat} {l e : CNode} (hl : l.vi.pos = (A : Int)) (hA0 : 0 < A) (he : l.at_ s (j : Int) = some (.ok e)) (hev : e.vi = {})
    (hP : e.pos = P) (hAx : A ≤ x) (hx : x < P) (hPz : P < z) (hzy : z ≤ y) {r : List Visit} (h1 : ∀ u ∈ r, VIn s P z u) (h2 : Rooted s P r)
    {R : List Visit} (hR : VsIn s A (j + 1) n z y R) : VsIn s A j (n + 1) x y (⟨l, j, l.vi.pos, e.pos, -1⟩ :: r ++ R) := by
  have hT : treeNode s ⟨l, j, l.vi.pos, e.pos, -1⟩ = some (some (some e)) := standsV_elem (by rw [hl]; omega) he
  have hpe : treePos (some e) = P := by rw [treePos_plain hev, hP]
  have hout : ∀ u ∈ r, ¬ u.parent = (A : Int) := by
    intro u hu
    have := (h1 u hu).1
    omega
  refine ⟨fun u hu => ?_, ?_, ?_⟩
  · rcases List.mem_append.mp hu with hu | hu
    · rcases List.mem_cons.mp hu with rfl | hu
      · exact Or.inl ⟨hl, e, hT, by omega, by omega⟩
      · exact Or.inr ((h1 u hu).mono (by omega) hzy)
    · rcases hR.each u hu with ⟨g1, a, g2, g3, g4⟩ | g
      · exact Or.inl ⟨g1, a, g2, by omega, by omega⟩
      · exact Or.inr (g.mono (by omega) (Nat.le_refl _))
  · rw [List.cons_append, List.filter_cons_of_pos (by simp [hl]), List.filter_append,
      List.filter_eq_nil_iff.mpr (fun u hu => by simpa using hout u hu), List.nil_append, List.map_cons, hR.idx]
    rfl
  · refine rooted_append (rooted_cons hl ⟨e, hT, hpe⟩ h2) hR.rooted

mutual
/-- The walk over the value that lies there. -/
theorem Val.laid_walk {s : Sch} {b : Base} : ∀ (v : Val), v.Ok s → ∀ {x y : Nat}, v.Laid s b x y → y < 4294967296 → ∀ {c : CNode}, c.name = v.name →
    c.io = b → c.vi = {} → c.pos = x + (4 + 2 * (s.fields v.name).length) → ∀ {K : Nat}, v.deep ≤ K →
    ∃ vs, traverseF s K c = some vs ∧ (∀ u ∈ vs, VIn s c.pos y u) ∧ Rooted s c.pos vs
  | .tab nm pre sub post => by
    intro hok x y hl hy c hn hio hvi hp K hK
    rw [Val.Ok] at hok
    obtain ⟨o1, o2, o3, o4, o5, o6, o7⟩ := hok
    rw [laid_frame] at hl
    obtain ⟨t, hF, hS⟩ := hl
    rw [Val.name] at hn hp
    rw [Val.deep] at hK
    obtain ⟨k, rfl⟩ : ∃ k, K = k + 4 := ⟨K - 4, by omega⟩
    obtain ⟨s1, s2⟩ := hF.shape o1 o3 o4 o6 hn hio hvi hp k
    have hle := Sub.laid_le sub hS
    have hEy : c.pos + t ≤ y := by omega
    cases hf : sub.field with
    | none =>
      obtain ⟨A, a1, a2, a3⟩ := s1 hf
      exact ⟨A, a1, fun u hu => (a2 u hu).vin hEy, a3⟩
    | some i =>
      obtain ⟨hi, H, hH, h1, h2, -⟩ := Sub.laid_walk (K := k + 2) sub hf o1 o7 hF hS hy hn hio hvi hp (by omega)
        (fun j hj hg => hF.read o1 hn hio hp hj hg)
      obtain ⟨A, B, a1, ⟨a2, a3⟩, b2, b3⟩ := s2 i H hf hi hH
      refine ⟨_, a1, fun u hu => ?_, rooted_append (rooted_append a3 h2) b3⟩
      rcases List.mem_append.mp hu with hu | hu
      · rcases List.mem_append.mp hu with hu | hu
        · exact (a2 u hu).vin hEy
        · exact h1 u hu
      · exact (b2 u hu).vin hEy
theorem Sub.laid_walk {s : Sch} {b : Base} {nm : Name} {cur : Nat → Option Bytes} {x t : Nat} : ∀ (sub : Sub) ⦃i : Nat⦄, sub.field = some i → DeepType s nm → sub.Ok s nm cur →
    Frame s b nm cur sub.field (sub.gap s) x t →
    ∀ {y : Nat}, sub.Laid s b (x + (4 + 2 * (s.fields nm).length + t)) y → y < 4294967296 → ∀ {c : CNode}, c.name = nm → c.io = b → c.vi = {} →
    c.pos = x + (4 + 2 * (s.fields nm).length) → ∀ {K : Nat}, sub.deep + 2 ≤ K →
    (∀ (j : Nat) (hj : j < (s.fields nm).length), InlGrp (s.fields nm)[j].grp → FieldRead s nm c j (cur j)) →
    i < (s.fields nm).length ∧ ∃ H, traverseAt s (K + 1) c i = some H ∧ (∀ u ∈ H, VIn s c.pos y u) ∧ Rooted s c.pos H ∧
      ∀ u ∈ H, u.parent = (c.pos : Int) ∨ ((x + (4 + 2 * (s.fields nm).length + t) : Nat) : Int) < u.parent
  | .none => by
    intro i h; cases h
  | .bytes i f data => by
    intro i' hf hs hok hF y hl hy c hn hio hvi hp K hK hR
    cases hf
    rw [Sub.Ok] at hok
    rw [Sub.Laid] at hl
    obtain ⟨fd, hfd, hg⟩ := hok
    have hi := (List.getElem?_eq_some_iff.mp hfd).1
    have hlead := hF.leads hi rfl (by rw [Sub.gap]; omega) hn hio hp
    obtain ⟨k, rfl⟩ : ∃ k, K = k + 2 := ⟨K - 2, by omega⟩
    obtain ⟨u, a, h1, h2, h3, h4⟩ := hlead.walk_bytes (data := data) hs.notStruct hvi hfd hg (bytes_tname hs hfd hg) (by omega) (by rw [hio]; exact hl.1) k
    have ht4 := hF.t4
    refine ⟨hi, [u], h1, fun u' hu => ?_, rooted_one h2, fun u' hu => ?_⟩
    · rw [List.mem_singleton] at hu
      subst hu
      refine ⟨by omega, by omega, _, h3, fun a' ha => ?_⟩
      cases ha
      omega
    · rw [List.mem_singleton] at hu
      subst hu
      exact Or.inl h2
  | .table i fl v => by
    intro i' hf hs hok hF y hl hy c hn hio hvi hp K hK hR
    cases hf
    rw [Sub.Ok] at hok
    rw [Sub.Laid] at hl
    obtain ⟨ho, fd, hfd, hg, htn⟩ := hok
    have hi := (List.getElem?_eq_some_iff.mp hfd).1
    have hle := Val.laid_le v hl
    have ht4 := hF.t4
    have hv := hF.vtab hi rfl hio hp
    obtain ⟨p, hv, hlt⟩ := hv
    have hpre : ∃ tl, CNode.preLoad b (x + (4 + 2 * (s.fields nm).length + t) + (4 + 2 * (s.fields v.name).length)) = some tl ∧ 4 + 2 * (s.fields v.name).length < 65536 := by
      cases v with
      | tab nm' pre' sub' post' =>
        rw [laid_frame] at hl
        obtain ⟨t', hF', -⟩ := hl
        exact ⟨t', hF'.preLoad, hF'.few⟩
    obtain ⟨tl, hpre, hfew⟩ := hpre
    have hlead := hF.leads hi rfl (by rw [Sub.gap]; exact hfew) hn hio hp
    rw [Sub.gap] at hlead
    have hnode := hlead.fieldAt_table hs.notStruct hfd hg (tl := tl) (by rw [hio]; exact hpre)
    rw [Sub.deep] at hK
    obtain ⟨r, r1, r2, r3⟩ := Val.laid_walk v ho hl hy (c := { name := fd.tname, io := c.io, pos := x + (4 + 2 * (s.fields nm).length + t) + (4 + 2 * (s.fields v.name).length), tlen := tl })
      htn hio rfl rfl (K := K) (by omega)
    refine ⟨hi, _, hlead.walk_table hfd hg ⟨p, hv, by omega⟩ hnode r1, fun u hu => ?_, rooted_cons rfl ⟨_, treeNode_plain hvi hnode, treePos_plain rfl⟩ r3, fun u hu => ?_⟩
    · rcases List.mem_cons.mp hu with rfl | hu
      · refine ⟨Int.le_refl _, by simp only; omega, _, treeNode_plain hvi hnode, fun a ha => ?_⟩
        cases ha
        rw [treePos_plain rfl]
        simp only
        omega
      · exact (r2 u hu).mono (by simp only; omega) (Nat.le_refl _)
    · rcases List.mem_cons.mp hu with rfl | hu
      · exact Or.inl rfl
      · have := (r2 u hu).1
        simp only at this
        exact Or.inr (by omega)
  | .union i fl v => by
    intro i' hf hs hok hF y hl hy c hn hio hvi hp K hK hR
    cases hf
    rw [Sub.Ok] at hok
    rw [Sub.Laid] at hl
    obtain ⟨ho, fd, tag, hfd, hg, hcur, h0, hmem⟩ := hok
    have hi := (List.getElem?_eq_some_iff.mp hfd).1
    obtain ⟨td, htd, htg⟩ := union_tag hs hfd hg
    have hti := (List.getElem?_eq_some_iff.mp htd).1
    have hr := hR i hti (by rw [(List.getElem?_eq_some_iff.mp htd).2]; exact inlGrp_basic1 htg)
    rw [hcur] at hr
    obtain ⟨nd, n1, n2⟩ := fieldRead_tag hr
    have hle := Val.laid_le v hl
    have ht4 := hF.t4
    obtain ⟨p, hv, hlt⟩ := hF.vtab hi rfl hio hp
    have hpre : ∃ tl, CNode.preLoad b (x + (4 + 2 * (s.fields nm).length + t) + (4 + 2 * (s.fields v.name).length)) = some tl ∧ 4 + 2 * (s.fields v.name).length < 65536 := by
      cases v with
      | tab nm' pre' sub' post' =>
        rw [laid_frame] at hl
        obtain ⟨t', hF', -⟩ := hl
        exact ⟨t', hF'.preLoad, hF'.few⟩
    obtain ⟨tl, hpre, hfew⟩ := hpre
    have hlead := hF.leads hi rfl (by rw [Sub.gap]; exact hfew) hn hio hp
    rw [Sub.gap] at hlead
    have hnode := hlead.fieldAt_union hs.notStruct hfd hg (tl := tl) (by rw [hio]; exact hpre)
    have hfol := hlead.followUnion hs.notStruct hfd hg (tl := tl) (by rw [hio]; exact hpre) h0 tag.toNat_lt hmem n1 n2
    rw [Sub.deep] at hK
    obtain ⟨r, r1, r2, r3⟩ := Val.laid_walk v ho hl hy (c := { name := v.name, io := c.io, pos := x + (4 + 2 * (s.fields nm).length + t) + (4 + 2 * (s.fields v.name).length), tlen := tl })
      rfl hio rfl rfl (K := K) (by omega)
    refine ⟨hi, _, hlead.walk_union hfd hg ⟨p, hv, by omega⟩ hfol r1, fun u hu => ?_, rooted_cons rfl ⟨_, treeNode_plain hvi hnode, treePos_plain rfl⟩ r3, fun u hu => ?_⟩
    · rcases List.mem_cons.mp hu with rfl | hu
      · refine ⟨Int.le_refl _, by simp only; omega, _, treeNode_plain hvi hnode, fun a ha => ?_⟩
        cases ha
        rw [treePos_plain rfl]
        simp only
        omega
      · exact (r2 u hu).mono (by simp only; omega) (Nat.le_refl _)
    · rcases List.mem_cons.mp hu with rfl | hu
      · exact Or.inl rfl
      · have := (r2 u hu).1
        simp only at this
        exact Or.inr (by omega)
  | .list i fl tn vs => by
    intro i' hf hs hok hF y hl hy c hn hio hvi hp K hK hR
    cases hf
    rw [Sub.Ok] at hok
    rw [Sub.Laid] at hl
    obtain ⟨ho, ht, fd, hfd, hg, htn⟩ := hok
    have hi := (List.getElem?_eq_some_iff.mp hfd).1
    have hlead := hF.leads hi rfl (by rw [Sub.gap]; omega) hn hio hp
    rw [Sub.gap] at hlead
    have hle := Vals.laid_le vs hl.2
    have ht4 := hF.t4
    generalize he : x + (4 + 2 * (s.fields nm).length + t) = e at *
    have hnode := hlead.fieldAt_list hs.notStruct hfd hg (tl := t) (by rw [hio, hp]; exact hF.preLoad) (n := vs.count) (by omega) (by rw [hio]; exact hl.1)
    generalize hL : ({ name := fd.tname, io := c.io, pos := c.pos, tlen := t, vi := { pos := ((e + 4 : Nat) : Int), size := 0, vlen := vs.count } } : CNode) = l at hnode
    have hlen : l.listLen = some vs.count := by
      subst hL
      unfold CNode.listLen CNode.u32
      simp only
      rw [show ((e + 4 : Nat) : Int) - 4 = (e : Int) by omega, hio, holds_getN hl.1, Nat.mod_eq_of_lt (by omega)]
    have hLN : LNode s b tn (e + 4) vs.count l := by
      refine ⟨?_, ?_, ?_, ?_, hlen⟩ <;> subst hL
      · exact htn
      · exact hio
      · rfl
      · rfl
    rw [Sub.deep] at hK
    obtain ⟨k, rfl⟩ : ∃ k, K = k + 1 := ⟨K - 1, by omega⟩
    have hl2 : vs.Laid s b (e + 4 + 4 * 0) (e + 4 + 4 * vs.count) y := hl.2
    obtain ⟨R, r1, r2⟩ := Vals.laid_walk (K := k) vs ho ht hLN (Nat.zero_add _) hl2 (Nat.le_refl _) hy (by omega) (by omega)
    have hsl : traverseSliceF s (k + 1) l = some R := by
      rw [traverseSliceF_elems hlen, hLN.vlen]; exact r1
    have hTl : treePos (some l) = ((e + 4 : Nat) : Int) := by
      rw [treePos_list (by rw [hLN.vpos]; omega), hLN.vpos]
    refine ⟨hi, _, walk_list hn hfd hg hnode hsl, fun u hu => ?_, rooted_cons rfl ⟨_, treeNode_plain hvi hnode, hTl⟩ r2.rooted, fun u hu => ?_⟩
    · rcases List.mem_cons.mp hu with rfl | hu
      · refine ⟨Int.le_refl _, by simp only; omega, _, treeNode_plain hvi hnode, fun a ha => ?_⟩
        cases ha
        omega
      · rcases r2.each u hu with ⟨g1, a, g2, g3, g4⟩ | g
        · refine ⟨by omega, by omega, _, g2, fun a' ha => ?_⟩
          cases ha
          omega
        · exact g.mono (by omega) (Nat.le_refl _)
    · rcases List.mem_cons.mp hu with rfl | hu
      · exact Or.inl rfl
      · rcases r2.each u hu with ⟨g1, -⟩ | g
        · exact Or.inr (by omega)
        · have := g.1
          exact Or.inr (by omega)
theorem Vals.laid_walk {s : Sch} {b : Base} {t : Name} {A n : Nat} {l : CNode} : ∀ (vs : Vals) ⦃k : Nat⦄, vs.Ok s t → TabElt s t → LNode s b t A n l →
    k + vs.count = n → ∀ {x y : Nat}, vs.Laid s b (A + 4 * k) x y → A + 4 * n ≤ x → y < 4294967296 → ∀ {K : Nat}, vs.deep ≤ K → 0 < A →
    ∃ R, elemsFrom s K l k vs.count = some R ∧ VsIn s A k vs.count x y R
  | .nil => by
    intro k _ _ _ _ x y _ _ _ K _ _
    exact ⟨[], elemsFrom_zero, VsIn.nil⟩
  | .cons fl v vs => by
    intro k hok ht hL hk x y hl hA hy K hK hA0
    rw [Vals.Ok] at hok
    rw [Vals.Laid] at hl
    rw [Vals.count] at hk
    rw [Vals.deep] at hK
    obtain ⟨o1, o2, o3⟩ := hok
    obtain ⟨z, l1, l2, l3⟩ := hl
    have h1 := Val.laid_le v l1
    have h2 := Vals.laid_le vs l3
    obtain ⟨tl, h3, h4⟩ := hL.at_eq ht o2 (by omega) l1 (by omega) (by omega) l2
    obtain ⟨r, r1, r2, r3⟩ := Val.laid_walk v o1 l1 (by omega) (c := { name := t, io := b, pos := x + (4 + 2 * (s.fields t).length), tlen := tl }) o2.symm rfl rfl (by rw [o2])
      (K := K) (by omega)
    obtain ⟨R, R1, R2⟩ := Vals.laid_walk (k := k + 1) vs o3 ht hL (by omega) (by rw [show A + 4 * (k + 1) = A + 4 * k + 4 by omega]; exact l3) (by omega) hy (K := K) (by omega) hA0
    rw [Vals.count]
    rw [o2] at h1
    exact ⟨_, elemsFrom_succ h4 r1 R1, VsIn.cons (P := x + (4 + 2 * (s.fields t).length)) hL.vpos hA0 h4 rfl rfl (by omega) (by omega) (by omega) h2 r2 r3 R2⟩
end

end Fbs.Props
