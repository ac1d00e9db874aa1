import Verif.CellReads
import Verif.Props.NodeEdit
import Verif.Props.ListTable
/-!
# Tables built by the API as values: C36, C48

Tables made by `Init` and settings of their scalar and struct fields are stored in lists and in table and union
fields; what is read back through the list or field is what was set in the stored table.
-/

namespace Fbs.Props
open Fbs CNode

/-- Specification: field `i` of the node reads the value `v` (`none`: absent). -/
def FieldRead (s : Sch) (nm : Name) (c : CNode) (i : Nat) (v : Option Bytes) : Prop :=
  (v = none → c.fieldAt s i = some none) ∧
  (∀ w, v = some w → ∃ nd, c.fieldAt s i = some (some nd) ∧ nd.name = ((s.fields nm)[i]?.map FieldT.tname).getD [] ∧
    CNode.scalar w.length (some nd) = some (leVal w) ∧ ∀ req, (nd.io.R nd.pos req).data.take w.length = w)

/-- Specification: the fields of the node read the values `cur`. -/
def FieldsRead (s : Sch) (nm : Name) (c : CNode) (cur : Nat → Option Bytes) : Prop :=
  ∀ i, i < (s.fields nm).length → FieldRead s nm c i (cur i)

/-- `Init` followed by settings. -/
def build (s : Sch) (fuel : Nat) (t : Name) (ops : List Setting) : Option CNode :=
  (CNode.init s t).bind fun c => runSets s fuel c ops

/-- Specification: settings of scalar and struct fields, at least one of them, such that the data they give
the table are at least as long as any scalar field that is not set. -/
structure TableOps (s : Sch) (t : Name) (ops : List Setting) : Prop where
  src : ∀ o ∈ ops, InlSrc s t o.field o.node o.val
  some_ : ops ≠ []
  wide : ∀ i fd, (s.fields t)[i]? = some fd → lastSet ops i = none → fd.grp ≠ ftStruct →
    fieldWidth s fd ≤ dataLen (s.fields t).length (lastSet ops)

theorem lastSet_mem {ops : List Setting} {o : Setting} (h : o ∈ ops) : lastSet ops o.field ≠ none := by
  unfold lastSet
  rw [ne_eq, Option.map_eq_none_iff, List.getLast?_eq_none_iff]
  intro hh
  have : o ∈ ops.filter (fun o' => o'.field = o.field) := List.mem_filter.mpr ⟨h, by simp⟩
  rw [hh] at this; cases this

theorem built_src {s : Sch} {t : Name} (hs : SmallTable s t) (hT : InlTab s t) (fuel : Nat) {ops : List Setting} (ho : TableOps s t ops) :
    ∃ f ps vo, build s (fuel + 1) t ops = some f ∧
      TSrc s 3 t (4 + 2 * (s.fields t).length) f ⟨ps, dataLen (s.fields t).length (lastSet ops)⟩ ∧ Carries s t ps (lastSet ops) vo := by
  obtain ⟨g, hg, hgs⟩ := hs.notList
  obtain ⟨c0, h0, r0⟩ := init_rep hs.ok hg hgs
  obtain ⟨c, h1, r1⟩ := inline_run hs.ok fuel r0 ops ho.src
  simp only [Option.or_none] at r1
  have hne : ∃ i, i < (s.fields t).length ∧ lastSet ops i ≠ none := by
    cases hops : ops with
    | nil => exact absurd hops ho.some_
    | cons o l =>
      have hm : o ∈ ops := by rw [hops]; exact List.mem_cons_self ..
      obtain ⟨fd, hfd, -⟩ := ho.src o hm
      exact ⟨o.field, (List.getElem?_eq_some_iff.mp hfd).1, by rw [← hops]; exact lastSet_mem hm⟩
  obtain ⟨ps, vo, h2, -, h3⟩ := rep_src hT r1 hne ho.wide
  exact ⟨c, ps, vo, by unfold build; rw [h0]; exact h1, h2, h3⟩

theorem carries_read {s : Sch} {t : Name} (hT : InlTab s t) {ps : List Bytes} {cur : Nat → Option Bytes} {vo : Nat → Nat}
    (h : Carries s t ps cur vo) {b : Base} {x : Nat} {c : CNode} (hb : HoldsC b (cellsAt x ps)) (hn : c.name = t) (hio : c.io = b)
    (hp : c.pos = x + (4 + 2 * (s.fields t).length)) : FieldsRead s t c cur := by
  intro i hi
  refine ⟨fun hc => h.absent hT hb hn hio hp hi hc, ?_⟩
  intro w hc
  obtain ⟨nd, n1, n2, n3⟩ := h.present hT hb hn hio hp hi hc
  refine ⟨nd, n1, ?_, holds_getN' n3, fun req => (holds_read n3 req).2⟩
  rw [n2, List.getElem?_eq_getElem hi]; rfl

/-- C48 for tables built by `Init` and settings of their scalar and struct fields: appending any number of
them to an empty list (up to a total size of 2^32) succeeds; the count is the number of tables, and the fields
of `At(i)` read exactly what was set in the `i`-th table. -/
theorem built_table_list_partial (s : Sch) (t : Name) (hs : SmallTable s t) (ht : TabElt s t) (hT : InlTab s t) (k : Nat)
    (items : List (List Setting)) (hok : ∀ ops ∈ items, TableOps s t ops)
    (hl : 4 + (items.map fun ops => 8 + 2 * (s.fields t).length + dataLen (s.fields t).length (lastSet ops)).sum < 4294967296) :
    ∃ tabs c, items.mapM (build s (k + 1) t) = some tabs ∧ runAppend s (k + 4) (initList ('[' :: ']' :: t)) tabs = some c ∧
      c.listLen = some items.length ∧
      ∀ (i : Nat) (ops : List Setting), items[i]? = some ops →
        ∃ n, c.at_ s i = some (.ok n) ∧ n.name = t ∧ FieldsRead s t n (lastSet ops) := by
  -- the built tables with their pieces
  have hbuild : ∃ its : List (CNode × El), items.mapM (build s (k + 1) t) = some (its.map Prod.fst) ∧ its.length = items.length ∧
      (∀ x ∈ its, TSrc s 3 t (4 + 2 * (s.fields t).length) x.1 x.2) ∧
      (∀ (i : Nat) (ops : List Setting), items[i]? = some ops → ∃ x, its[i]? = some x ∧
        x.2.m = dataLen (s.fields t).length (lastSet ops) ∧ ∃ vo, Carries s t x.2.ps (lastSet ops) vo) ∧
      4 + (its.map fun x => 4 + tot x.2.ps).sum < 4294967296 := by
    clear ht
    have hsum : ∃ its : List (CNode × El), items.mapM (build s (k + 1) t) = some (its.map Prod.fst) ∧ its.length = items.length ∧
      (∀ x ∈ its, TSrc s 3 t (4 + 2 * (s.fields t).length) x.1 x.2) ∧
      (∀ (i : Nat) (ops : List Setting), items[i]? = some ops → ∃ x, its[i]? = some x ∧
        x.2.m = dataLen (s.fields t).length (lastSet ops) ∧ ∃ vo, Carries s t x.2.ps (lastSet ops) vo) ∧
      (its.map fun x => 4 + tot x.2.ps).sum =
        (items.map fun ops => 8 + 2 * (s.fields t).length + dataLen (s.fields t).length (lastSet ops)).sum := by
      clear hl
      induction items with
      | nil => exact ⟨[], rfl, rfl, by simp, by simp, rfl⟩
      | cons ops items ih =>
        obtain ⟨its, i1, i2, i3, i4, i5⟩ := ih (fun o ho => hok o (List.mem_cons_of_mem _ ho))
        obtain ⟨f, ps, vo, b1, b2, b3⟩ := built_src hs hT k (hok ops (List.mem_cons_self ..))
        refine ⟨(f, ⟨ps, dataLen (s.fields t).length (lastSet ops)⟩) :: its, ?_, by simp [i2], ?_, ?_, ?_⟩
        · rw [List.mapM_cons, b1, i1]; rfl
        · intro x hx
          rcases List.mem_cons.mp hx with rfl | hx
          · exact b2
          · exact i3 x hx
        · intro i o ho
          cases i with
          | zero =>
            simp only [List.getElem?_cons_zero, Option.some.injEq] at ho
            subst ho
            exact ⟨_, rfl, rfl, vo, b3⟩
          | succ i =>
            simp only [List.getElem?_cons_succ] at ho ⊢
            exact i4 i o ho
        · simp only [List.map_cons, List.sum_cons, i5]
          have := b2.self.len
          simp only at this
          omega
    obtain ⟨its, i1, i2, i3, i4, i5⟩ := hsum
    exact ⟨its, i1, i2, i3, i4, by rw [i5]; exact hl⟩
  obtain ⟨its, i1, i2, i3, i4, i5⟩ := hbuild
  have hE : elEnd (([] : List El) ++ its.map Prod.snd) < 4294967296 := by
    refine Nat.lt_of_le_of_lt (Nat.le_of_eq ?_) i5
    unfold elEnd sumTot
    simp only [List.nil_append, List.map_map, List.length_map]
    clear i5 i4 i3 i2 i1
    induction its with
    | nil => rfl
    | cons x its ih =>
      simp only [List.map_cons, List.sum_cons, List.length_cons, Function.comp_apply] at ih ⊢
      omega
  obtain ⟨c, h1, h2⟩ := append_TLI (k := k + 3) ht (by omega) (by omega) its
    (initList_TLI (s := s) (k0 := 3) (t := t) (vs := 4 + 2 * (s.fields t).length)) i3 hE
  refine ⟨_, c, i1, h1, ?_, ?_⟩
  · rw [h2.listLen]; simp [i2]
  · intro i ops hi
    obtain ⟨x, hx, -, vo, hcar⟩ := i4 i ops hi
    have hx' : (([] : List El) ++ its.map Prod.snd)[i]? = some x.2 := by simp [hx]
    obtain ⟨tl, hat⟩ := h2.view.at_eq ht hx'
    exact ⟨_, hat, rfl, carries_read hT hcar (h2.elt i _ hx') rfl rfl rfl⟩

/-! ## C36 table and union fields -/

theorem tabSrc_of {s : Sch} {t nm : Name} {i fuel : Nat} {fd : FieldT} {f : CNode} {e : El} (hf : 3 ≤ fuel)
    (h : TSrc s 3 t (4 + 2 * (s.fields t).length) f e) (hsm : 4 + 2 * (s.fields t).length < 65536)
    (hfd : (s.fields nm)[i]? = some fd) (hg : fd.grp = ftTable ∨ fd.grp = ftUnion)
    (hn : t = fd.tname ∨ (fd.grp = ftUnion ∧ t ∈ (s.unions fd.tname).getD [])) : TabSrc s fuel nm i fd f e.ps e.m := by
  have hname := h.name
  refine ⟨hfd, hg, by rw [hname]; exact hn, by rw [hname]; exact h.vpos, by rw [hname]; exact hsm, by rw [hname]; exact h.mem,
    by rw [hname]; exact h.self.len, h.self.mpos, ?_⟩
  rcases h.size with h1 | ⟨h1, h2⟩
  · exact Or.inl h1
  · obtain ⟨p, h3⟩ := h2 fuel hf
    exact Or.inr ⟨h1, _, h3, rfl⟩

/-- Reading scalar and struct fields next to one variable-length field. -/
theorem rep_read {cel : Prop} {s : Sch} {nm : Name} (hs : SchOk s nm) {c : CNode} {cur : Nat → Option Bytes} {vec : Option (Nat × TI.Tail)}
    (h : RepG cel s nm c cur vec) {i : Nat} (hi : i < (s.fields nm).length) {v : Option Bytes} (hv : cur i = v)
    (hg : v ≠ none → InlGrp ((s.fields nm)[i]).grp) : FieldRead s nm c i v := by
  have hfi : (s.fields nm)[i]? = some (s.fields nm)[i] := List.getElem?_eq_getElem hi
  constructor
  · rintro rfl; exact rep_absent hs h hi hv
  · rintro w rfl
    obtain ⟨nd, n1, n2, n3⟩ := rep_inline hs h hfi (hg (by simp)) hv
    exact ⟨nd, n1, by rw [n2, hfi]; rfl, holds_getN' n3, fun req => (holds_read n3 req).2⟩

theorem lastSet_src {s : Sch} {nm : Name} {ops : List Setting} (h : ∀ o ∈ ops, InlSrc s nm o.field o.node o.val) {i : Nat}
    (hi : i < (s.fields nm).length) (hv : lastSet ops i ≠ none) : InlGrp ((s.fields nm)[i]).grp := by
  obtain ⟨w, hw⟩ := Option.ne_none_iff_exists'.mp hv
  unfold lastSet at hw
  obtain ⟨o, ho, -⟩ := Option.map_eq_some_iff.mp hw
  have := List.mem_of_getLast? ho
  rw [List.mem_filter] at this
  obtain ⟨fd, hfd, hgr, -⟩ := h o this.1
  rw [show o.field = i by simpa using this.2, List.getElem?_eq_getElem hi] at hfd
  cases hfd; exact hgr

theorem lastSet_append (a b : List Setting) (i : Nat) : lastSet (a ++ b) i = (lastSet b i).or (lastSet a i) := by
  unfold lastSet
  rw [List.filter_append, List.getLast?_append]
  cases (List.filter (fun o => decide (o.field = i)) b).getLast? with
  | none => rfl
  | some x => rfl

/-- The state after settings, a table or union value in field `i`, and further settings. -/
theorem nest_run {s : Sch} {nm t : Name} (hs : SmallTable s nm) (hst : SmallTable s t) (hT : InlTab s t) (k i : Nat) (fd : FieldT)
    (hfd : (s.fields nm)[i]? = some fd) (hg : fd.grp = ftTable ∨ fd.grp = ftUnion)
    (hn : t = fd.tname ∨ (fd.grp = ftUnion ∧ t ∈ (s.unions fd.tname).getD []))
    (sub pre post : List Setting) (hsub : TableOps s t sub)
    (hpre : ∀ o ∈ pre, InlSrc s nm o.field o.node o.val) (hpost : ∀ o ∈ post, InlSrc s nm o.field o.node o.val)
    (hvi : ∀ c, Rep s nm c (lastSet pre) none → ∃ v, valueInfoF s (k + 3) c i = some v) :
    ∃ f c ps vo cur, build s (k + 3) t sub = some f ∧ build s (k + 3) nm (pre ++ ⟨i, f, []⟩ :: post) = some c ∧
      Carries s t ps (lastSet sub) vo ∧ SelfC s 3 t (4 + 2 * (s.fields t).length) ps (dataLen (s.fields t).length (lastSet sub)) ∧
      Rep s nm c cur (some (i, tabTail (4 + 2 * (s.fields t).length) ps)) ∧
      ∀ j, j ≠ i → cur j = lastSet (pre ++ post) j := by
  obtain ⟨f, ps, vo, b1, b2, b3⟩ := built_src hst hT (k + 2) hsub
  obtain ⟨g, hgt, hgs⟩ := hs.notList
  obtain ⟨c0, h0, r0⟩ := init_rep hs.ok hgt hgs
  obtain ⟨c1, h1, r1⟩ := inline_run hs.ok (k + 2) r0 pre hpre
  simp only [Option.or_none] at r1
  have hsrc := tabSrc_of (fuel := k + 3) (by omega) b2 hst.few hfd hg hn
  obtain ⟨c2, h2, r2⟩ := set_table hs.ok r1 hsrc (hvi c1 r1)
  rw [b2.name] at r2
  obtain ⟨c3, h3, r3⟩ := inline_run hs.ok (k + 2) r2 post hpost
  refine ⟨f, c3, ps, vo, _, b1, ?_, b3, b2.self, r3, ?_⟩
  · unfold build
    rw [h0]
    show runSets s (k + 3) c0 _ = _
    rw [runSets_append, h1]
    simp only [Option.bind_some, runSets, h2]
    exact h3
  · intro j hj
    simp only [if_neg hj]
    rw [lastSet_append]

/-- The extent of an absent table field is defined. -/
theorem table_info_absent {s : Sch} {nm : Name} (hs : SmallTable s nm) {k i : Nat} {fd : FieldT} (hfd : (s.fields nm)[i]? = some fd)
    (hg : fd.grp = ftTable) {cur : Nat → Option Bytes} : ∀ c, Rep s nm c cur none → ∃ v, valueInfoF s (k + 3) c i = some v := by
  have hi : i < (s.fields nm).length := (List.getElem?_eq_some_iff.mp hfd).1
  have hng : ¬ InlGrp fd.grp := fun hh => inlGrp_notVec hh (Or.inr (Or.inl hg))
  intro c r
  obtain ⟨t', vo', fx', hI, -, -, hN, -⟩ := r.ex
  have hfx : fx' i = none := by
    rcases hN i fd hfd hng with ⟨h1, -⟩ | ⟨d, h1, -⟩
    · exact h1
    · cases h1
  unfold valueInfoF
  simp only [hI.fieldT_eq hfd, hg, show isFieldStruct ftTable = false by decide, show isFieldUnion ftTable = false by decide,
    show isFieldBytes ftTable = false by decide, show isFieldSlice ftTable = false by decide,
    show isFieldTable ftTable = true by decide, Bool.false_eq_true, if_false, if_true]
  rw [hI.table_absent hi hfx, hI.absent hs.ok.st hi hfx]
  exact ⟨_, rfl⟩

/-- C36 for one table-valued field among any number of scalar settings: the field reads a table whose fields
read what was set in the stored table; every other field, set before or after, reads the value last set for
it.  (Missing: stored tables that have variable-length fields themselves, a second variable-length field, see
`vector_setting_fails`, and resetting the field.) -/
theorem table_setting_partial (s : Sch) (nm t : Name) (hs : SmallTable s nm) (hst : SmallTable s t) (hT : InlTab s t) (k i : Nat)
    (fd : FieldT) (hfd : (s.fields nm)[i]? = some fd) (hg : fd.grp = ftTable) (hn : t = fd.tname)
    (sub pre post : List Setting) (hsub : TableOps s t sub)
    (hpre : ∀ o ∈ pre, InlSrc s nm o.field o.node o.val) (hpost : ∀ o ∈ post, InlSrc s nm o.field o.node o.val) :
    ∃ f c, build s (k + 3) t sub = some f ∧ build s (k + 3) nm (pre ++ ⟨i, f, []⟩ :: post) = some c ∧
      (∃ nd, c.fieldAt s i = some (some nd) ∧ nd.name = t ∧ FieldsRead s t nd (lastSet sub)) ∧
      ∀ j, j < (s.fields nm).length → j ≠ i → FieldRead s nm c j (lastSet (pre ++ post) j) := by
  have hi : i < (s.fields nm).length := (List.getElem?_eq_some_iff.mp hfd).1
  have hng : ¬ InlGrp fd.grp := fun hh => inlGrp_notVec hh (Or.inr (Or.inl hg))
  obtain ⟨f, c, ps, vo, cur, b1, b2, b3, b4, r, hcur⟩ := nest_run hs hst hT k i fd hfd (Or.inl hg) (Or.inl hn) sub pre post hsub hpre hpost
    (table_info_absent hs hfd hg)
  obtain ⟨x, q1, q2, q3⟩ := rep_table r hi
  obtain ⟨tl, hpl⟩ := b4.pre _ _ q3
  obtain ⟨t', vo', fx', hI, -⟩ := r.ex
  refine ⟨f, c, b1, b2, ⟨{ name := t, io := c.io, pos := x + (4 + 2 * (s.fields t).length), tlen := tl }, ?_, rfl,
    carries_read hT b3 q3 rfl rfl rfl⟩, ?_⟩
  · unfold CNode.fieldAt
    rw [hI.name, hs.ok.st, q2]
    simp only [hI.fieldT_eq hfd, hg, show isFieldStruct ftTable = false by decide, show isFieldUnion ftTable = false by decide,
      show isFieldBytes ftTable = false by decide, show isFieldSlice ftTable = false by decide,
      show isFieldTable ftTable = true by decide, Option.bind_eq_bind, Option.bind_some, Bool.false_eq_true, if_false, if_true]
    rw [q1]
    simp only [Option.bind_some]
    rw [if_neg (by omega), Int.toNat_natCast]
    unfold newNode
    rw [hpl]
    simp only [Option.bind_eq_bind, Option.bind_some, pure, hn]
  · intro j hj hji
    exact rep_read hs.ok r hj (hcur j hji) (lastSet_src (fun o ho => by
      rcases List.mem_append.mp ho with h | h
      · exact hpre o h
      · exact hpost o h) hj)

theorem tag_read {s : Sch} {nm : Name} (hs : SmallTable s nm) {i : Nat} {td : FieldT} (htd : (s.fields nm)[i]? = some td)
    (htg : td.grp = ftBasic1) {c : CNode} {cur : Nat → Option Bytes} {vec : Option (Nat × TI.Tail)} (r : Rep s nm c cur vec)
    {v : UInt8} (hv : cur i = some [v]) :
    ∃ nd, c.fieldAt s (i : Int) = some (some nd) ∧ CNode.scalar 1 (some nd) = some v.toNat := by
  obtain ⟨nd, n1, n2, n3⟩ := rep_inline hs.ok r htd (by rw [htg]; exact Or.inr (Or.inl rfl)) hv
  refine ⟨nd, n1, ?_⟩
  have := holds_getN' n3
  simp only [List.length_cons, List.length_nil, Nat.zero_add] at this
  rw [show leVal [v] = v.toNat by simp [leVal]] at this
  exact this

/-- The extent of an absent union field is defined, if its tag is that of a member or zero. -/
theorem union_info_absent {s : Sch} {nm : Name} (hs : SmallTable s nm) {k i : Nat} {fd td : FieldT}
    (hfd : (s.fields nm)[i + 1]? = some fd) (hg : fd.grp = ftUnion)
    (htd : (s.fields nm)[i]? = some td) (htg : td.grp = ftBasic1) {pre : List Setting}
    (hold : ∀ w, lastSet pre i = some w → ∃ v, w = [v] ∧ v.toNat ≤ ((s.unions fd.tname).getD []).length) :
    ∀ c, Rep s nm c (lastSet pre) none → ∃ v, valueInfoF s (k + 3) c (i + 1) = some v := by
  have hi : i + 1 < (s.fields nm).length := (List.getElem?_eq_some_iff.mp hfd).1
  have hng : ¬ InlGrp fd.grp := fun hh => inlGrp_notVec hh (Or.inr (Or.inr hg))
  have fl : isFieldStruct ftUnion = false ∧ isFieldUnion ftUnion = true := by decide
  have hsub1 : ((i + 1 : Nat) : Int) - 1 = (i : Int) := by omega
  intro c r
  obtain ⟨t', vo', fx', hI, -, -, hN, -⟩ := r.ex
  have hfx : fx' (i + 1) = none := by
    rcases hN (i + 1) fd hfd hng with ⟨h1, -⟩ | ⟨d, h1, -⟩
    · exact h1
    · cases h1
  have hab := hI.absent hs.ok.st hi hfx
  unfold valueInfoF
  simp only [hI.fieldT_eq hfd, hg, fl.1, fl.2, Bool.false_eq_true, if_false, if_true]
  rw [hI.table_absent hi hfx]
  simp only [Option.bind_eq_bind, Option.bind_some]
  unfold CNode.canFollow
  rw [hsub1]
  cases hw : lastSet pre i with
  | none =>
    rw [rep_absent hs.ok r (by omega) hw]
    exact ⟨_, rfl⟩
  | some w =>
    obtain ⟨v, rfl, hv⟩ := hold w hw
    obtain ⟨nd, n1, n2⟩ := tag_read hs htd htg r hw
    rw [n1]
    simp only [Option.bind_eq_bind, Option.bind_some]
    rw [n2]
    simp only [Option.bind_some, pure]
    by_cases h0 : v.toNat > 0
    · simp only [h0, decide_true, if_true]
      unfold CNode.followUnion
      rw [hsub1, n1]
      simp only [Option.bind_eq_bind, Option.bind_some]
      rw [n2]
      simp only [Option.bind_some]
      have hlt : v.toNat < 256 := v.toNat_lt
      have e : (v.toNat + 255) % 256 = v.toNat - 1 := by omega
      rw [hI.fieldT_eq hfd, e, List.getElem?_eq_getElem (show v.toNat - 1 < _ by omega)]
      simp only
      rw [hab]
      exact ⟨_, rfl⟩
    · simp only [h0, decide_false, Bool.false_eq_true, if_false]
      exact ⟨_, rfl⟩

/-- C36 for one union-valued field: after a member table is stored and its tag is set (before or after),
following the union gives that member, whose fields read what was set in the stored table; every other field
reads the value last set for it.  (Missing as above; moreover, when the tag is set before to a number that is
not a member, storing the value panics.) -/
theorem union_setting_partial (s : Sch) (nm t : Name) (hs : SmallTable s nm) (hst : SmallTable s t) (hT : InlTab s t) (k i : Nat)
    (fd td : FieldT) (hfd : (s.fields nm)[i + 1]? = some fd) (hg : fd.grp = ftUnion)
    (htd : (s.fields nm)[i]? = some td) (htg : td.grp = ftBasic1)
    (tag : UInt8) (h1 : 0 < tag.toNat) (hmem : ((s.unions fd.tname).getD [])[tag.toNat - 1]? = some t)
    (sub pre post : List Setting) (hsub : TableOps s t sub)
    (hpre : ∀ o ∈ pre, InlSrc s nm o.field o.node o.val) (hpost : ∀ o ∈ post, InlSrc s nm o.field o.node o.val)
    (htag : lastSet (pre ++ post) i = some [tag])
    (hold : ∀ w, lastSet pre i = some w → ∃ v, w = [v] ∧ v.toNat ≤ ((s.unions fd.tname).getD []).length) :
    ∃ f c nd, build s (k + 3) t sub = some f ∧ build s (k + 3) nm (pre ++ ⟨i + 1, f, []⟩ :: post) = some c ∧
      c.canFollow s ((i + 1 : Nat) : Int) = some true ∧
      c.followUnion s ((i + 1 : Nat) : Int) = some (some (t, some nd)) ∧ nd.name = t ∧ FieldsRead s t nd (lastSet sub) ∧
      ∀ j, j < (s.fields nm).length → j ≠ i + 1 → FieldRead s nm c j (lastSet (pre ++ post) j) := by
  have hi : i + 1 < (s.fields nm).length := (List.getElem?_eq_some_iff.mp hfd).1
  have hng : ¬ InlGrp fd.grp := fun hh => inlGrp_notVec hh (Or.inr (Or.inr hg))
  have htgI : InlGrp td.grp := by rw [htg]; exact Or.inr (Or.inl rfl)
  have fl : isFieldStruct ftUnion = false ∧ isFieldUnion ftUnion = true := by decide
  have hsub1 : ((i + 1 : Nat) : Int) - 1 = (i : Int) := by omega
  obtain ⟨f, c, ps, vo, cur, b1, b2, b3, b4, r, hcur⟩ := nest_run hs hst hT k (i + 1) fd hfd (Or.inr hg)
    (Or.inr ⟨hg, List.mem_of_getElem? hmem⟩) sub pre post hsub hpre hpost
    (union_info_absent hs hfd hg htd htg hold)
  obtain ⟨x, q1, q2, q3⟩ := rep_table r hi
  obtain ⟨tl, hpl⟩ := b4.pre _ _ q3
  obtain ⟨t', vo', fx', hI, -⟩ := r.ex
  obtain ⟨nd, n1, n2⟩ := tag_read hs htd htg r ((hcur i (by omega)).trans htag)
  refine ⟨f, c, { name := t, io := c.io, pos := x + (4 + 2 * (s.fields t).length), tlen := tl }, b1, b2, ?_, ?_, rfl,
    carries_read hT b3 q3 rfl rfl rfl, ?_⟩
  · unfold CNode.canFollow
    rw [hsub1, n1]
    simp only [Option.bind_eq_bind, Option.bind_some]
    rw [n2]
    simp [h1]
  · unfold CNode.followUnion
    rw [hsub1, n1]
    simp only [Option.bind_eq_bind, Option.bind_some]
    rw [n2]
    simp only [Option.bind_some]
    have hlt : tag.toNat < 256 := tag.toNat_lt
    have e : (tag.toNat + 255) % 256 = tag.toNat - 1 := by omega
    rw [hI.fieldT_eq hfd, e, hmem]
    simp only
    unfold CNode.fieldAt
    rw [hI.name, hs.ok.st, q2]
    simp only [hI.fieldT_eq hfd, hg, fl.1, fl.2, Option.bind_eq_bind, Option.bind_some, Bool.false_eq_true, if_false, if_true]
    rw [q1]
    simp only [Option.bind_some]
    rw [if_neg (by omega), Int.toNat_natCast]
    unfold newNode
    rw [hpl]
    rfl
  · intro j hj hji
    exact rep_read hs.ok r hj (hcur j hji) (lastSet_src (fun o ho => by
      rcases List.mem_append.mp ho with h | h
      · exact hpre o h
      · exact hpost o h) hj)

/-! ## the hypotheses can be met; where the code fails -/

/-- Tables `TT { a: int16; b: int64; }` and `PP { a: int32; u: UU; t: TT; d: [byte]; }`, union `UU { TT }`. -/
def nestSch : Sch where
  fields := fun n => if n = "TT".toList then [⟨"Int16".toList, ftBasic2, some .int16⟩, ⟨"Int64".toList, ftBasic8, some .int64⟩]
    else if n = "PP".toList then [⟨"Int32".toList, ftBasic4, some .int32⟩, ⟨"Byte".toList, ftBasic1, some .byte⟩,
      ⟨"UU".toList, ftUnion, none⟩, ⟨"TT".toList, ftTable, none⟩, ⟨"[]byte".toList, ftSlice ||| ftBasic1, none⟩] else []
  unions := fun n => if n = "UU".toList then some ["TT".toList] else none

theorem nest_TT : SmallTable nestSch "TT".toList where
  notStruct := rfl
  notList := ⟨ftTable, by decide, by decide⟩
  few := by decide
  name := by decide
  small := by decide

theorem nest_PP : SmallTable nestSch "PP".toList where
  notStruct := rfl
  notList := ⟨ftTable, by decide, by decide⟩
  few := by decide
  name := by decide
  small := by decide

theorem nest_inl : InlTab nestSch "TT".toList where
  dir := by decide
  nst := rfl
  inl := by
    intro f hf
    have hfl : nestSch.fields "TT".toList = [⟨"Int16".toList, ftBasic2, some .int16⟩, ⟨"Int64".toList, ftBasic8, some .int64⟩] := rfl
    rw [hfl] at hf
    simp only [List.mem_cons, List.not_mem_nil, or_false] at hf
    rcases hf with rfl | rfl
    · exact ⟨Or.inr (Or.inr (Or.inl rfl)), by decide⟩
    · exact ⟨Or.inr (Or.inr (Or.inr (Or.inr rfl))), by decide⟩
  sml := by decide

def nestSub : List Setting := [⟨1, fromScalar "Int64".toList 8 9, putLE 8 9⟩]
def nestTag (n : Nat) : Setting := ⟨1, fromScalar "Byte".toList 1 n, putLE 1 n⟩

theorem nest_ops : TableOps nestSch "TT".toList nestSub where
  src := by
    intro o ho
    simp only [nestSub, List.mem_singleton] at ho
    subst ho
    exact fromScalar_src _ _ 1 8 9 ⟨"Int64".toList, ftBasic8, some .int64⟩ (by decide) rfl (by decide) rfl
  some_ := by simp [nestSub]
  wide := by
    intro i fd hfd h1 h2
    have hi := (List.getElem?_eq_some_iff.mp hfd).1
    have : i = 0 ∨ i = 1 := by
      have : (nestSch.fields "TT".toList).length = 2 := rfl
      omega
    rcases this with rfl | rfl
    · cases hfd; decide
    · cases hfd; decide

theorem nest_tag (n : Nat) : InlSrc nestSch "PP".toList (nestTag n).field (nestTag n).node (nestTag n).val :=
  fromScalar_src _ _ 1 1 n ⟨"Byte".toList, ftBasic1, some .byte⟩ (by decide) rfl (by decide) rfl

example : TabElt nestSch "TT".toList := ⟨ftTable, by decide, by decide, by decide, by decide, by decide⟩

-- the hypotheses of `table_setting_partial` and `union_setting_partial` can be met
example : ∃ f c, build nestSch 3 "TT".toList nestSub = some f ∧ build nestSch 3 "PP".toList ([] ++ ⟨3, f, []⟩ :: [nestTag 1]) = some c ∧
      (∃ nd, c.fieldAt nestSch (3 : Nat) = some (some nd) ∧ nd.name = "TT".toList ∧ FieldsRead nestSch "TT".toList nd (lastSet nestSub)) ∧
      ∀ j, j < (nestSch.fields "PP".toList).length → j ≠ 3 → FieldRead nestSch "PP".toList c j (lastSet ([] ++ [nestTag 1]) j) :=
  table_setting_partial nestSch _ _ nest_PP nest_TT nest_inl 0 3 ⟨"TT".toList, ftTable, none⟩ rfl rfl rfl nestSub [] [nestTag 1] nest_ops
    (by simp) (by intro o ho; simp only [List.mem_singleton] at ho; subst ho; exact nest_tag 1)

example : ∃ f c nd, build nestSch 3 "TT".toList nestSub = some f ∧ build nestSch 3 "PP".toList ([] ++ ⟨2, f, []⟩ :: [nestTag 1]) = some c ∧
      c.canFollow nestSch ((1 + 1 : Nat) : Int) = some true ∧
      c.followUnion nestSch ((1 + 1 : Nat) : Int) = some (some ("TT".toList, some nd)) ∧ nd.name = "TT".toList ∧
      FieldsRead nestSch "TT".toList nd (lastSet nestSub) ∧
      ∀ j, j < (nestSch.fields "PP".toList).length → j ≠ 1 + 1 → FieldRead nestSch "PP".toList c j (lastSet ([] ++ [nestTag 1]) j) :=
  union_setting_partial nestSch _ _ nest_PP nest_TT nest_inl 0 1 ⟨"UU".toList, ftUnion, none⟩ ⟨"Byte".toList, ftBasic1, some .byte⟩
    rfl rfl rfl rfl 1 (by decide) rfl nestSub [] [nestTag 1] nest_ops
    (by simp) (by intro o ho; simp only [List.mem_singleton] at ho; subst ho; exact nest_tag 1) rfl
    (by intro w hw; cases hw)

/-- C36 is violated for unions: when the tag was set to a number without a member, storing the value panics. -/
theorem union_setting_fails :
    (do let f ← build nestSch 9 "TT".toList nestSub
        build nestSch 9 "PP".toList [nestTag 2, ⟨2, f, []⟩]).isNone = true ∧
    (build nestSch 9 "TT".toList nestSub).isSome = true := by decide +kernel

/-- C36 is violated: setting a byte vector after a table-valued field succeeds, but the table can no longer
be read (reading its second field panics, before it was 9). -/
theorem table_setting_fails :
    (do let f ← build nestSch 9 "TT".toList nestSub
        let p ← build nestSch 9 "PP".toList [⟨3, f, []⟩]
        let t ← p.fieldAt nestSch 3
        let x ← t
        let b ← x.fieldAt nestSch 1
        let v ← scalar 8 b
        let (q, e) ← p.setFieldAt nestSch 9 4 (fromBytes [65, 66, 67])
        return (v, e, (do let t ← q.fieldAt nestSch 3; let x ← t; x.fieldAt nestSch 1).isNone)) = some (9, none, true) := by
  decide +kernel

end Fbs.Props
