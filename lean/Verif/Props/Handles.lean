import Verif.Handles
import Verif.Props.EditDeep

/-!
# Several handles on one message (C112)

A handle (`CommonNode`) has the place of its table and a pointer to the bytes (`IO`).  `FieldAt` (common.go 248, 268, 281),
`NodeList.At` (list.go 302, 328) and `FollowUnion` (node.go 133) give handles with the pointer of the handle they are called on.
`SetFieldAt` on a field that is there writes through the pointer (common.go 1199-1206), so that other handles see it; on a field
that is not there it makes other bytes (`insertSpace`, base.go 1047-1083, leaves the old ones as they are), and only the handle
it is called on gets the pointer to these (common.go 880-890).

`Shared` has the bytes pointed to (`cells`), and the handles with the number of the cell they point to; the bytes in the
`CNode` of a handle are not used.  Only fields that are scalars or structs are set (`Act.set`).
-/
namespace Fbs.Props
open Fbs CNode

/-- Bytes and handles that point to them. -/
structure Shared where
  cells : List Base
  hs    : List (CNode × Nat)

/-- The handle, with the bytes it points to. -/
def Shared.node (m : Shared) (j : Nat) : Option CNode :=
  m.hs[j]?.bind fun h => m.cells[h.2]?.map fun b => { h.1 with io := b }

/-- What a program does: go from the table of a handle to one below it, which gives another handle; set a field. -/
inductive Act where
  | walk (j : Nat) (p : List Hop)
  | set  (j : Nat) (o : Setting)

/-- common.go 1196-1212 `SetFieldAt` through a handle: the bytes pointed to change if the field is there, else the handle points
to others. -/
def Shared.act (s : Sch) (fuel : Nat) (m : Shared) : Act → Option Shared
  | .walk j p =>
    m.hs[j]?.bind fun h => (m.node j).bind fun c => (walkTo s c p).map fun d => { m with hs := m.hs ++ [(d, h.2)] }
  | .set j o =>
    m.hs[j]?.bind fun h => (m.node j).bind fun c => (c.isZero o.field).bind fun z =>
      match c.setFieldAt s fuel o.field o.node with
      | some (c', none) =>
        if z then some { cells := m.cells ++ [c'.io], hs := m.hs.set j (c', m.cells.length) }
        else some { cells := m.cells.set h.2 c'.io, hs := m.hs.set j (c', h.2) }
      | _ => none

/-- A message that was opened. -/
def Shared.opened (r : CNode) : Shared := { cells := [r.io], hs := [(r, 0)] }

/-! ## specification -/

/-- The value of the message, and the way to the table of each handle. -/
structure OneMsg where
  val   : Val
  paths : List (List Hop)

/-- Specification: there is one value, and all handles are on it. -/
def OneMsg.act (S : OneMsg) : Act → OneMsg
  | .walk j p => { S with paths := S.paths ++ [(S.paths[j]?.getD []) ++ p] }
  | .set j o => { S with val := S.val.edit ⟨[], S.paths[j]?.getD [], [o]⟩ }

/-- Specification: the handle is there, and so is the table; what is set is a scalar or struct that is there already, of the type
of the field, and leaves the tags those of members. -/
def OneMsg.Fits (s : Sch) (S : OneMsg) : Act → Prop
  | .walk j p => ∃ q w, S.paths[j]? = some q ∧ S.val.sel (q ++ p) = some w
  | .set j o => ∃ q w, S.paths[j]? = some q ∧ S.val.sel q = some w ∧ InlSrc s w.name o.field o.node o.val ∧ (w.with [o]).Ok s ∧ w.cur o.field ≠ none

def ActsFit (s : Sch) : OneMsg → List Act → Prop
  | _, [] => True
  | S, a :: l => S.Fits s a ∧ ActsFit s (S.act a) l

/-! ## setting in place -/

theorem InMsg.other {s : Sch} {p q : List Hop} {v w : Val} {nm : Name} {pre post post' : List Setting} {sub : Sub} {c d : CNode} {X Xp y t : Nat}
    {cur : Nat → Option Bytes} {b' : Base}
    (hq : InMsg s q v (.tab nm pre sub post) d X y) (hp : InMsg s p v w c Xp y) (hio : c.io = d.io)
    (hT : Frame s b' nm cur sub.field (sub.gap s) X t) (hT0 : CNode.preLoad d.io (X + (4 + 2 * (s.fields nm).length)) = some t)
    (hk : ∀ z w, Holds d.io z w → (z + w.length ≤ X ∨ X + (4 + 2 * (s.fields nm).length) + t ≤ z) → Holds b' z w)
    (hh : Head s b' (v.put q (.tab nm pre sub post'))) (hl : (v.put q (.tab nm pre sub post')).Laid s b' 8 y) (hok : (v.put q (.tab nm pre sub post')).Ok s) :
    ∃ w', (v.put q (.tab nm pre sub post')).sel p = some w' ∧ InMsg s p (v.put q (.tab nm pre sub post')) w' { c with io := b' } Xp y := by
  obtain ⟨-, ⟨Yq, Lq, hCq, hwq⟩, -, hy, -, -⟩ := hq
  obtain ⟨-, ⟨Yp, Lp, hCp, hwp⟩, -, -, hn, hpos⟩ := hp
  rw [hio] at hCp hwp
  obtain ⟨w', h1, h2⟩ := sel_put_other (post' := post') q v (ctx_sel q v hCq) p (ctx_sel p v hCp)
  obtain ⟨X', Y', L', hC', hw'⟩ := laid_ctx p _ hl h1
  have e1 := start_ctx hwp p v hCp hy
  have e2 := start_ctx hw' p _ hC' hy
  rw [start_edit hwq hT hT0 hk q v hCq hy p, e1] at e2
  cases e2
  exact ⟨w', h1, hh, ⟨Y', L', hC', hw'⟩, hok, hy, by rw [h2]; exact hn, by rw [h2]; exact hpos⟩

/-- A field that is there, set through a handle; the message, and all handles with the same bytes. -/
theorem InMsg.here {s : Sch} {q : List Hop} {v w : Val} {d : CNode} {X y : Nat} (h : InMsg s q v w d X y) {o : Setting}
    (hsrc : InlSrc s w.name o.field o.node o.val) (hok : (w.with [o]).Ok s) (hc : w.cur o.field ≠ none) {fuel : Nat} :
    ∃ d', d.setFieldAt s (fuel + 1) o.field o.node = some (d', none) ∧ d.isZero o.field = some false ∧
      InMsg s q (v.put q (w.with [o])) (w.with [o]) d' X y ∧
      ∀ p wp (c : CNode) Xp, InMsg s p v wp c Xp y → c.io = d.io →
        ∃ w', (v.put q (w.with [o])).sel p = some w' ∧ InMsg s p (v.put q (w.with [o])) w' { c with io := d'.io } Xp y := by
  have h0 := h
  obtain ⟨hh, ⟨Y, L, hC, hw⟩, hv, hyy, hn, hp⟩ := h
  obtain ⟨g1, g2, g3, g4, g5, g6⟩ := ctx_bounds q v hC
  have hsel := ctx_sel q v hC
  have hokw := sel_ok q v hv hsel
  have hokv := put_ok hok (with_name w [o]) q v hv hsel
  have hlists := ctx_lists q v hC hv
  cases hwe : w with
  | tab nm pre sub post =>
    rw [hwe] at hw h0 hC
    rw [hwe, Val.name] at hn hp hsrc
    rw [hwe, Val.Ok] at hokw
    obtain ⟨o1, o2, o3, o4, o5, o6, o7⟩ := hokw
    have hw0 := hw
    rw [laid_frame] at hw
    obtain ⟨t, hF, hSub⟩ := hw
    have hYl := Sub.laid_le sub hSub
    have hfld := sub_grp o7
    rw [hwe] at hc hok hokv
    have hcur : (fun j => if j = o.field then some o.val else lastSet (pre ++ post) j) = lastSet (pre ++ (post ++ [o])) := by
      funext j
      rw [← List.append_assoc, lastSet_snoc]
    have hsch := o1.toSmallTable.ok
    obtain ⟨b', e1, hF', hkeep, -, -⟩ := hF.set_present (c := d) (fuel := fuel) hsch hn rfl hp hfld hsrc hc
    have hE : Edited d.io b' X (X + (4 + 2 * (s.fields nm).length) + t) 0 (Later L) :=
      ⟨fun z w' hz hd _ => hkeep z w' hz (Or.inl hd), by
        rintro a off ⟨e, he, j, h1, h2, rfl, rfl⟩
        have := (hlists e he).2 j h2
        have h3 := g5 e he
        exact hkeep _ _ this.1 (by rw [putLE_length]; omega), fun z w' hz hd => hkeep z w' hz (Or.inr hd)⟩
    have hnm : ((Val.tab nm pre sub post).with [o]).name = (Val.tab nm pre sub post).name := rfl
    have hh' := hh.edited hC hnm hE
    have hC' := ctx_edit hE hnm (by have := hF.t4; omega) (by omega) q v hC (fun a off ha => ha) (fun a off ha => Or.inr ha)
    have hw' : ((Val.tab nm pre sub post).with [o]).Laid s b' X Y := by
      show Val.Laid s b' (.tab nm pre sub (post ++ [o])) X Y
      rw [laid_frame]
      rw [hcur] at hF'
      refine ⟨t, hF', ?_⟩
      have := Sub.moved (b' := b') (k := 0) sub hSub (fun z w' hw h1 h2 => hE.back z w' hw (by omega))
      exact this
    have hI : InMsg s q (v.put q ((Val.tab nm pre sub post).with [o])) ((Val.tab nm pre sub post).with [o]) { d with io := b', tlen := t } X y :=
      ⟨hh', ⟨Y, _, hC', hw'⟩, hokv, hyy, hn, hp⟩
    refine ⟨_, e1, ?_, hI, ?_⟩
    · obtain ⟨fd, hfd, hg, -⟩ := hsrc
      obtain ⟨vo, fx, hT, hIn, -, -⟩ := hF
      have hin : o.field < (s.fields nm).length := (List.getElem?_eq_some_iff.mp hfd).1
      have hfx : fx o.field ≠ none := by rw [hIn _ fd hfd hg]; exact hc
      rw [hT.isZero rfl hp hin]
      cases hf : fx o.field with
      | none => exact absurd hf hfx
      | some _ => rfl
    · intro p wp c Xp hpc hio
      exact h0.other hpc hio hF' hF.preLoad hkeep hh' (ctx_laid hw' q _ hC') hokv

/-! ## all handles -/

/-- All handles are on the one message, at the tables their paths lead to. -/
structure AllIn (s : Sch) (S : OneMsg) (m : Shared) (b : Base) (y : Nat) : Prop where
  cells : m.cells = [b]
  len   : m.hs.length = S.paths.length
  at_   : ∀ (j : Nat) (q : List Hop), S.paths[j]? = some q → ∃ (h : CNode × Nat) (w : Val) (X : Nat), m.hs[j]? = some h ∧ h.2 = 0 ∧ S.val.sel q = some w ∧ InMsg s q S.val w { h.1 with io := b } X y

theorem AllIn.node {s : Sch} {S : OneMsg} {m : Shared} {b : Base} {y : Nat} (h : AllIn s S m b y) {j : Nat} {q : List Hop} (hq : S.paths[j]? = some q) :
    ∃ e w X, m.hs[j]? = some (e, 0) ∧ m.node j = some { e with io := b } ∧ S.val.sel q = some w ∧ InMsg s q S.val w { e with io := b } X y := by
  obtain ⟨⟨e, k⟩, w, X, h1, h2, h3, h4⟩ := h.at_ j q hq
  subst h2
  refine ⟨e, w, X, h1, ?_, h3, h4⟩
  unfold Shared.node
  rw [h1, h.cells]
  rfl

/-- Going down from any table. -/
theorem InMsg.down {s : Sch} {q p : List Hop} {v w u : Val} {c : CNode} {X y : Nat} (h : InMsg s q v w c X y) (hu : v.sel (q ++ p) = some u) :
    ∃ d Z, walkTo s c p = some d ∧ d.io = c.io ∧ InMsg s (q ++ p) v u d Z y := by
  obtain ⟨hh, ⟨Y, L, hC, hw⟩, hok, hy, hn, hp⟩ := h
  have hsel := ctx_sel q v hC
  obtain ⟨g1, g2, -⟩ := ctx_bounds q v hC
  have hu' := hu
  rw [sel_append q v p hsel] at hu'
  obtain ⟨Z, Y1, L1, hC1, hw1⟩ := laid_ctx p w hw hu'
  obtain ⟨d, d1, d2, d3, d4⟩ := ctx_walk hw1 p w hC1 (sel_ok q v hok hsel) (by omega) hn rfl hp
  obtain ⟨Z2, Y2, L2, hC2, hw2⟩ := laid_ctx (q ++ p) v (ctx_laid hw q v hC) hu
  have e1 := start_ctx hw q v hC hy
  have e2 := start_ctx hw1 p w hC1 (by omega)
  have e3 := start_ctx hw2 (q ++ p) v hC2 hy
  rw [start_append q v p hsel e1, e2] at e3
  cases e3
  exact ⟨d, Z, d1, d3, by rw [d3]; exact hh, ⟨Y2, L2, by rw [d3]; exact hC2, by rw [d3]; exact hw2⟩, hok, hy, d2, d4⟩

theorem AllIn.step {s : Sch} {S : OneMsg} {m : Shared} {b : Base} {y fuel : Nat} (h : AllIn s S m b y) {a : Act} (ha : S.Fits s a) :
    ∃ m' b', m.act s (fuel + 1) a = some m' ∧ AllIn s (S.act a) m' b' y := by
  cases a with
  | walk j p =>
    obtain ⟨q, u, hq, hu⟩ := ha
    obtain ⟨e, w, X, h1, h2, h3, h4⟩ := h.node hq
    obtain ⟨d, Z, d1, d2, d3⟩ := h4.down hu
    refine ⟨{ m with hs := m.hs ++ [(d, 0)] }, b, ?_, h.cells, ?_, ?_⟩
    · rw [Shared.act, h1, Option.bind_some, h2, Option.bind_some, d1]
      rfl
    · show (m.hs ++ [(d, 0)]).length = (S.paths ++ _).length
      rw [List.length_append, List.length_append, h.len]
      rfl
    · intro i r hr
      replace hr : (S.paths ++ [(S.paths[j]?.getD []) ++ p])[i]? = some r := hr
      by_cases hi : i < S.paths.length
      · rw [List.getElem?_append_left hi] at hr
        obtain ⟨e', w', X', k1, k2⟩ := h.at_ i r hr
        exact ⟨e', w', X', by rw [List.getElem?_append_left (by rw [h.len]; exact hi)]; exact k1, k2⟩
      · rw [List.getElem?_append_right (by omega)] at hr
        have hi0 : i - S.paths.length = 0 := by
          have := (List.getElem?_eq_some_iff.mp hr).1
          simpa using this
        rw [hi0, hq] at hr
        cases hr
        refine ⟨(d, 0), u, Z, ?_, rfl, hu, ?_⟩
        · show (m.hs ++ [(d, 0)])[i]? = _
          rw [List.getElem?_append_right (by rw [h.len]; omega), h.len, hi0]
          rfl
        · show InMsg s (q ++ p) S.val u { d with io := b } Z y
          have : ({ d with io := b } : CNode) = d := by
            have : d.io = b := d2
            rw [← this]
          rw [this]
          exact d3
  | set j o =>
    obtain ⟨q, w, hq, hs, hsrc, hok, hc⟩ := ha
    obtain ⟨e, w', X, h1, h2, h3, h4⟩ := h.node hq
    rw [hs] at h3
    cases h3
    obtain ⟨d', d1, d2, d3, d4⟩ := h4.here (fuel := fuel) hsrc hok hc
    have hv : (S.act (.set j o)).val = S.val.put q (w.with [o]) := by
      show S.val.edit ⟨[], S.paths[j]?.getD [], [o]⟩ = _
      rw [hq]
      exact edit_eq (q := ⟨[], q, [o]⟩) hs
    refine ⟨{ cells := m.cells.set 0 d'.io, hs := m.hs.set j (d', 0) }, d'.io, ?_, ?_, ?_, ?_⟩
    · rw [Shared.act, h1, Option.bind_some, h2, Option.bind_some, d2, Option.bind_some, d1]
      rfl
    · show m.cells.set 0 d'.io = _
      rw [h.cells]; rfl
    · show (m.hs.set j (d', 0)).length = S.paths.length
      rw [List.length_set, h.len]
    · intro i r hr
      replace hr : S.paths[i]? = some r := hr
      rw [hv]
      by_cases hi : i = j
      · subst hi
        rw [hq] at hr
        cases hr
        refine ⟨(d', 0), w.with [o], X, ?_, rfl, ?_, d3⟩
        · show (m.hs.set i (d', 0))[i]? = _
          rw [List.getElem?_set_self (List.getElem?_eq_some_iff.mp h1).1]
        · obtain ⟨Y, L, hC, -⟩ := d3.ex
          exact ctx_sel _ _ hC
      · obtain ⟨e2, w2, X2, k1, k2, k3, k4⟩ := h.node hr
        obtain ⟨w3, l1, l2⟩ := d4 r w2 _ X2 k4 rfl
        refine ⟨(e2, 0), w3, X2, ?_, rfl, l1, l2⟩
        show (m.hs.set j (d', 0))[i]? = _
        rw [List.getElem?_set_ne (by omega)]
        exact k1

theorem AllIn.run {s : Sch} {y fuel : Nat} : ∀ (l : List Act) {S : OneMsg} {m : Shared} {b : Base}, AllIn s S m b y → ActsFit s S l →
    ∃ m' b', l.foldlM (Shared.act s (fuel + 1)) m = some m' ∧ AllIn s (l.foldl OneMsg.act S) m' b' y
  | [], S, m, b, h, _ => ⟨m, b, rfl, h⟩
  | a :: l, S, m, b, h, hl => by
    obtain ⟨m1, b1, e1, h1⟩ := h.step (fuel := fuel) hl.1
    obtain ⟨m2, b2, e2, h2⟩ := AllIn.run l h1 hl.2
    exact ⟨m2, b2, by rw [List.foldlM_cons, e1]; exact e2, h2⟩

/-- C112: a message with a value of any depth is built, saved, edited in any number of sessions and opened.  Then handles are taken
from handles, and fields that are there are set through any of them, in any order.  At the end every handle, however old, reads
its table as all that was set made it; the root it gives reads as the whole value with all that was set; and saving through any
of them gives a message with that value.

What is missing: settings of fields that are not there (`absent_through_handle_fails`), lists as handles, several fields of variable length in
one table, and messages of other programs. -/
theorem handles_agree_partial (s : Sch) (F : Nat) (v : Val) (h : v.Fits s (F + 1)) (hF : v.need ≤ F) (hok : v.Ok s) (hK : v.deep ≤ F + 1)
    (hroot : s.root = v.name) (hfew : 12 + 2 * (s.fields v.name).length < 65536) (l : List Sess) (hl : SessFits s v l)
    (hy : 8 + (4 + 2 * (s.fields v.name).length + v.data s) + valLen (l.flatMap Sess.ops) < 4294967296) (sp : Bytes) (acts : List Act)
    (hacts : ActsFit s ⟨l.foldl Val.edit v, [[]]⟩ acts) :
    ∃ c d d' r m, v.node s (F + 1) = some c ∧ c.finish = some d ∧ l.foldlM (editAt s (F + 1) v.name) d = some d' ∧
      openByBuf v.name ⟨d', sp⟩ = some r ∧ acts.foldlM (Shared.act s (F + 1)) (Shared.opened r) = some m ∧
      ∀ (j : Nat) (q : List Hop), (acts.foldl OneMsg.act ⟨l.foldl Val.edit v, [[]]⟩).paths[j]? = some q →
        ∃ n w r' e, m.node j = some n ∧ (acts.foldl OneMsg.act ⟨l.foldl Val.edit v, [[]]⟩).val.sel q = some w ∧ w.Reads s n ∧
          n.rootCommon s = some r' ∧ (acts.foldl OneMsg.act ⟨l.foldl Val.edit v, [[]]⟩).val.Reads s r' ∧
          n.finish = some e ∧ (acts.foldl OneMsg.act ⟨l.foldl Val.edit v, [[]]⟩).val.Wire s e (rootPos e) := by
  obtain ⟨c, w, hg⟩ := val_good s F v h hF
  rw [← hg.len] at hy
  obtain ⟨d, h1, h2⟩ := hg.isSaved hroot hfew hok (by omega)
  obtain ⟨d', y', h3, h4, h5, -⟩ := h2.edits l hl hy hK
  obtain ⟨tl, ho⟩ := h4.opens sp
  rw [h5] at ho
  obtain ⟨c0, X, k1, k2, k3⟩ := h4.walk (p := []) (w := l.foldl Val.edit v) rfl sp
    (r := { name := v.name, io := Base.new ⟨d', sp⟩, pos := 8 + (4 + 2 * (s.fields v.name).length), tlen := tl }) h5.symm rfl (by rw [h5])
  cases k1
  have hA : AllIn s ⟨l.foldl Val.edit v, [[]]⟩ (Shared.opened { name := v.name, io := Base.new ⟨d', sp⟩, pos := 8 + (4 + 2 * (s.fields v.name).length), tlen := tl })
      (Base.new ⟨d', sp⟩) y' := by
    refine ⟨rfl, rfl, fun j q hq => ?_⟩
    match j, hq with
    | 0, hq => cases hq; exact ⟨_, _, X, rfl, rfl, rfl, k2⟩
    | n + 1, hq => cases hq
  obtain ⟨m, b', e1, hm⟩ := hA.run (fuel := F) acts hacts
  refine ⟨c, d, d', _, m, hg.node, h1, h3, ho, e1, fun j q hq => ?_⟩
  obtain ⟨e, w, X, a1, a2, a3, a4⟩ := hm.node hq
  obtain ⟨r1, r', r2, r3⟩ := a4.reads
  obtain ⟨f, f1, f2⟩ := a4.saved
  exact ⟨_, w, r', f, a2, a3, r1, r2, r3, f1, (f2.reads []).2⟩

/-! ## the hypotheses can be met -/

theorem OneMsg.fits_set {s : Sch} {S : OneMsg} {j : Nat} {o : Setting} {q : List Hop} {w : Val} (hv : S.val.Ok s) (hq : S.paths[j]? = some q) (hs : S.val.sel q = some w)
    (hsrc : InlSrc s w.name o.field o.node o.val) (htag : ((s.fields w.name)[o.field + 1]?).map FieldT.grp ≠ some ftUnion) (hc : w.cur o.field ≠ none) :
    S.Fits s (.set j o) ∧ (S.act (.set j o)).val.Ok s := by
  have h1 : ∀ o' ∈ [o], InlSrc s w.name o'.field o'.node o'.val := fun o' ho => by cases List.mem_singleton.mp ho; exact hsrc
  have h2 : ∀ o' ∈ [o], ((s.fields w.name)[o'.field + 1]?).map FieldT.grp ≠ some ftUnion := fun o' ho => by cases List.mem_singleton.mp ho; exact htag
  refine ⟨⟨q, w, hq, hs, hsrc, ok_with (sel_ok _ _ hv hs) h1 h2, hc⟩, ?_⟩
  show (S.val.edit ⟨[], S.paths[j]?.getD [], [o]⟩).Ok s
  rw [hq]
  exact (Sess.fits_of (q := ⟨[], q, [o]⟩) hv hs h1 h2 (Or.inl fun o' ho => by cases List.mem_singleton.mp ho; exact hc)).2

/-- Handles of two elements and of the table in the first; their fields set through the oldest, the newest, the oldest. -/
def hdActs : List Act := [.walk 0 [.elem 0 0], .walk 0 [.elem 0 1], .walk 1 [.field 4], .set 1 (ediInt 0 5), .set 3 (ediInt 0 6), .set 2 (ediInt 0 7),
  .set 1 (ediInt 0 8)]

theorem hdActs_fits : ActsFit ediSch ⟨ediVal [65, 66, 67], [[]]⟩ hdActs := by
  refine ⟨⟨[], _, rfl, rfl⟩, ⟨[], _, rfl, rfl⟩, ⟨[.elem 0 0], _, rfl, rfl⟩, ?_⟩
  obtain ⟨f1, g1⟩ := OneMsg.fits_set (s := ediSch) (S := (hdActs.take 3).foldl OneMsg.act ⟨ediVal [65, 66, 67], [[]]⟩) (j := 1) (o := ediInt 0 5) (w := ediA 1 11) ediVal_ok rfl rfl
    (edi_int "TT".toList 0 5 rfl) (by decide) (by decide)
  obtain ⟨f2, g2⟩ := OneMsg.fits_set (s := ediSch) (S := (hdActs.take 4).foldl OneMsg.act ⟨ediVal [65, 66, 67], [[]]⟩) (j := 3) (o := ediInt 0 6) (w := ediSS 11) g1 rfl rfl
    (edi_int "SS".toList 0 6 rfl) (by decide) (by decide)
  obtain ⟨f3, g3⟩ := OneMsg.fits_set (s := ediSch) (S := (hdActs.take 5).foldl OneMsg.act ⟨ediVal [65, 66, 67], [[]]⟩) (j := 2) (o := ediInt 0 7) (w := ediB 2 [65, 66, 67]) g2 rfl rfl
    (edi_int "TT".toList 0 7 rfl) (by decide) (by decide)
  obtain ⟨f4, -⟩ := OneMsg.fits_set (s := ediSch) (S := (hdActs.take 6).foldl OneMsg.act ⟨ediVal [65, 66, 67], [[]]⟩) (j := 1) (o := ediInt 0 8) g3 rfl rfl
    (edi_int "TT".toList 0 8 rfl) (by decide) (by decide)
  exact ⟨f1, f2, f3, f4, trivial⟩

example : ∃ c d d' r m, (ediVal [65, 66, 67]).node ediSch 30 = some c ∧ c.finish = some d ∧ [].foldlM (editAt ediSch 30 "RR".toList) d = some d' ∧
    openByBuf "RR".toList ⟨d', []⟩ = some r ∧ hdActs.foldlM (Shared.act ediSch 30) (Shared.opened r) = some m ∧
    ∀ (j : Nat) (q : List Hop), (hdActs.foldl OneMsg.act ⟨ediVal [65, 66, 67], [[]]⟩).paths[j]? = some q →
      ∃ n w r' e, m.node j = some n ∧ (hdActs.foldl OneMsg.act ⟨ediVal [65, 66, 67], [[]]⟩).val.sel q = some w ∧ w.Reads ediSch n ∧
        n.rootCommon ediSch = some r' ∧ (hdActs.foldl OneMsg.act ⟨ediVal [65, 66, 67], [[]]⟩).val.Reads ediSch r' ∧
        n.finish = some e ∧ (hdActs.foldl OneMsg.act ⟨ediVal [65, 66, 67], [[]]⟩).val.Wire ediSch e (rootPos e) :=
  handles_agree_partial ediSch 29 _ (ediVal_fits 29) (by decide) ediVal_ok (by decide) rfl (by decide) [] trivial (by decide) [] hdActs hdActs_fits

/-! ## fields that are not there -/

/-- A field that is not there, set through one handle: what the others point to stays as it is. -/
theorem absent_detaches {s : Sch} {fuel : Nat} {m m' : Shared} {j : Nat} {o : Setting} {c : CNode} (h : m.act s fuel (.set j o) = some m') (hc : m.node j = some c)
    (hz : c.isZero o.field = some true) (i : Nat) (hi : i ≠ j) (n : CNode) (hn : m.node i = some n) : m'.node i = some n := by
  rw [Shared.act] at h
  obtain ⟨hd, h1, h⟩ := Option.bind_eq_some_iff.mp h
  rw [hc, Option.bind_some, hz, Option.bind_some] at h
  split at h
  · rw [if_pos rfl] at h
    cases h
    unfold Shared.node at hn ⊢
    obtain ⟨e, e1, e2⟩ := Option.bind_eq_some_iff.mp hn
    obtain ⟨b, e3, e4⟩ := Option.map_eq_some_iff.mp e2
    rw [List.getElem?_set_ne (by omega), e1, Option.bind_some, List.getElem?_append_left (List.getElem?_eq_some_iff.mp e3).1, e3]
    exact congrArg some e4
  · cases h

def hdRun (acts : List Act) : Option Shared :=
  ((ediVal [65, 66, 67]).node ediSch 9).bind fun c => c.finish.bind fun d => (openByBuf "RR".toList ⟨d, []⟩).bind fun r =>
    acts.foldlM (Shared.act ediSch 9) (Shared.opened r)

/-- What is saved through a handle. -/
def hdSave (acts : List Act) (j : Nat) : Option Bytes := (hdRun acts).bind fun m => (m.node j).bind CNode.finish

/-- The bytes of a field read through a handle; `some none` when it is not there. -/
def hdField (acts : List Act) (j i : Nat) : Option (Option Nat) :=
  (hdRun acts).bind fun m => (m.node j).bind fun c => (c.fieldAt ediSch i).bind fun f =>
    match f with
    | none => some none
    | some n => (n.u32 n.pos).map some

/-- A number of the first element, which is not there, set through a handle of that element. -/
def hdLost : List Act := [.walk 0 [.elem 0 0], .set 1 (ediInt 1 77)]

/-- Besides, the other number of the element, which is there, set through another handle of it. -/
def hdApart : List Act := [.walk 0 [.elem 0 0], .walk 0 [.elem 0 0], .set 1 (ediInt 1 77), .set 2 (ediInt 0 5)]

/-- C112 does not hold for fields that are not there: the handle of the root saves the message without the field that was set
through the handle of a table in it; and of two handles of one table each is without what was set through the other, so that
no handle has both. -/
theorem absent_through_handle_fails :
    (hdField hdLost 1 1 = some (some 77) ∧ hdSave hdLost 0 = hdSave [] 0 ∧ (hdSave [] 0).isSome ∧ hdSave hdLost 1 ≠ hdSave hdLost 0) ∧
    (hdField hdApart 1 1 = some (some 77) ∧ hdField hdApart 1 0 = some (some 1) ∧ hdField hdApart 2 1 ≠ some (some 77) ∧ hdField hdApart 2 0 = some (some 5)) := by
  decide +kernel

end Fbs.Props
