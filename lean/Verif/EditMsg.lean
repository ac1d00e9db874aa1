import Verif.EditDeep
/-!
# Editing a table anywhere in an opened message

The walk of `InsertSpace` finds exactly the lists on the way to the table, so a session of settings leaves the message laid out
as the edited value.
-/

namespace Fbs.Props
open Fbs CNode

/-! ## the lists on the way -/

theorem lctx_cells {s : Sch} {b : Base} {C : Val → Nat → Nat → Prop} : ∀ (k : Nat) (vs : Vals) {A x y : Nat}, LCtx s b C k vs A x y →
    ∀ j, j < vs.count → ∃ off, Holds b (A + 4 * j) (putLE 4 off)
  | _, .nil, _, _, _, h, _, _ => by rw [LCtx] at h; exact h.elim
  | 0, .cons fl v vs, A, x, y, h, j, hj => by
    rw [LCtx] at h
    obtain ⟨z, -, h2, h3⟩ := h
    cases j with
    | zero => exact ⟨_, h2⟩
    | succ j =>
      rw [Vals.count] at hj
      rw [show A + 4 * (j + 1) = A + 4 + 4 * j by omega]
      exact vals_cells vs h3 j (by omega)
  | k + 1, .cons fl v vs, A, x, y, h, j, hj => by
    rw [LCtx] at h
    obtain ⟨z, -, h2, h3⟩ := h
    cases j with
    | zero => exact ⟨_, h2⟩
    | succ j =>
      rw [Vals.count] at hj
      rw [show A + 4 * (j + 1) = A + 4 + 4 * j by omega]
      exact lctx_cells k vs h3 j (by omega)
where
  vals_cells : ∀ (vs : Vals) {A x y : Nat}, vs.Laid s b A x y → ∀ j, j < vs.count → ∃ off, Holds b (A + 4 * j) (putLE 4 off)
  | .nil, _, _, _, _, j, hj => by rw [Vals.count] at hj; omega
  | .cons fl v vs, A, x, y, h, j, hj => by
    rw [Vals.Laid] at h
    obtain ⟨z, -, h2, h3⟩ := h
    cases j with
    | zero => exact ⟨_, h2⟩
    | succ j =>
      rw [Vals.count] at hj
      rw [show A + 4 * (j + 1) = A + 4 + 4 * j by omega]
      exact vals_cells vs h3 j (by omega)

theorem rd_spells {b : Base} {a off : Nat} (h : Holds b a (putLE 4 off)) : Holds b a (putLE 4 (rd b a)) ∧ rd b a < 4294967296 := by
  unfold rd
  rw [holds_getN h]
  show Holds b a (putLE 4 (off % 4294967296)) ∧ off % 4294967296 < 4294967296
  rw [putLE4_mod]
  exact ⟨h, Nat.mod_lt _ (by omega)⟩

theorem ctx_lists {s : Sch} {b : Base} {w : Val} {X Y : Nat} : ∀ (p : List Hop) (v : Val) {x y : Nat} {L : List PList}, Ctx s b w X Y p v x y L → v.Ok s →
    ∀ e ∈ L, TabElt s e.t ∧ ∀ k, k < e.n → Holds b (e.A + 4 * k) (putLE 4 (e.off k)) ∧ e.off k < 4294967296
  | [], v, x, y, L, h, _ => by
    rw [Ctx] at h
    obtain ⟨-, -, -, rfl⟩ := h
    simp
  | st :: p, .tab nm pre sub post, x, y, L, h, hok => by
    rw [Val.Ok] at hok
    obtain ⟨-, -, -, -, -, -, hok⟩ := hok
    rcases ctx_view h with ⟨i, fl, v, t, rfl, rfl, h1, h2⟩ | ⟨i, fl, v, t, rfl, rfl, h1, h2⟩ | ⟨i, k, fl, tn, vs, t, e, L', rfl, rfl, h1, rfl, h2, h3, rfl⟩
    · rw [Sub.Ok] at hok
      exact ctx_lists p v h2 hok.1
    · rw [Sub.Ok] at hok
      exact ctx_lists p v h2 hok.1
    · rw [Sub.Ok] at hok
      intro e he
      rcases List.mem_cons.mp he with rfl | he
      · refine ⟨hok.2.1, fun j hj => ?_⟩
        obtain ⟨off, ho⟩ := lctx_cells _ _ h3 j hj
        exact rd_spells ho
      · obtain ⟨u, x', z, g1, g2, -, -, -⟩ := lctx_in _ _ h3
        exact ctx_lists p u g2 (Vals.get_ok vs k hok.1 g1).1 e he

theorem ctx_sel {s : Sch} {b : Base} {w : Val} {X Y : Nat} : ∀ (p : List Hop) (v : Val) {x y : Nat} {L : List PList}, Ctx s b w X Y p v x y L →
    v.sel p = some w
  | [], v, x, y, L, h => by
    rw [Ctx] at h
    obtain ⟨rfl, -⟩ := h
    rfl
  | st :: p, .tab nm pre sub post, x, y, L, h => by
    rcases ctx_view h with ⟨i, fl, v, t, rfl, rfl, h1, h2⟩ | ⟨i, fl, v, t, rfl, rfl, h1, h2⟩ | ⟨i, k, fl, tn, vs, t, e, L', rfl, rfl, h1, rfl, h2, h3, rfl⟩
    · rw [Val.sel, if_pos rfl]; exact ctx_sel p v h2
    · rw [Val.sel, if_pos rfl]; exact ctx_sel p v h2
    · obtain ⟨u, x', z, g1, g2, -, -, -⟩ := lctx_in _ _ h3
      rw [Val.sel, if_pos rfl, g1]
      exact ctx_sel p u g2

/-! ## values with another part -/

theorem vals_put_get : ∀ (vs : Vals) (k : Nat) {u w : Val}, vs.get k = some u → (vs.put k w).get k = some w
  | .nil, _, _, _, h => by cases h
  | .cons _ _ _, 0, _, _, _ => rfl
  | .cons _ _ vs, k + 1, _, _, h => by rw [Vals.put, Vals.get]; rw [Vals.get] at h; exact vals_put_get vs k h

theorem vals_put_put : ∀ (vs : Vals) (k : Nat) {w w' : Val}, (vs.put k w).put k w' = vs.put k w'
  | .nil, _, _, _ => rfl
  | .cons _ _ _, 0, _, _ => rfl
  | .cons _ _ vs, k + 1, _, _ => by rw [Vals.put, Vals.put, Vals.put, vals_put_put vs k]

theorem put_sel : ∀ (p : List Hop) (v : Val) {w w' : Val}, v.sel p = some w → (v.put p w').sel p = some w'
  | [], _, _, _, _ => rfl
  | st :: p, .tab nm pre sub post, w, w', h => by
    rcases sel_view h with ⟨i, fl, v, rfl, rfl, hs'⟩ | ⟨i, fl, v, rfl, rfl, hs'⟩ | ⟨i, k, fl, tn, vs, u, rfl, rfl, hu, hs'⟩
    · rw [Val.put, Val.sel, if_pos rfl]; exact put_sel p v hs'
    · rw [Val.put, Val.sel, if_pos rfl]; exact put_sel p v hs'
    · rw [Val.put, Val.sel, if_pos rfl, hu]
      simp only
      rw [vals_put_get vs k hu]
      exact put_sel p u hs'

theorem val_put_put : ∀ (p : List Hop) (v : Val) {w w' w'' : Val}, v.sel p = some w → (v.put p w').put p w'' = v.put p w''
  | [], _, _, _, _, _ => rfl
  | st :: p, .tab nm pre sub post, w, w', w'', h => by
    rcases sel_view h with ⟨i, fl, v, rfl, rfl, hs'⟩ | ⟨i, fl, v, rfl, rfl, hs'⟩ | ⟨i, k, fl, tn, vs, u, rfl, rfl, hu, hs'⟩
    · rw [Val.put, Val.put, Val.put, val_put_put p v hs']
    · rw [Val.put, Val.put, Val.put, val_put_put p v hs']
    · rw [Val.put, Val.put, Val.put, hu]
      simp only
      rw [vals_put_get vs k hu]
      simp only
      rw [vals_put_put, val_put_put p u hs']

theorem vals_put_self : ∀ (vs : Vals) (k : Nat) {u : Val}, vs.get k = some u → vs.put k u = vs
  | .nil, _, _, h => by cases h
  | .cons _ _ _, 0, _, h => by rw [Vals.get] at h; cases h; rfl
  | .cons _ _ vs, k + 1, _, h => by rw [Vals.get] at h; rw [Vals.put, vals_put_self vs k h]

theorem put_self : ∀ (p : List Hop) (v : Val) {w : Val}, v.sel p = some w → v.put p w = v
  | [], _, _, h => by rw [Val.sel] at h; cases h; rfl
  | st :: p, .tab nm pre sub post, w, h => by
    rcases sel_view h with ⟨i, fl, v, rfl, rfl, hs'⟩ | ⟨i, fl, v, rfl, rfl, hs'⟩ | ⟨i, k, fl, tn, vs, u, rfl, rfl, hu, hs'⟩
    · rw [Val.put, put_self p v hs']
    · rw [Val.put, put_self p v hs']
    · rw [Val.put, hu]
      simp only
      rw [put_self p u hs', vals_put_self vs k hu]

theorem sel_put_name {w w' : Val} (hn : w'.name = w.name) : ∀ (p : List Hop) (v : Val), v.sel p = some w → (v.put p w').name = v.name
  | [], v, h => by
    rw [Val.sel] at h
    cases h
    exact hn
  | st :: p, .tab nm pre sub post, h => by
    rcases sel_view h with ⟨i, fl, v, rfl, rfl, hs'⟩ | ⟨i, fl, v, rfl, rfl, hs'⟩ | ⟨i, k, fl, tn, vs, u, rfl, rfl, hu, hs'⟩ <;> rfl

theorem vals_put_ok {s : Sch} {t : Name} {w : Val} (hw : w.Ok s) (hn : w.name = t) : ∀ (vs : Vals) (k : Nat), vs.Ok s t → (vs.put k w).Ok s t
  | .nil, _, h => h
  | .cons _ _ _, 0, h => by
    rw [Vals.Ok] at h
    rw [Vals.put, Vals.Ok]
    exact ⟨hw, hn, h.2.2⟩
  | .cons _ _ vs, k + 1, h => by
    rw [Vals.Ok] at h
    rw [Vals.put, Vals.Ok]
    exact ⟨h.1, h.2.1, vals_put_ok hw hn vs k h.2.2⟩

theorem put_ok {s : Sch} {w w' : Val} (hw : w'.Ok s) (hn : w'.name = w.name) : ∀ (p : List Hop) (v : Val), v.Ok s → v.sel p = some w → (v.put p w').Ok s
  | [], _, _, _ => hw
  | st :: p, .tab nm pre sub post, h, hs => by
    rw [Val.Ok] at h
    obtain ⟨o1, o2, o3, o4, o5, o6, o7⟩ := h
    rcases sel_view hs with ⟨i, fl, v, rfl, rfl, hs'⟩ | ⟨i, fl, v, rfl, rfl, hs'⟩ | ⟨i, k, fl, tn, vs, u, rfl, rfl, hu, hs'⟩
    · rw [Sub.Ok] at o7
      rw [Val.put, Val.Ok, Sub.Ok]
      exact ⟨o1, o2, o3, o4, o5, o6, put_ok hw hn p v o7.1 hs', by rw [sel_put_name hn p v hs']; exact o7.2⟩
    · rw [Sub.Ok] at o7
      rw [Val.put, Val.Ok, Sub.Ok]
      exact ⟨o1, o2, o3, o4, o5, o6, put_ok hw hn p v o7.1 hs', by rw [sel_put_name hn p v hs']; exact o7.2⟩
    · rw [Sub.Ok] at o7
      rw [Val.put, Val.Ok, Sub.Ok, hu]
      have := Vals.get_ok vs k o7.1 hu
      exact ⟨o1, o2, o3, o4, o5, o6, vals_put_ok (put_ok hw hn p u this.1 hs') (by rw [sel_put_name hn p u hs']; exact this.2.1) vs k o7.1, o7.2⟩

/-! ## the message -/

/-- The header leads to a root that is the value, which lies behind it. -/
structure Head (s : Sch) (b : Base) (v : Val) : Prop where
  root : s.root = v.name
  few  : 12 + 2 * (s.fields v.name).length < 65536
  off  : Holds b 0 (putLE 4 (8 + (4 + 2 * (s.fields v.name).length)))

theorem Head.inRoot {s : Sch} {b : Base} {v : Val} (h : Head s b v) {y : Nat} (hl : v.Laid s b 8 y) {c : CNode} (hio : c.io = b) (hp : 8 ≤ c.pos) :
    c.inRoot = some true := by
  cases v with
  | tab nm pre sub post =>
    obtain ⟨-, hfew, h0⟩ := h
    rw [Val.name] at *
    rw [laid_frame] at hl
    obtain ⟨t, ⟨vo, fx, hT, -⟩, -⟩ := hl
    have hu16 : c.u16 0 = some (8 + (4 + 2 * (s.fields nm).length)) := by
      unfold CNode.u16
      have := holds_sub h0 0 2 (by omega) (by rw [putLE_length]; omega)
      rw [List.drop_zero, putLE_take2] at this
      have := holds_getN this
      rw [Nat.mod_eq_of_lt (by omega)] at this
      rw [hio]
      exact this
    unfold CNode.inRoot
    rw [hu16]
    simp only [Option.bind_eq_bind, Option.bind_some]
    have hH := hT.at_.tab.soff
    obtain ⟨l1, -⟩ := holds_read hH 4
    rw [putLE_length] at l1
    unfold CNode.R Base.Ri
    rw [if_neg (by omega)]
    simp only [Option.bind_some, Int.toNat_natCast, hio]
    rw [if_neg (by omega), if_neg (by omega)]
    have : c.u32 ((8 + (4 + 2 * (s.fields nm).length) : Nat) : Int) = some (4 + 2 * (s.fields nm).length) := by
      unfold CNode.u32
      have := holds_getN hH
      rw [Nat.mod_eq_of_lt (by omega)] at this
      rw [hio]
      exact this
    rw [this]
    simp only [Option.bind_some, pure, Option.some.injEq, bne_iff_ne, ne_eq]
    omega

theorem Head.rootCommon {s : Sch} {b : Base} {v : Val} (h : Head s b v) {y : Nat} (hl : v.Laid s b 8 y) {c : CNode} (hio : c.io = b) :
    ∃ tl, c.rootCommon s = some { name := v.name, io := b, pos := 8 + (4 + 2 * (s.fields v.name).length), tlen := tl } := by
  cases v with
  | tab nm pre sub post =>
    obtain ⟨hr, hfew, h0⟩ := h
    rw [Val.name] at *
    rw [laid_frame] at hl
    obtain ⟨t, hF, -⟩ := hl
    refine ⟨t, ?_⟩
    have hu32 : c.u32 0 = some (8 + (4 + 2 * (s.fields nm).length)) := by
      unfold CNode.u32
      have := holds_getN h0
      rw [Nat.mod_eq_of_lt (by omega)] at this
      rw [hio]
      exact this
    unfold CNode.rootCommon newNode
    rw [hu32]
    simp only [Option.bind_eq_bind, Option.bind_some, hr, hio]
    rw [hF.preLoad]
    rfl

/-- What the walk over the message shows about a table in it. -/
theorem ctx_route {s : Sch} {b : Base} {v w : Val} {X Y y tw : Nat} {p : List Hop} {L : List PList} (hC : Ctx s b w X Y p v 8 y L) (hw : w.Laid s b X Y)
    (hok : v.Ok s) (hy : y < 4294967296) (hpre : CNode.preLoad b (X + (4 + 2 * (s.fields w.name).length)) = some tw) {d r : CNode} (hd : d.name = w.name)
    (hdp : d.pos = X + (4 + 2 * (s.fields w.name).length)) (hrn : r.name = v.name) (hrio : r.io = b) (hrvi : r.vi = {})
    (hrp : r.pos = 8 + (4 + 2 * (s.fields v.name).length)) {K : Nat} (hK : v.deep ≤ K) :
    ∃ vs, traverseF s K r = some vs ∧ Route s r d vs (X + (4 + 2 * (s.fields w.name).length) + tw) L := by
  obtain ⟨g1, g2, g3, g4, g5, g6⟩ := ctx_bounds p v hC
  have hokw := sel_ok p v hok (ctx_sel p v hC)
  obtain ⟨vs, e1, hcore⟩ := ctx_core (d := d) hw hokw (by omega) hpre rfl hd hdp p v hC hok hy hrn hrio hrvi hrp hK
  obtain ⟨vs', e1', hin, hroot⟩ := Val.laid_walk v hok (ctx_laid hw p v hC) hy hrn hrio hrvi hrp hK
  rw [e1] at e1'
  cases e1'
  refine ⟨vs, e1, hrvi, fun u hu => ?_, hroot, fun u hu a ha h1 h2 => ?_, hcore.own, fun h => ?_, hcore.lst, fun e he => ?_, hcore.idx, hcore.ele, fun e he => (hcore.lb e he).2,
    fun e he => (ctx_lists p v hC hok e he).1, g6⟩
  · obtain ⟨-, -, o, ho, -⟩ := hin u hu
    exact ⟨o, ho⟩
  · rcases hcore.cross u hu a ha h1 h2 with h | h | h
    · exact Or.inl h
    · exact h.elim
    · exact Or.inr h
  · rw [hrn, hd]
    by_cases hx : X = 8
    · exact g3 hx
    · have := g4 hx
      omega
  · have := (g5 e he).1
    omega

theorem later_front {s : Sch} {b : Base} {v w : Val} {X Y x y : Nat} {p : List Hop} {L : List PList} (hC : Ctx s b w X Y p v x y L) (a off : Nat)
    (h : Later L a off) : x + (4 + 2 * (s.fields v.name).length) < a ∧ a + 4 ≤ X := by
  obtain ⟨-, -, -, -, g5, -⟩ := ctx_bounds p v hC
  obtain ⟨e, he, k, h1, h2, rfl, -⟩ := h
  have := g5 e he
  omega

/-- `InsertSpace` at the end of a table in the message. -/
theorem insert_msg {s : Sch} {b : Base} {v w : Val} {X Y y t : Nat} {p : List Hop} {L : List PList} (hh : Head s b v) (hC : Ctx s b w X Y p v 8 y L)
    (hw : w.Laid s b X Y) (hok : v.Ok s) (hy : y < 4294967296) (hpre : CNode.preLoad b (X + (4 + 2 * (s.fields w.name).length)) = some t)
    (htn : TI.TName w.name) {c : CNode} (hn : c.name = w.name) (hio : c.io = b) (hp : c.pos = X + (4 + 2 * (s.fields w.name).length))
    (hcl : Clean b (X + (4 + 2 * (s.fields w.name).length) + t)) {K : Nat} (hK : v.deep ≤ K) (k : Nat) :
    ∃ nb', ({ c with tlen := t } : CNode).insertSpace s K (c.pos + t) k true = some { c with tlen := t, io := nb' } ∧
      Moved (Later L) k (b.insertSpace (X + (4 + 2 * (s.fields w.name).length) + t) k true) nb' := by
  have hlaid := ctx_laid hw p v hC
  obtain ⟨g1, g2, g3, g4, g5, g6⟩ := ctx_bounds p v hC
  obtain ⟨tl, hr⟩ := hh.rootCommon hlaid (c := { c with tlen := t }) hio
  obtain ⟨vs, e1, hR⟩ := ctx_route (d := { c with tlen := t }) hC hw hok hy hpre hn hp (r := { name := v.name, io := b, pos := 8 + (4 + 2 * (s.fields v.name).length), tlen := tl })
    rfl rfl rfl rfl hK
  have := insertSpace_route (c := { c with tlen := t }) hR (hh.inRoot hlaid (c := { c with tlen := t }) hio (by show 8 ≤ c.pos; omega)) hr e1
    (by show TI.TName c.name; rw [hn]; exact htn) (isList_table (nm := w.name) hn htn) (by show c.pos ≤ _; omega) (size := k) (cr := true)
    (fun e he j hj => by
      have h1 := (ctx_lists p v hC hok e he).2 j hj
      have h2 := g5 e he
      refine ⟨holds_insertSpace_lt ?_ ?_ ?_, h1.2⟩
      · show Clean c.io _
        rw [hio]; exact hcl
      · show Holds c.io _ _
        rw [hio]; exact h1.1
      · rw [putLE_length]; omega)
  obtain ⟨nb', h1, h2⟩ := this
  refine ⟨nb', ?_, ?_⟩
  · rw [show c.pos + t = X + (4 + 2 * (s.fields w.name).length) + t by omega]; exact h1
  · rw [← hio]; exact h2

theorem Head.edited {s : Sch} {b b' : Base} {v w w' : Val} {X Y y q k : Nat} {p : List Hop} {L : List PList} (hh : Head s b v) (hC : Ctx s b w X Y p v 8 y L)
    (hn : w'.name = w.name) (hE : Edited b b' X q k (Later L)) : Head s b' (v.put p w') := by
  have e := sel_put_name hn p v (ctx_sel p v hC)
  obtain ⟨g1, -⟩ := ctx_bounds p v hC
  refine ⟨by rw [e]; exact hh.root, by rw [e]; exact hh.few, ?_⟩
  rw [e]
  refine hE.front _ _ hh.off (by rw [putLE_length]; omega) (fun a off ha => ?_)
  have := later_front hC a off ha
  rw [putLE_length]
  omega

/-- One more setting. -/
def Val.with (v : Val) (ops : List Setting) : Val :=
  match v with
  | .tab nm pre sub post => .tab nm pre sub (post ++ ops)

/-- The values the table holds. -/
def Val.cur : Val → Nat → Option Bytes
  | .tab _ pre _ post => lastSet (pre ++ post)

theorem with_name (v : Val) (ops : List Setting) : (v.with ops).name = v.name := by cases v; rfl

theorem with_with (v : Val) (a b : List Setting) : (v.with a).with b = v.with (a ++ b) := by cases v; simp [Val.with]

theorem with_nil (v : Val) : v.with [] = v := by cases v; simp [Val.with]

theorem with_cur (v : Val) (ops : List Setting) (i : Nat) : (v.with ops).cur i = (lastSet ops i).or (v.cur i) := by
  cases v
  show lastSet (_ ++ (_ ++ ops)) i = _
  rw [← List.append_assoc, lastSet_append]
  rfl

theorem sub_grp {s : Sch} {nm : Name} {cur : Nat → Option Bytes} {sub : Sub} (h : sub.Ok s nm cur) : ∀ j, sub.field = some j → TI.ByteVec s nm j := by
  intro j hj
  cases sub with
  | none => cases hj
  | bytes i f data =>
    cases hj
    rw [Sub.Ok] at h
    obtain ⟨fd, h1, h2⟩ := h
    exact ⟨fd, h1, by rw [h2]; decide⟩
  | table i fl v =>
    cases hj
    rw [Sub.Ok] at h
    obtain ⟨-, fd, h1, h2, -⟩ := h
    exact ⟨fd, h1, by rw [h2]; decide⟩
  | union i fl v =>
    cases hj
    rw [Sub.Ok] at h
    obtain ⟨-, fd, tag, h1, h2, -⟩ := h
    exact ⟨fd, h1, by rw [h2]; decide⟩
  | list i fl t vs =>
    cases hj
    rw [Sub.Ok] at h
    obtain ⟨-, -, fd, h1, h2, -⟩ := h
    exact ⟨fd, h1, by rw [h2]; decide⟩

theorem sub_gap {s : Sch} {b : Base} {sub : Sub} {x y : Nat} (h : sub.Laid s b x y) : sub.gap s < 65536 := by
  have key : ∀ (v : Val), v.Laid s b x y → 4 + 2 * (s.fields v.name).length < 65536 := by
    intro v hv
    cases v with
    | tab nm pre sub post =>
      rw [laid_frame] at hv
      obtain ⟨t, hF, -⟩ := hv
      exact hF.few
  cases sub with
  | none => rw [Sub.gap]; omega
  | bytes i f data => rw [Sub.gap]; omega
  | table i fl v => rw [Sub.gap]; rw [Sub.Laid] at h; exact key v h
  | union i fl v => rw [Sub.gap]; rw [Sub.Laid] at h; exact key v h
  | list i fl t vs => rw [Sub.gap]; omega

/-- A table `w` of the message that is the value `v`, at `c`. -/
structure InMsg (s : Sch) (p : List Hop) (v w : Val) (c : CNode) (X y : Nat) : Prop where
  head : Head s c.io v
  ex   : ∃ Y L, Ctx s c.io w X Y p v 8 y L ∧ w.Laid s c.io X Y
  ok   : v.Ok s
  hy   : y < 4294967296
  name : c.name = w.name
  pos  : c.pos = X + (4 + 2 * (s.fields w.name).length)

/-- The table ends at a border. -/
def Ends (c : CNode) : Prop := ∃ t, CNode.preLoad c.io c.pos = some t ∧ Clean c.io (c.pos + t)

/-- Besides, the first bytes end there. -/
def Ready (c : CNode) : Prop := ∃ t, CNode.preLoad c.io c.pos = some t ∧ Clean c.io (c.pos + t) ∧ c.io.bytes.len ≤ c.pos + t

theorem Ready.ends {c : CNode} (h : Ready c) : Ends c := by
  obtain ⟨t, h1, h2, -⟩ := h; exact ⟨t, h1, h2⟩

/-- One setting. -/
theorem InMsg.step {s : Sch} {p : List Hop} {v w : Val} {c : CNode} {X y : Nat} (h : InMsg s p v w c X y) {o : Setting}
    (hsrc : InlSrc s w.name o.field o.node o.val) (hok : (w.with [o]).Ok s) (hc : w.cur o.field ≠ none ∨ Ends c) (hy : y + o.val.length < 4294967296)
    {fuel : Nat} (hK : v.deep ≤ fuel + 1) :
    ∃ c' y', c.setFieldAt s (fuel + 1) o.field o.node = some (c', none) ∧ InMsg s p (v.put p (w.with [o])) (w.with [o]) c' X y' ∧ y' ≤ y + o.val.length ∧
      (w.cur o.field = none ∨ Ready c → Ready c') := by
  obtain ⟨hh, ⟨Y, L, hC, hw⟩, hv, hyy, hn, hp⟩ := h
  obtain ⟨g1, g2, g3, g4, g5, g6⟩ := ctx_bounds p v hC
  have hsel := ctx_sel p v hC
  have hokw := sel_ok p v hv hsel
  have hokv := put_ok hok (with_name w [o]) p v hv hsel
  have hS : ∀ a off, Later L a off → a + 4 ≤ X := fun a off ha => (later_front hC a off ha).2
  have hlists := ctx_lists p v hC hv
  have hw0 := hw
  cases hwe : w with
  | tab nm pre sub post =>
    rw [hwe, Val.name] at hn hp hsrc
    rw [hwe, Val.Ok] at hokw
    obtain ⟨o1, o2, o3, o4, o5, o6, o7⟩ := hokw
    rw [hwe, laid_frame] at hw
    obtain ⟨t, hF, hSub⟩ := hw
    have hYl := Sub.laid_le sub hSub
    have ht4 := hF.t4
    have hgap := sub_gap hSub
    have hfld := sub_grp o7
    rw [hwe] at hc hok hokv
    have hcur : (fun j => if j = o.field then some o.val else lastSet (pre ++ post) j) = lastSet (pre ++ (post ++ [o])) := by
      funext j
      rw [← List.append_assoc, lastSet_snoc]
    have hsch := o1.toSmallTable.ok
    have hpl := hF.preLoad
    -- the message after an edit
    have fin : ∀ (b' : Base) (t' k : Nat), Edited c.io b' X (X + (4 + 2 * (s.fields nm).length) + t) k (Later L) → k ≤ o.val.length →
        Frame s b' nm (fun j => if j = o.field then some o.val else lastSet (pre ++ post) j) sub.field (sub.gap s) X t' → t' = t + k →
        InMsg s p (v.put p ((Val.tab nm pre sub post).with [o])) ((Val.tab nm pre sub post).with [o]) { c with io := b', tlen := t' } X (y + k) := by
      intro b' t' k hE hk hF' ht'
      subst ht'
      have hnm : ((Val.tab nm pre sub post).with [o]).name = w.name := by rw [hwe]; rfl
      refine ⟨hh.edited hC hnm hE, ⟨Y + k, reread b' L, ?_, ?_⟩, hokv, by omega, hn, hp⟩
      · exact ctx_edit hE hnm (by omega) (by omega) p v hC (fun a off ha => ha) (fun a off ha => Or.inr ha)
      · show Val.Laid s b' (.tab nm pre sub (post ++ [o])) X (Y + k)
        rw [laid_frame]
        rw [hcur] at hF'
        refine ⟨t + k, hF', ?_⟩
        have := Sub.moved (b' := b') (k := k) sub hSub (fun z w' hw h1 h2 => hE.back z w' hw (by omega))
        rwa [show X + (4 + 2 * (s.fields nm).length + t) + k = X + (4 + 2 * (s.fields nm).length + (t + k)) by omega] at this
    by_cases hpres : lastSet (pre ++ post) o.field = none
    · have hE : Ends c := hc.resolve_left (fun h => h hpres)
      obtain ⟨t2, hpl2, hcl⟩ := hE
      rw [hp, hpl] at hpl2
      cases hpl2
      rw [hp] at hcl
      have hins := insert_msg (c := c) hh hC hw0 hv hyy (by rw [hwe]; exact hpl) (by rw [hwe]; exact hsch.tn) (by rw [hwe]; exact hn) rfl (by rw [hwe]; exact hp)
        (by rw [hwe]; exact hcl) hK o.val.length
      rw [hwe, Val.name] at hins
      obtain ⟨b', e1, hF', hEd, hcl', hlen'⟩ := hF.set_absent hsch hn rfl hp hfld hgap hsrc hpres hcl hins hS
      refine ⟨_, _, e1, fin b' _ _ hEd (Nat.le_refl _) hF' rfl, Nat.le_refl _, fun _ => ⟨t + o.val.length, ?_, ?_, ?_⟩⟩
      · show CNode.preLoad b' c.pos = _
        rw [hp]; exact hF'.preLoad
      · show Clean b' (c.pos + _)
        rw [hp, ← Nat.add_assoc]; exact hcl'
      · show b'.bytes.len ≤ c.pos + _
        omega
    · obtain ⟨b', e1, hF', hkeep, hby, hcl⟩ := hF.set_present (c := c) (fuel := fuel) hsch hn rfl hp hfld hsrc hpres
      refine ⟨_, y, e1, fin b' t 0 ⟨fun z w' hz hd _ => hkeep z w' hz (Or.inl hd), ?_, fun z w' hz hd => hkeep z w' hz (Or.inr hd)⟩ (Nat.zero_le _) hF' rfl, by omega, ?_⟩
      · rintro a off ⟨e, he, j, h1, h2, rfl, rfl⟩
        have := (hlists e he).2 j h2
        have h3 := g5 e he
        exact hkeep _ _ this.1 (by rw [putLE_length]; omega)
      · rintro (h | ⟨t2, r1, r2, r3⟩)
        · exact absurd h hpres
        · rw [hp, hpl] at r1
          cases r1
          rw [hp] at r2 r3
          refine ⟨t, ?_, ?_, ?_⟩
          · show CNode.preLoad b' c.pos = _
            rw [hp]; exact hF'.preLoad
          · show Clean b' (c.pos + t)
            rw [hp]; exact hcl r3 r2
          · show b'.bytes.len ≤ c.pos + t
            rw [hby, hp]; exact r3

/-! ## a session -/

theorem vals_put_deep : ∀ (vs : Vals) (k : Nat) {u w : Val}, vs.get k = some u → w.deep = u.deep → (vs.put k w).deep = vs.deep
  | .nil, _, _, _, h, _ => by cases h
  | .cons _ v vs, 0, u, w, h, hd => by
    rw [Vals.get] at h
    cases h
    rw [Vals.put, Vals.deep, Vals.deep, hd]
  | .cons _ v vs, k + 1, u, w, h, hd => by
    rw [Vals.get] at h
    rw [Vals.put, Vals.deep, Vals.deep, vals_put_deep vs k h hd]

theorem put_deep {w w' : Val} (hd : w'.deep = w.deep) : ∀ (p : List Hop) (v : Val), v.sel p = some w → (v.put p w').deep = v.deep
  | [], v, h => by
    rw [Val.sel] at h
    cases h
    exact hd
  | st :: p, .tab nm pre sub post, h => by
    rcases sel_view h with ⟨i, fl, v, rfl, rfl, hs'⟩ | ⟨i, fl, v, rfl, rfl, hs'⟩ | ⟨i, k, fl, tn, vs, u, rfl, rfl, hu, hs'⟩
    · rw [Val.put, Val.deep, Val.deep, Sub.deep, Sub.deep, put_deep hd p v hs']
    · rw [Val.put, Val.deep, Val.deep, Sub.deep, Sub.deep, put_deep hd p v hs']
    · rw [Val.put, Val.deep, Val.deep, Sub.deep, Sub.deep, hu]
      simp only
      rw [vals_put_deep vs k hu (put_deep hd p u hs')]

theorem with_deep (v : Val) (ops : List Setting) : (v.with ops).deep = v.deep := by cases v; rfl

/-- Bytes added by settings at most. -/
def valLen (ops : List Setting) : Nat := (ops.map fun o => o.val.length).sum

/-- The order of the settings: the first is of a field that is not there, or all are of fields that are there. -/
def EditOrder (cur : Nat → Option Bytes) (ops : List Setting) : Prop :=
  (∀ o ∈ ops, cur o.field ≠ none) ∨ ∃ o l, ops = o :: l ∧ cur o.field = none

theorem InMsg.run {s : Sch} {p : List Hop} {fuel X : Nat} (ops : List Setting) : ∀ {v w : Val} {c : CNode} {y : Nat}, InMsg s p v w c X y →
    (∀ o ∈ ops, InlSrc s w.name o.field o.node o.val) → (∀ m, m ≤ ops.length → (w.with (ops.take m)).Ok s) →
    Ready c ∨ (∀ o ∈ ops, w.cur o.field ≠ none) ∨ (Ends c ∧ ∃ o l, ops = o :: l ∧ w.cur o.field = none) →
    y + valLen ops < 4294967296 → v.deep ≤ fuel + 1 →
    ∃ c' y', runSets s (fuel + 1) c ops = some c' ∧ InMsg s p (v.put p (w.with ops)) (w.with ops) c' X y' ∧ y' ≤ y + valLen ops := by
  induction ops with
  | nil =>
    intro v w c y h _ _ _ _ _
    have hsel : v.sel p = some w := by obtain ⟨Y, L, hC, -⟩ := h.ex; exact ctx_sel p v hC
    rw [with_nil, put_self p v hsel]
    exact ⟨c, y, rfl, h, by omega⟩
  | cons o l ih =>
    intro v w c y h hsrc hok hord hy hK
    have hlen : valLen (o :: l) = o.val.length + valLen l := by simp [valLen]
    have hsel : v.sel p = some w := by obtain ⟨Y, L, hC, -⟩ := h.ex; exact ctx_sel p v hC
    obtain ⟨c1, y1, e1, h1, hy1, hr1⟩ := h.step (o := o) (fuel := fuel) (hsrc o (by simp)) (hok 1 (by simp)) (by
      rcases hord with h | h | ⟨h, -⟩
      · exact Or.inr h.ends
      · exact Or.inl (h o (by simp))
      · exact Or.inr h) (by omega) hK
    obtain ⟨c2, y2, e2, h2, hy2⟩ := ih h1 (fun o' ho' => by rw [with_name]; exact hsrc o' (by simp [ho']))
      (fun m hm => by
        rw [with_with]
        exact hok (m + 1) (by simpa using hm)) (by
      rcases hord with h | h | ⟨-, o', l', h, h'⟩
      · exact Or.inl (hr1 (Or.inr h))
      · refine Or.inr (Or.inl fun o' ho' => ?_)
        rw [with_cur]
        have := h o' (by simp [ho'])
        cases hls : lastSet [o] o'.field with
        | none => simpa using this
        | some x => simp
      · cases h
        exact Or.inl (hr1 (Or.inl h'))) (by omega) (by rw [put_deep (with_deep w _) p v hsel]; exact hK)
    refine ⟨c2, y2, ?_, ?_, by omega⟩
    · rw [runSets, e1]
      exact e2
    · rw [with_with, val_put_put p v hsel] at h2
      exact h2

/-! ## the way to the table -/

/-- The program that goes down the path. -/
def walkTo (s : Sch) : CNode → List Hop → Option CNode
  | c, [] => some c
  | c, .field i :: p => do
    let n ← c.fieldAt s i
    let n ← n
    walkTo s n p
  | c, .member i :: p => do
    let r ← c.followUnion s i
    let r ← r
    let n ← r.2
    walkTo s n p
  | c, .elem i k :: p => do
    let l ← c.fieldAt s i
    let l ← l
    match ← l.at_ s k with
    | .ok n => walkTo s n p
    | _ => none

theorem laid_preLoad {s : Sch} {b : Base} {v : Val} {x y : Nat} (h : v.Laid s b x y) : ∃ t, CNode.preLoad b (x + (4 + 2 * (s.fields v.name).length)) = some t ∧
    4 + 2 * (s.fields v.name).length < 65536 := by
  cases v with
  | tab nm pre sub post =>
    rw [laid_frame] at h
    obtain ⟨t, hF, -⟩ := h
    exact ⟨t, hF.preLoad, hF.few⟩

theorem ctx_walk {s : Sch} {b : Base} {w : Val} {X Y : Nat} (hw : w.Laid s b X Y) : ∀ (p : List Hop) (v : Val) {x y : Nat} {L : List PList},
    Ctx s b w X Y p v x y L → v.Ok s → y < 4294967296 → ∀ {c : CNode}, c.name = v.name → c.io = b → c.pos = x + (4 + 2 * (s.fields v.name).length) →
    ∃ d, walkTo s c p = some d ∧ d.name = w.name ∧ d.io = b ∧ d.pos = X + (4 + 2 * (s.fields w.name).length)
  | [], v, x, y, L, h, hok, hy, c, hn, hio, hp => by
    rw [Ctx] at h
    obtain ⟨rfl, rfl, rfl, rfl⟩ := h
    exact ⟨c, rfl, hn, hio, hp⟩
  | st :: p, .tab nm pre sub post, x, y, L, h, hok, hy, c, hn, hio, hp => by
    rw [Val.Ok] at hok
    obtain ⟨o1, o2, o3, o4, o5, o6, o7⟩ := hok
    rw [Val.name] at hn hp
    rcases ctx_view h with ⟨i, fl, v, t, rfl, rfl, h1, h2⟩ | ⟨i, fl, v, t, rfl, rfl, h1, h2⟩ | ⟨i, k, fl, tn, vs, t, e, L', rfl, rfl, h1, rfl, h2, h3, rfl⟩
    · rw [Sub.Ok] at o7
      obtain ⟨hv, fd, hfd, hg, htn⟩ := o7
      have hi := (List.getElem?_eq_some_iff.mp hfd).1
      obtain ⟨tl, q1, q2⟩ := laid_preLoad (ctx_laid hw p v h2)
      have hlead := h1.leads hi rfl q2 hn hio hp
      have hf := hlead.fieldAt_table o1.notStruct hfd hg (by rw [hio]; exact q1)
      obtain ⟨d, d1, d2⟩ := ctx_walk hw p v h2 hv hy (c := { name := fd.tname, io := c.io, pos := x + (4 + 2 * (s.fields nm).length + t) + (4 + 2 * (s.fields v.name).length), tlen := tl })
        htn hio rfl
      refine ⟨d, ?_, d2⟩
      rw [walkTo, hf]
      exact d1
    · rw [Sub.Ok] at o7
      obtain ⟨hv, fd, tag, hfd, hg, hcur, h0, hmem⟩ := o7
      have hi := (List.getElem?_eq_some_iff.mp hfd).1
      obtain ⟨tl, q1, q2⟩ := laid_preLoad (ctx_laid hw p v h2)
      obtain ⟨td, htd, htg⟩ := union_tag o1 hfd hg
      have hti := (List.getElem?_eq_some_iff.mp htd).1
      have htd' : (s.fields nm)[i] = td := (List.getElem?_eq_some_iff.mp htd).2
      have hr := h1.read o1 hn hio hp hti (by rw [htd']; exact inlGrp_basic1 htg)
      rw [hcur] at hr
      obtain ⟨nd, n1, n2⟩ := fieldRead_tag hr
      have hlead := h1.leads hi rfl q2 hn hio hp
      have hf := hlead.followUnion o1.notStruct hfd hg (by rw [hio]; exact q1) h0 tag.toNat_lt hmem n1 n2
      obtain ⟨d, d1, d2⟩ := ctx_walk hw p v h2 hv hy (c := { name := v.name, io := c.io, pos := x + (4 + 2 * (s.fields nm).length + t) + (4 + 2 * (s.fields v.name).length), tlen := tl })
        rfl hio rfl
      refine ⟨d, ?_, d2⟩
      rw [walkTo, hf]
      exact d1
    · rw [Sub.Ok] at o7
      obtain ⟨ho, ht, fd, hfd, hg, htn⟩ := o7
      have hi := (List.getElem?_eq_some_iff.mp hfd).1
      obtain ⟨u, x', z, g1, g2, g3, g4, g5⟩ := lctx_in _ _ h3
      have hlv := lctx_laid (fun v x z hh => ctx_laid hw p v hh) _ _ h3
      have hle := Vals.laid_le vs hlv
      have hlead := h1.leads hi rfl (by omega) hn hio hp
      have hnode := hlead.fieldAt_list o1.notStruct hfd hg (by rw [hio, hp]; exact h1.preLoad) (n := vs.count) (by omega) (by rw [hio]; exact h2)
      have hlen : ({ name := fd.tname, io := c.io, pos := c.pos, tlen := t, vi := { pos := ((x + (4 + 2 * (s.fields nm).length + t) + 4 : Nat) : Int), size := 0, vlen := vs.count } } : CNode).listLen = some vs.count := by
        unfold CNode.listLen CNode.u32
        simp only
        rw [show ((x + (4 + 2 * (s.fields nm).length + t) + 4 : Nat) : Int) - 4 = ((x + (4 + 2 * (s.fields nm).length + t) : Nat) : Int) by omega, hio, holds_getN h2, Nat.mod_eq_of_lt (by omega)]
      have hLN : LNode s b tn (x + (4 + 2 * (s.fields nm).length + t) + 4) vs.count { name := fd.tname, io := c.io, pos := c.pos, tlen := t, vi := { pos := ((x + (4 + 2 * (s.fields nm).length + t) + 4 : Nat) : Int), size := 0, vlen := vs.count } } := ⟨htn, hio, rfl, rfl, hlen⟩
      obtain ⟨gu1, gu2, gu3⟩ := Vals.get_ok vs k ho g1
      have hul := ctx_laid hw p u g2
      obtain ⟨tl, e1, e2⟩ := hLN.at_eq ht gu2 gu3 hul (by omega) (by omega) g5
      obtain ⟨d, d1, d2⟩ := ctx_walk hw p u g2 gu1 (by omega) (c := { name := tn, io := b, pos := x' + (4 + 2 * (s.fields tn).length), tlen := tl })
        gu2.symm rfl (by rw [gu2])
      refine ⟨d, ?_, d2⟩
      rw [walkTo, hnode]
      simp only [Option.bind_eq_bind, Option.bind_some]
      rw [e2]
      exact d1

end Fbs.Props
