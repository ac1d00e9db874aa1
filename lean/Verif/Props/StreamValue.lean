import Verif.Props.StreamLayout
import Verif.Props.EqualVal
import Verif.Props.EditDeep
import Verif.LaidWire
/-!
# C111: messages made by the library, in a stream
-/

namespace Fbs.Props
open Fbs CNode

/-! ## putting layouts together -/

/-- Everything `P` has, `Q` has. -/
structure Parts.Le (P Q : Parts) : Prop where
  A : ∀ o k, P.A o k → Q.A o k
  T : ∀ nm p, P.T nm p → Q.T nm p
  S : ∀ nm q, P.S nm q → Q.S nm q

theorem HeadLay.mono {d : Bytes} {P Q : Parts} {p vp n : Nat} (hPQ : P.Le Q) (h : HeadLay d P p vp n) : HeadLay d Q p vp n :=
  ⟨h.le, h.off, hPQ.A _ _ h.head, hPQ.A _ _ h.len, hPQ.A _ _ h.size, h.num, fun j hj => hPQ.A _ _ (h.ent j hj)⟩

theorem NumLay.mono {s : Sch} {P Q : Parts} {nm : Name} {w q : Nat} (hPQ : P.Le Q) (h : NumLay s P nm w q) : NumLay s Q nm w q :=
  ⟨h.plain, h.int8, h.pos, hPQ.A _ _ h.piece⟩

theorem EltLay.mono {s : Sch} {d : Bytes} {P Q : Parts} {t : Name} {e j : Nat} (hPQ : P.Le Q) (h : EltLay s d P t e j) : EltLay s d Q t e j := by
  cases h with
  | tab g hg hb hs ha ht => exact .tab g hg hb hs (hPQ.A _ _ ha) (hPQ.T _ _ ht)
  | num g hg hb hn => exact .num g hg hb (hn.mono hPQ)
  | str g hg hb hs hi hn => exact .str g hg hb hs hi (hPQ.S _ _ hn)

theorem ListLay.mono {s : Sch} {d : Bytes} {P Q : Parts} {nm : Name} {e : Nat} (hPQ : P.Le Q) (h : ListLay s d P nm e) : ListLay s d Q nm e :=
  ⟨h.list, h.str, h.plain, h.four, hPQ.A _ _ h.len, fun j hj => (h.elts j hj).mono hPQ⟩

theorem FieldLay.mono {s : Sch} {d : Bytes} {P Q : Parts} {f : FieldT} {q : Nat} (hPQ : P.Le Q) (h : FieldLay s d P f q) : FieldLay s d Q f q := by
  cases h with
  | strct h hs => exact .strct h (hPQ.S _ _ hs)
  | union h1 h2 hp hz ha vp n hh => exact .union h1 h2 hp hz (hPQ.A _ _ ha) vp n (hh.mono hPQ)
  | str h1 h2 h3 hn hp ha hb hc => exact .str h1 h2 h3 hn hp (hPQ.A _ _ ha) (hPQ.A _ _ hb) (hc.imp id (hPQ.A _ _))
  | list h1 h2 h3 h4 ha hl => exact .list h1 h2 h3 h4 (hPQ.A _ _ ha) (hl.mono hPQ)
  | tab h1 h2 h3 h4 h5 ha ht => exact .tab h1 h2 h3 h4 h5 (hPQ.A _ _ ha) (hPQ.T _ _ ht)
  | num h1 h2 h3 h4 h5 h6 hn => exact .num h1 h2 h3 h4 h5 h6 (hn.mono hPQ)

theorem TabLay.mono {s : Sch} {d : Bytes} {P Q : Parts} {nm : Name} {p vp n : Nat} (hPQ : P.Le Q) (h : TabLay s d P nm p vp n) : TabLay s d Q nm p vp n where
  head := h.head.mono hPQ
  len := h.len
  struct := h.struct
  list := h.list
  size := h.size
  field := fun j f hf h0 => (h.field j f hf h0).mono hPQ
  tag := fun j f hf hu => by
    obtain ⟨g, h1, h2, h3, h4, h5, h6, h7, h8⟩ := h.tag j f hf hu
    exact ⟨g, h1, h2, h3, h4, h5, h6, h7, fun h0 => hPQ.A _ _ (h8 h0)⟩
  alt := fun j f hf hu h0 a ha => hPQ.T _ _ (h.alt j f hf hu h0 a ha)

theorem StructLay.mono {s : Sch} {P Q : Parts} {nm : Name} {q : Nat} (hPQ : P.Le Q) (h : StructLay s P nm q) : StructLay s Q nm q :=
  ⟨h.struct, h.list, h.size, fun j f hf => ⟨(h.field j f hf).1, (h.field j f hf).2.imp (NumLay.mono hPQ) (hPQ.S _ _)⟩⟩

def Parts.or (P Q : Parts) : Parts := ⟨fun o k => P.A o k ∨ Q.A o k, fun nm p => P.T nm p ∨ Q.T nm p, fun nm q => P.S nm q ∨ Q.S nm q⟩

theorem Parts.le_left (P Q : Parts) : P.Le (P.or Q) := ⟨fun _ _ => Or.inl, fun _ _ => Or.inl, fun _ _ => Or.inl⟩
theorem Parts.le_right (P Q : Parts) : Q.Le (P.or Q) := ⟨fun _ _ => Or.inr, fun _ _ => Or.inr, fun _ _ => Or.inr⟩

theorem Layout.or {s : Sch} {d : Bytes} {P Q : Parts} (hP : Layout s d P) (hQ : Layout s d Q)
    (h : ∀ o k o' k', P.A o k → Q.A o' k' → o + k ≤ o' ∨ o' + k' ≤ o) : Layout s d (P.or Q) where
  piece := fun o k hh => hh.elim (hP.piece o k) (hQ.piece o k)
  apart := by
    intro o k o' k' h1 h2
    rcases h1 with h1 | h1 <;> rcases h2 with h2 | h2
    · exact hP.apart _ _ _ _ h1 h2
    · exact Or.inr (h _ _ _ _ h1 h2)
    · exact Or.inr ((h _ _ _ _ h2 h1).symm)
    · exact hQ.apart _ _ _ _ h1 h2
  tab := by
    intro nm p hh
    rcases hh with hh | hh
    · obtain ⟨vp, n, ht⟩ := hP.tab nm p hh
      exact ⟨vp, n, ht.mono (Parts.le_left P Q)⟩
    · obtain ⟨vp, n, ht⟩ := hQ.tab nm p hh
      exact ⟨vp, n, ht.mono (Parts.le_right P Q)⟩
  str := by
    intro nm p hh
    rcases hh with hh | hh
    · exact (hP.str nm p hh).mono (Parts.le_left P Q)
    · exact (hQ.str nm p hh).mono (Parts.le_right P Q)

/-- Nothing. -/
def noParts : Parts := ⟨fun _ _ => False, fun _ _ => False, fun _ _ => False⟩

theorem noParts_layout (s : Sch) (d : Bytes) : Layout s d noParts := ⟨fun _ _ h => h.elim, fun _ _ _ _ h => h.elim, fun _ _ h => h.elim, fun _ _ h => h.elim⟩

/-- One piece. -/
def onePart (o k : Nat) : Parts := ⟨fun o' k' => o' = o ∧ k' = k, fun _ _ => False, fun _ _ => False⟩

theorem onePart_layout {s : Sch} {d : Bytes} {o k : Nat} (h0 : 0 < k) (h1 : k < 16777216) (h2 : o + k ≤ d.length) : Layout s d (onePart o k) where
  piece := by rintro o' k' ⟨rfl, rfl⟩; exact ⟨h0, h1, h2⟩
  apart := by rintro o1 k1 o2 k2 ⟨rfl, rfl⟩ ⟨rfl, rfl⟩; exact Or.inl ⟨rfl, rfl⟩
  tab := fun _ _ h => h.elim
  str := fun _ _ h => h.elim

/-- One more table. -/
def Parts.withTab (P : Parts) (nm : Name) (p : Nat) : Parts := { P with T := fun nm' p' => P.T nm' p' ∨ (nm' = nm ∧ p' = p) }

theorem Layout.withTab {s : Sch} {d : Bytes} {P : Parts} (hP : Layout s d P) {nm : Name} {p vp n : Nat} (h : TabLay s d P nm p vp n) : Layout s d (P.withTab nm p) := by
  have hle : P.Le (P.withTab nm p) := ⟨fun _ _ h => h, fun _ _ => Or.inl, fun _ _ h => h⟩
  refine ⟨hP.piece, hP.apart, ?_, fun nm q hh => (hP.str nm q hh).mono hle⟩
  intro nm' p' hh
  rcases hh with hh | ⟨rfl, rfl⟩
  · obtain ⟨vp, n, ht⟩ := hP.tab _ _ hh
    exact ⟨vp, n, ht.mono hle⟩
  · exact ⟨vp, n, h.mono hle⟩

/-! ## values -/

/-- Specification: the types of the fields of `nm`: numbers have a width and are no `int8`; structs consist of such numbers; unions and
lists have no fields of their own. -/
structure StreamType (s : Sch) (nm : Name) : Prop where
  num : ∀ f ∈ s.fields nm, InlGrp f.grp → f.grp ≠ ftStruct → NoFields s f.tname ∧ f.tname ≠ "Int8".toList
  strct : ∀ f ∈ s.fields nm, f.grp = ftStruct → s.isStruct f.tname = true ∧ f.tname.take 2 ≠ "[]".toList ∧ sizeOfName f.tname = 0 ∧
    ∀ g ∈ s.fields f.tname, NoFields s g.tname ∧ g.tname ≠ "Int8".toList ∧ 0 < g.size ∧ sizeOfName g.tname = g.size ∧ g.grp ≠ ftUnion
  union : ∀ f ∈ s.fields nm, f.grp = ftUnion → NoFields s f.tname ∧ sizeOfName f.tname = 0
  slice : ∀ f ∈ s.fields nm, isFieldSlice f.grp = true → s.fields f.tname = []

mutual
/-- Specification: the byte vectors of the value are of less than 16 MiB. -/
def Val.Short : Val → Prop
  | .tab _ _ sub _ => sub.Short
def Sub.Short : Sub → Prop
  | .none => True
  | .bytes _ _ data => data.length < 16777216
  | .table _ _ v => v.Short
  | .union _ _ v => v.Short
  | .list _ _ _ vs => vs.Short
def Vals.Short : Vals → Prop
  | .nil => True
  | .cons _ v vs => v.Short ∧ vs.Short
end

mutual
/-- What is needed of a value. -/
def Val.Typed (s : Sch) : Val → Prop
  | .tab nm pre sub post => DeepType s nm ∧ (∀ o ∈ pre ++ post, InlSrc s nm o.field o.node o.val) ∧
      TagsOk s nm (lastSet (pre ++ post)) ∧ sub.Typed s nm (lastSet (pre ++ post))
def Sub.Typed (s : Sch) (nm : Name) (cur : Nat → Option Bytes) : Sub → Prop
  | .none => True
  | .bytes i _ _ => ∃ fd, (s.fields nm)[i]? = some fd ∧ fd.grp = ftSlice ||| ftBasic1
  | .table i _ v => v.Typed s ∧ ∃ fd, (s.fields nm)[i]? = some fd ∧ fd.grp = ftTable ∧ fd.tname = v.name
  | .union i _ v => v.Typed s ∧ ∃ fd, ∃ tag : UInt8, (s.fields nm)[i + 1]? = some fd ∧ fd.grp = ftUnion ∧
      cur i = some [tag] ∧ 0 < tag.toNat ∧ ((s.unions fd.tname).getD [])[tag.toNat - 1]? = some v.name
  | .list i _ t vs => vs.Typed s t ∧ TabElt s t ∧
      ∃ fd, (s.fields nm)[i]? = some fd ∧ fd.grp = ftSlice ||| ftTable ∧ fd.tname = '[' :: ']' :: t
def Vals.Typed (s : Sch) (t : Name) : Vals → Prop
  | .nil => True
  | .cons _ v vs => v.Typed s ∧ v.name = t ∧ vs.Typed s t
end

mutual
theorem Val.ok_typed {s : Sch} : ∀ v : Val, v.Ok s → v.Typed s
  | .tab nm pre sub post => by
    intro h
    rw [Val.Ok] at h
    obtain ⟨h1, h2, h3, -, -, -, h7⟩ := h
    rw [Val.Typed]
    exact ⟨h1, h2, h3, Sub.ok_typed sub h7⟩
theorem Sub.ok_typed {s : Sch} {nm : Name} {cur : Nat → Option Bytes} : ∀ sub : Sub, sub.Ok s nm cur → sub.Typed s nm cur
  | .none => by intro _; rw [Sub.Typed]; trivial
  | .bytes _ _ _ => by intro h; rw [Sub.Ok] at h; rw [Sub.Typed]; exact h
  | .table _ _ v => by intro h; rw [Sub.Ok] at h; rw [Sub.Typed]; exact ⟨Val.ok_typed v h.1, h.2⟩
  | .union _ _ v => by intro h; rw [Sub.Ok] at h; rw [Sub.Typed]; exact ⟨Val.ok_typed v h.1, h.2⟩
  | .list _ _ _ vs => by intro h; rw [Sub.Ok] at h; rw [Sub.Typed]; exact ⟨Vals.ok_typed vs h.1, h.2⟩
theorem Vals.ok_typed {s : Sch} {t : Name} : ∀ vs : Vals, vs.Ok s t → vs.Typed s t
  | .nil => by intro _; rw [Vals.Typed]; trivial
  | .cons _ v vs => by intro h; rw [Vals.Ok] at h; rw [Vals.Typed]; exact ⟨Val.ok_typed v h.1, h.2.1, Vals.ok_typed vs h.2.2⟩
end

mutual
theorem Val.fits_typed {s : Sch} {fuel : Nat} : ∀ v : Val, v.Fits s fuel → v.Typed s
  | .tab nm pre sub post => by
    intro h
    rw [Val.Fits] at h
    obtain ⟨h1, h2, -, -, -, h6, h7⟩ := h
    rw [Val.Typed]
    exact ⟨h1, h2, h6, Sub.fits_typed sub h7⟩
theorem Sub.fits_typed {s : Sch} {fuel : Nat} {nm : Name} {before cur : Nat → Option Bytes} : ∀ sub : Sub, sub.Fits s fuel nm before cur → sub.Typed s nm cur
  | .none => by intro _; rw [Sub.Typed]; trivial
  | .bytes i f data => by
    intro h
    rw [Sub.Fits] at h
    rw [Sub.Typed]
    obtain ⟨⟨fd, h1, h2, -⟩, -⟩ := h
    exact ⟨fd, h1, h2⟩
  | .table _ _ v => by intro h; rw [Sub.Fits] at h; rw [Sub.Typed]; exact ⟨Val.fits_typed v h.1, h.2⟩
  | .union _ _ v => by intro h; rw [Sub.Fits] at h; rw [Sub.Typed]; exact ⟨Val.fits_typed v h.1, h.2.2⟩
  | .list _ _ _ vs => by intro h; rw [Sub.Fits] at h; rw [Sub.Typed]; exact ⟨Vals.fits_typed vs h.1, h.2.1, h.2.2.2⟩
theorem Vals.fits_typed {s : Sch} {fuel : Nat} {t : Name} : ∀ vs : Vals, vs.Fits s fuel t → vs.Typed s t
  | .nil => by intro _; rw [Vals.Typed]; trivial
  | .cons _ v vs => by intro h; rw [Vals.Fits] at h; rw [Vals.Typed]; exact ⟨Val.fits_typed v h.1, h.2.1, Vals.fits_typed vs h.2.2⟩
end

/-! ## the pieces of a table -/

theorem held_spelt {d : Bytes} {p : Nat} {w : Bytes} (h : Holds (Base.new ⟨d, []⟩) p w) : Spelt d p w := by
  have h1 := spelt_of (h := []) h
  rwa [flatten_new, List.nil_append, List.length_nil, Nat.zero_add] at h1

theorem held_le2 {d : Bytes} {p v : Nat} (h : Holds (Base.new ⟨d, []⟩) p (putLE 2 v)) (hv : v < 65536) : p + 2 ≤ d.length ∧ Fb.le d 2 p = v := by
  have h1 := held_spelt h
  have h2 := h1.1
  rw [putLE_length] at h2
  have h3 := le_spelt h1
  rw [Nat.mod_eq_of_lt (by omega)] at h3
  exact ⟨h2, h3⟩

theorem sumSize_acc (l : List FieldT) : ∀ a, l.foldl (fun a f => a + f.size) a = a + sumSize l := by
  induction l with
  | nil => intro a; rfl
  | cons f l ih =>
    intro a
    unfold sumSize
    rw [List.foldl_cons, List.foldl_cons, ih, ih (0 + f.size)]
    omega

theorem sumSize_append (l m : List FieldT) : sumSize (l ++ m) = sumSize l + sumSize m := by
  show (l ++ m).foldl _ 0 = _
  rw [List.foldl_append, sumSize_acc]
  rfl

theorem sumSize_member {l : List FieldT} {j : Nat} {g : FieldT} (h : l[j]? = some g) : sumSize (l.take j) + g.size = sumSize (l.take (j + 1)) := by
  rw [List.take_add_one, h, sumSize_append]
  rw [Option.toList_some]
  show _ = _ + (0 + g.size)
  omega

theorem sumSize_le (l : List FieldT) {j k : Nat} (h : j ≤ k) : sumSize (l.take j) ≤ sumSize (l.take k) := by
  have := (List.take_append_drop j (l.take k)).symm
  rw [List.take_take, Nat.min_eq_left h] at this
  rw [this, sumSize_append]
  omega

theorem sumSize_all (l : List FieldT) (j : Nat) : sumSize (l.take j) ≤ sumSize l := by
  have h := sumSize_le l (Nat.le_max_left j l.length)
  rwa [List.take_of_length_le (Nat.le_max_right j l.length)] at h

/-- The pieces of a table and its table of fields. -/
def frameParts (s : Sch) (nm : Name) (x : Nat) (vo : Nat → Nat) (fx : Nat → Option Bytes) : Parts where
  A := fun o k => (o = x ∧ k = 2) ∨ (o = x + 2 ∧ k = 2) ∨ (∃ j < (s.fields nm).length, o = x + 4 + 2 * j ∧ k = 2) ∨
    (o = x + (4 + 2 * (s.fields nm).length) ∧ k = 4) ∨
    (∃ i f w, (s.fields nm)[i]? = some f ∧ fx i = some w ∧ f.grp ≠ ftStruct ∧ o = x + (4 + 2 * (s.fields nm).length) + vo i ∧ k = w.length) ∨
    (∃ i f w j g, (s.fields nm)[i]? = some f ∧ fx i = some w ∧ f.grp = ftStruct ∧ (s.fields f.tname)[j]? = some g ∧
      o = x + (4 + 2 * (s.fields nm).length) + vo i + sumSize ((s.fields f.tname).take j) ∧ k = g.size)
  T := fun _ _ => False
  S := fun nm' q => ∃ i f w, (s.fields nm)[i]? = some f ∧ fx i = some w ∧ f.grp = ftStruct ∧ nm' = f.tname ∧ q = x + (4 + 2 * (s.fields nm).length) + vo i

/-- A piece of the inline part of field `i`. -/
theorem frame_inline {s : Sch} {nm : Name} {d : Bytes} {x t : Nat} {vo : Nat → Nat} {fx : Nat → Option Bytes} (hT : TabL s nm (Base.new ⟨d, []⟩) x t vo fx)
    {i : Nat} {f : FieldT} {w : Bytes} (hf : (s.fields nm)[i]? = some f) (hw : fx i = some w) :
    4 ≤ vo i ∧ vo i + w.length ≤ t ∧ 0 < w.length ∧ x + (4 + 2 * (s.fields nm).length) + vo i + w.length ≤ d.length := by
  have hi := (List.getElem?_eq_some_iff.mp hf).1
  obtain ⟨h1, h2, h3⟩ := hT.wid i f w hf hw
  obtain ⟨-, h4⟩ := hT.at_.fld i hi w hw
  exact ⟨h1, h3, List.length_pos_iff.mpr h4.1, (held_spelt h4).1⟩

theorem frame_layout {s : Sch} {nm : Name} {d : Bytes} {x t : Nat} {vo : Nat → Nat} {fx : Nat → Option Bytes} (hT : TabL s nm (Base.new ⟨d, []⟩) x t vo fx)
    (hS : StreamType s nm) : Layout s d (frameParts s nm x vo fx) ∧
    ∀ o k, (frameParts s nm x vo fx).A o k → x ≤ o ∧ o + k ≤ x + (4 + 2 * (s.fields nm).length + t) := by
  have ht := hT.ht
  have ht4 := hT.t4
  have hfew := hT.at_.tab.hp
  have hmem : ∀ {i f w j g}, (s.fields nm)[i]? = some f → fx i = some w → f.grp = ftStruct → (s.fields f.tname)[j]? = some g →
      0 < g.size ∧ sumSize ((s.fields f.tname).take j) + g.size ≤ w.length := by
    intro i f w j g hf hw hg hj
    obtain ⟨-, h2, -⟩ := hT.wid i f w hf hw
    have h3 := (hS.strct f (List.mem_of_getElem? hf) hg).2.2.2 g (List.mem_of_getElem? hj)
    unfold fieldWidth at h2
    rw [if_pos hg] at h2
    refine ⟨h3.2.2.1, ?_⟩
    rw [sumSize_member hj, h2]
    exact sumSize_all _ _
  -- every piece lies in the head, or in the inline bytes of one field
  have hcase : ∀ o k, (frameParts s nm x vo fx).A o k →
      ((o = x ∧ k = 2) ∨ (o = x + 2 ∧ k = 2) ∨ (∃ j < (s.fields nm).length, o = x + 4 + 2 * j ∧ k = 2) ∨ (o = x + (4 + 2 * (s.fields nm).length) ∧ k = 4)) ∨
      ∃ i f w, (s.fields nm)[i]? = some f ∧ fx i = some w ∧ x + (4 + 2 * (s.fields nm).length) + vo i ≤ o ∧ 0 < k ∧
        o + k ≤ x + (4 + 2 * (s.fields nm).length) + vo i + w.length ∧
        ((f.grp ≠ ftStruct ∧ o = x + (4 + 2 * (s.fields nm).length) + vo i ∧ k = w.length) ∨
         (f.grp = ftStruct ∧ ∃ j g, (s.fields f.tname)[j]? = some g ∧ o = x + (4 + 2 * (s.fields nm).length) + vo i + sumSize ((s.fields f.tname).take j) ∧ k = g.size)) := by
    intro o k h
    rcases h with h | h | h | h | ⟨i, f, w, h1, h2, h3, rfl, rfl⟩ | ⟨i, f, w, j, g, h1, h2, h3, h4, rfl, rfl⟩
    · exact Or.inl (Or.inl h)
    · exact Or.inl (Or.inr (Or.inl h))
    · exact Or.inl (Or.inr (Or.inr (Or.inl h)))
    · exact Or.inl (Or.inr (Or.inr (Or.inr h)))
    · obtain ⟨g1, g2, g3, g4⟩ := frame_inline hT h1 h2
      exact Or.inr ⟨i, f, w, h1, h2, Nat.le_refl _, g3, Nat.le_refl _, Or.inl ⟨h3, rfl, rfl⟩⟩
    · obtain ⟨g1, g2⟩ := hmem h1 h2 h3 h4
      exact Or.inr ⟨i, f, w, h1, h2, by omega, g1, by omega, Or.inr ⟨h3, j, g, h4, rfl, rfl⟩⟩
  have hin : ∀ o k, (frameParts s nm x vo fx).A o k → x ≤ o ∧ o + k ≤ x + (4 + 2 * (s.fields nm).length + t) := by
    intro o k h
    rcases hcase o k h with (⟨rfl, rfl⟩ | ⟨rfl, rfl⟩ | ⟨j, hj, rfl, rfl⟩ | ⟨rfl, rfl⟩) | ⟨i, f, w, h1, h2, h3, h4, h5, -⟩
    · omega
    · omega
    · omega
    · omega
    · obtain ⟨g1, g2, g3, g4⟩ := frame_inline hT h1 h2
      omega
  refine ⟨⟨?_, ?_, fun _ _ h => h.elim, ?_⟩, hin⟩
  · intro o k h
    have hsoff := (held_spelt hT.at_.tab.soff).1
    rw [putLE_length] at hsoff
    rcases hcase o k h with (⟨rfl, rfl⟩ | ⟨rfl, rfl⟩ | ⟨j, hj, rfl, rfl⟩ | ⟨rfl, rfl⟩) | ⟨i, f, w, h1, h2, h3, h4, h5, -⟩
    · omega
    · omega
    · omega
    · omega
    · obtain ⟨g1, g2, g3, g4⟩ := frame_inline hT h1 h2
      omega
  · intro o k o' k' h h'
    rcases hcase o k h with hh | ⟨i, f, w, h1, h2, h3, h4, h5, h6⟩ <;> rcases hcase o' k' h' with hh' | ⟨i', f', w', h1', h2', h3', h4', h5', h6'⟩
    · rcases hh with ⟨rfl, rfl⟩ | ⟨rfl, rfl⟩ | ⟨j, hj, rfl, rfl⟩ | ⟨rfl, rfl⟩ <;> rcases hh' with ⟨rfl, rfl⟩ | ⟨rfl, rfl⟩ | ⟨j', hj', rfl, rfl⟩ | ⟨rfl, rfl⟩ <;> omega
    · obtain ⟨g1, g2, g3, g4⟩ := frame_inline hT h1' h2'
      rcases hh with ⟨rfl, rfl⟩ | ⟨rfl, rfl⟩ | ⟨j, hj, rfl, rfl⟩ | ⟨rfl, rfl⟩ <;> omega
    · obtain ⟨g1, g2, g3, g4⟩ := frame_inline hT h1 h2
      rcases hh' with ⟨rfl, rfl⟩ | ⟨rfl, rfl⟩ | ⟨j, hj, rfl, rfl⟩ | ⟨rfl, rfl⟩ <;> omega
    · by_cases hii : i = i'
      · subst hii
        rw [h1] at h1'
        cases h1'
        rw [h2] at h2'
        cases h2'
        rcases h6 with ⟨e1, e2, e3⟩ | ⟨e1, j, g, e2, e3, e4⟩ <;> rcases h6' with ⟨e1', e2', e3'⟩ | ⟨e1', j', g', e2', e3', e4'⟩
        · left; omega
        · exact absurd e1' e1
        · exact absurd e1 e1'
        · rcases Nat.lt_trichotomy j j' with hj | hj | hj
          · have a1 := sumSize_member e2
            have a2 := sumSize_le (s.fields f.tname) (j := j + 1) (k := j') hj
            omega
          · subst hj
            rw [e2] at e2'
            cases e2'
            left; omega
          · have a1 := sumSize_member e2'
            have a2 := sumSize_le (s.fields f.tname) (j := j' + 1) (k := j) hj
            omega
      · have hi := (List.getElem?_eq_some_iff.mp h1).1
        have hi' := (List.getElem?_eq_some_iff.mp h1').1
        have := hT.disj i i' hi hi' hii w w' h2 h2'
        omega
  · rintro nm' q ⟨i, f, w, h1, h2, h3, rfl, rfl⟩
    obtain ⟨s1, s2, s3, s4⟩ := hS.strct f (List.mem_of_getElem? h1) h3
    refine ⟨s1, s2, s3, fun j g hj => ?_⟩
    obtain ⟨m1, m2, m3, m4, m5⟩ := s4 g (List.mem_of_getElem? hj)
    refine ⟨m5, Or.inl ⟨m1, m2, by omega, ?_⟩⟩
    rw [m4]
    exact Or.inr (Or.inr (Or.inr (Or.inr (Or.inr ⟨i, f, w, j, g, h1, h2, h3, hj, rfl, rfl⟩))))

theorem frame_slot {s : Sch} {nm : Name} {d : Bytes} {x t : Nat} {vo : Nat → Nat} {fx : Nat → Option Bytes} (hT : TabL s nm (Base.new ⟨d, []⟩) x t vo fx) {j : Nat}
    (hj : j < (s.fields nm).length) : Fb.le d 2 (x + 4 + 2 * j) = vo j := by
  obtain ⟨h1, h2⟩ := hT.at_.tab.slot j hj
  have := (held_le2 h2 h1).2
  rwa [show x + (4 + 2 * j) = x + 4 + 2 * j by omega] at this

theorem inl_flags {g : Nat} (h : InlGrp g) (hs : g ≠ ftStruct) : isFieldStruct g = false ∧ isFieldUnion g = false ∧ isFieldBytes g = false ∧ isFieldSlice g = false ∧
    isFieldTable g = false ∧ isFieldBasicType g = true := by
  rcases h with h | h | h | h | h
  · exact absurd h hs
  all_goals subst h; decide

theorem inl_width {s : Sch} {f : FieldT} (h : InlGrp f.grp) (hs : f.grp ≠ ftStruct) : fieldWidth s f = f.size := by
  unfold fieldWidth
  rw [if_neg hs, if_neg]
  rcases h with h | h | h | h | h
  · exact absurd h hs
  all_goals rw [h]; decide

theorem deep_size {s : Sch} {nm : Name} (h : DeepType s nm) : sizeOfName nm = 0 := by
  have hp := h.plain
  unfold directSize at hp
  unfold sizeOfName
  cases hn : nameToType nm with
  | none => rfl
  | some t =>
    have hg : getTypeGroup s.toReg nm = some (typeToGroup t) := by
      unfold getTypeGroup
      rw [hn]
    rw [hg] at hp
    simp only [Option.bind_eq_bind, Option.bind_some] at hp
    rw [if_pos (by cases t <;> decide)] at hp
    cases hp

/-- A table, with what its field of variable length leads to. -/
theorem frame_tab {s : Sch} {nm : Name} {d : Bytes} {x t : Nat} {vo : Nat → Nat} {fx cur : Nat → Option Bytes} {fld : Option Nat} {P : Parts}
    (hT : TabL s nm (Base.new ⟨d, []⟩) x t vo fx) (hS : StreamType s nm) (hD : DeepType s nm) (hG : TagsOk s nm cur)
    (h1 : ∀ i fd, (s.fields nm)[i]? = some fd → InlGrp fd.grp → fx i = cur i)
    (h2 : ∀ i fd, (s.fields nm)[i]? = some fd → ¬ InlGrp fd.grp → fld ≠ some i → fx i = none)
    (hP : (frameParts s nm x vo fx).Le P)
    (hf : ∀ i f, fld = some i → (s.fields nm)[i]? = some f → FieldLay s d P f (x + (4 + 2 * (s.fields nm).length) + vo i))
    (ha : ∀ j f a, fld = some (j + 1) → (s.fields nm)[j + 1]? = some f → f.grp = ftUnion →
      ((s.unions f.tname).getD [])[((if vo j = 0 then 0 else Fb.le d 1 (x + (4 + 2 * (s.fields nm).length) + vo j)) + 255) % 256]? = some a →
      P.T a (x + (4 + 2 * (s.fields nm).length) + vo (j + 1) + Fb.le d 4 (x + (4 + 2 * (s.fields nm).length) + vo (j + 1)))) :
    TabLay s d P nm (x + (4 + 2 * (s.fields nm).length)) x (s.fields nm).length where
  head := by
    have hp := hT.at_.tab.hp
    refine ⟨by omega, ?_, hP.A _ _ ?_, hP.A _ _ (Or.inl ⟨rfl, rfl⟩), hP.A _ _ (Or.inr (Or.inl ⟨rfl, rfl⟩)), (held_le2 hT.at_.tab.vl hp).2, fun j hj => hP.A _ _ ?_⟩
    · rw [(held_le hT.at_.tab.soff (by omega)).2]
      omega
    · exact Or.inr (Or.inr (Or.inr (Or.inl ⟨rfl, rfl⟩)))
    · exact Or.inr (Or.inr (Or.inl ⟨j, hj, rfl, rfl⟩))
  len := Nat.le_refl _
  struct := hD.notStruct
  list := hD.name.2
  size := deep_size hD
  field := by
    intro j f hj h0
    have hjl := (List.getElem?_eq_some_iff.mp hj).1
    rw [frame_slot hT hjl] at h0 ⊢
    by_cases hfl : fld = some j
    · exact hf j f hfl hj
    cases hfx : fx j with
    | none => exact absurd (hT.at_.abs j hjl hfx) h0
    | some w =>
      by_cases hI : InlGrp f.grp
      · by_cases hst : f.grp = ftStruct
        · refine .strct (by rw [hst]; decide) (hP.S _ _ ⟨j, f, w, hj, hfx, hst, rfl, rfl⟩)
        · obtain ⟨q1, q2, q3, q4, q5, q6⟩ := inl_flags hI hst
          have hw := hT.wid j f w hj hfx
          rw [inl_width hI hst] at hw
          obtain ⟨n1, n2⟩ := hS.num f (List.mem_of_getElem? hj) hI hst
          have hi := frame_inline hT hj hfx
          refine .num q1 q2 q3 q4 q5 q6 ⟨n1, n2, by omega, hP.A _ _ ?_⟩
          exact Or.inr (Or.inr (Or.inr (Or.inr (Or.inl ⟨j, f, w, hj, hfx, hst, rfl, hw.2.1.symm⟩))))
      · rw [h2 j f hj hI hfl] at hfx
        cases hfx
  tag := by
    intro j f hj hu
    have hjl : j < (s.fields nm).length := by
      have := (List.getElem?_eq_some_iff.mp hj).1
      omega
    cases hD.flds (j + 1) f hj with
    | inline h _ => rw [hu] at h; rcases h with h | h | h | h | h <;> cases h
    | table h => rw [hu] at h; cases h
    | list h => rw [hu] at h; rcases h with h | h | h | h <;> cases h
    | bytes h _ => rw [hu] at h; cases h
    | union _ i td hi htd htg =>
      have hij : i = j := by omega
      subst hij
      refine ⟨td, htd, by rw [htg]; decide, by rw [htg]; decide, by rw [htg]; decide, by rw [htg]; decide, by rw [htg]; decide, by rw [htg]; decide, fun h0 => ?_⟩
      rw [frame_slot hT hjl] at h0 ⊢
      cases hfx : fx i with
      | none => exact absurd (hT.at_.abs i hjl hfx) h0
      | some w =>
        have hc := h1 i td htd (Or.inr (Or.inl htg))
        obtain ⟨b, hb, -⟩ := hG i f hj hu w (by rw [← hc, hfx])
        refine hP.A _ _ (Or.inr (Or.inr (Or.inr (Or.inr (Or.inl ⟨i, td, w, htd, hfx, by rw [htg]; decide, rfl, ?_⟩)))))
        rw [hb]
        rfl
  alt := by
    intro j f hj hu h0 a hal
    have hjl := (List.getElem?_eq_some_iff.mp hj).1
    rw [frame_slot hT hjl] at h0 ⊢
    rw [frame_slot hT (by omega)] at hal
    by_cases hfl : fld = some (j + 1)
    · exact ha j f a hfl hj hu hal
    · exfalso
      have hn : ¬ InlGrp f.grp := by rw [hu]; intro h; rcases h with h | h | h | h | h <;> cases h
      exact h0 (hT.at_.abs _ hjl (h2 _ f hj hn hfl))

/-- The offset of the field of variable length. -/
theorem frame_off {s : Sch} {nm : Name} {d : Bytes} {x t : Nat} {vo : Nat → Nat} {fx : Nat → Option Bytes} {gap i : Nat} {f : FieldT}
    (hT : TabL s nm (Base.new ⟨d, []⟩) x t vo fx) (hf : (s.fields nm)[i]? = some f) (hg : f.grp ≠ ftStruct) (hfx : fx i = some (putLE 4 (t - vo i + gap))) (hgap : gap < 65536) :
    (frameParts s nm x vo fx).A (x + (4 + 2 * (s.fields nm).length) + vo i) 4 ∧
    x + (4 + 2 * (s.fields nm).length) + vo i + Fb.le d 4 (x + (4 + 2 * (s.fields nm).length) + vo i) = x + (4 + 2 * (s.fields nm).length + t) + gap := by
  have hi := (List.getElem?_eq_some_iff.mp hf).1
  have ht := hT.ht
  obtain ⟨-, h2⟩ := hT.at_.fld i hi _ hfx
  have h3 := (held_le h2 (by omega)).2
  have h4 := frame_inline hT hf hfx
  rw [putLE_length] at h4
  refine ⟨Or.inr (Or.inr (Or.inr (Or.inr (Or.inl ⟨i, f, _, hf, hfx, hg, rfl, by rw [putLE_length]⟩)))), ?_⟩
  rw [h3]
  omega

mutual
/-- The parts of a value. -/
theorem Val.layout {s : Sch} {d : Bytes} (hS : ∀ nm, StreamType s nm) : ∀ (v : Val), v.Typed s → v.Short → ∀ ⦃x y : Nat⦄, v.Laid s (Base.new ⟨d, []⟩) x y → y < 4294967296 →
    ∃ P, Layout s d P ∧ (∀ o k, P.A o k → x ≤ o ∧ o + k ≤ y) ∧ P.T v.name (x + (4 + 2 * (s.fields v.name).length))
  | .tab nm pre sub post => by
    intro hty hsh x y hl hy
    rw [Val.Typed] at hty
    rw [Val.Short] at hsh
    obtain ⟨hD, hI, hG, hsub⟩ := hty
    have hle := Val.laid_le _ hl
    rw [Val.Laid] at hl
    obtain ⟨t, vo, fx, hT, h1, h2, h3, hL⟩ := hl
    obtain ⟨hFl, hFin⟩ := frame_layout hT (hS nm)
    obtain ⟨Q, hQ, hQin, hQf, hQa⟩ := Sub.layout hS sub hsub hsh hD hT h1 h3 hL hy
    have hsle := Sub.laid_le sub hL
    have hor : Layout s d ((frameParts s nm x vo fx).or Q) := by
      refine hFl.or hQ fun o k o' k' ha hb => ?_
      have a1 := hFin _ _ ha
      have a2 := hQin _ _ hb
      omega
    refine ⟨_, hor.withTab (frame_tab hT (hS nm) hD hG h1 h2 (Parts.le_left _ _) hQf hQa), ?_, Or.inr ⟨rfl, rfl⟩⟩
    intro o k hh
    rcases hh with hh | hh
    · have := hFin _ _ hh
      omega
    · have := hQin _ _ hh
      omega
theorem Sub.layout {s : Sch} {d : Bytes} (hS : ∀ nm, StreamType s nm) : ∀ (sub : Sub) ⦃nm : Name⦄ ⦃cur : Nat → Option Bytes⦄ ⦃x t : Nat⦄ ⦃vo : Nat → Nat⦄ ⦃fx : Nat → Option Bytes⦄,
    sub.Typed s nm cur → sub.Short → DeepType s nm → TabL s nm (Base.new ⟨d, []⟩) x t vo fx →
    (∀ i fd, (s.fields nm)[i]? = some fd → InlGrp fd.grp → fx i = cur i) →
    (∀ i, sub.field = some i → fx i = some (putLE 4 (t - vo i + sub.gap s))) →
    ∀ ⦃y : Nat⦄, sub.Laid s (Base.new ⟨d, []⟩) (x + (4 + 2 * (s.fields nm).length + t)) y → y < 4294967296 →
    ∃ Q, Layout s d Q ∧ (∀ o k, Q.A o k → x + (4 + 2 * (s.fields nm).length + t) ≤ o ∧ o + k ≤ y) ∧
      (∀ i f, sub.field = some i → (s.fields nm)[i]? = some f → FieldLay s d ((frameParts s nm x vo fx).or Q) f (x + (4 + 2 * (s.fields nm).length) + vo i)) ∧
      (∀ j f a, sub.field = some (j + 1) → (s.fields nm)[j + 1]? = some f → f.grp = ftUnion →
        ((s.unions f.tname).getD [])[((if vo j = 0 then 0 else Fb.le d 1 (x + (4 + 2 * (s.fields nm).length) + vo j)) + 255) % 256]? = some a →
        ((frameParts s nm x vo fx).or Q).T a (x + (4 + 2 * (s.fields nm).length) + vo (j + 1) + Fb.le d 4 (x + (4 + 2 * (s.fields nm).length) + vo (j + 1))))
  | .none => by
    intro nm cur x t vo fx _ _ _ _ _ _ y _ _
    exact ⟨noParts, noParts_layout s d, fun _ _ h => h.elim, (fun _ _ h _ => by cases h), (fun _ _ _ h _ _ _ => by cases h)⟩
  | .bytes i0 f0 data => by
    intro nm cur x t vo fx hty hsh hD hT h1 h3 y hL hy
    rw [Sub.Typed] at hty
    rw [Sub.Short] at hsh
    obtain ⟨fd, hfd, hgr⟩ := hty
    rw [Sub.Laid] at hL
    have hfx := h3 i0 rfl
    rw [Sub.gap] at hfx
    obtain ⟨hA, hO⟩ := frame_off hT hfd (by rw [hgr]; decide) hfx (by omega)
    rw [Nat.add_zero] at hO
    generalize x + (4 + 2 * (s.fields nm).length + t) = e at *
    have hsp := held_spelt hL.1
    obtain ⟨p1, p2⟩ := spelt_append hsp
    rw [putLE_length] at p2
    have hle := le_spelt p1
    rw [Nat.mod_eq_of_lt (by omega)] at hle
    have hlen := p2.1
    have hnm : fd.tname = "[]byte".toList := by
      cases hD.flds i0 fd hfd with
      | inline h _ => rw [hgr] at h; rcases h with h | h | h | h | h <;> cases h
      | table h => rw [hgr] at h; cases h
      | list h => rw [hgr] at h; rcases h with h | h | h | h <;> cases h
      | bytes _ hn => exact hn
      | union h => rw [hgr] at h; cases h
    have key : ∀ Q : Parts, Q.A e 4 → (data.length = 0 ∨ Q.A (e + 4) data.length) →
        (∀ i f, (Sub.bytes i0 f0 data).field = some i → (s.fields nm)[i]? = some f → FieldLay s d ((frameParts s nm x vo fx).or Q) f (x + (4 + 2 * (s.fields nm).length) + vo i)) ∧
        (∀ j f a, (Sub.bytes i0 f0 data).field = some (j + 1) → (s.fields nm)[j + 1]? = some f → f.grp = ftUnion →
          ((s.unions f.tname).getD [])[((if vo j = 0 then 0 else Fb.le d 1 (x + (4 + 2 * (s.fields nm).length) + vo j)) + 255) % 256]? = some a →
          ((frameParts s nm x vo fx).or Q).T a (x + (4 + 2 * (s.fields nm).length) + vo (j + 1) + Fb.le d 4 (x + (4 + 2 * (s.fields nm).length) + vo (j + 1)))) := by
      intro Q q1 q2
      refine ⟨fun i f hi hf => ?_, fun j f a hi hf hu => ?_⟩
      · cases hi
        rw [hfd] at hf
        cases hf
        refine .str (by rw [hgr]; decide) (by rw [hgr]; decide) (by rw [hgr]; decide) hnm ((hS nm).slice fd (List.mem_of_getElem? hfd) (by rw [hgr]; decide)) (Or.inl hA) ?_ ?_
        · rw [hO]; exact Or.inr q1
        · rw [hO, hle]
          exact q2.imp id Or.inr
      · cases hi
        rw [hfd] at hf
        cases hf
        rw [hgr] at hu
        cases hu
    by_cases h0 : data.length = 0
    · obtain ⟨k1, k2⟩ := key (onePart e 4) ⟨rfl, rfl⟩ (Or.inl h0)
      refine ⟨onePart e 4, onePart_layout (by omega) (by omega) (by omega), ?_, k1, k2⟩
      rintro o k ⟨rfl, rfl⟩
      omega
    · obtain ⟨k1, k2⟩ := key ((onePart e 4).or (onePart (e + 4) data.length)) (Or.inl ⟨rfl, rfl⟩) (Or.inr (Or.inr ⟨rfl, rfl⟩))
      refine ⟨_, (onePart_layout (o := e) (k := 4) (by omega) (by omega) (by omega)).or (onePart_layout (o := e + 4) (k := data.length) (by omega) hsh (by omega)) ?_, ?_, k1, k2⟩
      · rintro o k o' k' ⟨rfl, rfl⟩ ⟨rfl, rfl⟩
        omega
      · rintro o k (⟨rfl, rfl⟩ | ⟨rfl, rfl⟩) <;> omega
  | .table i0 fl v => by
    intro nm cur x t vo fx hty hsh hD hT h1 h3 y hL hy
    rw [Sub.Typed] at hty
    rw [Sub.Short] at hsh
    obtain ⟨hv, fd, hfd, hgr, hnm⟩ := hty
    rw [Sub.Laid] at hL
    have hfx := h3 i0 rfl
    rw [Sub.gap] at hfx
    obtain ⟨hA, hO⟩ := frame_off hT hfd (by rw [hgr]; decide) hfx (laid_few hL)
    obtain ⟨Q, hQ, hin, hTv⟩ := Val.layout hS v hv hsh hL hy
    refine ⟨Q, hQ, hin, fun i f hi hf => ?_, fun j f a hi hf hu => ?_⟩
    · cases hi
      rw [hfd] at hf
      cases hf
      refine .tab (by rw [hgr]; decide) (by rw [hgr]; decide) (by rw [hgr]; decide) (by rw [hgr]; decide) (by rw [hgr]; decide) (Or.inl hA) (Or.inr ?_)
      rw [hO, hnm]
      exact hTv
    · cases hi
      rw [hfd] at hf
      cases hf
      rw [hgr] at hu
      cases hu
  | .union i0 fl v => by
    intro nm cur x t vo fx hty hsh hD hT h1 h3 y hL hy
    rw [Sub.Typed] at hty
    rw [Sub.Short] at hsh
    obtain ⟨hv, fd, tag, hfd, hgr, hcur, htag, hal⟩ := hty
    rw [Sub.Laid] at hL
    have hfx := h3 (i0 + 1) rfl
    rw [Sub.gap] at hfx
    obtain ⟨hA, hO⟩ := frame_off hT hfd (by rw [hgr]; decide) hfx (laid_few hL)
    obtain ⟨Q, hQ, hin, hTv⟩ := Val.layout hS v hv hsh hL hy
    obtain ⟨vp, n, hTL⟩ := hQ.tab _ _ hTv
    obtain ⟨u1, u2⟩ := (hS nm).union fd (List.mem_of_getElem? hfd) hgr
    refine ⟨Q, hQ, hin, fun i f hi hf => ?_, fun j f a hi hf hu haa => ?_⟩
    · cases hi
      rw [hfd] at hf
      cases hf
      refine .union (by rw [hgr]; decide) (by rw [hgr]; decide) u1 u2 (Or.inl hA) vp n ?_
      rw [hO]
      exact hTL.head.mono (Parts.le_right _ _)
    · cases hi
      rw [hfd] at hf
      cases hf
      have htd : ∃ td, (s.fields nm)[i0]? = some td ∧ td.grp = ftBasic1 := by
        cases hD.flds (i0 + 1) fd hfd with
        | inline h _ => rw [hgr] at h; rcases h with h | h | h | h | h <;> cases h
        | table h => rw [hgr] at h; cases h
        | list h => rw [hgr] at h; rcases h with h | h | h | h <;> cases h
        | bytes h _ => rw [hgr] at h; cases h
        | union _ i td hi htd htg =>
          have hij : i = i0 := by omega
          subst hij
          exact ⟨td, htd, htg⟩
      obtain ⟨td, htd, htg⟩ := htd
      have hi0 := (List.getElem?_eq_some_iff.mp htd).1
      have hfx0 : fx i0 = some [tag] := by rw [h1 i0 td htd (Or.inr (Or.inl htg)), hcur]
      obtain ⟨g1, g2⟩ := hT.at_.fld i0 hi0 _ hfx0
      have hsp := held_spelt g2
      have hle1 : Fb.le d 1 (x + (4 + 2 * (s.fields nm).length) + vo i0) = tag.toNat := by
        unfold Fb.le
        have := hsp.2
        rw [List.length_singleton] at this
        rw [this]
        simp [leVal]
      rw [if_neg g1, hle1] at haa
      have ht2 := tag.toNat_lt
      rw [show (tag.toNat + 255) % 256 = tag.toNat - 1 by omega, hal] at haa
      cases haa
      rw [hO]
      exact Or.inr hTv
  | .list i0 fl tn vs => by
    intro nm cur x t vo fx hty hsh hD hT h1 h3 y hL hy
    rw [Sub.Typed] at hty
    rw [Sub.Short] at hsh
    obtain ⟨hv, hte, fd, hfd, hgr, hnm⟩ := hty
    rw [Sub.Laid] at hL
    have hfx := h3 i0 rfl
    rw [Sub.gap] at hfx
    obtain ⟨hA, hO⟩ := frame_off hT hfd (by rw [hgr]; decide) hfx (by omega)
    rw [Nat.add_zero] at hO
    generalize x + (4 + 2 * (s.fields nm).length + t) = e at *
    have hlv := Vals.laid_le vs hL.2
    obtain ⟨hc1, hc2⟩ := held_le hL.1 (by omega)
    obtain ⟨Q, hQ, hin, hcell⟩ := Vals.layout hS vs hv hsh hL.2 (by omega) hy
    obtain ⟨g, e1, e2, e3, -, -⟩ := hte
    refine ⟨(onePart e 4).or Q, (onePart_layout (by omega) (by omega) (by omega)).or hQ ?_, ?_, fun i f hi hf => ?_, fun j f a hi hf hu => ?_⟩
    · rintro o k o' k' ⟨rfl, rfl⟩ h
      have := hin _ _ h
      omega
    · rintro o k (⟨rfl, rfl⟩ | h)
      · omega
      · have := hin _ _ h
        omega
    · cases hi
      rw [hfd] at hf
      cases hf
      refine .list (by rw [hgr]; decide) (by rw [hgr]; decide) (by rw [hgr]; decide) (by rw [hgr]; decide) (Or.inl hA) ?_
      rw [hO]
      refine ⟨by rw [hnm]; rfl, ?_, (hS nm).slice fd (List.mem_of_getElem? hfd) (by rw [hgr]; decide), by omega, ?_, ?_⟩
      · intro hb
        rw [hnm] at hb
        have hb2 : tn = "byte".toList := by
          have := congrArg (List.drop 2) hb
          exact this
        rw [hb2] at e1
        cases e1
        cases e2
      · rw [Nat.add_sub_cancel]
        exact Or.inr (Or.inl ⟨rfl, rfl⟩)
      · rw [Nat.add_sub_cancel, hc2]
        intro j hj
        obtain ⟨c1, c2⟩ := hcell j hj
        rw [hnm]
        exact .tab g e1 e2 e3 (Or.inr (Or.inr c1)) (Or.inr (Or.inr c2))
    · cases hi
      rw [hfd] at hf
      cases hf
      rw [hgr] at hu
      cases hu
theorem Vals.layout {s : Sch} {d : Bytes} (hS : ∀ nm, StreamType s nm) : ∀ (vs : Vals) ⦃t : Name⦄, vs.Typed s t → vs.Short → ∀ ⦃A x y : Nat⦄, vs.Laid s (Base.new ⟨d, []⟩) A x y →
    A + 4 * vs.count ≤ x → y < 4294967296 →
    ∃ P, Layout s d P ∧ (∀ o k, P.A o k → (A ≤ o ∧ o + k ≤ A + 4 * vs.count) ∨ (x ≤ o ∧ o + k ≤ y)) ∧
      ∀ j < vs.count, P.A (A + 4 * j) 4 ∧ P.T t (A + 4 * j + Fb.le d 4 (A + 4 * j))
  | .nil => by
    intro t _ _ A x y _ _ _
    exact ⟨noParts, noParts_layout s d, fun _ _ h => h.elim, fun j hj => absurd hj (Nat.not_lt_zero _)⟩
  | .cons fl v vs => by
    intro t hty hsh A x y h hA hy
    rw [Vals.Typed] at hty
    rw [Vals.Short] at hsh
    obtain ⟨hv, hnm, hvs⟩ := hty
    rw [Vals.Laid] at h
    rw [Vals.count] at hA ⊢
    obtain ⟨z, g1, g2, g3⟩ := h
    have hf := laid_few g1
    have hx := Val.laid_le v g1
    have hz := Vals.laid_le vs g3
    obtain ⟨q1, q2⟩ := held_le g2 (by omega)
    obtain ⟨P, hP, hPin, hPT⟩ := Val.layout hS v hv hsh.1 g1 (by omega)
    obtain ⟨Q, hQ, hQin, hQc⟩ := Vals.layout hS vs hvs hsh.2 g3 (by omega) hy
    have h12 : Layout s d (P.or Q) := hP.or hQ fun o k o' k' ha hb => by
      have a1 := hPin _ _ ha
      have a2 := hQin _ _ hb
      omega
    refine ⟨(onePart A 4).or (P.or Q), (onePart_layout (by omega) (by omega) q1).or h12 ?_, ?_, ?_⟩
    · rintro o k o' k' ⟨rfl, rfl⟩ (hb | hb)
      · have := hPin _ _ hb
        omega
      · have := hQin _ _ hb
        omega
    · rintro o k (⟨rfl, rfl⟩ | hb | hb)
      · left; omega
      · have := hPin _ _ hb
        omega
      · have := hQin _ _ hb
        omega
    · intro j hj
      rcases j with _ | j
      · rw [Nat.mul_zero, Nat.add_zero, q2]
        refine ⟨Or.inl ⟨rfl, rfl⟩, Or.inr (Or.inl ?_)⟩
        rw [← hnm, show A + (x + (4 + 2 * (s.fields v.name).length) - A) = x + (4 + 2 * (s.fields v.name).length) by omega]
        exact hPT
      · obtain ⟨c1, c2⟩ := hQc j (by omega)
        rw [show A + 4 + 4 * j = A + 4 * (j + 1) by omega] at c1 c2
        exact ⟨Or.inr (Or.inr c1), Or.inr (Or.inr c2)⟩
end

/-- A value that stands behind a header. -/
theorem laid_stream {s : Sch} (hS : ∀ nm, StreamType s nm) {v : Val} (hty : v.Typed s) (hsh : v.Short) {d sp : Bytes} {x y : Nat}
    (hl : v.Laid s (Base.new ⟨d, []⟩) x y) (hx : 4 ≤ x) (hy : y < 4294967296) (hr : Fb.le d 4 0 = x + (4 + 2 * (s.fields v.name).length)) (cap : Nat) (l : List Call) (o : List Seen)
    (hm : (openCalls s v.name l).runM (Base.new ⟨d, sp⟩) = some o) : ∃ b', (openCalls s v.name l).runS 2 true (SBase.open (.file d) cap) = some (b', o) := by
  obtain ⟨P, hP, hin, hT⟩ := Val.layout hS v hty hsh hl hy
  obtain ⟨vp, n, hTL⟩ := hP.tab _ _ hT
  have h4 : 4 ≤ d.length := by
    have := hP.piece _ _ hTL.head.len
    have := hin _ _ hTL.head.len
    omega
  have hor : Layout s d ((onePart 0 4).or P) := by
    refine (onePart_layout (by omega) (by omega) (by omega)).or hP ?_
    rintro o k o' k' ⟨rfl, rfl⟩ hb
    have := hin _ _ hb
    omega
  exact stream_calls_partial hor (Or.inl ⟨rfl, rfl⟩) (Or.inr (by rw [hr]; exact hT)) cap l o hm

/-- **C111** (messages of the library). A value of any depth is built with the library's calls and saved. Its message, read from a stream
with random access and buffers of any capacity, gives every program of calls what it gives when the message is in memory. -/
theorem stream_value_partial (s : Sch) (hS : ∀ nm, StreamType s nm) (F : Nat) (v : Val) (h : v.Fits s (F + 1)) (hF : v.need ≤ F) (hsh : v.Short)
    (hsz : 8 + (4 + 2 * (s.fields v.name).length + v.data s) < 4294967296) :
    ∃ c d, v.node s (F + 1) = some c ∧ c.finish = some d ∧ ∀ (cap : Nat) (l : List Call) (o : List Seen),
      (openCalls s v.name l).runM (Base.new ⟨d, []⟩) = some o → ∃ b', (openCalls s v.name l).runS 2 true (SBase.open (.file d) cap) = some (b', o) := by
  obtain ⟨c, w, hg⟩ := val_good s F v h hF
  obtain ⟨hfin, hH, hroot, -⟩ := hg.saved []
  refine ⟨c, _, hg.node, hfin, fun cap l o hm => ?_⟩
  refine laid_stream hS (Val.fits_typed v h) hsh (hg.laid _ 8 (hH [])) (by omega) (by rw [hg.len]; omega) ?_ cap l o hm
  rw [← hg.pos]
  exact hroot

theorem full_mem {nm : Name} {f : FieldT} (hf : f ∈ fullSch.fields nm) :
    f ∈ fullSch.fields "BB".toList ++ fullSch.fields "TT".toList ++ fullSch.fields "LL".toList := by
  by_cases h1 : nm = "BB".toList
  · subst h1
    exact List.mem_append_left _ (List.mem_append_left _ hf)
  by_cases h2 : nm = "TT".toList
  · subst h2
    exact List.mem_append_left _ (List.mem_append_right _ hf)
  by_cases h3 : nm = "LL".toList
  · subst h3
    exact List.mem_append_right _ hf
  unfold fullSch at hf
  simp only [if_neg h1, if_neg h2, if_neg h3] at hf
  cases hf

theorem fullChain_short (x : Nat) (bs : Bytes) (hb : bs.length < 16777216) : ∀ n, (fullChain x bs n).Short
  | 0 => by
    unfold fullChain fullLeaf
    rw [Val.Short, Sub.Short, Val.Short, Sub.Short]
    exact hb
  | n + 1 => by
    unfold fullChain
    rw [Val.Short, Sub.Short]
    exact fullChain_short x bs hb n

theorem full_stream (nm : Name) : StreamType fullSch nm where
  num := by
    intro f hf
    have : ∀ f ∈ fullSch.fields "BB".toList ++ fullSch.fields "TT".toList ++ fullSch.fields "LL".toList, InlGrp f.grp → f.grp ≠ ftStruct → NoFields fullSch f.tname ∧ f.tname ≠ "Int8".toList := by
      unfold NoFields InlGrp
      decide
    exact this f (full_mem hf)
  strct := by
    intro f hf hg
    have : ∀ f ∈ fullSch.fields "BB".toList ++ fullSch.fields "TT".toList ++ fullSch.fields "LL".toList, f.grp ≠ ftStruct := by decide
    exact absurd hg (this f (full_mem hf))
  union := by
    intro f hf
    have : ∀ f ∈ fullSch.fields "BB".toList ++ fullSch.fields "TT".toList ++ fullSch.fields "LL".toList, f.grp = ftUnion → NoFields fullSch f.tname ∧ sizeOfName f.tname = 0 := by
      unfold NoFields
      decide
    exact this f (full_mem hf)
  slice := by
    intro f hf
    have : ∀ f ∈ fullSch.fields "BB".toList ++ fullSch.fields "TT".toList ++ fullSch.fields "LL".toList, isFieldSlice f.grp = true → fullSch.fields f.tname = [] := by decide
    exact this f (full_mem hf)

/-- Chains of unions, of any length, with a byte vector at the end. -/
example (x : Nat) (bs : Bytes) (hb : bs.length < 16777216) (n : Nat)
    (hsz : 8 + (4 + 2 * (fullSch.fields (fullChain x bs n).name).length + (fullChain x bs n).data fullSch) < 4294967296) :
    ∃ c d, (fullChain x bs n).node fullSch ((fullChain x bs n).need + 1) = some c ∧ c.finish = some d ∧ ∀ (cap : Nat) (l : List Call) (o : List Seen),
      (openCalls fullSch (fullChain x bs n).name l).runM (Base.new ⟨d, []⟩) = some o →
        ∃ b', (openCalls fullSch (fullChain x bs n).name l).runS 2 true (SBase.open (.file d) cap) = some (b', o) :=
  stream_value_partial fullSch full_stream _ _ (fullChain_fits _ x bs (by omega) n).1 (Nat.le_refl _) (fullChain_short x bs hb n) hsz

/-- The program of calls gives what was put in: the number of elements, the number in the first one, and the byte vector behind the union of
the second one. -/
example : (((fullList [65, 66]).node fullSch 40).bind CNode.finish).bind (fun d =>
    (openCalls fullSch "LL".toList [.field 0 1, .count 1, .elem 1 0, .field 2 2, .num 3, .elem 1 1, .union 4 1, .field 5 1, .str 6]).runM (Base.new ⟨d, []⟩)) =
      some [.node true, .num 2, .node true, .node true, .num 1, .node true, .node true, .node true, .str [65, 66]] := by
  decide +kernel

/-- **C111** (messages edited). The message is saved, then any number of times opened, edited in one table anywhere in it, and saved. What
comes out reads from a stream as it reads in memory. -/
theorem stream_edited_partial (s : Sch) (hS : ∀ nm, StreamType s nm) (F : Nat) (v : Val) (h : v.Fits s (F + 1)) (hF : v.need ≤ F) (hok : v.Ok s)
    (hK : v.deep ≤ F + 1) (hroot : s.root = v.name) (hfew : 12 + 2 * (s.fields v.name).length < 65536) (es : List Sess) (hes : SessFits s v es)
    (hsh : (es.foldl Val.edit v).Short)
    (hy : 8 + (4 + 2 * (s.fields v.name).length + v.data s) + valLen (es.flatMap Sess.ops) < 4294967296) :
    ∃ c d d', v.node s (F + 1) = some c ∧ c.finish = some d ∧ es.foldlM (editAt s (F + 1) v.name) d = some d' ∧
      ∀ (cap : Nat) (l : List Call) (o : List Seen), (openCalls s v.name l).runM (Base.new ⟨d', []⟩) = some o →
        ∃ b', (openCalls s v.name l).runS 2 true (SBase.open (.file d') cap) = some (b', o) := by
  obtain ⟨c, w, hg⟩ := val_good s F v h hF
  rw [← hg.len] at hy
  obtain ⟨d, h1, h2⟩ := hg.isSaved hroot hfew hok (by omega)
  obtain ⟨d', y', h3, h4, h5, -⟩ := h2.edits es hes hy hK
  refine ⟨c, d, d', hg.node, h1, h3, fun cap l o hm => ?_⟩
  rw [← h5] at hm ⊢
  have hf := (h4.head []).few
  exact laid_stream hS (Val.ok_typed _ h4.ok) hsh (h4.laid []) (by omega) h4.hy (held_le (h4.head []).off (by omega)).2 cap l o hm

theorem edi_mem {nm : Name} {f : FieldT} (hf : f ∈ ediSch.fields nm) :
    f ∈ ediSch.fields "RR".toList ++ ediSch.fields "TT".toList ++ ediSch.fields "SS".toList ++ ediSch.fields "BB".toList := by
  simp only [List.mem_append]
  by_cases h1 : nm = "RR".toList
  · subst h1; exact Or.inl (Or.inl (Or.inl hf))
  by_cases h2 : nm = "TT".toList
  · subst h2; exact Or.inl (Or.inl (Or.inr hf))
  by_cases h3 : nm = "SS".toList
  · subst h3; exact Or.inl (Or.inr hf)
  by_cases h4 : nm = "BB".toList
  · subst h4; exact Or.inr hf
  unfold ediSch at hf
  simp only [if_neg h1, if_neg h2, if_neg h3, if_neg h4] at hf
  cases hf

theorem edi_stream (nm : Name) : StreamType ediSch nm where
  num := by
    intro f hf
    have : ∀ f ∈ ediSch.fields "RR".toList ++ ediSch.fields "TT".toList ++ ediSch.fields "SS".toList ++ ediSch.fields "BB".toList,
        InlGrp f.grp → f.grp ≠ ftStruct → NoFields ediSch f.tname ∧ f.tname ≠ "Int8".toList := by
      unfold NoFields InlGrp
      decide
    exact this f (edi_mem hf)
  strct := by
    intro f hf hg
    have : ∀ f ∈ ediSch.fields "RR".toList ++ ediSch.fields "TT".toList ++ ediSch.fields "SS".toList ++ ediSch.fields "BB".toList, f.grp ≠ ftStruct := by decide
    exact absurd hg (this f (edi_mem hf))
  union := by
    intro f hf
    have : ∀ f ∈ ediSch.fields "RR".toList ++ ediSch.fields "TT".toList ++ ediSch.fields "SS".toList ++ ediSch.fields "BB".toList,
        f.grp = ftUnion → NoFields ediSch f.tname ∧ sizeOfName f.tname = 0 := by
      unfold NoFields
      decide
    exact this f (edi_mem hf)
  slice := by
    intro f hf
    have : ∀ f ∈ ediSch.fields "RR".toList ++ ediSch.fields "TT".toList ++ ediSch.fields "SS".toList ++ ediSch.fields "BB".toList,
        isFieldSlice f.grp = true → ediSch.fields f.tname = [] := by decide
    exact this f (edi_mem hf)

/-- Four sessions on a message with a list of tables that have unions and tables in them. -/
example : ∃ c d d', (ediVal [65, 66, 67]).node ediSch 30 = some c ∧ c.finish = some d ∧ ediSess.foldlM (editAt ediSch 30 "RR".toList) d = some d' ∧
    ∀ (cap : Nat) (l : List Call) (o : List Seen), (openCalls ediSch "RR".toList l).runM (Base.new ⟨d', []⟩) = some o →
      ∃ b', (openCalls ediSch "RR".toList l).runS 2 true (SBase.open (.file d') cap) = some (b', o) :=
  stream_edited_partial ediSch edi_stream 29 _ (ediVal_fits 29) (by decide) ediVal_ok (by decide) rfl (by decide) ediSess ediSess_fits
    (by show True ∧ 3 < 16777216 ∧ True ∧ True; decide) (by decide)

end Fbs.Props
