import Verif.Props.Node
import Verif.Props.NodeEdit
/-!
# More about unions (C44) and equality (C75)
-/

namespace Fbs.Props
open Fbs CNode

/-- C44: `CanFollow` is true exactly when the tag in front of the union is present and not 0. -/
theorem union_canFollow (s : Sch) (name : Name) (buf : Slice) (t i : Nat) (f : FieldT)
    (hf : (s.fields name)[i]? = some f) (hg : ScalarGrp f.grp) (hst : s.isStruct name = false)
    (hok : Fb.TableOk buf.data t) (hs : 0 ≤ Fb.soffset buf.data t) (hi : 4 + 2 * i + 2 ≤ Fb.vtableLen buf.data t)
    (hin : ∀ p, Fb.fieldPos buf.data t i = some p → p + 1 ≤ buf.data.length) :
    (tableAt name buf t).canFollow s ((i + 1 : Nat) : Int) =
      some (match Fb.fieldPos buf.data t i with
        | none => false
        | some p => decide (0 < Fb.le buf.data 1 p)) := by
  obtain ⟨r, h1, h2, -, h3⟩ := scalar_field s name buf t i f hf hg hst hok hs hi
  unfold CNode.canFollow
  rw [show ((i + 1 : Nat) : Int) - 1 = (i : Int) by omega, h1]
  simp only [Option.bind_eq_bind, Option.bind_some]
  cases hp : Fb.fieldPos buf.data t i with
  | none =>
    rw [hp] at h2
    cases r with
    | none => simp [CNode.scalar]
    | some n => cases h2
  | some p =>
    rw [h3 p 1 hp (hin p hp) (by omega)]
    simp only [Option.bind_some, pure, gt_iff_lt]

example : (tableAt "TT".toList unionBuf 8).canFollow unionSch ((0 + 1 : Nat) : Int) = some true := by
  have h16 : Fb.fieldPos unionBuf.data 8 0 = some 16 := by decide
  rw [union_canFollow unionSch "TT".toList unionBuf 8 0 ⟨"byte".toList, ftBasic1, some .byte⟩ rfl (by unfold ScalarGrp; decide) rfl
    (by unfold Fb.TableOk; decide) (by decide) (by decide)
    (by intro p hp; rw [h16] at hp; cases hp; decide)]
  decide

/-- C75: tables are only equal if their declared fields are of the same groups. -/
theorem equal_fields_groups {s : Sch} (k : Nat) : ∀ {n1 n2 : Name} {o1 o2 : Option CNode} {i n : Nat},
    equalFields s k (n1, o1) (n2, o2) i n = some true → ∀ j, i ≤ j → j < i + n →
      (((s.fields n1)[j]?).getD ⟨[], 0, none⟩).grp = (((s.fields n2)[j]?).getD ⟨[], 0, none⟩).grp := by
  induction k with
  | zero => intro n1 n2 o1 o2 i n h; simp [equalFields] at h
  | succ k ih =>
    intro n1 n2 o1 o2 i n h j hj hjn
    cases n with
    | zero => omega
    | succ n =>
      simp only [equalFields] at h
      by_cases hg : (((s.fields n1)[i]?).getD ⟨[], 0, none⟩).grp = (((s.fields n2)[i]?).getD ⟨[], 0, none⟩).grp
      · by_cases hji : j = i
        · rw [hji]; exact hg
        · rw [if_neg (by simpa using hg)] at h
          cases o1 with
          | none => simp at h
          | some c1 =>
            cases o2 with
            | none => simp at h
            | some c2 =>
              simp only [Option.bind_eq_bind, Option.bind_some] at h
              obtain ⟨ok, -, h⟩ := Option.bind_eq_some_iff.mp h
              cases ok with
              | false => simp at h
              | true =>
                simp only [if_true] at h
                exact ih h j (by omega) (by omega)
      · rw [if_pos (by simpa using hg)] at h
        simp at h

theorem equal_groups (s : Sch) (k : Nat) (n1 n2 : Name) (c1 : CNode) (o2 : Option CNode) (hv : c1.vi.pos ≤ 0)
    (h : equalF s k (n1, some c1) (n2, o2) = some true) (i : Nat) (hi : i < (s.fields n1).length) :
    ((s.fields n1)[i]).grp = (((s.fields n2)[i]?).getD ⟨[], 0, none⟩).grp := by
  cases k with
  | zero => simp [equalF] at h
  | succ k =>
    simp only [equalF] at h
    rw [if_neg (by omega)] at h
    have := equal_fields_groups k h i (Nat.zero_le _) (by omega)
    rwa [List.getElem?_eq_getElem hi] at this

/-- C75 is violated for tables of different types: two tables are "equal" although the second has more fields, and
the comparison the other way round says so. -/
theorem equal_types_fails :
    let s : Sch := { fields := fun n => if n = "AA".toList then [] else if n = "BB".toList then [⟨"Int16".toList, ftBasic2, some .int16⟩] else [] }
    ∀ c d : CNode, c.name = "AA".toList → d.name = "BB".toList → c.vi.pos ≤ 0 → d.vi.pos ≤ 0 →
      equalF s 5 ("AA".toList, some c) ("BB".toList, some d) = some true ∧
      equalF s 5 ("BB".toList, some d) ("AA".toList, some c) = some false := by
  intro s c d hc hd h1 h2
  constructor
  · simp only [equalF]
    rw [if_neg (by omega)]
    rfl
  · simp only [equalF]
    rw [if_neg (by omega)]
    rfl

end Fbs.Props
