import Verif.Props.TreeExtent
import Verif.NodeEdit
/-!
# Fields of unknown types, and entries outside of lists (C92, C97; common.go 63-121, 939-972)
-/
namespace Fbs.Props
open Fbs CNode

variable {s : Sch}

theorem sort_none {g : Nat} (h : sortOf g = none) : isFieldStruct g = false ∧ isFieldUnion g = false ∧ isFieldBytes g = false ∧
    isFieldSlice g = false ∧ isFieldTable g = false ∧ isFieldBasicType g = false := by
  unfold sortOf at h
  repeat' split at h
  all_goals first | (simp at h; done) | skip
  rename_i h1 h2 h3 h4 h5
  have h3' : isFieldSlice g = false := by simpa using h3
  refine ⟨by simpa using h1, by simpa using h2, ?_, h3', by simpa using h4, by simpa using h5⟩
  unfold isFieldSlice at h3'
  unfold isFieldBytes
  rw [h3']
  rfl

/-- A field whose type the registry does not know (its group has no bit) is read as absent whatever is stored, the walk
makes no call for it, and in `Info` it is an empty extent at the start of the table. -/
theorem unknown_field (c : CNode) (i k : Nat) (hst : s.isStruct c.name = false) (hk : sortOf (c.fieldT s i).grp = none)
    (b : Bool) (hz : c.isZero i = some b) :
    c.fieldAt s i = some none ∧ traverseAt s (k + 1) c i = some [] ∧
      valueInfoF s (k + 1) c i = some { pos := c.pos, size := 0, vlen := 0 } := by
  obtain ⟨h1, h2, h3, h4, h5, h6⟩ := sort_none hk
  have hf : c.fieldAt s i = some none := by
    unfold fieldAt
    simp only [Option.bind_eq_bind, pure, hst, h1, h2, h3, h4, h5, h6, hz, Option.bind_some, Bool.false_eq_true, if_false]
    cases b <;> simp
  refine ⟨hf, ?_, ?_⟩
  · unfold traverseAt isLeafAt
    simp only [Option.bind_eq_bind, pure, h1, h2, h3, h4, h5, h6, hf, Option.bind_some, Bool.false_eq_true, if_false]
  · unfold valueInfoF
    simp only [Option.bind_eq_bind, pure, h1, h2, h3, h4, h5, h6, Bool.false_eq_true, if_false]

/-- A table all of whose fields have types the registry does not know is said to have no bytes. -/
theorem unknown_info (c : CNode) (k : Nat) (hd : directSize s c.name = some none) (hne : (s.fields c.name).length ≠ 0)
    (hk : ∀ i : Nat, i < (s.fields c.name).length → sortOf (c.fieldT s i).grp = none) :
    infoF s (k + 2) (some c) = some { pos := c.pos, size := 0, vlen := 0 } := by
  have hv : ∀ i : Nat, i < (s.fields c.name).length → valueInfoF s (k + 1) c i = some { pos := c.pos, size := 0, vlen := 0 } := by
    intro i hi
    obtain ⟨h1, h2, h3, h4, h5, h6⟩ := sort_none (hk i hi)
    unfold valueInfoF
    simp only [Option.bind_eq_bind, pure, h1, h2, h3, h4, h5, h6, Bool.false_eq_true, if_false]
  unfold infoF
  simp only [Option.bind_eq_bind, hd, Option.bind_some, pure]
  generalize (s.fields c.name).length = n at hne hv ⊢
  have key : ∀ m, m ≤ n → (List.range m).foldlM (fun acc (i : Nat) => (valueInfoF s (k + 1) c i).bind (fun v => some (growInfo acc v)))
      ({ pos := c.pos, size := -1, vlen := 0 } : VInfo) = some { pos := c.pos, size := if m = 0 then -1 else 0, vlen := 0 } := by
    intro m
    induction m with
    | zero => intro _; rfl
    | succ m ih =>
      intro hm
      rw [List.range_succ, List.foldlM_append, ih (by omega)]
      simp only [Option.bind_eq_bind, Option.bind_some, List.foldlM_cons, List.foldlM_nil, pure, hv m (by omega)]
      unfold growInfo
      by_cases h0 : m = 0
      · subst h0
        simp only [if_true]
        rw [if_pos (by omega)]
        simp
      · simp [h0]
  rw [key n (Nat.le_refl _), if_neg hne]

/-- A table with one field of an unknown type. -/
def unknownSch : Sch where
  fields := fun n => if n = "RR".toList then [⟨"Qq".toList, 0, none⟩] else []
  root := "RR".toList
example : infoF unknownSch 2 (some { name := "RR".toList, io := Base.new ⟨[], []⟩, pos := 7 }) = some { pos := 7, size := 0, vlen := 0 } :=
  unknown_info _ 0 (by decide +kernel) (by decide) (by decide)

/-- Moving the offsets behind an insertion leaves entries outside of a list, and the entries of lists of numbers, alone. -/
theorem move_outside (c : CNode) (i : Int) (pos size : Nat) (hl : c.isList = some true) (h2 : 2 ≤ c.name.length)
    (h : i < 0 ∨ (c.vi.vlen : Int) ≤ i ∨ ∃ g, getTypeGroup s.toReg (c.name.drop 2) = some g ∧ isFieldBasicType g = true) :
    c.movePos s i pos size = some c := by
  unfold CNode.movePos
  simp only [Option.bind_eq_bind, hl, Option.bind_some, if_true]
  unfold CNode.movePosOnList
  simp only [Option.bind_eq_bind, hl, Option.bind_some, pure, Bool.not_true, Bool.false_eq_true, if_false]
  by_cases h0 : i ≥ c.vi.vlen ∨ i < 0
  · rw [if_pos h0]
  · rw [if_neg h0, if_neg (by omega)]
    obtain ⟨g, hg, hb⟩ : ∃ g, getTypeGroup s.toReg (c.name.drop 2) = some g ∧ isFieldBasicType g = true := by
      rcases h with h | h | h
      · omega
      · omega
      · exact h
    simp only [hg, Option.bind_some, hb, if_true]

example : (treeList).isList = some true ∧ 2 ≤ treeList.name.length ∧ (treeList.vi.vlen : Int) ≤ 2 := by decide +kernel

end Fbs.Props
