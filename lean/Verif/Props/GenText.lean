import Verif.GenText
import Verif.GenRead
import Verif.Props.BadSchema
/-!
# C115: the printed commands are read as they were meant
-/

namespace Fbs.Props
open Fbs Fbs.Peg Fbs.Gen Fbs.Schema Fbs.GenRead

/-- The call a command stands for. -/
def meant (c : Cmd) : Call :=
  { input := "../genny/".toList ++ c.template.file
    output := "../".toList ++ c.out
    params := match c.template with
      | .root => [("RootType".toList, [c.extra.headD []])]
      | .node => [("NodeName".toList, [c.nodeName]), ("RootType".toList, [c.extra.headD []]),
                  ("IsStruct".toList, [boolText c.isStruct])]
      | .list => [("NodeName".toList, [c.nodeName]), ("ListType".toList, [c.extra.headD []])]
      | .field => [("NodeName".toList, [c.nodeName]), ("FieldName".toList, [c.fieldName]),
                   ("FieldType".toList, [c.fieldType]), ("ResultType".toList, [c.resultType]),
                   ("FieldNum".toList, [dec (c.fieldNum.getD 0)]), ("IsStruct".toList, [boolText c.isStruct])]
      | .union => [("UnionName".toList, [c.nodeName])]
      | .unionAlias => [("UnionName".toList, [c.nodeName]), ("AliasName".toList, c.extra)] }

/-- Characters that mean nothing to the readers. -/
def safeChar (c : Char) : Bool :=
  c ≠ ' ' && c ≠ '\t' && c ≠ '\n' && c ≠ '"' && c ≠ '\\' && c ≠ '$' && c ≠ ',' && c ≠ '=' && c ≠ '/'

def Safe (n : Name) : Prop := ∀ c ∈ n, safeChar c = true

instance (n : Name) : Decidable (Safe n) := inferInstanceAs (Decidable (∀ c ∈ n, safeChar c = true))

theorem Safe.append {a b : Name} (ha : Safe a) (hb : Safe b) : Safe (a ++ b) := by
  intro c hc; rcases List.mem_append.1 hc with h | h
  · exact ha c h
  · exact hb c h

theorem Safe.drop {a : Name} (n : Nat) (ha : Safe a) : Safe (a.drop n) := fun c hc => ha c (List.mem_of_mem_drop hc)

theorem safe_ne {n : Name} (h : Safe n) {c : Char} (hc : safeChar c = false) : c ∉ n := fun hm => by
  rw [h c hm] at hc; cases hc

/-! ## cutting -/

theorem cut_ne (c : Char) : ∀ s : Txt, cut c s ≠ [] := by
  intro s
  induction s with
  | nil => simp [cut]
  | cons x r ih =>
    unfold cut
    split
    · simp
    · split <;> simp

theorem cut_none {c : Char} : ∀ {s : Txt}, c ∉ s → cut c s = [s] := by
  intro s
  induction s with
  | nil => intro; rfl
  | cons x r ih =>
    intro h
    have hx : x ≠ c := fun e => h (by simp [e])
    have hr : c ∉ r := fun e => h (by simp [e])
    simp [cut, hx, ih hr]

theorem cut_append (c : Char) (b : Txt) : ∀ a : Txt, cut c (a ++ c :: b) = cut c a ++ cut c b := by
  intro a
  induction a with
  | nil => simp [cut]
  | cons x r ih =>
    by_cases hx : x = c
    · simp [cut, hx, ih]
    · obtain ⟨w, ws, e⟩ := List.exists_cons_of_ne_nil (cut_ne c r)
      simp [cut, hx, ih, e]

theorem cut_cons {c : Char} {a : Txt} (b : Txt) (h : c ∉ a) : cut c (a ++ c :: b) = a :: cut c b := by
  rw [cut_append, cut_none h]; rfl

theorem cut_joinComma : ∀ l : List Name, l ≠ [] → (∀ a ∈ l, Safe a) → cut ',' (joinComma l) = l := by
  intro l
  induction l with
  | nil => intro h; exact absurd rfl h
  | cons a l ih =>
    intro _ hs
    have ha : ',' ∉ a := safe_ne (hs a (by simp)) (by decide)
    cases l with
    | nil => exact cut_none ha
    | cons b l =>
      have := ih (by simp) (fun x hx => hs x (by simp [hx]))
      simp only [joinComma]
      rw [cut_cons _ ha, this]

theorem strip_append : ∀ p s : Txt, strip p (p ++ s) = some s := by
  intro p
  induction p with
  | nil => intro s; rfl
  | cons x p ih => intro s; simp [strip, ih]

/-! ## words -/

/-- Characters of a word outside quotes. -/
def wordChar (c : Char) : Bool := c ≠ ' ' && c ≠ '\t' && c ≠ '"' && c ≠ '$'

theorem words_word : ∀ (s : Txt) (w r : Txt), (∀ c ∈ s, wordChar c = true) →
    words (.word w) (s ++ ' ' :: r) = (words .gap r).map ((w ++ s) :: ·) := by
  intro s
  induction s with
  | nil => intro w r _; simp [words]
  | cons x s ih =>
    intro w r h
    have hx := h x (by simp)
    simp only [wordChar, Bool.and_eq_true, decide_eq_true_eq] at hx
    have := ih (w ++ [x]) r (fun c hc => h c (by simp [hc]))
    simp [words, hx, this]

theorem words_gap {s : Txt} (r : Txt) (hne : s ≠ []) (h : ∀ c ∈ s, wordChar c = true) :
    words .gap (s ++ ' ' :: r) = (words .gap r).map (s :: ·) := by
  cases s with
  | nil => exact absurd rfl hne
  | cons x s =>
    have hx := h x (by simp)
    simp only [wordChar, Bool.and_eq_true, decide_eq_true_eq] at hx
    have := words_word s [x] r (fun c hc => h c (by simp [hc]))
    simp [words, hx, this]

/-- Characters that stand for themselves in quotes. -/
def quoteChar (c : Char) : Bool := c ≠ '"' && c ≠ '\\' && c ≠ '$'

theorem words_quote : ∀ (s w : Txt), (∀ c ∈ s, quoteChar c = true) →
    words (.quote w) (s ++ ['"']) = some [w ++ s] := by
  intro s
  induction s with
  | nil => intro w _; simp [words]
  | cons x s ih =>
    intro w h
    have hx := h x (by simp)
    simp only [quoteChar, Bool.and_eq_true, decide_eq_true_eq] at hx
    have := ih (w ++ [x]) (fun c hc => h c (by simp [hc]))
    simp [words, hx, this]

/-! ## parameters -/

/-- `K=V K=V ...` -/
def pairs : List (Name × Name) → Name
  | [] => []
  | [(k, v)] => k ++ ('=' :: v)
  | (k, v) :: p :: l => (k ++ ('=' :: v)) ++ (' ' :: pairs (p :: l))

/-- A key, and a value that may contain commas. -/
def PairOk (p : Name × Name) : Prop := Safe p.1 ∧ ∀ c ∈ p.2, (safeChar c || c = ',') = true

theorem pair_no {p : Name × Name} (h : PairOk p) {c : Char} (hc : safeChar c = false) (h1 : c ≠ ',') : c ∉ p.1 ∧ c ∉ p.2 := by
  refine ⟨safe_ne h.1 hc, fun hm => ?_⟩
  have := h.2 c hm
  simp [hc, h1] at this

theorem read_pair {p : Name × Name} (h : PairOk p) : readParam (p.1 ++ ('=' :: p.2)) = some (p.1, cut ',' p.2) := by
  have := pair_no h (c := '=') (by decide) (by decide)
  unfold readParam
  rw [cut_cons _ this.1, cut_none this.2]

theorem read_pairs : ∀ l : List (Name × Name), l ≠ [] → (∀ p ∈ l, PairOk p) →
    readParams (cut ' ' (pairs l)) = some (l.map fun p => (p.1, cut ',' p.2)) := by
  intro l
  induction l with
  | nil => intro h; exact absurd rfl h
  | cons p l ih =>
    intro _ hs
    obtain ⟨k, v⟩ := p
    have hp := hs (k, v) (by simp)
    have hb := pair_no hp (c := ' ') (by decide) (by decide)
    have hb' : ' ' ∉ k ++ ('=' :: v) := by simpa using hb
    have hr := read_pair hp
    cases l with
    | nil => simp only [pairs]; rw [cut_none hb']; simp [readParams, hr]
    | cons q l =>
      have := ih (by simp) (fun x hx => hs x (by simp [hx]))
      simp only [pairs]
      rw [cut_cons _ hb']
      simp only [readParams, hr, this]
      simp

theorem pairs_quote : ∀ l : List (Name × Name), (∀ p ∈ l, PairOk p) → ∀ c ∈ pairs l, quoteChar c = true ∧ c ≠ '\n' := by
  have hq : ∀ p : Name × Name, PairOk p → ∀ c ∈ p.1 ++ ('=' :: p.2), quoteChar c = true ∧ c ≠ '\n' := by
    intro p h c hc
    have h1 := pair_no h (c := '"') (by decide) (by decide)
    have h2 := pair_no h (c := '\\') (by decide) (by decide)
    have h3 := pair_no h (c := '$') (by decide) (by decide)
    have h4 := pair_no h (c := '\n') (by decide) (by decide)
    have hn : ∀ d, d ∉ p.1 → d ∉ p.2 → d ≠ '=' → c ≠ d := by
      intro d a b e he
      subst he
      simp at hc
      rcases hc with hc | hc | hc
      · exact a hc
      · exact e hc
      · exact b hc
    simp [quoteChar, hn _ h1.1 h1.2 (by decide), hn _ h2.1 h2.2 (by decide), hn _ h3.1 h3.2 (by decide),
      hn _ h4.1 h4.2 (by decide)]
  intro l
  induction l with
  | nil => intro _ c hc; simp [pairs] at hc
  | cons p l ih =>
    obtain ⟨k, v⟩ := p
    intro hs c hc
    have hp := hq (k, v) (hs (k, v) (by simp))
    cases l with
    | nil => exact hp c (by simpa [pairs] using hc)
    | cons q l =>
      have := ih (fun x hx => hs x (by simp [hx]))
      simp only [pairs] at hc
      rcases List.mem_append.1 hc with h | h
      · exact hp c h
      · rcases List.mem_cons.1 h with h | h
        · subst h; decide
        · exact this c h

/-- The pairs of a command. -/
def pairsOf (c : Cmd) : List (Name × Name) :=
  match c.template with
  | .root => [("RootType".toList, c.extra.headD [])]
  | .node => [("NodeName".toList, c.nodeName), ("RootType".toList, c.extra.headD []), ("IsStruct".toList, boolText c.isStruct)]
  | .list => [("NodeName".toList, c.nodeName), ("ListType".toList, c.extra.headD [])]
  | .field => [("NodeName".toList, c.nodeName), ("FieldName".toList, c.fieldName), ("FieldType".toList, c.fieldType),
      ("ResultType".toList, c.resultType), ("FieldNum".toList, dec (c.fieldNum.getD 0)), ("IsStruct".toList, boolText c.isStruct)]
  | .union => [("UnionName".toList, c.nodeName)]
  | .unionAlias => [("UnionName".toList, c.nodeName), ("AliasName".toList, joinComma c.extra)]

/-- The parameters are pairs in quotes, with at most a blank before. -/
theorem params_pairs (c : Cmd) : params c = (if c.template = .unionAlias then [] else [' ']) ++ ('"' :: (pairs (pairsOf c) ++ ['"'])) := by
  unfold params pairsOf
  cases c.template <;> simp [pairs]

/-! ## numbers -/

theorem digit_char : ∀ d : Fin 10, safeChar (Char.ofNat (48 + d.val)) = true ∧ (Char.ofNat (48 + d.val)).toNat = 48 + d.val ∧
    ('0' ≤ Char.ofNat (48 + d.val) && Char.ofNat (48 + d.val) ≤ '9') = true := by decide

theorem digit_of {d : Nat} (h : d < 10) : safeChar (Char.ofNat (48 + d)) = true ∧ (Char.ofNat (48 + d)).toNat = 48 + d ∧
    ('0' ≤ Char.ofNat (48 + d) && Char.ofNat (48 + d) ≤ '9') = true := digit_char ⟨d, h⟩

theorem decN_spec : ∀ k n : Nat, n ≤ k → decN k n ≠ [] ∧ Safe (decN k n) ∧
    (decN k n).all (fun c => '0' ≤ c && c ≤ '9') = true ∧
    (decN k n).foldl (fun a c => a * 10 + (c.toNat - 48)) 0 = n := by
  intro k
  induction k with
  | zero =>
    intro n hn
    obtain ⟨h1, h2, h3⟩ := digit_of (d := n % 10) (by omega)
    have : n = 0 := by omega
    subst this
    exact ⟨by simp [decN], by intro c hc; simp [decN] at hc; subst hc; decide, by decide, by decide⟩
  | succ k ih =>
    intro n hn
    unfold decN
    split
    · rename_i h
      obtain ⟨h1, h2, h3⟩ := digit_of h
      refine ⟨by simp, ?_, ?_, ?_⟩
      · intro c hc; rw [List.mem_singleton.1 hc]; exact h1
      · simpa using h3
      · simp only [List.foldl_cons, List.foldl_nil, h2]; omega
    · rename_i h
      obtain ⟨i1, i2, i3, i4⟩ := ih (n / 10) (by omega)
      obtain ⟨h1, h2, h3⟩ := digit_of (d := n % 10) (by omega)
      refine ⟨by simp, ?_, ?_, ?_⟩
      · refine i2.append ?_
        intro c hc; rw [List.mem_singleton.1 hc]; exact h1
      · rw [List.all_append, i3]; simpa using h3
      · rw [List.foldl_append, i4]
        simp only [List.foldl_cons, List.foldl_nil, h2]; omega

theorem dec_safe (n : Nat) : Safe (dec n) := (decN_spec n n (Nat.le_refl n)).2.1

/-- The printed numeral stands for the number. -/
theorem numeral_dec (n : Nat) : numeral (dec n) = some n := by
  obtain ⟨h1, -, h3, h4⟩ := decN_spec n n (Nat.le_refl n)
  unfold numeral dec
  rw [if_pos ⟨h1, h3⟩, h4]

theorem boolText_safe (b : Bool) : Safe (boolText b) := by cases b <;> decide

/-! ## lines and texts -/

/-- The names of a command say nothing to the readers; a union has members. -/
structure CmdSafe (c : Cmd) : Prop where
  out : Safe c.out
  long : 3 ≤ c.out.length
  dot : '.' ∈ c.out
  nodeName : Safe c.nodeName
  fieldName : Safe c.fieldName
  fieldType : Safe c.fieldType
  resultType : Safe c.resultType
  extra : ∀ e ∈ c.extra, Safe e
  members : c.template = .unionAlias → c.extra ≠ []

theorem pairOk_safe {k v : Name} (hk : Safe k) (hv : Safe v) : PairOk (k, v) :=
  ⟨hk, fun c hc => by simp [hv c hc]⟩

theorem joinComma_chars : ∀ l : List Name, (∀ a ∈ l, Safe a) → ∀ c ∈ joinComma l, (safeChar c || c = ',') = true := by
  intro l
  induction l with
  | nil => intro _ c hc; simp [joinComma] at hc
  | cons a l ih =>
    intro h c hc
    cases l with
    | nil => simp only [joinComma] at hc; simp [h a (by simp) c hc]
    | cons b l =>
      simp only [joinComma] at hc
      rcases List.mem_append.1 hc with hc | hc
      · simp [h a (by simp) c hc]
      · rcases List.mem_cons.1 hc with hc | hc
        · simp [hc]
        · exact ih (fun x hx => h x (by simp [hx])) c hc

theorem headD_safe {l : List Name} (h : ∀ a ∈ l, Safe a) : Safe (l.headD []) := by
  cases l with
  | nil => intro c hc; simp at hc
  | cons a l => exact h a (by simp)

theorem pairsOf_ok {c : Cmd} (h : CmdSafe c) : pairsOf c ≠ [] ∧ (∀ p ∈ pairsOf c, PairOk p) ∧
    (pairsOf c).map (fun p => (p.1, cut ',' p.2)) = (meant c).params := by
  have hx := headD_safe h.extra
  have one : ∀ {v : Name}, Safe v → cut ',' v = [v] := fun hv => cut_none (safe_ne hv (by decide))
  have k1 : Safe "RootType".toList := by decide
  have k2 : Safe "NodeName".toList := by decide
  have k3 : Safe "IsStruct".toList := by decide
  have k4 : Safe "ListType".toList := by decide
  have k5 : Safe "FieldName".toList := by decide
  have k6 : Safe "FieldType".toList := by decide
  have k7 : Safe "ResultType".toList := by decide
  have k8 : Safe "FieldNum".toList := by decide
  have k9 : Safe "UnionName".toList := by decide
  have k10 : Safe "AliasName".toList := by decide
  have hd := dec_safe (c.fieldNum.getD 0)
  have hb := boolText_safe c.isStruct
  have hj : PairOk ("AliasName".toList, joinComma c.extra) := ⟨k10, joinComma_chars _ h.extra⟩
  unfold pairsOf meant
  cases ht : c.template with
  | unionAlias =>
    refine ⟨by simp, ?_, ?_⟩
    · intro p hp
      simp only [List.mem_cons, List.not_mem_nil, or_false] at hp
      rcases hp with rfl | rfl
      · exact pairOk_safe k9 h.nodeName
      · exact hj
    · simp [one h.nodeName, cut_joinComma _ (h.members ht) h.extra]
  | _ =>
    refine ⟨by simp, ?_, by simp only [List.map_cons, List.map_nil, one h.nodeName, one hx, one hd, one hb, one h.fieldName, one h.fieldType, one h.resultType]⟩
    simp only [List.forall_mem_cons, List.not_mem_nil, false_implies, implies_true, and_true,
      pairOk_safe k1 hx, pairOk_safe k2 h.nodeName, pairOk_safe k3 hb, pairOk_safe k4 hx, pairOk_safe k5 h.fieldName,
      pairOk_safe k6 h.fieldType, pairOk_safe k7 h.resultType, pairOk_safe k8 hd, pairOk_safe k9 h.nodeName]

theorem safe_word {s : Name} (h : Safe s) : ∀ c ∈ s, wordChar c = true := by
  intro c hc
  have := h c hc
  simp only [safeChar, Bool.and_eq_true, decide_eq_true_eq] at this
  simp [wordChar, this]

theorem safe_file (t : Template) : Safe t.file := by cases t <;> decide

/-- A printed line without its line end. -/
theorem line_words (c : Cmd) : lineStart c ++ params c = "//go:generate ".toList ++ ("go".toList ++ ' ' ::
    ("run".toList ++ ' ' :: ("github.com/cheekybits/genny".toList ++ ' ' :: (("-in=".toList ++ ("../genny/".toList ++ c.template.file)) ++ ' ' ::
    (("-out=".toList ++ ("../".toList ++ c.out)) ++ ' ' :: (' ' :: ("gen".toList ++ ' ' :: params c))))))) := by
  have e1 : "//go:generate go run github.com/cheekybits/genny -in=../genny/".toList = "//go:generate ".toList ++ ("go".toList ++
      (' ' :: ("run".toList ++ (' ' :: ("github.com/cheekybits/genny".toList ++ (' ' :: ("-in=".toList ++ "../genny/".toList))))))) := by
    decide
  have e2 : " -out=../".toList = ' ' :: ("-out=".toList ++ "../".toList) := by decide
  have e3 : "  gen ".toList = ' ' :: ' ' :: ("gen".toList ++ [' ']) := by decide
  unfold lineStart
  rw [e1, e2, e3]
  simp only [List.append_assoc, List.cons_append, List.nil_append]

theorem word_append {a b : Name} (ha : ∀ c ∈ a, wordChar c = true) (hb : ∀ c ∈ b, wordChar c = true) :
    ∀ c ∈ a ++ b, wordChar c = true := by
  intro c hc
  rcases List.mem_append.1 hc with h | h
  · exact ha c h
  · exact hb c h

/-- A printed line is read as the call it stands for. -/
theorem line_read {c : Cmd} (h : CmdSafe c) : ∃ s, strip "//go:generate ".toList (lineStart c ++ params c) = some s ∧
    readCall s = some (meant c) := by
  rw [line_words]
  refine ⟨_, strip_append _ _, ?_⟩
  obtain ⟨p1, p2, p3⟩ := pairsOf_ok h
  have hq : words (.quote []) (pairs (pairsOf c) ++ ['"']) = some [pairs (pairsOf c)] :=
    words_quote _ [] (fun x hx => (pairs_quote _ p2 x hx).1)
  have hp : words .gap (params c) = some [pairs (pairsOf c)] := by
    rw [params_pairs]
    split
    · simp only [List.nil_append]; rw [words]; simpa using hq
    · simp only [List.cons_append, List.nil_append]; rw [words]; simp only [true_or, if_true]; rw [words]; simpa using hq
  have hg : ∀ r : Txt, words .gap (' ' :: r) = words .gap r := fun r => by rw [words]; simp
  unfold readCall
  rw [words_gap _ (by decide) (by decide), words_gap _ (by decide) (by decide), words_gap _ (by decide) (by decide),
    words_gap _ (by simp) (word_append (by decide) (word_append (by decide) (safe_word (safe_file _)))),
    words_gap _ (by simp) (word_append (by decide) (word_append (by decide) (safe_word h.out))), hg,
    words_gap _ (by decide) (by decide), hp]
  simp only [Option.map_some, and_self, if_true, strip_append, read_pairs _ p1 p2, p3]
  rfl

theorem line_no_end {c : Cmd} (h : CmdSafe c) : '\n' ∉ lineStart c ++ params c := by
  obtain ⟨-, p2, -⟩ := pairsOf_ok h
  have h1 : '\n' ∉ c.out := safe_ne h.out (by decide)
  have h2 : '\n' ∉ c.template.file := safe_ne (safe_file _) (by decide)
  have h3 : '\n' ∉ pairs (pairsOf c) := fun hm => (pairs_quote _ p2 _ hm).2 rfl
  rw [params_pairs]
  have e1 : '\n' ∉ "//go:generate go run github.com/cheekybits/genny -in=../genny/".toList := by decide
  have e2 : '\n' ∉ " -out=../".toList := by decide
  have e3 : '\n' ∉ "  gen ".toList := by decide
  unfold lineStart
  intro hm
  simp only [List.mem_append, List.mem_cons, List.not_mem_nil, or_false] at hm
  split at hm <;> simp_all

theorem lines_read : ∀ cs : List Cmd, (∀ c ∈ cs, CmdSafe c) → readLines (cut '\n' (cs.flatMap renderCmd)) = some (cs.map meant) := by
  intro cs
  induction cs with
  | nil => intro _; decide
  | cons c cs ih =>
    intro h
    have hc := h c (by simp)
    obtain ⟨s, s1, s2⟩ := line_read hc
    have e : (c :: cs).flatMap renderCmd = (lineStart c ++ params c) ++ '\n' :: cs.flatMap renderCmd := by
      simp [renderCmd]
    rw [e, cut_cons _ (line_no_end hc)]
    simp only [readLines, s1, s2, ih (fun x hx => h x (by simp [hx])), List.map_cons]

/-- The first part of the file holds no command. -/
theorem head_read (r : Txt) : readText (headText ++ r) = readLines (cut '\n' r) := by
  have e : headText = "\n\tpackage main\n\timport (\n\t\t_ \"github.com/cheekybits/genny\"\n\t)\n\t\n\t\n".toList ++ ['\n'] := by decide
  have e2 : cut '\n' "\n\tpackage main\n\timport (\n\t\t_ \"github.com/cheekybits/genny\"\n\t)\n\t\n\t\n".toList =
    ["".toList, "\tpackage main".toList, "\timport (".toList, "\t\t_ \"github.com/cheekybits/genny\"".toList, "\t)".toList,
     "\t".toList, "\t".toList, "".toList] := by decide
  unfold readText
  rw [e, List.append_assoc, List.singleton_append, cut_append, e2]
  simp [readLines, strip]

theorem cmds_read (cs : List Cmd) (h : ∀ c ∈ cs, CmdSafe c) :
    readText (headText ++ cs.flatMap renderCmd) = some (cs.map meant) := by
  rw [head_read, lines_read cs h]

/-! ## names of schemas -/

/-- The names of a schema say nothing to the readers; unions have members. -/
structure StSafe (st : FbsSt) : Prop where
  root : Safe st.rootType
  structs : ∀ s ∈ st.structs, Safe s.name ∧ ∀ f ∈ s.fields, Safe f.name ∧ Safe f.type
  unions : ∀ u ∈ st.unions, Safe u.name ∧ u.aliases ≠ [] ∧ ∀ a ∈ u.aliases, Safe a

theorem replByteN_safe : ∀ (n : Nat) (s : Name), Safe s → Safe (replByteN n s) := by
  intro n
  induction n with
  | zero => intro s h; exact h
  | succ n ih =>
    intro s h
    cases s with
    | nil => exact h
    | cons c s =>
      unfold replByteN
      split
      · exact Safe.append (by decide) (ih _ (h.drop 6))
      · intro d hd
        rcases List.mem_cons.1 hd with rfl | hd
        · exact h _ (by simp)
        · exact ih s (fun x hx => h x (by simp [hx])) d hd

theorem convResultType_safe {s : Name} (h : Safe s) : Safe (convResultType s) := by
  have hr := replByteN_safe s.length s h
  unfold convResultType
  split
  · exact hr
  · split
    · exact (hr.drop 2).append (by decide)
    · exact hr

theorem resultTypeOf_safe {s r : Name} (h : Safe s) (e : resultTypeOf s = some r) : Safe r := by
  unfold resultTypeOf at e
  split at e
  · cases e; decide
  · split at e
    · cases e
    · split at e
      · cases e; decide
      · cases e; exact convResultType_safe h
    · cases e; exact h

theorem safe_nil : Safe [] := by decide

theorem genFields_safe (st : FbsSt) (info : StructInfo) (hn : Safe info.name) : ∀ (fs : List Field) (n : Nat) (cs : List Cmd),
    genFields st info n fs = some cs → (∀ f ∈ fs, Safe f.name ∧ Safe f.type) → ∀ c ∈ cs, CmdSafe c := by
  intro fs
  induction fs with
  | nil => intro n cs h _ c hc; simp [genFields] at h; subst h; simp at hc
  | cons f fs ih =>
    intro n cs h hs c hc
    simp only [genFields] at h
    split at h
    · cases h
    · rename_i d hd
      split at h
      · cases h
      · rename_i ds hds
        simp only [Option.some.injEq] at h
        subst h
        rcases List.mem_cons.1 hc with rfl | hc
        · obtain ⟨f1, f2⟩ := hs f (by simp)
          unfold genField at hd
          split at hd
          · cases hd
          · rename_i r hr
            simp only [Option.some.injEq] at hd
            subst hd
            exact ⟨((hn.append (by decide)).append f1).append (by decide), (by simp; omega), (by simp), hn, f1, f2, resultTypeOf_safe f2 hr, by simp, by simp⟩
        · exact ih _ _ hds (fun g hg => hs g (by simp [hg])) c hc

theorem genStructs_safe (st : FbsSt) (filter : Name) (hr : Safe st.rootType) : ∀ (ss : List StructInfo) (cs : List Cmd),
    genStructs st filter ss = some cs → (∀ s ∈ ss, Safe s.name ∧ ∀ f ∈ s.fields, Safe f.name ∧ Safe f.type) →
    ∀ c ∈ cs, CmdSafe c := by
  intro ss
  induction ss with
  | nil => intro cs h _ c hc; simp [genStructs] at h; subst h; simp at hc
  | cons s ss ih =>
    intro cs h hs c hc
    obtain ⟨s1, s2⟩ := hs s (by simp)
    have hs' : ∀ t ∈ ss, Safe t.name ∧ ∀ f ∈ t.fields, Safe f.name ∧ Safe f.type := fun t ht => hs t (by simp [ht])
    simp only [genStructs] at h
    split at h
    · exact ih cs h hs' c hc
    · split at h
      · cases h
      · rename_i a ha
        split at h
        · cases h
        · rename_i b hb
          simp only [Option.some.injEq] at h
          subst h
          rcases List.mem_append.1 hc with hc | hc
          · rcases List.mem_append.1 hc with hc | hc
            · simp only [genHead, List.mem_cons, List.not_mem_nil, or_false] at hc
              rcases hc with rfl | rfl
              · exact ⟨s1.append (by decide), (by simp), (by simp), s1, safe_nil, safe_nil, safe_nil, by simpa using hr, by simp⟩
              · exact ⟨s1.append (by decide), (by simp), (by simp), s1, safe_nil, safe_nil, safe_nil,
                  by intro e he; rw [List.mem_singleton.1 he]; exact s1.append (by decide), by simp⟩
            · exact genFields_safe st s s1 _ _ _ ha s2 c hc
          · exact ih b hb hs' c hc

theorem genUnions_safe (filter : Name) : ∀ us : List Union,
    (∀ u ∈ us, Safe u.name ∧ u.aliases ≠ [] ∧ ∀ a ∈ u.aliases, Safe a) → ∀ c ∈ genUnions filter us, CmdSafe c := by
  intro us
  induction us with
  | nil => intro _ c hc; simp [genUnions] at hc
  | cons u us ih =>
    intro hs c hc
    obtain ⟨u1, u2, u3⟩ := hs u (by simp)
    have ih' := ih (fun t ht => hs t (by simp [ht]))
    simp only [genUnions] at hc
    split at hc
    · exact ih' c hc
    · rcases List.mem_cons.1 hc with rfl | hc
      · exact ⟨u1.append (by decide), (by simp), (by simp), u1, safe_nil, safe_nil, safe_nil, by simp, by simp⟩
      · rcases List.mem_cons.1 hc with rfl | hc
        · exact ⟨u1.append (by decide), (by simp), (by simp), u1, safe_nil, safe_nil, safe_nil, u3, fun _ => u2⟩
        · exact ih' c hc

theorem makeGen_safe {st : FbsSt} {filter : Name} {cs : List Cmd} (h : makeGen st filter = some cs) (hs : StSafe st) :
    ∀ c ∈ cs, CmdSafe c := by
  unfold makeGen at h
  split at h
  · cases h
  · rename_i b hb
    simp only [Option.some.injEq] at h
    subst h
    intro c hc
    rcases List.mem_append.1 hc with hc | hc
    · rcases List.mem_cons.1 hc with rfl | hc
      · exact ⟨(by decide : Safe "root.go".toList), (by simp), (by simp), safe_nil, safe_nil, safe_nil, safe_nil, by simpa using hs.root, by simp⟩
      · exact genStructs_safe st filter hs.root _ _ hb hs.structs c hc
    · exact genUnions_safe filter _ hs.unions c hc

/-- C115: for every schema state whose names contain no blank, tab, line end, quote, backslash, `$`, `,`, `=` or `/`
and whose unions have members, the text is read as exactly the commands, in their order. -/
theorem text_read_partial (st : FbsSt) (filter : Name) (cs : List Cmd) (h : makeGen st filter = some cs) (hs : StSafe st) :
    ∃ t, genText st filter = some t ∧ readText t = some (cs.map meant) :=
  ⟨headText ++ cs.flatMap renderCmd, by simp [genText, h], cmds_read cs (makeGen_safe h hs)⟩

/-! ## from schema text -/

theorem path_safe {c : Char} (h : isPath c = true) (hb : c ≠ '\\') : safeChar c = true := by
  have hn : ∀ d, isPath d = false → c ≠ d := fun d hd e => by rw [e, hd] at h; cases h
  simp [safeChar, hb, hn ' ' (by decide), hn '\t' (by decide), hn '\n' (by decide), hn '"' (by decide),
    hn '$' (by decide), hn ',' (by decide), hn '=' (by decide), hn '/' (by decide)]

theorem ident_path {c : Char} (h : isIdent c = true) : isPath c = true ∧ c ≠ '\\' := by
  refine ⟨?_, fun e => by rw [e] at h; revert h; decide⟩
  simp only [isIdent, isIdent0, Bool.or_eq_true, Bool.and_eq_true, decide_eq_true_eq] at h
  simp only [isPath, Bool.or_eq_true, Bool.and_eq_true, decide_eq_true_eq]
  have a1 : 'A' ≤ 'a' := by decide
  have a2 : 'Z' ≤ 'z' := by decide
  rcases h with ((h | h) | h) | h
  · exact .inl (.inl (.inl (.inl ⟨Char.le_trans a1 h.1, h.2⟩)))
  · exact .inl (.inl (.inl (.inl ⟨h.1, Char.le_trans h.2 a2⟩)))
  · exact .inl (.inl (.inr h))
  · exact .inl (.inl (.inl (.inr h)))

theorem ident_chars {n : Name} (h : IsIdent n) : ∀ c ∈ n, isIdent c = true := by
  cases n with
  | nil => cases h
  | cons x n =>
    intro c hc
    rcases List.mem_cons.1 hc with rfl | hc
    · exact isIdent_of_isIdent0 h.1
    · exact h.2 c hc

theorem ident_safe {n : Name} (h : IsIdent n) : Safe n := fun c hc =>
  path_safe (ident_path (ident_chars h c hc)).1 (ident_path (ident_chars h c hc)).2

theorem ident_case : ∀ n : Fin 128, isIdent (Char.ofNat n) = true →
    safeChar (Char.ofNat n).toUpper = true ∧ safeChar (Char.ofNat n).toLower = true := by decide +kernel

theorem ident_small {c : Char} (h : isIdent c = true) : c.toNat < 128 := by
  have hp := (ident_path h).1
  simp only [isPath, isDigit, Bool.or_eq_true, Bool.and_eq_true, decide_eq_true_eq] at hp
  have hz : ∀ d : Char, c ≤ d → c.toNat ≤ d.toNat := fun d hd => hd
  rcases hp with (((hp | hp) | rfl) | rfl) | rfl
  · have := hz _ hp.2; have e : 'z'.toNat = 122 := rfl; omega
  · have := hz _ hp.2; have e : '9'.toNat = 57 := rfl; omega
  all_goals decide

theorem camel_safe : ∀ (n : Name) (up : Bool), (∀ c ∈ n, isIdent c = true) → Safe (camel up n) := by
  intro n
  induction n with
  | nil => intro up _; exact safe_nil
  | cons x n ih =>
    intro up h
    have hr : ∀ up, Safe (camel up n) := fun up => ih up (fun c hc => h c (by simp [hc]))
    have hx := h x (by simp)
    have hc := ident_case ⟨x.toNat, ident_small hx⟩ (by simpa using hx)
    simp only [Char.ofNat_toNat] at hc
    unfold camel
    split
    · exact hr true
    · intro d hd
      rcases List.mem_cons.1 hd with rfl | hd
      · split
        · exact hc.1
        · exact hc.2
      · exact hr false d hd

theorem ty_safe : ∀ t : Schema.Ty, t.ok → Safe t.val := by
  intro t
  induction t with
  | basic kw go sp =>
    intro h
    have : ∀ b ∈ basicNames, Safe b.2 := by decide
    exact this _ h.1
  | str sp => intro _; exact (by decide : Safe "[]byte".toList)
  | user n sp => intro h; exact ident_safe h.1
  | list t sp ih => intro h; exact Safe.append (by decide) (ih h.1)

/-- What is declared has safe names, except for a root type with a backslash. -/
structure MeaningSafe (m : Meaning) : Prop where
  structs : ∀ s ∈ m.structs, Safe s.name ∧ ∀ f ∈ s.fields, Safe f.name ∧ Safe f.type
  unions : ∀ u ∈ m.unions, Safe u.name ∧ u.aliases ≠ [] ∧ ∀ a ∈ u.aliases, Safe a
  root : '\\' ∉ m.rootType → Safe m.rootType

theorem meaning_add_safe {m : Meaning} {d : Decl} (hm : MeaningSafe m) (hd : d.ok) : MeaningSafe (m.add d) := by
  cases d with
  | nameSpace sp1 q sp2 => exact ⟨hm.structs, hm.unions, hm.root⟩
  | root sp1 q sp2 => exact ⟨hm.structs, hm.unions, fun hb c hc => path_safe (hd.2.1.2 c hc) (fun e => hb (e ▸ hc))⟩
  | struct t sp1 n sp2 ms spIn f fs sp3 =>
    obtain ⟨-, h2, -, -, -, h6, h7, -⟩ := hd
    refine ⟨?_, hm.unions, hm.root⟩
    intro s hs
    simp only [Meaning.add, List.mem_append, List.mem_singleton] at hs
    rcases hs with hs | rfl
    · exact hm.structs s hs
    · refine ⟨ident_safe h2, ?_⟩
      intro g hg
      obtain ⟨a, ha, rfl⟩ := List.mem_map.1 hg
      have hok : a.ok := by
        rcases List.mem_cons.1 ha with rfl | ha
        · exact h6
        · exact h7 a ha
      exact ⟨camel_safe _ _ (ident_chars hok.1), ty_safe _ hok.2.2.1⟩
  | union sp1 n sp2 ms init last sp3 =>
    obtain ⟨-, h2, -, -, h5, h6, -⟩ := hd
    refine ⟨hm.structs, ?_, hm.root⟩
    intro u hu
    simp only [Meaning.add, List.mem_append, List.mem_singleton] at hu
    rcases hu with hu | rfl
    · exact hm.unions u hu
    · refine ⟨ident_safe h2, by simp, ?_⟩
      intro a ha
      obtain ⟨b, hb, rfl⟩ := List.mem_map.1 ha
      rcases List.mem_append.1 hb with hb | hb
      · exact ident_safe (h5 b hb).2.1
      · rw [List.mem_singleton.1 hb]; exact ident_safe h6.2.1
  | misc => exact hm
  | empty => exact hm

theorem meaning_safe (ds : List Decl) (hd : ∀ d ∈ ds, d.ok) : MeaningSafe (meaning ds) := by
  have : ∀ (ds : List Decl) (m : Meaning), MeaningSafe m → (∀ d ∈ ds, d.ok) → MeaningSafe (ds.foldl Meaning.add m) := by
    intro ds
    induction ds with
    | nil => intro m h _; exact h
    | cons d ds ih =>
      intro m h hd
      exact ih _ (meaning_add_safe h (hd d (by simp))) (fun x hx => hd x (by simp [hx]))
  exact this ds {} ⟨by simp, by simp, fun _ => safe_nil⟩ hd

theorem finField_safe {st : FbsSt} {f : Field} {a : List Field} (h : finField st f = some a) (hf : Safe f.name ∧ Safe f.type) :
    ∀ g ∈ a, Safe g.name ∧ Safe g.type := by
  have : a = [f] ∨ a = [⟨f.name ++ "Type".toList, "byte".toList⟩, f] := by
    unfold finField at h
    split at h
    · cases h
    · split at h
      · split at h
        · cases h
        · simp only [Option.some.injEq] at h; exact .inl h.symm
      · split at h
        · split at h
          · simp only [Option.some.injEq] at h; exact .inr h.symm
          · simp only [Option.some.injEq] at h; exact .inl h.symm
        · simp only [Option.some.injEq] at h; exact .inl h.symm
  intro g hg
  rcases this with rfl | rfl
  · rw [List.mem_singleton.1 hg]; exact hf
  · simp only [List.mem_cons, List.not_mem_nil, or_false] at hg
    rcases hg with rfl | rfl
    · exact ⟨hf.1.append (by decide), (by decide : Safe "byte".toList)⟩
    · exact hf

theorem finFields_safe (st : FbsSt) : ∀ fs out : List Field, finFields st fs = some out →
    (∀ f ∈ fs, Safe f.name ∧ Safe f.type) → ∀ g ∈ out, Safe g.name ∧ Safe g.type := by
  intro fs
  induction fs with
  | nil => intro out h _ g hg; simp [finFields] at h; subst h; simp at hg
  | cons f fs ih =>
    intro out h hs g hg
    simp only [finFields] at h
    split at h
    · cases h
    · rename_i a ha
      split at h
      · cases h
      · rename_i b hb
        simp only [Option.some.injEq] at h
        subst h
        rcases List.mem_append.1 hg with hg | hg
        · exact finField_safe ha (hs f (by simp)) g hg
        · exact ih b hb (fun x hx => hs x (by simp [hx])) g hg

theorem finStructs_safe (st : FbsSt) : ∀ ss out : List StructInfo, finStructs st ss = some out →
    (∀ s ∈ ss, Safe s.name ∧ ∀ f ∈ s.fields, Safe f.name ∧ Safe f.type) →
    ∀ s ∈ out, Safe s.name ∧ ∀ f ∈ s.fields, Safe f.name ∧ Safe f.type := by
  intro ss
  induction ss with
  | nil => intro out h _ g hg; simp [finStructs] at h; subst h; simp at hg
  | cons s ss ih =>
    intro out h hs g hg
    simp only [finStructs] at h
    split at h
    · cases h
    · rename_i a ha
      split at h
      · cases h
      · rename_i b hb
        simp only [Option.some.injEq] at h
        subst h
        obtain ⟨s1, s2⟩ := hs s (by simp)
        rcases List.mem_cons.1 hg with rfl | hg
        · exact ⟨s1, finFields_safe st _ _ ha s2⟩
        · exact ih b hb (fun x hx => hs x (by simp [hx])) g hg

theorem finalize_safe {st st' : FbsSt} (h : st.finalize = some st') (hs : StSafe st) : StSafe st' := by
  unfold FbsSt.finalize at h
  split at h
  · cases h
  · rename_i ss hss
    simp only [Option.some.injEq] at h
    subst h
    exact ⟨hs.root, finStructs_safe st _ _ hss hs.structs, hs.unions⟩

/-! ## the files of fields -/

theorem genFields_out (st : FbsSt) (info : StructInfo) : ∀ (fs : List Field) (n : Nat) (cs : List Cmd),
    genFields st info n fs = some cs → ∀ c ∈ cs, c.out = c.nodeName ++ ['.'] ++ c.fieldName ++ ".gen.go".toList := by
  intro fs
  induction fs with
  | nil => intro n cs h c hc; simp [genFields] at h; subst h; simp at hc
  | cons f fs ih =>
    intro n cs h c hc
    simp only [genFields] at h
    split at h
    · cases h
    · rename_i d hd
      split at h
      · cases h
      · rename_i ds hds
        simp only [Option.some.injEq] at h
        subst h
        rcases List.mem_cons.1 hc with rfl | hc
        · unfold genField at hd
          split at hd
          · cases hd
          · simp only [Option.some.injEq] at hd
            subst hd; rfl
        · exact ih _ _ hds c hc

theorem genUnions_templates (filter : Name) : ∀ us : List Union, ∀ c ∈ genUnions filter us,
    c.template = .union ∨ c.template = .unionAlias := by
  intro us
  induction us with
  | nil => intro c hc; simp [genUnions] at hc
  | cons u us ih =>
    intro c hc
    simp only [genUnions] at hc
    split at hc
    · exact ih c hc
    · rcases List.mem_cons.1 hc with rfl | hc
      · exact .inl rfl
      · rcases List.mem_cons.1 hc with rfl | hc
        · exact .inr rfl
        · exact ih c hc

theorem makeGen_out {st : FbsSt} {filter : Name} {cs : List Cmd} (h : makeGen st filter = some cs) :
    ∀ c ∈ cs, c.template = .field → c.out = c.nodeName ++ ['.'] ++ c.fieldName ++ ".gen.go".toList := by
  have hs : ∀ (ss : List StructInfo) (cs : List Cmd), genStructs st filter ss = some cs →
      ∀ c ∈ cs, c.template = .field → c.out = c.nodeName ++ ['.'] ++ c.fieldName ++ ".gen.go".toList := by
    intro ss
    induction ss with
    | nil => intro cs h c hc; simp [genStructs] at h; subst h; simp at hc
    | cons s ss ih =>
      intro cs h c hc ht
      simp only [genStructs] at h
      split at h
      · exact ih cs h c hc ht
      · split at h
        · cases h
        · rename_i a ha
          split at h
          · cases h
          · rename_i b hb
            simp only [Option.some.injEq] at h
            subst h
            rcases List.mem_append.1 hc with hc | hc
            · rcases List.mem_append.1 hc with hc | hc
              · simp only [genHead, List.mem_cons, List.not_mem_nil, or_false] at hc
                rcases hc with rfl | rfl <;> cases ht
              · exact genFields_out st s _ _ _ ha c hc
            · exact ih b hb c hc ht
  unfold makeGen at h
  split at h
  · cases h
  · rename_i b hb
    simp only [Option.some.injEq] at h
    subst h
    intro c hc ht
    rcases List.mem_append.1 hc with hc | hc
    · rcases List.mem_cons.1 hc with rfl | hc
      · cases ht
      · exact hs _ _ hb c hc ht
    · rcases (genUnions_templates filter st.unions) c hc with e | e <;> rw [e] at ht <;> cases ht

/-- The commands of a printable schema whose root type has no backslash have safe names. -/
theorem schema_cmds_safe (ds : List Decl) (hne : ds ≠ []) (hd : ∀ d ∈ ds, d.ok) (hroot : '\\' ∉ (meaning ds).rootType)
    (filter : Name) (cs : List Cmd) (hcs : mainGen (ds.flatMap Decl.chars) filter = some cs) : ∀ c ∈ cs, CmdSafe c := by
  obtain ⟨st, h1, -, h3, h4, h5⟩ := parse_print ds hne hd
  have hm := meaning_safe ds hd
  have hst : StSafe st := ⟨by rw [h3]; exact hm.root hroot, by rw [h4]; exact hm.structs, by rw [h5]; exact hm.unions⟩
  unfold mainGen at hcs
  rw [h1] at hcs
  simp only at hcs
  split at hcs
  · cases hcs
  · rename_i st' hst'
    exact makeGen_safe hcs (finalize_safe hst' hst)

/-- C115 from schema text: for every printable schema whose root type contains no backslash, and every filter, if
fbs-query prints a text at all it is read as exactly the commands. -/
theorem text_schema_partial (ds : List Decl) (hne : ds ≠ []) (hd : ∀ d ∈ ds, d.ok) (hroot : '\\' ∉ (meaning ds).rootType)
    (filter : Name) (cs : List Cmd) (hcs : mainGen (ds.flatMap Decl.chars) filter = some cs) :
    ∃ t, mainText (some (ds.flatMap Decl.chars)) filter = some t ∧ readText t = some (cs.map meant) := by
  have ha : Tape.main (some (ds.flatMap Decl.chars)) filter = some cs := by
    rw [(accepted_main _ filter (accepted_print ds hne hd).1).2, hcs]
  exact ⟨_, by unfold mainText; rw [ha], cmds_read cs (schema_cmds_safe ds hne hd hroot filter cs hcs)⟩

theorem meant_field {c : Cmd} (h : c.template = .field) : (meant c).input = "../genny/field.go".toList ∧
    (meant c).output = "../".toList ++ c.out ∧ (meant c).param "NodeName" = some [c.nodeName] ∧
    (meant c).param "FieldName" = some [c.fieldName] ∧ (meant c).param "FieldType" = some [c.fieldType] ∧
    (meant c).param "FieldNum" = some [dec (c.fieldNum.getD 0)] := by
  obtain ⟨tm, out, nn, fn, ft, rt, num, st, ex⟩ := c
  simp only at h
  subst h
  have lk : ∀ (k : Name) (v : List Name) (l : List (Name × List Name)), ((k, v) :: l).lookup k = some v := by
    intro k v l; simp [List.lookup]
  have sk : ∀ (k k' : Name) (v : List Name) (l : List (Name × List Name)), k ≠ k' → ((k', v) :: l).lookup k = l.lookup k := by
    intro k k' v l h
    have : (k == k') = false := by simpa using h
    simp [List.lookup, this]
  have e : ∀ k : String, Call.param (meant ⟨.field, out, nn, fn, ft, rt, num, st, ex⟩) k =
    [("NodeName".toList, [nn]), ("FieldName".toList, [fn]), ("FieldType".toList, [ft]), ("ResultType".toList, [rt]),
      ("FieldNum".toList, [dec (num.getD 0)]), ("IsStruct".toList, [boolText st])].lookup k.toList := fun _ => rfl
  refine ⟨(by decide : "../genny/".toList ++ Template.field.file = "../genny/field.go".toList), rfl, ?_, ?_, ?_, ?_⟩
  · rw [e, lk]
  · rw [e, sk _ _ _ _ (by decide), lk]
  · rw [e, sk _ _ _ _ (by decide), sk _ _ _ _ (by decide), lk]
  · rw [e, sk _ _ _ _ (by decide), sk _ _ _ _ (by decide), sk _ _ _ _ (by decide), sk _ _ _ _ (by decide), lk]

/-- C115 with C64, C66 and C68, from schema text to what genny is told: for every declared field there is a call
with the field template, the file named after table and field, and the names, the type and the flatbuffers slot
of the field. -/
theorem text_fields_partial (ds : List Decl) (hne : ds ≠ []) (hd : ∀ d ∈ ds, d.ok) (hroot : '\\' ∉ (meaning ds).rootType)
    (hlen : ∀ s ∈ (meaning ds).structs, ∀ f ∈ s.fields,
      2 ≤ f.type.length ∧ (f.type.take 2 = "[]".toList → 3 ≤ f.type.length))
    (hup : ∀ u ∈ (meaning ds).unions, isUpperStr (u.name.take 1) = true)
    (hvec : ∀ s ∈ (meaning ds).structs, ∀ f ∈ s.fields, ∀ u ∈ (meaning ds).unions, f.type ≠ "[]".toList ++ u.name)
    (hbr : ∀ u ∈ (meaning ds).unions, u.name.take 2 ≠ "[]".toList) :
    ∃ t calls, mainText (some (ds.flatMap Decl.chars)) [] = some t ∧ readText t = some calls ∧
      ∀ s ∈ (meaning ds).structs, ∀ (k : Nat) (f : Field), s.fields[k]? = some f →
        ∃ c ∈ calls, c.input = "../genny/field.go".toList ∧
          c.output = "../".toList ++ (s.name ++ ['.'] ++ f.name ++ ".gen.go".toList) ∧
          c.param "NodeName" = some [s.name] ∧ c.param "FieldName" = some [f.name] ∧ c.param "FieldType" = some [f.type] ∧
          ∃ n, c.param "FieldNum" = some [n] ∧ numeral n = some (slotOf (twoSlots (meaning ds).unions) s.fields k f) := by
  obtain ⟨cs, hcs, hf⟩ := gen_schema_partial ds hne hd hlen hup hvec hbr
  obtain ⟨t, ht, hr⟩ := text_schema_partial ds hne hd hroot [] cs hcs
  have hout : ∀ c ∈ cs, c.template = .field → c.out = c.nodeName ++ ['.'] ++ c.fieldName ++ ".gen.go".toList := by
    unfold mainGen at hcs
    split at hcs
    · cases hcs
    · split at hcs
      · cases hcs
      · exact makeGen_out hcs
  refine ⟨t, cs.map meant, ht, hr, ?_⟩
  intro s hs k f hk
  obtain ⟨c, hc, c1, c2, c3, c4, c5⟩ := hf s hs k f hk
  have ho := hout c hc c1
  obtain ⟨m1, m2, m3, m4, m5, m6⟩ := meant_field c1
  rw [ho, c2, c3] at m2
  rw [c2] at m3
  rw [c3] at m4
  rw [c4] at m5
  rw [c5] at m6
  exact ⟨meant c, List.mem_map_of_mem hc, m1, m2, m3, m4, m5, _, m6, numeral_dec _⟩

/-- Non-vacuity: the text of the sample schema, and the slots it gives to genny. -/
example : (mainText (some (sampleDecls.flatMap Decl.chars)) []).bind (fun t => (readText t).map fun cs =>
    (cs.filterMap fun c => c.param "FieldNum").map (fun l => numeral (l.headD []))) =
    some [some 0, some 1, some 2, some 3] := by decide +kernel

/-! ## violations -/

/-- C115 is violated by root types with a backslash, which the grammar takes for a letter (`[A-z]`): the name
arrives changed, or the file cannot be read at all. -/
theorem text_backslash_fails :
    (mainText (some "table Ab { x:int; } root_type A\\b;".toList) []).isSome = true ∧
    ((mainText (some "table Ab { x:int; } root_type A\\b;".toList) []).bind readText).bind
      (fun cs => cs.head?.bind fun c => c.param "RootType") = some [['A', Char.ofNat 8]] ∧
    (mainText (some "table Ab { x:int; } root_type A\\c;".toList) []).isSome = true ∧
    (mainText (some "table Ab { x:int; } root_type A\\c;".toList) []).bind readText = none := by decide +kernel

end Fbs.Props
