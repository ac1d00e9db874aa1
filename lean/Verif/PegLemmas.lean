import Verif.Peg
/-!
# Lemmas about the PEG operators and the grammar rules
-/

namespace Fbs.Peg
open Fbs

theorem seq_some {p q : Rule} {s r r' : Name} {a b : List Tok} (hp : p s = some (a, r)) (hq : q r = some (b, r')) :
    (p ⋄ q) s = some (a ++ b, r') := by simp [seq, hp, hq]

theorem seq_none_left {p q : Rule} {s : Name} (hp : p s = none) : (p ⋄ q) s = none := by simp [seq, hp]

theorem seq_none_right {p q : Rule} {s r : Name} {a : List Tok} (hp : p s = some (a, r)) (hq : q r = none) :
    (p ⋄ q) s = none := by simp [seq, hp, hq]

theorem alt_left {p q : Rule} {s : Name} {x : List Tok × Name} (hp : p s = some x) : (p // q) s = some x := by
  simp [alt, hp]

theorem alt_right {p q : Rule} {s : Name} (hp : p s = none) : (p // q) s = q s := by simp [alt, hp]

theorem lit_append (l r : Name) : lit l (l ++ r) = some ([], r) := by
  induction l with
  | nil => rfl
  | cons c l ih => simp [lit, ih]

theorem lit_isSome_iff (l : Name) : ∀ s, (lit l s).isSome = true ↔ l <+: s := by
  induction l with
  | nil => intro s; simp [lit]
  | cons c l ih =>
    intro s
    cases s with
    | nil => simp [lit]
    | cons d s =>
      simp only [lit]
      by_cases h : d = c
      · subst h; simp [ih]
      · simp [h, Ne.symm h]

theorem lit_none {l s : Name} (h : ¬ l <+: s) : lit l s = none := by
  cases hh : lit l s with
  | none => rfl
  | some x => exact absurd ((lit_isSome_iff l s).1 (by rw [hh]; rfl)) h

theorem lit_head {c d : Char} {l s : Name} (h : d ≠ c) : lit (c :: l) (d :: s) = none := by simp [lit, h]

theorem manyN_items {α : Type} {p : Rule} (pr : α → Name) (tk : α → List Tok) {rest : Name} (hrest : p rest = none) :
    ∀ (xs : List α) (n : Nat), xs.length ≤ n →
      (∀ pre x post, xs = pre ++ x :: post →
        p (pr x ++ (post.flatMap pr ++ rest)) = some (tk x, post.flatMap pr ++ rest)) →
      manyN p n (xs.flatMap pr ++ rest) = some (xs.flatMap tk, rest) := by
  intro xs
  induction xs with
  | nil =>
    intro n _ _
    cases n with
    | zero => rfl
    | succ n => simp [manyN, hrest]
  | cons x xs ih =>
    intro n hn hp
    cases n with
    | zero => simp at hn
    | succ n =>
      have h1 := hp [] x xs rfl
      have h2 := ih n (by simp at hn; omega) (fun pre y post he => hp (x :: pre) y post (by simp [he]))
      simp only [List.flatMap_cons, List.append_assoc, manyN, h1, h2]

theorem length_le_flatMap {α : Type} (pr : α → Name) : ∀ (xs : List α), (∀ x ∈ xs, pr x ≠ []) →
    xs.length ≤ (xs.flatMap pr).length := by
  intro xs
  induction xs with
  | nil => intro _; simp
  | cons x xs ih =>
    intro h
    have h1 := ih (fun y hy => h y (by simp [hy]))
    have h2 : 0 < (pr x).length := List.length_pos_iff.2 (h x (by simp))
    simp only [List.flatMap_cons, List.length_append, List.length_cons]
    omega

theorem flatMap_nil' {α β : Type} (l : List α) : l.flatMap (fun _ => ([] : List β)) = [] := by
  induction l with
  | nil => rfl
  | cons a l ih => simpa using ih

theorem flatMap_sing' {α β : Type} (f : α → β) (l : List α) : l.flatMap (fun a => [f a]) = l.map f := by
  induction l with
  | nil => rfl
  | cons a l ih => simpa using ih

/-- `p*` on a sequence of items followed by something `p` rejects. -/
theorem many_items {α : Type} {p : Rule} (pr : α → Name) (tk : α → List Tok) {rest : Name} (hrest : p rest = none)
    (xs : List α) (hne : ∀ x ∈ xs, pr x ≠ [])
    (hp : ∀ pre x post, xs = pre ++ x :: post →
        p (pr x ++ (post.flatMap pr ++ rest)) = some (tk x, post.flatMap pr ++ rest)) :
    many p (xs.flatMap pr ++ rest) = some (xs.flatMap tk, rest) := by
  unfold many
  refine manyN_items pr tk hrest xs _ ?_ hp
  have := length_le_flatMap pr xs hne
  rw [List.length_append]; omega

/-- A run of characters of a class. -/
theorem many_cls {f : Char → Bool} (l rest : Name) (hl : ∀ c ∈ l, f c = true)
    (hr : ∀ c r, rest = c :: r → f c = false) : many (cls f) (l ++ rest) = some ([], rest) := by
  have h := many_items (p := cls f) (fun c => [c]) (fun _ => []) (rest := rest)
    (by
      cases rest with
      | nil => rfl
      | cons c r => simp [cls, hr c r rfl])
    l (by simp)
    (by
      intro pre x post he
      have : f x = true := hl x (by simp [he])
      simp [cls, this])
  simpa [flatMap_nil', flatMap_sing'] using h

theorem text_append {p : Rule} {l rest : Name} (h : p (l ++ rest) = some ([], rest)) :
    text p (l ++ rest) = some ([.text l], rest) := by
  simp [text, h]

/-- First character of what follows: none of the given class. -/
def HeadNot (f : Char → Bool) (s : Name) : Prop := ∀ c r, s = c :: r → f c = false

theorem headNot_nil (f : Char → Bool) : HeadNot f [] := by intro c r h; cases h

theorem headNot_cons {f : Char → Bool} {c : Char} {r : Name} (h : f c = false) : HeadNot f (c :: r) := by
  intro d r' he; cases he; exact h

/-- An identifier of the schema language. -/
def IsIdent : Name → Prop
  | [] => False
  | c :: l => isIdent0 c = true ∧ ∀ d ∈ l, isIdent d = true

theorem isIdent_of_isIdent0 {c : Char} (h : isIdent0 c = true) : isIdent c = true := by simp [isIdent, h]

theorem IsIdent.all {n : Name} (h : IsIdent n) : ∀ d ∈ n, isIdent d = true := by
  cases n with
  | nil => simp
  | cons c l =>
    intro d hd
    rcases List.mem_cons.1 hd with hd | hd
    · subst hd; exact isIdent_of_isIdent0 h.1
    · exact h.2 d hd

theorem ident_spec {n rest : Name} (hn : IsIdent n) (hr : HeadNot isIdent rest) :
    ident (n ++ rest) = some ([.text n], rest) := by
  cases n with
  | nil => exact hn.elim
  | cons c l =>
    apply text_append
    have h1 : cls isIdent0 (c :: (l ++ rest)) = some ([], l ++ rest) := by simp [cls, hn.1]
    have h2 := many_cls (f := isIdent) l rest hn.2 hr
    have := seq_some (p := cls isIdent0) (q := many (cls isIdent)) h1 h2
    simpa using this

theorem ident_none {s : Name} (hs : HeadNot isIdent0 s) : ident s = none := by
  cases s with
  | nil => rfl
  | cons c l =>
    have : isIdent0 c = false := hs c l rfl
    simp [ident, text, seq, cls, this]

/-! ## layout -/

inductive Eol where
  | nl | crlf | cr
deriving DecidableEq, Repr

def Eol.chars : Eol → Name
  | .nl => ['\n']
  | .crlf => ['\r', '\n']
  | .cr => ['\r']

/-- One piece of layout: a blank, a line end or a line comment. -/
inductive Blank where
  | sp
  | tab
  | eol (e : Eol)
  | comment (txt : Name) (e : Eol)
deriving DecidableEq, Repr

def Blank.chars : Blank → Name
  | .sp => [' ']
  | .tab => ['\t']
  | .eol e => e.chars
  | .comment t e => ['/', '/'] ++ t ++ e.chars

def Blank.endsCr : Blank → Bool
  | .eol .cr => true
  | .comment _ .cr => true
  | _ => false

/-- Comment text contains no line end. -/
def Blank.ok : Blank → Bool
  | .comment t _ => t.all fun c => c ≠ '\n' && c ≠ '\r'
  | _ => true

/-- A piece of layout between tokens (possibly empty). -/
abbrev Layout := List Blank

def layoutChars (l : Layout) : Name := l.flatMap Blank.chars

/-- Well-formed layout: a lone carriage return is not followed by a line feed (that would be one line
end). -/
def layoutOk : Layout → Bool
  | [] => true
  | b :: bs => b.ok && !(b.endsCr && bs.head? == some (.eol .nl)) && layoutOk bs

/-- Characters that start a piece of layout. -/
def isLayout0 (c : Char) : Bool := c = ' ' || c = '\t' || c = '\n' || c = '\r' || c = '/'

theorem eol_spec (e : Eol) {rest : Name} (h : e = .cr → ∀ r, rest ≠ '\n' :: r) :
    endOfLine (e.chars ++ rest) = some ([], rest) := by
  cases e with
  | nl => simp [Eol.chars, endOfLine, alt, lit]
  | crlf => simp [Eol.chars, endOfLine, alt, lit]
  | cr =>
    cases rest with
    | nil => rfl
    | cons c r =>
      have : c ≠ '\n' := fun hc => h rfl r (by rw [hc])
      simp [Eol.chars, endOfLine, alt, lit, this]

theorem eol_none {s : Name} (h : ∀ c r, s = c :: r → c ≠ '\n' ∧ c ≠ '\r') : endOfLine s = none := by
  cases s with
  | nil => rfl
  | cons c r =>
    obtain ⟨h1, h2⟩ := h c r rfl
    simp [endOfLine, alt, lit, h1, h2]

theorem space_none {s : Name} (h : HeadNot isLayout0 s) : space s = none := by
  cases s with
  | nil => rfl
  | cons c r =>
    have := h c r rfl
    simp [isLayout0] at this
    obtain ⟨⟨⟨⟨h1, h2⟩, h3⟩, h4⟩, h5⟩ := this
    simp [space, alt, endOfLine, lit, h1, h2, h3, h4]

theorem comment_none {s : Name} (h : HeadNot isLayout0 s) : comment s = none := by
  cases s with
  | nil => rfl
  | cons c r =>
    have := h c r rfl
    simp [isLayout0] at this
    simp [comment, seq, lit, this]

theorem spaceComment_none {s : Name} (h : HeadNot isLayout0 s) : spaceComment s = none := by
  simp [spaceComment, alt, space_none h, comment_none h]

theorem comment_spec (t : Name) (e : Eol) {rest : Name} (ht : ∀ c ∈ t, c ≠ '\n' ∧ c ≠ '\r')
    (h : e = .cr → ∀ r, rest ≠ '\n' :: r) : comment (['/', '/'] ++ t ++ e.chars ++ rest) = some ([], rest) := by
  have h1 : lit ['/', '/'] (['/', '/'] ++ (t ++ (e.chars ++ rest))) = some ([], t ++ (e.chars ++ rest)) := lit_append _ _
  have h2 : many (notP endOfLine ⋄ anyC) (t ++ (e.chars ++ rest)) = some ([], e.chars ++ rest) := by
    have := many_items (p := notP endOfLine ⋄ anyC) (fun c => [c]) (fun _ => []) (rest := e.chars ++ rest)
      (by
        apply seq_none_left
        simp [notP, eol_spec e h])
      t (by simp)
      (by
        intro pre x post he
        have hx := ht x (by simp [he])
        have : endOfLine (x :: (post ++ (e.chars ++ rest))) = none :=
          eol_none (by intro c r hc; cases hc; exact hx)
        simp [seq, notP, anyC, cls, this])
    simpa [flatMap_nil'] using this
  have h3 := eol_spec e h
  have := seq_some h1 (seq_some h2 h3)
  simpa [comment, List.append_assoc] using this

theorem blank_spec (b : Blank) {rest : Name} (hb : b.ok = true) (h : b.endsCr = true → ∀ r, rest ≠ '\n' :: r) :
    spaceComment (b.chars ++ rest) = some ([], rest) := by
  cases b with
  | sp => simp [Blank.chars, spaceComment, space, alt, lit]
  | tab => simp [Blank.chars, spaceComment, space, alt, lit]
  | eol e =>
    have h3 : endOfLine (e.chars ++ rest) = some ([], rest) := eol_spec e (by intro he; subst he; exact h rfl)
    apply alt_left
    simp only [Blank.chars]
    unfold space
    rw [alt_right, alt_right, h3]
    · cases e <;> simp [Eol.chars, lit]
    · cases e <;> simp [Eol.chars, lit]
  | comment t e =>
    have h3 := comment_spec t e (rest := rest) (by simpa [Blank.ok] using hb) (by intro he; subst he; exact h rfl)
    unfold spaceComment
    simp only [Blank.chars]
    rw [alt_right, h3]
    simp [space, alt, endOfLine, lit]

theorem blank_ne_nil (b : Blank) : b.chars ≠ [] := by
  cases b with
  | sp => simp [Blank.chars]
  | tab => simp [Blank.chars]
  | eol e => cases e <;> simp [Blank.chars, Eol.chars]
  | comment t e => simp [Blank.chars]

theorem blank_head_nl {b : Blank} {r : Name} {x : Name} (h : b.chars ++ r = '\n' :: x) : b = .eol .nl := by
  cases b with
  | sp => simp [Blank.chars] at h
  | tab => simp [Blank.chars] at h
  | eol e => cases e <;> simp [Blank.chars, Eol.chars] at h ⊢
  | comment t e => simp [Blank.chars] at h

theorem layoutOk_append {pre post : Layout} (h : layoutOk (pre ++ post) = true) : layoutOk post = true := by
  induction pre with
  | nil => exact h
  | cons b pre ih =>
    simp only [List.cons_append, layoutOk, Bool.and_eq_true] at h
    exact ih h.2

/-- `spacing` eats exactly the layout. -/
theorem spacing_spec (l : Layout) {rest : Name} (hl : layoutOk l = true) (hr : HeadNot isLayout0 rest) :
    spacing (layoutChars l ++ rest) = some ([], rest) := by
  have := many_items (p := spaceComment) Blank.chars (fun _ => []) (rest := rest) (spaceComment_none hr) l
    (fun b _ => blank_ne_nil b)
    (by
      intro pre b post he
      subst he
      have h1 := layoutOk_append hl
      simp only [layoutOk, Bool.and_eq_true, Bool.not_eq_true'] at h1
      obtain ⟨⟨h1, h2⟩, h3⟩ := h1
      apply blank_spec b h1
      intro hcr r hx
      cases post with
      | nil =>
        simp at hx
        have := hr _ _ hx
        simp [isLayout0] at this
      | cons b' post =>
        simp only [List.flatMap_cons, List.append_assoc] at hx
        have := blank_head_nl hx
        subst this
        simp [hcr] at h2)
  simpa [spacing, layoutChars, flatMap_nil'] using this

theorem spacing_nil {rest : Name} (hr : HeadNot isLayout0 rest) : spacing rest = some ([], rest) := by
  simpa [layoutChars] using spacing_spec [] rfl hr

theorem layout_head (l : Layout) {rest : Name} {f : Char → Bool} (hf : ∀ c, isLayout0 c = true → f c = false)
    (hr : HeadNot f rest) : HeadNot f (layoutChars l ++ rest) := by
  cases l with
  | nil => simpa [layoutChars] using hr
  | cons b bs =>
    intro c r h
    apply hf
    cases b with
    | sp => simp [layoutChars, Blank.chars] at h; rw [← h.1]; rfl
    | tab => simp [layoutChars, Blank.chars] at h; rw [← h.1]; rfl
    | eol e => cases e <;> simp [layoutChars, Blank.chars, Eol.chars] at h <;> rw [← h.1] <;> rfl
    | comment t e => simp [layoutChars, Blank.chars] at h; rw [← h.1]; rfl

theorem layout_not_ident (c : Char) (h : isLayout0 c = true) : isIdent c = false := by
  simp only [isLayout0, Bool.or_eq_true, decide_eq_true_eq] at h
  rcases h with (((h | h) | h) | h) | h <;> subst h <;> decide

/-! ## metadata -/

/-- A parenthesised attribute list (anything without a closing parenthesis). -/
def metaChars (m : Name) : Name := '(' :: m ++ [')']

theorem metadata_spec (m : Name) {rest : Name} (hm : ∀ c ∈ m, c ≠ ')') :
    metadata (metaChars m ++ rest) = some ([.text m], rest) := by
  have h2 : until0 ')' (m ++ (')' :: rest)) = some ([.text m], ')' :: rest) := by
    apply text_append
    apply many_cls
    · intro c hc; simp [hm c hc]
    · intro c r h; cases h; simp
  have h1 : lit ['('] ('(' :: (m ++ (')' :: rest))) = some ([], m ++ (')' :: rest)) := by simp [lit]
  have h3 : lit [')'] (')' :: rest) = some ([], rest) := by simp [lit]
  have := seq_some h1 (seq_some h2 h3)
  simpa [metadata, metaChars] using this

theorem metadata_none {s : Name} (h : HeadNot (· = '(') s) : metadata s = none := by
  cases s with
  | nil => rfl
  | cons c r =>
    have := h c r rfl
    simp at this
    simp [metadata, seq, lit, this]

theorem metas_spec (ms : List Name) {rest : Name} (hm : ∀ m ∈ ms, ∀ c ∈ m, c ≠ ')') (hr : HeadNot (· = '(') rest) :
    many metadata (ms.flatMap metaChars ++ rest) = some (ms.map Tok.text, rest) := by
  have := many_items (p := metadata) metaChars (fun m => [Tok.text m]) (rest := rest) (metadata_none hr) ms
    (by intro m _; simp [metaChars])
    (by
      intro pre m post he
      exact metadata_spec m (hm m (by simp [he])))
  rw [this, flatMap_sing']

/-! ## execution -/

theorem exec_append (x : FbsSt × Name) (a b : List Tok) :
    exec x (a ++ b) = (exec x a).bind fun y => exec y b := by
  induction a generalizing x with
  | nil => simp [exec]
  | cons t a ih =>
    obtain ⟨st, tx⟩ := x
    cases t with
    | text s => simp [exec, ih]
    | act c =>
      simp only [List.cons_append, exec]
      cases st.run tx c with
      | none => rfl
      | some st' => exact ih _

theorem exec_texts (ms : List Name) : ∀ (st : FbsSt) (t : Name), ∃ t', exec (st, t) (ms.map Tok.text) = some (st, t') := by
  induction ms with
  | nil => intro st t; exact ⟨t, rfl⟩
  | cons m ms ih => intro st t; exact ih st m

end Fbs.Peg
