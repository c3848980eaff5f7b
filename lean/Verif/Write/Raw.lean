import Verif.Lex.Read
/-!
# The checks of `readRawSource` and `parseKeywords`, section by section

Used for C60: the errors counted by `rawErrs` and the statements found by `kwLoop` in a text that is put together from sections.
-/
namespace MM.Write
open MM.Veri MM.Pars MM.Lex

/-! ### `parseKeywords` -/

/-- The scan over a comment. -/
theorem kw_comment : ∀ {b : List Char} (t : List Char) (s : KState), CommentText b → s.com = true →
    kwLoop (b ++ '$' :: ')' :: t) s = kwLoop t { s with com := false } := by
  intro b
  induction h : b.length using Nat.strong_induction_on generalizing b with
  | _ n ih =>
    subst h
    intro t s hb hs
    obtain ⟨h1, h2⟩ := hb
    have hs' : ({ s with com := true } : KState) = s := by cases s; simp_all
    cases b with
    | nil =>
      rw [List.nil_append, kwLoop_dollar, if_neg (by decide), if_neg (by decide), if_pos rfl]
    | cons c b =>
      rw [List.cons_append]
      by_cases hc : c = '$'
      · cases b with
        | nil =>
          exfalso
          have := h2 c (by simp)
          rw [hc, printable_eq, isGraph_dollar] at this
          cases this
        | cons d b =>
          subst hc
          have hd : d ≠ ')' := by
            rintro rfl
            exact h1 ⟨[], b, rfl⟩
          have hb' : CommentText b := ⟨not_infix_cons (not_infix_cons h1), fun x hx => h2 x (by
            cases b with
            | nil => simp at hx
            | cons y b => simpa using hx)⟩
          have key := ih b.length (by simp; omega) rfl t s hb' hs
          rw [List.cons_append, kwLoop_dollar]
          by_cases hd1 : d = '$'
          · rw [if_pos hd1, key]
          · rw [if_neg hd1]
            by_cases hd2 : d = '('
            · rw [if_pos hd2, hs', key]
            · rw [if_neg hd2, if_neg hd, if_pos hs, key]
      · rw [kwLoop_char hc]
        exact ih b.length (by simp) rfl t s ⟨not_infix_cons h1, fun x hx => h2 x (by
            cases b with
            | nil => simp at hx
            | cons y b => simpa using hx)⟩ hs

/-- The scan over a section changes nothing. -/
theorem kw_blank {t u : List Char} (h : Blank t u) (e : List Char) (s : KState) (hs : s.com = false) : kwLoop (t ++ e) s = kwLoop e s := by
  induction h with
  | nil => rfl
  | char c hc _ ih => rw [List.cons_append, kwLoop_char hc, ih]
  | @comment t u b hb _ ih =>
    have e1 : ('$' :: '(' :: (b ++ '$' :: ')' :: t)) ++ e = '$' :: '(' :: (b ++ '$' :: ')' :: (t ++ e)) := by simp
    rw [e1, kwLoop_dollar, if_neg (by decide), if_pos rfl, kw_comment _ _ hb rfl]
    dsimp only
    have : ({ s with com := false } : KState) = s := by cases s; simp_all
    rw [this, ih]

/-! ### `readRawSource` -/

/-- The errors inside a comment do not depend on what follows. -/
theorem raw_comment : ∀ (b : List Char) (prev : Bool), ¬ ['$', ')'] <:+: b → ∃ n p, ∀ z,
    rawErrs prev true (b ++ '$' :: ')' :: z) = n + rawErrs p true ('$' :: ')' :: z) := by
  intro b
  induction b with
  | nil => intro prev _; exact ⟨0, prev, fun z => by simp⟩
  | cons c b ih =>
    intro prev h
    have h' := not_infix_cons h
    by_cases hc : c = '$'
    · subst hc
      obtain ⟨n, p, e⟩ := ih true h'
      cases b with
      | nil =>
        refine ⟨0, true, fun z => ?_⟩
        simp only [List.cons_append, List.nil_append]
        rw [rawErrs_dollar]
        simp
      | cons d b =>
        have hd : d ≠ ')' := by
          rintro rfl
          exact h ⟨[], b, rfl⟩
        refine ⟨n + (if d = '(' then 1 else 0), p, fun z => ?_⟩
        have e' := e z
        rw [List.cons_append] at e'
        rw [List.cons_append, List.cons_append, rawErrs_dollar]
        by_cases hd2 : d = '('
        · rw [if_pos hd2, if_pos hd2, if_pos rfl, e']
          simp [hd]; omega
        · rw [if_neg hd2, if_neg hd2, if_neg hd, if_pos rfl, e']
          simp [hd]
    · obtain ⟨n, p, e⟩ := ih (isGraph c) h'
      refine ⟨(if isGraph c || isSpace c then 0 else 1) + n, p, fun z => ?_⟩
      rw [List.cons_append, rawErrs_char hc, e]
      omega

/-- The errors of a section do not depend on what follows the `$` after it. -/
theorem raw_section {t u : List Char} (h : Blank t u) : ∀ prev, ∃ n p, ∀ r, rawErrs prev false (t ++ '$' :: r) = n + rawErrs p false ('$' :: r) := by
  induction h with
  | nil => intro prev; exact ⟨0, prev, fun r => by simp⟩
  | char c hc _ ih =>
    intro prev
    obtain ⟨n, p, e⟩ := ih (isGraph c)
    refine ⟨(if isGraph c || isSpace c then 0 else 1) + n, p, fun r => ?_⟩
    rw [List.cons_append, rawErrs_char hc, e]
    omega
  | @comment t u b hb _ ih =>
    intro prev
    obtain ⟨n1, p1, e1⟩ := raw_comment b true hb.1
    obtain ⟨n2, p2, e2⟩ := ih true
    refine ⟨(if prev then 1 else 0) + (if (b ++ ['$']).head?.any isGraph then 1 else 0) + n1 + (if p1 then 1 else 0) +
      (if (t ++ ['$']).head?.any isGraph then 1 else 0) + n2, p2, fun r => ?_⟩
    have e0 : ('$' :: '(' :: (b ++ '$' :: ')' :: t)) ++ '$' :: r = '$' :: '(' :: (b ++ '$' :: ')' :: (t ++ '$' :: r)) := by simp
    have h1 : (b ++ '$' :: ')' :: (t ++ '$' :: r)).head? = (b ++ ['$']).head? := by cases b <;> simp
    have h2 : (t ++ '$' :: r).head? = (t ++ ['$']).head? := by cases t <;> simp
    have g1 : isGraph '(' = true := by decide
    have g2 : isGraph ')' = true := by decide
    rw [e0, rawErrs_dollar, if_pos (c := '(' = '(') rfl, rawErrs_char (by decide), g1, e1, rawErrs_dollar, if_neg (c := ')' = '(') (by decide),
      if_pos (c := ')' = ')') rfl, rawErrs_char (by decide), g2, e2, h1, h2]
    simp
    omega

/-- A section with the keyword after it: what readRawSource has to say up to and including the keyword. -/
theorem raw_keyword {d : Char} (hd : d ≠ '$' ∧ d ≠ '(' ∧ d ≠ ')' ∧ d ≠ '[' ∧ d ≠ ']' ∧ isGraph d = true) (p : Bool) (r : List Char) :
    rawErrs p false ('$' :: d :: r) = (if p then 1 else 0) + (if r.head?.any isGraph then 1 else 0) + rawErrs true false r := by
  obtain ⟨h1, h2, h3, h4, h5, h6⟩ := hd
  rw [rawErrs_dollar, if_neg h2, if_neg h3, if_neg (c := false = true) (by simp), if_neg (c := d = '[' ∨ d = ']') (by simp [h4, h5]),
    rawErrs_char h1, h6]
  simp

/-- A section that readRawSource does not complain about, between printable or other text and a keyword. -/
def Quiet (prev : Bool) (t : List Char) : Prop := ∀ r, rawErrs prev false (t ++ '$' :: r) = rawErrs false false ('$' :: r)

theorem quiet_of {prev : Bool} {t u : List Char} (h : Blank t u) {d : Char} (hd : d ≠ '$' ∧ d ≠ '(' ∧ d ≠ ')' ∧ d ≠ '[' ∧ d ≠ ']' ∧ isGraph d = true)
    {r : List Char} (he : rawErrs prev false (t ++ '$' :: d :: r) = 0) :
    Quiet prev t ∧ r.head?.any isGraph = false ∧ rawErrs true false r = 0 := by
  obtain ⟨n, p, e⟩ := raw_section h prev
  rw [e, raw_keyword hd] at he
  have hp : p = false := by
    cases p
    · rfl
    · simp at he
  subst hp
  have hn : n = 0 := by omega
  subst hn
  refine ⟨fun r => by rw [e]; simp, ?_, by omega⟩
  cases hh : r.head?.any isGraph
  · rfl
  · rw [hh] at he; simp at he

theorem quiet_use {prev : Bool} {t : List Char} (h : Quiet prev t) {d : Char}
    (hd : d ≠ '$' ∧ d ≠ '(' ∧ d ≠ ')' ∧ d ≠ '[' ∧ d ≠ ']' ∧ isGraph d = true) {r : List Char} (hr : r.head?.any isGraph = false)
    (h0 : rawErrs true false r = 0) : rawErrs prev false (t ++ '$' :: d :: r) = 0 := by
  rw [h, raw_keyword hd, hr, h0]
  simp

theorem kwChar_ok {k : Kind} (h : k ≠ .none) : kwChar k ≠ '$' ∧ kwChar k ≠ '(' ∧ kwChar k ≠ ')' ∧ kwChar k ≠ '[' ∧ kwChar k ≠ ']' ∧ isGraph (kwChar k) = true := by
  cases k <;> first | exact absurd rfl h | decide

theorem eq_ok : '=' ≠ '$' ∧ '=' ≠ '(' ∧ '=' ≠ ')' ∧ '=' ≠ '[' ∧ '=' ≠ ']' ∧ isGraph '=' = true := by decide
theorem dot_ok : '.' ≠ '$' ∧ '.' ≠ '(' ∧ '.' ≠ ')' ∧ '.' ≠ '[' ∧ '.' ≠ ']' ∧ isGraph '.' = true := by decide

end MM.Write
