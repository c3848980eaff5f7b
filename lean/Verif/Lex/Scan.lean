import Verif.Lex.Toks
/-!
# The keyword scan, section by section
-/
namespace MM.Lex
open MM.Veri MM.Pars

theorem kwLoop_char {c : Char} (hc : c ≠ '$') (r : List Char) (s : KState) : kwLoop (c :: r) s = kwLoop r s := by
  cases r <;> simp [kwLoop, hc]

theorem kwLoop_dollar (d : Char) (r : List Char) (s : KState) : kwLoop ('$' :: d :: r) s =
    if d = '$' then kwLoop r s
      else if d = '(' then kwLoop r { s with com := true }
      else if d = ')' then kwLoop r { s with com := false }
      else if s.com then kwLoop r s
      else kwLoop r (kwStep (some d) (d :: r) s) := by
  simp [kwLoop]

theorem kwLoop_last (s : KState) : kwLoop ['$'] s = kwLoop [] (if s.com then s else kwStep none [] s) := by
  simp only [kwLoop, ne_eq, not_true_eq_false, if_false]

/-- Where the scan of a section stops. -/
def EndAt (com : Bool) (e : List Char) : Prop :=
  e = [] ∨ (com = false ∧ (e = ['$'] ∨ ∃ d r, e = '$' :: d :: r ∧ d ≠ '$' ∧ d ≠ '(' ∧ d ≠ ')'))

/-- What the scan went over, when there are no error messages. -/
def Went (prev com : Bool) (t : List Char) : Prop :=
  if com then ∃ b t' u, t = b ++ '$' :: ')' :: t' ∧ CommentText b ∧ (b = [] → prev = false) ∧ Blank t' u
  else ∃ u, Blank t u

theorem infix_cons_ne {c : Char} {b : List Char} (hc : c ≠ '$') (h : ¬ ['$', ')'] <:+: b) : ¬ ['$', ')'] <:+: (c :: b) := by
  rw [List.infix_cons_iff]
  rintro (⟨y, hy⟩ | h')
  · simp at hy; exact hc hy.1.symm
  · exact h h'

theorem infix_dollar {d : Char} {b : List Char} (hd : d ≠ ')') (h : ¬ ['$', ')'] <:+: (d :: b)) : ¬ ['$', ')'] <:+: ('$' :: d :: b) := by
  rw [List.infix_cons_iff]
  rintro (⟨y, hy⟩ | h')
  · simp at hy; exact hd hy.1.symm
  · exact h h'

theorem rawErrs_char {c : Char} (hc : c ≠ '$') (prev com : Bool) (r : List Char) :
    rawErrs prev com (c :: r) = (if isGraph c || isSpace c then 0 else 1) + rawErrs (isGraph c) com r := by
  simp [rawErrs, hc]

theorem rawErrs_dollar (d : Char) (prev com : Bool) (r : List Char) : rawErrs prev com ('$' :: d :: r) =
    (if prev && (!com || decide (d = ')')) then 1 else 0) +
      (if r.head?.any isGraph && (!com || decide (d = ')')) then 1 else 0) +
      (if d = '(' then (if com then 1 else 0) + rawErrs true true (d :: r)
       else if d = ')' then (if com then 0 else 1) + rawErrs true false (d :: r)
       else if com then rawErrs true com (d :: r)
       else (if d = '[' ∨ d = ']' then 1 else 0) + rawErrs true com (d :: r)) := by
  conv => lhs; unfold rawErrs
  simp only [ne_eq, not_true_eq_false, if_false, List.head?_cons, List.tail_cons, Option.some.injEq]

/-- The last character of `b`, or `prev` if there is none, is not printable. -/
theorem last_cons {c : Char} {b : List Char} (h : ∀ x, b.getLast? = some x → isGraph x = false) (h0 : b = [] → isGraph c = false) :
    ∀ x, (c :: b).getLast? = some x → isGraph x = false := by
  intro x hx
  cases b with
  | nil => simp at hx; subst hx; exact h0 rfl
  | cons y b => exact h x (by simpa using hx)

theorem scan_section : ∀ (n : Nat) (l : List Char) (prev : Bool) (s : KState), l.length ≤ n →
    ∃ t e com, l = t ++ e ∧ kwLoop l s = kwLoop e { s with com := com } ∧ EndAt com e ∧
      (rawErrs prev s.com l = 0 → com = false ∧ Went prev s.com t ∧ ∃ prev', rawErrs prev' false e = 0) := by
  intro n
  induction n with
  | zero =>
    intro l prev s h
    have : l = [] := List.length_eq_zero_iff.1 (by omega)
    subst this
    refine ⟨[], [], s.com, rfl, rfl, Or.inl rfl, ?_⟩
    intro h
    simp only [rawErrs] at h
    have hc : s.com = false := by
      by_contra hc; simp at hc; simp [hc] at h
    exact ⟨hc, by rw [hc]; exact ⟨[], .nil⟩, prev, rfl⟩
  | succ n ih =>
    intro l prev s h
    cases l with
    | nil =>
      refine ⟨[], [], s.com, rfl, rfl, Or.inl rfl, ?_⟩
      intro h
      simp only [rawErrs] at h
      have hc : s.com = false := by
        by_contra hc; simp at hc; simp [hc] at h
      exact ⟨hc, by rw [hc]; exact ⟨[], .nil⟩, prev, rfl⟩
    | cons c r =>
      by_cases hc : c = '$'
      · subst hc
        cases r with
        | nil =>
          by_cases hcom : s.com = true
          · refine ⟨['$'], [], s.com, rfl, ?_, Or.inl rfl, ?_⟩
            · rw [kwLoop_last, if_pos hcom]
            · intro hr; simp [rawErrs, hcom] at hr
          · simp only [Bool.not_eq_true] at hcom
            refine ⟨[], ['$'], false, rfl, ?_, Or.inr ⟨rfl, Or.inl rfl⟩, ?_⟩
            · congr 1; cases s; simp_all
            · intro hr; exact ⟨rfl, by rw [hcom]; exact ⟨[], .nil⟩, prev, by rw [← hcom]; exact hr⟩
        | cons d r =>
          have hlen : r.length ≤ n := by simp at h; omega
          rw [kwLoop_dollar]
          by_cases hd1 : d = '$'
          · -- "$$"
            subst hd1
            rw [if_pos rfl]
            obtain ⟨t, e, com, h1, h2, h3, h4⟩ := ih r true s hlen
            refine ⟨'$' :: '$' :: t, e, com, by rw [h1]; rfl, h2, h3, ?_⟩
            intro hr
            rw [rawErrs_dollar, if_neg (c := '$' = '(') (by decide), if_neg (c := '$' = ')') (by decide)] at hr
            by_cases hcom : s.com = true
            · rw [if_pos hcom] at hr
              have hr2 : rawErrs true s.com ('$' :: r) = 0 := by omega
              rw [rawErrs, if_neg (by simp), hcom] at hr2
              have hr3 : r.head? ≠ some ')' := by
                intro hh; simp [hh] at hr2
              have hr4 : r.head? ≠ some '(' := by
                intro hh; simp [hh] at hr2
              rw [if_neg hr4, if_neg hr3, if_pos rfl] at hr2
              obtain ⟨k1, k2, k3⟩ := h4 (by rw [hcom]; omega)
              refine ⟨k1, ?_, k3⟩
              unfold Went at k2 ⊢
              rw [if_pos hcom] at k2 ⊢
              obtain ⟨b, t', u, g1, g2, g3, g4⟩ := k2
              have hbne : b ≠ [] := fun h => by have := g3 h; cases this
              refine ⟨'$' :: '$' :: b, t', u, by rw [g1]; rfl, ⟨?_, ?_⟩, by simp, g4⟩
              · refine infix_dollar (by decide) ?_
                cases b with
                | nil => exact absurd rfl hbne
                | cons x b =>
                  refine infix_dollar ?_ g2.1
                  rintro rfl
                  apply hr3
                  rw [h1, g1]; rfl
              · exact last_cons (last_cons g2.2 (fun h => absurd h hbne)) (by simp)
            · simp only [Bool.not_eq_true] at hcom
              rw [hcom, if_neg (c := false = true) (by simp)] at hr
              have hr2 : rawErrs true false ('$' :: r) = 0 := by omega
              rw [rawErrs, if_neg (by simp)] at hr2
              simp at hr2
          · rw [if_neg hd1]
            by_cases hd2 : d = '('
            · subst hd2
              rw [if_pos rfl]
              obtain ⟨t, e, com, h1, h2, h3, h4⟩ := ih r true { s with com := true } hlen
              refine ⟨'$' :: '(' :: t, e, com, by rw [h1]; rfl, h2, h3, ?_⟩
              intro hr
              rw [rawErrs_dollar, if_pos (c := '(' = '(') rfl] at hr
              have hcom : s.com = false := by
                by_contra hc; simp at hc; simp [hc] at hr
              have hr2 : rawErrs true true ('(' :: r) = 0 := by omega
              rw [rawErrs_char (by decide)] at hr2
              have hg : isGraph '(' = true := by decide
              rw [hg] at hr2
              obtain ⟨k1, k2, k3⟩ := h4 (by simp only; omega)
              refine ⟨k1, ?_, k3⟩
              unfold Went at k2 ⊢
              rw [if_pos rfl] at k2
              rw [hcom, if_neg (by simp)]
              obtain ⟨b, t', u, g1, g2, g3, g4⟩ := k2
              exact ⟨' ' :: u, by rw [g1]; exact .comment g2 g4⟩
            · rw [if_neg hd2]
              by_cases hd3 : d = ')'
              · subst hd3
                rw [if_pos rfl]
                obtain ⟨t, e, com, h1, h2, h3, h4⟩ := ih r true { s with com := false } hlen
                refine ⟨'$' :: ')' :: t, e, com, by rw [h1]; rfl, h2, h3, ?_⟩
                intro hr
                rw [rawErrs_dollar, if_neg (c := ')' = '(') (by decide), if_pos (c := ')' = ')') rfl] at hr
                have hcom : s.com = true := by
                  by_contra hc; simp at hc; simp [hc] at hr
                have hprev : prev = false := by
                  by_contra hc; simp at hc; simp [hc] at hr
                have hr2 : rawErrs true false (')' :: r) = 0 := by omega
                rw [rawErrs_char (by decide)] at hr2
                have hg : isGraph ')' = true := by decide
                rw [hg] at hr2
                obtain ⟨k1, k2, k3⟩ := h4 (by simp only; omega)
                refine ⟨k1, ?_, k3⟩
                unfold Went at k2 ⊢
                rw [if_neg (by simp)] at k2
                rw [hcom, if_pos rfl]
                obtain ⟨u, g⟩ := k2
                exact ⟨[], t, u, rfl, ⟨by simp, by simp⟩, fun _ => hprev, g⟩
              · rw [if_neg hd3]
                by_cases hcom : s.com = true
                · rw [if_pos hcom]
                  obtain ⟨t, e, com, h1, h2, h3, h4⟩ := ih r (isGraph d) s hlen
                  refine ⟨'$' :: d :: t, e, com, by rw [h1]; rfl, h2, h3, ?_⟩
                  intro hr
                  rw [rawErrs_dollar, if_neg hd2, if_neg hd3, if_pos hcom] at hr
                  have hr2 : rawErrs true s.com (d :: r) = 0 := by omega
                  rw [rawErrs_char hd1] at hr2
                  obtain ⟨k1, k2, k3⟩ := h4 (by omega)
                  refine ⟨k1, ?_, k3⟩
                  unfold Went at k2 ⊢
                  rw [if_pos hcom] at k2 ⊢
                  obtain ⟨b, t', u, g1, g2, g3, g4⟩ := k2
                  refine ⟨'$' :: d :: b, t', u, by rw [g1]; rfl, ⟨infix_dollar hd3 (infix_cons_ne hd1 g2.1), ?_⟩, by simp, g4⟩
                  exact last_cons (last_cons g2.2 g3) (by simp)
                · rw [if_neg hcom]
                  simp only [Bool.not_eq_true] at hcom
                  refine ⟨[], '$' :: d :: r, false, rfl, ?_, Or.inr ⟨rfl, Or.inr ⟨d, r, rfl, hd1, hd2, hd3⟩⟩, ?_⟩
                  · rw [kwLoop_dollar, if_neg hd1, if_neg hd2, if_neg hd3, if_neg (by simp)]
                    congr 2; cases s; simp_all
                  · intro hr; exact ⟨rfl, by rw [hcom]; exact ⟨[], .nil⟩, prev, by rw [← hcom]; exact hr⟩
      · rw [kwLoop_char hc]
        obtain ⟨t, e, com, h1, h2, h3, h4⟩ := ih r (isGraph c) s (by simp at h; omega)
        refine ⟨c :: t, e, com, by rw [h1]; rfl, h2, h3, ?_⟩
        intro hr
        rw [rawErrs_char hc] at hr
        obtain ⟨k1, k2, k3⟩ := h4 (by omega)
        refine ⟨k1, ?_, k3⟩
        unfold Went at k2 ⊢
        by_cases hcom : s.com = true
        · rw [if_pos hcom] at k2 ⊢
          obtain ⟨b, t', u, g1, g2, g3, g4⟩ := k2
          exact ⟨c :: b, t', u, by rw [g1]; rfl, ⟨infix_cons_ne hc g2.1, last_cons g2.2 g3⟩, by simp, g4⟩
        · rw [if_neg hcom] at k2 ⊢
          obtain ⟨u, g⟩ := k2
          exact ⟨c :: u, .char c hc g⟩

end MM.Lex
