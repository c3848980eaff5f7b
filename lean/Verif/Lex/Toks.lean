import Verif.Lex.Model
import Mathlib.Data.List.Basic
import Mathlib.Data.List.Induction
import Mathlib.Tactic.Linarith
/-!
# C23: the tokens of a section are its words
-/
namespace MM.Lex
open MM.Veri MM.Pars

/-! ### Specification -/

/-- The printable characters are those from `!` to `~`. -/
def printable (c : Char) : Bool := decide ('!' ≤ c) && decide (c ≤ '~')

/-- Maximal runs of printable characters. -/
def words (u : List Char) : List Name := (u.splitOnP fun c => !printable c).filter fun w => !w.isEmpty

/-- Space around the characters `c` with `sp c`. -/
def spreadBy (sp : Char → Bool) (u : List Char) : List Char := u.flatMap fun c => if sp c then [' ', c, ' '] else [c]

/-- In proofs the characters `:` `?` `(` `)` `=` are words by themselves. -/
def proofWords (u : List Char) : List Name := words (spreadBy (fun c => [':', '?', '(', ')', '='].contains c) u)

/-- The text of a comment between `$(` and `$)`: it does not contain `$)`, and its last character is not printable. -/
def CommentText (b : List Char) : Prop := ¬ ['$', ')'] <:+: b ∧ ∀ c, b.getLast? = some c → printable c = false

/-- `u` is the section `t` with every comment replaced by a space. -/
inductive Blank : List Char → List Char → Prop
  | nil : Blank [] []
  | char {t u : List Char} (c : Char) : c ≠ '$' → Blank t u → Blank (c :: t) (c :: u)
  | comment {t u b : List Char} : CommentText b → Blank t u → Blank ('$' :: '(' :: (b ++ '$' :: ')' :: t)) (' ' :: u)

/-- What follows a section: the end of the file or a keyword. -/
def Stop (e : List Char) : Prop := e = [] ∨ ∃ d r, e = '$' :: d :: r ∧ d ≠ '(' ∧ d ≠ '!' ∧ d ≠ '$' ∧ d.isDigit = false

/-! ### Proof -/

theorem printable_eq (c : Char) : printable c = isGraph c := by
  unfold printable isGraph
  rfl

theorem words_eq (u : List Char) : words u = (u.splitOnP fun c => !isGraph c).filter fun w => !w.isEmpty := by
  unfold words
  simp only [printable_eq]

theorem isSingle_eq : (fun c => [':', '?', '(', ')', '='].contains c) = isSingle := by
  funext c
  simp only [isSingle, List.contains_cons, List.contains_nil, Bool.or_false, Bool.or_assoc]

theorem words_nil : words [] = [] := by simp [words]

theorem words_blank {c : Char} {u : List Char} (h : isGraph c = false) : words (c :: u) = words u := by
  rw [words_eq, words_eq]
  rw [List.splitOnP_cons_eq_if_modifyHead, if_pos (by simp [h])]
  simp

theorem words_word {w u : List Char} (hw : ∀ c ∈ w, isGraph c = true) (hne : w ≠ []) (hu : ∀ c, u.head? = some c → isGraph c = false) :
    words (w ++ u) = w :: words u := by
  cases u with
  | nil =>
    rw [words_eq, words_eq]
    rw [List.append_nil, List.splitOnP_eq_singleton]
    · simp [hne]
    · intro x hx; simp [hw x hx]
  | cons c u =>
    have hc := hu c rfl
    rw [words_blank hc]
    rw [words_eq, words_eq]
    rw [List.splitOnP_append_cons_of_forall_mem]
    · simp [hne]
    · intro x hx; simp [hw x hx]
    · simp [hc]

theorem skip_ws_char {c : Char} (hc : c ≠ '$') (r : List Char) :
    skipWs .ws (c :: r) = if isGraph c then .val (c :: r) else skipWs .ws r := by
  cases r <;> simp [skipWs, hc]

theorem skip_ws_com (r : List Char) : skipWs .ws ('$' :: '(' :: r) = skipWs .com r := by
  simp [skipWs]

theorem skip_com_char {c : Char} (hc : c ≠ '$') (r : List Char) : skipWs .com (c :: r) = skipWs .com r := by
  cases r <;> simp [skipWs, hc]

theorem skip_com_close (r : List Char) : skipWs .com ('$' :: ')' :: r) = skipWs .ws r := by
  simp [skipWs]

theorem skip_com_dollar {d : Char} (hd : d ≠ ')') (r : List Char) : skipWs .com ('$' :: d :: r) = skipWs .com r := by
  simp [skipWs, hd]

theorem tokenLen_char {c : Char} (hc : c ≠ '$') (r : List Char) : tokenLen (c :: r) = if isGraph c then tokenLen r + 1 else 0 := by
  cases r <;> simp [tokenLen, hc]

theorem tokenLen_dollar {d : Char} (r : List Char) :
    tokenLen ('$' :: d :: r) = if d = '$' ∨ d.isDigit = true then tokenLen r + 2 else 0 := by
  simp [tokenLen]

theorem proofTokenTail_char {c : Char} (hc : c ≠ '$') (r : List Char) :
    proofTokenTail (c :: r) = if isGraph c = true ∧ isSingle c = false then proofTokenTail r + 1 else 0 := by
  cases r <;> simp [proofTokenTail, hc]

theorem proofTokenTail_dollar {d : Char} (r : List Char) :
    proofTokenTail ('$' :: d :: r) = if d = '$' then proofTokenTail r + 2 else 0 := by
  simp [proofTokenTail]

theorem isGraph_space : isGraph ' ' = false := by decide
theorem isGraph_dollar : isGraph '$' = true := by decide

theorem not_infix_cons {c : Char} {b : List Char} (h : ¬ ['$', ')'] <:+: (c :: b)) : ¬ ['$', ')'] <:+: b := by
  rintro ⟨x, y, hxy⟩
  exact h ⟨c :: x, y, by simp [← hxy]⟩

/-- Skipping a comment. -/
theorem skip_comment : ∀ {b : List Char} (t : List Char), CommentText b → skipWs .com (b ++ '$' :: ')' :: t) = skipWs .ws t := by
  intro b
  induction h : b.length using Nat.strong_induction_on generalizing b with
  | _ n ih =>
    subst h
    intro t hb
    obtain ⟨h1, h2⟩ := hb
    cases b with
    | nil => rw [List.nil_append, skip_com_close]
    | cons c b =>
      rw [List.cons_append]
      by_cases hc : c = '$'
      · cases b with
        | nil =>
          exfalso
          have := h2 c (by simp)
          rw [hc, printable_eq, isGraph_dollar] at this
          cases this
        | cons d b =>
          rw [List.cons_append]
          have hd : d ≠ ')' := by
            rintro rfl
            exact h1 ⟨[], b, by simp [hc]⟩
          rw [hc, skip_com_dollar hd]
          refine ih b.length (by simp; omega) rfl t ⟨not_infix_cons (not_infix_cons h1), ?_⟩
          intro x hx
          apply h2
          cases b with
          | nil => simp at hx
          | cons y b => simpa using hx
      · rw [skip_com_char hc]
        refine ih b.length (by simp) rfl t ⟨not_infix_cons h1, ?_⟩
        intro x hx
        apply h2
        cases b with
        | nil => simp at hx
        | cons y b => simpa using hx

theorem skip_stop {e : List Char} (he : Stop e) : skipWs .ws e = .val e := by
  rcases he with rfl | ⟨d, r, rfl, h1, h2, _⟩
  · rfl
  · simp [skipWs, h1, h2]

theorem spread_cons (sp : Char → Bool) (c : Char) (u : List Char) :
    spreadBy sp (c :: u) = (if sp c then [' ', c, ' '] else [c]) ++ spreadBy sp u := by
  simp [spreadBy]

/-- `whiteSpaceLen` skips the blanks and comments at the start of a section. -/
theorem skip_section {sp : Char → Bool} (hsp : ∀ c, sp c = true → isGraph c = true) {t u e : List Char} (hB : Blank t u) (he : Stop e) :
    ∃ t' u', skipWs .ws (t ++ e) = .val (t' ++ e) ∧ Blank t' u' ∧ t'.length ≤ t.length ∧ words (spreadBy sp u) = words (spreadBy sp u') ∧
      ∀ c, t'.head? = some c → isGraph c = true ∧ c ≠ '$' := by
  induction hB with
  | nil => exact ⟨[], [], by simpa using skip_stop he, .nil, le_refl _, rfl, by simp⟩
  | @char t u c hc hB ih =>
    by_cases hg : isGraph c = true
    · refine ⟨c :: t, c :: u, ?_, .char c hc hB, le_refl _, rfl, ?_⟩
      · rw [List.cons_append, skip_ws_char hc, if_pos hg]
      · intro d hd; simp at hd; subst hd; exact ⟨hg, hc⟩
    · obtain ⟨t', u', h1, h2, h3, h4, h5⟩ := ih
      refine ⟨t', u', ?_, h2, by simp; omega, ?_, h5⟩
      · rw [List.cons_append, skip_ws_char hc, if_neg hg]; exact h1
      · rw [spread_cons, if_neg (fun h => hg (hsp c h)), ← h4]
        exact words_blank (by simpa using hg)
  | @comment t u b hb hB ih =>
    obtain ⟨t', u', h1, h2, h3, h4, h5⟩ := ih
    refine ⟨t', u', ?_, h2, by simp; omega, ?_, h5⟩
    · rw [List.cons_append, List.cons_append, skip_ws_com, List.append_assoc, List.cons_append, List.cons_append, skip_comment _ hb]
      exact h1
    · rw [spread_cons, if_neg (fun h => by have := hsp _ h; rw [isGraph_space] at this; cases this), ← h4]
      exact words_blank isGraph_space

/-- The printable characters at the start of a section that belong together. -/
theorem run_section {sp : Char → Bool} {t u : List Char} (hB : Blank t u) :
    ∃ w t' u', t = w ++ t' ∧ u = w ++ u' ∧ Blank t' u' ∧ (∀ c ∈ w, isGraph c = true ∧ c ≠ '$' ∧ sp c = false) ∧
      (∀ c, u'.head? = some c → isGraph c = false ∨ sp c = true) ∧
      (∀ c, t'.head? = some c → isGraph c = false ∨ sp c = true ∨ ∃ r, t' = '$' :: '(' :: r) := by
  induction hB with
  | nil => exact ⟨[], [], [], rfl, rfl, .nil, by simp, by simp, by simp⟩
  | @char t u c hc hB ih =>
    by_cases hg : isGraph c = true ∧ sp c = false
    · obtain ⟨w, t', u', h1, h2, h3, h4, h5, h6⟩ := ih
      refine ⟨c :: w, t', u', by rw [h1]; rfl, by rw [h2]; rfl, h3, ?_, h5, h6⟩
      intro d hd
      rcases List.mem_cons.1 hd with rfl | hd
      · exact ⟨hg.1, hc, hg.2⟩
      · exact h4 d hd
    · refine ⟨[], c :: t, c :: u, rfl, rfl, .char c hc hB, by simp, ?_, ?_⟩
      · intro d hd
        simp at hd; subst hd
        by_cases h : isGraph c = true
        · right
          by_contra hs
          exact hg ⟨h, by simpa using hs⟩
        · left; simpa using h
      · intro d hd
        simp at hd; subst hd
        by_cases h : isGraph c = true
        · right; left
          by_contra hs
          exact hg ⟨h, by simpa using hs⟩
        · left; simpa using h
  | @comment t u b hb hB ih =>
    refine ⟨[], _, _, rfl, rfl, .comment hb hB, by simp, ?_, ?_⟩
    · intro d hd; simp at hd; subst hd; exact Or.inl isGraph_space
    · intro d hd; exact Or.inr (Or.inr ⟨_, rfl⟩)

theorem spread_plain {sp : Char → Bool} {w : List Char} (u : List Char) (hw : ∀ c ∈ w, sp c = false) : spreadBy sp (w ++ u) = w ++ spreadBy sp u := by
  induction w with
  | nil => rfl
  | cons c w ih =>
    rw [List.cons_append, spread_cons, if_neg (by simp [hw c (by simp)]), ih (fun d hd => hw d (by simp [hd]))]
    simp

theorem spread_head {sp : Char → Bool} {u : List Char} (hu : ∀ c, u.head? = some c → isGraph c = false ∨ sp c = true) :
    ∀ c, (spreadBy sp u).head? = some c → isGraph c = false := by
  intro c hc
  cases u with
  | nil => simp [spreadBy] at hc
  | cons d u =>
    rw [spread_cons] at hc
    by_cases hd : sp d = true
    · rw [if_pos hd] at hc
      simp at hc; subst hc; exact isGraph_space
    · rw [if_neg hd] at hc
      simp at hc; subst hc
      rcases hu d rfl with h | h
      · exact h
      · exact absurd h hd

/-- A length function measures the first token of a section. -/
def LenOk (sp : Char → Bool) (len : List Char → Nat) : Prop :=
  (∀ e, Stop e → len e = 0) ∧
  (∀ c r, sp c = true → len (c :: r) = 1) ∧
  (∀ w r, w ≠ [] → (∀ c ∈ w, isGraph c = true ∧ c ≠ '$' ∧ sp c = false) →
    (Stop r ∨ (∃ r', r = '$' :: '(' :: r') ∨ ∃ c r', r = c :: r' ∧ c ≠ '$' ∧ (isGraph c = false ∨ sp c = true)) → len (w ++ r) = w.length)

theorem readToks_spec {sp : Char → Bool} (hsp : ∀ c, sp c = true → isGraph c = true) {len : List Char → Nat} (hlen : LenOk sp len)
    (hd : sp '$' = false) {e : List Char} (he : Stop e) : ∀ (n : Nat) {t u : List Char}, Blank t u → t.length < n →
    readToks len n (t ++ e) = .val (words (spreadBy sp u)) := by
  intro n
  induction n with
  | zero => intro t u _ h; omega
  | succ n ih =>
    intro t u hB hn
    obtain ⟨t1, u1, h1, h2, h3, h4, h5⟩ := skip_section hsp hB he
    rw [readToks, h1, Out.bind_val, h4]
    cases t1 with
    | nil =>
      cases h2
      rw [List.nil_append, if_pos (hlen.1 e he)]
      simp [spreadBy, words_nil]
    | cons c t1 =>
      obtain ⟨hg, hcd⟩ := h5 c rfl
      by_cases hs : sp c = true
      · obtain ⟨u1, rfl, h2'⟩ : ∃ u2, u1 = c :: u2 ∧ Blank t1 u2 := by
          generalize hq : c :: t1 = q at h2
          cases h2 with
          | nil => cases hq
          | char d _ h2 => cases hq; exact ⟨_, rfl, h2⟩
          | comment _ _ => cases hq; exact absurd rfl hcd
        have hl : len ((c :: t1) ++ e) = 1 := hlen.2.1 c _ hs
        rw [hl, if_neg (by omega)]
        simp only [List.cons_append, List.drop_succ_cons, List.drop_zero, List.take_succ_cons, List.take_zero]
        rw [ih h2' (by simp at h3; omega), Out.bind_val, spread_cons, if_pos hs]
        congr 1
        rw [List.cons_append, words_blank isGraph_space, List.cons_append, List.cons_append, List.nil_append]
        have := words_word (w := [c]) (u := ' ' :: spreadBy sp u1) (by simpa using hg) (by simp) (by intro x hx; simp at hx; subst hx; exact isGraph_space)
        rw [List.singleton_append, words_blank isGraph_space] at this
        rw [this]
      · obtain ⟨w, t2, u2, k1, k2, k3, k4, k5, k6⟩ := run_section (sp := sp) h2
        have hw : w ≠ [] := by
          rintro rfl
          simp only [List.nil_append] at k1
          rcases k6 c (by rw [← k1]; rfl) with h | h | ⟨r, h⟩
          · rw [h] at hg; cases hg
          · exact hs h
          · rw [← k1] at h; simp at h; exact hcd h.1
        have hl : len ((c :: t1) ++ e) = w.length := by
          rw [k1, List.append_assoc]
          refine hlen.2.2 w _ hw k4 ?_
          cases t2 with
          | nil => exact Or.inl he
          | cons d t2 =>
            rcases k6 d rfl with h | h | ⟨r, h⟩
            · exact Or.inr (Or.inr ⟨d, t2 ++ e, rfl, fun hh => by (rw [hh, isGraph_dollar] at h; cases h), Or.inl h⟩)
            · exact Or.inr (Or.inr ⟨d, t2 ++ e, rfl, fun hh => by (rw [hh, hd] at h; cases h), Or.inr h⟩)
            · exact Or.inr (Or.inl ⟨r ++ e, by rw [h]; rfl⟩)
        rw [hl, if_neg (by rw [List.length_eq_zero_iff]; exact hw), k1, List.append_assoc, List.drop_left, List.take_left]
        have hlt : t2.length < (c :: t1).length := by
          rw [k1, List.length_append]
          have := List.length_pos_iff.2 hw
          omega
        rw [ih k3 (by simp at h3 hlt; omega), Out.bind_val, k2, spread_plain _ (fun x hx => (k4 x hx).2.2),
          words_word (fun x hx => (k4 x hx).1) hw (spread_head k5)]

theorem tokenLen_ok : LenOk (fun _ => false) tokenLen := by
  refine ⟨?_, by simp, ?_⟩
  · rintro e (rfl | ⟨d, r, rfl, h1, h2, h3, h4⟩)
    · rfl
    · rw [tokenLen_dollar, if_neg (by simp [h3, h4])]
  · intro w
    induction w with
    | nil => intro r h; exact absurd rfl h
    | cons c w ih =>
      intro r _ hw hr
      obtain ⟨g1, g2, _⟩ := hw c (by simp)
      rw [List.cons_append, tokenLen_char g2, if_pos g1, List.length_cons]
      by_cases hne : w = []
      · subst hne
        rw [List.nil_append]
        rcases hr with (rfl | ⟨d, r, rfl, h1, h2, h3, h4⟩) | ⟨r', rfl⟩ | ⟨d, r', rfl, h1, h2⟩
        · rfl
        · rw [tokenLen_dollar, if_neg (by simp [h3, h4])]; rfl
        · rw [tokenLen_dollar, if_neg (by decide)]; rfl
        · rw [tokenLen_char h1, if_neg (by simpa using h2)]; rfl
      · rw [ih r hne (fun x hx => hw x (by simp [hx])) hr]

theorem isSingle_graph {c : Char} (h : isSingle c = true) : isGraph c = true := by
  simp [isSingle] at h
  rcases h with (((rfl | rfl) | rfl) | rfl) | rfl <;> decide

theorem proofTokenTail_ok {w r : List Char} (hw : ∀ c ∈ w, isGraph c = true ∧ c ≠ '$' ∧ isSingle c = false)
    (hr : Stop r ∨ (∃ r', r = '$' :: '(' :: r') ∨ ∃ c r', r = c :: r' ∧ c ≠ '$' ∧ (isGraph c = false ∨ isSingle c = true)) :
    proofTokenTail (w ++ r) = w.length := by
  induction w with
  | nil =>
    rw [List.nil_append]
    rcases hr with (rfl | ⟨d, r, rfl, h1, h2, h3, h4⟩) | ⟨r', rfl⟩ | ⟨d, r', rfl, h1, h2⟩
    · rfl
    · rw [proofTokenTail_dollar, if_neg h3]; rfl
    · rw [proofTokenTail_dollar, if_neg (by decide)]; rfl
    · rw [proofTokenTail_char h1, if_neg]
      · rfl
      · rintro ⟨g1, g2⟩
        rcases h2 with h2 | h2
        · rw [g1] at h2; cases h2
        · rw [g2] at h2; cases h2
  | cons c w ih =>
    obtain ⟨g1, g2, g3⟩ := hw c (by simp)
    rw [List.cons_append, proofTokenTail_char g2, if_pos ⟨g1, g3⟩, ih (fun x hx => hw x (by simp [hx]))]
    rfl

theorem proofTokenLen_ok : LenOk isSingle proofTokenLen := by
  refine ⟨?_, ?_, ?_⟩
  · intro e he
    have h0 := proofTokenTail_ok (w := []) (r := e) (by simp) (Or.inl he)
    unfold proofTokenLen
    rw [if_neg]
    · exact h0
    · rcases he with rfl | ⟨d, r, rfl, h1, h2, h3, h4⟩
      · simp
      · simp; decide
  · intro c r h
    simp [proofTokenLen, h]
  · intro w r hne hw hr
    unfold proofTokenLen
    rw [if_neg, proofTokenTail_ok hw hr]
    cases w with
    | nil => exact absurd rfl hne
    | cons c w => simp [(hw c (by simp)).2.2]

/-- C23: the math symbols read from a section are its words, comments counting as blanks. -/
theorem C23_math_tokens {t u e : List Char} (hB : Blank t u) (he : Stop e) : mathToks (t ++ e) = .val (words u) := by
  have h := readToks_spec (sp := fun _ => false) (by simp) tokenLen_ok rfl he ((t ++ e).length + 1) hB (by simp; omega)
  rw [mathToks, h]
  congr 2
  simp [spreadBy]

/-- C23: the same for proof sections, where `:` `?` `(` `)` `=` are tokens by themselves. -/
theorem C23_proof_tokens {t u e : List Char} (hB : Blank t u) (he : Stop e) : proofToks (t ++ e) = .val (proofWords u) := by
  rw [proofWords, isSingle_eq]
  exact readToks_spec (fun _ => isSingle_graph) proofTokenLen_ok (by decide) he ((t ++ e).length + 1) hB (by simp; omega)

/-- C23: two sections with the same words, whatever white space and comments separate them and whatever follows them, are read alike. -/
theorem C23_spacing_irrelevant {t₁ u₁ e₁ t₂ u₂ e₂ : List Char} (h₁ : Blank t₁ u₁) (h₂ : Blank t₂ u₂) (he₁ : Stop e₁) (he₂ : Stop e₂) :
    (words u₁ = words u₂ → mathToks (t₁ ++ e₁) = mathToks (t₂ ++ e₂)) ∧ (proofWords u₁ = proofWords u₂ → proofToks (t₁ ++ e₁) = proofToks (t₂ ++ e₂)) := by
  rw [C23_math_tokens h₁ he₁, C23_math_tokens h₂ he₂, C23_proof_tokens h₁ he₁, C23_proof_tokens h₂ he₂]
  exact ⟨fun h => by rw [h], fun h => by rw [h]⟩

end MM.Lex
