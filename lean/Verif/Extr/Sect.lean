import Verif.Extr.Comp
/-!
# Proof sections: the words of a normal proof
-/
namespace MM.Extr
open MM.Veri MM.Pars MM.Spec MM.Proof MM.Trace MM.Lex

/-- The first printable character of the section is `(`, comments left out. -/
def StartsParen (u : List Char) : Prop := ∃ b u', u = b ++ '(' :: u' ∧ ∀ c ∈ b, printable c = false

theorem skip_other {t u e : List Char} (hB : Blank t u) (he : Stop e) (hn : ¬ StartsParen u) : ∃ q, skipWs .ws (t ++ e) = .val q ∧ q.head? ≠ some '(' := by
  induction hB with
  | nil =>
    refine ⟨e, by rw [List.nil_append]; exact skip_stop he, ?_⟩
    rcases he with rfl | ⟨d, r, rfl, _⟩ <;> simp
  | @char t u c hc hB ih =>
    rw [List.cons_append, skip_ws_char hc]
    by_cases hg : isGraph c = true
    · rw [if_pos hg]
      refine ⟨_, rfl, ?_⟩
      intro e1
      simp only [List.head?_cons, Option.some.injEq] at e1
      exact hn ⟨[], u, by rw [e1]; rfl, fun x hx => by cases hx⟩
    · rw [if_neg hg]
      refine ih ?_
      rintro ⟨b, u', rfl, hb⟩
      refine hn ⟨c :: b, u', rfl, fun x hx => ?_⟩
      rcases List.mem_cons.mp hx with rfl | hx
      · rw [printable_eq]; simpa using hg
      · exact hb x hx
  | @comment t u b hb hB ih =>
    have : '$' :: '(' :: (b ++ '$' :: ')' :: t) ++ e = '$' :: '(' :: (b ++ '$' :: ')' :: (t ++ e)) := by simp
    rw [this, skip_ws_com, skip_comment _ hb]
    refine ih ?_
    rintro ⟨b', u', rfl, hb'⟩
    refine hn ⟨' ' :: b', u', rfl, fun x hx => ?_⟩
    rcases List.mem_cons.mp hx with rfl | hx
    · decide
    · exact hb' x hx

/-- A word that is printable throughout is a word. -/
theorem words_one {w : List Char} (h : ∀ c ∈ w, isGraph c = true) : words w = if w = [] then [] else [w] := by
  cases w with
  | nil => rw [if_pos rfl]; exact words_nil
  | cons c w =>
    rw [if_neg (by simp), words, List.splitOnP_eq_singleton]
    · rfl
    · intro x hx
      rw [printable_eq, h x hx]; rfl

/-- In the words of a proof, a colon stands alone. -/
theorem proofWords_colons (u : List Char) : Colons (proofWords u) := by
  have key : ∀ (n : Nat) (a u : List Char), u.length ≤ n → (∀ c ∈ a, isGraph c = true ∧ c ≠ ':') →
      ∀ w ∈ words (a ++ spreadBy (fun c => [':', '?', '(', ')', '='].contains c) u), w.head? = some ':' → w = [':'] := by
    intro n
    induction n with
    | zero =>
      intro a u hu ha w hw hh
      have : u = [] := List.length_eq_zero_iff.mp (by omega)
      subst this
      have e : a ++ spreadBy (fun c => [':', '?', '(', ')', '='].contains c) [] = a := by simp [spreadBy]
      rw [e, words_one fun c hc => (ha c hc).1] at hw
      by_cases h0 : a = []
      · rw [if_pos h0] at hw; cases hw
      · rw [if_neg h0] at hw
        simp only [List.mem_singleton] at hw
        subst hw
        exact absurd rfl (ha ':' (List.mem_of_mem_head? hh)).2
    | succ n ih =>
      intro a u hu ha w hw hh
      have single : ∀ b : List Char, (∀ c ∈ b, isGraph c = true ∧ c ≠ ':') → w ∈ words b → w = [':'] := by
        intro b hb hw
        rw [words_one fun c hc => (hb c hc).1] at hw
        by_cases h0 : b = []
        · rw [if_pos h0] at hw; cases hw
        · rw [if_neg h0] at hw
          simp only [List.mem_singleton] at hw
          subst hw
          exact absurd rfl (hb ':' (List.mem_of_mem_head? hh)).2
      cases u with
      | nil => exact ih a [] (by simp) ha w hw hh
      | cons c u =>
        simp only [List.length_cons] at hu
        by_cases hc : [':', '?', '(', ')', '='].contains c = true
        · have e : a ++ spreadBy (fun c => [':', '?', '(', ')', '='].contains c) (c :: u) =
              a ++ ' ' :: ([c] ++ ' ' :: ([] ++ spreadBy (fun c => [':', '?', '(', ')', '='].contains c) u)) := by
            unfold spreadBy
            rw [List.flatMap_cons, if_pos hc]
            rfl
          rw [e, MM.Long.words_sep _ _ _ (by decide), MM.Long.words_sep _ _ _ (by decide)] at hw
          have hg : isGraph c = true := by
            have : ∀ d ∈ [':', '?', '(', ')', '='], isGraph d = true := by decide
            exact this c (by simpa using hc)
          rcases List.mem_append.mp hw with hw | hw
          · exact single a ha hw
          rcases List.mem_append.mp hw with hw | hw
          · rw [words_one (by intro d hd; simp only [List.mem_singleton] at hd; rw [hd]; exact hg), if_neg (by simp)] at hw
            simp only [List.mem_singleton] at hw
            subst hw
            simp only [List.head?_cons, Option.some.injEq] at hh
            rw [hh]
          · exact ih [] u (by omega) (fun d hd => by cases hd) w hw hh
        · have e : spreadBy (fun c => [':', '?', '(', ')', '='].contains c) (c :: u) = c :: spreadBy (fun c => [':', '?', '(', ')', '='].contains c) u := by
            unfold spreadBy
            rw [List.flatMap_cons, if_neg hc]
            rfl
          rw [e] at hw
          by_cases hg : isGraph c = true
          · have e2 : a ++ c :: spreadBy (fun c => [':', '?', '(', ')', '='].contains c) u = (a ++ [c]) ++ spreadBy (fun c => [':', '?', '(', ')', '='].contains c) u := by simp
            rw [e2] at hw
            refine ih (a ++ [c]) u (by omega) ?_ w hw hh
            intro d hd
            rcases List.mem_append.mp hd with hd | hd
            · exact ha d hd
            · simp only [List.mem_singleton] at hd
              subst hd
              refine ⟨hg, ?_⟩
              rintro rfl
              exact hc (by decide)
          · rw [MM.Long.words_sep _ _ _ (by simpa using hg)] at hw
            rcases List.mem_append.mp hw with hw | hw
            · exact single a ha hw
            · exact ih [] u (by omega) (fun d hd => by cases hd) w hw hh
  intro w hw hh
  exact key u.length [] u (Nat.le_refl _) (fun d hd => by cases hd) w hw hh

theorem proofWords_ne {u : List Char} : ∀ w ∈ proofWords u, w ≠ [] := by
  intro w hw
  exact words_ne_nil w hw

end MM.Extr
