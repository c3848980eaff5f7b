import Verif.Incl.Model
import Verif.Incl.Spec
import Mathlib.Data.List.TakeWhile
/-!
# Words of a text, and the scanner's steps over them
-/
namespace MM.Incl
open MM.Veri MM.Pars MM.Lex

/-- The pointer is not inside a word that began before it: it is at white space or at the end of the text. -/
def AtGap (p : List Char) : Prop := ∀ c, p.head? = some c → isGraph c = false

/-- The text is empty or ends with white space. -/
def EndsGap (p : List Char) : Prop := ∀ c, p.getLast? = some c → isGraph c = false

theorem atGap_after (p : List Char) : AtGap (afterTok p) := by
  intro c hc
  unfold afterTok at hc
  have := List.head?_dropWhile_not isGraph p
  rw [hc] at this
  simpa using this

theorem rawTok_append (p : List Char) : rawTok p ++ afterTok p = p := List.takeWhile_append_dropWhile

theorem rawTok_graph (p : List Char) : ∀ c ∈ rawTok p, isGraph c = true := by
  intro c hc
  exact List.mem_takeWhile_imp hc

theorem words_rawWs : ∀ (p : List Char), words (rawWs p) = words p
  | [] => rfl
  | c :: r => by
    unfold rawWs
    rw [List.dropWhile_cons]
    by_cases h : isGraph c = true
    · rw [if_neg (by simp [h])]
    · rw [if_pos (by simp [h]), words_blank (by simpa using h)]
      exact words_rawWs r

theorem rawTok_nil {p : List Char} (h : rawTok (rawWs p) = []) : rawWs p = [] := by
  cases hq : rawWs p with
  | nil => rfl
  | cons c r =>
    have := List.head?_dropWhile_not (fun c => !isGraph c) p
    unfold rawWs at hq
    rw [hq] at this
    rw [show rawWs p = c :: r from hq] at h
    simp only [List.head?_cons] at this
    unfold rawTok at h
    rw [List.takeWhile_cons, if_pos (by simpa using this)] at h
    cases h

theorem words_end {p : List Char} (h : rawTok (rawWs p) = []) : words p = [] := by
  rw [← words_rawWs, rawTok_nil h, words_nil]

theorem words_step {p : List Char} (h : rawTok (rawWs p) ≠ []) : words p = rawTok (rawWs p) :: words (afterTok (rawWs p)) := by
  rw [← words_rawWs]
  conv_lhs => rw [← rawTok_append (rawWs p)]
  exact words_word (rawTok_graph _) h (atGap_after _)

theorem rawWs_suffix (p : List Char) : rawWs p <:+ p := List.dropWhile_suffix _
theorem afterTok_suffix (p : List Char) : afterTok p <:+ p := List.dropWhile_suffix _

/-- Induction on the words of a text. -/
theorem words_append : ∀ (n : Nat) (a b : List Char), a.length ≤ n → (EndsGap a ∨ AtGap b) → words (a ++ b) = words a ++ words b
  | 0, a, b, hn, _ => by
    have : a = [] := List.length_eq_zero_iff.1 (Nat.le_zero.1 hn)
    subst this
    simp [words_nil]
  | n + 1, [], b, hn, _ => by simp [words_nil]
  | n + 1, c :: r, b, hn, h => by
    have hr : EndsGap r ∨ AtGap b := by
      rcases h with h | h
      · left
        intro d hd
        apply h d
        cases r with
        | nil => cases hd
        | cons x r => simpa using hd
      · exact Or.inr h
    by_cases hc : isGraph c = true
    · have hne : rawTok (rawWs (c :: r)) ≠ [] := by
        unfold rawWs rawTok
        rw [List.dropWhile_cons, if_neg (by simp [hc]), List.takeWhile_cons, if_pos hc]
        intro h; cases h
      have hq : rawWs (c :: r) = c :: r := by
        unfold rawWs
        rw [List.dropWhile_cons, if_neg (by simp [hc])]
      rw [words_step hne, hq]
      rw [hq] at hne
      conv_lhs => rw [← rawTok_append (c :: r)]
      have hlen : (afterTok (c :: r)).length ≤ n := by
        have h1 := congrArg List.length (rawTok_append (c :: r))
        have h2 : 0 < (rawTok (c :: r)).length := List.length_pos_iff.2 hne
        simp only [List.length_append] at h1
        simp only [List.length_cons] at h1 hn
        omega
      have hgap : EndsGap (afterTok (c :: r)) ∨ AtGap b := by
        rcases h with h | h
        · left
          intro d hd
          apply h d
          rw [← rawTok_append (c :: r), List.getLast?_append, hd]
          rfl
        · exact Or.inr h
      rw [List.append_assoc, words_word (rawTok_graph _) hne, words_append n _ _ hlen hgap, List.cons_append]
      intro d hd
      cases ha : afterTok (c :: r) with
      | nil =>
        rw [ha] at hd
        rcases h with h | h
        · exfalso
          have hl := rawTok_append (c :: r)
          rw [ha, List.append_nil] at hl
          cases hg : (c :: r).getLast? with
          | none => simp at hg
          | some x =>
            have h1 := h x hg
            have h2 := rawTok_graph (c :: r) x (by rw [hl]; exact List.mem_of_getLast? hg)
            rw [h1] at h2
            cases h2
        · exact h d hd
      | cons x a =>
        rw [ha] at hd
        exact atGap_after (c :: r) d (by rw [ha]; exact hd)
    · have hc' : isGraph c = false := by simpa using hc
      rw [List.cons_append, words_blank hc', words_blank hc', words_append n r b (by simpa using hn) hr]

theorem words_app {a b : List Char} (h : EndsGap a ∨ AtGap b) : words (a ++ b) = words a ++ words b := words_append _ a b (Nat.le_refl _) h

theorem uncomment_append {ws x : List Name} {com : Bool} (h : uncomment com ws = some x) (vs : List Name) :
    uncomment com (ws ++ vs) = (uncomment false vs).map (x ++ ·) := by
  induction ws generalizing com x with
  | nil =>
    cases com with
    | false =>
      cases h
      rw [List.nil_append]
      cases uncomment false vs <;> rfl
    | true => cases h
  | cons w ws ih =>
    cases com with
    | false =>
      simp only [List.cons_append, uncomment] at h ⊢
      by_cases h1 : w = ['$', '(']
      · rw [if_pos h1] at h ⊢; exact ih h
      · rw [if_neg h1] at h ⊢
        by_cases h2 : hasMark w = true
        · rw [if_pos h2] at h; cases h
        · rw [if_neg h2] at h ⊢
          cases hu : uncomment false ws with
          | none => rw [hu] at h; cases h
          | some y =>
            rw [hu] at h
            cases h
            rw [ih hu]
            cases uncomment false vs <;> rfl
    | true =>
      simp only [List.cons_append, uncomment] at h ⊢
      by_cases h1 : w = ['$', ')']
      · rw [if_pos h1] at h ⊢; exact ih h
      · rw [if_neg h1] at h ⊢
        by_cases h2 : hasMark w = true
        · rw [if_pos h2] at h; cases h
        · rw [if_neg h2] at h ⊢; exact ih h

/-- `findClose` over a word that does not contain `$)`. -/
theorem findClose_word : ∀ (w r : List Char), (∀ c ∈ w, isGraph c = true) → ¬ ['$', ')'] <:+: w → AtGap r → findClose (w ++ r) = findClose r
  | [], r, _, _, _ => rfl
  | c :: w, r, hw, hm, hr => by
    have ih := findClose_word w r (fun d hd => hw d (List.mem_cons_of_mem _ hd)) (fun h => hm (h.trans (List.suffix_cons c w).isInfix)) hr
    rw [List.cons_append, findClose, if_neg, ih]
    rintro ⟨rfl, h⟩
    cases w with
    | nil =>
      have := hr ')' (by simpa using h)
      exact absurd this (by decide)
    | cons d w =>
      simp at h
      subst h
      exact hm ⟨[], w, rfl⟩

theorem findClose_ws : ∀ (p : List Char), findClose p = findClose (rawWs p)
  | [] => rfl
  | c :: r => by
    unfold rawWs
    rw [List.dropWhile_cons]
    by_cases h : isGraph c = true
    · rw [if_neg (by simp [h])]
    · rw [if_pos (by simp [h]), findClose, if_neg]
      · exact findClose_ws r
      · rintro ⟨rfl, _⟩
        exact h (by decide)

theorem len_after {p : List Char} (h : rawTok (rawWs p) ≠ []) : (afterTok (rawWs p)).length < p.length := by
  have h1 := congrArg List.length (rawTok_append (rawWs p))
  have h2 : 0 < (rawTok (rawWs p)).length := List.length_pos_iff.2 h
  have h3 := (rawWs_suffix p).length_le
  simp only [List.length_append] at h1
  omega

/-- Inside a well-formed comment `findClose` gets to the end of the comment. -/
theorem findClose_spec : ∀ (n : Nat) (p : List Char) (ts : List Name), p.length ≤ n → uncomment true (words p) = some ts →
    ∃ b, p = b ++ ['$', ')'] ++ findClose p ∧ AtGap (findClose p) ∧ EndsGap b ∧ uncomment false (words (findClose p)) = some ts ∧ CommentText b ∧
      words p = words b ++ ['$', ')'] :: words (findClose p)
  | 0, p, ts, hn, h => by
    have : p = [] := List.length_eq_zero_iff.1 (Nat.le_zero.1 hn)
    subst this
    rw [words_nil] at h
    cases h
  | n + 1, p, ts, hn, h => by
    by_cases hw : rawTok (rawWs p) = []
    · rw [words_end hw] at h; cases h
    · have hlen := len_after hw
      rw [words_step hw, uncomment] at h
      obtain ⟨z, hz⟩ := rawWs_suffix p
      have hzg : ∀ c ∈ z, isGraph c = false := by
        intro c hc
        have hzz : z = p.takeWhile fun c => !isGraph c := by
          have := List.takeWhile_append_dropWhile (p := fun c => !isGraph c) (l := p)
          have h2 : p.takeWhile (fun c => !isGraph c) ++ rawWs p = z ++ rawWs p := by rw [hz]; exact this
          exact (List.append_cancel_right h2).symm
        rw [hzz] at hc
        simpa using List.mem_takeWhile_imp hc
      have hws : words p = rawTok (rawWs p) :: words (afterTok (rawWs p)) := words_step hw
      by_cases h1 : rawTok (rawWs p) = ['$', ')']
      · rw [if_pos h1] at h
        have hfc : findClose p = afterTok (rawWs p) := by
          rw [findClose_ws]
          conv_lhs => rw [← rawTok_append (rawWs p), h1]
          rfl
        refine ⟨z, ?_, ?_, ?_, ?_, ⟨?_, ?_⟩, ?_⟩
        · rw [hfc]
          have := rawTok_append (rawWs p)
          rw [h1] at this
          rw [List.append_assoc, this, hz]
        · rw [hfc]; exact atGap_after _
        · intro c hc; exact hzg c (List.mem_of_getLast? hc)
        · rw [hfc]; exact h
        · intro hi
          have := hi.subset (List.mem_cons_self)
          have := hzg _ this
          exact absurd this (by decide)
        · intro c hc
          rw [printable_eq]
          exact hzg c (List.mem_of_getLast? hc)
        · have hzw : words z = [] := by
            have : ∀ (z : List Char), (∀ c ∈ z, isGraph c = false) → words z = [] := by
              intro z
              induction z with
              | nil => intro _; exact words_nil
              | cons c z ih => intro hz; rw [words_blank (hz c (List.mem_cons_self))]; exact ih fun d hd => hz d (List.mem_cons_of_mem _ hd)
            exact this z hzg
          rw [hzw, hfc, hws, h1]; rfl
      · rw [if_neg h1] at h
        by_cases h2 : hasMark (rawTok (rawWs p)) = true
        · rw [if_pos h2] at h; cases h
        · rw [if_neg h2] at h
          have hm : ¬ ['$', ')'] <:+: rawTok (rawWs p) := by
            intro hi
            apply h2
            unfold hasMark
            simp [hi]
          obtain ⟨b, hb, hg, he, hu, hc, hwb⟩ := findClose_spec n _ ts (by omega) h
          have hfc : findClose p = findClose (afterTok (rawWs p)) := by
            rw [findClose_ws]
            conv_lhs => rw [← rawTok_append (rawWs p)]
            exact findClose_word _ _ (rawTok_graph _) hm (atGap_after _)
          have hbne : b ≠ [] := by
            intro hb0
            rw [hb0, List.nil_append] at hb
            have := atGap_after (rawWs p) '$' (by rw [hb]; rfl)
            exact absurd this (by decide)
          have hbg : AtGap b := by
            intro c hc
            apply atGap_after (rawWs p) c
            rw [hb]
            cases b with
            | nil => cases hc
            | cons x b => simpa using hc
          have hlast : (z ++ (rawTok (rawWs p) ++ b)).getLast? = b.getLast? := by
            rw [List.getLast?_append, List.getLast?_append]
            cases hbl : b.getLast? with
            | none => exact absurd (List.getLast?_eq_none_iff.1 hbl) hbne
            | some x => rfl
          refine ⟨z ++ (rawTok (rawWs p) ++ b), ?_, ?_, ?_, ?_, ⟨?_, ?_⟩, ?_⟩
          · rw [hfc]
            conv_lhs => rw [← hz, ← rawTok_append (rawWs p), hb]
            simp only [List.append_assoc]
          · rw [hfc]; exact hg
          · intro c hc'
            rw [hlast] at hc'
            exact he c hc'
          · rw [hfc]; exact hu
          · -- no `$)` in white space, the word, the rest
            intro hi
            have key : ∀ (z : List Char), (∀ c ∈ z, isGraph c = false) → ∀ (y : List Char), ['$', ')'] <:+: z ++ y → ['$', ')'] <:+: y := by
              intro z
              induction z with
              | nil => intro _ y h; exact h
              | cons c z ih =>
                intro hz y h
                rw [List.cons_append, List.infix_cons_iff] at h
                rcases h with h | h
                · obtain ⟨k, hk⟩ := h
                  have hc := (List.cons.inj hk).1
                  have := hz c (List.mem_cons_self)
                  rw [← hc] at this
                  exact absurd this (by decide)
                · exact ih (fun d hd => hz d (List.mem_cons_of_mem _ hd)) y h
            have hi := key z hzg _ hi
            have key2 : ∀ (w : List Char), ¬ ['$', ')'] <:+: w → ∀ (y : List Char), AtGap y → ['$', ')'] <:+: w ++ y → ['$', ')'] <:+: y := by
              intro w
              induction w with
              | nil => intro _ y _ h; exact h
              | cons c w ih =>
                intro hw y hy h
                rw [List.cons_append, List.infix_cons_iff] at h
                rcases h with h | h
                · exfalso
                  obtain ⟨k, hk⟩ := h
                  cases w with
                  | nil =>
                    cases y with
                    | nil => simp at hk
                    | cons d y =>
                      simp at hk
                      have := hy d rfl
                      rw [← hk.2.1] at this
                      exact absurd this (by decide)
                  | cons d w =>
                    simp at hk
                    apply hw
                    rw [← hk.1, ← hk.2.1]
                    exact ⟨[], w, rfl⟩
                · exact ih (fun hi => hw (hi.trans (List.suffix_cons c w).isInfix)) y hy h
            exact hc.1 (key2 _ hm b hbg hi)
          · intro c hc'
            rw [hlast] at hc'
            exact hc.2 c hc'
          · have hzw : ∀ (z : List Char) (y : List Char), (∀ c ∈ z, isGraph c = false) → words (z ++ y) = words y := by
              intro z y
              induction z with
              | nil => intro _; rfl
              | cons c z ih => intro hz; rw [List.cons_append, words_blank (hz c (List.mem_cons_self))]; exact ih fun d hd => hz d (List.mem_cons_of_mem _ hd)
            rw [hzw z _ hzg, words_word (rawTok_graph _) hw hbg, hws, hwb, hfc]
            rfl

end MM.Incl
