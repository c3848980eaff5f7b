import Verif.Incl.Words
/-!
# The steps of `getNextInclusion`
-/
namespace MM.Incl
open MM.Veri MM.Pars MM.Lex

theorem skipWs_suffix : ∀ (p : List Char) (m : WMode) (q : List Char), skipWs m p = .val q → q <:+ p
  | [], m, q, h => by
    cases m <;> simp [skipWs] at h <;> subst h <;> exact List.suffix_refl _
  | [c], m, q, h => by
    cases m
    · simp only [skipWs] at h
      by_cases h1 : c = '$'
      · rw [if_pos h1] at h; cases h; exact List.suffix_refl _
      · rw [if_neg h1] at h
        by_cases h2 : isGraph c = true
        · rw [if_pos h2] at h; cases h; exact List.suffix_refl _
        · rw [if_neg h2] at h; cases h; exact List.nil_suffix
    · simp only [skipWs] at h
      by_cases h1 : c = '$'
      · rw [if_pos h1] at h; cases h
      · rw [if_neg h1] at h; cases h; exact List.nil_suffix
    · simp only [skipWs] at h
      by_cases h1 : c = '\n'
      · rw [if_pos h1] at h; cases h; exact List.nil_suffix
      · rw [if_neg h1] at h; cases h
  | c :: d :: r, m, q, h => by
    have ih1 := skipWs_suffix (d :: r)
    have ih2 := skipWs_suffix r
    have s1 : d :: r <:+ c :: d :: r := List.suffix_cons _ _
    have s2 : r <:+ c :: d :: r := (List.suffix_cons d r).trans s1
    cases m
    · rw [skipWs] at h
      by_cases h1 : c = '$'
      · rw [if_pos h1] at h
        by_cases h2 : d = '('
        · rw [if_pos h2] at h; exact (ih2 _ _ h).trans s2
        · rw [if_neg h2] at h
          by_cases h3 : d = '!'
          · rw [if_pos h3] at h; exact (ih2 _ _ h).trans s2
          · rw [if_neg h3] at h; cases h; exact List.suffix_refl _
      · rw [if_neg h1] at h
        by_cases h2 : isGraph c = true
        · rw [if_pos h2] at h; cases h; exact List.suffix_refl _
        · rw [if_neg h2] at h; exact (ih1 _ _ h).trans s1
    · rw [skipWs] at h
      by_cases h1 : c = '$'
      · rw [if_pos h1] at h
        by_cases h2 : d = ')'
        · rw [if_pos h2] at h; exact (ih2 _ _ h).trans s2
        · rw [if_neg h2] at h; exact (ih2 _ _ h).trans s2
      · rw [if_neg h1] at h; exact (ih1 _ _ h).trans s1
    · rw [skipWs] at h
      by_cases h1 : c = '\n'
      · rw [if_pos h1] at h; exact (ih1 _ _ h).trans s1
      · rw [if_neg h1] at h; exact (ih1 _ _ h).trans s1

theorem findClose_suffix : ∀ (p : List Char), findClose p <:+ p
  | [] => List.suffix_refl _
  | c :: r => by
    rw [findClose]
    by_cases h : c = '$' ∧ r.head? = some ')'
    · rw [if_pos h]
      exact (List.tail_suffix r).trans (List.suffix_cons _ _)
    · rw [if_neg h]
      exact (findClose_suffix r).trans (List.suffix_cons _ _)

/-- The pointers of `markup` are further on in the text. -/
theorem markup_suffix (ok : Name → Bool) (q : List Char) :
    (∀ p, markup ok q = .inl p → p <:+ afterTok q) ∧ (∀ nm p, markup ok q = .inr (nm, p) → p <:+ afterTok q) := by
  have s2 : rawWs (afterTok q) <:+ afterTok q := rawWs_suffix _
  have s3 := (rawWs_suffix (afterTok (rawWs (afterTok q)))).trans ((afterTok_suffix _).trans s2)
  have s4 := (rawWs_suffix (afterTok (rawWs (afterTok (rawWs (afterTok q)))))).trans ((afterTok_suffix _).trans s3)
  have s5 := (rawWs_suffix (afterTok (rawWs (afterTok (rawWs (afterTok (rawWs (afterTok q)))))))).trans ((afterTok_suffix _).trans s4)
  unfold markup
  dsimp only
  by_cases h2 : rawTok (rawWs (afterTok q)) ≠ ['$', '[']
  · rw [if_pos h2]
    exact ⟨fun p h => by cases h; exact s2, fun nm p h => by cases h⟩
  · rw [if_neg h2]
    by_cases h3 : ok (rawTok (rawWs (afterTok (rawWs (afterTok q))))) = false
    · rw [if_pos h3]
      exact ⟨fun p h => by cases h; exact s3, fun nm p h => by cases h⟩
    · rw [if_neg h3]
      by_cases h4 : rawTok (rawWs (afterTok (rawWs (afterTok (rawWs (afterTok q)))))) ≠ ['$', ']']
      · rw [if_pos h4]
        exact ⟨fun p h => by cases h; exact s4, fun nm p h => by cases h⟩
      · rw [if_neg h4]
        by_cases h5 : rawTok (rawWs (afterTok (rawWs (afterTok (rawWs (afterTok (rawWs (afterTok q)))))))) ≠ ['$', ')']
        · rw [if_pos h5]
          exact ⟨fun p h => by cases h; exact s5, fun nm p h => by cases h⟩
        · rw [if_neg h5]
          exact ⟨fun p h => (by cases h), fun nm p h => by cases h; exact (afterTok_suffix _).trans s5⟩

/-- The pointer in the result. -/
def Com.ptr : Com → List Char
  | .other p => p
  | .begin _ p => p
  | .skip _ p => p
  | .close p => p

theorem comment_suffix (look : Option Look) (q : List Char) : (comment look q).ptr <:+ q := by
  have key : ∀ ok p, (markup ok q = .inl p → p <:+ q) := fun ok p h => ((markup_suffix ok q).1 p h).trans (afterTok_suffix q)
  have key2 : ∀ ok nm p, (markup ok q = .inr (nm, p) → p <:+ q) := fun ok nm p h => ((markup_suffix ok q).2 nm p h).trans (afterTok_suffix q)
  unfold comment
  cases look with
  | none =>
    dsimp only
    by_cases h1 : rawTok q = ['B', 'e', 'g', 'i', 'n']
    · rw [if_pos h1]
      cases hm : markup (fun _ => true) q with
      | inl p => exact key _ _ hm
      | inr x => exact key2 _ x.1 x.2 hm
    · rw [if_neg h1]
      by_cases h2 : rawTok q = ['S', 'k', 'i', 'p']
      · rw [if_pos h2]
        cases hm : markup (fun _ => true) q with
        | inl p => exact key _ _ hm
        | inr x => exact key2 _ x.1 x.2 hm
      · rw [if_neg h2]
        exact List.suffix_refl _
  | some l =>
    dsimp only
    by_cases h1 : rawTok q = ['E', 'n', 'd']
    · rw [if_pos h1]
      cases hm : markup (fun w => w.isPrefixOf l.nm) q with
      | inl p => exact key _ _ hm
      | inr x => exact key2 _ x.1 x.2 hm
    · rw [if_neg h1]
      exact List.suffix_refl _

/-- One iteration of the loop, with `k` for what is done after it. -/
def stepIncl (k : Option Look → List Char → Out Cmd) (look : Option Look) (p : List Char) : Out Cmd :=
    let q := rawWs p
    if rawTok q = [] then
      (match look with
       | none => .val .none
       | some l => .val (.noEnd l.c2))
    else if q.head? ≠ some '$' then k look (afterTok q)
    else if q.tail.head? = some '[' then
      (match look with
       | none => do
         let q1 ← skipWs .ws (afterTok q)
         let q2 ← skipWs .ws (afterTok q1)
         if rawTok q2 = ['$', ']'] then .val (.incl q (rawTok q1) (afterTok q2)) else k none (afterTok q2)
       | some l => k (some l) (afterTok q))
    else if q.tail.head? = some '(' then
      (match comment look (rawWs (afterTok q)), look with
       | .other p', _ => k look (findClose p')
       | .skip nm p', _ => .val (.skip q nm p')
       | .begin nm p', _ => k (some ⟨q, nm, p'⟩) p'
       | .close p', some l => .val (.block l.c1 l.nm l.c2 q p')
       | .close _, none => .bug 1743)
    else k look (afterTok q)

theorem nextIncl_succ (n : Nat) (look : Option Look) (p : List Char) : nextIncl (n + 1) look p = stepIncl (nextIncl n) look p := rfl

theorem stepIncl_congr {k k' : Option Look → List Char → Out Cmd} {p : List Char} (h : ∀ l r, r.length < p.length → k l r = k' l r) (look : Option Look) :
    stepIncl k look p = stepIncl k' look p := by
  unfold stepIncl
  dsimp only
  by_cases h0 : rawTok (rawWs p) = []
  · rw [if_pos h0, if_pos h0]
  · have hlen := len_after h0
    rw [if_neg h0, if_neg h0]
    by_cases h1 : (rawWs p).head? ≠ some '$'
    · rw [if_pos h1, if_pos h1]; exact h _ _ hlen
    · rw [if_neg h1, if_neg h1]
      by_cases h2 : (rawWs p).tail.head? = some '['
      · rw [if_pos h2, if_pos h2]
        cases look with
        | some l => exact h _ _ hlen
        | none =>
          dsimp only
          cases hs : skipWs .ws (afterTok (rawWs p)) with
          | val q1 =>
            simp only [Out.bind_val]
            cases hs2 : skipWs .ws (afterTok q1) with
            | val q2 =>
              simp only [Out.bind_val]
              by_cases h3 : rawTok q2 = ['$', ']']
              · rw [if_pos h3, if_pos h3]
              · rw [if_neg h3, if_neg h3]
                apply h
                have e1 := (skipWs_suffix _ _ _ hs).length_le
                have e2 := (skipWs_suffix _ _ _ hs2).length_le
                have e3 := (afterTok_suffix q1).length_le
                have e4 := (afterTok_suffix q2).length_le
                omega
            | ub => rfl
            | bug n => rfl
            | fuel => rfl
          | ub => rfl
          | bug n => rfl
          | fuel => rfl
      · rw [if_neg h2, if_neg h2]
        by_cases h3 : (rawWs p).tail.head? = some '('
        · rw [if_pos h3, if_pos h3]
          have hc := comment_suffix look (rawWs (afterTok (rawWs p)))
          have hl2 := (rawWs_suffix (afterTok (rawWs p))).length_le
          cases hcm : comment look (rawWs (afterTok (rawWs p))) with
          | other p' =>
            rw [hcm] at hc
            have e1 : p'.length ≤ _ := hc.length_le
            have e2 := (findClose_suffix p').length_le
            dsimp only
            exact h _ _ (by omega)
          | skip nm p' => rfl
          | begin nm p' =>
            rw [hcm] at hc
            have e1 : p'.length ≤ _ := hc.length_le
            dsimp only
            exact h _ _ (by omega)
          | close p' => cases look <;> rfl
        · rw [if_neg h3, if_neg h3]
          exact h _ _ hlen

theorem nextIncl_fuel : ∀ (n m : Nat) (look : Option Look) (p : List Char), p.length < n → p.length < m → nextIncl n look p = nextIncl m look p
  | 0, _, _, _, h, _ => absurd h (Nat.not_lt_zero _)
  | _ + 1, 0, _, _, _, h => absurd h (Nat.not_lt_zero _)
  | n + 1, m + 1, look, p, hn, hm => by
    rw [nextIncl_succ, nextIncl_succ]
    exact stepIncl_congr (fun l r hr => nextIncl_fuel n m l r (by omega) (by omega)) look

/-- `getNextInclusion` from `lookForEndMode` and pointer on. -/
def scan (look : Option Look) (p : List Char) : Out Cmd := nextIncl (p.length + 1) look p

theorem scan_eq (look : Option Look) (p : List Char) : scan look p = stepIncl scan look p := by
  unfold scan
  rw [nextIncl_succ]
  exact stepIncl_congr (fun l r hr => nextIncl_fuel _ _ l r hr (by omega)) look

theorem scan_end {look : Option Look} {p : List Char} (h : rawTok (rawWs p) = []) : scan look p = (match look with
       | none => .val .none
       | some l => .val (.noEnd l.c2)) := by
  rw [scan_eq]
  unfold stepIncl
  dsimp only
  rw [if_pos h]

theorem not_pair {q : List Char} {d : Char} (hd : isGraph d = true) (hq : rawTok q ≠ []) (h1 : q.head? = some '$') (h2 : q.tail.head? = some d) :
    ['$', d] <+: rawTok q := by
  cases q with
  | nil => cases h1
  | cons c q =>
    cases q with
    | nil => cases h2
    | cons e r =>
      simp at h1 h2
      subst h1; subst h2
      refine ⟨rawTok r, ?_⟩
      unfold rawTok
      rw [List.takeWhile_cons, if_pos (by decide), List.takeWhile_cons, if_pos hd]
      rfl

theorem prefix_pair {q : List Char} {d : Char} (h : ['$', d] <+: rawTok q) : q.head? = some '$' ∧ q.tail.head? = some d := by
  have h2 : ['$', d] <+: q := h.trans ⟨afterTok q, rawTok_append q⟩
  obtain ⟨r, rfl⟩ := h2
  exact ⟨rfl, rfl⟩

theorem scan_word {look : Option Look} {p : List Char} (h : rawTok (rawWs p) ≠ []) (h1 : ¬ ['$', '['] <+: rawTok (rawWs p))
    (h2 : ¬ ['$', '('] <+: rawTok (rawWs p)) : scan look p = scan look (afterTok (rawWs p)) := by
  rw [scan_eq]
  unfold stepIncl
  dsimp only
  rw [if_neg h]
  by_cases h3 : (rawWs p).head? ≠ some '$'
  · rw [if_pos h3]
  · rw [if_neg h3, if_neg (fun h4 => h1 (not_pair (by decide) h (by simpa using h3) h4)), if_neg (fun h4 => h2 (not_pair (by decide) h (by simpa using h3) h4))]

theorem scan_comment {look : Option Look} {p p' : List Char} (h : ['$', '('] <+: rawTok (rawWs p)) (hc : comment look (rawWs (afterTok (rawWs p))) = .other p') :
    scan look p = scan look (findClose p') := by
  have hne : rawTok (rawWs p) ≠ [] := by intro h0; rw [h0] at h; exact absurd (List.prefix_nil.1 h) (by simp)
  obtain ⟨e1, e2⟩ := prefix_pair h
  rw [scan_eq]
  unfold stepIncl
  dsimp only
  rw [if_neg hne, if_neg (by simp [e1]), if_neg (by rw [e2]; decide), if_pos e2, hc]

/-- `whiteSpaceLen` skips white space and comments to the next word outside comments. -/
theorem skipWs_word : ∀ (n : Nat) (p : List Char) (w : Name) (ts : List Name), p.length ≤ n → uncomment false (words p) = some (w :: ts) →
    ¬ ['$', '!'] <+: w → ∃ q, skipWs .ws p = .val q ∧ rawTok q = w ∧ uncomment false (words (afterTok q)) = some ts ∧ words (afterTok q) <:+ words p ∧ q <:+ p
  | 0, p, w, ts, hn, h, _ => by
    have : p = [] := List.length_eq_zero_iff.1 (Nat.le_zero.1 hn)
    subst this
    rw [words_nil] at h
    cases h
  | n + 1, [], w, ts, hn, h, _ => by rw [words_nil] at h; cases h
  | n + 1, c :: r, w, ts, hn, h, hw => by
    by_cases hg : isGraph c = true
    · have hq : rawWs (c :: r) = c :: r := by
        unfold rawWs
        rw [List.dropWhile_cons, if_neg (by simp [hg])]
      have hne : rawTok (rawWs (c :: r)) ≠ [] := by
        rw [hq]
        unfold rawTok
        rw [List.takeWhile_cons, if_pos hg]
        intro h; cases h
      have hst := words_step hne
      rw [hq] at hst hne
      rw [hst] at h
      rw [uncomment] at h
      by_cases h1 : rawTok (c :: r) = ['$', '(']
      · -- a comment
        rw [if_pos h1] at h
        obtain ⟨b, hb, hgap, _, hu, hct, hwb⟩ := findClose_spec _ _ _ (Nat.le_refl _) h
        have happ := rawTok_append (c :: r)
        rw [h1] at happ
        have hc : c = '$' := (List.cons.inj happ).1.symm
        have hlen : (findClose (afterTok (c :: r))).length ≤ n := by
          have e1 := (findClose_suffix (afterTok (c :: r))).length_le
          have e2 := congrArg List.length happ
          simp only [List.length_append, List.length_cons, List.length_nil] at e2
          simp only [List.length_cons] at hn
          omega
        obtain ⟨q, i1, i2, i3, i4, i5⟩ := skipWs_word n _ w ts hlen hu hw
        have hsk : skipWs .ws (c :: r) = .val q := by
          conv_lhs => rw [← happ, hb]
          rw [List.cons_append, List.cons_append, List.nil_append, skip_ws_com, List.append_assoc]
          rw [show ['$', ')'] ++ findClose (afterTok (c :: r)) = '$' :: ')' :: findClose (afterTok (c :: r)) from rfl, skip_comment _ hct]
          exact i1
        refine ⟨q, hsk, i2, i3, ?_, ?_⟩
        · rw [hst, h1, hwb]
          exact i4.trans ((List.suffix_cons _ _).trans ((List.suffix_append _ _).trans (List.suffix_cons _ _)))
        · exact i5.trans ((findClose_suffix _).trans (afterTok_suffix _))
      · rw [if_neg h1] at h
        by_cases h2 : hasMark (rawTok (c :: r)) = true
        · rw [if_pos h2] at h; cases h
        · rw [if_neg h2] at h
          cases hu : uncomment false (words (afterTok (c :: r))) with
          | none => rw [hu] at h; cases h
          | some y =>
            rw [hu] at h
            have he := Option.some.inj h
            obtain ⟨e1, e2⟩ := List.cons.inj he
            refine ⟨c :: r, ?_, e1, by rw [hu, e2], by rw [hst]; exact List.suffix_cons _ _, List.suffix_refl _⟩
            · by_cases hd : c = '$'
              · subst hd
                cases r with
                | nil => rfl
                | cons d r' =>
                  have n1 : d ≠ '(' := by
                    intro hd
                    subst hd
                    apply h2
                    have hp := not_pair (q := '$' :: '(' :: r') (d := '(') (by decide) hne rfl rfl
                    unfold hasMark
                    simp [hp.isInfix]
                  have n2 : d ≠ '!' := by
                    intro hd
                    subst hd
                    have hp := not_pair (q := '$' :: '!' :: r') (d := '!') (by decide) hne rfl rfl
                    rw [e1] at hp
                    exact hw hp
                  simp [skipWs, n1, n2]
              · rw [skip_ws_char hd, if_pos hg]
    · have hg' : isGraph c = false := by simpa using hg
      rw [words_blank hg'] at h
      obtain ⟨q, i1, i2, i3, i4, i5⟩ := skipWs_word n r w ts (by simpa using hn) h hw
      have hc : c ≠ '$' := by rintro rfl; exact hg (by decide)
      refine ⟨q, ?_, i2, i3, ?_, i5.trans (List.suffix_cons _ _)⟩
      · rw [skip_ws_char hc, if_neg hg]; exact i1
      · rw [words_blank hg']; exact i4

end MM.Incl
