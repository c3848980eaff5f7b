import Verif.Incl.Scan
/-!
# The pointers returned by `getNextInclusion`
-/
namespace MM.Incl
open MM.Veri MM.Pars MM.Lex

/-- The pointers are in order, in the text from `P` on. -/
def Cmd.Ok (P : List Char) : Cmd → Prop
  | .none => True
  | .incl c1 _ c2 => c1 <:+ P ∧ c2 <:+ c1 ∧ c2.length < c1.length
  | .skip c1 _ c2 => c1 <:+ P ∧ c2 <:+ c1 ∧ c2.length < c1.length
  | .block c1 _ c2 e1 e2 => c1 <:+ P ∧ c2 <:+ c1 ∧ c2.length < c1.length ∧ e1 <:+ c2 ∧ e2 <:+ e1 ∧ e2.length < e1.length
  | .noEnd c2 => c2 <:+ P ∧ c2.length < P.length

def Look.Ok (P p : List Char) (l : Look) : Prop := l.c1 <:+ P ∧ l.c2 <:+ l.c1 ∧ l.c2.length < l.c1.length ∧ p <:+ l.c2

theorem Look.Ok.mono {P p p' : List Char} {l : Look} (h : l.Ok P p) (hp : p' <:+ p) : l.Ok P p' := ⟨h.1, h.2.1, h.2.2.1, hp.trans h.2.2.2⟩

theorem comment_other_none {q : List Char} : ∀ p, comment none q ≠ .close p := by
  intro p h
  unfold comment at h
  dsimp only at h
  by_cases h1 : rawTok q = ['B', 'e', 'g', 'i', 'n']
  · rw [if_pos h1] at h
    cases hm : markup (fun _ => true) q <;> rw [hm] at h <;> cases h
  · rw [if_neg h1] at h
    by_cases h2 : rawTok q = ['S', 'k', 'i', 'p']
    · rw [if_pos h2] at h
      cases hm : markup (fun _ => true) q <;> rw [hm] at h <;> cases h
    · rw [if_neg h2] at h; cases h

theorem comment_some {q : List Char} {l : Look} : (∀ nm p, comment (some l) q ≠ .begin nm p) ∧ (∀ nm p, comment (some l) q ≠ .skip nm p) := by
  unfold comment
  dsimp only
  by_cases h1 : rawTok q = ['E', 'n', 'd']
  · rw [if_pos h1]
    cases hm : markup (fun w => w.isPrefixOf l.nm) q
    · exact ⟨fun _ _ h => (by cases h), fun _ _ h => by cases h⟩
    · exact ⟨fun _ _ h => (by cases h), fun _ _ h => by cases h⟩
  · rw [if_neg h1]
    exact ⟨fun _ _ h => (by cases h), fun _ _ h => by cases h⟩

theorem scan_ok : ∀ (n : Nat) (look : Option Look) (P p : List Char) (cmd : Cmd), p.length ≤ n → p <:+ P → (∀ l, look = some l → l.Ok P p) →
    scan look p = .val cmd → cmd.Ok P := by
  intro n
  induction n with
  | zero =>
    intro look P p cmd hn hp hl h
    have : p = [] := List.length_eq_zero_iff.1 (Nat.le_zero.1 hn)
    subst this
    rw [scan_end rfl] at h
    cases look with
    | none => cases h; trivial
    | some l =>
      cases h
      have := hl l rfl
      have e := this.1.length_le
      exact ⟨this.2.1.trans this.1, by have := this.2.2.1; omega⟩
  | succ n ih =>
    intro look P p cmd hn hp hl h
    by_cases h0 : rawTok (rawWs p) = []
    · rw [scan_end h0] at h
      cases look with
      | none => cases h; trivial
      | some l =>
        cases h
        have := hl l rfl
        have e := this.1.length_le
        exact ⟨this.2.1.trans this.1, by have := this.2.2.1; omega⟩
    · have hlen := len_after h0
      have sq : rawWs p <:+ p := rawWs_suffix p
      have sa : afterTok (rawWs p) <:+ p := (afterTok_suffix _).trans sq
      have hlt : (afterTok (rawWs p)).length < (rawWs p).length := by
        have h1 := congrArg List.length (rawTok_append (rawWs p))
        have h2 : 0 < (rawTok (rawWs p)).length := List.length_pos_iff.2 h0
        simp only [List.length_append] at h1
        omega
      have go : ∀ (lk : Option Look) (p' : List Char), p' <:+ afterTok (rawWs p) → (∀ l, lk = some l → l.Ok P p') → scan lk p' = .val cmd → cmd.Ok P := by
        intro lk p' hp' hl' h'
        have := hp'.length_le
        exact ih lk P p' cmd (by omega) (hp'.trans (sa.trans hp)) hl' h'
      have hmono : ∀ (p' : List Char), p' <:+ p → ∀ l, look = some l → l.Ok P p' := fun p' hp' l hl' => (hl l hl').mono hp'
      rw [scan_eq] at h
      unfold stepIncl at h
      dsimp only at h
      rw [if_neg h0] at h
      by_cases h1 : (rawWs p).head? ≠ some '$'
      · rw [if_pos h1] at h
        exact go _ _ (List.suffix_refl _) (hmono _ sa) h
      · rw [if_neg h1] at h
        by_cases h2 : (rawWs p).tail.head? = some '['
        · rw [if_pos h2] at h
          cases look with
          | some l => exact go _ _ (List.suffix_refl _) (hmono _ sa) h
          | none =>
            dsimp only at h
            cases hs : skipWs .ws (afterTok (rawWs p)) with
            | val q1 =>
              rw [hs] at h
              simp only [Out.bind_val] at h
              cases hs2 : skipWs .ws (afterTok q1) with
              | val q2 =>
                rw [hs2] at h
                simp only [Out.bind_val] at h
                have e1 := skipWs_suffix _ _ _ hs
                have e2 := skipWs_suffix _ _ _ hs2
                have e5 : afterTok q2 <:+ afterTok (rawWs p) := (afterTok_suffix q2).trans (e2.trans ((afterTok_suffix q1).trans e1))
                by_cases h3 : rawTok q2 = ['$', ']']
                · rw [if_pos h3] at h
                  cases h
                  have := e5.length_le
                  exact ⟨sq.trans hp, e5.trans (afterTok_suffix _), by omega⟩
                · rw [if_neg h3] at h
                  exact go _ _ e5 (fun l hl' => by cases hl') h
              | ub => rw [hs2] at h; cases h
              | bug k => rw [hs2] at h; cases h
              | fuel => rw [hs2] at h; cases h
            | ub => rw [hs] at h; cases h
            | bug k => rw [hs] at h; cases h
            | fuel => rw [hs] at h; cases h
        · rw [if_neg h2] at h
          by_cases h3 : (rawWs p).tail.head? = some '('
          · rw [if_pos h3] at h
            have hc := comment_suffix look (rawWs (afterTok (rawWs p)))
            have hrs := rawWs_suffix (afterTok (rawWs p))
            cases hcm : comment look (rawWs (afterTok (rawWs p))) with
            | other p' =>
              rw [hcm] at h hc
              have e1 : findClose p' <:+ afterTok (rawWs p) := (findClose_suffix p').trans (hc.trans hrs)
              dsimp only at h
              exact go _ _ e1 (hmono _ (e1.trans sa)) h
            | skip nm p' =>
              rw [hcm] at h hc
              cases h
              have e1 : p' <:+ afterTok (rawWs p) := hc.trans hrs
              have := e1.length_le
              exact ⟨sq.trans hp, e1.trans (afterTok_suffix _), by omega⟩
            | begin nm p' =>
              rw [hcm] at h hc
              have e1 : p' <:+ afterTok (rawWs p) := hc.trans hrs
              have := e1.length_le
              dsimp only at h
              refine go _ _ e1 ?_ h
              intro l hl'
              cases hl'
              exact ⟨sq.trans hp, e1.trans (afterTok_suffix _), by dsimp only; omega, List.suffix_refl _⟩
            | close p' =>
              rw [hcm] at h hc
              have e1 : p' <:+ afterTok (rawWs p) := hc.trans hrs
              have := e1.length_le
              cases look with
              | none => cases h
              | some l =>
                cases h
                have hk := hl l rfl
                exact ⟨hk.1, hk.2.1, hk.2.2.1, sq.trans hk.2.2.2, e1.trans (afterTok_suffix _), by omega⟩
          · rw [if_neg h3] at h
            exact go _ _ (List.suffix_refl _) (hmono _ sa) h

theorem scan_ok' {p : List Char} {cmd : Cmd} (h : scan none p = .val cmd) : cmd.Ok p :=
  scan_ok _ none p p cmd (Nat.le_refl _) (List.suffix_refl _) (fun l hl => by cases hl) h

/-- `getNextInclusion` comes to an end. -/
theorem scan_ne_fuel : ∀ (n : Nat) (look : Option Look) (p : List Char), p.length ≤ n → scan look p ≠ .fuel := by
  have hsk : ∀ (p : List Char) (m : WMode), skipWs m p ≠ .fuel := by
    intro p
    induction p using List.twoStepInduction with
    | nil => intro m; cases m <;> simp [skipWs]
    | singleton c =>
      intro m
      cases m <;> simp only [skipWs] <;> split_ifs <;> simp
    | cons_cons c d r ih1 ih2 =>
      intro m
      cases m <;> rw [skipWs] <;> split_ifs <;> simp_all
  intro n
  induction n with
  | zero =>
    intro look p hn h
    have : p = [] := List.length_eq_zero_iff.1 (Nat.le_zero.1 hn)
    subst this
    rw [scan_end rfl] at h
    cases look <;> cases h
  | succ n ih =>
    intro look p hn h
    by_cases h0 : rawTok (rawWs p) = []
    · rw [scan_end h0] at h
      cases look <;> cases h
    · have hlen := len_after h0
      have go : ∀ (lk : Option Look) (p' : List Char), p' <:+ afterTok (rawWs p) → scan lk p' ≠ .fuel := by
        intro lk p' hp'
        have := hp'.length_le
        exact ih lk p' (by omega)
      rw [scan_eq] at h
      unfold stepIncl at h
      dsimp only at h
      rw [if_neg h0] at h
      by_cases h1 : (rawWs p).head? ≠ some '$'
      · rw [if_pos h1] at h
        exact go _ _ (List.suffix_refl _) h
      · rw [if_neg h1] at h
        by_cases h2 : (rawWs p).tail.head? = some '['
        · rw [if_pos h2] at h
          cases look with
          | some l => exact go _ _ (List.suffix_refl _) h
          | none =>
            dsimp only at h
            cases hs : skipWs .ws (afterTok (rawWs p)) with
            | val q1 =>
              rw [hs] at h
              simp only [Out.bind_val] at h
              cases hs2 : skipWs .ws (afterTok q1) with
              | val q2 =>
                rw [hs2] at h
                simp only [Out.bind_val] at h
                have e1 := skipWs_suffix _ _ _ hs
                have e2 := skipWs_suffix _ _ _ hs2
                have e5 : afterTok q2 <:+ afterTok (rawWs p) := (afterTok_suffix q2).trans (e2.trans ((afterTok_suffix q1).trans e1))
                by_cases h3 : rawTok q2 = ['$', ']']
                · rw [if_pos h3] at h
                  cases h
                · rw [if_neg h3] at h
                  exact go _ _ e5 h
              | ub => rw [hs2] at h; cases h
              | bug k => rw [hs2] at h; cases h
              | fuel => exact hsk _ _ hs2
            | ub => rw [hs] at h; cases h
            | bug k => rw [hs] at h; cases h
            | fuel => exact hsk _ _ hs
        · rw [if_neg h2] at h
          by_cases h3 : (rawWs p).tail.head? = some '('
          · rw [if_pos h3] at h
            have hc := comment_suffix look (rawWs (afterTok (rawWs p)))
            have hrs := rawWs_suffix (afterTok (rawWs p))
            cases hcm : comment look (rawWs (afterTok (rawWs p))) with
            | other p' =>
              rw [hcm] at h hc
              have e1 : findClose p' <:+ afterTok (rawWs p) := (findClose_suffix p').trans (hc.trans hrs)
              dsimp only at h
              exact go _ _ e1 h
            | skip nm p' => rw [hcm] at h; cases h
            | begin nm p' =>
              rw [hcm] at h hc
              exact go _ _ (hc.trans hrs) h
            | close p' =>
              rw [hcm] at h
              cases look <;> cases h
          · rw [if_neg h3] at h
            exact go _ _ (List.suffix_refl _) h

end MM.Incl
