import Verif.Incl.Again
/-!
# Reading the expanded text again: the result is the same text
-/
namespace MM.Incl
open MM.Veri MM.Pars MM.Lex

variable {fs : Name → Out (Option (List Char))} {main : Name} {disk : Name → Option (List Char)}

/-- There is none of the program's own comments in the text. -/
def NM3 (ws : List Name) : Prop := NM ws ∧ ¬ [['$', '('], ['E', 'n', 'd']] <:+: ws

theorem NM3.suffix {ws vs : List Name} (h : NM3 ws) (hs : vs <:+ ws) : NM3 vs :=
  ⟨h.1.suffix hs, fun hi => h.2 (hi.trans hs.isInfix)⟩

theorem NM3.infix {ws vs : List Name} (h : NM3 ws) (hs : vs <:+: ws) : NM3 vs :=
  ⟨⟨fun hi => h.1.1 (hi.trans hs), fun hi => h.1.2 (hi.trans hs)⟩, fun hi => h.2 (hi.trans hs)⟩

theorem NM3.plain {ws : List Name} (h : NM3 ws) (look : Option Look) : PlainCom look ws := by
  cases look with
  | none => exact h.1
  | some _ => exact h.2

theorem words_cut {a p' : List Char} (h : a = [] ∨ AtGap p') : words (a ++ p') = words a ++ words p' := by
  rcases h with rfl | h
  · rw [words_nil]; rfl
  · exact words_app (Or.inr h)

/-- Comments and white space before an inclusion. -/
theorem lead {a z y u : List Char} {look : Option Look} (h : a = [] ∨ AtGap (z ++ ('$' :: y))) (hz : ∀ c ∈ z, isGraph c = false)
    (hu : uncomment false (words a) = some []) (hp : NM3 (words a)) : scan look ((a ++ z) ++ u) = scan look u := by
  rw [List.append_assoc, pass_plain _ a (z ++ u) look [] (Nat.le_refl _) hu (fun _ w hw => nomatch hw) (hp.plain look), scan_rawWs (rawWs_gap hz)]
  rcases h with rfl | h
  · left; intro c hc; cases hc
  · right
    intro c hc
    cases z with
    | nil =>
      have := h '$' rfl
      exact absurd this (by decide)
    | cons x z =>
      apply hz c
      simp at hc
      rw [hc]
      exact List.mem_cons_self

theorem expand_pass {fs' : Name → Out (Option (List Char))} {main' : Name} {A o : List Char} (hs : scan none (A ++ o) = scan none o) {m : Nat} {σ σ' : St}
    (h : expand fs' main' m σ o = .val (o, σ')) : expand fs' main' m σ (A ++ o) = .val (A ++ o, σ') := by
  cases m with
  | zero => cases h
  | succ m =>
    rw [expand_skip hs, h]
    rfl

theorem passes_append {nm : Name} {A o : List Char} (hA : ∀ (l : Look) (r : List Char), l.nm = nm → scan (some l) (A ++ (o ++ r)) = scan (some l) (o ++ r)) (ho : Passes nm o)
    (h : ∀ r, (EndsGap (A ++ o) ∨ AtGap r) → (EndsGap o ∨ AtGap r)) : Passes nm (A ++ o) := by
  intro l r hl hb
  rw [List.append_assoc, hA l r hl, ho l r hl (h r hb)]

theorem endsGap_tail {A o : List Char} (r : List Char) (h : EndsGap (A ++ o) ∨ AtGap r) : EndsGap o ∨ AtGap r := by
  rcases h with h | h
  · left
    intro c hc
    apply h c
    rw [List.getLast?_append, hc]
    rfl
  · exact Or.inr h

/-- What follows the last comment of a markup. -/
theorem gap_after {A o r : List Char} {x : Char} (hx : isGraph x = true) (ho : AtGap o) (h : EndsGap ((A ++ [x]) ++ o) ∨ AtGap r) : AtGap (o ++ r) := by
  cases o with
  | nil =>
    rcases h with h | h
    · rw [List.append_nil] at h
      have := h x (by simp)
      rw [hx] at this
      cases this
    · exact h
  | cons c o =>
    intro d hd
    exact ho d (by simpa using hd)

theorem atGap_app {z y u : List Char} (h : AtGap (z ++ ('$' :: y))) : AtGap (z ++ u) := by
  intro c hc
  cases z with
  | nil =>
    have := h '$' rfl
    exact absurd this (by decide)
  | cons x z =>
    exact h c (by simpa using hc)

/-- The text is ASCII without carriage returns. -/
def AscT (p : List Char) : Prop := ∀ c ∈ p, c.toNat < 128 ∧ c ≠ '\r'

theorem AscT.app {a b : List Char} (ha : AscT a) (hb : AscT b) : AscT (a ++ b) := by
  intro c hc
  rcases List.mem_append.1 hc with h | h
  · exact ha c h
  · exact hb c h

theorem AscT.sub {a b : List Char} (hb : AscT b) (h : a ⊆ b) : AscT a := fun c hc => hb c (h hc)

theorem AscT.graph {f : List Char} (h : ∀ c ∈ f, isGraph c = true) : AscT f := by
  intro c hc
  have := h c hc
  unfold isGraph at this
  rw [Bool.and_eq_true, decide_eq_true_eq, decide_eq_true_eq] at this
  refine ⟨by omega, ?_⟩
  rintro rfl
  exact absurd this (by decide)

theorem AscT.markup {f : List Char} (h : ∀ c ∈ f, isGraph c = true) : AscT (skipText f) ∧ AscT (beginText f) ∧ AscT (endText f) := by
  unfold skipText beginText endText
  exact ⟨(AscT.app (by unfold AscT; decide) (AscT.graph h)).app (by unfold AscT; decide), (AscT.app (by unfold AscT; decide) (AscT.graph h)).app (by unfold AscT; decide),
    (AscT.app (by unfold AscT; decide) (AscT.graph h)).app (by unfold AscT; decide)⟩

/-- The program's result is its own expansion. -/
theorem fixed {s s' ts out : List Name} (hfs : FsOk fs disk) (hnm : ∀ f b, disk f = some b → NM3 (words b))
    (hmain : ∀ f b, disk f = some b → ¬ Includes b main)
    (hpre : ∀ f g, disk f ≠ none → disk g ≠ none → f <+: g → f = g) (h : Inc disk s ts s' out) :
    ∀ (σ : St) (p : List Char), s = σ.seen ++ [main] → uncomment false (words p) = some ts → NM3 (words p) → ¬ [['$', '['], main, ['$', ']']] <:+: ts →
      ∃ n o σ', expand fs main n σ p = .val (o, ⟨σ', σ.err⟩) ∧ s' = σ' ++ [main] ∧ Res p o out ∧ (∀ nm ∈ σ.seen, disk nm ≠ none → Passes nm o) ∧
        (∀ (fs' : Name → Out (Option (List Char))) (main' : Name), (∀ f ∈ σ', f ≠ main') → ∃ m, expand fs' main' m σ o = .val (o, ⟨σ', σ.err⟩)) ∧
        ((∀ f t, fs f = .val (some t) → AscT t) → AscT p → AscT o) := by
  induction h with
  | done s =>
    intro σ p hs hu hN hm
    obtain ⟨a, p', i1, i2, i3, i4, i5, i6, i7⟩ := skip_comments _ p _ (Nat.le_refl _) hu hN.1
    have h0 : rawTok (rawWs p') = [] := by
      by_cases h0 : rawTok (rawWs p') = []
      · exact h0
      · rw [words_step h0] at i5
        obtain ⟨_, ts', e, _⟩ := uncomment_first i7 i5
        cases e
    have key : ∀ (fs' : Name → Out (Option (List Char))) (main' : Name), expand fs' main' 1 σ p = .val (p, ⟨σ.seen, σ.err⟩) := by
      intro fs' main'
      rw [expand_succ, i2, scan_end h0]
      rfl
    refine ⟨1, p, σ.seen, key fs main, hs, ⟨hu, fun h => h, fun _ => rfl⟩, ?_, fun fs' main' _ => ⟨1, key fs' main'⟩, fun _ h => h⟩
    intro nm _ _ l r _ hb
    exact pass_plain _ p r (some l) [] (Nat.le_refl _) hu (fun hl => by cases hl) (hN.plain _) hb
  | @word s s' ws out w hw hinc ih =>
    intro σ p hs hu hN hm
    obtain ⟨a, p', i1, i2, i3, i4, i5, i6, i7⟩ := skip_comments _ p _ (Nat.le_refl _) hu hN.1
    have h0 : rawTok (rawWs p') ≠ [] := by
      intro h0
      rw [words_end h0] at i5
      cases i5
    have hst := words_step h0
    rw [hst] at i5
    obtain ⟨hk, ts', e, hu'⟩ := uncomment_first i7 i5
    obtain ⟨e1, e2⟩ := List.cons.inj e
    subst e2
    have hsc : scan none p' = scan none (afterTok (rawWs p')) := scan_word h0 (by rw [← e1]; exact hw) (not_open hk)
    obtain ⟨n, o, σ', r1, r2, r3, r4, r5, r6⟩ := ih σ (afterTok (rawWs p')) hs hu' (hN.suffix (by rw [hst] at i6; exact (List.suffix_cons _ _).trans i6))
      (suffix_infix_main hm (List.suffix_cons _ _))
    obtain ⟨z, hz, hzg⟩ := rawWs_split p'
    have hp' : p' = (z ++ rawTok (rawWs p')) ++ afterTok (rawWs p') := by
      rw [List.append_assoc, rawTok_append]; exact hz
    have hwz : uncomment false (words (z ++ rawTok (rawWs p'))) = some [w] := by
      rw [words_app (Or.inl fun c hc => hzg c (List.mem_of_getLast? hc)), words_gap hzg, List.nil_append]
      have hww := words_word (rawTok_graph (rawWs p')) h0 (u := []) (by intro c hc; cases hc)
      rw [List.append_nil] at hww
      rw [hww, words_nil, uncomment, if_neg i7, hk, e1]
      rfl
    have hres : Res (a ++ p') (a ++ ((z ++ rawTok (rawWs p')) ++ o)) (w :: out) := by
      have q1 := Res.skip (Or.inr (atGap_after _)) hwz r3
      rw [← hp'] at q1
      have q2 := Res.skip i4 i3 q1
      exact q2
    have hn0 : n ≠ 0 := by rintro rfl; cases r1
    obtain ⟨m, rfl⟩ := Nat.exists_eq_succ_of_ne_zero hn0
    have hg := r3.head (atGap_after (rawWs p'))
    have hAw : words p = words (a ++ (z ++ rawTok (rawWs p'))) ++ words (afterTok (rawWs p')) := by
      conv_lhs => rw [i1, hp', ← List.append_assoc]
      exact words_app (Or.inr (atGap_after _))
    have hAn : NM3 (words (a ++ (z ++ rawTok (rawWs p')))) := hN.infix (by rw [hAw]; exact (List.prefix_append _ _).isInfix)
    have hAu : uncomment false (words (a ++ (z ++ rawTok (rawWs p')))) = some [w] := by
      have : a = [] ∨ AtGap (z ++ rawTok (rawWs p')) := by
        rcases i4 with h | h
        · exact Or.inl h
        · right
          rw [hp'] at h
          intro c hc
          apply h c
          rw [List.head?_append, hc]
          rfl
      rw [words_cut this, uncomment_append i3, hwz]
      rfl
    have hA : ∀ (look : Option Look) (r : List Char), AtGap r → scan look ((a ++ (z ++ rawTok (rawWs p'))) ++ r) = scan look r := by
      intro look r hr
      exact pass_plain _ _ r look [w] (Nat.le_refl _) hAu (fun _ v hv => by rw [List.mem_singleton.1 hv]; exact hw) (hAn.plain look) (Or.inr hr)
    refine ⟨m + 1, a ++ ((z ++ rawTok (rawWs p')) ++ o), σ', ?_, r2, by rw [i1]; exact hres, ?_, ?_, ?_⟩
    · rw [i1, expand_skip (by rw [← i1]; exact i2)]
      have hr : expand fs main (m + 1) σ p' = .val ((z ++ rawTok (rawWs p')) ++ o, ⟨σ', σ.err⟩) := by
        have hx := expand_skip (fs := fs) (main := main) (a := z ++ rawTok (rawWs p')) (p' := afterTok (rawWs p')) (by rw [← hp']; exact hsc) m σ
        rw [← hp', show m + 1 = m.succ from rfl, r1] at hx
        exact hx
      rw [hr]
      rfl
    · intro nm hnm1 hnm2 l r hl hb
      rw [← List.append_assoc] at hb ⊢
      have hor : AtGap (o ++ r) := by
        cases ho : rawTok (rawWs p') with
        | nil => exact absurd ho h0
        | cons c v =>
          have hne := h0
          have : rawTok (rawWs p') = (rawTok (rawWs p')).dropLast ++ [(rawTok (rawWs p')).getLast hne] := (List.dropLast_append_getLast hne).symm
          refine gap_after (A := a ++ (z ++ (rawTok (rawWs p')).dropLast)) (x := (rawTok (rawWs p')).getLast hne) (rawTok_graph (rawWs p') _ (List.getLast_mem hne)) hg ?_
          rw [List.append_assoc a, List.append_assoc z, ← this]
          exact hb
      rw [List.append_assoc, hA _ _ hor]
      exact r4 nm hnm1 hnm2 l r hl (endsGap_tail r hb)
    · intro fs' main' hm'
      obtain ⟨m', hm2⟩ := r5 fs' main' hm'
      refine ⟨m', ?_⟩
      rw [← List.append_assoc]
      exact expand_pass (hA _ _ hg) hm2
    · intro hfa hpa
      have hpa' : AscT p' := hpa.sub (by rw [i1]; exact List.subset_append_right _ _)
      exact (hpa.sub (by rw [i1]; exact List.subset_append_left _ _)).app ((hpa'.sub (by
        conv_rhs => rw [hp']
        exact List.subset_append_left _ _)).app (r6 hfa (hpa'.sub (by
          conv_rhs => rw [hp']
          exact List.subset_append_right _ _))))
  | @again s s' ws out f hfd hfs' hinc ih =>
    intro σ p hs hu hN hm
    obtain ⟨a, p', i1, i2, i3, i4, i5, i6, i7⟩ := skip_comments _ p _ (Nat.le_refl _) hu hN.1
    have h0 : rawTok (rawWs p') ≠ [] := by
      intro h0
      rw [words_end h0] at i5
      cases i5
    have hst := words_step h0
    have i5' := i5
    rw [hst] at i5'
    obtain ⟨hk, ts', e, hu'⟩ := uncomment_first i7 i5'
    obtain ⟨e1, e2⟩ := List.cons.inj e
    subst e2
    obtain ⟨c2, y, s1, s2, s3, s4, s5, s6, s7⟩ := scan_incl e1.symm hfd hu'
    have hfm : f ≠ main := by
      rintro rfl
      exact hm ⟨[], ws, rfl⟩
    have hseen : f ∈ σ.seen := by
      rw [hs] at hfs'
      rcases List.mem_append.1 hfs' with h | h
      · exact h
      · exact absurd (List.mem_singleton.1 h) hfm
    obtain ⟨n, o, σ', r1, r2, r3, r4, r5, r6⟩ := ih σ c2 hs s2 (hN.suffix (s3.trans i6)) (suffix_infix_main hm ((List.suffix_cons _ _).trans ((List.suffix_cons _ _).trans (List.suffix_cons _ _))))
    obtain ⟨z, hz, hzg⟩ := rawWs_split p'
    have hq : rawWs p' = ['$', '['] ++ afterTok (rawWs p') := by
      rw [e1, rawTok_append]
    have hres : Res p' (z ++ (skipText f ++ o)) out := Res.skip_text (by rw [← hq]; exact hz) ⟨y, s5⟩ hzg s4 s6 s7 hfd r3
    have hg := r3.head s4
    have i4' : a = [] ∨ AtGap (z ++ ('$' :: ('[' :: afterTok (rawWs p')))) := by
      rw [hq] at hz
      rw [hz] at i4
      exact i4
    have hlead : ∀ (look : Option Look) (u : List Char), scan look ((a ++ z) ++ u) = scan look u := fun look u =>
      lead i4' hzg i3 (hN.infix (by rw [i1, words_cut i4]; exact (List.prefix_append _ _).isInfix))
    refine ⟨n + 1, a ++ (z ++ (skipText f ++ o)), σ', ?_, r2, by rw [i1]; exact Res.skip i4 i3 hres, ?_, ?_, ?_⟩
    · rw [i1, expand_skip (by rw [← i1]; exact i2), expand_succ, s1, Out.bind_val]
      unfold expandStep
      dsimp only
      rw [if_neg hfm, if_pos hseen, r1]
      have hup : upTo p' (rawWs p') = z := by
        conv_lhs => rw [hz]
        rw [show rawWs (z ++ rawWs p') = rawWs p' by rw [← hz]]
        exact upTo_append z _
      rw [hup]
      rfl
    · intro nm hnm1 hnm2 l r hl hb
      rw [← List.append_assoc a] at hb ⊢
      rw [List.append_assoc, hlead, List.append_assoc, pass_skipText s7 hfd]
      exact r4 nm hnm1 hnm2 l r hl (endsGap_tail r (endsGap_tail r hb))
    · intro fs' main' hm'
      obtain ⟨m', hm2⟩ := r5 fs' main' hm'
      have hseen' : f ∈ σ' := (expand_seen _ _ _ _ _ hm2).subset hseen
      refine ⟨m' + 1, ?_⟩
      rw [← List.append_assoc]
      apply expand_pass (hlead _ _)
      rw [expand_succ, scan_skipText s7 s6 hg, Out.bind_val]
      unfold expandStep
      dsimp only
      rw [if_neg (hm' f hseen'), if_pos hseen, hm2, Out.bind_val, upTo_append]
    · intro hfa hpa
      have hpa' : AscT p' := hpa.sub (by rw [i1]; exact List.subset_append_right _ _)
      exact (hpa.sub (by rw [i1]; exact List.subset_append_left _ _)).app ((hpa'.sub (by
        conv_rhs => rw [hz]
        exact List.subset_append_left _ _)).app ((AscT.markup s7).1.app (r6 hfa (hpa'.sub (by
          conv_rhs => rw [s5]
          exact fun c hc => List.mem_append_right _ (List.mem_append_right _ hc))))))
  | @first s s1 s' ws ts1 out1 out f text hfd hfs' hdisk htok hinc1 hinc2 ih1 ih2 =>
    intro σ p hs hu hN hm
    obtain ⟨a, p', i1, i2, i3, i4, i5, i6, i7⟩ := skip_comments _ p _ (Nat.le_refl _) hu hN.1
    have h0 : rawTok (rawWs p') ≠ [] := by
      intro h0
      rw [words_end h0] at i5
      cases i5
    have hst := words_step h0
    have i5' := i5
    rw [hst] at i5'
    obtain ⟨hk, ts', e, hu'⟩ := uncomment_first i7 i5'
    obtain ⟨e1, e2⟩ := List.cons.inj e
    subst e2
    obtain ⟨c2, y, s1', s2, s3, s4, s5, s6, s7⟩ := scan_incl e1.symm hfd hu'
    have hfm : f ≠ main := by
      rintro rfl
      exact hm ⟨[], ws, rfl⟩
    have hseen : f ∉ σ.seen := by
      intro hx
      apply hfs'
      rw [hs]
      exact List.mem_append_left _ hx
    have hF := hfs f
    rw [hdisk] at hF
    obtain ⟨t, t1, t2, t3, t4⟩ := hF
    obtain ⟨n1, o1, σ1, r1, r2, r3, r4, r5, r6⟩ := ih1 ⟨f :: σ.seen, σ.err⟩ t (by rw [hs]; rfl) (by rw [t2]; exact htok) (by rw [t2]; exact hnm f text hdisk)
      (fun hi => hmain f text hdisk ⟨ts1, htok, hi⟩)
    obtain ⟨n2, o2, σ2, q1, q2, q3, q4, q5, q6⟩ := ih2 ⟨σ1, σ.err⟩ c2 r2 s2 (hN.suffix (s3.trans i6)) (suffix_infix_main hm ((List.suffix_cons _ _).trans ((List.suffix_cons _ _).trans (List.suffix_cons _ _))))
    obtain ⟨z, hz, hzg⟩ := rawWs_split p'
    have hq : rawWs p' = ['$', '['] ++ afterTok (rawWs p') := by
      rw [e1, rawTok_append]
    have hres : Res p' (z ++ (beginText f ++ (o1 ++ (endText f ++ o2)))) (out1 ++ out) :=
      Res.begin_text (by rw [← hq]; exact hz) ⟨y, s5⟩ hzg s4 s6 s7 hfd t3 r3 q3
    have hg := q3.head s4
    have i4' : a = [] ∨ AtGap (z ++ ('$' :: ('[' :: afterTok (rawWs p')))) := by
      rw [hq] at hz
      rw [hz] at i4
      exact i4
    have hlead : ∀ (look : Option Look) (u : List Char), scan look ((a ++ z) ++ u) = scan look u := fun look u =>
      lead i4' hzg i3 (hN.infix (by rw [i1, words_cut i4]; exact (List.prefix_append _ _).isInfix))
    have hgo1 : EndsGap o1 := r3.gap t3
    have hs1 : f :: σ.seen <:+ σ1 := expand_seen _ _ _ _ _ r1
    have hs2 : σ1 <:+ σ2 := expand_seen _ _ _ _ _ q1
    refine ⟨max n1 n2 + 1, a ++ (z ++ (beginText f ++ (o1 ++ (endText f ++ o2)))), σ2, ?_, q2, by rw [i1]; exact Res.skip (x := []) i4 i3 hres, ?_, ?_, ?_⟩
    · rw [i1, expand_skip (by rw [← i1]; exact i2), expand_succ, s1', Out.bind_val]
      unfold expandStep
      dsimp only
      rw [if_neg hfm, if_neg hseen]
      unfold inclNew
      rw [t1, Out.bind_val]
      have r1' : expand fs main (max n1 n2) (content { σ with seen := f :: σ.seen } (some t)).2 (content σ (some t)).1 = .val (o1, ⟨σ1, σ.err⟩) := by
        exact (expand_mono (s := ⟨f :: σ.seen, σ.err⟩) (p := t) (Nat.le_max_left n1 n2) (by rw [r1]; intro h; cases h)).trans r1
      have q1' : expand fs main (max n1 n2) ⟨σ1, σ.err⟩ c2 = .val (o2, ⟨σ2, σ.err⟩) := by
        rw [← q1]
        exact expand_mono (Nat.le_max_right n1 n2) (by rw [q1]; intro h; cases h)
      rw [r1', Out.bind_val, q1']
      have hup : upTo p' (rawWs p') = z := by
        conv_lhs => rw [hz]
        rw [show rawWs (z ++ rawWs p') = rawWs p' by rw [← hz]]
        exact upTo_append z _
      rw [hup]
      rfl
    · intro nm hnm1 hnm2 l r hl hb
      rw [← List.append_assoc a] at hb ⊢
      have hor : AtGap (o2 ++ r) := by
        refine gap_after (A := (a ++ z) ++ (beginText f ++ (o1 ++ ("$( End $[ ".toList ++ f ++ " $] $".toList)))) (x := ')') (by decide) hg ?_
        have : ((a ++ z) ++ (beginText f ++ (o1 ++ ("$( End $[ ".toList ++ f ++ " $] $".toList))) ++ [')']) ++ o2 =
            (a ++ z) ++ (beginText f ++ (o1 ++ (endText f ++ o2))) := by
          unfold endText
          simp
        rw [this]
        exact hb
      rw [List.append_assoc, hlead, List.append_assoc, pass_beginText s7 hfd, List.append_assoc,
        r4 nm (List.mem_cons_of_mem _ hnm1) hnm2 l _ hl (Or.inl hgo1), List.append_assoc, pass_endText s7 s6 hfd hor]
      · exact q4 nm (hs1.subset (List.mem_cons_of_mem _ hnm1)) hnm2 l r hl (endsGap_tail r (endsGap_tail r (endsGap_tail r (endsGap_tail r hb))))
      · intro hp
        rw [hl] at hp
        have := hpre f nm (by rw [hdisk]; simp) hnm2 hp
        subst this
        exact hseen hnm1
    · intro fs' main' hm'
      obtain ⟨m1, hm1⟩ := r5 fs' main' (fun g hg => hm' g (hs2.subset hg))
      obtain ⟨m2, hm2⟩ := q5 fs' main' hm'
      have hf2 : f ∈ σ2 := hs2.subset (hs1.subset List.mem_cons_self)
      refine ⟨max m1 m2 + 1, ?_⟩
      rw [← List.append_assoc]
      apply expand_pass (hlead _ _)
      rw [expand_succ, scan_beginText s7 s6, r4 f List.mem_cons_self (by rw [hdisk]; simp) _ _ rfl (Or.inl hgo1), scan_endText s7 s6 hg rfl, Out.bind_val]
      unfold expandStep
      dsimp only
      rw [if_neg (hm' f hf2), if_neg hseen, List.tail_cons, upTo_append]
      have hm1' : expand fs' main' (max m1 m2) { σ with seen := f :: σ.seen } o1 = .val (o1, ⟨σ1, σ.err⟩) := by
        exact (expand_mono (s := ⟨f :: σ.seen, σ.err⟩) (p := o1) (Nat.le_max_left m1 m2) (by rw [hm1]; intro h; cases h)).trans hm1
      have hm2' : expand fs' main' (max m1 m2) ⟨σ1, σ.err⟩ o2 = .val (o2, ⟨σ2, σ.err⟩) := by
        rw [← hm2]
        exact expand_mono (Nat.le_max_right m1 m2) (by rw [hm2]; intro h; cases h)
      rw [hm1', Out.bind_val]
      dsimp only
      have hsz : (beginText f ++ (o1 ++ (endText f ++ o2))).length - (o1 ++ (endText f ++ o2)).length + o1.length + ((endText f ++ o2).length - o2.length) =
          (beginText f ++ (o1 ++ endText f)).length := by
        simp only [List.length_append]
        omega
      have hcut : beginText f ++ (o1 ++ (endText f ++ o2)) = (beginText f ++ (o1 ++ endText f)) ++ o2 := by simp
      rw [hsz, hcut, if_neg (by simp only [List.length_append]; omega), List.drop_left, List.take_left, hm2', Out.bind_val]
      unfold upTo
      rw [Nat.sub_self, List.take_zero]
      rfl
    · intro hfa hpa
      have hpa' : AscT p' := hpa.sub (by rw [i1]; exact List.subset_append_right _ _)
      exact (hpa.sub (by rw [i1]; exact List.subset_append_left _ _)).app ((hpa'.sub (by
        conv_rhs => rw [hz]
        exact List.subset_append_left _ _)).app ((AscT.markup s7).2.1.app ((r6 hfa (hfa f t t1)).app ((AscT.markup s7).2.2.app (q6 hfa (hpa'.sub (by
          conv_rhs => rw [s5]
          exact fun c hc => List.mem_append_right _ (List.mem_append_right _ hc))))))))

end MM.Incl
