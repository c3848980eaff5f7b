import Verif.Incl.Step
/-!
# File inclusion does what the language says
-/
namespace MM.Incl
open MM.Veri MM.Pars MM.Lex

variable {fs : Name → Out (Option (List Char))} {main : Name} {disk : Name → Option (List Char)}

/-- The program reads the files of the disk with the same words, and each ends with a line end. -/
def FsOk (fs : Name → Out (Option (List Char))) (disk : Name → Option (List Char)) : Prop :=
  ∀ f, match disk f with
    | none => fs f = .val none
    | some b => ∃ t, fs f = .val (some t) ∧ words t = words b ∧ EndsGap t ∧ t ≠ []

theorem words_skipText {f o : List Char} (hf : f ≠ []) (hg : ∀ c ∈ f, isGraph c = true) (ho : AtGap o) :
    words (skipText f ++ o) = [['$', '('], ['S', 'k', 'i', 'p'], ['$', '['], f, ['$', ']'], ['$', ')']] ++ words o := by
  have e : skipText f ++ o = "$( Skip $[ ".toList ++ (f ++ (" $] ".toList ++ (['$', ')'] ++ o))) := by
    unfold skipText
    simp
  rw [e, words_app (Or.inl (by intro c hc; have : c = ' ' := by simpa using hc.symm
                               subst this; decide)), words_word hg hf (by intro c hc; have : c = ' ' := by simpa using hc.symm
                                                                          subst this; decide),
    words_app (Or.inl (by intro c hc; have : c = ' ' := by simpa using hc.symm
                          subst this; decide)), words_word (by decide) (by decide) ho]
  rfl

theorem words_beginText {f o : List Char} (hf : f ≠ []) (hg : ∀ c ∈ f, isGraph c = true) :
    words (beginText f ++ o) = [['$', '('], ['B', 'e', 'g', 'i', 'n'], ['$', '['], f, ['$', ']'], ['$', ')']] ++ words o := by
  have e : beginText f ++ o = "$( Begin $[ ".toList ++ (f ++ (" $] $)\n".toList ++ o)) := by
    unfold beginText
    simp
  rw [e, words_app (Or.inl (by intro c hc; have : c = ' ' := by simpa using hc.symm
                               subst this; decide)), words_word hg hf (by intro c hc; have : c = ' ' := by simpa using hc.symm
                                                                          subst this; decide),
    words_app (Or.inl (by intro c hc; have : c = '\n' := by simpa using hc.symm
                          subst this; decide))]
  rfl

theorem words_endText {f o : List Char} (hf : f ≠ []) (hg : ∀ c ∈ f, isGraph c = true) (ho : AtGap o) :
    words (endText f ++ o) = [['$', '('], ['E', 'n', 'd'], ['$', '['], f, ['$', ']'], ['$', ')']] ++ words o := by
  have e : endText f ++ o = "$( End $[ ".toList ++ (f ++ (" $] ".toList ++ (['$', ')'] ++ o))) := by
    unfold endText
    simp
  rw [e, words_app (Or.inl (by intro c hc; have : c = ' ' := by simpa using hc.symm
                               subst this; decide)), words_word hg hf (by intro c hc; have : c = ' ' := by simpa using hc.symm
                                                                          subst this; decide),
    words_app (Or.inl (by intro c hc; have : c = ' ' := by simpa using hc.symm
                          subst this; decide)), words_word (by decide) (by decide) ho]
  rfl

/-- A markup comment disappears. -/
theorem uncomment_markup {k f : Name} (hk : '$' ∉ k) (hf : '$' ∉ f) (ws : List Name) :
    uncomment false ([['$', '('], k, ['$', '['], f, ['$', ']'], ['$', ')']] ++ ws) = uncomment false ws := by
  have hm : ∀ w : Name, '$' ∉ w → hasMark w = false ∧ w ≠ ['$', ')'] := by
    intro w hw
    constructor
    · unfold hasMark
      rw [Bool.or_eq_false_iff]
      constructor
      · exact decide_eq_false fun h => hw (h.subset (List.mem_cons_self))
      · exact decide_eq_false fun h => hw (h.subset (List.mem_cons_self))
    · rintro rfl; exact hw (List.mem_cons_self)
  have step : ∀ (w : Name) (vs : List Name), hasMark w = false → w ≠ ['$', ')'] → uncomment true (w :: vs) = uncomment true vs := by
    intro w vs h1 h2
    rw [uncomment, if_neg h2, h1]
    rfl
  simp only [List.cons_append, List.nil_append]
  rw [uncomment, if_pos rfl, step _ _ (hm k hk).1 (hm k hk).2, step _ _ (by decide) (by decide), step _ _ (hm f hf).1 (hm f hf).2,
    step _ _ (by decide) (by decide), uncomment, if_pos rfl]

theorem suffix_infix_main {ws vs : List Name} {m : Name} (h : ¬ [['$', '['], m, ['$', ']']] <:+: ws) (hs : vs <:+ ws) : ¬ [['$', '['], m, ['$', ']']] <:+: vs :=
  fun hi => h (hi.trans hs.isInfix)

theorem upTo_append (z q : List Char) : upTo (z ++ q) q = z := by
  unfold upTo
  rw [List.length_append, Nat.add_sub_cancel]
  exact List.take_left

theorem uncomment_first {w : Name} {ws ts : List Name} (h1 : w ≠ ['$', '(']) (h : uncomment false (w :: ws) = some ts) :
    hasMark w = false ∧ ∃ ts', ts = w :: ts' ∧ uncomment false ws = some ts' := by
  rw [uncomment, if_neg h1] at h
  by_cases h2 : hasMark w = true
  · rw [if_pos h2] at h; cases h
  · rw [if_neg h2] at h
    cases hu : uncomment false ws with
    | none => rw [hu] at h; cases h
    | some y => rw [hu] at h; cases h; exact ⟨by simpa using h2, y, rfl, rfl⟩

theorem not_open {w : Name} (h : hasMark w = false) : ¬ ['$', '('] <+: w := by
  intro hp
  unfold hasMark at h
  rw [Bool.or_eq_false_iff] at h
  exact of_decide_eq_false h.1 hp.isInfix

/-- What the result of `readInclude` has to do with the text. -/
structure Res (p o : List Char) (out : List Name) : Prop where
  words : uncomment false (words o) = some out
  head : AtGap p → AtGap o
  last : EndsGap p → o.getLast? = p.getLast?

theorem Res.gap {p o : List Char} {out : List Name} (h : Res p o out) (hp : EndsGap p) : EndsGap o := by
  intro c hc
  rw [h.last hp] at hc
  exact hp c hc

/-- The last character after a part of the text has been replaced. -/
theorem last_append {a b p' o' : List Char} (hp : EndsGap (a ++ p')) (h : EndsGap p' → o'.getLast? = p'.getLast?) (hb : p' = [] → a.getLast? = b.getLast?) :
    (b ++ o').getLast? = (a ++ p').getLast? := by
  have hg : EndsGap p' := by
    intro d hd
    apply hp d
    rw [List.getLast?_append, hd]
    rfl
  rw [List.getLast?_append, List.getLast?_append, h hg]
  cases hl : p'.getLast? with
  | none => rw [hb (List.getLast?_eq_none_iff.1 hl)]
  | some y => rfl

/-- Text before the pointer that does not count. -/
theorem Res.skip {a p' o' : List Char} {out x : List Name} (ha : a = [] ∨ AtGap p') (hw : uncomment false (Lex.words a) = some x) (h : Res p' o' out) :
    Res (a ++ p') (a ++ o') (x ++ out) := by
  by_cases ha0 : a = []
  · subst ha0
    rw [words_nil] at hw
    cases hw
    exact h
  · have hg : AtGap p' := by
      rcases ha with h | h
      · exact absurd h ha0
      · exact h
    refine ⟨?_, ?_, ?_⟩
    · rw [words_app (Or.inr (h.head hg)), uncomment_append hw, h.words]; rfl
    · intro hp c hc
      apply hp c
      cases a with
      | nil => exact absurd rfl ha0
      | cons y a => simpa using hc
    · intro hp
      exact last_append hp h.last fun _ => rfl

/-- White space, and a comment in place of a file inclusion. -/
theorem Res.skip_text {z y c2 o2 f : List Char} {p : List Char} {out : List Name} (hp : p = z ++ (['$', '['] ++ y)) (hp2 : ∃ x, p = x ++ (['$', ']'] ++ c2))
    (hz : ∀ c ∈ z, isGraph c = false) (hg : AtGap c2) (hf : f ≠ []) (hfg : ∀ c ∈ f, isGraph c = true) (hfd : '$' ∉ f) (h : Res c2 o2 out) :
    Res p (z ++ (skipText f ++ o2)) out := by
  refine ⟨?_, ?_, ?_⟩
  · rw [words_app (Or.inl fun c hc => hz c (List.mem_of_getLast? hc)), words_gap hz, List.nil_append, words_skipText hf hfg (h.head hg),
      uncomment_markup (by decide) hfd]
    exact h.words
  · intro hpg c hc
    cases z with
    | nil =>
      have := hpg '$' (by rw [hp]; rfl)
      exact absurd this (by decide)
    | cons x z =>
      apply hz c
      simp at hc
      rw [hc]
      exact List.mem_cons_self
  · intro hpe
    obtain ⟨x, hx⟩ := hp2
    rw [hx, ← List.append_assoc] at hpe ⊢
    rw [← List.append_assoc]
    refine last_append hpe h.last ?_
    rintro rfl
    have := hpe ']' (by simp)
    exact absurd this (by decide)

/-- White space, and the text of a file with the comments around it. -/
theorem Res.begin_text {z y c2 o2 f t i : List Char} {p : List Char} {out out1 : List Name} (hp : p = z ++ (['$', '['] ++ y)) (hp2 : ∃ x, p = x ++ (['$', ']'] ++ c2))
    (hz : ∀ c ∈ z, isGraph c = false) (hg : AtGap c2) (hf : f ≠ []) (hfg : ∀ c ∈ f, isGraph c = true) (hfd : '$' ∉ f) (ht : EndsGap t) (hi : Res t i out1) (h : Res c2 o2 out) :
    Res p (z ++ (beginText f ++ (i ++ (endText f ++ o2)))) (out1 ++ out) := by
  refine ⟨?_, ?_, ?_⟩
  · rw [words_app (Or.inl fun c hc => hz c (List.mem_of_getLast? hc)), words_gap hz, List.nil_append, words_beginText hf hfg,
      uncomment_markup (by decide) hfd, words_app (Or.inl (hi.gap ht)), uncomment_append hi.words, words_endText hf hfg (h.head hg),
      uncomment_markup (by decide) hfd, h.words]
    rfl
  · intro hpg c hc
    cases z with
    | nil =>
      have := hpg '$' (by rw [hp]; rfl)
      exact absurd this (by decide)
    | cons x z =>
      apply hz c
      simp at hc
      rw [hc]
      exact List.mem_cons_self
  · intro hpe
    obtain ⟨x, hx⟩ := hp2
    rw [hx, ← List.append_assoc] at hpe ⊢
    rw [← List.append_assoc]
    rw [← List.append_assoc, ← List.append_assoc]
    refine last_append hpe h.last ?_
    rintro rfl
    have := hpe ']' (by simp)
    exact absurd this (by decide)

/-- The program carries out the inclusions of the language. -/
theorem run {s s' ts out : List Name} (hfs : FsOk fs disk) (hnm : ∀ f b, disk f = some b → NM (words b))
    (hmain : ∀ f b, disk f = some b → ¬ Includes b main) (h : Inc disk s ts s' out) :
    ∀ (σ : St) (p : List Char), s = σ.seen ++ [main] → uncomment false (words p) = some ts → NM (words p) → ¬ [['$', '['], main, ['$', ']']] <:+: ts →
      ∃ n o σ', expand fs main n σ p = .val (o, ⟨σ', σ.err⟩) ∧ s' = σ' ++ [main] ∧ Res p o out := by
  induction h with
  | done s =>
    intro σ p hs hu hN hm
    obtain ⟨a, p', i1, i2, i3, i4, i5, i6, i7⟩ := skip_comments _ p _ (Nat.le_refl _) hu hN
    have h0 : rawTok (rawWs p') = [] := by
      by_cases h0 : rawTok (rawWs p') = []
      · exact h0
      · rw [words_step h0] at i5
        obtain ⟨_, ts', e, _⟩ := uncomment_first i7 i5
        cases e
    refine ⟨1, p, σ.seen, ?_, hs, ⟨hu, fun h => h, fun _ => rfl⟩⟩
    rw [expand_succ, i2, scan_end h0]
    rfl
  | @word s s' ws out w hw hinc ih =>
    intro σ p hs hu hN hm
    obtain ⟨a, p', i1, i2, i3, i4, i5, i6, i7⟩ := skip_comments _ p _ (Nat.le_refl _) hu hN
    have h0 : rawTok (rawWs p') ≠ [] := by
      intro h0
      rw [words_end h0] at i5
      cases i5
    have hst := words_step h0
    rw [hst] at i5
    obtain ⟨hk, ts', e, hu'⟩ := uncomment_first i7 i5
    obtain ⟨e1, e2⟩ := List.cons.inj e
    subst e2
    have hsc : scan none p' = scan none (afterTok (rawWs p')) := scan_word h0 (by rw [← e1]; exact hw) (not_open hk)
    obtain ⟨n, o, σ', r1, r2, r3⟩ := ih σ (afterTok (rawWs p')) hs hu' (hN.suffix (by rw [hst] at i6; exact (List.suffix_cons _ _).trans i6))
      (suffix_infix_main hm (List.suffix_cons _ _))
    obtain ⟨z, hz, hzg⟩ := rawWs_split p'
    have hp' : p' = (z ++ rawTok (rawWs p')) ++ afterTok (rawWs p') := by
      rw [List.append_assoc, rawTok_append]; exact hz
    have hwz : uncomment false (words (z ++ rawTok (rawWs p'))) = some [w] := by
      rw [words_app (Or.inl fun c hc => hzg c (List.mem_of_getLast? hc)), words_gap hzg, List.nil_append]
      have hww := words_word (rawTok_graph (rawWs p')) h0 (u := []) (by intro c hc; cases hc)
      rw [List.append_nil] at hww
      rw [hww, words_nil, uncomment, if_neg i7, hk, e1]
      rfl
    have hres : Res (a ++ p') (a ++ ((z ++ rawTok (rawWs p')) ++ o)) (w :: out) := by
      have q1 := Res.skip (Or.inr (atGap_after _)) hwz r3
      rw [← hp'] at q1
      have q2 := Res.skip i4 i3 q1
      exact q2
    have hn0 : n ≠ 0 := by rintro rfl; cases r1
    obtain ⟨m, rfl⟩ := Nat.exists_eq_succ_of_ne_zero hn0
    refine ⟨m + 1, _, σ', ?_, r2, by rw [i1]; exact hres⟩
    rw [i1, expand_skip (by rw [← i1]; exact i2)]
    have hr : expand fs main (m + 1) σ p' = .val ((z ++ rawTok (rawWs p')) ++ o, ⟨σ', σ.err⟩) := by
      have hx := expand_skip (fs := fs) (main := main) (a := z ++ rawTok (rawWs p')) (p' := afterTok (rawWs p')) (by rw [← hp']; exact hsc) m σ
      rw [← hp', show m + 1 = m.succ from rfl, r1] at hx
      exact hx
    rw [hr]
    rfl
  | @again s s' ws out f hfd hfs' hinc ih =>
    intro σ p hs hu hN hm
    obtain ⟨a, p', i1, i2, i3, i4, i5, i6, i7⟩ := skip_comments _ p _ (Nat.le_refl _) hu hN
    have h0 : rawTok (rawWs p') ≠ [] := by
      intro h0
      rw [words_end h0] at i5
      cases i5
    have hst := words_step h0
    have i5' := i5
    rw [hst] at i5'
    obtain ⟨hk, ts', e, hu'⟩ := uncomment_first i7 i5'
    obtain ⟨e1, e2⟩ := List.cons.inj e
    subst e2
    obtain ⟨c2, y, s1, s2, s3, s4, s5, s6, s7⟩ := scan_incl e1.symm hfd hu'
    have hfm : f ≠ main := by
      rintro rfl
      exact hm ⟨[], ws, rfl⟩
    have hseen : f ∈ σ.seen := by
      rw [hs] at hfs'
      rcases List.mem_append.1 hfs' with h | h
      · exact h
      · exact absurd (List.mem_singleton.1 h) hfm
    obtain ⟨n, o, σ', r1, r2, r3⟩ := ih σ c2 hs s2 (hN.suffix (s3.trans i6)) (suffix_infix_main hm ((List.suffix_cons _ _).trans ((List.suffix_cons _ _).trans (List.suffix_cons _ _))))
    obtain ⟨z, hz, hzg⟩ := rawWs_split p'
    have hq : rawWs p' = ['$', '['] ++ afterTok (rawWs p') := by
      rw [e1, rawTok_append]
    have hres : Res p' (z ++ (skipText f ++ o)) out := Res.skip_text (by rw [← hq]; exact hz) ⟨y, s5⟩ hzg s4 s6 s7 hfd r3
    refine ⟨n + 1, a ++ (z ++ (skipText f ++ o)), σ', ?_, r2, by rw [i1]; exact Res.skip i4 i3 hres⟩
    rw [i1, expand_skip (by rw [← i1]; exact i2), expand_succ, s1, Out.bind_val]
    unfold expandStep
    dsimp only
    rw [if_neg hfm, if_pos hseen, r1]
    have hup : upTo p' (rawWs p') = z := by
      conv_lhs => rw [hz]
      rw [show rawWs (z ++ rawWs p') = rawWs p' by rw [← hz]]
      exact upTo_append z _
    rw [hup]
    rfl
  | @first s s1 s' ws ts1 out1 out f text hfd hfs' hdisk htok hinc1 hinc2 ih1 ih2 =>
    intro σ p hs hu hN hm
    obtain ⟨a, p', i1, i2, i3, i4, i5, i6, i7⟩ := skip_comments _ p _ (Nat.le_refl _) hu hN
    have h0 : rawTok (rawWs p') ≠ [] := by
      intro h0
      rw [words_end h0] at i5
      cases i5
    have hst := words_step h0
    have i5' := i5
    rw [hst] at i5'
    obtain ⟨hk, ts', e, hu'⟩ := uncomment_first i7 i5'
    obtain ⟨e1, e2⟩ := List.cons.inj e
    subst e2
    obtain ⟨c2, y, s1', s2, s3, s4, s5, s6, s7⟩ := scan_incl e1.symm hfd hu'
    have hfm : f ≠ main := by
      rintro rfl
      exact hm ⟨[], ws, rfl⟩
    have hseen : f ∉ σ.seen := by
      intro hx
      apply hfs'
      rw [hs]
      exact List.mem_append_left _ hx
    have hF := hfs f
    rw [hdisk] at hF
    obtain ⟨t, t1, t2, t3, t4⟩ := hF
    obtain ⟨n1, o1, σ1, r1, r2, r3⟩ := ih1 ⟨f :: σ.seen, σ.err⟩ t (by rw [hs]; rfl) (by rw [t2]; exact htok) (by rw [t2]; exact hnm f text hdisk)
      (fun hi => hmain f text hdisk ⟨ts1, htok, hi⟩)
    obtain ⟨n2, o2, σ2, q1, q2, q3⟩ := ih2 ⟨σ1, σ.err⟩ c2 r2 s2 (hN.suffix (s3.trans i6)) (suffix_infix_main hm ((List.suffix_cons _ _).trans ((List.suffix_cons _ _).trans (List.suffix_cons _ _))))
    obtain ⟨z, hz, hzg⟩ := rawWs_split p'
    have hq : rawWs p' = ['$', '['] ++ afterTok (rawWs p') := by
      rw [e1, rawTok_append]
    have hres : Res p' (z ++ (beginText f ++ (o1 ++ (endText f ++ o2)))) (out1 ++ out) :=
      Res.begin_text (by rw [← hq]; exact hz) ⟨y, s5⟩ hzg s4 s6 s7 hfd t3 r3 q3
    refine ⟨max n1 n2 + 1, a ++ (z ++ (beginText f ++ (o1 ++ (endText f ++ o2)))), σ2, ?_, q2, by rw [i1]; exact Res.skip (x := []) i4 i3 hres⟩
    rw [i1, expand_skip (by rw [← i1]; exact i2), expand_succ, s1', Out.bind_val]
    unfold expandStep
    dsimp only
    rw [if_neg hfm, if_neg hseen]
    unfold inclNew
    rw [t1, Out.bind_val]
    have r1' : expand fs main (max n1 n2) (content { σ with seen := f :: σ.seen } (some t)).2 (content σ (some t)).1 = .val (o1, ⟨σ1, σ.err⟩) := by
      exact (expand_mono (s := ⟨f :: σ.seen, σ.err⟩) (p := t) (Nat.le_max_left n1 n2) (by rw [r1]; intro h; cases h)).trans r1
    have q1' : expand fs main (max n1 n2) ⟨σ1, σ.err⟩ c2 = .val (o2, ⟨σ2, σ.err⟩) := by
      rw [← q1]
      exact expand_mono (Nat.le_max_right n1 n2) (by rw [q1]; intro h; cases h)
    rw [r1', Out.bind_val, q1']
    have hup : upTo p' (rawWs p') = z := by
      conv_lhs => rw [hz]
      rw [show rawWs (z ++ rawWs p') = rawWs p' by rw [← hz]]
      exact upTo_append z _
    rw [hup]
    rfl

end MM.Incl
