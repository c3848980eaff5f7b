import Verif.Incl.Run
/-!
# Reading the expanded text again
-/
namespace MM.Incl
open MM.Veri MM.Pars MM.Lex

variable {fs : Name → Out (Option (List Char))} {main : Name} {disk : Name → Option (List Char)}

theorem tok_app {w u : List Char} (hw : ∀ c ∈ w, isGraph c = true) (hu : AtGap u) : rawTok (w ++ u) = w ∧ afterTok (w ++ u) = u := by
  have h1 : rawTok u = [] ∧ afterTok u = u := by
    cases u with
    | nil => exact ⟨rfl, rfl⟩
    | cons c u =>
      have := hu c rfl
      unfold rawTok afterTok
      rw [List.takeWhile_cons, List.dropWhile_cons, this]
      exact ⟨rfl, rfl⟩
  unfold rawTok afterTok at *
  rw [List.takeWhile_append_of_pos hw, List.dropWhile_append_of_pos hw, h1.1, h1.2, List.append_nil]
  exact ⟨rfl, rfl⟩

theorem rawWs_gap {z u : List Char} (hz : ∀ c ∈ z, isGraph c = false) : rawWs (z ++ u) = rawWs u := by
  unfold rawWs
  exact List.dropWhile_append_of_pos (by intro c hc; simp [hz c hc])

theorem rawWs_graph {c : Char} {u : List Char} (hc : isGraph c = true) : rawWs (c :: u) = c :: u := by
  unfold rawWs
  rw [List.dropWhile_cons, if_neg (by simp [hc])]

theorem scan_rawWs {p p' : List Char} (h : rawWs p = rawWs p') (look : Option Look) : scan look p = scan look p' := by
  rw [scan_eq, scan_eq look p']
  unfold stepIncl
  rw [h]

/-- The first word of a text that goes on. -/
theorem app_step {x r : List Char} (h : rawTok (rawWs x) ≠ []) (hb : EndsGap x ∨ AtGap r) :
    rawTok (rawWs (x ++ r)) = rawTok (rawWs x) ∧ afterTok (rawWs (x ++ r)) = afterTok (rawWs x) ++ r ∧ (EndsGap (afterTok (rawWs x)) ∨ AtGap r) ∧
      AtGap (afterTok (rawWs x) ++ r) := by
  obtain ⟨z, hz, hzg⟩ := rawWs_split x
  have happ := rawTok_append (rawWs x)
  have hb' : EndsGap (afterTok (rawWs x)) ∨ AtGap r := by
    rcases hb with hb | hb
    · left
      intro c hc
      apply hb c
      rw [hz, ← happ, List.getLast?_append, List.getLast?_append, hc]
      rfl
    · exact Or.inr hb
  have hgap : AtGap (afterTok (rawWs x) ++ r) := by
    cases ha : afterTok (rawWs x) with
    | nil =>
      rcases hb with hb | hb
      · exfalso
        rw [ha, List.append_nil] at happ
        cases hl : (rawTok (rawWs x)).getLast? with
        | none => exact h (List.getLast?_eq_none_iff.1 hl)
        | some c =>
          have h1 := rawTok_graph (rawWs x) c (List.mem_of_getLast? hl)
          have h2 := hb c (by rw [hz, ← happ, List.getLast?_append, hl]; rfl)
          rw [h1] at h2
          cases h2
      · exact hb
    | cons c u =>
      intro d hd
      apply atGap_after (rawWs x) d
      rw [ha]
      simpa using hd
  have hw : rawWs (x ++ r) = rawTok (rawWs x) ++ (afterTok (rawWs x) ++ r) := by
    conv_lhs => rw [hz, List.append_assoc, rawWs_gap hzg, ← happ, List.append_assoc]
    cases ht : rawTok (rawWs x) with
    | nil => exact absurd ht h
    | cons c w =>
      rw [List.cons_append]
      exact rawWs_graph (rawTok_graph (rawWs x) c (by rw [ht]; exact List.mem_cons_self))
  rw [hw]
  have := tok_app (rawTok_graph (rawWs x)) hgap
  exact ⟨this.1, this.2, hb', hgap⟩

theorem app_end {x r : List Char} (h : rawTok (rawWs x) = []) (look : Option Look) : scan look (x ++ r) = scan look r := by
  obtain ⟨z, hz, hzg⟩ := rawWs_split x
  rw [rawTok_nil h, List.append_nil] at hz
  apply scan_rawWs
  rw [hz]
  exact rawWs_gap hzg

theorem findClose_body : ∀ (b u : List Char), ¬ ['$', ')'] <:+: b → EndsGap b → findClose (b ++ (['$', ')'] ++ u)) = u
  | [], u, _, _ => rfl
  | c :: b, u, hb, he => by
    have hb' : ¬ ['$', ')'] <:+: b := fun h => hb (h.trans (List.suffix_cons c b).isInfix)
    have he' : EndsGap b := by
      intro d hd
      apply he d
      cases b with
      | nil => cases hd
      | cons x b => simpa using hd
    rw [List.cons_append, findClose, if_neg, findClose_body b u hb' he']
    rintro ⟨rfl, h⟩
    cases b with
    | nil =>
      have := he '$' rfl
      exact absurd this (by decide)
    | cons d b =>
      simp at h
      subst h
      exact hb ⟨[], b, rfl⟩

/-- The comment is not markup for `getNextInclusion` in this mode. -/
def PlainCom (look : Option Look) (ws : List Name) : Prop :=
  match look with
  | none => NM ws
  | some _ => ¬ [['$', '('], ['E', 'n', 'd']] <:+: ws

theorem PlainCom.infix {look : Option Look} {ws vs : List Name} (h : PlainCom look ws) (hs : vs <:+: ws) : PlainCom look vs := by
  cases look with
  | none => exact ⟨fun hi => h.1 (hi.trans hs), fun hi => h.2 (hi.trans hs)⟩
  | some l => exact fun hi => h (hi.trans hs)

theorem comment_other {look : Option Look} {y : List Char} {w : Name} (hw : rawTok y = w) (hne : w ≠ []) {vs : List Name} (h : PlainCom look (['$', '('] :: w :: vs)) :
    comment look y = .other y := by
  have key : ∀ v : Name, w = v → [['$', '('], v] <:+: (['$', '('] :: w :: vs) := by
    rintro v rfl
    exact ⟨[], vs, rfl⟩
  unfold comment
  cases look with
  | none =>
    dsimp only
    rw [if_neg (fun he => h.1 (key _ (hw.symm.trans he))), if_neg (fun he => h.2 (key _ (hw.symm.trans he)))]
  | some l =>
    dsimp only
    rw [if_neg (fun he => h (key _ (hw.symm.trans he)))]

/-- `getNextInclusion` passes over a text without file inclusions and markup. -/
theorem pass_plain : ∀ (k : Nat) (x r : List Char) (look : Option Look) (t : List Name), x.length ≤ k → uncomment false (words x) = some t →
    (look = none → ∀ w ∈ t, ¬ ['$', '['] <+: w) → PlainCom look (words x) → (EndsGap x ∨ AtGap r) → scan look (x ++ r) = scan look r
  | 0, x, r, look, t, hk, _, _, _, _ => by
    have : x = [] := List.length_eq_zero_iff.1 (Nat.le_zero.1 hk)
    subst this
    rfl
  | k + 1, x, r, look, t, hk, hu, hi, hp, hb => by
    by_cases h0 : rawTok (rawWs x) = []
    · exact app_end h0 look
    · have hlen := len_after h0
      obtain ⟨e1, e2, e3, e4⟩ := app_step h0 hb
      have hst := words_step h0
      rw [hst] at hu hp
      have hrest : PlainCom look (words (afterTok (rawWs x))) := hp.infix (List.suffix_cons _ _).isInfix
      by_cases ho : rawTok (rawWs x) = ['$', '(']
      · rw [ho, uncomment, if_pos rfl] at hu
        obtain ⟨b, hbb, hgap, hbe, hu', hct, hwb⟩ := findClose_spec _ _ _ (Nat.le_refl _) hu
        have hy0 : rawTok (rawWs (afterTok (rawWs x))) ≠ [] := by
          intro h
          rw [words_end h] at hu
          cases hu
        obtain ⟨f1, f2, f3, f4⟩ := app_step hy0 e3
        have hcom : comment look (rawWs (afterTok (rawWs (x ++ r)))) = .other (rawWs (afterTok (rawWs (x ++ r)))) := by
          rw [e2]
          rw [words_step hy0, ho] at hp
          exact comment_other f1 hy0 hp
        rw [scan_comment (by rw [e1, ho]) hcom, ← findClose_ws, e2]
        have hfc : findClose (afterTok (rawWs x) ++ r) = findClose (afterTok (rawWs x)) ++ r := by
          conv_lhs => rw [hbb, List.append_assoc, List.append_assoc, findClose_body b _ hct.1 hbe]
        rw [hfc]
        have el := (findClose_suffix (afterTok (rawWs x))).length_le
        refine pass_plain k _ r look t (by omega) hu' hi (hrest.infix ?_) ?_
        · rw [hwb]
          exact ((List.suffix_cons _ _).trans (List.suffix_append _ _)).isInfix
        · rcases e3 with e3 | e3
          · left
            intro c hc
            apply e3 c
            rw [hbb, List.getLast?_append, hc]
            rfl
          · exact Or.inr e3
      · obtain ⟨hmk, t', rfl, hu'⟩ := uncomment_first ho hu
        have hgo : scan look (x ++ r) = scan look (afterTok (rawWs x) ++ r) := by
          rw [← e2]
          by_cases hw : ['$', '['] <+: rawTok (rawWs x)
          · cases look with
            | none => exact absurd hw (hi rfl _ (List.mem_cons_self))
            | some l =>
              obtain ⟨g1, g2⟩ := prefix_pair (q := rawWs (x ++ r)) (by rw [e1]; exact hw)
              rw [scan_eq]
              unfold stepIncl
              dsimp only
              rw [if_neg (by rw [e1]; exact h0), if_neg (by simp [g1]), if_pos g2]
          · exact scan_word (by rw [e1]; exact h0) (by rw [e1]; exact hw) (by rw [e1]; exact not_open hmk)
        rw [hgo]
        exact pass_plain k _ r look t' (by omega) hu' (fun hl w hw => hi hl w (List.mem_cons_of_mem _ hw)) hrest e3

/-- The tokens of a markup comment. -/
theorem markup_eval {ok : Name → Bool} {K f u : List Char} (hK : ∀ c ∈ K, isGraph c = true) (hf : ∀ c ∈ f, isGraph c = true) (hne : f ≠ []) (hu : AtGap u) :
    markup ok (K ++ (" $[ ".toList ++ (f ++ (" $] ".toList ++ (['$', ')'] ++ u))))) =
      if ok f = false then .inl (f ++ (" $] ".toList ++ (['$', ')'] ++ u))) else .inr (f, u) := by
  have g1 : AtGap (" $[ ".toList ++ (f ++ (" $] ".toList ++ (['$', ')'] ++ u)))) := by intro c hc; have : c = ' ' := by simpa using hc.symm
                                                                                       subst this; decide
  have t1 := tok_app hK g1
  have w2 : rawWs (" $[ ".toList ++ (f ++ (" $] ".toList ++ (['$', ')'] ++ u)))) = ['$', '['] ++ (" ".toList ++ (f ++ (" $] ".toList ++ (['$', ')'] ++ u)))) := rfl
  have g2 : AtGap (" ".toList ++ (f ++ (" $] ".toList ++ (['$', ')'] ++ u)))) := by intro c hc; have : c = ' ' := by simpa using hc.symm
                                                                                    subst this; decide
  have t2 := tok_app (w := ['$', '[']) (by decide) g2
  have w3 : rawWs (" ".toList ++ (f ++ (" $] ".toList ++ (['$', ')'] ++ u)))) = f ++ (" $] ".toList ++ (['$', ')'] ++ u)) := by
    rw [rawWs_gap (by decide)]
    cases hff : f with
    | nil => exact absurd hff hne
    | cons c f' =>
      rw [List.cons_append]
      exact rawWs_graph (hf c (by rw [hff]; exact List.mem_cons_self))
  have g3 : AtGap (" $] ".toList ++ (['$', ')'] ++ u)) := by intro c hc; have : c = ' ' := by simpa using hc.symm
                                                             subst this; decide
  have t3 := tok_app hf g3
  have w4 : rawWs (" $] ".toList ++ (['$', ')'] ++ u)) = ['$', ']'] ++ (" ".toList ++ (['$', ')'] ++ u)) := rfl
  have g4 : AtGap (" ".toList ++ (['$', ')'] ++ u)) := by intro c hc; have : c = ' ' := by simpa using hc.symm
                                                          subst this; decide
  have t4 := tok_app (w := ['$', ']']) (by decide) g4
  have w5 : rawWs (" ".toList ++ (['$', ')'] ++ u)) = ['$', ')'] ++ u := rfl
  have t5 := tok_app (w := ['$', ')']) (by decide) hu
  unfold markup
  dsimp only
  rw [t1.2, w2, t2.1, if_neg (by decide), t2.2, w3, t3.1]
  by_cases hok : ok f = false
  · rw [if_pos hok, if_pos hok]
  · rw [if_neg hok, if_neg hok, t3.2, w4, t4.1, if_neg (by decide), t4.2, w5, t5.1, if_neg (by decide), t5.2]

/-- `getNextInclusion` at a comment. -/
theorem scan_com {look : Option Look} {u : List Char} : scan look ("$( ".toList ++ u) =
    (match comment look (rawWs u), look with
       | .other p', _ => scan look (findClose p')
       | .skip nm p', _ => .val (.skip ("$( ".toList ++ u) nm p')
       | .begin nm p', _ => scan (some ⟨"$( ".toList ++ u, nm, p'⟩) p'
       | .close p', some l => .val (.block l.c1 l.nm l.c2 ("$( ".toList ++ u) p')
       | .close _, none => .bug 1743) := by
  have hw : rawWs ("$( ".toList ++ u) = ['$', '('] ++ (" ".toList ++ u) := rfl
  have ht := tok_app (w := ['$', '(']) (u := " ".toList ++ u) (by decide) (by intro c hc; have : c = ' ' := by simpa using hc.symm
                                                                              subst this; decide)
  have hu : rawWs (" ".toList ++ u) = rawWs u := rawWs_gap (by decide)
  rw [scan_eq]
  unfold stepIncl
  dsimp only
  rw [hw, ht.1, if_neg (by decide), if_neg (by simp), if_neg (by simp), if_pos (by simp), ht.2, hu]
  rfl

theorem rawWs_word {K u : List Char} (hK : ∀ c ∈ K, isGraph c = true) (hne : K ≠ []) : rawWs (K ++ u) = K ++ u := by
  cases K with
  | nil => exact absurd rfl hne
  | cons c K =>
    rw [List.cons_append]
    exact rawWs_graph (hK c (List.mem_cons_self))

variable {f : Name}

theorem scan_skipText {u : List Char} (hf : ∀ c ∈ f, isGraph c = true) (hne : f ≠ []) (hu : AtGap u) :
    scan none (skipText f ++ u) = .val (.skip (skipText f ++ u) f u) := by
  have e : skipText f ++ u = "$( ".toList ++ ("Skip".toList ++ (" $[ ".toList ++ (f ++ (" $] ".toList ++ (['$', ')'] ++ u))))) := by
    unfold skipText
    simp
  rw [e, scan_com, rawWs_word (by decide) (by decide)]
  have g : AtGap (" $[ ".toList ++ (f ++ (" $] ".toList ++ (['$', ')'] ++ u)))) := by intro c hc; have : c = ' ' := by simpa using hc.symm
                                                                                      subst this; decide
  have hc : comment none ("Skip".toList ++ (" $[ ".toList ++ (f ++ (" $] ".toList ++ (['$', ')'] ++ u))))) = .skip f u := by
    unfold comment
    dsimp only
    rw [(tok_app (w := "Skip".toList) (by decide) g).1, if_neg (by decide), if_pos (by decide), markup_eval (by decide) hf hne hu, if_neg (by decide)]
  rw [hc]

theorem scan_beginText {u : List Char} (hf : ∀ c ∈ f, isGraph c = true) (hne : f ≠ []) :
    scan none (beginText f ++ u) = scan (some ⟨beginText f ++ u, f, '\n' :: u⟩) u := by
  have e : beginText f ++ u = "$( ".toList ++ ("Begin".toList ++ (" $[ ".toList ++ (f ++ (" $] ".toList ++ (['$', ')'] ++ ('\n' :: u)))))) := by
    unfold beginText
    simp
  have hu : AtGap ('\n' :: u) := by intro c hc; have : c = '\n' := by simpa using hc.symm
                                    subst this; decide
  rw [e, scan_com, rawWs_word (by decide) (by decide)]
  have g : AtGap (" $[ ".toList ++ (f ++ (" $] ".toList ++ (['$', ')'] ++ ('\n' :: u))))) := by intro c hc; have : c = ' ' := by simpa using hc.symm
                                                                                                subst this; decide
  have hc : comment none ("Begin".toList ++ (" $[ ".toList ++ (f ++ (" $] ".toList ++ (['$', ')'] ++ ('\n' :: u)))))) = .begin f ('\n' :: u) := by
    unfold comment
    dsimp only
    rw [(tok_app (w := "Begin".toList) (by decide) g).1, if_pos (by decide), markup_eval (by decide) hf hne hu, if_neg (by decide)]
  rw [hc]
  dsimp only
  apply scan_rawWs
  exact rawWs_gap (z := ['\n']) (by decide)

theorem scan_endText {l : Look} {u : List Char} (hf : ∀ c ∈ f, isGraph c = true) (hne : f ≠ []) (hu : AtGap u) (hl : l.nm = f) :
    scan (some l) (endText f ++ u) = .val (.block l.c1 f l.c2 (endText f ++ u) u) := by
  have e : endText f ++ u = "$( ".toList ++ ("End".toList ++ (" $[ ".toList ++ (f ++ (" $] ".toList ++ (['$', ')'] ++ u))))) := by
    unfold endText
    simp
  rw [e, scan_com, rawWs_word (by decide) (by decide)]
  have g : AtGap (" $[ ".toList ++ (f ++ (" $] ".toList ++ (['$', ')'] ++ u)))) := by intro c hc; have : c = ' ' := by simpa using hc.symm
                                                                                      subst this; decide
  have hc : comment (some l) ("End".toList ++ (" $[ ".toList ++ (f ++ (" $] ".toList ++ (['$', ')'] ++ u))))) = .close u := by
    unfold comment
    dsimp only
    rw [(tok_app (w := "End".toList) (by decide) g).1, if_pos (by decide), markup_eval (by decide) hf hne hu, if_neg (by rw [hl]; simp)]
  rw [hc]
  dsimp only
  rw [hl]

theorem gap_last {b : List Char} {c : Char} (hc : isGraph c = false) : EndsGap (b ++ [c]) := by
  intro d hd
  have : c = d := by simpa using hd
  rw [← this]
  exact hc

theorem not_infix_of {b : List Char} (h : ∀ c ∈ b, c ≠ ')') : ¬ ['$', ')'] <:+: b := by
  intro hi
  exact h ')' (hi.subset (by simp)) rfl

/-- The end of a markup comment. -/
theorem close_markup {u w : List Char} (hw : ¬ ['$', ')'] <:+: w) (hg : ∀ c ∈ w, isGraph c = true) : findClose (w ++ (" $] ".toList ++ (['$', ')'] ++ u))) = u := by
  rw [findClose_word w _ hg hw (by intro c hc; have : c = ' ' := by simpa using hc.symm
                                   subst this; decide)]
  exact findClose_body " $] ".toList u (by decide) (gap_last (b := " $]".toList) (by decide))

/-- `getNextInclusion`, looking for the end of an inclusion, passes over the text. -/
def Passes (nm : Name) (x : List Char) : Prop := ∀ (l : Look) (r : List Char), l.nm = nm → (EndsGap x ∨ AtGap r) → scan (some l) (x ++ r) = scan (some l) r

theorem noMark {g : Name} (hgd : '$' ∉ g) : ¬ ['$', ')'] <:+: g := fun h => hgd (h.subset (List.mem_cons_self))

theorem pass_skipText {l : Look} {u : List Char} (hf : ∀ c ∈ f, isGraph c = true) (hd : '$' ∉ f) :
    scan (some l) (skipText f ++ u) = scan (some l) u := by
  have e : skipText f ++ u = "$( ".toList ++ ("Skip".toList ++ (" $[ ".toList ++ (f ++ (" $] ".toList ++ (['$', ')'] ++ u))))) := by
    unfold skipText
    simp
  have g : AtGap (" $[ ".toList ++ (f ++ (" $] ".toList ++ (['$', ')'] ++ u)))) := by intro c hc; have : c = ' ' := by simpa using hc.symm
                                                                                      subst this; decide
  rw [e, scan_com, rawWs_word (by decide) (by decide)]
  have hc : comment (some l) ("Skip".toList ++ (" $[ ".toList ++ (f ++ (" $] ".toList ++ (['$', ')'] ++ u))))) =
      .other ("Skip".toList ++ (" $[ ".toList ++ (f ++ (" $] ".toList ++ (['$', ')'] ++ u))))) := by
    unfold comment
    dsimp only
    rw [(tok_app (w := "Skip".toList) (by decide) g).1, if_neg (by decide)]
  rw [hc]
  dsimp only
  rw [findClose_word _ _ (by decide) (by decide) g]
  rw [show findClose (" $[ ".toList ++ (f ++ (" $] ".toList ++ (['$', ')'] ++ u)))) = findClose (f ++ (" $] ".toList ++ (['$', ')'] ++ u))) from rfl]
  rw [close_markup (noMark hd) hf]

theorem pass_beginText {l : Look} {u : List Char} (hf : ∀ c ∈ f, isGraph c = true) (hd : '$' ∉ f) :
    scan (some l) (beginText f ++ u) = scan (some l) u := by
  have e : beginText f ++ u = "$( ".toList ++ ("Begin".toList ++ (" $[ ".toList ++ (f ++ (" $] ".toList ++ (['$', ')'] ++ ('\n' :: u)))))) := by
    unfold beginText
    simp
  have g : AtGap (" $[ ".toList ++ (f ++ (" $] ".toList ++ (['$', ')'] ++ ('\n' :: u))))) := by intro c hc; have : c = ' ' := by simpa using hc.symm
                                                                                                subst this; decide
  rw [e, scan_com, rawWs_word (by decide) (by decide)]
  have hc : comment (some l) ("Begin".toList ++ (" $[ ".toList ++ (f ++ (" $] ".toList ++ (['$', ')'] ++ ('\n' :: u)))))) =
      .other ("Begin".toList ++ (" $[ ".toList ++ (f ++ (" $] ".toList ++ (['$', ')'] ++ ('\n' :: u)))))) := by
    unfold comment
    dsimp only
    rw [(tok_app (w := "Begin".toList) (by decide) g).1, if_neg (by decide)]
  rw [hc]
  dsimp only
  rw [findClose_word _ _ (by decide) (by decide) g]
  rw [show findClose (" $[ ".toList ++ (f ++ (" $] ".toList ++ (['$', ')'] ++ ('\n' :: u))))) = findClose (f ++ (" $] ".toList ++ (['$', ')'] ++ ('\n' :: u)))) from rfl]
  rw [close_markup (noMark hd) hf]
  exact scan_rawWs (rawWs_gap (z := ['\n']) (by decide)) _

theorem pass_endText {l : Look} {u : List Char} (hf : ∀ c ∈ f, isGraph c = true) (hne : f ≠ []) (hd : '$' ∉ f) (hu : AtGap u) (hl : ¬ f <+: l.nm) :
    scan (some l) (endText f ++ u) = scan (some l) u := by
  have e : endText f ++ u = "$( ".toList ++ ("End".toList ++ (" $[ ".toList ++ (f ++ (" $] ".toList ++ (['$', ')'] ++ u))))) := by
    unfold endText
    simp
  have g : AtGap (" $[ ".toList ++ (f ++ (" $] ".toList ++ (['$', ')'] ++ u)))) := by intro c hc; have : c = ' ' := by simpa using hc.symm
                                                                                      subst this; decide
  rw [e, scan_com, rawWs_word (by decide) (by decide)]
  have hc : comment (some l) ("End".toList ++ (" $[ ".toList ++ (f ++ (" $] ".toList ++ (['$', ')'] ++ u))))) =
      .other (f ++ (" $] ".toList ++ (['$', ')'] ++ u))) := by
    unfold comment
    dsimp only
    rw [(tok_app (w := "End".toList) (by decide) g).1, if_pos (by decide), markup_eval (by decide) hf hne hu, if_pos]
    cases hp : f.isPrefixOf l.nm with
    | false => rfl
    | true => exact absurd (List.isPrefixOf_iff_prefix.1 hp) hl
  rw [hc]
  dsimp only
  rw [close_markup (noMark hd) hf]

end MM.Incl
