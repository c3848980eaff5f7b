import Verif.Incl.Run
/-!
# What the program includes is what the language says
-/
namespace MM.Incl
open MM.Veri MM.Pars MM.Lex

variable {fs : Name → Out (Option (List Char))} {main : Name} {disk : Name → Option (List Char)}

theorem skipWs_blank : ∀ (n : Nat) (p : List Char), p.length ≤ n → uncomment false (words p) = some [] → skipWs .ws p = .val []
  | 0, p, hn, h => by
    have : p = [] := List.length_eq_zero_iff.1 (Nat.le_zero.1 hn)
    subst this
    rfl
  | n + 1, [], hn, h => rfl
  | n + 1, c :: r, hn, h => by
    by_cases hg : isGraph c = true
    · have hq : rawWs (c :: r) = c :: r := by
        unfold rawWs
        rw [List.dropWhile_cons, if_neg (by simp [hg])]
      have hne : rawTok (rawWs (c :: r)) ≠ [] := by
        rw [hq]
        unfold rawTok
        rw [List.takeWhile_cons, if_pos hg]
        intro h; cases h
      have hst := words_step hne
      rw [hq] at hst hne
      rw [hst] at h
      by_cases h1 : rawTok (c :: r) = ['$', '(']
      · rw [h1, uncomment, if_pos rfl] at h
        obtain ⟨b, hb, hgap, _, hu, hct, hwb⟩ := findClose_spec _ _ _ (Nat.le_refl _) h
        have happ := rawTok_append (c :: r)
        rw [h1] at happ
        have hlen : (findClose (afterTok (c :: r))).length ≤ n := by
          have e1 := (findClose_suffix (afterTok (c :: r))).length_le
          have e2 := congrArg List.length happ
          simp only [List.length_append, List.length_cons, List.length_nil] at e2
          simp only [List.length_cons] at hn
          omega
        conv_lhs => rw [← happ, hb]
        rw [List.cons_append, List.cons_append, List.nil_append, skip_ws_com, List.append_assoc]
        rw [show ['$', ')'] ++ findClose (afterTok (c :: r)) = '$' :: ')' :: findClose (afterTok (c :: r)) from rfl, skip_comment _ hct]
        exact skipWs_blank n _ hlen hu
      · obtain ⟨_, ts', e, _⟩ := uncomment_first h1 h
        cases e
    · have hg' : isGraph c = false := by simpa using hg
      rw [words_blank hg'] at h
      have hc : c ≠ '$' := by rintro rfl; exact hg (by decide)
      rw [skip_ws_char hc, if_neg hg]
      exact skipWs_blank n r (by simpa using hn) h

theorem uncomment_excl : ∀ (ws : List Name) {x y : List Name}, uncomment true ws = some x → uncomment false ws = some y → False
  | [], x, y, h, _ => by cases h
  | w :: ws, x, y, h1, h2 => by
    by_cases ho : w = ['$', '(']
    · subst ho
      rw [uncomment, if_neg (by decide), if_pos (by decide)] at h1
      cases h1
    · obtain ⟨hk, y', _, hy⟩ := uncomment_first ho h2
      have hc : w ≠ ['$', ')'] := by rintro rfl; revert hk; decide
      rw [uncomment, if_neg hc, hk] at h1
      exact uncomment_excl ws (by simpa using h1) hy

/-- The part before a well-formed rest is well-formed. -/
theorem uncomment_left : ∀ (as bs : List Name) (m : Bool) {t y : List Name}, uncomment m (as ++ bs) = some t → uncomment false bs = some y →
    ∃ x, uncomment m as = some x ∧ t = x ++ y
  | [], bs, m, t, y, h, hb => by
    cases m with
    | false =>
      rw [List.nil_append, hb] at h
      exact ⟨[], rfl, (Option.some.inj h).symm⟩
    | true => exact absurd hb (fun hb => uncomment_excl bs h hb)
  | w :: as, bs, m, t, y, h, hb => by
    rw [List.cons_append] at h
    cases m with
    | false =>
      by_cases ho : w = ['$', '(']
      · rw [uncomment, if_pos ho] at h ⊢
        exact uncomment_left as bs true h hb
      · obtain ⟨hk, t', e, ht⟩ := uncomment_first ho h
        obtain ⟨x, hx, hxy⟩ := uncomment_left as bs false ht hb
        refine ⟨w :: x, ?_, by rw [e, hxy]; rfl⟩
        rw [uncomment, if_neg ho, hk, hx]
        rfl
    | true =>
      rw [uncomment] at h ⊢
      by_cases hc : w = ['$', ')']
      · rw [if_pos hc] at h ⊢
        exact uncomment_left as bs false h hb
      · rw [if_neg hc] at h ⊢
        by_cases hk : hasMark w = true
        · rw [if_pos hk] at h; cases h
        · rw [if_neg hk] at h ⊢
          exact uncomment_left as bs true h hb

theorem keyword_incl {w : Name} (h : '$' ∈ w → isKeyword w = true) (hp : ['$', '['] <+: w) : w = ['$', '['] := by
  obtain ⟨r, rfl⟩ := hp
  cases r with
  | nil => rfl
  | cons c r =>
    have := h (by simp)
    simp [isKeyword] at this

theorem keyword_bang {w : Name} (h : '$' ∈ w → isKeyword w = true) : ¬ ['$', '!'] <+: w := by
  rintro ⟨r, rfl⟩
  have := h (by simp)
  cases r with
  | nil => exact absurd this (by decide)
  | cons c r => simp [isKeyword] at this

/-- A file inclusion that is not complete is passed over. -/
theorem scan_bad {p : List Char} {ts : List Name} (h1 : rawTok (rawWs p) = ['$', '['])
    (h : uncomment false (words (afterTok (rawWs p))) = some ts) (hl : ∀ w ∈ ts, '$' ∈ w → isKeyword w = true)
    (hb : ∀ f ts', ts ≠ f :: ['$', ']'] :: ts') :
    ∃ r ts', scan none p = scan none r ∧ r <:+ afterTok (rawWs p) ∧ AtGap r ∧ uncomment false (words r) = some ts' := by
  have hne : rawTok (rawWs p) ≠ [] := by rw [h1]; simp
  have hpre : ['$', '['] <+: rawTok (rawWs p) := by rw [h1]
  obtain ⟨e1, e2⟩ := prefix_pair hpre
  have go : ∀ q1 q2, skipWs .ws (afterTok (rawWs p)) = .val q1 → skipWs .ws (afterTok q1) = .val q2 → rawTok q2 ≠ ['$', ']'] →
      scan none p = scan none (afterTok q2) := by
    intro q1 q2 a b c
    rw [scan_eq]
    unfold stepIncl
    dsimp only
    rw [if_neg hne, if_neg (by simp [e1]), if_pos e2, a, Out.bind_val, b, Out.bind_val, if_neg c]
  cases ts with
  | nil =>
    have a := skipWs_blank _ _ (Nat.le_refl _) h
    refine ⟨[], [], go [] [] a rfl (by decide), List.nil_suffix, (by intro c hc; cases hc), by rw [words_nil]; rfl⟩
  | cons f ts =>
    obtain ⟨q1, a1, a2, a3, a4, a5⟩ := skipWs_word _ _ _ _ (Nat.le_refl _) h (keyword_bang (hl f (List.mem_cons_self)))
    cases ts with
    | nil =>
      have a := skipWs_blank _ _ (Nat.le_refl _) a3
      refine ⟨[], [], go q1 [] a1 a (by decide), List.nil_suffix, (by intro c hc; cases hc), by rw [words_nil]; rfl⟩
    | cons g ts =>
      obtain ⟨q2, b1, b2, b3, b4, b5⟩ := skipWs_word _ _ _ _ (Nat.le_refl _) a3 (keyword_bang (hl g (List.mem_cons_of_mem _ (List.mem_cons_self))))
      refine ⟨afterTok q2, ts, go q1 q2 a1 b1 ?_, (afterTok_suffix q2).trans (b5.trans ((afterTok_suffix q1).trans a5)), atGap_after _, b3⟩
      rw [b2]
      rintro rfl
      exact hb f ts rfl

theorem expand_head {n : Nat} {s s' : St} {p o : List Char} (h : expand fs main n s p = .val (o, s')) (hp : AtGap p) : AtGap o := by
  cases n with
  | zero => cases h
  | succ n =>
    cases p with
    | nil => rw [expand_nil] at h; cases h; exact hp
    | cons c r =>
      have hc := hp c rfl
      have hsc : scan none ([c] ++ r) = scan none r := by
        rw [scan_eq, scan_eq none r]
        have hw : rawWs ([c] ++ r) = rawWs r := by
          unfold rawWs
          rw [List.cons_append, List.dropWhile_cons, if_pos (by simp [hc])]
          rfl
        unfold stepIncl
        rw [hw]
      have := expand_skip (fs := fs) (main := main) hsc n s
      rw [show [c] ++ r = c :: r from rfl, h] at this
      cases hx : expand fs main (n + 1) s r with
      | val x =>
        rw [hx] at this
        cases this
        intro d hd
        simp at hd
        rw [← hd]
        exact hc
      | ub => rw [hx] at this; cases this
      | bug k => rw [hx] at this; cases this
      | fuel => rw [hx] at this; cases this

theorem expand_ne {n : Nat} {s s' : St} {a p o : List Char} (hsc : scan none (a ++ p) = scan none p) (h : expand fs main n s (a ++ p) = .val (o, s')) :
    ∃ o', o = a ++ o' ∧ expand fs main n s p = .val (o', s') := by
  cases n with
  | zero => cases h
  | succ n =>
    rw [expand_skip hsc] at h
    cases hx : expand fs main (n + 1) s p with
    | val x => rw [hx] at h; cases h; exact ⟨x.1, rfl, rfl⟩
    | ub => rw [hx] at h; cases h
    | bug k => rw [hx] at h; cases h
    | fuel => rw [hx] at h; cases h

theorem Lexical.suffix {ts vs : List Name} (h : Lexical main ts) (hs : vs <:+ ts) : Lexical main vs :=
  ⟨fun w hw => h.keyword w (hs.subset hw), fun g hg => h.name g (hg.trans hs.isInfix)⟩

theorem back (hfs : FsOk fs disk) (hnm : ∀ f b, disk f = some b → NM (words b))
    (hlex : ∀ f b, disk f = some b → ∃ ts, tokens b = some ts ∧ Lexical main ts) :
    ∀ (n k : Nat) (σ σ' : St) (p o : List Char) (ts : List Name), p.length ≤ k → expand fs main n σ p = .val (o, σ') → σ'.err = false →
      uncomment false (words p) = some ts → NM (words p) → Lexical main ts →
      ∃ out, Res p o out ∧ σ.err = false ∧ ((∀ w ∈ out, ¬ ['$', '['] <+: w) → Inc disk (σ.seen ++ [main]) ts (σ'.seen ++ [main]) out) := by
  intro n
  induction n with
  | zero => intro k σ σ' p o ts _ h; cases h
  | succ n ihn =>
    intro k
    induction k with
    | zero =>
      intro σ σ' p o ts hk h he hu hN hL
      have : p = [] := List.length_eq_zero_iff.1 (Nat.le_zero.1 hk)
      subst this
      rw [expand_nil] at h
      cases h
      rw [words_nil] at hu
      cases hu
      exact ⟨[], ⟨by rw [words_nil]; rfl, fun h => h, fun _ => rfl⟩, he, fun _ => .done _⟩
    | succ k ihk =>
      intro σ σ' p o ts hk h he hu hN hL
      obtain ⟨a, p', i1, i2, i3, i4, i5, i6, i7⟩ := skip_comments _ p _ (Nat.le_refl _) hu hN
      have hplen : p'.length ≤ k + 1 := by
        rw [i1, List.length_append] at hk
        omega
      subst i1
      obtain ⟨o', rfl, h'⟩ := expand_ne i2 h
      -- it is enough to treat the text after the comments
      suffices hmain : ∃ out, Res p' o' out ∧ σ.err = false ∧ ((∀ w ∈ out, ¬ ['$', '['] <+: w) → Inc disk (σ.seen ++ [main]) ts (σ'.seen ++ [main]) out) by
        obtain ⟨out, r1, r2, r3⟩ := hmain
        exact ⟨out, Res.skip (x := []) i4 i3 r1, r2, r3⟩
      have hN' : NM (words p') := hN.suffix i6
      by_cases h0 : rawTok (rawWs p') = []
      · rw [expand_succ, scan_end h0] at h'
        cases h'
        have hts : ts = [] := by
          rw [words_end h0] at i5
          cases i5
          rfl
        subst hts
        exact ⟨[], ⟨i5, fun h => h, fun _ => rfl⟩, he, fun _ => .done _⟩
      · have hst := words_step h0
        have hlen := len_after h0
        have i5' := i5
        rw [hst] at i5'
        obtain ⟨hmk, ts', e, hu'⟩ := uncomment_first i7 i5'
        obtain ⟨z, hz, hzg⟩ := rawWs_split p'
        have hp' : p' = (z ++ rawTok (rawWs p')) ++ afterTok (rawWs p') := by
          rw [List.append_assoc, rawTok_append]; exact hz
        have hwz : uncomment false (words (z ++ rawTok (rawWs p'))) = some [rawTok (rawWs p')] := by
          rw [words_app (Or.inl fun c hc => hzg c (List.mem_of_getLast? hc)), words_gap hzg, List.nil_append]
          have hww := words_word (rawTok_graph (rawWs p')) h0 (u := []) (by intro c hc; cases hc)
          rw [List.append_nil] at hww
          rw [hww, words_nil, uncomment, if_neg i7, hmk]
          rfl
        have hkw := hL.keyword (rawTok (rawWs p')) (by rw [e]; exact List.mem_cons_self)
        have hLs : Lexical main ts' := hL.suffix (by rw [e]; exact List.suffix_cons _ _)
        by_cases hw : ['$', '['] <+: rawTok (rawWs p')
        · have h1 := keyword_incl hkw hw
          by_cases hform : ∃ f ts2, ts' = f :: ['$', ']'] :: ts2
          · -- a file inclusion
            obtain ⟨f, ts2, rfl⟩ := hform
            have hfn := hL.name f (by rw [e, h1]; exact ⟨[], ts2, rfl⟩)
            obtain ⟨c2, y, s1, s2, s3, s4, s5, s6, s7⟩ := scan_incl h1 hfn.1 hu'
            have hN2 : NM (words c2) := hN'.suffix s3
            have hL2 : Lexical main ts2 := hL.suffix (by rw [e]; exact (List.suffix_cons _ _).trans ((List.suffix_cons _ _).trans (List.suffix_cons _ _)))
            have hq : rawWs p' = ['$', '['] ++ afterTok (rawWs p') := by
              rw [← h1, rawTok_append]
            have hup : upTo p' (rawWs p') = z := by
              conv_lhs => rw [hz]
              rw [show rawWs (z ++ rawWs p') = rawWs p' by rw [← hz]]
              exact upTo_append z _
            rw [expand_succ, s1, Out.bind_val] at h'
            unfold expandStep at h'
            dsimp only at h'
            rw [if_neg hfn.2, hup] at h'
            by_cases hseen : f ∈ σ.seen
            · rw [if_pos hseen] at h'
              cases hx : expand fs main n σ c2 with
              | val x =>
                rw [hx] at h'
                cases h'
                obtain ⟨out, r1, r2, r3⟩ := ihn _ σ x.2 c2 x.1 ts2 (Nat.le_refl _) hx he s2 hN2 hL2
                refine ⟨out, Res.skip_text (by rw [← hq]; exact hz) ⟨y, s5⟩ hzg s4 s6 s7 hfn.1 r1, r2, fun ho => ?_⟩
                rw [e, h1]
                exact .again hfn.1 (List.mem_append_left _ hseen) (r3 ho)
              | ub => rw [hx] at h'; cases h'
              | bug m => rw [hx] at h'; cases h'
              | fuel => rw [hx] at h'; cases h'
            · rw [if_neg hseen] at h'
              unfold inclNew at h'
              rw [hup] at h'
              have hF := hfs f
              cases hd : disk f with
              | none =>
                rw [hd] at hF
                dsimp only at hF
                exfalso
                rw [hF, Out.bind_val] at h'
                cases n with
                | zero => cases h'
                | succ n =>
                  simp only [content] at h'
                  rw [expand_nil, Out.bind_val] at h'
                  cases hx : expand fs main (n + 1) ⟨f :: σ.seen, true⟩ c2 with
                  | val x =>
                    rw [hx] at h'
                    cases h'
                    obtain ⟨out, r1, r2, r3⟩ := ihn _ _ x.2 c2 x.1 ts2 (Nat.le_refl _) hx he s2 hN2 hL2
                    cases r2
                  | ub => rw [hx] at h'; cases h'
                  | bug m => rw [hx] at h'; cases h'
                  | fuel => rw [hx] at h'; cases h'
              | some b =>
                rw [hd] at hF
                obtain ⟨t, t1, t2, t3, t4⟩ := hF
                obtain ⟨ts1, hts1, hL1⟩ := hlex f b hd
                rw [t1, Out.bind_val] at h'
                simp only [content] at h'
                cases hx : expand fs main n ⟨f :: σ.seen, σ.err⟩ t with
                | val x =>
                  rw [hx, Out.bind_val] at h'
                  cases hy : expand fs main n x.2 c2 with
                  | val w =>
                    rw [hy] at h'
                    cases h'
                    obtain ⟨out2, q1, q2, q3⟩ := ihn _ x.2 w.2 c2 w.1 ts2 (Nat.le_refl _) hy he s2 hN2 hL2
                    obtain ⟨out1, r1, r2, r3⟩ := ihn _ _ x.2 t x.1 ts1 (Nat.le_refl _) hx q2 (by rw [t2]; exact hts1) (by rw [t2]; exact hnm f b hd) hL1
                    refine ⟨out1 ++ out2, Res.begin_text (by rw [← hq]; exact hz) ⟨y, s5⟩ hzg s4 s6 s7 hfn.1 t3 r1 q1, r2, fun ho => ?_⟩
                    rw [e, h1]
                    refine .first hfn.1 ?_ hd hts1 (r3 fun v hv => ho v (List.mem_append_left _ hv)) (q3 fun v hv => ho v (List.mem_append_right _ hv))
                    intro hm
                    rcases List.mem_append.1 hm with hm | hm
                    · exact hseen hm
                    · exact hfn.2 (List.mem_singleton.1 hm)
                  | ub => rw [hy] at h'; cases h'
                  | bug m => rw [hy] at h'; cases h'
                  | fuel => rw [hy] at h'; cases h'
                | ub => rw [hx] at h'; cases h'
                | bug m => rw [hx] at h'; cases h'
                | fuel => rw [hx] at h'; cases h'
          · -- not a complete file inclusion: `$[` stays in the text
            have hbad := scan_bad h1 hu' hLs.keyword (fun f t2 hf => hform ⟨f, t2, hf⟩)
            obtain ⟨r, tr, s1, s2, s3, s4⟩ := hbad
            obtain ⟨x, hx⟩ := s2
            have hpr : p' = (z ++ rawTok (rawWs p') ++ x) ++ r := by
              rw [List.append_assoc, hx]; exact hp'
            have hwp : words p' = words (z ++ rawTok (rawWs p') ++ x) ++ words r := by
              conv_lhs => rw [hpr]
              exact words_app (Or.inr s3)
            have hxg : AtGap (x ++ r) := by rw [hx]; exact atGap_after _
            have hxg' : AtGap x := by
              intro c hc
              apply hxg c
              cases x with
              | nil => cases hc
              | cons d x => simpa using hc
            rw [hwp] at i5
            obtain ⟨u, hu1, hu2⟩ := uncomment_left _ _ _ i5 s4
            have hr := hpr
            generalize hG : z ++ rawTok (rawWs p') ++ x = g at *
            rw [hpr] at h' s1
            obtain ⟨o'', rfl, h''⟩ := expand_ne s1 h'
            have hrl : r.length ≤ k := by
              have e1 := congrArg List.length hx
              rw [List.length_append] at e1
              omega
            have hsufr : words r <:+ words p' := by rw [hwp]; exact List.suffix_append _ _
            obtain ⟨out, r1, r2, r3⟩ := ihk σ σ' r o'' tr hrl h'' he s4 (hN'.suffix hsufr) (hL.suffix (by rw [hu2]; exact List.suffix_append _ _))
            refine ⟨u ++ out, ?_, r2, ?_⟩
            · rw [hpr]; exact Res.skip (Or.inr s3) hu1 r1
            · intro ho
              exfalso
              -- `$[` is the first word
              have hw1 : words g = rawTok (rawWs p') :: words x := by
                rw [← hG, List.append_assoc, words_app (Or.inl fun c hc => hzg c (List.mem_of_getLast? hc)), words_gap hzg, List.nil_append]
                exact words_word (rawTok_graph _) h0 hxg'
              rw [hw1] at hu1
              obtain ⟨_, u', hu3, _⟩ := uncomment_first i7 hu1
              exact ho (rawTok (rawWs p')) (List.mem_append_left _ (by rw [hu3]; exact List.mem_cons_self)) hw
        · -- another word
          have hsc : scan none p' = scan none (afterTok (rawWs p')) := scan_word h0 hw (not_open hmk)
          have hsuf : words (afterTok (rawWs p')) <:+ words p' := by rw [hst]; exact List.suffix_cons _ _
          generalize hG : z ++ rawTok (rawWs p') = g at *
          have hgap := atGap_after (rawWs p')
          generalize hA : afterTok (rawWs p') = q at *
          rw [hp'] at h' hsc
          obtain ⟨o'', rfl, h''⟩ := expand_ne hsc h'
          obtain ⟨out, r1, r2, r3⟩ := ihk σ σ' q o'' ts' (by omega) h'' he hu' (hN'.suffix hsuf) hLs
          refine ⟨rawTok (rawWs p') :: out, ?_, r2, fun ho => ?_⟩
          · have := Res.skip (Or.inr hgap) hwz r1
            rw [hp']
            rw [hp'] at this
            exact this
          · rw [e]
            exact .word hw (r3 fun v hv => ho v (List.mem_cons_of_mem _ hv))

end MM.Incl
