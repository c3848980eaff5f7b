import Verif.Write.Main
import Verif.Incl.Step
import Verif.Long.Text
/-!
# What READ makes of a section depends on its words only

A section of an accepted source, its comments included, is a list of words; a text with the same words, of legal characters and with white space at its ends is as good.
-/
namespace MM.Fmt
open MM.Veri MM.Pars MM.Lex MM.Write MM.Incl

/-- The characters `readRawSource` accepts. -/
def Legal (t : List Char) : Prop := ∀ c ∈ t, isGraph c = true ∨ isSpace c = true

/-- A section that READ accepts: `ts` are its words outside comments; `prev`: something other than white space precedes it. -/
structure Clean (prev : Bool) (t : List Char) (ts : List Name) : Prop where
  legal : Legal t
  toks : tokens t = some ts
  dollar : ∀ w ∈ ts, '$' ∉ w
  start : prev = true → AtGap t ∧ t ≠ []
  stop : EndsGap t

theorem graph_infix {x b : List Char} (hx : ∀ c ∈ x, isGraph c = true) (hne : x ≠ []) (h : x <:+: b) : ∃ w ∈ words b, x <:+: w := by
  obtain ⟨p, s, rfl⟩ := h
  have e1 : p = (p.reverse.dropWhile isGraph).reverse ++ (p.reverse.takeWhile isGraph).reverse := by
    rw [← List.reverse_append, List.takeWhile_append_dropWhile, List.reverse_reverse]
  have e2 : s = s.takeWhile isGraph ++ s.dropWhile isGraph := List.takeWhile_append_dropWhile.symm
  have g1 : EndsGap (p.reverse.dropWhile isGraph).reverse := by
    intro c hc
    rw [List.getLast?_reverse] at hc
    have := List.head?_dropWhile_not isGraph p.reverse
    rw [hc] at this
    simpa using this
  have g2 : AtGap (s.dropWhile isGraph) := atGap_after s
  have hp2 : ∀ c ∈ (p.reverse.takeWhile isGraph).reverse, isGraph c = true := fun c hc => List.mem_takeWhile_imp (List.mem_reverse.1 hc)
  have hs1 : ∀ c ∈ s.takeWhile isGraph, isGraph c = true := fun c hc => List.mem_takeWhile_imp hc
  generalize (p.reverse.dropWhile isGraph).reverse = p1 at *
  generalize (p.reverse.takeWhile isGraph).reverse = p2 at *
  generalize s.takeWhile isGraph = s1 at *
  generalize s.dropWhile isGraph = s2 at *
  subst e1
  subst e2
  have e3 : p1 ++ p2 ++ x ++ (s1 ++ s2) = p1 ++ ((p2 ++ x ++ s1) ++ s2) := by simp
  have e4 : words ((p2 ++ x ++ s1) ++ s2) = (p2 ++ x ++ s1) :: words s2 := words_word (by
    intro c hc
    simp only [List.mem_append] at hc
    rcases hc with (hc | hc) | hc
    · exact hp2 c hc
    · exact hx c hc
    · exact hs1 c hc) (by simp [hne]) g2
  rw [e3, words_app (Or.inl g1), e4]
  exact ⟨p2 ++ x ++ s1, by simp, p2, s1, rfl⟩

theorem uncomment_plain : ∀ {ws : List Name}, (∀ w ∈ ws, '$' ∉ w) → uncomment false ws = some ws
  | [], _ => rfl
  | w :: ws, h => by
    have hw := h w (by simp)
    have h1 : w ≠ ['$', '('] := by rintro rfl; exact hw (by simp)
    have h2 : hasMark w = false := by
      unfold hasMark
      rw [Bool.or_eq_false_iff]
      exact ⟨decide_eq_false fun hi => hw (hi.subset (by simp)), decide_eq_false fun hi => hw (hi.subset (by simp))⟩
    rw [uncomment, if_neg h1, h2, if_neg (by simp), uncomment_plain fun v hv => h v (by simp [hv])]
    rfl

theorem uncomment_com : ∀ {ws : List Name} {vs : List Name}, (∀ w ∈ ws, hasMark w = false) → uncomment true (ws ++ ['$', ')'] :: vs) = uncomment false vs
  | [], vs, _ => by rw [List.nil_append, uncomment, if_pos rfl]
  | w :: ws, vs, h => by
    have h2 := h w (by simp)
    have h1 : w ≠ ['$', ')'] := by rintro rfl; exact absurd h2 (by decide)
    rw [List.cons_append, uncomment, if_neg h1, h2, if_neg (by simp), uncomment_com fun v hv => h v (by simp [hv])]

theorem com_marks : ∀ {ws vs : List Name} {ts : List Name}, uncomment true (ws ++ ['$', ')'] :: vs) = some ts → (∀ w ∈ ws, w ≠ ['$', ')']) → ∀ w ∈ ws, hasMark w = false
  | [], _, _, _, _, w, hw => by cases hw
  | v :: ws, vs, ts, h, hn, w, hw => by
    rw [List.cons_append, uncomment, if_neg (hn v (by simp))] at h
    by_cases h2 : hasMark v = true
    · rw [if_pos h2] at h; cases h
    · rw [if_neg h2] at h
      rcases List.mem_cons.1 hw with rfl | hw
      · simpa using h2
      · exact com_marks h (fun u hu => hn u (by simp [hu])) w hw

theorem blank_no_dollar {t u : List Char} (h : Blank t u) : '$' ∉ u := by
  induction h with
  | nil => simp
  | char c hc _ ih => intro hm; rcases List.mem_cons.1 hm with e | hm; exacts [hc e.symm, ih hm]
  | comment _ _ ih => intro hm; rcases List.mem_cons.1 hm with e | hm; exacts [absurd e (by decide), ih hm]

theorem words_no_dollar {u : List Char} (h : '$' ∉ u) : ∀ w ∈ words u, '$' ∉ w :=
  fun w hw hd => h ((mem_words_infix _ u (Nat.le_refl _) w hw).subset hd)

/-- The text of a comment that `readRawSource` does not complain about. -/
theorem com_in : ∀ {b z : List Char} {prev : Bool}, rawErrs prev true (b ++ '$' :: ')' :: z) = 0 → ¬ ['$', ')'] <:+: b → EndsGap b →
    Legal b ∧ ¬ ['$', '('] <:+: b ∧ ∃ p, rawErrs p true ('$' :: ')' :: z) = 0
  | [], z, prev, h, _, _ => ⟨fun c hc => (by cases hc), (by rintro ⟨a, b, e⟩; simp at e), prev, h⟩
  | c :: b, z, prev, h, hn, hg => by
    have hg' : EndsGap b := fun x hx => hg x (by cases b with | nil => cases hx | cons y b => simpa using hx)
    have hn' := not_infix_cons hn
    by_cases hc : c = '$'
    · subst hc
      cases b with
      | nil => exact absurd (hg '$' rfl) (by decide)
      | cons d b =>
        have hd : d ≠ ')' := by rintro rfl; exact hn ⟨[], b, rfl⟩
        have h0 := h
        rw [List.cons_append, List.cons_append, rawErrs_dollar] at h
        have hd2 : d ≠ '(' := by
          rintro rfl
          rw [if_pos (c := '(' = '(') rfl, if_pos (c := true = true) rfl] at h
          omega
        rw [if_neg hd2, if_neg hd, if_pos (c := true = true) rfl] at h
        obtain ⟨i1, i2, i3⟩ := com_in (b := d :: b) (z := z) (prev := true) (by rw [List.cons_append]; omega) hn' hg'
        refine ⟨?_, ?_, i3⟩
        · intro x hx
          rcases List.mem_cons.1 hx with rfl | hx
          · exact Or.inl (by decide)
          · exact i1 x hx
        · intro hi
          rcases List.infix_cons_iff.1 hi with ⟨r, hr⟩ | hi
          · simp at hr; exact hd2 hr.1.symm
          · exact i2 hi
    · rw [List.cons_append, rawErrs_char hc] at h
      obtain ⟨i1, i2, i3⟩ := com_in (b := b) (z := z) (prev := isGraph c) (by omega) hn' hg'
      refine ⟨?_, ?_, i3⟩
      · intro x hx
        rcases List.mem_cons.1 hx with rfl | hx
        · cases h1 : isGraph x
          · right
            cases h2 : isSpace x
            · simp [h1, h2] at h
            · rfl
          · exact Or.inl rfl
        · exact i1 x hx
      · intro hi
        rcases List.infix_cons_iff.1 hi with ⟨r, hr⟩ | hi
        · simp at hr; exact hc hr.1.symm
        · exact i2 hi

theorem com_out : ∀ {b z : List Char} {prev : Bool}, Legal b → ¬ ['$', '('] <:+: b → ¬ ['$', ')'] <:+: b → EndsGap b →
    rawErrs prev true (b ++ '$' :: ')' :: z) = rawErrs (if b = [] then prev else false) true ('$' :: ')' :: z)
  | [], z, prev, _, _, _, _ => by simp
  | c :: b, z, prev, hl, hn1, hn2, hg => by
    have hg' : EndsGap b := fun x hx => hg x (by cases b with | nil => cases hx | cons y b => simpa using hx)
    have h1' : ¬ ['$', '('] <:+: b := fun h => hn1 (h.trans (List.suffix_cons c b).isInfix)
    have ih := com_out (b := b) (z := z) (prev := isGraph c) (fun x hx => hl x (by simp [hx])) h1' (not_infix_cons hn2) hg'
    rw [if_neg (c := c :: b = []) (by simp)]
    by_cases hc : c = '$'
    · subst hc
      cases b with
      | nil => exact absurd (hg '$' rfl) (by decide)
      | cons d b =>
        have hd : d ≠ ')' := by rintro rfl; exact hn2 ⟨[], b, rfl⟩
        have hd2 : d ≠ '(' := by rintro rfl; exact hn1 ⟨[], b, rfl⟩
        rw [isGraph_dollar, if_neg (c := d :: b = []) (by simp), List.cons_append] at ih
        rw [List.cons_append, List.cons_append, rawErrs_dollar, if_neg hd2, if_neg hd, if_pos (c := true = true) rfl, ih]
        simp [hd]
    · have : (if isGraph c || isSpace c then 0 else 1) = 0 := by
        rcases hl c (by simp) with h | h <;> simp [h]
      rw [List.cons_append, rawErrs_char hc, this, ih, Nat.zero_add]
      cases b with
      | nil => rw [if_pos (c := ([] : List Char) = []) rfl, hg c rfl]
      | cons d b => rw [if_neg (c := d :: b = []) (by simp)]

theorem no_mark {ws : List Char} (h1 : ¬ ['$', '('] <:+: ws) (h2 : ¬ ['$', ')'] <:+: ws) : ∀ w ∈ words ws, hasMark w = false := by
  intro w hw
  have hi := mem_words_infix _ ws (Nat.le_refl _) w hw
  unfold hasMark
  rw [Bool.or_eq_false_iff]
  exact ⟨decide_eq_false fun h => h1 (h.trans hi), decide_eq_false fun h => h2 (h.trans hi)⟩

theorem endsGap_of_com {b : List Char} (h : CommentText b) : EndsGap b := fun c hc => by rw [← printable_eq]; exact h.2 c hc

theorem endsGap_append {a b : List Char} (hb : EndsGap b) (hne : b ≠ []) : EndsGap (a ++ b) := by
  intro c hc
  rw [List.getLast?_append] at hc
  cases h : b.getLast? with
  | none => exact absurd (List.getLast?_eq_none_iff.1 h) hne
  | some d => rw [h] at hc; simp at hc; subst hc; exact hb _ h

theorem words_mark {d : Char} (hd : isGraph d = true) {t : List Char} (ht : AtGap t) : words ('$' :: d :: t) = ['$', d] :: words t :=
  words_word (w := ['$', d]) (u := t) (by simp [hd, isGraph_dollar]) (by simp) ht

theorem clean_gen {t u : List Char} (h : Blank t u) : ∀ (p : List Char) (prev : Bool), (∀ c ∈ p, isGraph c = true ∧ c ≠ '$') → (p ≠ [] → prev = true) →
    rawErrs prev false (t ++ ['$', '.']) = 0 → uncomment false (words (p ++ t)) = some (words (p ++ u)) ∧ Legal t ∧ EndsGap (p ++ t) := by
  induction h with
  | nil =>
    intro p prev hp hpr h
    have : prev = false := by cases prev; rfl; simp [rawErrs] at h
    have hp0 : p = [] := by
      cases p with
      | nil => rfl
      | cons c p => rw [hpr (by simp)] at this; cases this
    subst hp0
    exact ⟨by rw [List.nil_append, words_nil]; rfl, fun c hc => (by cases hc), fun c hc => (by cases hc)⟩
  | @char t u c hc hb ih =>
    intro p prev hp hpr h
    rw [List.cons_append, rawErrs_char hc] at h
    have hl : isGraph c = true ∨ isSpace c = true := by
      cases h1 : isGraph c
      · right
        cases h2 : isSpace c
        · simp [h1, h2] at h
        · rfl
      · exact Or.inl rfl
    cases hg : isGraph c with
    | true =>
      rw [hg] at h
      obtain ⟨i1, i2, i3⟩ := ih (p ++ [c]) true (by
        intro d hd
        rcases List.mem_append.1 hd with hd | hd
        · exact hp d hd
        · simp at hd; subst hd; exact ⟨hg, hc⟩) (fun _ => rfl) (by omega)
      rw [List.append_assoc, List.append_assoc] at i1
      rw [List.append_assoc] at i3
      refine ⟨i1, ?_, i3⟩
      intro d hd
      rcases List.mem_cons.1 hd with rfl | hd
      · exact hl
      · exact i2 d hd
    | false =>
      rw [hg] at h
      obtain ⟨i1, i2, i3⟩ := ih [] false (fun _ h => by cases h) (fun h => absurd rfl h) (by omega)
      rw [List.nil_append, List.nil_append] at i1
      rw [List.nil_append] at i3
      refine ⟨?_, ?_, ?_⟩
      · have e1 := MM.Long.words_sep p c t hg
        have e2 := MM.Long.words_sep p c u hg
        rw [e1, e2]
        have hpp : uncomment false (words p) = some (words p) := uncomment_plain (words_no_dollar fun hd => (hp _ hd).2 rfl)
        rw [uncomment_append hpp, i1]
        rfl
      · intro d hd
        rcases List.mem_cons.1 hd with rfl | hd
        · exact hl
        · exact i2 d hd
      · refine endsGap_append ?_ (by simp)
        intro d hd
        cases t with
        | nil => simp at hd; subst hd; exact hg
        | cons e t => exact i3 d (by simpa using hd)
  | @comment t u b hb hbl ih =>
    intro p prev hp hpr h
    have e0 : ('$' :: '(' :: (b ++ '$' :: ')' :: t)) ++ ['$', '.'] = '$' :: '(' :: (b ++ '$' :: ')' :: (t ++ ['$', '.'])) := by simp
    rw [e0, rawErrs_dollar, if_pos (c := '(' = '(') rfl, rawErrs_char (by decide)] at h
    have hprev : prev = false := by cases prev; rfl; simp at h
    have hp0 : p = [] := by
      cases p with
      | nil => rfl
      | cons c p => rw [hpr (by simp)] at hprev; cases hprev
    subst hp0
    have hhead : (b ++ '$' :: ')' :: (t ++ ['$', '.'])).head?.any isGraph = false := by
      cases hh : (b ++ '$' :: ')' :: (t ++ ['$', '.'])).head?.any isGraph
      · rfl
      · rw [hh] at h; simp at h
    have hbne : b ≠ [] := by rintro rfl; exact absurd hhead (by simp [isGraph_dollar])
    have hbg : AtGap b := by
      intro c hc
      cases b with
      | nil => cases hc
      | cons d b => simp at hc; subst hc; simpa using hhead
    have hbe := endsGap_of_com hb
    obtain ⟨l1, l2, p2, l3⟩ := com_in (b := b) (z := t ++ ['$', '.']) (prev := isGraph '(') (by omega) hb.1 hbe
    rw [rawErrs_dollar, if_neg (c := ')' = '(') (by decide), if_pos (c := ')' = ')') rfl, rawErrs_char (by decide)] at l3
    have htail : (t ++ ['$', '.']).head?.any isGraph = false := by
      cases hh : (t ++ ['$', '.']).head?.any isGraph
      · rfl
      · rw [hh] at l3; simp at l3
    have htne : t ≠ [] := by rintro rfl; exact absurd htail (by simp [isGraph_dollar])
    have htg : AtGap t := by
      intro c hc
      cases t with
      | nil => cases hc
      | cons d t => simp at hc; subst hc; simpa using htail
    obtain ⟨i1, i2, i3⟩ := ih [] (isGraph ')') (fun _ h => by cases h) (fun h => absurd rfl h) (by omega)
    rw [List.nil_append, List.nil_append] at i1
    rw [List.nil_append] at i3
    have g1 : isGraph '(' = true := by decide
    have g2 : isGraph ')' = true := by decide
    have hat : AtGap (b ++ '$' :: ')' :: t) := by
      intro c hc
      cases b with
      | nil => exact absurd rfl hbne
      | cons d b => exact hbg c (by simpa using hc)
    refine ⟨?_, ?_, ?_⟩
    · rw [List.nil_append, List.nil_append, words_mark g1 hat, words_app (Or.inl hbe), words_mark g2 htg, uncomment, if_pos rfl,
        uncomment_com (no_mark l2 hb.1), i1, words_blank (by decide)]
    · intro c hc
      rcases List.mem_cons.1 hc with rfl | hc
      · exact Or.inl (by decide)
      rcases List.mem_cons.1 hc with rfl | hc
      · exact Or.inl (by decide)
      rcases List.mem_append.1 hc with hc | hc
      · exact l1 c hc
      rcases List.mem_cons.1 hc with rfl | hc
      · exact Or.inl (by decide)
      rcases List.mem_cons.1 hc with rfl | hc
      · exact Or.inl (by decide)
      exact i2 c hc
    · have : [] ++ '$' :: '(' :: (b ++ '$' :: ')' :: t) = ('$' :: '(' :: b ++ ['$', ')']) ++ t := by simp
      rw [this]
      exact endsGap_append i3 htne

/-- What READ accepted. -/
theorem clean_of {prev : Bool} {t u : List Char} (h : Blank t u) (hq : Quiet prev t) (hs : prev = true → AtGap t) : Clean prev t (words u) := by
  have h0 : rawErrs prev false (t ++ ['$', '.']) = 0 := by rw [hq ['.']]; rfl
  obtain ⟨h1, h2, h3⟩ := clean_gen h [] prev (fun _ h => by cases h) (fun h => absurd rfl h) h0
  rw [List.nil_append] at h3
  refine ⟨h2, h1, words_no_dollar (blank_no_dollar h), ?_, h3⟩
  intro hp
  refine ⟨hs hp, ?_⟩
  rintro rfl
  rw [hp] at h0
  simp [rawErrs] at h0

theorem raw_gaps : ∀ {z x : List Char} {prev com : Bool}, (∀ c ∈ z, isGraph c = false) → Legal z → rawErrs prev com (z ++ x) = rawErrs (if z = [] then prev else false) com x
  | [], x, prev, com, _, _ => by simp
  | c :: z, x, prev, com, hz, hl => by
    have hc : c ≠ '$' := by rintro rfl; exact absurd (hz '$' (by simp)) (by decide)
    have h1 := hz c (by simp)
    have h2 : isSpace c = true := (hl c (by simp)).resolve_left (by rw [h1]; simp)
    rw [List.cons_append, rawErrs_char hc, h1, h2, raw_gaps (fun d hd => hz d (by simp [hd])) (fun d hd => hl d (by simp [hd])), if_neg (c := c :: z = []) (by simp)]
    simp

theorem raw_graphs : ∀ {w x : List Char} {prev com : Bool}, (∀ c ∈ w, isGraph c = true) → '$' ∉ w → w ≠ [] → rawErrs prev com (w ++ x) = rawErrs true com x
  | [], _, _, _, _, _, h => absurd rfl h
  | [c], x, prev, com, hw, hd, _ => by
    have hc : c ≠ '$' := by rintro rfl; exact hd (by simp)
    rw [List.cons_append, List.nil_append, rawErrs_char hc, hw c (by simp)]; simp
  | c :: d :: w, x, prev, com, hw, hd, _ => by
    have hc : c ≠ '$' := by rintro rfl; exact hd (by simp)
    rw [List.cons_append, rawErrs_char hc, hw c (by simp), raw_graphs (w := d :: w) (fun e he => hw e (by simp at he ⊢; tauto)) (by intro h; exact hd (by simp at h ⊢; tauto)) (by simp)]
    simp

theorem blank_gap {t u : List Char} (h : Blank t u) (hg : AtGap t) : AtGap u := by
  cases h with
  | nil => exact fun c hc => by cases hc
  | char c hc hb => intro d hd; exact hg d (by simpa using hd)
  | comment hb hbl => intro d hd; simp at hd; subst hd; decide

theorem clean_out : ∀ (n : Nat) (t : List Char) (ts : List Name), t.length ≤ n → Legal t → uncomment false (words t) = some ts → (∀ w ∈ ts, '$' ∉ w) → EndsGap t →
    (∃ u, Blank t u ∧ words u = ts) ∧ ∀ prev, (prev = true → AtGap t) → ∀ r, rawErrs prev false (t ++ '$' :: r) = rawErrs (if t = [] then prev else false) false ('$' :: r)
  | 0, t, ts, hn, _, hu, _, _ => by
    have : t = [] := List.length_eq_zero_iff.1 (Nat.le_zero.1 hn)
    subst this
    rw [words_nil] at hu
    cases hu
    exact ⟨⟨[], .nil, words_nil⟩, fun prev _ r => by simp⟩
  | n + 1, t, ts, hn, hl, hu, hd, he => by
    obtain ⟨z, hz, hzg⟩ := rawWs_split t
    have hlz : Legal z := fun c hc => hl c (by rw [hz]; simp [hc])
    have hzb : Blank z z := text_blank fun c hc => by rintro rfl; exact absurd (hzg _ hc) (by decide)
    by_cases h0 : rawTok (rawWs t) = []
    · rw [words_end h0] at hu
      cases hu
      rw [rawTok_nil h0, List.append_nil] at hz
      rw [hz] at he ⊢
      refine ⟨⟨z, hzb, words_gap hzg⟩, fun prev _ r => ?_⟩
      exact raw_gaps hzg hlz
    · have hlen := len_after h0
      rw [words_step h0] at hu
      have hgap := atGap_after (rawWs t)
      have hgr := rawTok_graph (rawWs t)
      have hz' : t = z ++ (rawTok (rawWs t) ++ afterTok (rawWs t)) := by rw [rawTok_append]; exact hz
      generalize rawTok (rawWs t) = w at *
      generalize afterTok (rawWs t) = q at *
      subst hz'
      clear hz
      have hqne : q ≠ [] := by
        rintro rfl
        rw [List.append_nil] at he
        have h1 : (z ++ w).getLast? = some (w.getLast h0) := by rw [List.getLast?_append, List.getLast?_eq_some_getLast h0]; rfl
        have := he _ h1
        rw [hgr _ (List.getLast_mem h0)] at this
        cases this
      have hqe : EndsGap q := by
        intro c hc
        apply he
        rw [← List.append_assoc, List.getLast?_append, hc]; rfl
      have hlq : Legal q := fun c hc => hl c (by simp [hc])
      have htne : z ++ (w ++ q) ≠ [] := by simp [hqne]
      by_cases hw : w = ['$', '(']
      · subst hw
        rw [uncomment, if_pos rfl] at hu
        obtain ⟨b, k1, k2, k3, k4, k5, k6⟩ := findClose_spec _ q ts (Nat.le_refl _) hu
        generalize findClose q = q' at *
        have hq'ne : q' ≠ [] := by
          rintro rfl
          have : q.getLast? = some ')' := by rw [k1]; simp
          exact absurd (hqe _ this) (by decide)
        have hq'e : EndsGap q' := by
          intro c hc
          apply hqe
          rw [k1, List.getLast?_append, hc]; rfl
        have hq'l : q'.length ≤ n := by
          have := congrArg List.length k1
          simp at this
          omega
        obtain ⟨⟨u, i1, i2⟩, i3⟩ := clean_out n q' ts hq'l (fun c hc => hlq c (by rw [k1]; simp [hc])) k4 hd hq'e
        have hbne : b ≠ [] := by
          rintro rfl
          have := hgap '$' (by rw [k1]; rfl)
          exact absurd this (by decide)
        have hbl : Legal b := fun c hc => hlq c (by rw [k1]; simp [hc])
        have hmarks : ∀ v ∈ words b, hasMark v = false := by
          rw [k6] at hu
          refine com_marks hu ?_
          rintro v hv rfl
          exact k5.1 (mem_words_infix _ b (Nat.le_refl _) _ hv)
        have hno : ¬ ['$', '('] <:+: b := by
          intro hi
          obtain ⟨v, hv, hvi⟩ := graph_infix (by decide) (by simp) hi
          have := hmarks v hv
          unfold hasMark at this
          rw [Bool.or_eq_false_iff] at this
          exact of_decide_eq_false this.1 hvi
        have hteq : z ++ (['$', '('] ++ q) = z ++ '$' :: '(' :: (b ++ '$' :: ')' :: q') := by rw [k1]; simp
        refine ⟨⟨z ++ ' ' :: u, ?_, ?_⟩, ?_⟩
        · rw [hteq]; exact blank_append hzb (.comment k5 i1)
        · rw [MM.Long.words_sep z ' ' u (by decide), words_gap hzg, List.nil_append, i2]
        · intro prev hp r
          rw [if_neg htne, hteq]
          have e1 : (z ++ '$' :: '(' :: (b ++ '$' :: ')' :: q')) ++ '$' :: r = z ++ '$' :: '(' :: (b ++ '$' :: ')' :: (q' ++ '$' :: r)) := by simp
          rw [e1, raw_gaps hzg hlz]
          have e2 : (if z = [] then prev else false) = false := by
            by_cases hz0 : z = []
            · rw [if_pos hz0]
              cases prev
              · rfl
              · have := hp rfl '$' (by rw [hz0]; rfl)
                exact absurd this (by decide)
            · rw [if_neg hz0]
          have hh : (b ++ '$' :: ')' :: (q' ++ '$' :: r)).head?.any isGraph = false := by
            cases b with
            | nil => exact absurd rfl hbne
            | cons c b => have := hgap c (by rw [k1]; rfl); simp [this]
          have hh2 : (q' ++ '$' :: r).head?.any isGraph = false := by
            cases q' with
            | nil => exact absurd rfl hq'ne
            | cons c q' => have := k2 c rfl; simp [this]
          have g1 : isGraph '(' = true := by decide
          have g2 : isGraph ')' = true := by decide
          rw [e2, rawErrs_dollar, hh, if_pos (c := '(' = '(') rfl, rawErrs_char (by decide), g1, com_out hbl hno k5.1 k3, if_neg hbne, rawErrs_dollar, hh2,
            if_neg (c := ')' = '(') (by decide), if_pos (c := ')' = ')') rfl, rawErrs_char (by decide), g2, i3 true (fun _ => k2) r, if_neg hq'ne]
          simp
      · rw [uncomment, if_neg hw] at hu
        by_cases hm : hasMark w = true
        · rw [if_pos hm] at hu; cases hu
        rw [if_neg hm] at hu
        cases hu2 : uncomment false (words q) with
        | none => rw [hu2] at hu; cases hu
        | some ts' =>
          rw [hu2] at hu
          cases hu
          have hwd : '$' ∉ w := hd w (by simp)
          obtain ⟨⟨u, i1, i2⟩, i3⟩ := clean_out n q ts' (by simp at hn hlen ⊢; omega) hlq hu2 (fun v hv => hd v (by simp [hv])) hqe
          refine ⟨⟨z ++ (w ++ u), ?_, ?_⟩, ?_⟩
          · exact blank_append hzb (blank_append (text_blank fun c hc => by rintro rfl; exact hwd hc) i1)
          · rw [words_app (Or.inl fun c hc => hzg c (List.mem_of_getLast? hc)), words_gap hzg, List.nil_append, words_word hgr h0 (blank_gap i1 hgap), i2]
          · intro prev hp r
            rw [if_neg htne, List.append_assoc, raw_gaps hzg hlz, List.append_assoc, raw_graphs hgr hwd h0, i3 true (fun _ => hgap) r, if_neg hqne]

/-- What READ accepts. -/
theorem clean_to {prev : Bool} {t : List Char} {ts : List Name} (h : Clean prev t ts) : (∃ u, Blank t u ∧ words u = ts) ∧ Quiet prev t := by
  obtain ⟨h1, h2⟩ := clean_out _ t ts (Nat.le_refl _) h.legal h.toks h.dollar h.stop
  refine ⟨h1, fun r => ?_⟩
  rw [h2 prev (fun hp => (h.start hp).1) r]
  by_cases ht : t = []
  · rw [if_pos ht]
    cases prev
    · rfl
    · exact absurd ht (h.start rfl).2
  · rw [if_neg ht]

/-- A text with the same words. -/
theorem Clean.same {prev : Bool} {t t' : List Char} {ts : List Name} (h : Clean prev t ts) (hw : words t' = words t) (hl : Legal t') (hs : prev = true → AtGap t' ∧ t' ≠ []) (he : EndsGap t') :
    Clean prev t' ts := ⟨hl, by unfold tokens; rw [hw]; exact h.toks, h.dollar, hs, he⟩

end MM.Fmt
