import Verif.Incl.Fix
import Verif.Incl.Back
import Verif.Lex.Read
/-!
# Reading one file, and the check of the expanded text
-/
namespace MM.Incl
open MM.Veri MM.Pars MM.Lex

variable {main : Name} {disk : Name → Option (List Char)}

theorem clean_cons {c : Char} (h : c ≠ '\r') (r : List Char) : cleanCr (c :: r) = c :: cleanCr r := by
  rw [cleanCr, if_neg h]

theorem graph_cr {c : Char} (h : isGraph c = true) : c ≠ '\r' := by
  rintro rfl
  exact absurd h (by decide)

theorem clean_ws : ∀ (p : List Char), rawWs (cleanCr p) = cleanCr (rawWs p)
  | [] => rfl
  | c :: r => by
    have ih := clean_ws r
    by_cases hg : isGraph c = true
    · rw [clean_cons (graph_cr hg), rawWs_graph hg, rawWs_graph hg, clean_cons (graph_cr hg)]
    · have hg' : isGraph c = false := by simpa using hg
      have e : rawWs (c :: r) = rawWs r := rawWs_gap (z := [c]) (by intro d hd; rw [List.mem_singleton.1 hd]; exact hg')
      rw [e, ← ih, cleanCr]
      by_cases hc : c = '\r'
      · rw [if_pos hc]
        by_cases hh : r.head? = some '\n'
        · rw [if_pos hh]
        · rw [if_neg hh]
          exact rawWs_gap (z := ['\n']) (by decide)
      · rw [if_neg hc]
        exact rawWs_gap (z := [c]) (by intro d hd; rw [List.mem_singleton.1 hd]; exact hg')

theorem clean_gap {p : List Char} (h : AtGap p) : AtGap (cleanCr p) := by
  cases p with
  | nil => exact h
  | cons c r =>
    rw [cleanCr]
    by_cases hc : c = '\r'
    · rw [if_pos hc]
      by_cases hh : r.head? = some '\n'
      · rw [if_pos hh]
        cases r with
        | nil => cases hh
        | cons d r =>
          have : d = '\n' := by simpa using hh
          subst this
          rw [clean_cons (by decide)]
          intro x hx
          have : x = '\n' := by simpa using hx.symm
          subst this
          decide
      · rw [if_neg hh]
        intro x hx
        have : x = '\n' := by simpa using hx.symm
        subst this
        decide
    · rw [if_neg hc]
      intro x hx
      exact h x (by simpa using hx)

theorem clean_tok : ∀ {w : List Char}, (∀ c ∈ w, isGraph c = true) → ∀ (r : List Char), cleanCr (w ++ r) = w ++ cleanCr r
  | [], _, _ => rfl
  | c :: w, h, r => by
    rw [List.cons_append, clean_cons (graph_cr (h c List.mem_cons_self)), clean_tok (fun d hd => h d (List.mem_cons_of_mem _ hd))]
    rfl

theorem words_clean : ∀ (k : Nat) (p : List Char), p.length ≤ k → words (cleanCr p) = words p
  | 0, p, hk => by
    have : p = [] := List.length_eq_zero_iff.1 (Nat.le_zero.1 hk)
    subst this
    rfl
  | k + 1, p, hk => by
    have h1 : cleanCr (rawWs p) = rawTok (rawWs p) ++ cleanCr (afterTok (rawWs p)) := by
      conv_lhs => rw [← rawTok_append (rawWs p)]
      exact clean_tok (rawTok_graph _) _
    have h2 := tok_app (rawTok_graph (rawWs p)) (clean_gap (atGap_after (rawWs p)))
    by_cases h0 : rawTok (rawWs p) = []
    · rw [words_end h0, words_end]
      rw [clean_ws, h1, h2.1]
      exact h0
    · have hlen := len_after h0
      rw [words_step h0, words_step (by rw [clean_ws, h1, h2.1]; exact h0), clean_ws, h1, h2.1, h2.2, words_clean k _ (by omega)]

theorem clean_ne : ∀ {p : List Char}, p ≠ [] → cleanCr p ≠ []
  | [], h => absurd rfl h
  | c :: r, _ => by
    rw [cleanCr]
    by_cases hc : c = '\r'
    · rw [if_pos hc]
      by_cases hh : r.head? = some '\n'
      · rw [if_pos hh]
        cases r with
        | nil => cases hh
        | cons d r =>
          have : d = '\n' := by simpa using hh
          subst this
          rw [clean_cons (by decide)]
          simp
      · rw [if_neg hh]; simp
    · rw [if_neg hc]; simp

theorem clean_mem : ∀ (p : List Char), ∀ c ∈ cleanCr p, c ≠ '\r' ∧ (c = '\n' ∨ c ∈ p)
  | [], c, h => by cases h
  | d :: r, c, h => by
    have ih := clean_mem r c
    rw [cleanCr] at h
    by_cases hd : d = '\r'
    · rw [if_pos hd] at h
      by_cases hh : r.head? = some '\n'
      · rw [if_pos hh] at h
        exact ⟨(ih h).1, (ih h).2.imp id (List.mem_cons_of_mem _)⟩
      · rw [if_neg hh] at h
        rcases List.mem_cons.1 h with rfl | h
        · exact ⟨by decide, Or.inl rfl⟩
        · exact ⟨(ih h).1, (ih h).2.imp id (List.mem_cons_of_mem _)⟩
    · rw [if_neg hd] at h
      rcases List.mem_cons.1 h with rfl | h
      · exact ⟨hd, Or.inr List.mem_cons_self⟩
      · exact ⟨(ih h).1, (ih h).2.imp id (List.mem_cons_of_mem _)⟩

theorem clean_id : ∀ {p : List Char}, (∀ c ∈ p, c ≠ '\r') → cleanCr p = p
  | [], _ => rfl
  | c :: r, h => by
    rw [clean_cons (h c List.mem_cons_self), clean_id fun d hd => h d (List.mem_cons_of_mem _ hd)]

theorem gap_nl {t : List Char} (h : t.getLast? = some '\n') : EndsGap t := by
  intro c hc
  rw [h] at hc
  cases hc
  decide

/-- A plain file is read with the same words; the text ends with a line end. -/
theorem read_plain {b : List Char} (h : PlainFile b) : ∃ t, readFileToString b = .val (some t) ∧ words t = words b ∧ t.getLast? = some '\n' ∧
    ∀ c ∈ t, c ≠ '\r' ∧ (c = '\n' ∨ c ∈ b) := by
  unfold readFileToString
  rw [if_neg h.2]
  unfold endLine
  rw [if_neg (clean_ne h.1)]
  by_cases hl : (cleanCr b).getLast? = some '\n'
  · rw [if_pos hl]
    exact ⟨_, rfl, words_clean _ b (Nat.le_refl _), hl, clean_mem b⟩
  · rw [if_neg hl]
    refine ⟨_, rfl, ?_, by simp, ?_⟩
    · rw [words_app (Or.inr (by intro c hc; have : c = '\n' := by simpa using hc.symm
                                subst this; decide)), words_clean _ b (Nat.le_refl _)]
      rw [words_gap (z := ['\n']) (by decide), List.append_nil]
    · intro c hc
      rcases List.mem_append.1 hc with hc | hc
      · exact clean_mem b c hc
      · rw [List.mem_singleton.1 hc]
        exact ⟨by decide, Or.inl rfl⟩

theorem read_fsOk (h : ∀ f b, disk f = some b → PlainFile b) : FsOk (diskFs disk) disk := by
  intro f
  unfold diskFs
  cases hd : disk f with
  | none => rfl
  | some b =>
    obtain ⟨t, h1, h2, h3, _⟩ := read_plain (h f b hd)
    exact ⟨t, h1, h2, gap_nl h3, by rintro rfl; cases h3⟩

theorem read_last (h : ∀ f b, disk f = some b → PlainFile b) {f : Name} {t : List Char} (ht : diskFs disk f = .val (some t)) : t.getLast? = some '\n' := by
  unfold diskFs at ht
  cases hd : disk f with
  | none => rw [hd] at ht; cases ht
  | some b =>
    rw [hd] at ht
    obtain ⟨t', h1, _, h3, _⟩ := read_plain (h f b hd)
    rw [show readFileToString b = .val (some t) from ht] at h1
    cases h1
    exact h3

theorem read_asc (h : ∀ f b, disk f = some b → PlainFile b ∧ ∀ c ∈ b, c.toNat < 128) (f : Name) (t : List Char) (ht : diskFs disk f = .val (some t)) : AscT t := by
  unfold diskFs at ht
  cases hd : disk f with
  | none => rw [hd] at ht; cases ht
  | some b =>
    rw [hd] at ht
    obtain ⟨t', h1, _, _, h4⟩ := read_plain (h f b hd).1
    rw [show readFileToString b = .val (some t) from ht] at h1
    cases h1
    intro c hc
    refine ⟨?_, (h4 c hc).1⟩
    rcases (h4 c hc).2 with rfl | h5
    · decide
    · exact (h f b hd).2 c h5

/-- A text that has been read is read again as it is. -/
theorem read_again {t : List Char} (h : AscT t) (hl : t.getLast? = some '\n') : readFileToString t = .val (some t) := by
  have hne : t ≠ [] := by rintro rfl; cases hl
  unfold readFileToString
  rw [if_neg, clean_id fun c hc => (h c hc).2]
  · unfold endLine
    rw [if_neg hne, if_pos hl]
  · intro hb
    cases t with
    | nil => cases hl
    | cons c r =>
      have h1 := (h c List.mem_cons_self).1
      rw [List.take_cons (by decide), List.map_cons] at hb
      have := (List.cons.inj hb).1
      omega

/-! ### `readRawSource` rejects file inclusions -/

theorem raw_word : ∀ {w : List Char} {r : List Char} {prev com : Bool}, (∀ c ∈ w, isGraph c = true) → hasMark w = false → AtGap r → rawErrs prev com (w ++ r) = 0 →
    (∃ prev', rawErrs prev' com r = 0) ∧ (com = false → ¬ ['$', '['] <+: w)
  | [], r, prev, com, _, _, _, h => ⟨⟨prev, h⟩, fun _ hp => by obtain ⟨x, hx⟩ := hp; cases hx⟩
  | c :: w, r, prev, com, hg, hm, hr, h => by
    have hm' : hasMark w = false := by
      unfold hasMark at hm ⊢
      rw [Bool.or_eq_false_iff] at hm ⊢
      exact ⟨decide_eq_false fun hi => of_decide_eq_false hm.1 (hi.trans (List.suffix_cons c w).isInfix),
        decide_eq_false fun hi => of_decide_eq_false hm.2 (hi.trans (List.suffix_cons c w).isInfix)⟩
    have hg' : ∀ d ∈ w, isGraph d = true := fun d hd => hg d (List.mem_cons_of_mem _ hd)
    by_cases hc : c = '$'
    · subst hc
      have hh : ∀ d, (w ++ r).head? = some d → d ≠ '(' ∧ d ≠ ')' ∧ (d = '[' → ['$', '['] <+: ('$' :: w)) := by
        intro d hd
        cases w with
        | nil =>
          have := hr d hd
          exact ⟨by rintro rfl; exact absurd this (by decide), by rintro rfl; exact absurd this (by decide), by rintro rfl; exact absurd this (by decide)⟩
        | cons x w =>
          have : x = d := by simpa using hd
          subst this
          unfold hasMark at hm
          rw [Bool.or_eq_false_iff] at hm
          exact ⟨by rintro rfl; exact of_decide_eq_false hm.1 ⟨[], w, rfl⟩, by rintro rfl; exact of_decide_eq_false hm.2 ⟨[], w, rfl⟩, by rintro rfl; exact ⟨w, rfl⟩⟩
      rw [List.cons_append] at h
      cases hx : w ++ r with
      | nil =>
        obtain ⟨rfl, rfl⟩ := List.append_eq_nil_iff.1 hx
        refine ⟨?_, fun _ hp => ?_⟩
        · cases com
          · exact ⟨true, rfl⟩
          · simp [rawErrs] at h
        · exact absurd hp (by decide)
      | cons d x =>
        obtain ⟨k1, k2, k3⟩ := hh d (by rw [hx]; rfl)
        rw [hx, rawErrs_dollar, if_neg k1, if_neg k2] at h
        have hrest : rawErrs true com (w ++ r) = 0 := by
          rw [hx]
          cases com with
          | true => rw [if_pos rfl] at h; omega
          | false => rw [if_neg (c := false = true) (by simp)] at h; omega
        refine ⟨(raw_word hg' hm' hr hrest).1, ?_⟩
        rintro rfl
        rw [if_neg (c := false = true) (by simp)] at h
        rintro ⟨y, hy⟩
        have hw : w = '[' :: y := (List.cons.inj hy).2.symm
        have hd : d = '[' := by
          rw [hw] at hx
          exact ((List.cons.inj hx).1).symm
        rw [if_pos (Or.inl hd)] at h
        omega
    · rw [List.cons_append, rawErrs_char hc] at h
      have hrest : rawErrs (isGraph c) com (w ++ r) = 0 := by omega
      refine ⟨(raw_word hg' hm' hr hrest).1, fun _ hp => ?_⟩
      obtain ⟨x, hx⟩ := hp
      exact hc (List.cons.inj hx).1.symm

theorem raw_gap : ∀ {z r : List Char} {prev com : Bool}, (∀ c ∈ z, isGraph c = false) → rawErrs prev com (z ++ r) = 0 → ∃ prev', rawErrs prev' com r = 0
  | [], r, prev, com, _, h => ⟨prev, h⟩
  | c :: z, r, prev, com, hz, h => by
    have hc : c ≠ '$' := by rintro rfl; have := hz '$' List.mem_cons_self; exact absurd this (by decide)
    rw [List.cons_append, rawErrs_char hc] at h
    exact raw_gap (fun d hd => hz d (List.mem_cons_of_mem _ hd)) (by omega : rawErrs (isGraph c) com (z ++ r) = 0)

/-- A text accepted by `readRawSource` does not contain file inclusions. -/
theorem raw_clean : ∀ (k : Nat) (p : List Char) (m prev : Bool) (out : List Name), p.length ≤ k → rawErrs prev m p = 0 → uncomment m (words p) = some out →
    ∀ w ∈ out, ¬ ['$', '['] <+: w
  | 0, p, m, prev, out, hk, _, hu => by
    have : p = [] := List.length_eq_zero_iff.1 (Nat.le_zero.1 hk)
    subst this
    rw [words_nil] at hu
    cases m
    · cases hu; intro w hw; cases hw
    · cases hu
  | k + 1, p, m, prev, out, hk, hr, hu => by
    obtain ⟨z, hz, hzg⟩ := rawWs_split p
    rw [hz] at hr
    obtain ⟨prev1, hr1⟩ := raw_gap hzg hr
    by_cases h0 : rawTok (rawWs p) = []
    · rw [words_end h0] at hu
      cases m
      · cases hu; intro w hw; cases hw
      · cases hu
    · have hlen := len_after h0
      rw [words_step h0] at hu
      have hr2 := hr1
      rw [← rawTok_append (rawWs p)] at hr2
      have hgap := atGap_after (rawWs p)
      have hgr := rawTok_graph (rawWs p)
      generalize rawTok (rawWs p) = w at *
      generalize afterTok (rawWs p) = q at *
      cases m with
      | false =>
        by_cases ho : w = ['$', '(']
        · subst ho
          rw [uncomment, if_pos rfl] at hu
          rw [List.cons_append, List.cons_append, List.nil_append, rawErrs_dollar, if_pos rfl, rawErrs_char (by decide)] at hr2
          exact raw_clean k q true (isGraph '(') out (by omega) (by omega) hu
        · obtain ⟨hk', t, rfl, hu'⟩ := uncomment_first ho hu
          obtain ⟨⟨prev2, hr3⟩, hn⟩ := raw_word hgr hk' hgap hr2
          intro v hv
          rcases List.mem_cons.1 hv with rfl | hv
          · exact hn rfl
          · exact raw_clean k q false prev2 t (by omega) hr3 hu' v hv
      | true =>
        rw [uncomment] at hu
        by_cases hc : w = ['$', ')']
        · subst hc
          rw [if_pos rfl] at hu
          rw [List.cons_append, List.cons_append, List.nil_append, rawErrs_dollar, if_neg (c := ')' = '(') (by decide), if_pos (c := ')' = ')') rfl,
            rawErrs_char (by decide)] at hr2
          exact raw_clean k q false (isGraph ')') out (by omega) (by omega) hu
        · rw [if_neg hc] at hu
          by_cases hk' : hasMark w = true
          · rw [if_pos hk'] at hu; cases hu
          · rw [if_neg hk'] at hu
            obtain ⟨⟨prev2, hr3⟩, _⟩ := raw_word hgr (by simpa using hk') hgap hr2
            exact raw_clean k q true prev2 out (by omega) hr3 hu

end MM.Incl
