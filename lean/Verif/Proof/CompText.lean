import Verif.Proof.CompInv
import Verif.Lex.Toks
import Mathlib.Data.List.TakeWhile
/-!
# Scanning the text of a compressed proof: white space and comments do not matter
-/
namespace MM.Proof
open MM.Veri MM.Pars MM.Lex

variable {E : Env} {p W : Nat} {bg : Bool}

/-- `whiteSpaceLen` skips unprintable characters and comments. -/
theorem skip_split {t u e : List Char} (hB : Blank t u) (he : Stop e) :
    ∃ t' u' b, skipWs .ws (t ++ e) = .val (t' ++ e) ∧ Blank t' u' ∧ t'.length ≤ t.length ∧ t' <:+ t ∧ u = b ++ u' ∧ (∀ c ∈ b, isGraph c = false) ∧
      ∀ c, t'.head? = some c → isGraph c = true ∧ c ≠ '$' := by
  induction hB with
  | nil => exact ⟨[], [], [], by simpa using skip_stop he, .nil, le_refl _, List.suffix_refl _, rfl, by simp, by simp⟩
  | @char t u c hc hB ih =>
    by_cases hg : isGraph c = true
    · refine ⟨c :: t, c :: u, [], ?_, .char c hc hB, le_refl _, List.suffix_refl _, rfl, by simp, ?_⟩
      · rw [List.cons_append, skip_ws_char hc, if_pos hg]
      · intro d hd; simp at hd; subst hd; exact ⟨hg, hc⟩
    · obtain ⟨t', u', b, h1, h2, h3, h3', h4, h5, h6⟩ := ih
      refine ⟨t', u', c :: b, ?_, h2, by simp; omega, h3'.trans (List.suffix_cons _ _), by rw [h4]; rfl, ?_, h6⟩
      · rw [List.cons_append, skip_ws_char hc, if_neg hg]; exact h1
      · intro d hd
        rcases List.mem_cons.1 hd with rfl | hd
        · simpa using hg
        · exact h5 d hd
  | @comment t u x hb hB ih =>
    obtain ⟨t', u', b, h1, h2, h3, h3', h4, h5, h6⟩ := ih
    refine ⟨t', u', ' ' :: b, ?_, h2, by simp; omega, ?_, by rw [h4]; rfl, ?_, h6⟩
    · rw [List.cons_append, List.cons_append, skip_ws_com, List.append_assoc, List.cons_append, List.cons_append, skip_comment _ hb]
      exact h1
    · exact h3'.trans ⟨'$' :: '(' :: (x ++ ['$', ')']), by simp⟩
    · intro d hd
      rcases List.mem_cons.1 hd with rfl | hd
      · exact isGraph_space
      · exact h5 d hd

theorem blank_cons {c : Char} {t u : List Char} (hc : c ≠ '$') (h : Blank (c :: t) u) : ∃ u', u = c :: u' ∧ Blank t u' := by
  generalize hq : c :: t = q at h
  cases h with
  | nil => cases hq
  | char d _ h2 => cases hq; exact ⟨_, rfl, h2⟩
  | comment _ _ => cases hq; exact absurd rfl hc

/-- The characters, one after the other, without white space. -/
def crun (E : Env) (W : Nat) (bg : Bool) : List Char → CState → Out CState
  | [], s => .val s
  | c :: cs, s => do
    let s' ← cchar E W bg c s
    crun E W bg cs s'

theorem crun_append {cs ds : List Char} : ∀ {s : CState}, crun E W bg (cs ++ ds) s = (crun E W bg cs s).bind (crun E W bg ds) := by
  induction cs with
  | nil => intro s; rfl
  | cons c cs ih =>
    intro s
    rw [List.cons_append, crun, crun]
    cases cchar E W bg c s <;> simp [ih, bind, Out.bind]

/-- Printable characters and the white space of the language. -/
def TextChars (t : List Char) : Prop := ∀ c ∈ t, isGraph c = true ∨ isSpace c = true

theorem not_space_of_graph {c : Char} (h : isGraph c = true) : isSpace c = false := by
  unfold isGraph at h
  unfold isSpace
  simp at h ⊢
  omega

theorem cchar_space {c : Char} (h : isSpace c = true) (s : CState) : cchar E W bg c s = .val s := by
  unfold isSpace at h
  simp at h
  have hz : c ≠ 'Z' := by rintro rfl; simp at h
  unfold cchar
  rw [if_neg (by omega), if_neg (by omega), if_neg (by omega), if_neg hz, if_pos]
  unfold isSpace
  simp; exact h

/-- The loop over the characters, over a proof section with comments. -/
theorem cloop_run {r : List Char} : ∀ (n : Nat) {t u : List Char} (s : CState), Blank t u → TextChars t → t.length < n →
    cloop E W bg n (t ++ '$' :: '.' :: r) s = crun E W bg (u.filter isGraph) s := by
  intro n
  induction n with
  | zero => intro t u s _ _ h; omega
  | succ n ih =>
    intro t u s hB hT hn
    have he : Stop ('$' :: '.' :: r) := Or.inr ⟨_, _, rfl, by decide⟩
    cases hB with
    | nil => simp [cloop, crun]
    | @char t u c hc hB =>
      have hT' : TextChars t := fun x hx => hT x (by simp [hx])
      rw [List.cons_append, cloop, if_neg hc]
      have hn' : t.length < n := by simp at hn; omega
      rcases hT c (by simp) with hg | hg
      · rw [List.filter_cons_of_pos hg, crun]
        cases h : cchar E W bg c s
        · rename_i s'
          rw [Out.bind_val, Out.bind_val]
          exact ih s' hB hT' hn'
        all_goals rfl
      · rw [cchar_space hg, Out.bind_val, List.filter_cons_of_neg, ih s hB hT' hn']
        intro hc; rw [not_space_of_graph hc] at hg; cases hg
    | @comment t u b hb hB =>
      obtain ⟨t', u', b', h1, h2, h3, h3', h4, h5, h6⟩ := skip_split hB he
      have hlt : t'.length < n := by simp at hn; omega
      have hsk : skipWs .ws ('$' :: '(' :: (b ++ '$' :: ')' :: t) ++ '$' :: '.' :: r) = .val (t' ++ '$' :: '.' :: r) := by
        rw [List.cons_append, List.cons_append, skip_ws_com, List.append_assoc, List.cons_append, List.cons_append, skip_comment _ hb]
        exact h1
      rw [List.cons_append, cloop, if_pos rfl, List.cons_append, if_neg (by simp), if_pos (by simp)]
      rw [← List.cons_append, ← List.cons_append, hsk, Out.bind_val, ih s h2 (fun c hc => hT c (by have := h3'.subset hc; simp [this])) hlt, h4,
        List.filter_cons_of_neg (by decide), List.filter_append]
      have : b'.filter isGraph = [] := by rw [List.filter_eq_nil_iff]; intro x hx; simp [h5 x hx]
      rw [this, List.nil_append]

/-- The scan of the label list. -/
theorem labelList_spec {e : List Char} (he : Stop e) : ∀ (n : Nat) {t u1 u2 : List Char}, Blank t (u1 ++ ')' :: u2) → ')' ∉ u1 → t.length < n →
    ∃ L t2, labelList n (t ++ e) = .val L ∧ L.toks = proofWords u1 ∧ L.rest = t2 ++ e ∧ Blank t2 u2 ∧ t2 <:+ t ∧ L.missing = false ∧
      (proofWords u1 = [] → L.last = none) ∧
      (proofWords u1 ≠ [] → ∃ t' w v, L.last = some (t' ++ e) ∧ t' <:+ t ∧ (proofWords u1).getLast? = some w ∧
        Blank t' (w ++ v ++ ')' :: u2) ∧ (∀ c ∈ v, isGraph c = false)) := by
  intro n
  induction n with
  | zero => intro t u1 u2 _ _ h; omega
  | succ n ih =>
    intro t u1 u2 hB hu1 hn
    obtain ⟨t1, u', b, h1, h2, h3, h3', h4, h5, h6⟩ := skip_split hB he
    have hb : ∃ v1, u1 = b ++ v1 ∧ u' = v1 ++ ')' :: u2 := by
      rcases List.append_eq_append_iff.1 h4 with ⟨a, ha, hb⟩ | ⟨a, ha, hb⟩
      · cases a with
        | nil => exact ⟨[], by simpa using ha.symm, by simpa using hb.symm⟩
        | cons x a =>
          simp at hb
          have := h5 x (by rw [ha]; simp)
          rw [← hb.1] at this
          exact absurd this (by decide)
      · exact ⟨a, ha, hb⟩
    obtain ⟨v1, rfl, rfl⟩ := hb
    have hw : proofWords (b ++ v1) = proofWords v1 := by
      unfold proofWords
      rw [isSingle_eq]
      clear h4 hB hu1 h2
      induction b with
      | nil => rfl
      | cons c b ihb =>
        have hc := h5 c (by simp)
        rw [List.cons_append, spread_cons, if_neg (by intro h; rw [isSingle_graph h] at hc; cases hc)]
        rw [List.singleton_append, words_blank hc]
        exact ihb (fun x hx => h5 x (by simp [hx]))
    rw [hw]
    rw [labelList, h1, Out.bind_val]
    cases v1 with
    | nil =>
      cases t1 with
      | nil => cases h2
      | cons c t1 =>
        obtain ⟨hg, hcd⟩ := h6 c rfl
        obtain ⟨u3, hu3, hB3⟩ := blank_cons hcd h2
        simp at hu3
        obtain ⟨rfl, rfl⟩ := hu3
        have hl : proofTokenLen ((')' :: t1) ++ e) = 1 := proofTokenLen_ok.2.1 ')' _ (by decide)
        rw [hl, if_neg (by omega), if_pos (by simp)]
        refine ⟨_, t1, rfl, ?_, by simp, hB3, (List.suffix_cons _ _).trans h3', rfl, fun _ => rfl, ?_⟩
        · simp [proofWords, spreadBy, words_nil]
        · intro h; simp [proofWords, spreadBy, words_nil] at h
    | cons c v1 =>
      have hc1 : c ≠ ')' := by rintro rfl; exact hu1 (by simp)
      cases t1 with
      | nil => cases h2
      | cons c' t1 =>
        obtain ⟨hg, hcd⟩ := h6 c' rfl
        obtain ⟨u3, hu3, hB3⟩ := blank_cons hcd h2
        rw [List.cons_append] at hu3
        obtain ⟨rfl, rfl⟩ : c = c' ∧ v1 ++ ')' :: u2 = u3 := by injection hu3 with a b; exact ⟨a, b⟩
        -- the token and the rest
        have htok : ∃ w v t2, c :: v1 = w ++ v ∧ Blank t2 (v ++ ')' :: u2) ∧ c :: t1 = w ++ t2 ∧ w ≠ [] ∧ proofTokenLen ((c :: t1) ++ e) = w.length ∧
            proofWords (c :: v1) = w :: proofWords v := by
          by_cases hs : isSingle c = true
          · refine ⟨[c], v1, t1, rfl, hB3, rfl, by simp, proofTokenLen_ok.2.1 c _ hs, ?_⟩
            unfold proofWords
            rw [isSingle_eq, spread_cons, if_pos hs, List.cons_append, words_blank isGraph_space, List.cons_append, List.cons_append, List.nil_append]
            have := words_word (w := [c]) (u := ' ' :: spreadBy isSingle v1) (by simpa using hg) (by simp) (by intro x hx; simp at hx; subst hx; exact isGraph_space)
            rw [List.singleton_append, words_blank isGraph_space] at this
            rw [this]
          · obtain ⟨w, t2, u2', k1, k2, k3, k4, k5, k6⟩ := run_section (sp := isSingle) h2
            have hw : w ≠ [] := by
              rintro rfl
              simp only [List.nil_append] at k1
              rcases k6 c (by rw [← k1]; rfl) with h | h | ⟨r, h⟩
              · rw [h] at hg; cases hg
              · exact hs h
              · rw [← k1] at h; simp at h; exact hcd h.1
            have hl : proofTokenLen ((c :: t1) ++ e) = w.length := by
              rw [k1, List.append_assoc]
              refine proofTokenLen_ok.2.2 w _ hw k4 ?_
              cases t2 with
              | nil => exact Or.inl he
              | cons d t2 =>
                rcases k6 d rfl with h | h | ⟨r, h⟩
                · exact Or.inr (Or.inr ⟨d, t2 ++ e, rfl, fun hh => by (rw [hh, isGraph_dollar] at h; cases h), Or.inl h⟩)
                · exact Or.inr (Or.inr ⟨d, t2 ++ e, rfl, fun hh => by (rw [hh] at h; exact absurd h (by decide)), Or.inr h⟩)
                · exact Or.inr (Or.inl ⟨r ++ e, by rw [h]; rfl⟩)
            have hv : ∃ v, c :: v1 = w ++ v ∧ u2' = v ++ ')' :: u2 := by
              rcases List.append_eq_append_iff.1 k2 with ⟨a, ha, hb⟩ | ⟨a, ha, hb⟩
              · cases a with
                | nil => exact ⟨[], by simpa using ha.symm, by simpa using hb.symm⟩
                | cons x a =>
                  simp at hb
                  have := k4 x (by rw [ha]; simp)
                  rw [← hb.1] at this
                  exact absurd this.2.2 (by decide)
              · exact ⟨a, ha, hb⟩
            obtain ⟨v, hv1, rfl⟩ := hv
            refine ⟨w, v, t2, hv1, k3, k1, hw, hl, ?_⟩
            unfold proofWords
            rw [isSingle_eq, hv1, spread_plain _ (fun x hx => (k4 x hx).2.2), words_word (fun x hx => (k4 x hx).1) hw]
            apply spread_head
            intro x hx
            cases v with
            | nil => cases hx
            | cons y v => exact k5 x (by simpa using hx)
        obtain ⟨w, v, t2, hv, hB4, ht, hw0, hl, hwords⟩ := htok
        have hhead : ((c :: t1) ++ e).head? ≠ some ')' := by simpa using hc1
        rw [hl, if_neg (by rw [List.length_eq_zero_iff]; exact hw0), if_neg hhead, ht, List.append_assoc, List.drop_left, List.take_left]
        have hlt : t2.length < n := by
          have h7 : (c :: t1).length = w.length + t2.length := by rw [ht, List.length_append]
          have := List.length_pos_iff.2 hw0
          simp at h7 h3; omega
        have hsuf : t2 <:+ t := List.IsSuffix.trans ⟨w, ht.symm⟩ h3'
        have hv' : ')' ∉ v := by
          intro hh
          apply hu1
          rw [hv]; simp [hh]
        obtain ⟨L, t3, r1, r2, r3, r4, r5, r6, r7, r8⟩ := ih hB4 hv' hlt
        rw [r1, Out.bind_val, hwords]
        refine ⟨_, t3, rfl, by rw [r2], r3, r4, r5.trans hsuf, r6, by simp, fun _ => ?_⟩
        dsimp only
        by_cases hv0 : proofWords v = []
        · rw [r7 hv0]
          refine ⟨c :: t1, w, v, ?_, h3', ?_, ?_, ?_⟩
          · rw [ht, List.append_assoc]; rfl
          · rw [hv0]; rfl
          · rw [← hv]; exact h2
          · -- no word in `v`
            unfold proofWords at hv0
            rw [isSingle_eq] at hv0
            have key : ∀ v : List Char, words (spreadBy isSingle v) = [] → ∀ x ∈ v, isGraph x = false := by
              intro v
              induction v with
              | nil => simp
              | cons x v ihv =>
                intro h0
                rw [spread_cons] at h0
                by_cases hx : isGraph x = true
                · exfalso
                  by_cases hxs : isSingle x = true
                  · rw [if_pos hxs, List.cons_append, words_blank isGraph_space, List.cons_append, List.cons_append, List.nil_append] at h0
                    have := words_word (w := [x]) (u := ' ' :: spreadBy isSingle v) (by simpa using hx) (by simp) (by intro y hy; simp at hy; subst hy; exact isGraph_space)
                    rw [List.singleton_append, h0] at this; cases this
                  · rw [if_neg hxs, List.singleton_append] at h0
                    -- a word starts here
                    have hne : (x :: spreadBy isSingle v).takeWhile isGraph ≠ [] := by simp [hx]
                    have := words_word (w := (x :: spreadBy isSingle v).takeWhile isGraph) (u := (x :: spreadBy isSingle v).dropWhile isGraph)
                      (fun y hy => List.mem_takeWhile_imp hy) hne (by
                        intro y hy
                        have := List.head?_dropWhile_not isGraph (x :: spreadBy isSingle v)
                        rw [hy] at this
                        simpa using this)
                    rw [List.takeWhile_append_dropWhile, h0] at this; cases this
                · have hx' : isGraph x = false := by simpa using hx
                  rw [if_neg (by intro h; exact hx (isSingle_graph h)), List.singleton_append, words_blank hx'] at h0
                  intro y hy
                  rcases List.mem_cons.1 hy with rfl | hy
                  · exact hx'
                  · exact ihv h0 y hy
            exact key v hv0
        · obtain ⟨t', w', v', q1, q2, q3, q4, q5⟩ := r8 hv0
          refine ⟨t', w', v', ?_, q2.trans hsuf, ?_, q4, q5⟩
          · rw [q1]; rfl
          · rw [List.getLast?_cons, q3]; rfl

end MM.Proof
