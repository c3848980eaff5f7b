import Verif.Proof.CompSpec
import Verif.Proof.Text
import Verif.Lex.Read
/-!
# Compressed proofs as text: what is accepted, what it means, and that correct proofs are accepted
-/
namespace MM.Proof
open MM.Veri MM.Pars MM.Lex MM.Spec

/-- The characters READ allows in a source file: printable ones, blank, tab, line feed, vertical tab, form feed, carriage return. -/
def SourceChars (t : List Char) : Prop := ∀ c ∈ t, printable c = true ∨ c.toNat ∈ [9, 10, 11, 12, 13, 32]

/-- The proof section `t` reads `( labs ) code`, comments and white space left out.  `tail` is the part of the section that starts with the last label of
the list, or after the `)` if there is none. -/
def CompSection (t : List Char) (labs : List Name) (code tail : List Char) : Prop :=
  ∃ b u1 u2, Blank t (b ++ '(' :: (u1 ++ ')' :: u2)) ∧ (∀ c ∈ b, printable c = false) ∧ ')' ∉ u1 ∧
    labs = proofWords u1 ∧ code = u2.filter printable ∧ tail <:+ t ∧ (labs = [] → Blank tail u2) ∧
    (∀ w, labs.getLast? = some w → ∃ v, Blank tail (w ++ v ++ ')' :: u2) ∧ ∀ c ∈ v, printable c = false)

/-- The text looks like one made with the compression algorithm of old versions: it contains `UV` but not `UU`. -/
def OldLooking (x : List Char) : Prop := ['U', 'V'] <:+: x ∧ ¬ ['U', 'U'] <:+: x

/-- A label of the list names statement `j`: an optional hypothesis of `p`, or an assertion before `p`. -/
def ListEntry (src : List Src) (s : PState) (p : Nat) (tok : Name) (j : Nat) : Prop :=
  srcLabel src j = tok ∧ (OptHyp (isVarOf src) (kinds src) s.math p j ∨ (j < p ∧ IsAssert src j))

/-- The mandatory hypotheses of `p`, in the order of the source. -/
def MandList (src : List Src) (s : PState) (p : Nat) (hs : List Nat) : Prop :=
  hs.Pairwise (· < ·) ∧ ∀ j, j ∈ hs ↔ MandHyp (isVarOf src) (kinds src) s.math p j

/-- The section `( labs ) code` of a proof of `p` means the references `refs`. -/
structure CompMeans (src : List Src) (s : PState) (p : Nat) (labs : List Name) (xs : List CStep) (refs : List Ref) : Prop where
  lists : ∃ hs js, MandList src s p hs ∧ List.Forall₂ (ListEntry src s p) labs js ∧ Decodes ((hs ++ js).map Ref.stmt) xs refs
  marks : ∀ (k : Nat) (x : CStep) (ref : Ref), xs[k]? = some x → refs[k]? = some ref → x.marks ≠ 0 → ∃ j, ref = .stmt j ∧ IsAssert src j

/-! ### Lemmas -/

variable {E : Env} {p W : Nat} {bg : Bool}

theorem textChars_of {t : List Char} (h : SourceChars t) : TextChars t := by
  intro c hc
  rcases h c hc with h1 | h1
  · left; rwa [← printable_eq]
  · right
    unfold isSpace
    simp at h1 ⊢
    omega

theorem hasSub_iff (m : List Char) : ∀ s, hasSub m s = true ↔ m <:+: s
  | [] => by
    rw [hasSub, List.isPrefixOf_iff_prefix]
    simp
  | c :: t => by
    rw [hasSub, Bool.or_eq_true, List.isPrefixOf_iff_prefix, hasSub_iff m t, List.infix_cons_iff]

theorem bggy_iff (x : List Char) : bggy x = true ↔ OldLooking x := by
  unfold bggy OldLooking
  rw [Bool.and_eq_true, hasSub_iff, Bool.not_eq_true', ← Bool.not_eq_true, hasSub_iff]

theorem words_flatten : ∀ (u : List Char), (words u).flatten = u.filter isGraph := by
  intro u
  induction h : u.length using Nat.strong_induction_on generalizing u with
  | _ n ih =>
    subst h
    cases u with
    | nil => simp [words_nil]
    | cons c u =>
      by_cases hc : isGraph c = true
      · have hne : (c :: u).takeWhile isGraph ≠ [] := by simp [hc]
        have hw := words_word (w := (c :: u).takeWhile isGraph) (u := (c :: u).dropWhile isGraph) (fun y hy => List.mem_takeWhile_imp hy) hne (by
          intro y hy
          have := List.head?_dropWhile_not isGraph (c :: u)
          rw [hy] at this
          simpa using this)
        rw [List.takeWhile_append_dropWhile] at hw
        have hlen : ((c :: u).dropWhile isGraph).length < (c :: u).length := by
          rw [List.dropWhile_cons_of_pos hc]
          have := (List.dropWhile_suffix isGraph (l := u)).length_le
          simp; omega
        have := ih _ hlen _ rfl
        rw [hw, List.flatten_cons, this]
        conv_rhs => rw [← List.takeWhile_append_dropWhile (p := isGraph) (l := c :: u), List.filter_append]
        congr 1
        symm
        rw [List.filter_eq_self]
        intro y hy; exact List.mem_takeWhile_imp hy
      · have hc' : isGraph c = false := by simpa using hc
        rw [words_blank hc', List.filter_cons_of_neg hc]
        exact ih _ (by simp) u rfl

theorem spread_filter (sp : Char → Bool) : ∀ u : List Char, (spreadBy sp u).filter isGraph = u.filter isGraph
  | [] => rfl
  | c :: u => by
    rw [spread_cons, List.filter_append, spread_filter sp u]
    by_cases hs : sp c = true
    · rw [if_pos hs]
      by_cases hg : isGraph c = true
      · simp [hg, isGraph_space]
      · simp [hg, isGraph_space]
    · rw [if_neg hs]
      by_cases hg : isGraph c = true
      · simp [hg]
      · simp [hg]

theorem proofWords_count (u : List Char) : (proofWords u).length ≤ u.length := by
  have h1 : (proofWords u).flatten.length ≤ u.length := by
    unfold proofWords
    rw [words_flatten, spread_filter]
    exact List.length_filter_le _ _
  have h2 : ∀ ws : List Name, (∀ w ∈ ws, w ≠ []) → ws.length ≤ ws.flatten.length := by
    intro ws
    induction ws with
    | nil => simp
    | cons w ws ih =>
      intro h
      have := ih (fun x hx => h x (by simp [hx]))
      have h3 := List.length_pos_iff.2 (h w (by simp))
      rw [List.flatten_cons, List.length_append, List.length_cons]; omega
  exact Nat.le_trans (h2 _ (fun w hw => words_ne_nil w hw)) h1

theorem blank_len {t u : List Char} (h : Blank t u) : u.length ≤ t.length := by
  induction h with
  | nil => simp
  | char => simp; omega
  | comment => simp; omega

theorem codeText_len (xs : List CStep) : xs.length + (marked 0 xs).length ≤ (codeText xs).length := by
  have : ∀ (xs : List CStep) (k : Nat), xs.length + (marked k xs).length ≤ (codeText xs).length := by
    intro xs
    induction xs with
    | nil => intro k; simp [codeText, marked]
    | cons x xs ih =>
      intro k
      have := ih (k + 1)
      simp [codeText, marked, CNum.text] at this ⊢
      omega
  exact this xs 0

theorem labelList_missing {e : List Char} (he : Stop e) : ∀ (n : Nat) {t u : List Char}, Blank t u → ')' ∉ u → t.length < n →
    ∃ L, labelList n (t ++ e) = .val L ∧ L.missing = true ∧ L.rest = e ∧ L.toks.length ≤ t.length := by
  intro n
  induction n with
  | zero => intro t u _ _ h; omega
  | succ n ih =>
    intro t u hB hu hn
    obtain ⟨t1, u', b, h1, h2, h3, h3', h4, h5, h6⟩ := skip_split hB he
    rw [labelList, h1, Out.bind_val]
    cases t1 with
    | nil =>
      rw [List.nil_append, if_pos (proofTokenLen_ok.1 e he)]
      exact ⟨_, rfl, rfl, rfl, by simp⟩
    | cons c t1 =>
      obtain ⟨hg, hcd⟩ := h6 c rfl
      have htok : ∃ w t2 u2, c :: t1 = w ++ t2 ∧ Blank t2 u2 ∧ ')' ∉ u2 ∧ w ≠ [] ∧ proofTokenLen ((c :: t1) ++ e) = w.length := by
        by_cases hs : isSingle c = true
        · obtain ⟨u3, hu3, hB3⟩ := blank_cons hcd h2
          refine ⟨[c], t1, u3, rfl, hB3, ?_, by simp, proofTokenLen_ok.2.1 c _ hs⟩
          intro hh; apply hu; rw [h4, hu3]; simp [hh]
        · obtain ⟨w, t2, u2', k1, k2, k3, k4, k5, k6⟩ := run_section (sp := isSingle) h2
          have hw : w ≠ [] := by
            rintro rfl
            simp only [List.nil_append] at k1
            rcases k6 c (by rw [← k1]; rfl) with h | h | ⟨r, h⟩
            · rw [h] at hg; cases hg
            · exact hs h
            · rw [← k1] at h; simp at h; exact hcd h.1
          refine ⟨w, t2, u2', k1, k3, ?_, hw, ?_⟩
          · intro hh; apply hu; rw [h4, k2]; simp [hh]
          · rw [k1, List.append_assoc]
            refine proofTokenLen_ok.2.2 w _ hw k4 ?_
            cases t2 with
            | nil => exact Or.inl he
            | cons d t2 =>
              rcases k6 d rfl with h | h | ⟨r, h⟩
              · exact Or.inr (Or.inr ⟨d, t2 ++ e, rfl, fun hh => by (rw [hh, isGraph_dollar] at h; cases h), Or.inl h⟩)
              · exact Or.inr (Or.inr ⟨d, t2 ++ e, rfl, fun hh => by (rw [hh] at h; exact absurd h (by decide)), Or.inr h⟩)
              · exact Or.inr (Or.inl ⟨r ++ e, by rw [h]; rfl⟩)
      obtain ⟨w, t2, u2, ht, hB2, hu2, hw0, hl⟩ := htok
      have hc1 : c ≠ ')' := by
        rintro rfl
        obtain ⟨u3, hu3, _⟩ := blank_cons hcd h2
        apply hu; rw [h4, hu3]; simp
      have hhead : ((c :: t1) ++ e).head? ≠ some ')' := by simpa using hc1
      rw [hl, if_neg (by rw [List.length_eq_zero_iff]; exact hw0), if_neg hhead, ht, List.append_assoc, List.drop_left, List.take_left]
      have hlt : t2.length < n := by
        have h7 : (c :: t1).length = w.length + t2.length := by rw [ht, List.length_append]
        have := List.length_pos_iff.2 hw0
        simp at h7 h3; omega
      obtain ⟨L, r1, r2, r3, r4⟩ := ih hB2 hu2 hlt
      rw [r1, Out.bind_val]
      refine ⟨_, rfl, r2, r3, ?_⟩
      have h7 : (c :: t1).length = w.length + t2.length := by rw [ht, List.length_append]
      have := List.length_pos_iff.2 hw0
      simp at h7 h3 ⊢; omega

/-- What follows the scan of the label list. -/
def afterList (E : Env) (W p : Nat) (labs : List Name) (code tail : List Char) : Out Parsed :=
  if labs.length ≥ W ∨ (E.stmt p).reqHyp.length + labs.length > W then .ub
  else do
    let x ← clabels E p labs
    let s ← crun E W (bggy tail) code { map := (E.stmt p).reqHyp.map (fun (i : Nat) => (i : Int)) ++ x.1, ret := x.2.1, ec := x.2.2 }
    cfinish W s

/-- The section starts with `(`. -/
theorem skip_paren {t b u e : List Char} (he : Stop e) (hB : Blank t (b ++ '(' :: u)) (hb : ∀ c ∈ b, printable c = false) :
    ∃ t1, skipWs .ws (t ++ e) = .val (('(' :: t1) ++ e) ∧ Blank t1 u ∧ '(' :: t1 <:+ t := by
  obtain ⟨t1, u', b', h1, h2, h3, h3', h4, h5, h6⟩ := skip_split hB he
  have hgp : isGraph '(' = true := by decide
  have key : b' = b ∧ u' = '(' :: u := by
    rcases List.append_eq_append_iff.1 h4 with ⟨a, ha, hb'⟩ | ⟨a, ha, hb'⟩
    · cases a with
      | nil => exact ⟨by simpa using ha, by simpa using hb'.symm⟩
      | cons x a =>
        simp at hb'
        have := h5 x (by rw [ha]; simp)
        rw [← hb'.1, hgp] at this; cases this
    · cases a with
      | nil => exact ⟨by simpa using ha.symm, by simpa using hb'⟩
      | cons x a =>
        exfalso
        have hx := hb x (by rw [ha]; simp)
        rw [printable_eq] at hx
        cases t1 with
        | nil => cases h2; simp at hb'
        | cons y t1 =>
          obtain ⟨hy, hyd⟩ := h6 y rfl
          obtain ⟨u3, hu3, _⟩ := blank_cons hyd h2
          rw [hu3] at hb'
          simp at hb'
          rw [← hb'.1, hy] at hx; cases hx
  obtain ⟨rfl, rfl⟩ := key
  cases t1 with
  | nil => cases h2
  | cons c t1 =>
    obtain ⟨hg, hcd⟩ := h6 c rfl
    obtain ⟨u3, hu3, hB3⟩ := blank_cons hcd h2
    injection hu3 with e1 e2
    subst e1; subst e2
    exact ⟨t1, h1, hB3, h3'⟩

theorem parseCompressed_eq {t b u1 u2 r : List Char} (hT : TextChars t) (hB : Blank t (b ++ '(' :: (u1 ++ ')' :: u2)))
    (hb : ∀ c ∈ b, printable c = false) (hu1 : ')' ∉ u1) : ∃ tail, CompSection t (proofWords u1) (u2.filter printable) tail ∧
    parseCompressed E W p (t ++ '$' :: '.' :: r) t.length = afterList E W p (proofWords u1) (u2.filter printable) tail ∧
    ∃ q, skipWs .ws (t ++ '$' :: '.' :: r) = .val q ∧ q.head? = some '(' := by
  have he : Stop ('$' :: '.' :: r) := Or.inr ⟨_, _, rfl, by decide⟩
  obtain ⟨t1, h1, hB3, h3'⟩ := skip_paren he hB hb
  have h3 := h3'.length_le
  obtain ⟨L, t2, l1, l2, l3, l4, l5, l6, l7, l8⟩ := labelList_spec he ((t ++ '$' :: '.' :: r).length + 1) hB3 hu1 (by simp at h3 ⊢; omega)
  have hsuf1 : t1 <:+ t := (List.suffix_cons _ _).trans h3'
  have hsec : CompSection t (proofWords u1) (u2.filter printable) (bggyText (t ++ '$' :: '.' :: r) t.length L) := by
    have htail : ∀ t' : List Char, L.last.getD L.rest = t' ++ '$' :: '.' :: r → t' <:+ t → bggyText (t ++ '$' :: '.' :: r) t.length L = t' := by
      intro t' hl hs
      unfold bggyText
      dsimp only
      rw [hl]
      have := hs.length_le
      have e : t.length - ((t ++ '$' :: '.' :: r).length - (t' ++ '$' :: '.' :: r).length) = t'.length := by
        simp only [List.length_append]; omega
      rw [e, List.take_left]
    refine ⟨b, u1, u2, hB, hb, hu1, rfl, rfl, ?_, ?_, ?_⟩
    · by_cases h0 : proofWords u1 = []
      · rw [htail t2 (by rw [l7 h0]; exact l3) (l5.trans hsuf1)]; exact l5.trans hsuf1
      · obtain ⟨t', w, v, q1, q2, q3, q4, q5⟩ := l8 h0
        rw [htail t' (by rw [q1]; rfl) (q2.trans hsuf1)]; exact q2.trans hsuf1
    · intro h0
      rw [htail t2 (by rw [l7 h0]; exact l3) (l5.trans hsuf1)]; exact l4
    · intro w hw
      have h0 : proofWords u1 ≠ [] := by intro h; rw [h] at hw; cases hw
      obtain ⟨t', w', v, q1, q2, q3, q4, q5⟩ := l8 h0
      rw [htail t' (by rw [q1]; rfl) (q2.trans hsuf1)]
      rw [hw] at q3; cases q3
      exact ⟨v, q4, fun c hc => by rw [printable_eq]; exact q5 c hc⟩
  refine ⟨_, hsec, ?_, _, h1, rfl⟩
  unfold parseCompressed afterList
  rw [h1, Out.bind_val, if_neg (by simp)]
  have hdrop : (('(' :: t1) ++ '$' :: '.' :: r).drop 1 = t1 ++ '$' :: '.' :: r := rfl
  rw [hdrop, l1, Out.bind_val, l2]
  split
  · rfl
  · cases hcl : clabels E p (proofWords u1)
    · rename_i x
      rw [Out.bind_val, Out.bind_val, l6, l3]
      simp only [Bool.false_eq_true, if_false, Nat.add_zero]
      have hT2 : TextChars t2 := fun c hc => hT c ((l5.trans hsuf1).subset hc)
      rw [cloop_run _ _ l4 hT2 (by have := (l5.trans hsuf1).length_le; simp; omega)]
      have : u2.filter printable = u2.filter isGraph := by
        apply List.filter_congr; intro x _; exact printable_eq x
      rw [this]
    all_goals rfl

/-! ### The label list -/

theorem clabel_zero {tok : Name} {x : Int × Nat × Nat} (hlook : LookOk E.look) (h : clabel E p tok = .val x) (h0 : x.2.1 = 0) :
    ∃ j : Nat, x.1 = j ∧ E.lab j = tok ∧ (j ∈ (E.stmt p).optHyp ∨ (j < p ∧ ((E.stmt j).kind = .a ∨ (E.stmt j).kind = .p))) := by
  unfold clabel at h
  cases hl : E.look (hypTableC E p) tok with
  | some j =>
    rw [hl] at h
    dsimp only at h
    by_cases hpos : (if j < 0 then -1000 - j else j) ≤ 0
    · rw [if_pos hpos] at h; cases h
    · rw [if_neg hpos] at h
      cases h
      dsimp only at h0 ⊢
      rcases mem_hypTableC ((hlook _ _).1 j hl) with ⟨i, h1, h2, rfl⟩ | ⟨i, h1, h2, rfl⟩
      · refine ⟨i, by rw [if_neg (by omega)], h2, Or.inl h1⟩
      · rw [if_pos (by omega)] at h0; cases h0
  | none =>
    rw [hl] at h
    dsimp only at h
    cases hl2 : E.look (labelKeys E) tok with
    | none => rw [hl2] at h; cases h; cases h0
    | some j =>
      rw [hl2] at h
      dsimp only at h
      split at h
      · cases h
      · rename_i hkind
        cases h
        dsimp only at h0 ⊢
        obtain ⟨i, rfl, h1, h2, h3⟩ := mem_labelKeys ((hlook _ _).1 j hl2)
        have hlt : ¬ ((i : Int) ≥ p) := by intro hc; rw [if_pos hc] at h0; omega
        rw [Int.toNat_natCast] at hkind
        refine ⟨i, rfl, h3, Or.inr ⟨by omega, ?_⟩⟩
        by_contra hc
        exact hkind ⟨fun h => hc (Or.inl h), fun h => hc (Or.inr h)⟩

theorem clabels_zero (hlook : LookOk E.look) : ∀ {toks : List Name} {x : List Int × Nat × Nat}, clabels E p toks = .val x → x.2.1 = 0 →
    ∃ js : List Nat, x.1 = js.map (fun (i : Nat) => (i : Int)) ∧
      List.Forall₂ (fun tok j => E.lab j = tok ∧ (j ∈ (E.stmt p).optHyp ∨ (j < p ∧ ((E.stmt j).kind = .a ∨ (E.stmt j).kind = .p)))) toks js := by
  intro toks
  induction toks with
  | nil => intro x h _; cases h; exact ⟨[], rfl, .nil⟩
  | cons t ts ih =>
    intro x h h0
    rw [clabels] at h
    cases h1 : clabel E p t <;> rw [h1] at h
    · rename_i y
      rw [Out.bind_val] at h
      cases h2 : clabels E p ts <;> rw [h2] at h
      · rename_i r
        rw [Out.bind_val] at h
        cases h
        dsimp only at h0 ⊢
        obtain ⟨j, a1, a2⟩ := clabel_zero hlook h1 (by omega)
        obtain ⟨js, b1, b2⟩ := ih h2 (by omega)
        exact ⟨j :: js, by rw [a1, b1]; rfl, .cons a2 b2⟩
      all_goals cases h
    all_goals cases h

theorem clabel_complete (hlook : LookOk E.look) (hL : LabelsOk E) (hH : HypsOk E p) {tok : Name} {j : Nat} (hj : E.lab j = tok)
    (hc : j ∈ (E.stmt p).optHyp ∨ (1 ≤ j ∧ j < p ∧ ((E.stmt j).kind = .a ∨ (E.stmt j).kind = .p))) : clabel E p tok = .val ((j : Int), 0, 0) := by
  have hhyp : ∀ i ∈ (E.stmt p).reqHyp ++ (E.stmt p).optHyp, 1 ≤ i ∧ i ≤ E.n ∧ i < p ∧ ((E.stmt i).kind = .e ∨ (E.stmt i).kind = .f) := by
    intro i hi
    obtain ⟨h1, h2, h3⟩ := hH.mem i hi
    have := hH.range
    exact ⟨h1, by omega, h2, h3⟩
  rcases hc with hopt | ⟨h1, h2, h3⟩
  · obtain ⟨a1, a2, a3, a4⟩ := hhyp j (by simp [hopt])
    have hne : E.lab j ≠ [] := (hL.kinds j a1 a2).2 (by tauto)
    have hl : E.look (hypTableC E p) tok = some (j : Int) := by
      apply look_unique hlook
      · unfold hypTableC
        simp only [List.mem_append, List.mem_map, Prod.mk.injEq]
        exact Or.inl ⟨j, hopt, hj, rfl⟩
      · intro i hi
        rcases mem_hypTableC hi with ⟨k, k1, k2, rfl⟩ | ⟨k, k1, k2, rfl⟩
        · obtain ⟨b1, b2, _⟩ := hhyp k (by simp [k1])
          rw [hL.uniq j k a1 a2 b1 b2 hne (by rw [hj, k2])]
        · exfalso
          obtain ⟨b1, b2, _⟩ := hhyp k (by simp [k1])
          have := hL.uniq j k a1 a2 b1 b2 hne (by rw [hj, k2])
          subst this
          have hn := hH.nodup
          rw [List.nodup_append] at hn
          exact hn.2.2 j k1 j hopt rfl
    unfold clabel
    rw [hl]
    dsimp only
    rw [if_neg (by omega), if_neg (by omega), if_neg (by omega)]
  · have hpn := hH.range
    have hne : E.lab j ≠ [] := (hL.kinds j h1 (by omega)).2 (by tauto)
    have hl : E.look (hypTableC E p) tok = none := by
      apply look_none hlook
      intro i hi
      have : ∃ k ∈ (E.stmt p).reqHyp ++ (E.stmt p).optHyp, E.lab k = tok := by
        rcases mem_hypTableC hi with ⟨k, k1, k2, _⟩ | ⟨k, k1, k2, _⟩
        · exact ⟨k, by simp [k1], k2⟩
        · exact ⟨k, by simp [k1], k2⟩
      obtain ⟨k, k1, k2⟩ := this
      obtain ⟨b1, b2, b3, b4⟩ := hhyp k k1
      have := hL.uniq j k h1 (by omega) b1 b2 hne (by rw [hj, k2])
      subst this
      rcases h3 with e | e <;> rcases b4 with f | f <;> rw [e] at f <;> cases f
    have hl2 : E.look (labelKeys E) tok = some (j : Int) := by
      apply look_unique hlook
      · rw [mem_labelKeys_iff]
        refine ⟨j, h1, by omega, hne, ?_, ?_, hj, rfl⟩ <;> (rcases h3 with e | e <;> rw [e] <;> simp)
      · intro i hi
        obtain ⟨k, rfl, k1, k2, k3⟩ := mem_labelKeys hi
        rw [hL.uniq j k h1 (by omega) k1 k2 hne (by rw [hj, k3])]
    unfold clabel
    rw [hl, hl2]
    dsimp only
    rw [if_neg (by rw [Int.toNat_natCast]; tauto), if_neg (by omega), if_neg (by omega)]

theorem clabels_complete (hlook : LookOk E.look) (hL : LabelsOk E) (hH : HypsOk E p) : ∀ {toks : List Name} {js : List Nat},
    List.Forall₂ (fun tok j => E.lab j = tok ∧ (j ∈ (E.stmt p).optHyp ∨ (1 ≤ j ∧ j < p ∧ ((E.stmt j).kind = .a ∨ (E.stmt j).kind = .p)))) toks js →
    clabels E p toks = .val (js.map (fun (i : Nat) => (i : Int)), 0, 0) := by
  intro toks js h
  induction h with
  | nil => rfl
  | cons h1 _ ih =>
    rw [clabels, clabel_complete hlook hL hH h1.1 h1.2, Out.bind_val, ih, Out.bind_val]
    simp

/-! ### The theorems -/

variable {src : List Src} {s : PState} {look : Look}

theorem mandList_req (h : Accepted src s) (hp : kindAt (kinds src) p = .p) : MandList src s p (s.stmt p).reqHyp := by
  obtain ⟨h1, h2, _⟩ := C12_mandatory_hyps h (i := p) (Or.inr hp)
  exact ⟨h1, h2⟩

theorem mandList_unique {hs ht : List Nat} (h1 : MandList src s p hs) (h2 : MandList src s p ht) : hs = ht := by
  apply List.Perm.eq_of_pairwise (le := (· < ·))
  · intro a b _ _ h1 h2; omega
  · exact h1.1
  · exact h2.1
  · rw [List.perm_ext_iff_of_nodup (h1.1.imp (fun h => Nat.ne_of_lt h)) (h2.1.imp (fun h => Nat.ne_of_lt h))]
    intro a; rw [h1.2, h2.2]

theorem mem_opt_iff (h : Accepted src s) (hp : kindAt (kinds src) p = .p) (j : Nat) :
    j ∈ ((envOf look src s).stmt p).optHyp ↔ OptHyp (isVarOf src) (kinds src) s.math p j :=
  ((C12_mandatory_hyps h (i := p) (Or.inr hp)).2.2 hp).2 j

theorem isPush_ref (h : Accepted src s) {ref : Ref} (hr : isPush (envOf look src s) ref.code = false) : ∃ j, ref = .stmt j ∧ IsAssert src j := by
  cases ref with
  | step i =>
    exfalso
    unfold isPush at hr
    rw [decide_eq_true (by simp only [Ref.code]; omega)] at hr
    simp at hr
  | stmt j =>
    refine ⟨j, rfl, ?_⟩
    unfold isPush at hr
    simp only [Ref.code, Int.toNat_natCast, kind_env h] at hr
    unfold IsAssert
    by_contra hc
    rw [not_or] at hc
    simp [hc.1, hc.2] at hr

theorem cfinish_zero {st : CState} {r : Parsed} (h : cfinish W st = .val r) (h0 : r.ret = 0) : st.idx = 0 ∧ st.ret = 0 ∧ r.proof = st.proof := by
  unfold cfinish at h
  dsimp only at h
  have key : (expected st).ret = 0 → st.idx = 0 := by
    intro hr
    by_contra hc
    unfold expected at hr
    rw [if_neg hc] at hr
    dsimp only at hr; omega
  have key2 : st.idx = 0 → expected st = st := by intro h; unfold expected; rw [if_pos h]
  split at h
  · split at h
    · cases h
    · cases h
      dsimp only at h0
      split at h0 <;> omega
  · split at h
    · cases h
    · cases h
      dsimp only at h0 ⊢
      have hr : (expected st).ret = 0 := by split at h0 <;> omega
      have hi := key hr
      rw [key2 hi] at hr ⊢
      exact ⟨hi, hr, rfl⟩

theorem clabels_ret_le {toks : List Name} {code tail : List Char} {r : Parsed} (h : afterList E W p toks code tail = .val r) (h0 : r.ret = 0) :
    ∃ x st, clabels E p toks = .val x ∧ x.2.1 = 0 ∧
      crun E W (bggy tail) code { map := (E.stmt p).reqHyp.map (fun (i : Nat) => (i : Int)) ++ x.1, ret := x.2.1, ec := x.2.2 } = .val st ∧
      st.idx = 0 ∧ st.ret = 0 ∧ r.proof = st.proof := by
  unfold afterList at h
  split at h
  · cases h
  · cases hc : clabels E p toks <;> rw [hc] at h
    · rename_i x
      rw [Out.bind_val] at h
      cases hr : crun E W (bggy tail) code { map := (E.stmt p).reqHyp.map (fun (i : Nat) => (i : Int)) ++ x.1, ret := x.2.1, ec := x.2.2 } <;> rw [hr] at h
      · rename_i st
        rw [Out.bind_val] at h
        obtain ⟨k1, k2, k3⟩ := cfinish_zero h h0
        refine ⟨x, st, rfl, ?_, hr, k1, k2, k3⟩
        have mono : ∀ {cs : List Char} {s s' : CState}, crun E W (bggy tail) cs s = .val s' → s.ret ≤ s'.ret := by
          intro cs
          induction cs with
          | nil => intro s s' h; cases h; exact le_refl _
          | cons c cs ih2 =>
            intro s s' h
            rw [crun] at h
            cases h3 : cchar E W (bggy tail) c s <;> rw [h3] at h
            · exact Nat.le_trans (cchar_mono h3).ret (ih2 h)
            all_goals cases h
        have := mono hr
        dsimp only at this
        omega
      all_goals cases h
    all_goals cases h

/-- **C39** for compressed proofs: what an accepted proof means.  If `parseProof` returns 0 for a proof section that starts with `(`, the section reads
`( labels ) letters`; and unless it looks like the output of the old compression algorithm, the letters are those of a sequence of numbers with
marks (`codeText xs`), and the stored proof is what the numbers refer to: mandatory hypotheses, labels of the list, marked steps. -/
theorem C39_compressed_resolved (h : Accepted src s) (hl : LookOk look) (hp : kindAt (kinds src) p = .p) {t b u r : List Char} {res : Parsed}
    (hT : SourceChars t) (hB : Blank t (b ++ '(' :: u)) (hb : ∀ c ∈ b, printable c = false)
    (hr : parseProofText (envOf look src s) W p (t ++ '$' :: '.' :: r) t.length = .val res) (hret : res.ret = 0) :
    ∃ labs code tail, CompSection t labs code tail ∧
      (¬ OldLooking tail → ∃ xs refs, code = codeText xs ∧ CompMeans src s p labs xs refs ∧ res.proof = refs.map Ref.code) := by
  have he : Stop ('$' :: '.' :: r) := Or.inr ⟨_, _, rfl, by decide⟩
  have hTT := textChars_of hT
  by_cases hm : ')' ∈ u
  · obtain ⟨u1, u2, rfl, hu1⟩ := List.eq_append_cons_of_mem hm
    obtain ⟨tail, hsec, heq, q, hq1, hq2⟩ := parseCompressed_eq (E := envOf look src s) (W := W) (p := p) (r := r) hTT hB hb hu1
    refine ⟨_, _, tail, hsec, fun hold => ?_⟩
    unfold parseProofText at hr
    rw [hq1, Out.bind_val, if_pos hq2, heq] at hr
    obtain ⟨x, st, c1, c2, c3, c4, c5, c6⟩ := clabels_ret_le hr hret
    obtain ⟨js, j1, j2⟩ := clabels_zero (E := envOf look src s) hl c1 c2
    have hbg : bggy tail = false := by
      rw [← Bool.not_eq_true, bggy_iff]; exact hold
    rw [hbg] at c3
    have hns : ∀ c ∈ u2.filter printable, isSpace c = false := by
      intro c hc
      rw [List.mem_filter, printable_eq] at hc
      exact not_space_of_graph hc.2
    have hat : CAt ((((envOf look src s).stmt p).reqHyp ++ js).map Ref.stmt) [] [] []
        ({ map := ((envOf look src s).stmt p).reqHyp.map (fun (i : Nat) => (i : Int)) ++ x.1, ret := x.2.1, ec := x.2.2 } : CState) := by
      refine ⟨rfl, ?_, rfl⟩
      rw [j1]
      simp [marked, Ref.code, Function.comp_def]
    obtain ⟨ys, refs, d1, d2, d3, d4⟩ := crun_sound hns hat .nil (by intro k x ref hx; simp at hx) c3 c5 c4
    refine ⟨ys, refs, by simpa [codeText, digText_nil] using d1, ⟨⟨_, js, mandList_req h hp, ?_, d2⟩, ?_⟩, by rw [c6, d4]⟩
    · refine j2.imp ?_
      rintro tok j ⟨a1, a2⟩
      refine ⟨a1, ?_⟩
      rcases a2 with a2 | ⟨a2, a3⟩
      · exact Or.inl ((mem_opt_iff h hp j).1 a2)
      · rw [kind_env h] at a3
        exact Or.inr ⟨a2, a3⟩
    · intro k x ref hx hr h0
      exact isPush_ref h (d3 k x ref hx hr h0)
  · -- no `)`
    exfalso
    obtain ⟨t1, h1, hB3, h3'⟩ := skip_paren he hB hb
    have h3 := h3'.length_le
    unfold parseProofText at hr
    rw [h1, Out.bind_val, if_pos (by simp)] at hr
    unfold parseCompressed at hr
    obtain ⟨L, l1, l2, _, _⟩ := labelList_missing he ((t ++ '$' :: '.' :: r).length + 1) hB3 hm (by simp at h3 ⊢; omega)
    have hdrop : (('(' :: t1) ++ '$' :: '.' :: r).drop 1 = t1 ++ '$' :: '.' :: r := rfl
    rw [h1, Out.bind_val, if_neg (by simp), hdrop, l1, Out.bind_val] at hr
    split at hr
    · cases hr
    · cases hc : clabels (envOf look src s) p L.toks <;> rw [hc] at hr
      · rename_i x
        rw [Out.bind_val] at hr
        generalize hs0 : ({ map := ((envOf look src s).stmt p).reqHyp.map (fun (i : Nat) => (i : Int)) ++ x.1, ret := max 3 x.2.1, ec := x.2.2 + 1 } : CState) = s0 at hr
        cases hr2 : cloop (envOf look src s) W (bggy (bggyText (t ++ '$' :: '.' :: r) t.length L)) ((t ++ '$' :: '.' :: r).length + 1) L.rest s0 <;> rw [hr2] at hr
        · rename_i st
          rw [Out.bind_val] at hr
          have := (cloop_mono hr2).ret
          rw [← hs0] at this
          dsimp only at this
          have := (cfinish_zero hr hret).2.1
          omega
        all_goals cases hr
      all_goals cases hr

/-- **C39** for compressed proofs, the other direction: a section that reads `( labels ) letters`, where the letters are those of the numbers with marks `xs` and the
numbers refer to `refs`, is parsed without error to these references, if they keep the stack (`Depth … 1`); provided that the section does not look like the
output of the old compression algorithm, or no number has more than one digit.  `W` is the size of the work arrays, which the code makes at least as large as
assumed here. -/
theorem C39_compressed_complete (h : Accepted src s) (hl : LookOk look) (hL : SrcLabels src) (hp : kindAt (kinds src) p = .p)
    {t r : List Char} {labs : List Name} {xs : List CStep} {tail0 : List Char} (hT : SourceChars t) (hsec : CompSection t labs (codeText xs) tail0)
    (hold : (∀ tail, CompSection t labs (codeText xs) tail → ¬ OldLooking tail) ∨ ∀ x ∈ xs, x.num.digs.length ≤ 1)
    {refs : List Ref} (hM : CompMeans src s p labs xs refs)
    (hW : ∀ hs, MandList src s p hs → hs.length + t.length ≤ W) (hW2 : W ≤ 2 ^ 63) (h3 : Depth (toDb src s) (refs.map Ref.code) 1) :
    parseProofText (envOf look src s) W p (t ++ '$' :: '.' :: r) t.length = .val ⟨refs.map Ref.code, 0, 0⟩ := by
  obtain ⟨b, u1, u2, hB, hb, hu1, hlabs, hcode, _⟩ := hsec
  obtain ⟨tail, hsec', heq, q, hq1, hq2⟩ := parseCompressed_eq (E := envOf look src s) (W := W) (p := p) (r := r) (textChars_of hT) hB hb hu1
  rw [← hlabs, ← hcode] at hsec' heq
  obtain ⟨hs, js, k1, k2, k3⟩ := hM.lists
  have hreq : hs = (s.stmt p).reqHyp := mandList_unique k1 (mandList_req h hp)
  have hLE := labelsOk_of (look := look) h hL
  have hcl : clabels (envOf look src s) p labs = .val (js.map (fun (i : Nat) => (i : Int)), 0, 0) := by
    apply clabels_complete (E := envOf look src s) hl hLE (hypsOk_of h hp)
    refine k2.imp ?_
    rintro tok j ⟨a1, a2⟩
    refine ⟨a1, ?_⟩
    rcases a2 with a2 | ⟨a2, a3⟩
    · exact Or.inl ((mem_opt_iff h hp j).2 a2)
    · have hpos := kindAt_pos (ks := kinds src) (i := j) (by rcases a3 with e | e <;> rw [e] <;> simp)
      exact Or.inr ⟨hpos.1, a2, by rw [kind_env h]; exact a3⟩
  have hlen := hW hs k1
  have hbl := blank_len hB
  have hu2 : (codeText xs).length ≤ u2.length := by rw [hcode]; exact List.length_filter_le _ _
  have hu1' : labs.length ≤ u1.length := by rw [hlabs]; exact proofWords_count u1
  have hcl2 := codeText_len xs
  have hjs : js.length = labs.length := k2.length_eq.symm
  simp only [List.length_append, List.length_cons] at hbl
  have hrun := crun_complete (E := envOf look src s) (W := W) (bg := bggy tail) (base := (hs ++ js).map Ref.stmt) (r0 := 0) (e0 := 0) (by unfold longMax; omega)
    (xs := xs) (by
      rcases hold with hold | hold
      · left
        rw [← Bool.not_eq_true, bggy_iff]; exact hold _ hsec'
      · exact Or.inr hold) k3 (by
      intro k x ref hx hr h0
      obtain ⟨j, rfl, hj⟩ := hM.marks k x ref hx hr h0
      apply isPush_false (by simp [Ref.code])
      simp only [Ref.code, Int.toNat_natCast]
      rw [kind_env h]; exact hj) h3 (by omega) (by simp; omega)
  have hmap : ((hs ++ js).map Ref.stmt).map Ref.code = ((envOf look src s).stmt p).reqHyp.map (fun (i : Nat) => (i : Int)) ++ js.map (fun (i : Nat) => (i : Int)) := by
    have : ((envOf look src s).stmt p).reqHyp = hs := by rw [hreq]; rfl
    rw [this]
    simp [Function.comp_def, Ref.code]
  have hne : refs.map Ref.code ≠ [] := by
    intro he
    have := depth_le h3
    rw [he] at this
    simp at this
  have hreq' : ((envOf look src s).stmt p).reqHyp.length = hs.length := by rw [hreq]; rfl
  have hrl : refs.length = xs.length := k3.len
  unfold parseProofText
  rw [hq1, Out.bind_val, if_pos hq2, heq]
  unfold afterList
  rw [if_neg (by omega), hcl, Out.bind_val]
  dsimp only
  rw [← hmap, hrun, Out.bind_val]
  unfold cfinish expected
  dsimp only
  rw [if_pos rfl, if_neg hne, if_neg (by simp; omega)]
  simp

/-- **C08** for compressed proofs.  READ accepted the source and its labels are in order.  If the proof section reads `( labels ) letters` where the letters are
those of the numbers with marks `xs`, the numbers refer to `refs`, and these form a correct RPN proof of the statement in the sense of the specification, then
parsing and verifying it prints no message and both return 0; provided that the section does not look like the output of the old compression algorithm, or no
number has more than one digit.  `W` is the size of the work arrays, which the code makes at least as large as assumed here. -/
theorem C08_compressed_is_accepted (h : Accepted src s) (hl : LookOk look) (hL : SrcLabels src) (hp : kindAt (kinds src) p = .p)
    {t r : List Char} {labs : List Name} {xs : List CStep} {tail0 : List Char} (hT : SourceChars t) (hsec : CompSection t labs (codeText xs) tail0)
    (hold : (∀ tail, CompSection t labs (codeText xs) tail → ¬ OldLooking tail) ∨ ∀ x ∈ xs, x.num.digs.length ≤ 1)
    {refs : List Ref} (hM : CompMeans src s p labs xs refs)
    (hW : ∀ hs, MandList src s p hs → hs.length + t.length ≤ W) (hW2 : W ≤ 2 ^ 63)
    {steps : List Step} (hm : List.Forall₂ (Means src s) refs steps)
    (hpr : Proves (isVarOf src) (DvDeclared (kinds src) s.math p) steps (s.math p)) :
    ∃ res out, parseProofText (envOf look src s) W p (t ++ '$' :: '.' :: r) t.length = .val res ∧ res.ret = 0 ∧ res.ec = 0 ∧
      verifyProof (toDb src s) p res.proof res.ret res.ec = .val out ∧ out.ret = 0 ∧ out.msgs = [] := by
  obtain ⟨hist, hrpn⟩ := hpr
  obtain ⟨steps', h1, h2, h3⟩ := rpn_decode h hrpn hm
  have hparse := C39_compressed_complete (look := look) (r := r) h hl hL hp hT hsec hold hM hW hW2 h3
  obtain ⟨hs, js, k1, k2, k3⟩ := hM.lists
  have hrl : refs.length = xs.length := k3.len
  have hback : BackOk 0 (refs.map Ref.code) := by
    apply backOk_of
    intro k i hk
    have hkl : k < xs.length := by
      rw [← hrl]; by_contra hc; rw [List.getElem?_eq_none (by omega)] at hk; cases hk
    have hg := k3.get k _ (List.getElem?_eq_getElem hkl)
    rw [hk] at hg
    have hmem := List.mem_of_getElem? hg.symm
    rw [List.mem_append] at hmem
    rcases hmem with hmem | hmem
    · simp at hmem
    · simp only [List.mem_map, Ref.step.injEq, exists_eq_right] at hmem
      have hb : ∀ (ys : List CStep) (n i : Nat), i ∈ marked n ys → i < n + ys.length := by
        intro ys
        induction ys with
        | nil => intro n i hi; simp [marked] at hi
        | cons y ys ih =>
          intro n i hi
          rw [marked, List.mem_append] at hi
          rcases hi with hi | hi
          · have := List.eq_of_mem_replicate hi
            simp; omega
          · have := ih _ _ hi
            simp; omega
      have := hb _ _ _ hmem
      simp at this
      omega
  have hpr' : Proves (toDb src s).isVar (Declared (toDb src s) p) steps' ((toDb src s).stmt p).math :=
    ⟨hist, RPN.mono (fun a b hab => (declared_iff h hp a b hab).mpr) h2⟩
  obtain ⟨out, o1, o2, o3⟩ := C08_correct_is_verified (db := toDb src s) tok_sep (sev := 0) (by rw [kind_toDb h]; exact hp) (by omega)
    (dvOrdered_of_parse h hp) (fun ps _ => goodRef_of_parse h ps) hback h1 hpr'
  exact ⟨_, out, hparse, rfl, rfl, o1, o2, o3⟩

theorem crun_mono : ∀ {cs : List Char} {s s' : CState}, crun E W bg cs s = .val s' → s.ret ≤ s'.ret := by
  intro cs
  induction cs with
  | nil => intro s s' h; cases h; exact le_refl _
  | cons c cs ih2 =>
    intro s s' h
    rw [crun] at h
    cases h3 : cchar E W bg c s <;> rw [h3] at h
    · exact Nat.le_trans (cchar_mono h3).ret (ih2 h)
    all_goals cases h

theorem crun_quest : ∀ {cs : List Char} {s s' : CState}, crun E W bg cs s = .val s' → '?' ∈ cs → 1 ≤ s'.ret := by
  intro cs
  induction cs with
  | nil => intro s s' _ h; cases h
  | cons c cs ih2 =>
    intro s s' h hq
    rw [crun] at h
    cases h3 : cchar E W bg c s <;> rw [h3] at h
    · rename_i s2
      rw [Out.bind_val] at h
      by_cases hc : c = '?'
      · subst hc
        have h4 : cchar E W bg '?' s = quest W s := by
          unfold cchar
          rw [if_neg (by decide), if_neg (by decide), if_neg (by decide), if_neg (by decide), if_neg (by decide), if_pos rfl]
        rw [h4] at h3
        exact Nat.le_trans (quest_mono h3).2 (crun_mono h)
      · refine ih2 h ?_
        rw [List.mem_cons] at hq
        rcases hq with hq | hq
        · exact absurd hq.symm hc
        · exact hq
    all_goals cases h

/-- **C10** for compressed proofs: a `?` among the letters, or no letter at all, never gets return code 0. -/
theorem C10_compressed_unknown_is_flagged {E : Env} {t r : List Char} {labs : List Name} {code tail0 : List Char} {res : Parsed} (hT : SourceChars t)
    (hsec : CompSection t labs code tail0) (hr : parseProofText E W p (t ++ '$' :: '.' :: r) t.length = .val res) (hq : '?' ∈ code ∨ code = []) :
    1 ≤ res.ret := by
  obtain ⟨b, u1, u2, hB, hb, hu1, hlabs, hcode, _⟩ := hsec
  obtain ⟨tail, _, heq, q, hq1, hq2⟩ := parseCompressed_eq (E := E) (W := W) (p := p) (r := r) (textChars_of hT) hB hb hu1
  rw [← hlabs, ← hcode] at heq
  unfold parseProofText at hr
  rw [hq1, Out.bind_val, if_pos hq2, heq] at hr
  by_contra hcon
  obtain ⟨x, st, c1, c2, c3, c4, c5, c6⟩ := clabels_ret_le hr (by omega)
  rcases hq with hq | rfl
  · have := crun_quest c3 hq
    omega
  · unfold afterList at hr
    split at hr
    · cases hr
    · rw [c1, Out.bind_val, crun, Out.bind_val] at hr
      have : ∀ (s0 : CState) (r : Parsed), s0.proof = [] → cfinish W s0 = .val r → 1 ≤ r.ret := by
        intro s0 r h0 h
        unfold cfinish expected at h
        by_cases hi : s0.idx = 0
        · rw [if_pos hi, if_pos h0] at h
          split at h
          · cases h
          · cases h
            dsimp only
            split <;> omega
        · rw [if_neg hi, if_pos h0] at h
          dsimp only at h
          split at h
          · cases h
          · cases h
            dsimp only
            split <;> omega
      have := this _ _ rfl hr
      omega

end MM.Proof
