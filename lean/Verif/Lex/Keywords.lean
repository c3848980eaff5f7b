import Verif.Lex.Scan
/-!
# C24: the sections found by `parseKeywords`
-/
namespace MM.Lex
open MM.Veri MM.Pars

/-! ### Specification -/

/-- The texts of the sections of a statement. -/
structure Sections where
  kind : Kind
  label : List Char
  math : List Char
  proof : List Char

/-- The character of the keyword that starts a statement. -/
def kwChar : Kind → Char
  | .c => 'c' | .v => 'v' | .e => 'e' | .f => 'f' | .d => 'd' | .a => 'a' | .p => 'p' | .lb => '{' | .rb => '}' | .none => ' '

/-- The source text of a statement. -/
def Sections.render (x : Sections) : List Char :=
  x.label ++ ['$', kwChar x.kind] ++
    (if x.kind = .lb ∨ x.kind = .rb then [] else x.math ++ (if x.kind = .p then ['$', '='] ++ x.proof else []) ++ ['$', '.'])

/-- The sections as stored. -/
def KStmt.sections (x : KStmt) : Sections where
  kind := x.kind
  label := x.label.take x.labelLen
  math := x.math.take x.mathLen
  proof := x.proof.take x.proofLen

/-- A section, stored as a pointer and a length: characters and comments, followed by a keyword. -/
def SecOk (ptr : List Char) (len : Nat) : Prop := len ≤ ptr.length ∧ (∃ u, Blank (ptr.take len) u) ∧ Stop (ptr.drop len)

structure KStmt.Ok (x : KStmt) : Prop where
  kind : x.kind ≠ .none
  label : SecOk x.label x.labelLen
  math : x.kind ≠ .lb → x.kind ≠ .rb → SecOk x.math x.mathLen
  proof : x.kind = .p → SecOk x.proof x.proofLen

/-! ### Proof -/

/-- No messages of `readRawSource` about this part of the source. -/
def RawOk (l : List Char) : Prop := ∃ prev, rawErrs prev false l = 0

theorem kwStep_errs (d : Option Char) (r : List Char) (s : KState) : s.errs ≤ (kwStep d r s).errs := by
  unfold kwStep
  cases kwKind d with
  | some k => dsimp only; split <;> simp
  | none =>
    dsimp only
    by_cases h0 : s.mode = 0
    · rw [if_pos h0]; simp
    · rw [if_neg h0]
      by_cases h1 : s.mode = 1
      · rw [if_pos h1]
        split
        · simp only; omega
        · simp
      · rw [if_neg h1]
        split <;> simp

theorem kwLoop_errs : ∀ (n : Nat) (l : List Char) (s : KState), l.length ≤ n → s.errs ≤ (kwLoop l s).errs := by
  intro n
  induction n with
  | zero =>
    intro l s h
    have : l = [] := List.length_eq_zero_iff.1 (by omega)
    subst this
    rw [kwLoop]
    split
    · cases s.stmts.getLast? <;> simp
    · exact le_refl _
  | succ n ih =>
    intro l s h
    cases l with
    | nil =>
      rw [kwLoop]
      split
      · cases s.stmts.getLast? <;> simp
      · exact le_refl _
    | cons c r =>
      by_cases hc : c = '$'
      · subst hc
        cases r with
        | nil =>
          rw [kwLoop_last]
          refine le_trans ?_ (ih [] _ (by simp))
          split
          · exact le_refl _
          · exact kwStep_errs _ _ _
        | cons d r =>
          have hl : r.length ≤ n := by simp at h; omega
          rw [kwLoop_dollar]
          split
          · exact ih r s hl
          · split
            · exact ih r { s with com := true } hl
            · split
              · exact ih r { s with com := false } hl
              · split
                · exact ih r s hl
                · exact le_trans (kwStep_errs _ _ _) (ih r _ hl)
      · rw [kwLoop_char hc]
        exact ih r s (by simp at h; omega)

/-- From the start of a section to its end. -/
theorem to_keyword {l : List Char} {s : KState} (hcom : s.com = false) (he : (kwLoop l s).errs = s.errs) :
    (∃ com, kwLoop l s = kwLoop [] { s with com := com } ∧ (RawOk l → ∃ u, Blank l u)) ∨
    (∃ t d r, l = t ++ '$' :: d :: r ∧ kwLoop l s = kwLoop r (kwStep (some d) (d :: r) s) ∧ (kwStep (some d) (d :: r) s).errs = s.errs ∧
      (RawOk l → (∃ u, Blank t u) ∧ RawOk r)) := by
  obtain ⟨t, e, com, h1, h2, h3, h4⟩ : ∃ t e com, l = t ++ e ∧ kwLoop l s = kwLoop e { s with com := com } ∧ EndAt com e ∧
      (RawOk l → com = false ∧ (∃ u, Blank t u) ∧ RawOk e) := by
    by_cases hr : RawOk l
    · obtain ⟨prev, hr⟩ := hr
      obtain ⟨t, e, com, h1, h2, h3, h4⟩ := scan_section l.length l prev s (le_refl _)
      rw [hcom] at h4
      exact ⟨t, e, com, h1, h2, h3, fun _ => h4 hr⟩
    · obtain ⟨t, e, com, h1, h2, h3, h4⟩ := scan_section l.length l false s (le_refl _)
      exact ⟨t, e, com, h1, h2, h3, fun h => absurd h hr⟩
  rcases h3 with rfl | ⟨rfl, rfl | ⟨d, r, rfl, k1, k2, k3⟩⟩
  · left
    refine ⟨com, h2, fun hr => ?_⟩
    rw [List.append_nil] at h1
    rw [h1]
    exact (h4 hr).2.1
  · exfalso
    have h5 := kwLoop_errs 0 [] (kwStep none [] { s with com := false }) (by simp)
    rw [kwLoop_last, if_neg (by simp)] at h2
    rw [← h2, he] at h5
    have h6 : s.errs + 1 ≤ (kwStep none [] { s with com := false }).errs := by
      unfold kwStep kwKind
      simp only [reduceCtorEq, if_false, ne_eq, not_false_eq_true, and_true, decide_true, Bool.and_true, decide_false, Bool.and_false]
      by_cases m0 : s.mode = 0
      · rw [if_pos m0]
      · rw [if_neg m0]
        by_cases m1 : s.mode = 1
        · rw [if_pos m1]
          by_cases ht : s.type = .p
          · simp [ht]
          · simp [ht]
        · rw [if_neg m1]; simp
    omega
  · right
    rw [kwLoop_dollar, if_neg k1, if_neg k2, if_neg k3, if_neg (by simp)] at h2
    have hs : ({ s with com := false } : KState) = s := by cases s; simp_all
    rw [hs] at h2
    have h5 := kwLoop_errs r.length r (kwStep (some d) (d :: r) s) (le_refl _)
    rw [← h2, he] at h5
    refine ⟨t, d, r, h1, h2, le_antisymm h5 (kwStep_errs _ _ _), fun hr => ?_⟩
    obtain ⟨_, g1, prev', g2⟩ := h4 hr
    refine ⟨g1, isGraph d, ?_⟩
    rw [rawErrs_dollar, if_neg k2, if_neg k3, if_neg (c := false = true) (by simp)] at g2
    have g3 : rawErrs true false (d :: r) = 0 := by omega
    rw [rawErrs_char k1] at g3
    omega

theorem kwKind_some {d : Char} {k : Kind} (h : kwKind (some d) = some k) : k ≠ .none ∧ d = kwChar k := by
  unfold kwKind at h
  split at h
  next hh => simp at hh; simp at h; subst h; exact ⟨by simp, hh⟩
  all_goals (split at h)
  next hh => simp at hh; simp at h; subst h; exact ⟨by simp, hh⟩
  all_goals (split at h)
  next hh => simp at hh; simp at h; subst h; exact ⟨by simp, hh⟩
  all_goals (split at h)
  next hh => simp at hh; simp at h; subst h; exact ⟨by simp, hh⟩
  all_goals (split at h)
  next hh => simp at hh; simp at h; subst h; exact ⟨by simp, hh⟩
  all_goals (split at h)
  next hh => simp at hh; simp at h; subst h; exact ⟨by simp, hh⟩
  all_goals (split at h)
  next hh => simp at hh; simp at h; subst h; exact ⟨by simp, hh⟩
  all_goals (split at h)
  next hh => simp at hh; simp at h; subst h; exact ⟨by simp, hh⟩
  all_goals (split at h)
  next hh => simp at hh; simp at h; subst h; exact ⟨by simp, hh⟩
  all_goals simp at h

theorem kwKind_char {k : Kind} (h : k ≠ .none) : kwKind (some (kwChar k)) = some k := by
  cases k <;> first | (exact absurd rfl h) | decide

theorem stop_kw {k : Kind} (hk : k ≠ .none) (r : List Char) : Stop ('$' :: kwChar k :: r) := by
  right
  refine ⟨kwChar k, r, rfl, ?_⟩
  cases k <;> first | (exact absurd rfl hk) | decide

theorem stop_eq (r : List Char) : Stop ('$' :: '=' :: r) := Or.inr ⟨_, r, rfl, by decide⟩
theorem stop_dot (r : List Char) : Stop ('$' :: '.' :: r) := Or.inr ⟨_, r, rfl, by decide⟩

theorem secOk_of {t e : List Char} (hB : ∃ u, Blank t u) (he : Stop e) : SecOk (t ++ e) t.length :=
  ⟨by simp, by rw [List.take_left]; exact hB, by rw [List.drop_left]; exact he⟩

theorem len_sub {t : List Char} {d : Char} {r : List Char} : (t ++ '$' :: d :: r).length - (d :: r).length - 1 = t.length := by
  simp only [List.length_append, List.length_cons]; omega

theorem modLast_append (l : List KStmt) (x : KStmt) (f : KStmt → KStmt) : modLast (l ++ [x]) f = l ++ [f x] := by
  simp [modLast]

/-- What the scan from the start `l` of a statement on finds. -/
def Found (l : List Char) (s o : KState) : Prop :=
  ∃ new, o.stmts = s.stmts ++ new ∧ l = new.flatMap (fun x => x.sections.render) ++ o.start ∧ o.mode = 0 ∧
      (∀ x ∈ new, x.kind ≠ .none) ∧ (RawOk l → (∀ x ∈ new, x.Ok) ∧ ∃ u, Blank o.start u)

theorem Found.cons {l r : List Char} {s s' o : KState} {x : KStmt} (hs : s'.stmts = s.stmts ++ [x]) (hl : l = x.sections.render ++ r)
    (hk : x.kind ≠ .none) (hraw : RawOk l → x.Ok ∧ RawOk r) (h : Found r s' o) : Found l s o := by
  obtain ⟨new, h1, h2, h3, h4, h5⟩ := h
  refine ⟨x :: new, by rw [h1, hs]; simp, by rw [hl]; conv_lhs => rw [h2]
                                             simp, h3, ?_, ?_⟩
  · intro y hy
    rcases List.mem_cons.1 hy with rfl | hy
    · exact hk
    · exact h4 y hy
  · intro hr
    obtain ⟨g1, g2⟩ := hraw hr
    obtain ⟨g3, g4⟩ := h5 g2
    refine ⟨?_, g4⟩
    intro y hy
    rcases List.mem_cons.1 hy with rfl | hy
    · exact g1
    · exact g3 y hy

/-- At the end of the file inside a statement there is a message. -/
theorem eof_error {s : KState} {com : Bool} (hm : s.mode ≠ 0) : (kwLoop [] { s with com := com }).errs = s.errs + 1 := by
  rw [kwLoop, if_pos hm]
  dsimp only
  cases s.stmts.getLast? <;> rfl

theorem scan_stmts : ∀ (n : Nat) (l : List Char) (s : KState), l.length ≤ n → s.mode = 0 → s.com = false → s.start = l →
    (kwLoop l s).errs = s.errs → Found l s (kwLoop l s) := by
  intro n
  induction n with
  | zero =>
    intro l s h hm hcom hst _
    have : l = [] := List.length_eq_zero_iff.1 (by omega)
    subst this
    have e : kwLoop [] s = s := by rw [kwLoop]; simp [hm]
    rw [e]
    exact ⟨[], by simp, by simp [hst], hm, by simp, fun _ => ⟨by simp, [], by rw [hst]; exact .nil⟩⟩
  | succ n ih =>
    intro l s h hm hcom hst herr
    rcases to_keyword hcom herr with ⟨com, h1, h2⟩ | ⟨t, d, r, h1, h2, h3, h4⟩
    · have e : kwLoop [] { s with com := com } = { s with com := com } := by rw [kwLoop]; simp [hm]
      rw [e] at h1
      rw [h1]
      exact ⟨[], by simp, by simp [hst], hm, by simp, fun hr => ⟨by simp, by rw [hst]; exact h2 hr⟩⟩
    · -- the first keyword
      cases hk : kwKind (some d) with
      | none =>
        exfalso
        unfold kwStep at h3
        rw [hk] at h3
        dsimp only at h3
        rw [if_pos hm] at h3
        simp at h3
      | some k =>
        obtain ⟨hkn, hd⟩ := kwKind_some hk
        subst hd
        have hstep : kwStep (some (kwChar k)) (kwChar k :: r) s = { s with
            type := k, stmts := s.stmts ++ [{ kind := k, label := l, labelLen := t.length }]
            start := r, mode := if k ≠ .lb ∧ k ≠ .rb then 1 else 0 } := by
          unfold kwStep
          rw [hk]
          dsimp only
          rw [if_neg (by simp [hm]), hst, h1, len_sub]
          rfl
        have hlab : l.take t.length = t := by rw [h1, List.take_left]
        have hrl : r.length < l.length := by rw [h1]; simp; omega
        have hlok : RawOk l → SecOk l t.length := fun hr => by
          rw [h1]; exact secOk_of (h4 hr).1 (stop_kw hkn r)
        rw [hstep] at h2 h3
        rw [h2] at herr ⊢
        by_cases hb : k = .lb ∨ k = .rb
        · -- a block delimiter
          rw [if_neg (by tauto)] at herr ⊢
          refine Found.cons (x := { kind := k, label := l, labelLen := t.length }) (r := r) rfl ?_ hkn ?_ (ih r _ (by omega) rfl hcom rfl herr)
          · simp only [Sections.render, KStmt.sections, hlab, if_pos hb]
            rw [h1]; simp
          · intro hr
            exact ⟨⟨hkn, hlok hr, fun g1 g2 => by simp only at g1 g2; tauto, fun g => by simp only at g; rw [g] at hb; simp at hb⟩, (h4 hr).2⟩
        · -- a statement with a math section
          rw [if_pos (by tauto)] at herr ⊢
          generalize hs1 : ({ s with
            type := k, stmts := s.stmts ++ [{ kind := k, label := l, labelLen := t.length }], start := r, mode := 1 } : KState) = s1 at herr ⊢
          have e1 : s1.errs = s.errs := by rw [← hs1]
          have ec1 : s1.com = false := by rw [← hs1]; exact hcom
          have em1 : s1.mode = 1 := by rw [← hs1]
          have et1 : s1.type = k := by rw [← hs1]
          have es1 : s1.start = r := by rw [← hs1]
          have el1 : s1.stmts = s.stmts ++ [{ kind := k, label := l, labelLen := t.length }] := by rw [← hs1]
          clear hs1
          rw [← e1] at herr
          rcases to_keyword ec1 herr with ⟨com, g1, _⟩ | ⟨t2, d2, r2, g1, g2, g3, g4⟩
          · exfalso
            rw [g1, eof_error (by omega)] at herr
            omega
          · have hr2l : r2.length < r.length := by rw [g1]; simp; omega
            have hmath : r.take t2.length = t2 := by rw [g1, List.take_left]
            cases hk2 : kwKind (some d2) with
            | some k2 =>
              exfalso
              unfold kwStep at g3
              rw [hk2] at g3
              dsimp only at g3
              rw [if_pos (by omega)] at g3
              simp at g3
            | none =>
              by_cases hp : k = .p
              · -- $p
                have hd2 : d2 = '=' := by
                  by_contra hd2
                  unfold kwStep at g3
                  rw [hk2] at g3
                  dsimp only at g3
                  rw [if_neg (by omega), if_pos em1, if_neg (by rw [et1]; simp [hp])] at g3
                  simp [et1, hp, hd2] at g3
                subst hd2
                have hstep2 : kwStep (some '=') ('=' :: r2) s1 = { s1 with
                    stmts := s.stmts ++ [{ kind := k, label := l, labelLen := t.length, math := r, mathLen := t2.length }]
                    start := r2, mode := 2 } := by
                  unfold kwStep
                  rw [hk2]
                  dsimp only
                  rw [if_neg (by omega), if_pos em1, if_neg (by rw [et1]; simp [hp]), el1, modLast_append, es1, g1, len_sub]
                  simp [et1, hp]
                rw [g2, hstep2] at herr ⊢
                clear g2 g3 hstep2
                generalize hs2 : ({ s1 with
                    stmts := s.stmts ++ [{ kind := k, label := l, labelLen := t.length, math := r, mathLen := t2.length }]
                    start := r2, mode := 2 } : KState) = s2 at herr ⊢
                have e2 : s2.errs = s1.errs := by rw [← hs2]
                have ec2 : s2.com = false := by rw [← hs2]; exact ec1
                have em2 : s2.mode = 2 := by rw [← hs2]
                have es2 : s2.start = r2 := by rw [← hs2]
                have el2 : s2.stmts = s.stmts ++ [{ kind := k, label := l, labelLen := t.length, math := r, mathLen := t2.length }] := by rw [← hs2]
                clear hs2
                rw [← e2] at herr
                rcases to_keyword ec2 herr with ⟨com, f1, _⟩ | ⟨t3, d3, r3, f1, f2, f3, f4⟩
                · exfalso
                  rw [f1, eof_error (by omega)] at herr
                  omega
                · have hr3l : r3.length < r2.length := by rw [f1]; simp; omega
                  have hproof : r2.take t3.length = t3 := by rw [f1, List.take_left]
                  cases hk3 : kwKind (some d3) with
                  | some k3 =>
                    exfalso
                    unfold kwStep at f3
                    rw [hk3] at f3
                    dsimp only at f3
                    rw [if_pos (by omega)] at f3
                    simp at f3
                  | none =>
                    have hd3 : d3 = '.' := by
                      by_contra hd3
                      unfold kwStep at f3
                      rw [hk3] at f3
                      dsimp only at f3
                      rw [if_neg (by omega), if_neg (by omega), if_pos (by simpa using hd3)] at f3
                      simp at f3
                    subst hd3
                    have hstep3 : kwStep (some '.') ('.' :: r3) s2 = { s2 with
                        stmts := s.stmts ++ [{ kind := k, label := l, labelLen := t.length, math := r, mathLen := t2.length, proof := r2, proofLen := t3.length }]
                        start := r3, mode := 0 } := by
                      unfold kwStep
                      rw [hk3]
                      dsimp only
                      rw [if_neg (by omega), if_neg (by omega), if_neg (by simp), el2, modLast_append, es2, f1, len_sub]
                      rfl
                    rw [f2, hstep3] at herr ⊢
                    refine Found.cons (x := { kind := k, label := l, labelLen := t.length, math := r, mathLen := t2.length, proof := r2, proofLen := t3.length })
                      (r := r3) rfl ?_ hkn ?_ (ih r3 _ (by omega) rfl ec2 rfl herr)
                    · simp only [Sections.render, KStmt.sections, hlab, hmath, hproof, if_neg hb, if_pos hp]
                      rw [h1, g1, f1]; simp
                    · intro hr
                      refine ⟨⟨hkn, hlok hr, fun _ _ => ?_, fun _ => ?_⟩, (f4 (g4 (h4 hr).2).2).2⟩
                      · simp only; rw [g1]; exact secOk_of (g4 (h4 hr).2).1 (stop_eq r2)
                      · simp only; rw [f1]; exact secOk_of (f4 (g4 (h4 hr).2).2).1 (stop_dot r3)
              · -- other statements
                have hd2 : d2 = '.' := by
                  by_contra hd2
                  unfold kwStep at g3
                  rw [hk2] at g3
                  dsimp only at g3
                  rw [if_neg (by omega), if_pos em1, if_pos ⟨by rw [et1]; exact hp, by simpa using hd2⟩] at g3
                  simp at g3
                  omega
                subst hd2
                have hstep2 : kwStep (some '.') ('.' :: r2) s1 = { s1 with
                    stmts := s.stmts ++ [{ kind := k, label := l, labelLen := t.length, math := r, mathLen := t2.length }]
                    start := r2, mode := 0 } := by
                  unfold kwStep
                  rw [hk2]
                  dsimp only
                  rw [if_neg (by omega), if_pos em1, if_neg (by simp), el1, modLast_append, es1, g1, len_sub]
                  simp [et1, hp]
                rw [g2, hstep2] at herr ⊢
                refine Found.cons (x := { kind := k, label := l, labelLen := t.length, math := r, mathLen := t2.length })
                  (r := r2) rfl ?_ hkn ?_ (ih r2 _ (by omega) rfl ec1 rfl herr)
                · simp only [Sections.render, KStmt.sections, hlab, hmath, if_neg hb, if_neg hp]
                  rw [h1, g1]; simp
                · intro hr
                  refine ⟨⟨hkn, hlok hr, fun _ _ => ?_, fun g => absurd g hp⟩, (g4 (h4 hr).2).2⟩
                  simp only; rw [g1]; exact secOk_of (g4 (h4 hr).2).1 (stop_dot r2)

/-- C24: when the keyword scan reports no error, the stored sections, joined with their keywords, are the source text. -/
theorem C24_sections_partition_source {text : List Char} (h : (parseKeywords text).errs = 0) :
    text = (parseKeywords text).stmts.flatMap (fun x => x.sections.render) ++ (parseKeywords text).start := by
  obtain ⟨new, h1, h2, _⟩ := scan_stmts text.length text { start := text } (le_refl _) rfl rfl rfl h
  rw [List.nil_append] at h1
  rw [parseKeywords, h1]
  exact h2

/-- C24: when moreover the raw source check reports no error, each section consists of characters and well-formed comments up to its keyword. -/
theorem C24_sections_clean {text : List Char} (h : (parseKeywords text).errs = 0) (hr : rawErrs false false text = 0) :
    (∀ x ∈ (parseKeywords text).stmts, x.Ok) ∧ ∃ u, Blank (parseKeywords text).start u := by
  obtain ⟨new, h1, _, _, _, h3⟩ := scan_stmts text.length text { start := text } (le_refl _) rfl rfl rfl h
  rw [List.nil_append] at h1
  rw [parseKeywords, h1]
  exact h3 ⟨false, hr⟩

end MM.Lex
