import Verif.Write.Keep
/-!
# C60: WRITE SOURCE
-/
namespace MM.Write
open MM.Veri MM.Pars MM.Lex

/-- One SAVE PROOF on the stored statements. -/
theorem saveProof_eq {s : Save} {ks : List KStmt} (last : List Char) (hs : s.Ok (ks.map KStmt.kind)) (hf : ∀ x ∈ ks, Fit x) :
    ∃ ks', saveProof s (ks ++ [dummyStmt last]) = .val (ks' ++ [dummyStmt last]) ∧ (∀ x ∈ ks', Fit x) ∧
      Saved s (ks.map KStmt.sections) (ks'.map KStmt.sections) ∧ ks'.map KStmt.kind = ks.map KStmt.kind := by
  obtain ⟨n, h1, h2⟩ := hs.isP
  obtain ⟨body, h3, h4⟩ := hs.printed
  rw [List.getElem?_map, Option.map_eq_some_iff] at h2
  obtain ⟨x, h5, h6⟩ := h2
  obtain ⟨hn, hx⟩ := List.getElem?_eq_some_iff.1 h5
  obtain ⟨a, b, hab, han⟩ : ∃ a b, ks = a ++ x :: b ∧ a.length = n :=
    ⟨ks.take n, ks.drop (n + 1), by rw [← hx]; simp, by rw [List.length_take]; omega⟩
  have fx := hf x (by rw [hab]; simp)
  obtain ⟨l, g1, g2, g3⟩ : ∃ l : List Char × Nat, storeNoteIf s.note x = .val { x with label := l.1, labelLen := l.2 } ∧
      l.2 ≤ l.1.length ∧ NoteAdded s.note (x.label.take x.labelLen) (l.1.take l.2) := by
    cases hno : s.note with
    | none => exact ⟨(x.label, x.labelLen), rfl, fx.label, rfl⟩
    | some n => exact storeNote_eq fx.label
  have hsave : saveProof s (ks ++ [dummyStmt last]) = .val ((ks ++ [dummyStmt last]).set n
      { x with label := l.1, labelLen := l.2, proof := '\n' :: (body ++ [' ', '$', '.', '\n']), proofLen := body.length + 2 }) := by
    unfold saveProof
    rw [dif_pos ⟨by omega, by simp; omega⟩]
    have hidx : (ks ++ [dummyStmt last])[s.stmt - 1]'(by simp; omega) = x := by
      rw [List.getElem_append_left (by omega)]
      have : s.stmt - 1 = n := by omega
      simp only [this]
      exact hx
    dsimp only
    rw [hidx, g1, Out.bind_val, h3, storeProof_eq, Out.bind_val, show s.stmt - 1 = n by omega]
  refine ⟨a ++ { x with label := l.1, labelLen := l.2, proof := '\n' :: (body ++ [' ', '$', '.', '\n']), proofLen := body.length + 2 } :: b, ?_, ?_, ?_, ?_⟩
  · rw [hsave, hab]
    congr 1
    rw [List.append_assoc, List.set_append_right _ _ (by omega), han, Nat.sub_self]
    simp
  · intro z hz
    simp only [List.mem_append, List.mem_cons] at hz
    rcases hz with hz | rfl | hz
    · exact hf z (by rw [hab]; simp [hz])
    · exact ⟨fx.kind, g2, fx.math, by simp, fx.noMath, fun h => absurd h6 h⟩
    · exact hf z (by rw [hab]; simp [hz])
  · refine ⟨a.map KStmt.sections, x.sections, b.map KStmt.sections, KStmt.sections { x with label := l.1, labelLen := l.2, proof := '\n' :: (body ++ [' ', '$', '.', '\n']), proofLen := body.length + 2 }, body, by rw [hab]; simp, by rw [List.map_append, List.map_cons], by simp; omega, h3, rfl, rfl, ?_, g3⟩
    show List.take (body.length + 2) ('\n' :: (body ++ [' ', '$', '.', '\n'])) = _
    rw [List.take_succ_cons, List.take_append]
    simp
    exact List.take_of_length_le (by omega)
  · rw [hab]; simp

theorem saveAll_eq (last : List Char) : ∀ {ss : List Save} {ks : List KStmt}, (∀ s ∈ ss, s.Ok (ks.map KStmt.kind)) → (∀ x ∈ ks, Fit x) →
    ∃ ks', saveAll ss (ks ++ [dummyStmt last]) = .val (ks' ++ [dummyStmt last]) ∧ (∀ x ∈ ks', Fit x) ∧
      SavedAll ss (ks.map KStmt.sections) (ks'.map KStmt.sections)
  | [], ks, _, hf => ⟨ks, rfl, hf, .nil _⟩
  | s :: ss, ks, hs, hf => by
    obtain ⟨k1, e1, f1, v1, w1⟩ := saveProof_eq last (hs s (by simp)) hf
    obtain ⟨k2, e2, f2, v2⟩ := saveAll_eq last (ss := ss) (ks := k1) (fun t ht => by rw [w1]; exact hs t (by simp [ht])) f1
    refine ⟨k2, ?_, f2, .cons v1 v2⟩
    rw [saveAll, e1, Out.bind_val, e2]

theorem read_clean {sort : List (Name × Nat) → List (Name × Nat)} {text : List Char} {o : ReadOut} (h : readSource sort text = .val o) (he : o.errs = 0) :
    (parseKeywords text).errs = 0 ∧ rawErrs false false text = 0 ∧ o.stmts = (parseKeywords text).stmts := by
  unfold readSource at h
  dsimp only at h
  cases hp : parseLabels sort (parseKeywords text).stmts (parseKeywords text).start <;> rw [hp] at h
  all_goals try cases h
  rename_i l
  rw [Out.bind_val] at h
  cases hs : symsOf (parseKeywords text).stmts <;> rw [hs] at h
  all_goals try cases h
  rename_i ms
  rw [Out.bind_val] at h
  cases hst : parseStatements (mkSrc (parseKeywords text).stmts l.labels ms) <;> rw [hst] at h
  all_goals try cases h
  dsimp only at he
  exact ⟨by omega, by omega, rfl⟩

/-- **C60, unchanged source**: after READ without errors WRITE SOURCE writes the source back byte for byte. -/
theorem C60_write_is_source {text : List Char} (h : (parseKeywords text).errs = 0) (hr : rawErrs false false text = 0) :
    writeSourceToBuffer (statements text) = .val text := by
  obtain ⟨xs, last, h1, h2, h3, h4, h5⟩ := read_good h hr
  unfold statements
  rw [h4, h5, write_eq last (fit_place xs last h2), place_sections xs last h2, ← h1]

/-- **C60, after any number of SAVE PROOF commands**: WRITE SOURCE does not fail; what it writes is the old source with the new proofs and notes in place and
nothing else changed (`SavedAll`); and READ accepts it without errors and stores the same statements with the new proofs. -/
theorem C60_saved_source {sort : List (Name × Nat) → List (Name × Nat)} {text : List Char} {o : ReadOut} (h : readSource sort text = .val o) (he : o.errs = 0)
    {ss : List Save} (hs : ∀ s ∈ ss, s.Ok (o.stmts.map KStmt.kind)) :
    ∃ st buf ys last o', saveAll ss (statements text) = .val st ∧ writeSourceToBuffer st = .val buf ∧
      text = (o.stmts.map KStmt.sections).flatMap Sections.render ++ last ∧
      SavedAll ss (o.stmts.map KStmt.sections) ys ∧ buf = ys.flatMap Sections.render ++ last ∧
      readSource sort buf = .val o' ∧ o'.errs = 0 ∧ o'.state = o.state ∧ o'.stmts.map KStmt.sections = ys ∧
      o'.src = List.zipWith (fun (x : Src) (y : Sections) => { x with proof := y.proof }) o.src ys := by
  obtain ⟨c1, c2, c3⟩ := read_clean h he
  obtain ⟨xs, last, h1, h2, h3, h4, h5⟩ := read_good c1 c2
  rw [c3, h4] at hs ⊢
  obtain ⟨ks', e1, e2, e3⟩ := saveAll_eq last hs (fit_place xs last h2)
  have hq : QuietAll false xs last := by rw [← raw_iff xs false last h2, ← h1]; exact c2
  rw [place_sections xs last h2] at e3
  have hk : (place xs last).map KStmt.kind = xs.map Sections.kind := by
    conv_rhs => rw [← place_sections xs last h2]
    rw [List.map_map]
    rfl
  rw [hk] at hs
  obtain ⟨g1, g2, g3⟩ := savedAll_keeps e3 hs h2 hq
  rw [h1] at h
  obtain ⟨o', r1, r2, r3, r4, r5, r6⟩ := read_alike h2 g1 h3 g2 g3 h he
  refine ⟨ks' ++ [dummyStmt last], _, ks'.map KStmt.sections, last, o', ?_, write_eq last e2, ?_, ?_, rfl, r1, r2, r3, ?_, ?_⟩
  · unfold statements; rw [h4, h5]; exact e1
  · rw [place_sections xs last h2]; exact h1
  · rw [place_sections xs last h2]; exact e3
  · rw [r4, place_sections _ _ g1]
  · have gen : ∀ (A B : List Src) (ys : List Sections), noProofs A = noProofs B → A.map Src.proof = ys.map Sections.proof →
        A = List.zipWith (fun (x : Src) (y : Sections) => { x with proof := y.proof }) B ys := by
      intro A
      induction A with
      | nil =>
        intro B ys hA hB
        cases ys with
        | nil => simp
        | cons y ys => simp at hB
      | cons a A ih =>
        intro B ys hA hB
        cases B with
        | nil => cases hA
        | cons b B =>
          cases ys with
          | nil => cases hB
          | cons y ys =>
            unfold noProofs at hA
            rw [List.map_cons, List.map_cons, List.cons.injEq] at hA hB
            rw [List.zipWith_cons_cons, ← ih B ys hA.2 hB.2]
            congr 1
            obtain ⟨hA1, _⟩ := hA
            obtain ⟨hB1, _⟩ := hB
            cases a
            cases b
            simp at hA1 hB1 ⊢
            simp [hA1, hB1]
    exact gen _ _ _ r5 r6

end MM.Write
