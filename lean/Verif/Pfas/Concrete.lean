import Verif.Pfas.Sound
import Verif.Unif.Vals

/-!
# The Proof Assistant with the unification functions of mmunif.c

In `Verif/Pfas/Model.lean` the unification functions are a parameter.  Here the parameter is tied to the modelled functions of mmunif.c.
-/
namespace MM.Pfas
open MM.Unif (Cfg SV Proper unifyH unifyHNext uniqueUnif SubstOf Calls HCalls)

/-- The unifier is the one of mmunif.c (with the Henty filter, as by default): `hyps` is what assignKnownSteps does with `unifyH` (mmpfas.c 2358–2385, no time limit),
`uniq` what autoUnify does with `uniqueUnif` (mmpfas.c 2740–2750). -/
structure Realises (C : Cfg) (U : Unifier) : Prop where
  hyps : ∀ A B, Proper C A B →
    (U.hyps A B = none ∧ ∃ n, unifyH true n C 0 A B = .val .none) ∨
    ∃ σ b, U.hyps A B = some (σ, b) ∧ ∃ m n v r, unifyH true n C 0 A B = .val (.found v) ∧ SubstOf C v.sv σ ∧ unifyHNext true m n C A B v = .val r ∧ (b = true ↔ r ≠ .none)
  uniq : ∀ A B, Proper C A B → ∃ m n o, uniqueUnif true m n C 1 A B = .val ((U.uniq A B).1, o) ∧ ∀ v, o = some v → SubstOf C v (U.uniq A B).2

/-- There is such a unifier: the calls end, with the results that `Unifier` foresees. -/
theorem realises_exists (C : Cfg) (hK : ∀ t, C.mt < t → C.isCon t = false) : ∃ U, Realises C U := by
  have h1 : ∀ A B, ∃ o : Option ((Nat → List Nat) × Bool), Proper C A B →
      (o = none ∧ ∃ n, unifyH true n C 0 A B = .val .none) ∨
      ∃ σ b, o = some (σ, b) ∧ ∃ m n v r, unifyH true n C 0 A B = .val (.found v) ∧ SubstOf C v.sv σ ∧ unifyHNext true m n C A B v = .val r ∧ (b = true ↔ r ≠ .none) := by
    intro A B
    by_cases hP : Proper C A B
    · obtain ⟨N, r, hN⟩ := MM.Unif.C56_first_ends hP true 0
      have hr := hN N (Nat.le_refl _)
      cases r with
      | none => exact ⟨none, fun _ => Or.inl ⟨rfl, N, hr⟩⟩
      | timeout => exact absurd rfl (MM.Unif.unifyH_zero hP hr).1
      | found v =>
        have hc := HCalls.first hr
        obtain ⟨σ, hσ⟩ := MM.Unif.substOf_exists hK hP (MM.Unif.C56_answers hP hc v.sv (by simp))
        obtain ⟨M, q, hM⟩ := MM.Unif.C56_next_ends hP hc v.sv.trials
        refine ⟨some (σ, decide (q ≠ .none)), fun _ => Or.inr ⟨σ, _, rfl, max M N, max M N, v, q, hN _ (by omega), hσ, hM _ _ (by omega) (by omega), by simp⟩⟩
    · exact ⟨none, fun h => absurd h hP⟩
  have h2 : ∀ A B, ∃ q : Nat × (Nat → List Nat), Proper C A B → ∃ m n o, uniqueUnif true m n C 1 A B = .val (q.1, o) ∧ ∀ v, o = some v → SubstOf C v q.2 := by
    intro A B
    by_cases hP : Proper C A B
    · obtain ⟨M, ⟨k, o⟩, hM⟩ := MM.Unif.C56_unique_ends hP true 1
      have h := hM M M (Nat.le_refl _) (Nat.le_refl _)
      cases o with
      | none => exact ⟨(k, fun _ => []), fun _ => ⟨M, M, none, h, nofun⟩⟩
      | some v =>
        have hk : k = 1 := by
          rcases MM.Unif.unique_inv h with ⟨e, _⟩ | e | ⟨_, _, ⟨e, _⟩ | ⟨e, _⟩⟩ <;> cases e
          rfl
        subst hk
        obtain ⟨v', e, hc, _⟩ := MM.Unif.C56_unique hK hP h
        cases e
        obtain ⟨σ, hσ⟩ := MM.Unif.substOf_exists hK hP hc
        exact ⟨(1, σ), fun _ => ⟨M, M, some v, h, fun w hw => by cases hw; exact hσ⟩⟩
    · exact ⟨(0, fun _ => []), fun h => absurd h hP⟩
  refine ⟨⟨fun A B => (h1 A B).choose, fun A B => (h2 A B).choose⟩, fun A B hP => (h1 A B).choose_spec hP, fun A B hP => (h2 A B).choose_spec hP⟩

variable {E : MM.Proof.Env} {U : Unifier} {C : Cfg}

/-- The first answer for hypotheses. -/
theorem Realises.hyps_answer (h : Realises C U) (hK : ∀ t, C.mt < t → C.isCon t = false) {A B : List Nat} (hP : Proper C A B) {σ : Nat → List Nat} {b : Bool}
    (hu : U.hyps A B = some (σ, b)) : MM.Unif.inst C.mt σ A = MM.Unif.inst C.mt σ B ∧ ∀ y, C.mt < y → C.mt ∉ σ y := by
  rcases h.hyps A B hP with ⟨e, _⟩ | ⟨σ', b', e, m, n, v, r, h1, h2, _⟩
  · rw [hu] at e; cases e
  · rw [hu] at e
    cases e
    exact MM.Unif.answer_unifies hK hP (MM.Unif.C56_answers hP (HCalls.first h1) v.sv (by simp)) h2

/-- The answer 1 of `uniqueUnif`. -/
theorem Realises.uniq_answer (h : Realises C U) (hK : ∀ t, C.mt < t → C.isCon t = false) {A B : List Nat} (hP : Proper C A B) (hu : (U.uniq A B).1 = 1) :
    ∃ v, Calls C A B (fun _ => True) v ∧ SubstOf C v (U.uniq A B).2 := by
  obtain ⟨m, n, o, h1, h2⟩ := h.uniq A B hP
  rw [hu] at h1
  obtain ⟨v, e, hc, _⟩ := MM.Unif.C56_unique hK hP h1
  exact ⟨v, hc, h2 v e⟩

/-- What C54 and C55 ask of the unification functions holds of those of mmunif.c. -/
theorem Realises.ok (h : Realises C U) (hmt : C.mt = E.sep) (hmin : C.min ≤ 1) (hK : ∀ t, C.mt < t → C.isCon t = false) : U.Ok E := by
  have hPr : ∀ {A B : List Nat}, A.count E.sep = B.count E.sep → A.head? = some E.sep → B.head? = some E.sep → Proper C A B := by
    intro A B hc hA hB
    refine ⟨fun e => by simp [e] at hA, fun e => by simp [e] at hB, by rw [hmt]; exact hc, hmin, Or.inr ?_⟩
    rw [List.headD_eq_head?_getD, List.headD_eq_head?_getD, hA, hB, hmt]
    exact ⟨Nat.le_refl _, Nat.le_refl _⟩
  constructor
  · intro A B σ b hc hA hB _ hu
    have := h.hyps_answer hK (hPr hc hA hB) hu
    rw [hmt] at this
    exact this
  · intro A B σ hc hA hB hk hu
    have hP := hPr hc hA hB
    rcases h.hyps A B hP with ⟨e, _⟩ | ⟨σ', b', e, m, n, v, r, h1, h2, h3, h4⟩
    · rw [hu] at e; cases e
    · rw [hu] at e
      cases e
      cases r with
      | none => exact absurd rfl (h4.1 rfl)
      | timeout => exact absurd h3 (MM.Unif.next_no_timeout ⟨hP.neA, hP.neB⟩ m n ((MM.Unif.unifyH_zero hP h1).2 v rfl))
      | found w =>
        have hc2 := HCalls.next (t := v.sv.trials) (HCalls.first h1) h3
        have hw := MM.Unif.C56_answers hP hc2 w.sv (by simp)
        obtain ⟨τ, hτ⟩ := MM.Unif.substOf_exists hK hP hw
        have hu := MM.Unif.answer_unifies hK hP hw hτ
        have hd := MM.Unif.C56_distinct hK hP (by rw [hmt]; exact hk) hc2
        simp only [List.cons_append, List.nil_append, List.pairwise_cons, List.mem_singleton, forall_eq] at hd
        obtain ⟨y, y1, y2, y3⟩ := hd.1 σ τ h2 hτ
        rw [hmt] at hu y2
        exact ⟨τ, y, hu.1, hu.2, y2, y1, fun e => y3 e.symm⟩

end MM.Pfas
