import Verif.Byrep.Props
import Verif.Repl.EndExample
/-!
# C90: examples (the database of the examples for C75)
-/
namespace MM.Byrep.Ex
open MM.Veri MM.Proof MM.Data MM.Tree MM.Pfas MM.Spec MM.Pars MM.Impr MM.Repl MM.Repl.Ex MM.Byrep
open MM.Unif (Cfg Proper unifyH HCalls)

/-- The state after PROVE with the stored proof `wp wp x idi idi`. -/
def state : MM.Pfas.St := ⟨⟨[3, 3, 9, 6, 6], [[0, 2], [0, 2], [1, 2], [1, 2], [1, 2]], [[0, 2], [0, 2], [1, 2], [1, 2], [1, 2]], [[], [], [], [], []]⟩, 0, false⟩

/-- The steps offered for the last step: only the fourth one. -/
theorem offered : getIndepKnownSteps idEnv state.pip 4 = .val [false, false, false, true, false] := by decide +kernel

/-- With an unknown step instead of `x`: none. -/
example : getIndepKnownSteps idEnv { state.pip with proof := [3, 3, -63, 6, 6] } 4 = .val [false, false, false, false, false] ∧
    getKnownSubProofs idEnv { state.pip with proof := [3, 3, -63, 6, 6] } = .val [true, true, false, false, false] := by decide +kernel

/-- IMPROVE / 2 for the last step (if it were unknown or not) finds `wp x idi`. -/
theorem found : proveByReplacement (at' (idX idEnv) state) 60 (fun _ _ => 0) 4 = .val [3, 9, 6] := by decide +kernel

def allData (o : Out (Pip × Nat × Bool)) : Option (List Int × List (List Nat) × List (List Nat) × List (List Nat) × Nat × Bool) :=
  match o with
  | .val r => some (r.1.proof, r.1.target, r.1.source, r.1.user, r.2.1, r.2.2)
  | _ => none

set_option maxRecDepth 100000 in
theorem all_start (U : Unifier) (σ : Nat → List Nat) : allData (initProofStruct 5 idEnv (askU U σ) [3, 3, 9, 6, 6] 10) =
    some (state.pip.proof, state.pip.target, state.pip.source, state.pip.user, state.d, state.err) := by
  exact Eq.refl (some (state.pip.proof, state.pip.target, state.pip.source, state.pip.user, state.d, state.err))

/-- The theorems apply, with the unification functions of mmunif.c. -/
example : ∃ s U, Accepted idSrc s ∧ Improve2 idSrc s linLook (idX (envOf linLook idSrc s)) U ∧ Here (idX (envOf linLook idSrc s)) U 5 state ∧
    Formula idSrc [1, 2] ∧ proveByReplacement (at' (idX (envOf linLook idSrc s)) state) 60 (fun _ _ => 0) 4 = .val [3, 9, 6] ∧
    Found idSrc s (idX (envOf linLook idSrc s)) [1, 2] [3, 9, 6] ∧ PAct.Ok (envOf linLook idSrc s) 10 (.insert [3, 9, 6] 4) ∧
    ((∃ k : Nat, k < 6 ∧ ([3, 9, 6] : List Int).getLast? = some (k : Int)) ∨ ∃ l p, getIndepKnownSteps (envOf linLook idSrc s) state.pip 4 = .val l ∧
      replaceStatement (at' (idX (envOf linLook idSrc s)) state) 60 (wholeRange state.pip l) (fun _ => 0) 6 4 = .val p ∧ (p = [] ∨ p = [3, 9, 6])) := by
  obtain ⟨s, h, ho⟩ := idSrc_accepted
  have e : envOf linLook idSrc s = idEnv := pfEnv_eq ho
  obtain ⟨U, hR⟩ := realises_exists idC idC_con
  obtain ⟨σ, h1, h2⟩ := ask_answer hR
  have hs := all_start U σ
  rw [askU_eq h1 h2] at hs
  have hm : Improve2 idSrc s linLook (idX (envOf linLook idSrc s)) U :=
    ⟨⟨h, rfl, (show kindAt (kinds idSrc) 10 = .p by decide +kernel), (show 3 = (declToks idSrc).length by decide +kernel), idC_con, Nat.le_refl _, (show 2 ≤ 2 by decide)⟩,
      rfl, hR.ok (by rw [show (idX (envOf linLook idSrc s)).E = idEnv from e]; decide +kernel) (by decide) idC_con, hR⟩
  cases hi : initProofStruct 5 idEnv U [3, 3, 9, 6, 6] 10 with
  | val r =>
    rw [hi] at hs
    simp only [allData, Option.some.injEq, Prod.mk.injEq] at hs
    obtain ⟨⟨a1, a2, a3, a4⟩, b, c⟩ := r
    dsimp only at hs
    obtain ⟨rfl, rfl, rfl, rfl, rfl, rfl⟩ := hs
    have hh : Here (idX (envOf linLook idSrc s)) U 5 state := by
      refine ⟨?_, rfl, ?_⟩
      · show Run 5 (envOf linLook idSrc s) U 10 _
        rw [e]
        exact .start (by decide +kernel) hi
      · intro i _ _
        rfl
    have hf : Formula idSrc [1, 2] := ⟨by simp, by decide +kernel⟩
    have hq : proveByReplacement (at' (idX (envOf linLook idSrc s)) state) 60 (fun _ _ => 0) 4 = .val [3, 9, 6] := by rw [e]; exact found
    exact ⟨s, U, h, hm, hh, hf, hq, C90_improve2_sound_partial hm hh (step := 4) rfl hf hq (by simp), C90_found_inserts hm hh (step := 4) rfl hf hq (by simp),
      C90_in_order hm (step := 4) (i := 6) rfl hf hq (by decide) (show 6 < 10 by decide) (Or.inl (by rw [show (idX (envOf linLook idSrc s)).E = idEnv from e]; decide +kernel)) (by intro h; cases h) rfl (by intro h; cases h)
        (σ := fun x => [x]) (by rw [show (idX (envOf linLook idSrc s)).E = idEnv from e]; decide +kernel)⟩
  | ub => rw [hi] at hs; cases hs
  | bug k => rw [hi] at hs; cases hs
  | fuel => rw [hi] at hs; cases hs

end MM.Byrep.Ex
