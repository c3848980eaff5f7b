import Verif.Pfas.EndProps
import Verif.Pfas.SessionExample
/-!
# A session that meets the hypotheses of C57
-/
namespace MM.Pfas
open MM.Veri MM.Proof MM.Data MM.Tree MM.Pars MM.Spec
open MM.Unif (Cfg)

/-- The globals of mmunif.c for the database of `SessionExample.lean`. -/
def sesCfg : Cfg where
  mt := 7
  isCon := fun t => decide (t < 5)
  name := fun t => [["W", "T", "(", ">", ")", "p", "q"].getD t "$"].flatMap String.toList
  axs := [[0, 2, 5, 3, 6, 4], [1, 6]]
  min := 1
  maxTrials := 100000

theorem sesFits : Fits sesCfg sesEnv := ⟨by decide +kernel, rfl, fun t h => by
  have : 7 < t := h
  show decide (t < 5) = false
  simp; omega⟩

/-- The answer of `uniqueUnif` to one of the questions of the session: `T q` against `T $1`. -/
example : ∃ v, MM.Unif.uniqueUnif true 100 100 sesCfg 1 [1, 6] [1, 8] = .val (1, some v) ∧ MM.Unif.makeSubst sesCfg v [8, 9] = .val ([6, 9], true) :=
  ⟨⟨[⟨8, [(1, 1)], [1, 6, 7], [1, 8, 7]⟩], [(1, 1)], [1, 6], 1⟩, by decide +kernel, by decide +kernel⟩

/-- PROVE `th2` with an unknown proof, then ASSIGN the step to `mp`, UNIFY ALL, LET the first dummy variable be `p`: each command ends, with the real unification. -/
example : ∃ s, Accepted sesSrc s ∧ ∃ U, Realises sesCfg U ∧ ∃ n t, Run n (envOf linLook sesSrc s) U 19 t := by
  obtain ⟨s, h, ho⟩ := sesSrc_accepted
  have e : envOf linLook sesSrc s = sesEnv := pfEnv_eq ho
  have hC : Fits sesCfg (envOf linLook sesSrc s) := by rw [e]; exact sesFits
  obtain ⟨U, hR⟩ := C57_unifier_exists hC
  have hp : kindAt (kinds sesSrc) 19 = .p := by decide
  obtain ⟨N, r, h1⟩ := C57_start_ends (prove := 19) (proof := [unk]) h hp hC hR (by rw [e]; decide +kernel)
  have r1 : Run N (envOf linLook sesSrc s) U 19 _ := .start (by rw [e]; decide +kernel) (h1 N (Nat.le_refl _))
  obtain ⟨M, t1, h2⟩ := C57_command_ends h hp hC hR r1 (c := .assign 9 0) (by unfold PAct.Ok; rw [e]; decide +kernel) trivial
  have r2 : Run (N + M) (envOf linLook sesSrc s) U 19 t1 :=
    .act (r1.mono (by omega)) (c := .assign 9 0) (by unfold PAct.Ok; rw [e]; decide +kernel) trivial (h2 _ (by omega))
  obtain ⟨M1, t2, h3⟩ := C57_command_ends h hp hC hR r2 (c := .unify) trivial trivial
  have r3 : Run (N + M + M1) (envOf linLook sesSrc s) U 19 t2 := .act (r2.mono (by omega)) (c := .unify) trivial trivial (h3 _ (by omega))
  obtain ⟨M2, t3, h4⟩ := C57_command_ends h hp hC hR r3 (c := .letVar 1 [5]) trivial (by unfold PAct.Tok; rw [e]; decide +kernel)
  have r4 : Run (N + M + M1 + M2) (envOf linLook sesSrc s) U 19 t3 :=
    .act (r3.mono (by omega)) (c := .letVar 1 [5]) trivial (by unfold PAct.Tok; rw [e]; decide +kernel) (h4 _ (by omega))
  exact ⟨s, h, U, hR, _, t3, r4⟩

end MM.Pfas
