import Verif.Impr.Props
import Verif.Pfas.SessionExample
/-!
# C74: examples
-/
namespace MM.Impr.Ex
open MM.Veri MM.Proof MM.Data MM.Tree MM.Pfas MM.Spec MM.Pars MM.Impr
open MM.Unif (Cfg)

def exC : Cfg where
  mt := 7
  isCon := fun t => decide (t < 5)
  name := fun t => if t = 2 then ['('] else if t = 4 then [')'] else ['x']
  axs := [[0, 2, 5, 3, 6, 4], [1, 6]]
  min := 1
  maxTrials := 1000

/-- A search for a formula in the theorem `th2` with the given proof in progress. -/
def exX (E : Env) (p : Pip) : Ctx :=
  { E := E, C := exC, on := true, pip := p, d := 0, prove := 19, maxE := 0, noDist := true, disc := fun _ => false, override := 0, other := fun _ => false, limit := 1000 }

def listOf (o : Out (List Int)) : Option (List Int) :=
  match o with
  | .val l => some l
  | _ => none

theorem setting {s : PState} (h : Accepted sesSrc s) {p : Pip} : Setting sesSrc s linLook (exX (envOf linLook sesSrc s) p) :=
  ⟨h, rfl, (show kindAt (kinds sesSrc) 19 = .p by decide +kernel), (show 7 = (declToks sesSrc).length by decide +kernel), (fun t ht => by have : (7 : Nat) < t := ht; simp [exX, exC]; omega), Nat.le_refl _, (show 0 ≤ 2 by decide)⟩

/-- `W ( ( p > q ) > p )` is found: `wp wq wi wp wi`. -/
theorem ex_found : listOf (proveFloating (exX sesEnv Pip.empty) 60 [0, 2, 2, 5, 3, 6, 4, 3, 5, 4]) = some [3, 4, 5, 3, 5] := by decide +kernel

/-- `W ( p )` is not a formula of the language: no proof. -/
theorem ex_none : listOf (proveFloating (exX sesEnv Pip.empty) 60 [0, 2, 5, 4]) = some [] := by decide +kernel

theorem val_of {o : Out (List Int)} {l : List Int} (h : listOf o = some l) : o = .val l := by
  cases o <;> simp [listOf] at h
  rw [h]

/-- The theorems apply to the first search. -/
example : ∃ s, Accepted sesSrc s ∧ Found sesSrc s (exX (envOf linLook sesSrc s) Pip.empty) [0, 2, 2, 5, 3, 6, 4, 3, 5, 4] [3, 4, 5, 3, 5] ∧
    ∃ steps : List Step, ([3, 4, 5, 3, 5] : List Int).map (decode (toDb sesSrc s)) = steps.map some ∧
      Proves (isVarOf sesSrc) (fun _ _ => False) steps [0, 2, 2, 5, 3, 6, 4, 3, 5, 4] := by
  obtain ⟨s, h, ho⟩ := sesSrc_accepted
  have e : envOf linLook sesSrc s = sesEnv := pfEnv_eq ho
  have hv := val_of ex_found
  rw [← e] at hv
  have hm : Formula sesSrc [0, 2, 2, 5, 3, 6, 4, 3, 5, 4] := by unfold Formula; decide +kernel
  exact ⟨s, h, C74_search_sound_partial (setting h) (Or.inl rfl) hm hv (by decide),
    C74_no_distinct_partial (setting h) (Or.inl rfl) rfl (fun x hx => by cases hx) hm hv (by decide)⟩

/-- The quick filter skips `mp` for this formula, for its first symbol; `wi` for `W p`, for a missing symbol. -/
example : quick sesEnv 9 [0, 2, 2, 5, 3, 6, 4, 3, 5, 4] = .val false ∧ quick sesEnv 5 [0, 5] = .val false := by
  have key : ∀ o : Out Bool, (match o with | .val b => some b | _ => none) = some false → o = .val false := by
    intro o h; cases o <;> simp at h; rw [h]
  exact ⟨key _ (by decide +kernel), key _ (by decide +kernel)⟩

/-! ### The whole statement is false: the scan of the current proof compares with the target of a step, not with what the step proves -/

/-- `ASSIGN … / NO_UNIFY`: `mp`, then `x2`, `y2` and, in the wrong order, `wq` and `wp`; each fits the target of its step. -/
def badCmds : List PAct := [.assign 9 0, .assign 18 3, .assign 17 2, .assign 3 1, .assign 4 0]

theorem badCmds_ok : ∀ c ∈ badCmds, c.Ok sesEnv 19 := by
  intro c hc
  simp only [badCmds, List.mem_cons, List.not_mem_nil, or_false] at hc
  rcases hc with rfl | rfl | rfl | rfl | rfl <;> (unfold PAct.Ok; decide +kernel)

def badPip : Pip := (sesRun 19 [unk] badCmds |> fun o => match o with | .val t => t.pip | _ => Pip.empty)

theorem bad_run : stOf (sesRun 19 [unk] badCmds) = some ([4, 3, 17, 18, 9], [[0, 9], [0, 8], [1, 9], [1, 2, 9, 3, 8, 4], [1, 6]], 2, false) := by decide +kernel

theorem bad_reach : ∃ t, Reach 5 sesEnv sesU 19 t ∧ t.pip = badPip ∧ t.err = false := by
  have hr := bad_run
  have hb : badPip = (match sesRun 19 [unk] badCmds with | .val t => t.pip | _ => Pip.empty) := rfl
  cases h : sesRun 19 [unk] badCmds <;> rw [h] at hr hb
  · rename_i t
    simp only [stOf, Option.some.injEq, Prod.mk.injEq] at hr
    exact ⟨t, session_reach (by decide +kernel) badCmds_ok h, hb.symm, hr.2.2.2⟩
  all_goals simp [stOf] at hr

theorem bad_found : listOf (proveFloating (exX sesEnv badPip) 60 [1, 6]) = some [4, 3, 17, 18, 9] := by decide +kernel

theorem bad_verify : (verifyProof sesEnv.toDb 19 [4, 3, 17, 18, 9] 0 0 >>= fun o => .val (decide (o.msgs = []))) = .val false := by decide +kernel

/-- C74, the whole statement is false: IMPROVE copies a subproof that does not prove the formula. -/
theorem C74_stale_subproof : ∃ s X l, Setting sesSrc s linLook X ∧ InSession X (fun t => t.err = false) ∧ proveFloating X 60 [1, 6] = .val l ∧ l ≠ [] ∧ ¬ Found sesSrc s X [1, 6] l := by
  obtain ⟨s, h, ho⟩ := sesSrc_accepted
  have e : envOf linLook sesSrc s = sesEnv := pfEnv_eq ho
  have hv := val_of bad_found
  obtain ⟨t, t1, t2, t3⟩ := bad_reach
  rw [← e] at hv t1
  refine ⟨s, exX (envOf linLook sesSrc s) badPip, _, setting h, Or.inr ⟨5, sesU, t, ?_, t1, t2.symm, t3⟩, hv, by decide, ?_⟩
  · show sesU.Ok (envOf linLook sesSrc s)
    rw [e]; exact sesU_ok
  · rintro ⟨_, _, steps, h3, h4⟩
    have hmath : s.math 19 = [1, 6] := by
      show ((envOf linLook sesSrc s).stmt 19).math = [1, 6]
      rw [e]; decide +kernel
    have hd : ∀ x ∈ ([4, 3, 17, 18, 9] : List Int), (s.stmt x.toNat).reqDisj = [] := by
      intro x hx
      show ((envOf linLook sesSrc s).stmt x.toNat).reqDisj = []
      rw [e]
      revert x
      decide +kernel
    obtain ⟨out, o1, _, o2⟩ := verifies_of_noDv h (prove := 19) (by decide +kernel) (by decide) hd h3 (by rw [hmath]; exact h4)
    have hb := bad_verify
    rw [← e] at hb
    change verifyProof (envOf linLook sesSrc s).toDb 19 [4, 3, 17, 18, 9] 0 0 = _ at o1
    rw [o1, Out.bind_val, o2] at hb
    simp at hb

end MM.Impr.Ex
