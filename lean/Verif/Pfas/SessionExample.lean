import Verif.Pfas.Props
import Verif.Proof.Example
/-!
# Sessions of the Proof Assistant that meet the hypotheses of C54 and C55, and one that shows why C54 is partial

```
$c W T ( > ) $.  $v p q $.  wp $f W p $.  wq $f W q $.  wi $a W ( p > q ) $.
${ m $e T p $.  n $e T ( p > q ) $.  mp $a T q $. $}
${ x $e T p $.  y $e T ( q > q ) $.  th $p T q $. $}
${ x2 $e T p $.  y2 $e T ( p > q ) $.  th2 $p T q $. $}
```
-/
namespace MM.Pfas
open MM.Veri MM.Proof MM.Data MM.Tree MM.Pars MM.Spec

def sesSrc : List Src :=
  [st .c "" ['W', 'T', '(', '>', ')'], st .v "" ['p', 'q'], st .f "wp" ['W', 'p'], st .f "wq" ['W', 'q'],
   st .a "wi" ['W', '(', 'p', '>', 'q', ')'],
   st .lb "" [], st .e "m" ['T', 'p'], st .e "n" ['T', '(', 'p', '>', 'q', ')'], st .a "mp" ['T', 'q'], st .rb "" [],
   st .lb "" [], st .e "x" ['T', 'p'], st .e "y" ['T', '(', 'q', '>', 'q', ')'], st .p "th" ['T', 'q'], st .rb "" [],
   st .lb "" [], st .e "x2" ['T', 'p'], st .e "y2" ['T', '(', 'p', '>', 'q', ')'], st .p "th2" ['T', 'q'], st .rb "" []]

def sesOut : List Stmt := [
  {}, { kind := .c, math := [0, 1, 2, 3, 4] }, { kind := .v, math := [5, 6] }, { kind := .f, math := [0, 5] }, { kind := .f, math := [0, 6] },
  { kind := .a, math := [0, 2, 5, 3, 6, 4], reqHyp := [3, 4], reqVars := [5, 6] },
  { kind := .lb }, { kind := .e, math := [1, 5] }, { kind := .e, math := [1, 2, 5, 3, 6, 4] }, { kind := .a, math := [1, 6], reqHyp := [3, 4, 7, 8], reqVars := [6, 5] }, { kind := .rb },
  { kind := .lb }, { kind := .e, math := [1, 5] }, { kind := .e, math := [1, 2, 6, 3, 6, 4] }, { kind := .p, math := [1, 6], reqHyp := [3, 4, 12, 13], reqVars := [6, 5] }, { kind := .rb },
  { kind := .lb }, { kind := .e, math := [1, 5] }, { kind := .e, math := [1, 2, 5, 3, 6, 4] }, { kind := .p, math := [1, 6], reqHyp := [3, 4, 17, 18], reqVars := [6, 5] }, { kind := .rb }]

theorem sesSrc_accepted : ∃ s, Accepted sesSrc s ∧ s.out = sesOut := accepted_of_result (by decide +kernel)

def sesEnv : Env := pfEnv sesOut sesSrc

/-- The hypotheses of `mp` with the dummy variables `$3` (token 10) for `q` and `$4` (token 11) for `p`. -/
def sesScheme : List Nat := [7, 0, 11, 7, 0, 10, 7, 1, 11, 7, 1, 2, 11, 3, 10, 4, 7]
def sesInst : List Nat := [7, 0, 5, 7, 0, 6, 7, 1, 5, 7, 1, 2, 5, 3, 6, 4, 7]

/-- The answers of the unification functions that are needed. -/
def sesU : Unifier where
  hyps := fun A B => if A = sesScheme ∧ B = sesInst then some (fun y => if y = 10 then [6] else if y = 11 then [5] else [y], false) else none
  uniq := fun A B =>
    if A = [1, 6] ∧ B = [1, 8] then (1, fun y => if y = 8 then [6] else [y])
    else if A = [0, 8] ∧ B = [0, 6] then (1, fun y => if y = 8 then [6] else [y])
    else if A = [0, 9] ∧ B = [0, 5] then (1, fun y => if y = 9 then [5] else [y])
    else if A = [1, 2, 9, 3, 6, 4] ∧ B = [1, 2, 5, 3, 6, 4] then (1, fun y => if y = 9 then [5] else [y])
    else (0, fun y => [y])

theorem sesU_ok : sesU.Ok sesEnv := by
  have hs : sesEnv.sep = 7 := by decide +kernel
  constructor
  · intro A B σ b _ _ _ _ h
    unfold sesU at h
    dsimp only at h
    by_cases hc : A = sesScheme ∧ B = sesInst
    · rw [if_pos hc] at h
      obtain ⟨rfl, rfl⟩ := hc
      simp only [Option.some.injEq, Prod.mk.injEq] at h
      obtain ⟨rfl, _⟩ := h
      unfold inst
      rw [hs]
      refine ⟨by decide +kernel, ?_⟩
      intro y hy hm
      dsimp only at hm
      split at hm
      · simp at hm
      · split at hm
        · simp at hm
        · simp at hm; omega
    · rw [if_neg hc] at h; cases h
  · intro A B σ _ _ _ _ h
    unfold sesU at h
    dsimp only at h
    by_cases hc : A = sesScheme ∧ B = sesInst
    · rw [if_pos hc] at h; simp at h
    · rw [if_neg hc] at h; cases h

/-- Commands one after the other. -/
def execAll (n : Nat) (E : Env) (U : Unifier) (prove : Nat) : St → List PAct → Out St
  | s, [] => .val s
  | s, c :: cs => exec n E U prove s c >>= fun t => execAll n E U prove t cs

theorem execAll_reach {n : Nat} {E : Env} {U : Unifier} {prove : Nat} : ∀ {cs : List PAct} {s t : St}, Reach n E U prove s → (∀ c ∈ cs, c.Ok E prove) →
    execAll n E U prove s cs = .val t → Reach n E U prove t
  | [], s, t, hr, _, h => by cases h; exact hr
  | c :: cs, s, t, hr, hc, h => by
    unfold execAll at h
    cases h1 : exec n E U prove s c <;> rw [h1] at h
    · rename_i s1
      exact execAll_reach (Reach.act hr (hc c List.mem_cons_self) h1) (fun c' h' => hc c' (List.mem_cons_of_mem _ h')) h
    all_goals cases h

/-- PROVE with a stored proof, then commands. -/
def sesRun (prove : Nat) (proof : List Int) (cs : List PAct) : Out St :=
  initProofStruct 5 sesEnv sesU proof prove >>= fun r => execAll 5 sesEnv sesU prove ⟨r.1, r.2.1, r.2.2⟩ cs

def sesCmds : List PAct := [.assign 9 0, .unify, .assign 18 3, .unify, .insert [17] 2, .insert [3] 0, .insert [4] 1]

theorem session_reach {prove : Nat} {proof : List Int} {cs : List PAct} {t : St} (hF : Formed sesEnv prove proof) (hc : ∀ c ∈ cs, c.Ok sesEnv prove)
    (h : sesRun prove proof cs = .val t) : Reach 5 sesEnv sesU prove t := by
  unfold sesRun at h
  cases h1 : initProofStruct 5 sesEnv sesU proof prove <;> rw [h1] at h
  · exact execAll_reach (Reach.start hF h1) hc h
  all_goals cases h

instance (E : Env) (prove : Nat) (x : Int) : Decidable (Legal E prove x) := by unfold Legal; infer_instance
instance (E : Env) (prove : Nat) (l : List Int) : Decidable (Formed E prove l) := by unfold Formed; infer_instance

theorem sesCmds_ok : ∀ c ∈ sesCmds, c.Ok sesEnv 19 := by
  intro c hc
  simp only [sesCmds, List.mem_cons, List.not_mem_nil, or_false] at hc
  rcases hc with rfl | rfl | rfl | rfl | rfl | rfl | rfl <;> first | trivial | (unfold PAct.Ok; decide +kernel)

def stOf (o : Out St) : Option (List Int × List (List Nat) × Nat × Bool) :=
  match o with
  | .val t => some (t.pip.proof, t.pip.target, t.d, t.err)
  | _ => none

/-- The session proves `th2` ... -/
theorem ses_result : stOf (sesRun 19 [unk] sesCmds) =
    some ([3, 4, 17, 18, 9], [[0, 5], [0, 6], [1, 5], [1, 2, 5, 3, 6, 4], [1, 6]], 2, false) := by decide +kernel

/-- ... and UNIFY ALL prints the congratulations. -/
theorem ses_congrats : (sesRun 19 [unk] sesCmds >>= fun t => autoUnify 5 sesEnv sesU t.pip true >>= fun r => .val r.2) = .val true := by decide +kernel

/-- C54 applies to it. -/
example : ∃ s t q, Accepted sesSrc s ∧ Reach 5 (envOf linLook sesSrc s) sesU 19 t ∧ t.err = false ∧
    autoUnify 5 (envOf linLook sesSrc s) sesU t.pip true = .val (q, true) ∧
    ∃ out, verifyProof (toDb sesSrc s) 19 q.proof 0 0 = .val out ∧ out.ret = 0 ∧ out.msgs = [] := by
  obtain ⟨s, h, ho⟩ := sesSrc_accepted
  have e : envOf linLook sesSrc s = sesEnv := pfEnv_eq ho
  have hr := ses_result
  have hg := ses_congrats
  cases hses : sesRun 19 [unk] sesCmds <;> rw [hses] at hr hg
  · rename_i t
    simp only [Out.bind_val] at hg
    simp only [stOf, Option.some.injEq, Prod.mk.injEq] at hr
    cases ha : autoUnify 5 sesEnv sesU t.pip true <;> rw [ha] at hg
    · rename_i r
      obtain ⟨q, b⟩ := r
      simp only [Out.bind_val, Out.val.injEq] at hg
      subst hg
      have hreach : Reach 5 (envOf linLook sesSrc s) sesU 19 t := by rw [e]; exact session_reach (by decide +kernel) sesCmds_ok hses
      have ha' : autoUnify 5 (envOf linLook sesSrc s) sesU t.pip true = .val (q, true) := by rw [e]; exact ha
      have hU : sesU.Ok (envOf linLook sesSrc s) := by rw [e]; exact sesU_ok
      refine ⟨s, t, q, h, hreach, hr.2.2.2, ha', ?_⟩
      have hq := (C54_congratulations_sound_partial h (by decide) hU hreach hr.2.2.2 q ha').1
      refine C54_verifies_partial h (by decide) hU hreach hr.2.2.2 ha' ?_
      intro x hx
      rw [hq, hr.1] at hx
      have : s.stmt x.toNat = sesOut.getD x.toNat {} := by rw [← ho]; rfl
      rw [this]
      have key : ∀ x ∈ ([3, 4, 17, 18, 9] : List Int), (sesOut.getD x.toNat {}).reqDisj = [] := by decide +kernel
      exact key x hx
    all_goals cases hg
  all_goals cases hr

/-- C55 applies to it: another command is safe. -/
example : ∃ s, Accepted sesSrc s ∧ ∃ t, Reach 5 (envOf linLook sesSrc s) sesU 19 t ∧
    (exec 5 (envOf linLook sesSrc s) sesU 19 t (.replace [3, 4, 17, 18, 9] 4) = .fuel ∨
      ∃ t', exec 5 (envOf linLook sesSrc s) sesU 19 t (.replace [3, 4, 17, 18, 9] 4) = .val t') := by
  obtain ⟨s, h, ho⟩ := sesSrc_accepted
  have e : envOf linLook sesSrc s = sesEnv := pfEnv_eq ho
  have hr := ses_result
  cases hses : sesRun 19 [unk] sesCmds <;> rw [hses] at hr
  · rename_i t
    have hreach : Reach 5 (envOf linLook sesSrc s) sesU 19 t := by rw [e]; exact session_reach (by decide +kernel) sesCmds_ok hses
    refine ⟨s, h, t, hreach, C55_session_safe h (by decide) (by rw [e]; exact sesU_ok) hreach ?_⟩
    show Formed _ _ _
    rw [e]
    decide +kernel
  all_goals cases hr

/-- REPLACE works with the unification of the hypotheses. -/
example : stOf (sesRun 19 [unk] (sesCmds ++ [.replace [3, 4, 17, 18, 9] 4])) =
    some ([3, 4, 17, 18, 9], [[0, 5], [0, 6], [1, 5], [1, 2, 5, 3, 6, 4], [1, 6]], 2, false) := by decide +kernel

/-! ## Why C54 is partial -/

/-- PROVE `th`, whose stored proof `wp wq x y mp` is wrong, then INITIALIZE ALL: the error is reported, and the targets are overwritten with the sources. -/
theorem zap_result : stOf (sesRun 14 [3, 4, 12, 13, 9] [.initAll]) =
    some ([3, 4, 12, 13, 9], [[0, 5], [0, 6], [1, 5], [1, 2, 6, 3, 6, 4], [1, 6]], 2, true) := by decide +kernel

/-- UNIFY ALL then congratulates the user on a complete proof, ... -/
theorem zap_congrats : (sesRun 14 [3, 4, 12, 13, 9] [.initAll] >>= fun t => autoUnify 5 sesEnv sesU t.pip true >>= fun r => .val (r.1.proof, r.2)) =
    .val ([3, 4, 12, 13, 9], true) := by decide +kernel

/-- ... which VERIFY PROOF rejects. -/
theorem zap_verify : (verifyProof sesEnv.toDb 14 [3, 4, 12, 13, 9] 0 0 >>= fun o => .val (decide (o.msgs = []))) = .val false := by decide +kernel

/-- So the whole statement of C54 is false of the program. -/
theorem C54_whole_statement_false : ∃ (src : List Src) (s : PState) (U : Unifier) (t : St), Accepted src s ∧ kindAt (kinds src) 14 = .p ∧
    U.Ok (envOf linLook src s) ∧ Reach 5 (envOf linLook src s) U 14 t ∧ ¬ CongratsSound 5 src s linLook U 14 t := by
  obtain ⟨s, h, ho⟩ := sesSrc_accepted
  have e : envOf linLook sesSrc s = sesEnv := pfEnv_eq ho
  have hg := zap_congrats
  cases hses : sesRun 14 [3, 4, 12, 13, 9] [.initAll] <;> rw [hses] at hg
  · rename_i t
    simp only [Out.bind_val] at hg
    cases ha : autoUnify 5 sesEnv sesU t.pip true <;> rw [ha] at hg
    · rename_i r
      obtain ⟨q, b⟩ := r
      simp only [Out.bind_val, Out.val.injEq, Prod.mk.injEq] at hg
      obtain ⟨hq, rfl⟩ := hg
      have hreach : Reach 5 (envOf linLook sesSrc s) sesU 14 t := by
        rw [e]
        refine session_reach (by decide +kernel) ?_ hses
        intro c hc
        simp only [List.mem_singleton] at hc
        subst hc; trivial
      have ha' : autoUnify 5 (envOf linLook sesSrc s) sesU t.pip true = .val (q, true) := by rw [e]; exact ha
      refine ⟨sesSrc, s, sesU, t, h, by decide, by rw [e]; exact sesU_ok, hreach, fun hC => ?_⟩
      obtain ⟨_, _, _, steps, h3, h4⟩ := hC q ha'
      rw [hq] at h3
      have hst : ∀ x ∈ ([3, 4, 12, 13, 9] : List Int), (s.stmt x.toNat).reqDisj = [] := by
        have key : ∀ x ∈ ([3, 4, 12, 13, 9] : List Int), (sesOut.getD x.toNat {}).reqDisj = [] := by decide +kernel
        intro x hx
        have : s.stmt x.toNat = sesOut.getD x.toNat {} := by rw [← ho]; rfl
        rw [this]; exact key x hx
      obtain ⟨o, h5, _, h6⟩ := verifies_of_noDv h (by decide) (by decide) hst h3 h4
      have hv := zap_verify
      rw [show sesEnv.toDb = toDb sesSrc s from by rw [← e]; rfl, h5, Out.bind_val, h6] at hv
      cases hv
    all_goals cases hg
  all_goals cases hg

end MM.Pfas
