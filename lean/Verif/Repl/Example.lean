import Verif.Repl.Props
import Verif.Pfas.SessionExample
/-!
# C75: examples

```
$c W T $.  $v p $.  wp $f W p $.
${ m $e T p $.  idi $a T p $. $}
${ x $e T p $.  th $p T p $. $}
```
-/
namespace MM.Repl.Ex
open MM.Veri MM.Proof MM.Data MM.Tree MM.Pfas MM.Spec MM.Pars MM.Impr MM.Repl
open MM.Unif (Cfg)

def idSrc : List Src :=
  [st .c "" ['W', 'T'], st .v "" ['p'], st .f "wp" ['W', 'p'],
   st .lb "" [], st .e "m" ['T', 'p'], st .a "idi" ['T', 'p'], st .rb "" [],
   st .lb "" [], st .e "x" ['T', 'p'], st .p "th" ['T', 'p'], st .rb "" []]

def idOut : List Stmt := [
  {}, { kind := .c, math := [0, 1] }, { kind := .v, math := [2] }, { kind := .f, math := [0, 2] },
  { kind := .lb }, { kind := .e, math := [1, 2] }, { kind := .a, math := [1, 2], reqHyp := [3, 5], reqVars := [2] }, { kind := .rb },
  { kind := .lb }, { kind := .e, math := [1, 2] }, { kind := .p, math := [1, 2], reqHyp := [3, 9], reqVars := [2] }, { kind := .rb }]

theorem idSrc_accepted : ∃ s, Accepted idSrc s ∧ s.out = idOut := accepted_of_result (by decide +kernel)

def idEnv : Env := pfEnv idOut idSrc

/-- The answers of the unification functions that are needed: the hypotheses of `idi` with any dummy variable for `p`, against `W p` and `T p`. -/
def idU : Unifier where
  hyps := fun A B => if A = [3, 0, A.getD 2 0, 3, 1, A.getD 2 0, 3] ∧ 3 < A.getD 2 0 ∧ B = [3, 0, 2, 3, 1, 2, 3] then some (fun z => if z = A.getD 2 0 then [2] else [z], false) else none
  uniq := fun _ _ => (0, fun y => [y])

theorem idU_ok : idU.Ok idEnv := by
  have hs : idEnv.sep = 3 := by decide +kernel
  constructor
  · intro A B σ b _ _ _ _ h
    unfold idU at h
    dsimp only at h
    by_cases hc : A = [3, 0, A.getD 2 0, 3, 1, A.getD 2 0, 3] ∧ 3 < A.getD 2 0 ∧ B = [3, 0, 2, 3, 1, 2, 3]
    · rw [if_pos hc] at h
      simp only [Option.some.injEq, Prod.mk.injEq] at h
      obtain ⟨rfl, _⟩ := h
      obtain ⟨h1, h2, rfl⟩ := hc
      generalize A.getD 2 0 = y at h1 h2
      subst h1
      unfold inst
      rw [hs]
      refine ⟨by simp [MM.Unif.inst, h2], ?_⟩
      intro z hz hm
      dsimp only at hm
      split at hm
      · simp at hm
      · simp at hm; omega
    · rw [if_neg hc] at h; cases h
  · intro A B σ _ _ _ _ h
    unfold idU at h
    dsimp only at h
    split at h
    · simp at h
    · cases h

def idC : Cfg where
  mt := 3
  isCon := fun t => decide (t < 2)
  name := fun _ => ['x']
  axs := [[1, 2]]
  min := 1
  maxTrials := 1000

def idX (E : Env) : Impr.Ctx :=
  { E := E, C := idC, on := true, pip := Pip.empty, d := 0, prove := 10, maxE := 0, noDist := false, disc := fun _ => false, override := 2, other := fun _ => false, limit := 1000 }

theorem mini {s : PState} (h : Accepted idSrc s) (e : envOf linLook idSrc s = idEnv) : Mini idSrc s linLook (idX (envOf linLook idSrc s)) idU 6 :=
  ⟨⟨h, rfl, (show kindAt (kinds idSrc) 10 = .p by decide +kernel), (show 3 = (declToks idSrc).length by decide +kernel), (fun t ht => by have : (3 : Nat) < t := ht; simp [idX, idC]; omega),
    Nat.le_refl _, (show 2 ≤ 2 by decide)⟩, rfl, rfl, (by show idU.Ok (envOf linLook idSrc s); rw [e]; exact idU_ok), (show 1 ≤ 6 ∧ 6 < 10 by decide)⟩

/-- The state after PROVE with the stored proof `wp wp x idi idi`. -/
def start : MM.Pfas.St := (initProofStruct 5 idEnv idU [3, 3, 9, 6, 6] 10 |> fun o => match o with | .val r => ⟨r.1, r.2.1, r.2.2⟩ | _ => ⟨Pip.empty, 0, true⟩)

def dataOf (o : Out MM.Pfas.St) : Option (List Int × List (List Nat) × List (List Nat) × Nat × Bool) :=
  match o with
  | .val t => some (t.pip.proof, t.pip.target, t.pip.source, t.d, t.err)
  | _ => none

theorem start_data : (start.pip.proof, start.pip.target, start.pip.source, start.err) =
    ([3, 3, 9, 6, 6], [[0, 2], [0, 2], [1, 2], [1, 2], [1, 2]], [[0, 2], [0, 2], [1, 2], [1, 2], [1, 2]], false) := by decide +kernel

/-- MINIMIZE_WITH `idi` makes it `wp x idi`. -/
theorem minimized : (dataOf (minimizeProof (idX idEnv) 60 idU (fun _ _ _ => 0) false 6 start)).map (fun r => (r.1, r.2.2.2.2)) = some ([3, 9, 6], false) := by decide +kernel

theorem start_reach : Reach 5 idEnv idU 10 start := by
  have hd := start_data
  have e : start = (match initProofStruct 5 idEnv idU [3, 3, 9, 6, 6] 10 with | .val r => ⟨r.1, r.2.1, r.2.2⟩ | _ => ⟨Pip.empty, 0, true⟩) := rfl
  cases h : initProofStruct 5 idEnv idU [3, 3, 9, 6, 6] 10 <;> rw [h] at e
  · rw [e]
    exact .start (by decide +kernel) h
  all_goals
    rw [e] at hd
    simp at hd

theorem start_tidy : Tidy (idX idEnv) idU start := by
  have hd := start_data
  simp only [Prod.mk.injEq] at hd
  obtain ⟨h1, h2, h3, h4⟩ := hd
  refine ⟨⟨5, start_reach⟩, ⟨h4, ?_⟩, ?_⟩
  · rw [h1, h2, h3]
    intro i _ _
    rfl
  · rw [h2]
    show ∀ m ∈ _, 3 ∉ m
    decide +kernel

/-- The theorems apply to it: the state is tidy, the proof is complete, and the shorter proof proves `T p`. -/
example : ∃ s b, Accepted idSrc s ∧ Tidy (idX (envOf linLook idSrc s)) idU start ∧ unk ∉ start.pip.proof ∧
    minimizeProof (idX (envOf linLook idSrc s)) 60 idU (fun _ _ _ => 0) false 6 start = .val b ∧ b.err = false ∧ b.pip.proof = [3, 9, 6] ∧
    Found idSrc s (idX (envOf linLook idSrc s)) [1, 2] b.pip.proof ∧ b.pip.proof.length < start.pip.proof.length := by
  obtain ⟨s, h, ho⟩ := idSrc_accepted
  have e : envOf linLook idSrc s = idEnv := pfEnv_eq ho
  have hm := minimized
  have hd := start_data
  simp only [Prod.mk.injEq] at hd
  have ht := start_tidy
  rw [← e] at hm ht
  cases hb : minimizeProof (idX (envOf linLook idSrc s)) 60 idU (fun _ _ _ => 0) false 6 start with
  | val b =>
    rw [hb] at hm
    simp only [dataOf, Option.map_some, Option.some.injEq, Prod.mk.injEq] at hm
    have hc : unk ∉ start.pip.proof := by rw [hd.1]; decide
    have hmath : s.math 10 = [1, 2] := by
      show ((envOf linLook idSrc s).stmt 10).math = [1, 2]
      rw [e]; decide +kernel
    refine ⟨s, b, h, ht, hc, hb, hm.2, hm.1, ?_, ?_⟩
    · rw [← hmath]
      exact C75_minimize_sound_partial (mini h e) ht hb hm.2 hc
    · rcases C75_minimize_shorter_partial (mini h e) ht hb hm.2 with e | h
      · rw [e, hd.1] at hm
        cases hm.1
      · exact h
  | ub => rw [hb] at hm; cases hm
  | bug k => rw [hb] at hm; cases hm
  | fuel => rw [hb] at hm; cases hm
end MM.Repl.Ex
