import Verif.Improve.Props
import Verif.Byrep.Example
/-!
# C91: an example (the database of the examples for C75): the theorem with the proof `?`
-/
namespace MM.Improve.Ex
open MM.Veri MM.Proof MM.Data MM.Tree MM.Pfas MM.Spec MM.Pars MM.Impr MM.Repl MM.Repl.Ex MM.Byrep MM.Byrep.Ex MM.Improve
open MM.Unif (Cfg Proper unifyH HCalls)

/-- The state after PROVE with the stored proof `?`. -/
def st0 : MM.Pfas.St := ⟨⟨[unk], [[1, 2]], [[]], [[]]⟩, 0, false⟩

/-- The state after IMPROVE ALL: the hypothesis `x`. -/
def st1 : MM.Pfas.St := ⟨⟨[9], [[1, 2]], [[1, 2]], [[]]⟩, 0, false⟩

def resData (o : Out (MM.Pfas.St × Bool)) : Option (List Int × List (List Nat) × List (List Nat) × List (List Nat) × Nat × Bool × Bool) :=
  match o with
  | .val r => some (r.1.pip.proof, r.1.pip.target, r.1.pip.source, r.1.pip.user, r.1.d, r.1.err, r.2)
  | _ => none

set_option maxRecDepth 100000 in
theorem start0 (U : Unifier) : allData (initProofStruct 5 idEnv U [unk] 10) = some (st0.pip.proof, st0.pip.target, st0.pip.source, st0.pip.user, st0.d, st0.err) := by
  exact Eq.refl (some (st0.pip.proof, st0.pip.target, st0.pip.source, st0.pip.user, st0.d, st0.err))

set_option maxRecDepth 100000 in
theorem improved (U : Unifier) (alg2 sub : Bool) : resData (improveAll (idX idEnv) 5 U (fun _ _ _ => 0) alg2 sub st0) = some ([9], [[1, 2]], [[1, 2]], [[]], 0, false, true) := by
  cases alg2 <;> cases sub <;> exact Eq.refl (some ([9], [[1, 2]], [[1, 2]], [[]], 0, false, true))

/-- The theorems apply, with the unification functions of mmunif.c: IMPROVE ALL finds the proof. -/
example (alg2 sub : Bool) : ∃ s U b, Accepted idSrc s ∧ Improve2 idSrc s linLook (idX (envOf linLook idSrc s)) U ∧ Here (idX (envOf linLook idSrc s)) U 5 st0 ∧
    improveAll (idX (envOf linLook idSrc s)) 5 U (fun _ _ _ => 0) alg2 sub st0 = .val (b, true) ∧ b.err = false ∧ b.pip.proof = [9] ∧ Found idSrc s (idX (envOf linLook idSrc s)) (s.math 10) [9] ∧
    (∃ k, Chain idSrc s (idX (envOf linLook idSrc s)) U 5 st0 b k ∧ 0 < k) := by
  obtain ⟨s, h, ho⟩ := idSrc_accepted
  have e : envOf linLook idSrc s = idEnv := pfEnv_eq ho
  obtain ⟨U, hR⟩ := realises_exists idC idC_con
  have hm : Improve2 idSrc s linLook (idX (envOf linLook idSrc s)) U :=
    ⟨⟨h, rfl, (show kindAt (kinds idSrc) 10 = .p by decide +kernel), (show 3 = (declToks idSrc).length by decide +kernel), idC_con, Nat.le_refl _, (show 2 ≤ 2 by decide)⟩,
      rfl, hR.ok (by rw [show (idX (envOf linLook idSrc s)).E = idEnv from e]; decide +kernel) (by decide) idC_con, hR⟩
  have hs := start0 U
  have hh : Here (idX (envOf linLook idSrc s)) U 5 st0 := by
    cases hi : initProofStruct 5 idEnv U [unk] 10 with
    | val r =>
      rw [hi] at hs
      simp only [allData, Option.some.injEq, Prod.mk.injEq] at hs
      obtain ⟨⟨a1, a2, a3, a4⟩, b, c⟩ := r
      dsimp only at hs
      obtain ⟨rfl, rfl, rfl, rfl, rfl, rfl⟩ := hs
      refine ⟨?_, rfl, ?_⟩
      · show Run 5 (envOf linLook idSrc s) U 10 _
        rw [e]
        exact .start (by decide +kernel) hi
      · intro i hi hn
        have : i = 0 := by simpa [st0] using hi
        subst this
        exact absurd rfl hn
    | ub => rw [hi] at hs; cases hs
    | bug k => rw [hi] at hs; cases hs
    | fuel => rw [hi] at hs; cases hs
  have hr := improved U alg2 sub
  rw [← e] at hr
  cases hb : improveAll (idX (envOf linLook idSrc s)) 5 U (fun _ _ _ => 0) alg2 sub st0 with
  | val r =>
    rw [hb] at hr
    simp only [resData, Option.some.injEq, Prod.mk.injEq] at hr
    obtain ⟨⟨⟨a1, a2, a3, a4⟩, b, c⟩, d⟩ := r
    dsimp only at hr
    obtain ⟨rfl, rfl, rfl, rfl, rfl, rfl, rfl⟩ := hr
    obtain ⟨_, k, h1, h2, _⟩ := C91_all_partial hm hh hb rfl
    exact ⟨s, U, _, h, hm, hh, hb, rfl, rfl, C91_all_complete_partial hm hh hb rfl (by decide), k, h1, h2.mp rfl⟩
  | ub => rw [hb] at hr; cases hr
  | bug k => rw [hb] at hr; cases hr
  | fuel => rw [hb] at hr; cases hr

/-! ### Nothing is found: a database in which `T p` cannot be proved -/

def noSrc : List Src :=
  [st .c "" ['W', 'T'], st .v "" ['p'], st .f "wp" ['W', 'p'], st .p "th" ['T', 'p']]

def noOut : List Stmt := [
  {}, { kind := .c, math := [0, 1] }, { kind := .v, math := [2] }, { kind := .f, math := [0, 2] }, { kind := .p, math := [1, 2], reqHyp := [3], reqVars := [2] }]

theorem noSrc_accepted : ∃ s, Accepted noSrc s ∧ s.out = noOut := accepted_of_result (by decide +kernel)

def noEnv : Env := pfEnv noOut noSrc

def noX (E : Env) : Impr.Ctx := { idX E with prove := 4 }

set_option maxRecDepth 100000 in
theorem start_no (U : Unifier) : allData (initProofStruct 5 noEnv U [unk] 4) = some (st0.pip.proof, st0.pip.target, st0.pip.source, st0.pip.user, st0.d, st0.err) := by
  exact Eq.refl (some (st0.pip.proof, st0.pip.target, st0.pip.source, st0.pip.user, st0.d, st0.err))

set_option maxRecDepth 100000 in
theorem not_improved (U : Unifier) (alg2 sub : Bool) : resData (improveAll (noX noEnv) 5 U (fun _ _ _ => 0) alg2 sub st0) = some ([unk], [[1, 2]], [[]], [[]], 0, false, false) := by
  cases alg2 <;> cases sub <;> exact Eq.refl (some ([unk], [[1, 2]], [[]], [[]], 0, false, false))

set_option maxRecDepth 100000 in
theorem not_improved_step (U : Unifier) (alg2 : Bool) : resData (improveStep (noX noEnv) 5 U (fun _ _ => 0) alg2 st0 0) = some ([unk], [[1, 2]], [[]], [[]], 0, false, false) := by
  cases alg2 <;> exact Eq.refl (some ([unk], [[1, 2]], [[]], [[]], 0, false, false))

/-- The theorems about steps that are left apply: nothing is found, and the two algorithms have been tried. -/
example (alg2 sub : Bool) : ∃ s U, Accepted noSrc s ∧ Improve2 noSrc s linLook (noX (envOf linLook noSrc s)) U ∧ Here (noX (envOf linLook noSrc s)) U 5 st0 ∧
    improveAll (noX (envOf linLook noSrc s)) 5 U (fun _ _ _ => 0) alg2 sub st0 = .val (st0, false) ∧
    improveStep (noX (envOf linLook noSrc s)) 5 U (fun _ _ => 0) alg2 st0 0 = .val (st0, false) ∧
    proveFloating (at' (noX (envOf linLook noSrc s)) st0) 5 [1, 2] = .val [] := by
  obtain ⟨s, h, ho⟩ := noSrc_accepted
  have e : envOf linLook noSrc s = noEnv := pfEnv_eq ho
  obtain ⟨U, hR⟩ := realises_exists idC idC_con
  have hm : Improve2 noSrc s linLook (noX (envOf linLook noSrc s)) U :=
    ⟨⟨h, rfl, (show kindAt (kinds noSrc) 4 = .p by decide +kernel), (show 3 = (declToks noSrc).length by decide +kernel), idC_con, Nat.le_refl _, (show 2 ≤ 2 by decide)⟩,
      rfl, hR.ok (by rw [show (noX (envOf linLook noSrc s)).E = noEnv from e]; decide +kernel) (by decide) idC_con, hR⟩
  have hs := start_no U
  have hh : Here (noX (envOf linLook noSrc s)) U 5 st0 := by
    cases hi : initProofStruct 5 noEnv U [unk] 4 with
    | val r =>
      rw [hi] at hs
      simp only [allData, Option.some.injEq, Prod.mk.injEq] at hs
      obtain ⟨⟨a1, a2, a3, a4⟩, b, c⟩ := r
      dsimp only at hs
      obtain ⟨rfl, rfl, rfl, rfl, rfl, rfl⟩ := hs
      refine ⟨?_, rfl, ?_⟩
      · show Run 5 (envOf linLook noSrc s) U 4 _
        rw [e]
        exact .start (by decide +kernel) hi
      · intro i hi hn
        have : i = 0 := by simpa [st0] using hi
        subst this
        exact absurd rfl hn
    | ub => rw [hi] at hs; cases hs
    | bug k => rw [hi] at hs; cases hs
    | fuel => rw [hi] at hs; cases hs
  have val : ∀ {o : Out (MM.Pfas.St × Bool)}, resData o = some ([unk], [[1, 2]], [[]], [[]], 0, false, false) → o = .val (st0, false) := by
    intro o hr
    cases o with
    | val r =>
      simp only [resData, Option.some.injEq, Prod.mk.injEq] at hr
      obtain ⟨⟨⟨a1, a2, a3, a4⟩, b, c⟩, d⟩ := r
      dsimp only at hr
      obtain ⟨rfl, rfl, rfl, rfl, rfl, rfl, rfl⟩ := hr
      rfl
    | ub => cases hr
    | bug k => cases hr
    | fuel => cases hr
  have h1 := not_improved U alg2 sub
  have h2 := not_improved_step U alg2
  rw [← e] at h1 h2
  have h1 := val h1
  have h2 := val h2
  have hd : ∀ t ∈ [1, 2], t ≤ (noX (envOf linLook noSrc s)).E.sep := by
    rw [show (noX (envOf linLook noSrc s)).E = noEnv from e]; decide +kernel
  have hr : rpnCount (noX (envOf linLook noSrc s)).E [unk] 0 = some 1 := by
    rw [show (noX (envOf linLook noSrc s)).E = noEnv from e]; decide +kernel
  have t1 := ((C91_all_tried hm hh h1 (k := 0) (m := [1, 2]) rfl hd (x := []) (old := [unk]) (y := []) rfl rfl hr (by simp)).1 rfl).1
  have t2 := (C91_step_tried hm hh h2 (k := 0) (m := [1, 2]) rfl hd (x := []) (old := [unk]) (y := []) rfl rfl hr (by simp)).2.1
  exact ⟨s, U, h, hm, hh, h1, h2, t2⟩

end MM.Improve.Ex
