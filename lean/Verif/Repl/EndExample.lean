import Verif.Repl.EndProps
import Verif.Repl.Example
/-!
# C75: an example for the end of MINIMIZE_WITH, with the unification functions of mmunif.c
-/
namespace MM.Repl.Ex
open MM.Veri MM.Proof MM.Data MM.Tree MM.Pfas MM.Spec MM.Pars MM.Impr MM.Repl
open MM.Unif (Cfg Proper unifyH HCalls)

/-- The one unification that is needed for the stored proof `wp wp x idi idi`. -/
def ask : List Nat × List Nat := ([3, 0, 4, 3, 1, 4, 3], [3, 0, 2, 3, 1, 2, 3])

theorem ask_proper : Proper idC ask.1 ask.2 := ⟨by decide, by decide, by decide, by decide, by decide⟩

theorem idC_con : ∀ t, idC.mt < t → idC.isCon t = false := fun t ht => by
  have : (3 : Nat) < t := ht
  simp [idC]
  omega

def isFound : Out MM.Unif.ResH → Bool
  | .val (.found _) => true
  | _ => false

theorem two_of {σ : Nat → List Nat} (h : inst idEnv σ ask.1 = inst idEnv σ ask.2) : σ 4 = [2] := by
  have hs : idEnv.sep = 3 := by decide +kernel
  unfold inst at h
  rw [hs] at h
  have h : 3 :: 0 :: (σ 4 ++ 3 :: 1 :: (σ 4 ++ [3])) = [3, 0, 2, 3, 1, 2, 3] := by simpa [MM.Unif.inst, ask] using h
  have hl := congrArg List.length h
  simp at hl
  cases e : σ 4 with
  | nil => rw [e] at hl; simp at hl
  | cons a l =>
    cases l with
    | nil => rw [e] at h; simp at h; rw [h]
    | cons b l => rw [e] at hl; simp at hl; omega

theorem ask_answer {U : Unifier} (h : Realises idC U) : ∃ σ, U.hyps ask.1 ask.2 = some (σ, false) ∧ σ 4 = [2] := by
  have hu : U.Ok idEnv := h.ok (by decide +kernel) (by decide) idC_con
  have hs : idEnv.sep = 3 := by decide +kernel
  rcases h.hyps _ _ ask_proper with ⟨_, n, hn⟩ | ⟨σ, b, he, _⟩
  · have hf : isFound (unifyH true 60 idC 0 ask.1 ask.2) = true := by decide +kernel
    cases h1 : unifyH true 60 idC 0 ask.1 ask.2 with
    | val r =>
      rw [h1] at hf
      cases r with
      | found v => exact absurd (MM.Unif.C56_answers ask_proper (.first h1) v.sv (by simp)) (MM.Unif.C56_none ask_proper hn _)
      | none => cases hf
      | timeout => cases hf
    | ub => rw [h1] at hf; cases hf
    | bug k => rw [h1] at hf; cases hf
    | fuel => rw [h1] at hf; cases hf
  · have h2 := two_of (hu.sound _ _ σ b (by rw [hs]; decide) (by rw [hs]; decide) (by rw [hs]; decide) (by rw [hs]; decide) he).1
    cases b with
    | false => exact ⟨σ, he, h2⟩
    | true =>
      obtain ⟨τ, y, h3, _, hy, hm, hne⟩ := hu.again _ _ σ (by rw [hs]; decide) (by rw [hs]; decide) (by rw [hs]; decide) (by rw [hs]; decide) he
      rw [hs] at hy
      have : y = 4 := by
        simp [ask] at hm
        omega
      subst this
      exact absurd ((two_of h3).trans h2.symm) hne

/-- The unifier with that answer written out. -/
def askU (U : Unifier) (σ : Nat → List Nat) : Unifier where
  hyps := fun A B => if A = [3, 0, 4, 3, 1, 4, 3] ∧ B = [3, 0, 2, 3, 1, 2, 3] then some (fun z => if z = 4 then [2] else σ z, false) else U.hyps A B
  uniq := U.uniq

theorem askU_eq {U : Unifier} {σ : Nat → List Nat} (h : U.hyps ask.1 ask.2 = some (σ, false)) (h2 : σ 4 = [2]) : askU U σ = U := by
  have e : (fun z => if z = 4 then [2] else σ z) = σ := by
    funext z
    split
    · rename_i hz; rw [hz, h2]
    · rfl
  cases U with
  | mk hyps uniq =>
    unfold askU
    congr
    funext A B
    dsimp only
    split
    · rename_i hc
      rw [hc.1, hc.2, e]
      exact h.symm
    · rfl

def pipData (o : Out (Pip × Nat × Bool)) : Option (List Int × List (List Nat) × List (List Nat) × Bool) :=
  match o with
  | .val r => some (r.1.proof, r.1.target, r.1.source, r.2.2)
  | _ => none

set_option maxRecDepth 100000 in
theorem ask_start (U : Unifier) (σ : Nat → List Nat) : pipData (initProofStruct 5 idEnv (askU U σ) [3, 3, 9, 6, 6] 10) =
    some ([3, 3, 9, 6, 6], [[0, 2], [0, 2], [1, 2], [1, 2], [1, 2]], [[0, 2], [0, 2], [1, 2], [1, 2], [1, 2]], false) := by
  exact Eq.refl (some ([3, 3, 9, 6, 6], [[0, 2], [0, 2], [1, 2], [1, 2], [1, 2]], [[0, 2], [0, 2], [1, 2], [1, 2], [1, 2]], false))

/-- C75_minimize_ends_partial applies to the proof `wp wp x idi idi` of the example, with the unification functions of mmunif.c. -/
example : ∃ s U a, Accepted idSrc s ∧ MiniC idSrc s linLook (idX (envOf linLook idSrc s)) U 6 ∧ Here (idX (envOf linLook idSrc s)) U 5 a ∧ a.pip.proof = [3, 3, 9, 6, 6] ∧
    ((∃ M b, ∀ n, M ≤ n → minimizeProof (idX (envOf linLook idSrc s)) n U (fun _ _ _ => 0) false 6 a = .val b) ∨
      ∃ t k, Steps (idX (envOf linLook idSrc s)) U false 6 a t k ∧ t.err = true) := by
  obtain ⟨s, h, ho⟩ := idSrc_accepted
  have e : envOf linLook idSrc s = idEnv := pfEnv_eq ho
  obtain ⟨U, hR⟩ := realises_exists idC idC_con
  obtain ⟨σ, h1, h2⟩ := ask_answer hR
  have hs := ask_start U σ
  rw [askU_eq h1 h2] at hs
  have hm : MiniC idSrc s linLook (idX (envOf linLook idSrc s)) U 6 :=
    ⟨⟨⟨h, rfl, (show kindAt (kinds idSrc) 10 = .p by decide +kernel), (show 3 = (declToks idSrc).length by decide +kernel), idC_con, Nat.le_refl _, (show 2 ≤ 2 by decide)⟩,
      rfl, rfl, hR.ok (by rw [show (idX (envOf linLook idSrc s)).E = idEnv from e]; decide +kernel) (by decide) idC_con, (show 1 ≤ 6 ∧ 6 < 10 by decide)⟩,
      Or.inl (by decide +kernel), rfl, hR⟩
  cases hi : initProofStruct 5 idEnv U [3, 3, 9, 6, 6] 10 with
  | val r =>
    rw [hi] at hs
    simp only [pipData, Option.some.injEq, Prod.mk.injEq] at hs
    have hh : Here (idX (envOf linLook idSrc s)) U 5 ⟨r.1, r.2.1, r.2.2⟩ := by
      refine ⟨?_, hs.2.2.2, ?_⟩
      · show Run 5 (envOf linLook idSrc s) U 10 _
        rw [e]
        exact .start (by decide +kernel) hi
      · dsimp only
        rw [hs.1, hs.2.1, hs.2.2.1]
        intro i _ _
        rfl
    exact ⟨s, U, _, h, hm, hh, hs.1, C75_minimize_ends_partial hm hh⟩
  | ub => rw [hi] at hs; cases hs
  | bug k => rw [hi] at hs; cases hs
  | fuel => rw [hi] at hs; cases hs

end MM.Repl.Ex
