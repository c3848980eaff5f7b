import Verif.Iso.Unique
import Verif.Pfas.SessionExample
/-!
# C92: an example (the session example for C54): ASSIGN `mp` to the only step, then ASSIGN `wi` to its first hypothesis
-/
namespace MM.Iso.Ex
open MM.Veri MM.Proof MM.Data MM.Tree MM.Pfas MM.Pars MM.Spec MM.Byrep MM.Iso

def cmds : List PAct := [.assign 9 0, .assign 5 0]

theorem cmds_ok : ∀ c ∈ cmds, c.Ok sesEnv 19 := by
  intro c hc
  simp only [cmds, List.mem_cons, List.not_mem_nil, or_false] at hc
  rcases hc with rfl | rfl <;> (unfold PAct.Ok; decide +kernel)

theorem result : stOf (sesRun 19 [unk] cmds) =
    some ([unk, unk, 5, unk, unk, unk, 9], [[0, 10], [0, 11], [0, 9], [0, 8], [1, 9], [1, 2, 9, 3, 8, 4], [1, 6]], 4, false) := by decide +kernel

/-- What the two functions give for the steps. -/
def answers (o : Out St) : List (Option Nat × Option Nat) :=
  match o with
  | .val t => (List.range 7).map fun k => ((match checkDummyVarIsolation sesEnv t.pip k with | .val r => some r | _ => none), match getParentStep sesEnv t.pip k with | .val r => some r | _ => none)
  | _ => []

/-- The dummy variables of the hypotheses of `wi` are isolated, those of the hypotheses of `mp` are not, and the last step has none. -/
theorem all_answers : answers (sesRun 19 [unk] cmds) =
    [(some 1, some 2), (some 1, some 2), (some 2, some 6), (some 2, some 6), (some 2, some 6), (some 2, some 6), (some 0, some 6)] := by decide +kernel

/-- The theorems apply: all three answers occur, and the theorem says what they mean. -/
example : ∃ s t, Accepted sesSrc s ∧ Reach 5 (envOf linLook sesSrc s) sesU 19 t ∧
    (∃ js, HypSteps (envOf linLook sesSrc s) t.pip.proof 2 js ∧ 0 ∈ js) ∧
    (∃ q js, HypSteps (envOf linLook sesSrc s) t.pip.proof q js ∧ 0 ∈ js ∧ Apart (envOf linLook sesSrc s) t.pip 0 q js) ∧
    (∃ q js, HypSteps (envOf linLook sesSrc s) t.pip.proof q js ∧ 4 ∈ js ∧ ¬ Apart (envOf linLook sesSrc s) t.pip 4 q js) := by
  obtain ⟨s, h, ho⟩ := sesSrc_accepted
  have e : envOf linLook sesSrc s = sesEnv := pfEnv_eq ho
  have hr := result
  have ha := all_answers
  cases hses : sesRun 19 [unk] cmds <;> rw [hses] at hr ha
  · rename_i t
    simp only [stOf, Option.some.injEq, Prod.mk.injEq] at hr
    have hlen : t.pip.proof.length = 7 := by rw [hr.1]; rfl
    have hreach : Reach 5 (envOf linLook sesSrc s) sesU 19 t := by rw [e]; exact session_reach (by decide +kernel) cmds_ok hses
    have hU : sesU.Ok (envOf linLook sesSrc s) := by rw [e]; exact sesU_ok
    have ans : ∀ k v q, k < 7 → (answers (.val t))[k]? = some (some v, some q) → checkDummyVarIsolation sesEnv t.pip k = .val v ∧ getParentStep sesEnv t.pip k = .val q := by
      intro k v q hk hq
      unfold answers at hq
      simp only [List.getElem?_map, List.getElem?_range hk, Option.map_some, Option.some.injEq, Prod.mk.injEq] at hq
      obtain ⟨h1, h2⟩ := hq
      constructor
      · cases hc : checkDummyVarIsolation sesEnv t.pip k <;> rw [hc] at h1 <;> simp at h1
        rw [h1]
      · cases hc : getParentStep sesEnv t.pip k <;> rw [hc] at h2 <;> simp at h2
        rw [h2]
    have a0 := ans 0 1 2 (by decide) (by rw [ha]; rfl)
    have a4 := ans 4 2 6 (by decide) (by rw [ha]; rfl)
    refine ⟨s, t, h, hreach, ?_, ?_, ?_⟩
    · obtain ⟨q, q1, q2⟩ := C92_parent_step h (by decide) hU hreach (k := 0) (by omega)
      rw [e, a0.2] at q1
      obtain rfl := Out.val.inj q1
      rcases q2 with q2 | q2
      · omega
      · exact q2
    · obtain ⟨r, r1, _, _, r4⟩ := C92_isolation h (by decide) hU hreach (k := 0) (by omega)
      rw [e, a0.1] at r1
      obtain rfl := Out.val.inj r1
      rcases r4 (by decide) with r4 | ⟨q, js, r5, r6, r7⟩
      · omega
      · exact ⟨q, js, r5, r6, r7.mp rfl⟩
    · obtain ⟨r, r1, _, _, r4⟩ := C92_isolation h (by decide) hU hreach (k := 4) (by omega)
      rw [e, a4.1] at r1
      obtain rfl := Out.val.inj r1
      rcases r4 (by decide) with r4 | ⟨q, js, r5, r6, r7⟩
      · omega
      · exact ⟨q, js, r5, r6, fun hA => absurd (r7.mpr hA) (by decide)⟩
  all_goals cases hr

/-! ### What "isolated" does not mean

ASSIGN `wi` also to the first hypothesis of the other `wff` hypothesis of `mp`, then `LET VARIABLE $5 = "$3"`. -/

def cmds2 : List PAct := [.assign 9 0, .assign 5 0, .assign 5 3, .letVar 5 [10]]

theorem cmds2_ok : ∀ c ∈ cmds2, c.Ok sesEnv 19 := by
  intro c hc
  simp only [cmds2, List.mem_cons, List.not_mem_nil, or_false] at hc
  rcases hc with rfl | rfl | rfl | rfl <;> first | trivial | (unfold PAct.Ok; decide +kernel)

theorem result2 : stOf (sesRun 19 [unk] cmds2) =
    some ([unk, unk, 5, unk, unk, 5, unk, unk, 9], [[0, 10], [0, 11], [0, 9], [0, 10], [0, 13], [0, 8], [1, 9], [1, 2, 9, 3, 8, 4], [1, 6]], 6, false) := by decide +kernel

theorem answers2 : (answers (sesRun 19 [unk] cmds2))[0]? = some (some 1, some 2) := by decide +kernel

/-- C92: the comment "they will not occur outside of the subproof of the parent step" (mmpfas.c 2941–2942) is wrong: there are sessions in which the answer for step `k` is 1, but a step `j`
outside of the subproof (from `b`) of the step `q` of which step `k` proves a hypothesis has one of its dummy variables in its target. -/
theorem C92_isolated_may_occur_elsewhere : ∃ s t k q b j js, Accepted sesSrc s ∧ Reach 5 (envOf linLook sesSrc s) sesU 19 t ∧ t.err = false ∧
    checkDummyVarIsolation (envOf linLook sesSrc s) t.pip k = .val 1 ∧ HypSteps (envOf linLook sesSrc s) t.pip.proof q js ∧ k ∈ js ∧ IsSub (envOf linLook sesSrc s) t.pip.proof b q ∧
    ¬ (b ≤ j ∧ j ≤ q) ∧ Share (envOf linLook sesSrc s) t.pip k j := by
  obtain ⟨s, h, ho⟩ := sesSrc_accepted
  have e : envOf linLook sesSrc s = sesEnv := pfEnv_eq ho
  have hr := result2
  have ha := answers2
  cases hses : sesRun 19 [unk] cmds2 <;> rw [hses] at hr ha
  · rename_i t
    simp only [stOf, Option.some.injEq, Prod.mk.injEq] at hr
    have hlen : t.pip.proof.length = 9 := by rw [hr.1]; rfl
    have hreach : Reach 5 (envOf linLook sesSrc s) sesU 19 t := by rw [e]; exact session_reach (by decide +kernel) cmds2_ok hses
    have hU : sesU.Ok (envOf linLook sesSrc s) := by rw [e]; exact sesU_ok
    unfold answers at ha
    simp only [List.getElem?_map, List.getElem?_range (show 0 < 7 by decide), Option.map_some, Option.some.injEq, Prod.mk.injEq] at ha
    obtain ⟨h1, h2⟩ := ha
    have a1 : checkDummyVarIsolation sesEnv t.pip 0 = .val 1 := by
      cases hc : checkDummyVarIsolation sesEnv t.pip 0 <;> rw [hc] at h1 <;> simp at h1
      rw [h1]
    have a2 : getParentStep sesEnv t.pip 0 = .val 2 := by
      cases hc : getParentStep sesEnv t.pip 0 <;> rw [hc] at h2 <;> simp at h2
      rw [h2]
    rcases (C92_parent_iff h (by decide) hU hreach (k := 0) (by omega) 2).mp (by rw [e]; exact a2) with c | ⟨js, c1, c2⟩
    · omega
    obtain ⟨⟨b, s1, r1⟩, l1⟩ := c1
    refine ⟨s, t, 0, 2, b, 3, js, h, hreach, hr.2.2.2, by rw [e]; exact a1, ⟨⟨b, s1, r1⟩, l1⟩, c2, s1, by omega, 10, ?_⟩
    rw [e, hr.2.1]
    decide +kernel
  all_goals cases hr

/-- The exact conditions apply to it. -/
example : ∃ s t, Accepted sesSrc s ∧ Reach 5 (envOf linLook sesSrc s) sesU 19 t ∧ t.pip.proof.length = 7 ∧ checkDummyVarIsolation (envOf linLook sesSrc s) t.pip 0 = .val 1 ∧
    ∀ q js, HypSteps (envOf linLook sesSrc s) t.pip.proof q js → 0 ∈ js → Apart (envOf linLook sesSrc s) t.pip 0 q js := by
  obtain ⟨s, h, ho⟩ := sesSrc_accepted
  have e : envOf linLook sesSrc s = sesEnv := pfEnv_eq ho
  have hr := result
  have ha := all_answers
  cases hses : sesRun 19 [unk] cmds <;> rw [hses] at hr ha
  · rename_i t
    simp only [stOf, Option.some.injEq, Prod.mk.injEq] at hr
    have hlen : t.pip.proof.length = 7 := by rw [hr.1]; rfl
    have hreach : Reach 5 (envOf linLook sesSrc s) sesU 19 t := by rw [e]; exact session_reach (by decide +kernel) cmds_ok hses
    have hU : sesU.Ok (envOf linLook sesSrc s) := by rw [e]; exact sesU_ok
    have h1 : (answers (.val t))[0]? = some (some 1, some 2) := by rw [ha]; rfl
    unfold answers at h1
    simp only [List.getElem?_map, List.getElem?_range (show 0 < 7 by decide), Option.map_some, Option.some.injEq, Prod.mk.injEq] at h1
    have a1 : checkDummyVarIsolation (envOf linLook sesSrc s) t.pip 0 = .val 1 := by
      rw [e]
      have h1 := h1.1
      cases hc : checkDummyVarIsolation sesEnv t.pip 0 <;> rw [hc] at h1 <;> simp at h1
      rw [h1]
    exact ⟨s, t, h, hreach, hlen, a1, ((C92_isolated_iff h (by decide) hU hreach (k := 0) (by omega)).1.mp a1).2⟩
  all_goals cases hr

end MM.Iso.Ex
