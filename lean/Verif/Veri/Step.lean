import Verif.Veri.Verify
import Mathlib.Data.List.Perm.Subperm
/-! # One assertion step, with possibly unknown hypotheses -/
namespace MM.Veri
open MM.Spec

theorem schemeHyps_length : ∀ {hyps insts : List (List Nat)}, hyps.length = insts.length →
    (schemeHyps hyps insts).length = insts.length
  | [], [], _ => rfl
  | h :: hs, i :: is, hl => by simp [schemeHyps, schemeHyps_length (hyps := hs) (insts := is) (by simpa using hl)]

theorem schemeHyps_mem : ∀ {hyps insts : List (List Nat)} {x}, x ∈ schemeHyps hyps insts → x = [] ∨ x ∈ hyps
  | [], [], _, h => by simp [schemeHyps] at h
  | [], _ :: _, _, h => by simp [schemeHyps] at h
  | _ :: _, [], _, h => by simp [schemeHyps] at h
  | a :: hs, i :: is, x, h => by
    simp only [schemeHyps, List.mem_cons] at h
    rcases h with h | h
    · split at h
      · exact Or.inl h
      · exact Or.inr (by simp [h])
    · rcases schemeHyps_mem h with h | h
      · exact Or.inl h
      · exact Or.inr (by simp [h])

theorem unifies_schemeHyps {isVar : Nat → Bool} {σ} : ∀ {hyps insts : List (List Nat)},
    hyps.length = insts.length →
    (Unifies isVar σ (schemeHyps hyps insts) insts ↔ UnifiesKnown isVar σ hyps insts)
  | [], [], _ => by simp [Unifies, schemeHyps, UnifiesKnown]
  | a :: hs, i :: is, hl => by
    have ih := unifies_schemeHyps (isVar := isVar) (σ := σ) (hyps := hs) (insts := is) (by simpa using hl)
    unfold Unifies at ih ⊢
    simp only [schemeHyps, List.map_cons, List.cons.injEq, ih]
    constructor
    · rintro ⟨h1, h2⟩ j h k hj hk hne
      cases j with
      | zero =>
        simp at hj hk; subst hj hk
        rwa [if_neg hne] at h1
      | succ j => simp at hj hk; exact h2 j h k hj hk hne
    · intro H
      refine ⟨?_, fun j h k hj hk hne => H (j + 1) h k (by simpa using hj) (by simpa using hk) hne⟩
      by_cases e : i = []
      · rw [if_pos e, e]; rfl
      · rw [if_neg e]; exact H 0 a i rfl rfl e

/-- `assignVar` as `verifyProof` calls it, on an assertion with a proper frame. -/
theorem GoodFrame.assignUnk {db : Db} {i : Nat} (h : GoodFrame db i) (hs : db.isVar db.sep = false) {insts}
    (hf : SepFree db.sep insts) (hl : (hypsOf db i).length = insts.length) (proved step ec : Nat) :
    (insts.any (fun i => i = []) = true ∧
      assignVar db (bigStr db.sep (schemeHyps (hypsOf db i) insts)) (bigStr db.sep insts) i proved step
        (insts.any (fun i => i = [])) ec = .val ⟨[], ec, []⟩) ∨
    ((∀ t ∈ (db.stmt i).reqVars, VarIn db.isVar (schemeHyps (hypsOf db i) insts) t) ∧
    AssignSpec db (schemeHyps (hypsOf db i) insts) insts i proved step (insts.any (fun i => i = [])) ec
      (assignVar db (bigStr db.sep (schemeHyps (hypsOf db i) insts)) (bigStr db.sep insts) i proved step
        (insts.any (fun i => i = [])) ec)) := by
  have hb : BigPre db.toToks (schemeHyps (hypsOf db i) insts) insts := by
    refine ⟨hs, ?_, hf, schemeHyps_length hl⟩
    intro x hx
    rcases schemeHyps_mem hx with rfl | hx
    · simp
    · exact h.hypFree x hx
  by_cases hc : (mkCtx db.toToks (schemeHyps (hypsOf db i) insts) insts).vars.length = (db.stmt i).reqVars.length
  · right
    have hsub : (mkCtx db.toToks (schemeHyps (hypsOf db i) insts) insts).vars ⊆ (db.stmt i).reqVars := by
      intro t ht
      rw [mem_vars_iff hb] at ht
      obtain ⟨hv, g, hg, htg⟩ := ht
      rcases schemeHyps_mem hg with rfl | hg
      · simp at htg
      · exact (h.vars t).mpr ⟨hv, g, hg, htg⟩
    have hperm := (List.subperm_of_subset (nodup_extractVars _ _) hsub).perm_of_length_le (Nat.le_of_eq hc.symm)
    have hall : ∀ t ∈ (db.stmt i).reqVars, VarIn db.isVar (schemeHyps (hypsOf db i) insts) t := by
      intro t ht
      exact (mem_vars_iff hb).mp (hperm.mem_iff.mpr ht)
    refine ⟨hall, ?_⟩
    apply assignVar_spec hb
    · exact hc
    · intro t ht hv; exact hall t (h.mathVars t ht hv)
    · intro pr hp; exact ⟨hall _ (h.disjVars pr hp).1, hall _ (h.disjVars pr hp).2⟩
  · left
    have hunk : insts.any (fun i => i = []) = true := by
      by_contra hcon
      have hcon' : insts.any (fun i => i = []) = false := Bool.not_eq_true _ ▸ hcon
      have hk : ∀ x ∈ insts, x ≠ [] := by
        intro x hx e
        have := List.any_eq_false.mp hcon' x hx
        simp [e] at this
      rw [schemeHyps_known hl hk] at hc hb
      exact hc (h.varsLen hb)
    refine ⟨hunk, ?_⟩
    unfold assignVar assignCtx
    dsimp only
    rw [if_pos (by exact hc), if_pos hunk]

/-- The formulas on the stack that an assertion with `m` hypotheses is applied to. -/
def argsOf (st : VState) (m : Nat) : List (List Nat) :=
  (st.stack.take m).reverse.map (fun k => st.math.getD k [])

/-- `verifyStep` at an assertion. -/
theorem verifyStep_ass {db : Db} {proved n : Nat} {st : VState} {i : Nat}
    (hk : (db.stmt i).kind = .a ∨ (db.stmt i).kind = .p) :
    verifyStep db proved n st (i : Int) =
      (if (hypsOf db i).length > st.stack.length then (.ub : Out VState) else do
      let r ← assignVar db (bigStr db.sep (schemeHyps (hypsOf db i) (argsOf st (hypsOf db i).length)))
              (bigStr db.sep (argsOf st (hypsOf db i).length))
              i proved st.math.length ((argsOf st (hypsOf db i).length).any (fun i => i = [])) st.ec
      .val { ret := if r.result = [] ∧ (argsOf st (hypsOf db i).length).any (fun i => i = []) = false then 2 else st.ret
             ec := r.ec
             msgs := st.msgs ++ r.msgs
             stack := st.math.length :: st.stack.drop (hypsOf db i).length
             math := st.math ++ [r.result] }) := by
  have e : (hypsOf db i).length = (db.stmt i).reqHyp.length := by simp [hypsOf]
  unfold verifyStep argsOf
  dsimp only
  rw [if_neg (by omega), if_neg (by omega)]
  simp only [Int.toNat_natCast]
  rcases hk with hk | hk <;> rw [hk, e] <;> rfl

end MM.Veri
