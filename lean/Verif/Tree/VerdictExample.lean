import Verif.Tree.Verdict
import Verif.Data.CompressExample
/-!
# A concrete case of C21 (save and read back) and C47

The proof `wp wq wi wp wq wi wi` of `th` in `Verif/Proof/Example.lean`.
-/
namespace MM.Tree
open MM.Veri MM.Pars MM.Spec MM.Proof MM.Data

def pfSteps : List Nat := [3, 4, 5, 3, 4, 5, 5]

theorem pf_plain {s : PState} (h : Accepted pfSrc s) (ho : s.out = pfOut) : PlainProof pfSrc s 6 pfSteps := by
  have hr : (s.stmt 6).reqHyp = [3, 4] := by unfold PState.stmt; rw [ho]; rfl
  have hm := (mandList_req h (p := 6) (by decide)).2
  rw [hr] at hm
  have hdb : toDb pfSrc s = (pfEnv pfOut pfSrc).toDb := by rw [← pfEnv_eq ho]; rfl
  refine ⟨?_, ?_⟩
  · intro j hj
    have hj' : j = 3 ∨ j = 4 ∨ j = 5 := by simp [pfSteps] at hj; omega
    rcases hj' with rfl | rfl | rfl
    · exact Or.inl ((hm 3).1 (by simp))
    · exact Or.inl ((hm 4).1 (by simp))
    · exact Or.inr (Or.inr ⟨by decide, Or.inl (by decide)⟩)
  · rw [hdb]
    have d1 : Depth (pfEnv pfOut pfSrc).toDb ([] ++ [3]) 1 := .push .nil (Or.inr (Or.inr ⟨by decide, Or.inr (by decide)⟩))
    have d2 : Depth (pfEnv pfOut pfSrc).toDb ([3] ++ [4]) 2 := .push d1 (Or.inr (Or.inr ⟨by decide, Or.inr (by decide)⟩))
    have d3 : Depth (pfEnv pfOut pfSrc).toDb ([3, 4] ++ [5]) 1 := .use d2 (by decide) (Or.inl (by decide)) (by decide)
    have d4 : Depth (pfEnv pfOut pfSrc).toDb ([3, 4, 5] ++ [3]) 2 := .push d3 (Or.inr (Or.inr ⟨by decide, Or.inr (by decide)⟩))
    have d5 : Depth (pfEnv pfOut pfSrc).toDb ([3, 4, 5, 3] ++ [4]) 3 := .push d4 (Or.inr (Or.inr ⟨by decide, Or.inr (by decide)⟩))
    have d6 : Depth (pfEnv pfOut pfSrc).toDb ([3, 4, 5, 3, 4] ++ [5]) 2 := .use d5 (by decide) (Or.inl (by decide)) (by decide)
    exact .use d6 (by decide) (Or.inl (by decide)) (by decide)

theorem pf_plain_verified {s : PState} (ho : s.out = pfOut) : Verified (toDb pfSrc s) 6 (pfSteps.map Int.ofNat) := by
  have hdb : toDb pfSrc s = (pfEnv pfOut pfSrc).toDb := by rw [← pfEnv_eq ho]; rfl
  rw [hdb]
  exact ⟨⟨0, 0, []⟩, by decide +kernel, rfl, rfl⟩

theorem pf_squish : squish (pfEnv pfOut pfSrc) (pfSteps.map Int.ofNat) = .val [3, 4, 5, -1002, 5] := by decide +kernel

/-- The hypotheses of C21_save_read_back are met. -/
example : ∃ s q', Accepted pfSrc s ∧ parseProofText (envOf linLook pfSrc s) 100 6 ("( wi ) ABCZDC".toList ++ '$' :: '.' :: []) 13 = .val ⟨q', 0, 0⟩ ∧
    unsquish (envOf linLook pfSrc s) 10 q' = .val (pfSteps.map Int.ofNat) := by
  obtain ⟨s, h, ho⟩ := pfSrc_accepted
  have e := pfEnv_eq (src := pfSrc) ho
  obtain ⟨q, h1, _, h3⟩ := C21_save_read_back (p := 6) (old := false) (width := 79) (indent := 4) (fuel := 10) (fuel2 := 10) h linLook_ok pfLabels pf_labelChars (by decide) (pf_plain h ho)
    (fun hs hh => by rw [pf_req h ho hh]; decide) (Or.inr (by decide)) (by decide)
  rw [e, pf_squish] at h1
  injection h1 with h1
  subst h1
  obtain ⟨q', h4, h5⟩ := h3 "( wi ) ABCZDC".toList (by rw [e]; exact pf_compress false) 100 (fun hs hh => by rw [pf_req h ho hh]; decide) (by decide) []
  exact ⟨s, q', h, h4, h5⟩

/-- The hypotheses of C47 are met. -/
example : ∃ s res v, Accepted pfSrc s ∧ parseProofText (envOf linLook pfSrc s) 100 6 ("( wi ) ABCZDC".toList ++ '$' :: '.' :: []) 13 = .val res ∧
    verifyProof (toDb pfSrc s) 6 res.proof res.ret res.ec = .val v ∧ v.ret = 0 ∧ v.msgs = [] := by
  obtain ⟨s, h, ho⟩ := pfSrc_accepted
  have e := pfEnv_eq (src := pfSrc) ho
  obtain ⟨q, h1, h3⟩ := C47_saved_proof_is_accepted (p := 6) (old := false) (width := 79) (indent := 4) (fuel := 10) h linLook_ok pfLabels pf_labelChars (by decide) (pf_plain h ho)
    (pf_plain_verified ho) (fun hs hh => by rw [pf_req h ho hh]; decide) (Or.inr (by decide))
  rw [e, pf_squish] at h1
  injection h1 with h1
  subst h1
  obtain ⟨res, v, h4, _, _, h5⟩ := h3 "( wi ) ABCZDC".toList (by rw [e]; exact pf_compress false) 100 (fun hs hh => by rw [pf_req h ho hh]; decide) (by decide) []
  exact ⟨s, res, v, h, h4, h5⟩

end MM.Tree
