import Verif.Expl.Save
import Verif.Expl.Example
import Verif.Data.RenderExample
/-!
# Writing a concrete proof in the explicit format
-/
namespace MM.Expl
open MM.Veri MM.Pars MM.Proof MM.Lex MM.Spec MM.Data

theorem ex_save : nmbrCvtRToVStringX pfE [3, 4, 5, -1002, 5] 6 = .val "wp=wp wq=wq 1:wp=wi wq=1 th=wi".toList := by decide +kernel

theorem ex_targets : MM.Tree.targetHyp pfE [3, 4, 5, -1002, 5] 6 = .val [3, 4, 3, 4, 6] := by decide +kernel

/-- The hypotheses of C69 are met; here the text is read back after a line break and a comment have been added. -/
example : ∃ s, Accepted pfSrc s ∧
    parseProofTextX (envOf linLook pfSrc s) 100 6 5 ("wp=wp wq=wq\n 1:wp=wi $( x $) wq=1 th=wi ".toList ++ '$' :: '.' :: []) ("wp=wp wq=wq\n 1:wp=wi $( x $) wq=1 th=wi ".toList).length =
      .val ⟨pfRefs.map Ref.code, 0, 0⟩ := by
  obtain ⟨s, h, ho⟩ := pfSrc_accepted
  have e := pfEnv_eq (src := pfSrc) ho
  have := (C69_explicit_round_trip h linLook_ok pfLabels pf_labelChars (p := 6) (by decide) (pf_packed h ho) (out := "wp=wp wq=wq 1:wp=wi wq=1 th=wi".toList)
    (by rw [e]; exact ex_save)).2.2 "wp=wp wq=wq\n 1:wp=wi $( x $) wq=1 th=wi ".toList "wp=wp wq=wq\n 1:wp=wi   wq=1 th=wi ".toList [] 100 5 (by omega) ?_ (by decide +kernel)
  · exact ⟨s, h, this⟩
  · have h1 : Blank (" wq=1 th=wi ".toList ++ []) (" wq=1 th=wi ".toList ++ []) := blank_plain _ (by decide) .nil
    have h2 : Blank ('$' :: '(' :: (" x ".toList ++ '$' :: ')' :: (" wq=1 th=wi ".toList ++ []))) (' ' :: (" wq=1 th=wi ".toList ++ [])) := .comment cp_comment h1
    exact blank_plain "wp=wp wq=wq\n 1:wp=wi ".toList (by decide) h2

/-- The hypotheses of `C45_explicit_safe_partial` are met. -/
example : ∃ s, Accepted pfSrc s ∧ ∃ out, nmbrCvtRToVStringX (envOf linLook pfSrc s) (pfRefs.map Ref.code) 6 = .val out := by
  obtain ⟨s, h, ho⟩ := pfSrc_accepted
  refine ⟨s, h, C45_explicit_safe_partial h linLook_ok pfLabels pf_labelChars (p := 6) (by decide) (pf_packed h ho) ?_⟩
  intro i m h1 h2 he
  have hd : ∀ c ∈ srcLabel pfSrc i, c.isDigit = true := by
    rw [he]; intro c hc; exact Nat.isDigit_of_mem_toDigits (b := 10) (by decide) (by decide) hc
  have : ∀ i < 7, 1 ≤ i → srcLabel pfSrc i = [] ∨ ∃ c ∈ srcLabel pfSrc i, c.isDigit = false := by decide +kernel
  rcases this i (by have : pfSrc.length = 6 := by decide
                    omega) h1 with h | ⟨c, hc, hf⟩
  · rw [h] at he
    have := Nat.length_toDigits_pos (b := 10) (n := m)
    rw [← he] at this; simp at this
  · rw [hd c hc] at hf; cases hf

end MM.Expl
