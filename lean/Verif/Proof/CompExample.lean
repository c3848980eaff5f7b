import Verif.Proof.CompProps
import Verif.Proof.Example
/-!
# A compressed proof that meets the hypotheses of the theorems

The statement `th` of `Verif/Proof/Example.lean` with the proof `( wi ) ABCZ $( x $) DC`.
-/
namespace MM.Proof
open MM.Veri MM.Pars MM.Spec MM.Lex

def cpText : List Char := " ( wi ) ABCZ $( x $) DC ".toList
def cpLabs : List Name := [w "wi"]
def cpSteps : List CStep := [⟨⟨[], 0⟩, 0⟩, ⟨⟨[], 1⟩, 0⟩, ⟨⟨[], 2⟩, 1⟩, ⟨⟨[], 3⟩, 0⟩, ⟨⟨[], 2⟩, 0⟩]

theorem cp_chars : SourceChars cpText := by
  have : ∀ c ∈ cpText, printable c = true ∨ c.toNat ∈ [9, 10, 11, 12, 13, 32] := by decide
  exact this

theorem blank_plain : ∀ (l : List Char) {t u : List Char}, '$' ∉ l → Blank t u → Blank (l ++ t) (l ++ u)
  | [], _, _, _, h => h
  | c :: l, _, _, hc, h => by
    simp at hc
    exact .char c (Ne.symm hc.1) (blank_plain l hc.2 h)

theorem cp_comment : CommentText " x ".toList := by
  refine ⟨by decide, ?_⟩
  intro c hc; cases hc; decide

theorem cp_section : CompSection cpText cpLabs (codeText cpSteps) ("wi ) ABCZ $( x $) DC ".toList) := by
  have hB : Blank ("wi ) ABCZ $( x $) DC ".toList) ("wi ".toList ++ ')' :: " ABCZ   DC ".toList) := by
    have h1 : Blank (" DC ".toList ++ []) (" DC ".toList ++ []) := blank_plain _ (by decide) .nil
    have h2 : Blank ('$' :: '(' :: (" x ".toList ++ '$' :: ')' :: (" DC ".toList ++ []))) (' ' :: (" DC ".toList ++ [])) := .comment cp_comment h1
    exact blank_plain "wi ) ABCZ ".toList (by decide) h2
  refine ⟨" ".toList, " wi ".toList, " ABCZ   DC ".toList, ?_, by decide, by decide, by decide, by decide, by decide, fun h => (by cases h), ?_⟩
  · exact blank_plain " ( ".toList (by decide) hB
  · intro w' hw
    have : cpLabs.getLast? = some (w "wi") := rfl
    rw [this] at hw
    cases hw
    exact ⟨[' '], hB, by decide⟩

theorem cp_parse : parseProofText (pfEnv pfOut pfSrc) 100 6 (cpText ++ '$' :: '.' :: []) cpText.length = .val ⟨[3, 4, 5, -1002, 5], 0, 0⟩ := by decide +kernel

/-- The hypotheses of C39 (and C07, C11) are met. -/
example : ∃ s, Accepted pfSrc s ∧ ∃ labs code tail, CompSection cpText labs code tail ∧
    (¬ OldLooking tail → ∃ xs refs, code = codeText xs ∧ CompMeans pfSrc s 6 labs xs refs ∧ [3, 4, 5, -1002, 5] = refs.map Ref.code) := by
  obtain ⟨s, h, ho⟩ := pfSrc_accepted
  have e := pfEnv_eq (src := pfSrc) ho
  obtain ⟨b, u1, u2, hB, hb, _⟩ := cp_section
  exact ⟨s, h, C39_compressed_resolved (W := 100) (r := []) (res := ⟨[3, 4, 5, -1002, 5], 0, 0⟩) h linLook_ok (p := 6) (by decide) cp_chars hB hb
    (by rw [e]; exact cp_parse) rfl⟩

theorem cp_means {s : PState} (h : Accepted pfSrc s) (ho : s.out = pfOut) : CompMeans pfSrc s 6 cpLabs cpSteps pfRefs := by
  have hr : (s.stmt 6).reqHyp = [3, 4] := by unfold PState.stmt; rw [ho]; rfl
  have h5 : IsAssert pfSrc 5 := Or.inl (by decide)
  refine ⟨⟨[3, 4], [5], ?_, .cons ⟨by decide, Or.inr ⟨by decide, h5⟩⟩ .nil, rfl, ?_⟩, ?_⟩
  · rw [← hr]; exact mandList_req h (by decide)
  · intro k x hx
    match k with
    | 0 => cases hx; rfl
    | 1 => cases hx; rfl
    | 2 => cases hx; rfl
    | 3 => cases hx; rfl
    | 4 => cases hx; rfl
    | k + 5 => simp [cpSteps] at hx
  · intro k x ref hx hr h0
    match k with
    | 0 => cases hx; exact absurd rfl h0
    | 1 => cases hx; exact absurd rfl h0
    | 2 => cases hx; cases hr; exact ⟨5, rfl, h5⟩
    | 3 => cases hx; exact absurd rfl h0
    | 4 => cases hx; exact absurd rfl h0
    | k + 5 => simp [cpSteps] at hx

/-- The hypotheses of C08 that are particular to compressed proofs are met (those on `refs` are met by the example in `Verif/Proof/Example.lean`). -/
example : ∃ s, Accepted pfSrc s ∧ CompMeans pfSrc s 6 cpLabs cpSteps pfRefs ∧ (∀ x ∈ cpSteps, x.num.digs.length ≤ 1) ∧
    (∀ hs, MandList pfSrc s 6 hs → hs.length + cpText.length ≤ 100) := by
  obtain ⟨s, h, ho⟩ := pfSrc_accepted
  refine ⟨s, h, cp_means h ho, by decide, fun hs hh => ?_⟩
  have hr : (s.stmt 6).reqHyp = [3, 4] := by unfold PState.stmt; rw [ho]; rfl
  rw [mandList_unique hh (mandList_req h (by decide)), hr]
  decide

/-- C10: `?` and the empty proof are flagged. -/
example : parseProofText (pfEnv pfOut pfSrc) 100 6 "( wi ) AB?$.".toList 10 = .val ⟨[3, 4, -63], 3, 1⟩ := by decide +kernel
example : parseProofText (pfEnv pfOut pfSrc) 100 6 "( wi ) $.".toList 7 = .val ⟨[-63], 1, 1⟩ := by decide +kernel

end MM.Proof
