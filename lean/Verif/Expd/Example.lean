import Verif.Expd.Sound
import Verif.Tree.VerdictExample

/-!
# A database that meets the hypotheses of C58

```
$c W ( > ) $.  $v p q $.  wp $f W p $.  wq $f W q $.  wi $a W ( p > q ) $.
th $p W ( ( p > q ) > ( p > q ) ) $= ( wi ) ABCZDC $.
th2 $p W ( ( q > p ) > ( q > p ) ) $= ( th ) BAC $.
```
-/
namespace MM.Expd
open MM.Veri MM.Pars MM.Spec MM.Proof MM.Data MM.Tree MM.Pfas MM.Match MM.Vstr

def exSrc : List Src :=
  [st .c "" ['W', '(', '>', ')'], st .v "" ['p', 'q'], st .f "wp" ['W', 'p'], st .f "wq" ['W', 'q'],
   st .a "wi" ['W', '(', 'p', '>', 'q', ')'],
   st .p "th" ['W', '(', '(', 'p', '>', 'q', ')', '>', '(', 'p', '>', 'q', ')', ')'],
   st .p "th2" ['W', '(', '(', 'q', '>', 'p', ')', '>', '(', 'q', '>', 'p', ')', ')']]

def exOut : List Stmt := [
  {}, { kind := .c, math := [0, 1, 2, 3] }, { kind := .v, math := [4, 5] }, { kind := .f, math := [0, 4] }, { kind := .f, math := [0, 5] },
  { kind := .a, math := [0, 1, 4, 2, 5, 3], reqHyp := [3, 4], reqVars := [4, 5] },
  { kind := .p, math := [0, 1, 1, 4, 2, 5, 3, 2, 1, 4, 2, 5, 3, 3], reqHyp := [3, 4], reqVars := [4, 5] },
  { kind := .p, math := [0, 1, 1, 5, 2, 4, 3, 2, 1, 5, 2, 4, 3, 3], reqHyp := [3, 4], reqVars := [5, 4] }]

theorem exSrc_accepted : ∃ s, Accepted exSrc s ∧ s.out = exOut := accepted_of_result (by decide +kernel)

def exSec (i : Nat) : List Char := if i = 6 then " ( wi ) ABCZDC $.".toList else " ( th ) BAC $.".toList
def exLen (i : Nat) : Nat := if i = 6 then 15 else 12
def exPrf (i : Nat) : List Int := if i = 6 then [3, 4, 5, -1002, 5] else [4, 3, 6]

theorem ex_fetched : Fetched (pfEnv exOut exSrc) 100 exSec exLen exPrf := by
  intro i hi
  have h8 : i = 6 ∨ i = 7 := by
    have hlt : i < 8 := by
      rcases Nat.lt_or_ge i 8 with h | h
      · exact h
      · have e : (pfEnv exOut exSrc).stmt i = {} := by
          show exOut.getD i {} = {}
          rw [List.getD_eq_getElem?_getD, List.getElem?_eq_none (by show 8 ≤ i; exact h)]; rfl
        rw [e] at hi; cases hi
    have : ∀ i < 8, ((pfEnv exOut exSrc).stmt i).kind = .p → i = 6 ∨ i = 7 := by decide +kernel
    exact this i hlt hi
  rcases h8 with rfl | rfl
  · exact ⟨⟨[3, 4, 5, -1002, 5], 0, 0⟩, by decide +kernel, rfl⟩
  · exact ⟨⟨[4, 3, 6], 0, 0⟩, by decide +kernel, rfl⟩

theorem ex_formed : Formed (pfEnv exOut exSrc) 7 [4, 3, 6] := by
  refine ⟨by decide +kernel, ?_⟩
  intro x hx
  have : x = 4 ∨ x = 3 ∨ x = 6 := by simpa using hx
  rcases this with rfl | rfl | rfl <;> unfold Legal <;> decide +kernel

def exM (E : Env) : MEnv := { E with pink := fun _ => 0, prove := 7, changed := fun _ => false, val := fun _ => 0 }

theorem ex_labels : ∀ i, '*' ∉ srcLabel exSrc i := by
  intro i hm
  have h : ∀ i < 8, '*' ∉ srcLabel exSrc i := by decide +kernel
  rcases Nat.lt_or_ge i 8 with h1 | h1
  · exact h i h1 hm
  · have e : srcLabel exSrc i = [] := by
      unfold srcLabel
      have : exSrc.length = 7 := rfl
      simp [List.getD_eq_getElem?_getD, List.getElem?_eq_none (show exSrc.length ≤ i - 1 by omega)]
    rw [e] at hm; cases hm

theorem ex_result : expandCmd (exM (pfEnv exOut exSrc)) 40 exPrf "t?".toList 7 [4, 3, 6] = .val (some [4, 3, 5, 4, 3, 5, 5]) := by decide +kernel

/-- The hypotheses of C58 are met: `EXPAND t?` while proving `th2`. -/
example : ∃ s, Accepted exSrc s ∧ ∃ N, ∀ fuel, N ≤ fuel → ∃ r, expandCmd (exM (envOf linLook exSrc s)) fuel exPrf "t?".toList 7 [4, 3, 6] = .val r ∧ Verified (toDb exSrc s) 7 (r.getD [4, 3, 6]) := by
  obtain ⟨s, h, ho⟩ := exSrc_accepted
  have e : envOf linLook exSrc s = pfEnv exOut exSrc := pfEnv_eq ho
  have hdb : toDb exSrc s = (pfEnv exOut exSrc).toDb := by rw [← e]; rfl
  refine ⟨s, h, C58_expanded_proof_is_correct h linLook_ok (W := 100) (sec := exSec) (len := exLen) (prf := exPrf) (M := exM (envOf linLook exSrc s)) (by rw [e]; exact ex_fetched) rfl (by decide) ?_ ?_
    (by rw [e]; exact ex_formed) (by decide) ?_ ?_⟩
  · have : split "t?".toList = ["t?".toList] := by decide
    rw [this]
    intro x hx
    rw [List.mem_singleton] at hx; subst hx
    refine ⟨by decide, by decide, by decide, by decide, by decide⟩
  · intro i; exact ex_labels i
  · rw [hdb]; exact ⟨⟨0, 0, []⟩, by decide +kernel, rfl, rfl⟩
  · intro i hi hk _
    have : i = 6 := by
      have h2 : ∀ i < 7, kindAt (kinds exSrc) i = .p → i = 6 := by decide +kernel
      exact h2 i hi hk
    subst this
    have hm := (C12_mandatory_hyps h (i := 6) (Or.inr (by decide))).2.1
    have hr : (s.stmt 6).reqHyp = [3, 4] := by unfold PState.stmt; rw [ho]; rfl
    refine ⟨by rw [hdb]; exact ⟨⟨0, 0, []⟩, by decide +kernel, rfl, rfl⟩, ?_⟩
    intro j hj hkj
    refine (hm j).1 ?_
    rw [hr]
    have hj' : (j : Int) = 3 ∨ (j : Int) = 4 ∨ (j : Int) = 5 ∨ (j : Int) = -1002 ∨ (j : Int) = 5 := by simpa [exPrf] using hj
    have hj2 : j = 3 ∨ j = 4 ∨ j = 5 := by omega
    rcases hj2 with rfl | rfl | rfl
    · decide
    · decide
    · exfalso; revert hkj; decide

/-! ### A theorem whose proof has a dummy variable

```
$c W T $.  $v p q $.  wp $f W p $.  wq $f W q $.  b $a T q $.  ${ c.1 $e T q $.  c $a T p $. $}
t $p T p $= wp wq wq b c $.
t2 $p T p $= wp t $.
```
-/

def duOut : List Stmt := [
  {}, { kind := .c, math := [0, 1] }, { kind := .v, math := [2, 3] }, { kind := .f, math := [0, 2] }, { kind := .f, math := [0, 3] },
  { kind := .a, math := [1, 3], reqHyp := [4], reqVars := [3] }, { kind := .lb }, { kind := .e, math := [1, 3] },
  { kind := .a, math := [1, 2], reqHyp := [3, 4, 7], reqVars := [2, 3] }, { kind := .rb },
  { kind := .p, math := [1, 2], reqHyp := [3], optHyp := [4], reqVars := [2], optVars := [3] },
  { kind := .p, math := [1, 2], reqHyp := [3], optHyp := [4], reqVars := [2], optVars := [3] }]

def duSrc : List Src :=
  [st .c "" ['W', 'T'], st .v "" ['p', 'q'], st .f "wp" ['W', 'p'], st .f "wq" ['W', 'q'], st .a "b" ['T', 'q'], st .lb "" [],
   st .e "c.1" ['T', 'q'], st .a "c" ['T', 'p'], st .rb "" [], st .p "t" ['T', 'p'], st .p "t2" ['T', 'p']]

/-- The proviso of `C58_expanded_proof_is_correct` on dummy variables is needed: both proofs are correct, but the expanded proof has unknown steps. -/
theorem C58_dummy_becomes_unknown : ∃ s, Accepted duSrc s ∧ Verified (toDb duSrc s) 10 [3, 4, 4, 5, 8] ∧ Verified (toDb duSrc s) 11 [3, 10] ∧
    expandProof (envOf linLook duSrc s) 40 (fun _ => [3, 4, 4, 5, 8]) [3, 10] 10 = .val [3, unk, unk, 5, 8] ∧ ¬ Verified (toDb duSrc s) 11 [3, unk, unk, 5, 8] := by
  obtain ⟨s, h, ho⟩ : ∃ s, Accepted duSrc s ∧ s.out = duOut := accepted_of_result (by decide +kernel)
  have e : envOf linLook duSrc s = pfEnv duOut duSrc := pfEnv_eq ho
  have hdb : toDb duSrc s = (pfEnv duOut duSrc).toDb := by rw [← e]; rfl
  refine ⟨s, h, ?_⟩
  rw [e, hdb]
  refine ⟨⟨⟨0, 0, []⟩, by decide +kernel, rfl, rfl⟩, ⟨⟨0, 0, []⟩, by decide +kernel, rfl, rfl⟩, by decide +kernel, ?_⟩
  rintro ⟨out, h1, h2, _⟩
  have h3 : verifyProof (pfEnv duOut duSrc).toDb 11 [3, unk, unk, 5, 8] 0 0 = .val ⟨1, 0, []⟩ := by decide +kernel
  rw [h3] at h1
  cases h1
  cases h2

end MM.Expd
