import Verif.Step.Steps
import Verif.Step.Stmt
import Verif.Tree.Classify
import Verif.Tree.Example
/-!
# C88 for the proofs of the Proof Assistant, and concrete cases of C88 and C89
-/
namespace MM.Step
open MM.Vstr MM.Proof MM.Tree Forest

/-- **C88** (for proofs).  For every proof tree, complete or not, the flags of the essential steps exist and whatever is typed gives an error or names the step returned. -/
theorem C88_in_proof {E : Proof.Env} {t : Int} {f : Forest} (hH : HypsIn E) (hw : (tree t f).Wf E) :
    ∃ es, essential E (tree t f).flat = .val es ∧ es.length = (tree t f).flat.length ∧ ∀ (s : Str) (all : Bool), NoNul s → s.length ≤ 15 → '.' ∉ s →
      ∃ r, getStepNum (essential E (tree t f).flat) s (tree t f).flat all = .val r ∧
        (r = -1 ∨ Names (tree t f).flat.length (opens es (tree t f).flat) all (upper s) r) := by
  obtain ⟨es, e1, e2, _⟩ := C34_essential_iff hH hw
  refine ⟨es, e1, e2, fun s all hs hl hd => ?_⟩
  rw [e1]
  exact C88_step_total hs e2 all hl hd

/-- a proof with three unknown steps, the first of which (a `$f`) is not essential -/
def exP : List Int := [-63, -63, 5, 1, -63, 5]

example : essential exE [-63, -63, 5] = .val [0, 1, 1] := by decide +kernel
/-- flags as if statement 6 used both -/
def exEs : List Int := [0, 1, 1, 0, 1, 1]
example : opens exEs exP = [2, 5] := by decide
example : getStepNum (.val exEs) "first".toList exP false = .val 2 := by decide +kernel
example : getStepNum (.val exEs) "la".toList exP false = .val 5 := by decide +kernel
example : getStepNum (.val exEs) "+1".toList exP false = .val 5 := by decide +kernel
example : getStepNum (.val exEs) "-1".toList exP false = .val 2 := by decide +kernel
example : getStepNum (.val exEs) "-2".toList exP false = .val (-1) := by decide +kernel
example : getStepNum (.val exEs) "+-5".toList exP false = .val (-1) := by decide +kernel
example : getStepNum (.val exEs) "6".toList exP false = .val 6 := by decide +kernel
example : getStepNum (.val exEs) "06".toList exP false = .val (-1) := by decide +kernel
example : getStepNum (.val exEs) "7".toList exP false = .val (-1) := by decide +kernel
example : getStepNum (.val exEs) "all".toList exP true = .val 0 := by decide +kernel
example : getStepNum (.val exEs) "all".toList exP false = .val (-1) := by decide +kernel
example : getRelStepNums (.val exEs) exP = .val [1, -1, 3, 4, 0, 6] := by decide +kernel
example : getStepNum (.val exEs) ('-' :: Nat.toDigits 10 1) exP false = .val 2 :=
  (C88_round_trip (es := exEs) (proof := exP) rfl false (rel := [1, -1, 3, 4, 0, 6]) (by decide +kernel) (m := 2) (k := 1) (by decide) (by decide) (by decide)).1
example : ∃ es, essential exE (tree 5 exCh).flat = .val es ∧ es.length = (tree 5 exCh).flat.length ∧ ∀ (s : Str) (all : Bool), NoNul s → s.length ≤ 15 → '.' ∉ s →
      ∃ r, getStepNum (essential exE (tree 5 exCh).flat) s (tree 5 exCh).flat all = .val r ∧
        (r = -1 ∨ Names (tree 5 exCh).flat.length (opens es (tree 5 exCh).flat) all (upper s) r) :=
  C88_in_proof ex_hyps ex_wf

/-- Labels `wa` ($f 1), `h1` ($e 2), `axa` ($a 3), `axb` ($a 4), `h2` ($e 5), `th` ($p 6, with the hypothesis 5), `axc` ($a 7) -/
def exM : Match.MEnv where
  isVar := fun _ => false
  sep := 0
  stmt := fun i => match i with
    | 1 => { kind := .f }
    | 2 => { kind := .e }
    | 3 => { kind := .a, reqHyp := [1, 2] }
    | 4 => { kind := .a, reqHyp := [1] }
    | 5 => { kind := .e }
    | 6 => { kind := .p, reqHyp := [1, 5] }
    | 7 => { kind := .a }
    | _ => {}
  lab := fun i => match i with
    | 1 => "wa".toList
    | 2 => "h1".toList
    | 3 => "axa".toList
    | 4 => "axb".toList
    | 5 => "h2".toList
    | 6 => "th".toList
    | 7 => "axc".toList
    | _ => []
  n := 7
  look := fun _ _ => none
  pink := fun _ => 0
  prove := 6
  changed := fun _ => false
  val := fun _ => 0

/-- the request of ASSIGN while `th` is being proved -/
def exA (name : String) : Args := ⟨name.toList, 1, 6, true, true, true, true, true, true⟩

example : getStatementNum exM (exA "axb") = .val (.silent, 4) := by decide +kernel
example : getStatementNum exM (exA "ax*") = .val (.two 3 4, -1) := by decide +kernel
example : getStatementNum exM (exA "h*") = .val (.silent, 5) := by decide +kernel
example : getStatementNum exM (exA "h1") = .val (.notFound, -1) := by decide +kernel
example : getStatementNum exM (exA "axc") = .val (.earlier, -1) := by decide +kernel
example : getStatementNum exM { exA "*" with efOnly := false } = .val (.many 5 1 2, -1) := by decide +kernel
example : getStatementNum exM ⟨"ax*".toList, 4, 8, true, true, false, false, false, false⟩ = .val (.silent, 4) := by decide +kernel
/-- `efOnlyForMaxStmt` with a `maxStmt` beyond the last statement -/
theorem C89_bug247 : getStatementNum exM { exA "axb" with maxStmt := 8 } = .bug 247 := by decide +kernel

/-- the labels that fit -/
def exFits (name : String) (s : Nat) : Bool :=
  match Match.matchesList exM (exM.lab s) name.toList '*' '?' with
  | .val b => b
  | _ => false

theorem ex_fits : Fits exM (exA "ax*") (exFits "ax*") := by
  intro s h1 h2
  refine ⟨fun _ => ?_, fun h => absurd (by decide) h⟩
  have h3 : ∀ i : Fin 8, Match.matchesList exM (exM.lab i.1) "ax*".toList '*' '?' = .val (exFits "ax*" i.1) := by decide +kernel
  exact h3 ⟨s, Nat.lt_succ_of_le h2⟩

example : ∃ msg, getStatementNum exM (exA "ax*") = .val (msg,
    if (exA "ax*").unique = true ∧ IsPattern (exA "ax*").name then answer (selected exM (exA "ax*") (exFits "ax*") 1 6)
    else answer ((selected exM (exA "ax*") (exFits "ax*") 1 6).take 1)) :=
  C89_statement exM (exA "ax*") ex_fits (by decide) (by decide)

end MM.Step
