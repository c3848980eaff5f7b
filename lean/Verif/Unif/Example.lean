import Verif.Unif.Props
/-!
# Examples for the properties of `unify`
-/
namespace MM.Unif.Ex

/-- Tokens: 0 `|-`, 1 `(`, 2 `->`, 3 `)`, 4 `p`, 5 `q`, 6 the separator; 7, 8, ... unknown variables.  The axioms are `wff ( p -> q )` and `|- ( p -> q )` (with
one token 0 for the type codes). -/
def C : Cfg where
  mt := 6
  isCon := fun t => decide (t < 4)
  name := fun t => ["|-".toList, "(".toList, "->".toList, ")".toList, "p".toList, "q".toList, "$|$".toList].getD t "?".toList
  axs := [[0, 1, 4, 2, 5, 3]]
  min := 1
  maxTrials := 100000

/-- `|- ( $1 -> ( $2 -> $1 ) )` -/
def A : List Nat := [0, 1, 7, 2, 1, 8, 2, 7, 3, 3]

/-- `|- ( ( p -> q ) -> ( q -> ( p -> q ) ) )` -/
def B : List Nat := [0, 1, 1, 4, 2, 5, 3, 2, 1, 5, 2, 1, 4, 2, 5, 3, 3, 3]

theorem hK : ∀ t, C.mt < t → C.isCon t = false := by
  intro t h
  simp only [C] at h ⊢
  simp; omega

theorem proper : Proper C A B := ⟨by decide, by decide, by decide, by decide, by decide⟩

def found (r : Out Res) : Option SV :=
  match r with
  | .val (.found v) => some v
  | _ => none

/-- The first call finds `$1 = ( p -> q )`, `$2 = q`. -/
example : (found (unify 100 C 0 A B)).map (fun v => (v.unified, makeSubst C v [0, 8, 7], makeSubst C v [9])) =
    some (B, .val ([0, 5, 1, 4, 2, 5, 3], false), .val ([9], true)) := by decide +kernel

/-- The second call finds nothing. -/
example : (found (unify 100 C 0 A B)).map (fun v => unifyNext 100 C A B v) = some (.val .none) := by decide +kernel

theorem calls_one : ∃ v, Calls C A B (· = 0) v := by
  cases h : found (unify 100 C 0 A B) with
  | none => exact absurd h (by decide +kernel)
  | some v =>
    refine ⟨v, .first (n := 100) (t := 0) rfl ?_⟩
    unfold found at h
    split at h
    · rename_i w hw; cases h; exact hw
    · cases h

/-- The hypotheses of `C48_unify_sound` hold for it. -/
example : ∃ v : SV, ∃ σ : Nat → List Nat, inst C.mt σ A = v.unified ∧ inst C.mt σ B = v.unified := by
  obtain ⟨v, hv⟩ := calls_one
  obtain ⟨σ, _, h1, h2, _⟩ := C48_unify_sound hK proper hv
  exact ⟨v, σ, h1, h2⟩

example : ∃ N r, (∀ n, N ≤ n → unify n C 1 A B = .val r) ∧ ∀ n, n < N → unify n C 1 A B = .fuel := C49_unify_ends proper 1

/-- The hypotheses of `C50_match_complete` hold. -/
example : ∃ v, Calls C A B (· = 0) v ∧ v.unified = B := by
  let θ : Nat → List Nat := fun y => if y = 7 then [1, 4, 2, 5, 3] else [5]
  have hp : ∀ y, Unknown C A B y → y = 7 ∨ y = 8 := by
    rintro y ⟨h1, h2⟩
    simp only [C] at h1
    simp [A, B] at h2
    omega
  obtain ⟨v, h1, h2, _⟩ := C50_match_complete (C := C) (A := A) (B := B) (θ := θ) hK proper (Or.inr (by decide)) (by decide) (by
    intro y hy
    rcases hp y hy with rfl | rfl
    · exact ⟨by decide, by decide, (C50_passes_iff C (by decide)).1 (by decide)⟩
    · exact ⟨by decide, by decide, (C50_passes_iff C (by decide)).1 (by decide)⟩)
  exact ⟨v, h1, h2.trans (by decide)⟩

/-! A matching problem with several answers: `|- $1 $2` against `|- p q p` without brackets. -/

def A2 : List Nat := [0, 7, 8]
def B2 : List Nat := [0, 4, 5, 4]

theorem proper2 : Proper C A2 B2 := ⟨by decide, by decide, by decide, by decide, by decide⟩

/-- The next answer. -/
def next (v : Option SV) : Option SV := v.bind fun v => found (unifyNext 100 C A2 B2 v)

/-- Two answers, then none. -/
example : (found (unify 100 C 0 A2 B2)).map (fun v => makeSubst C v [7, 6, 8]) = some (.val ([4, 6, 5, 4], false)) := by decide +kernel
example : (next (found (unify 100 C 0 A2 B2))).map (fun v => makeSubst C v [7, 6, 8]) = some (.val ([4, 5, 6, 4], false)) := by decide +kernel
example : (next (found (unify 100 C 0 A2 B2))).map (fun v => unifyNext 100 C A2 B2 v) = some (.val .none) := by decide +kernel

/-- With a limit of the trials the search is cut. -/
example : unify 100 { C with maxTrials := 1 } 1 [0, 7, 8] [0, 1, 4, 2, 5, 3, 4] = .val .timeout := by decide +kernel

/-! ## What is not found -/

/-- In general unification is not complete: for `$1 p | $1 | $2` and `$2 $3 | p q | p` no answer is found, although `$1 = p q`, `$2 = p`, `$3 = q p` makes
them equal: the value of `$1` ends within that of `$3`. -/
def A3 : List Nat := [7, 4, 6, 7, 6, 8]
def B3 : List Nat := [8, 9, 6, 4, 5, 6, 4]
def θ3 : Nat → List Nat := fun y => if y = 7 then [4, 5] else if y = 8 then [4] else [5, 4]

theorem proper3 : Proper C A3 B3 := ⟨by decide, by decide, by decide, by decide, by decide⟩

theorem C50_unify_not_complete : inst C.mt θ3 A3 = inst C.mt θ3 B3 ∧ (∀ y, Unknown C A3 B3 y → C.mt ∉ θ3 y ∧ C.min ≤ (θ3 y).length ∧ Plausible C (θ3 y)) ∧
    (∀ n, unify n C 0 A3 B3 = .fuel ∨ unify n C 0 A3 B3 = .val .none) := by
  refine ⟨by decide, ?_, ?_⟩
  · rintro y ⟨h1, h2⟩
    simp only [C] at h1
    simp [A3, B3] at h2
    have : y = 7 ∨ y = 8 ∨ y = 9 := by omega
    rcases this with rfl | rfl | rfl
    · exact ⟨by decide, by decide, (C50_passes_iff C (by decide)).1 (by decide)⟩
    · exact ⟨by decide, by decide, (C50_passes_iff C (by decide)).1 (by decide)⟩
    · exact ⟨by decide, by decide, (C50_passes_iff C (by decide)).1 (by decide)⟩
  · intro n
    obtain ⟨N, r, h1, h2⟩ := C49_unify_ends proper3 0
    have h100 : unify 100 C 0 A3 B3 = .val .none := by decide +kernel
    by_cases hn : N ≤ n
    · right
      rw [h1 n hn]
      by_cases h : N ≤ 100
      · rw [← h1 100 h]; exact h100
      · rw [h2 100 (by omega)] at h100; cases h100
    · left; exact h2 n (by omega)

/-- A defect: if empty values are allowed, a variable of the second scheme after a separator is not tried.  For `p | $1 q | $1` and `p | $2 | p` no answer is found
with `SET EMPTY_SUBSTITUTION ON`, although `$1 = p`, `$2 = p q` makes them equal and is found with `OFF`. -/
theorem C50_empty_defect : Proper { C with min := 0 } [4, 6, 7, 5, 6, 7] [4, 6, 8, 6, 4] ∧
    unify 100 { C with min := 0 } 0 [4, 6, 7, 5, 6, 7] [4, 6, 8, 6, 4] = .val .none ∧
    (found (unify 100 C 0 [4, 6, 7, 5, 6, 7] [4, 6, 8, 6, 4])).map (fun v => makeSubst C v [7, 6, 8]) = some (.val ([4, 6, 4, 5], false)) :=
  ⟨⟨by decide, by decide, by decide, by decide, by decide⟩, by decide +kernel, by decide +kernel⟩

/-- A defect: if empty values are allowed and a scheme starts with an unknown variable, the array of the scheme is read before its start. -/
theorem C49_empty_ub : unify 100 { C with min := 0 } 0 [7, 4] [4] = .ub := by decide +kernel

end MM.Unif.Ex
