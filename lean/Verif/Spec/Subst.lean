/-!
# Specification: simultaneous substitution in token strings

Independent of the program: a substitution `σ` gives a token string for every variable;
constants are left alone (Metamath book, section 4.2.4 "substitution").
-/
namespace MM.Spec

/-- The math string `m` under the simultaneous substitution `σ`. -/
def subst (isVar : Nat → Bool) (σ : Nat → List Nat) (m : List Nat) : List Nat :=
  m.flatMap fun t => if isVar t then σ t else [t]

theorem subst_nil (isVar σ) : subst isVar σ [] = [] := rfl

theorem subst_append (isVar σ) (a b : List Nat) :
    subst isVar σ (a ++ b) = subst isVar σ a ++ subst isVar σ b := by
  simp [subst, List.flatMap_append]

theorem subst_singleton (isVar σ) (t : Nat) :
    subst isVar σ [t] = if isVar t then σ t else [t] := by simp [subst]

theorem subst_cons (isVar σ) (t : Nat) (m : List Nat) :
    subst isVar σ (t :: m) = (if isVar t then σ t else [t]) ++ subst isVar σ m := by
  simp [subst]

/-- Substitution depends only on the values at the variables that occur. -/
theorem subst_congr {isVar} {σ τ : Nat → List Nat} {m : List Nat}
    (h : ∀ t ∈ m, isVar t = true → σ t = τ t) : subst isVar σ m = subst isVar τ m := by
  induction m with
  | nil => rfl
  | cons a m ih =>
    rw [subst_cons, subst_cons, ih (fun t ht => h t (List.mem_cons_of_mem _ ht))]
    by_cases hv : isVar a = true
    · simp [hv, h a List.mem_cons_self hv]
    · simp [hv]

end MM.Spec
