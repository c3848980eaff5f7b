import Verif.Spec.Subst
/-! # Specification: unifiers of a list of hypotheses with a list of formulas -/
namespace MM.Spec

/-- `σ` turns each hypothesis into the corresponding formula. -/
def Unifies (isVar : Nat → Bool) (σ : Nat → List Nat) (hyps insts : List (List Nat)) : Prop :=
  hyps.map (subst isVar σ) = insts

/-- `σ` turns every hypothesis whose step is known (non-empty) into the formula of that step. -/
def UnifiesKnown (isVar : Nat → Bool) (σ : Nat → List Nat) (hyps insts : List (List Nat)) : Prop :=
  ∀ (j : Nat) (h i : List Nat), hyps[j]? = some h → insts[j]? = some i → i ≠ [] → subst isVar σ h = i

/-- `t` is a variable occurring in one of the strings. -/
def VarIn (isVar : Nat → Bool) (hyps : List (List Nat)) (t : Nat) : Prop :=
  isVar t = true ∧ ∃ h ∈ hyps, t ∈ h

/-- A disjoint-variable violation: the cited assertion demands that `x` and `y` be disjoint
for some pair in `req`, but their substitutions contain variables `a`, `b` that are equal or that
are not declared disjoint (`dv`) in the statement being proved. -/
def DisjViolation (isVar : Nat → Bool) (σ : Nat → List Nat) (req : List (Nat × Nat))
    (dv : Nat → Nat → Prop) (x y a b : Nat) : Prop :=
  (x, y) ∈ req ∧ a ∈ σ x ∧ b ∈ σ y ∧ isVar a = true ∧ isVar b = true ∧ (a = b ∨ ¬ dv a b)

end MM.Spec
