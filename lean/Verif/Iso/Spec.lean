import Verif.Byrep.Spec
/-!
# The hypotheses of a step
-/
namespace MM.Iso
open MM.Veri MM.Proof MM.Data MM.Tree MM.Pfas MM.Byrep

/-- The steps from `b` up to but not including `e` are complete subproofs one after the other; the list is that of their last steps. -/
inductive Row (E : Env) (proof : List Int) : Nat → List Nat → Nat → Prop
  | nil (b : Nat) : Row E proof b [] b
  | cons {b j e : Nat} {l : List Nat} : IsSub E proof b j → Row E proof (j + 1) l e → Row E proof b (j :: l) e

/-- The proofs of the hypotheses of step `q`, in their order, end with the steps `js`: its subproof is the row of these proofs, and `q`. -/
def HypSteps (E : Env) (proof : List Int) (q : Nat) (js : List Nat) : Prop :=
  (∃ b, IsSub E proof b q ∧ Row E proof b js q) ∧ js.length = (E.stmt (proof.getD q 0).toNat).reqHyp.length

/-- The targets of the steps `k` and `j` have a dummy variable in common. -/
def Share (E : Env) (p : Pip) (k j : Nat) : Prop := ∃ t, E.sep < t ∧ t ∈ p.target.getD k [] ∧ t ∈ p.target.getD j []

/-- Apart from step `k` itself, neither step `q` nor one of its `$e` hypotheses (proved by the steps `js`) shares a dummy variable with step `k`. -/
def Apart (E : Env) (p : Pip) (k q : Nat) (js : List Nat) : Prop :=
  ¬ Share E p k q ∧ ∀ h j, (h, j) ∈ (E.stmt (p.proof.getD q 0).toNat).reqHyp.zip js → (E.stmt h).kind = .e → j ≠ k → ¬ Share E p k j

end MM.Iso
