import Verif.Pfas.Session
/-!
# Which steps of the proof in progress may be used again
-/
namespace MM.Byrep
open MM.Veri MM.Proof MM.Data MM.Tree MM.Pfas

/-- The steps `b` to `j`. -/
def seg (proof : List Int) (b j : Nat) : List Int := (proof.take (j + 1)).drop b

/-- The steps `b` to `j` are the subproof of step `j`: in reverse Polish notation they are one proof. -/
def IsSub (E : Env) (proof : List Int) (b j : Nat) : Prop := b ≤ j ∧ j < proof.length ∧ rpnCount E (seg proof b j) 0 = some 1

/-- Step `j`, with the subproof from `b` on, may be used in a proof that replaces step `ref`: it is not the last one, step `ref` is not in its subproof, it cites an assertion, its target
has only tokens of the database, and its subproof has no unknown step. -/
def Reusable (E : Env) (p : Pip) (ref b j : Nat) : Prop :=
  j + 1 < p.proof.length ∧ ¬ (b ≤ ref ∧ ref ≤ j) ∧ 1 ≤ p.proof.getD j 0 ∧
  ((E.stmt (p.proof.getD j 0).toNat).kind = .a ∨ (E.stmt (p.proof.getD j 0).toNat).kind = .p) ∧ (∀ t ∈ p.target.getD j [], t < E.sep) ∧ unk ∉ seg p.proof b j

end MM.Byrep
