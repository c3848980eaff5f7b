import Verif.Unif.Henty
import Verif.Unif.Spec
/-!
# Specification of the Henty filter
-/
namespace MM.Unif

/-- `makeSubstUnif` with the state vector `v` applies the substitution `σ`. -/
def SubstOf (C : Cfg) (v : SV) (σ : Nat → List Nat) : Prop := ∀ l, ∃ f, makeSubst C v l = .val (inst C.mt σ l, f)

/-- The substitutions are the same up to the choice of variables: each is an instance of the other. -/
def Variant (mt : Nat) (σ τ : Nat → List Nat) : Prop := (∃ ρ, ∀ y, mt < y → inst mt ρ (σ y) = τ y) ∧ ∃ ρ, ∀ y, mt < y → inst mt ρ (τ y) = σ y

/-- A series of calls of `unifyH`, first with `reEntryFlag` 0 and then with 1: the answers given so far and the last state vector.  The count of trials at each
call is up to the caller. -/
inductive HCalls (on : Bool) (C : Cfg) (A B : List Nat) : List SV → SVH → Prop
  | first {n t v} : unifyH on n C t A B = .val (.found v) → HCalls on C A B [v.sv] v
  | next {m n t l v w} : HCalls on C A B l v → unifyHNext on m n C A B { v with sv := { v.sv with trials := t } } = .val (.found w) →
      HCalls on C A B (l ++ [w.sv]) w

end MM.Unif
