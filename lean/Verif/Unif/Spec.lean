import Verif.Unif.Model
/-!
# Specification of unification

Written without reference to the modelled functions; `Cfg` is the record of the globals.
-/
namespace MM.Unif

/-- The scheme `l` under the substitution `σ` of the unknown variables (the tokens above `mt`). -/
def inst (mt : Nat) (σ : Nat → List Nat) (l : List Nat) : List Nat := l.flatMap fun t => if mt < t then σ t else [t]

/-- The unknown variable `y` occurs in one of the two schemes. -/
def Unknown (C : Cfg) (A B : List Nat) (y : Nat) : Prop := C.mt < y ∧ (y ∈ A ∨ y ∈ B)

/-- The schemes `unify` is meant for: not empty; as many separators in one as in the other; a variable may be replaced by nothing only if the schemes do not
start with a variable (they start with a type code). -/
structure Proper (C : Cfg) (A B : List Nat) : Prop where
  neA : A ≠ []
  neB : B ≠ []
  sep : A.count C.mt = B.count C.mt
  min1 : C.min ≤ 1
  head : C.min = 1 ∨ (A.headD 0 ≤ C.mt ∧ B.headD 0 ≤ C.mt)

end MM.Unif
