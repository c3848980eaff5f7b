import Verif.Tree.Spec

/-!
# Specification: replacing the uses of a theorem by its proof

Written without reference to the modelled functions.
-/
namespace MM.Expd
open MM.Veri MM.Proof MM.Data MM.Tree

/-- Is the step a hypothesis? -/
def isHyp (E : Env) (y : Int) : Bool := decide (0 ≤ y) && (decide ((E.stmt y.toNat).kind = .e) || decide ((E.stmt y.toNat).kind = .f))

/-- What a step `y` in the proof of a theorem becomes, if the theorem has the mandatory hypotheses `req` and these have the proofs `args`: a mandatory hypothesis
becomes its proof; another hypothesis (of a dummy variable) becomes an unknown step. -/
def graft1 (E : Env) (req : List Nat) (args : List (List Int)) (y : Int) : List Int :=
  if isHyp E y then (if y.toNat ∈ req then args.getD (req.idxOf y.toNat) [] else [unk]) else [y]

/-- The proof `src` of a theorem with the mandatory hypotheses `req`, for hypotheses that have the proofs `args`. -/
def graft (E : Env) (req : List Nat) (args : List (List Int)) (src : List Int) : List Int := src.flatMap (graft1 E req args)

/-- One step of the machine that expands the uses of theorem `s`, whose proof is `src`: the stack holds expanded proofs.  A step takes the proofs of its hypotheses
from the stack; a use of `s` is replaced by `src`. -/
def inlStep (E : Env) (s : Nat) (src : List Int) (st : List (List Int)) (x : Int) : Option (List (List Int)) :=
  if arity E x ≤ st.length then
    let args := (st.take (arity E x)).reverse
    some ((if x = s then graft E (E.stmt s).reqHyp args src else args.flatten ++ [x]) :: st.drop (arity E x))
  else none

/-- The machine on a list of steps. -/
def inlRun (E : Env) (s : Nat) (src : List Int) : List Int → List (List Int) → Option (List (List Int))
  | [], st => some st
  | x :: xs, st => (inlStep E s src st x).bind (inlRun E s src xs)

/-- `q` is the proof `p` with every use of theorem `s` replaced by its proof `src`. -/
def Inlines (E : Env) (s : Nat) (src p q : List Int) : Prop := inlRun E s src p [] = some [q]

end MM.Expd
