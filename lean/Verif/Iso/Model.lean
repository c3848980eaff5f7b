import Verif.Byrep.Model
/-!
# Model of `checkDummyVarIsolation` and `getParentStep` (src/mmpfas.c 2907–3030)

Steps are numbered from 0.  A step is "unknown or local" when negative, as in the code.
-/
namespace MM.Iso
open MM.Veri MM.Proof MM.Data MM.Tree MM.Pfas

/-- The loop of `getParentStep` (mmpfas.c 3012–3027): the list is the rest of the proof from step `i` on, `st` is `stackPtr`; `none` if the loop comes to the end. -/
def parentLoop (E : Env) : List Int → Int → Nat → Out (Option Nat)
  | [], _, _ => .val none
  | x :: l, st, i =>
    if x < 0 then (if x ≠ unk then .bug 1842 else parentLoop E l (st + 1) (i + 1))
    else if (E.stmt x.toNat).kind = .e ∨ (E.stmt x.toNat).kind = .f then parentLoop E l (st + 1) (i + 1)
    else if (E.stmt x.toNat).kind ≠ .a ∧ (E.stmt x.toNat).kind ≠ .p then .bug 1843
    else if st - ((E.stmt x.toNat).reqHyp.length : Int) + 1 ≤ 0 then .val (some i)
    else parentLoop E l (st - ((E.stmt x.toNat).reqHyp.length : Int) + 1) (i + 1)

/-- `getParentStep(startStep)` (mmpfas.c 3004–3030) -/
def getParentStep (E : Env) (p : Pip) (k : Nat) : Out Nat :=
  parentLoop E (p.proof.drop (k + 1)) 0 (k + 1) >>= fun o =>
  match o with
  | some q => .val q
  | none => if k + 1 ≠ p.proof.length then .bug 1844 else .val k

/-- `dummyVarList` (mmpfas.c 2916–2924).  Simplification: with repetitions; only membership is used. -/
def dummies (E : Env) (m : List Nat) : List Nat := m.filter fun t => decide (E.sep < t)

/-- A dummy variable of the list is in the target (mmpfas.c 2943–2954, 2977–2988) -/
def meets (E : Env) (D m : List Nat) : Bool := m.any fun t => decide (E.sep < t) && D.contains t

/-- The loop over the hypotheses of the parent (mmpfas.c 2961–2995): the list is that of the hypotheses left, last one first; `prf` is `prfStep`, `seen` is `bugCheckFlag`, and `first` is true
in the first round. -/
def hypLoop (E : Env) (p : Pip) (k : Nat) (D : List Nat) : List Nat → Int → Bool → Bool → Out Nat
  | [], _, _, seen => if seen = false then .bug 1847 else .val 1
  | h :: l, prf, first, seen =>
    (if first = true then .val prf else subproofLen E p.proof prf >>= fun len => .val (prf - len)) >>= fun prf =>
    if prf = k then hypLoop E p k D l prf false true
    else if (E.stmt h).kind = .e then getF p.target prf >>= fun m => if meets E D m = true then .val 2 else hypLoop E p k D l prf false seen
    else if (E.stmt h).kind ≠ .f then .bug 1848
    else hypLoop E p k D l prf false seen

/-- `checkDummyVarIsolation(testStep)` (mmpfas.c 2907–3000) -/
def checkDummyVarIsolation (E : Env) (p : Pip) (k : Nat) : Out Nat :=
  getF p.target k >>= fun m =>
  if dummies E m = [] then .val 0
  else if k + 1 = p.proof.length then .val 1
  else getParentStep E p k >>= fun q =>
    getF p.target q >>= fun m' =>
    if meets E (dummies E m) m' = true then .val 2
    else rdN p.proof q >>= fun x =>
      if x < 0 then .bug 1845
      else if (E.stmt x.toNat).kind ≠ .a ∧ (E.stmt x.toNat).kind ≠ .p then .bug 1846
      else hypLoop E p k (dummies E m) (E.stmt x.toNat).reqHyp.reverse ((q : Int) - 1) true false

end MM.Iso
