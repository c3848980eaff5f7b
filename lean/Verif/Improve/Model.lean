import Verif.Byrep.Model
/-!
# Model of the command IMPROVE (src/metamath.c 4697–4990)

Modelled for IMPROVE / 1 (the default) and IMPROVE / 2, with and without / SUBPROOFS, for one step and for ALL.  Messages, the undo stack and the display are not modelled.
Simplification: with / 2 the code also runs `proveByReplacement` on a step whose target has dummy variables that occur nowhere else (`checkDummyVarIsolation` is 1); here such a step is
left alone, as it is with / 1.
-/
namespace MM.Improve
open MM.Veri MM.Proof MM.Data MM.Tree MM.Pfas MM.Impr MM.Repl MM.Byrep

/-- `dummyVarIsoFlag` is not 0 (metamath.c 4739, 4885; mmpfas.c 2916–2928) -/
def hasDummy (E : Env) (m : List Nat) : Bool := m.any fun t => decide (E.sep < t)

/-- What the two algorithms find for step `k` (from 0), whose target has no dummy variable: `fl` and `rp` tell which of the two are run (metamath.c 4746–4775, 4891–4919). -/
def findFor (X : Impr.Ctx) (n : Nat) (cnt : Nat → Nat → Nat) (fl rp : Bool) (a : MM.Pfas.St) (k : Nat) (m : List Nat) : Out (List Int) :=
  (if fl = true then proveFloating (at' X a) n m else .val []) >>= fun q =>
  if q ≠ [] then .val q else if rp = true then proveByReplacement (at' X a) n cnt k else .val []

/-- The body of the loop over the steps (metamath.c 4852–4935) for pass `iter`: `none` if the step is left alone, otherwise the new state and the next `s`. -/
def passStep (X : Impr.Ctx) (n : Nat) (U : Unifier) (cnt : Nat → Nat → Nat) (alg2 : Bool) (iter : Nat) (a : MM.Pfas.St) (k : Nat) : Out (Option (MM.Pfas.St × Nat)) :=
  rdN a.pip.proof k >>= fun x =>
  getF a.pip.target k >>= fun m =>
  getF a.pip.source k >>= fun m' =>
  if (iter = 1 ∨ alg2 = false) ∧ x ≠ unk ∧ m = m' then .val none
  else subproofLen X.E a.pip.proof k >>= fun len =>
    if x = unk ∧ len ≠ 1 then .bug 1120
    else nmbrSeg a.pip.proof ((k : Int) - len + 2) ((k : Int) + 1) >>= fun old =>
      if unk ∉ old then .val none
      else if hasDummy X.E m = true then .val none
      else findFor X n cnt (decide (iter = 1 ∨ iter = 4)) (alg2 && (decide (iter = 2 ∧ x = unk) || decide (iter = 3 ∧ x ≠ unk))) a k m >>= fun q =>
        if q = [] then .val none
        else exec n X.E U X.prove a (.insert q k) >>= fun t => .val (some (t, ((k : Int) - len + 1).toNat))

/-- The loop over the steps (metamath.c 4852–4936): `s` is the step, `ch` is `g_proofChangedFlag`.  The first argument bounds the rounds. -/
def passLoop (X : Impr.Ctx) (n : Nat) (U : Unifier) (cnt : Nat → Nat → Nat) (alg2 : Bool) (iter : Nat) : Nat → Nat → MM.Pfas.St → Bool → Out (MM.Pfas.St × Bool)
  | _, 0, a, ch => .val (a, ch)
  | 0, _ + 1, _, _ => .fuel
  | f + 1, k + 1, a, ch => passStep X n U cnt alg2 iter a k >>= fun r =>
    r.elim (passLoop X n U cnt alg2 iter f k a ch) fun t => passLoop X n U cnt alg2 iter f t.2 t.1 true

/-- One pass (metamath.c 4850–4940) -/
def pass (X : Impr.Ctx) (n : Nat) (U : Unifier) (cnt : Nat → Nat → Nat) (alg2 : Bool) (iter : Nat) (a : MM.Pfas.St) (ch : Bool) : Out (MM.Pfas.St × Bool) :=
  passLoop X n U cnt alg2 iter a.pip.proof.length a.pip.proof.length a ch >>= fun r =>
  if r.2 = true then exec n X.E U X.prove r.1 .unify >>= fun t => .val (t, true) else .val r

/-- The loop over the passes (metamath.c 4815–4959); the list is that of the passes still to be done. -/
def passes (X : Impr.Ctx) (n : Nat) (U : Unifier) (cnt : Nat → Nat → Nat → Nat) (alg2 sub : Bool) : List Nat → MM.Pfas.St → Bool → Out (MM.Pfas.St × Bool)
  | [], a, ch => .val (a, ch)
  | iter :: l, a, ch =>
    if iter = 3 ∧ sub = false then passes X n U cnt alg2 sub l a ch
    else pass X n U (cnt iter) alg2 iter a ch >>= fun r =>
      if r.2 = false ∧ ((iter = 2 ∧ sub = false) ∨ iter = 3 ∨ alg2 = false) then .val r
      else if unk ∉ r.1.pip.proof then .val r
      else if alg2 = false then .val r
      else passes X n U cnt alg2 sub l r.1 r.2

/-- IMPROVE ALL (metamath.c 4806–4975): the new state and whether it says that something was found; nothing happens to a complete proof. -/
def improveAll (X : Impr.Ctx) (n : Nat) (U : Unifier) (cnt : Nat → Nat → Nat → Nat) (alg2 sub : Bool) (a : MM.Pfas.St) : Out (MM.Pfas.St × Bool) :=
  if unk ∉ a.pip.proof then .val (a, false)
  else passes X n U cnt alg2 sub [1, 2, 3, 4] a false >>= fun r =>
    if unk ∉ r.1.pip.proof then exec n X.E U X.prove r.1 .unify >>= fun t => .val (t, r.2) else .val r

/-- IMPROVE with step `k` (from 0) (metamath.c 4721–4803): the new state and whether a proof was found. -/
def improveStep (X : Impr.Ctx) (n : Nat) (U : Unifier) (cnt : Nat → Nat → Nat) (alg2 : Bool) (a : MM.Pfas.St) (k : Nat) : Out (MM.Pfas.St × Bool) :=
  subproofLen X.E a.pip.proof k >>= fun len =>
  nmbrSeg a.pip.proof ((k : Int) - len + 2) ((k : Int) + 1) >>= fun old =>
  if unk ∉ old then .val (a, false)
  else getF a.pip.target k >>= fun m =>
    if hasDummy X.E m = true then .val (a, false)
    else findFor X n cnt true alg2 a k m >>= fun q =>
      if q = [] then .val (a, false)
      else exec n X.E U X.prove a (.insert q k) >>= fun t => exec n X.E U X.prove t .unify >>= fun u => .val (u, true)

end MM.Improve
