import Verif.Repl.Model
/-!
# Model of `proveByReplacement`, `getIndepKnownSteps`, `getKnownSubProofs` (src/mmpfas.c 247–325, 963–1112)

Modelled for `searchMethod` 0 (IMPROVE / 2) and a step without dummy variables (`dummyVarFlag` 0).  Messages and storage are not modelled.  `Y` and `K` are `true`, `N` and `U` are `false`.
-/
namespace MM.Byrep
open MM.Veri MM.Proof MM.Data MM.Tree MM.Pfas MM.Impr MM.Repl

/-- The loop over the hypotheses of an assertion (mmpfas.c 1096–1103): the rest of `unkSubPrfStack`, top first, and the flag of the step. -/
def popHyps : Nat → List Bool → Bool → Out (List Bool × Bool)
  | 0, st, b => .val (st, b)
  | _ + 1, [], _ => .bug 1839
  | k + 1, x :: st, b => popHyps k st (b && x)

/-- The loop over the steps (mmpfas.c 1078–1108): the flags of the rest of the proof; the second list is `unkSubPrfStack`, top first. -/
def knownScan (E : Env) : List Int → List Bool → Out (List Bool)
  | [], st => if st.length = 1 then .val [] else .bug 1841
  | x :: l, st =>
    if x < 0 then (if x = unk then knownScan E l (false :: st) >>= fun r => .val (false :: r) else .bug 1837)
    else if (E.stmt x.toNat).kind = .e ∨ (E.stmt x.toNat).kind = .f then knownScan E l (true :: st) >>= fun r => .val (true :: r)
    else if (E.stmt x.toNat).kind ≠ .a ∧ (E.stmt x.toNat).kind ≠ .p then .bug 1838
    else popHyps (E.stmt x.toNat).reqHyp.length st true >>= fun o => knownScan E l (o.2 :: o.1) >>= fun r => .val (o.2 :: r)

/-- `getKnownSubProofs()` (mmpfas.c 1064–1112) -/
def getKnownSubProofs (E : Env) (p : Pip) : Out (List Bool) := knownScan E p.proof []

/-- The scan for subproofs without `refStep` (mmpfas.c 982–1000): `prfStep` is the `Int`, `indepSteps` the function.  The first argument bounds the rounds. -/
def indepScan (E : Env) (proof : List Int) (ref : Int) : Nat → Int → (Nat → Bool) → Out (Nat → Bool)
  | 0, _, _ => .fuel
  | f + 1, k, r =>
    if k < 0 then .val r
    else subproofLen E proof k >>= fun len =>
      if ref ≤ k ∧ k - len + 1 ≤ ref then indepScan E proof ref f (k - 1) r
      else if k - len + 1 < 0 then .ub
      else if ((List.range (k.toNat + 1)).any fun j => r j && decide (k - len + 1 ≤ (j : Int))) = true then .bug 1832
      else indepScan E proof ref f (k - len + 1 - 1) fun j => r j || (decide (k - len + 1 ≤ (j : Int)) && decide ((j : Int) ≤ k))

/-- The loop body that changes `Y` to `N` (mmpfas.c 1004–1046) -/
def recheck (E : Env) (p : Pip) (r : Nat → Bool) (j : Nat) : Out Bool :=
  if r j = false then .val false
  else rdN p.proof j >>= fun x =>
    (if x < 0 then (if x = unk then .val true else .bug 1833)
     else if (E.stmt x.toNat).kind = .e ∨ (E.stmt x.toNat).kind = .f then .val false
     else if (E.stmt x.toNat).kind ≠ .p ∧ (E.stmt x.toNat).kind ≠ .a then .bug 1834
     else .val true) >>= fun y =>
    if y = false then .val false
    else getF p.target j >>= fun m => if m = [] then .bug 1835 else .val (!m.any fun t => decide (E.sep < t))

/-- That loop (mmpfas.c 1004–1046): the first argument counts its rest. -/
def recheckAll (E : Env) (p : Pip) (r : Nat → Bool) : Nat → Nat → Out (List Bool)
  | 0, _ => .val []
  | c + 1, j => recheck E p r j >>= fun b => recheckAll E p r c (j + 1) >>= fun l => .val (b :: l)

/-- `getIndepKnownSteps(…, refStep)` (mmpfas.c 970–1058) -/
def getIndepKnownSteps (E : Env) (p : Pip) (ref : Nat) : Out (List Bool) :=
  indepScan E p.proof ref (p.proof.length + 1) ((p.proof.length : Int) - 2) (fun _ => false) >>= fun r =>
  recheckAll E p r p.proof.length 0 >>= fun l =>
  getKnownSubProofs E p >>= fun k => .val (l.zipWith (fun a b => a && b) k)

/-- The whole proof as what is scanned (mmpfas.c 392–399, 491) -/
def wholeRange (p : Pip) (l : List Bool) : Range := ⟨0, p.proof.length - 1, fun j => l.getD j false⟩

/-- One statement in the loop of `proveByReplacement` (mmpfas.c 273–320): empty if the next one is to be tried. -/
def trial (X : Impr.Ctx) (n : Nat) (cnt : Nat → Nat) (step : Nat) (m : List Nat) (i : Nat) : Out (List Int) :=
  quick X.E i m >>= fun b =>
  if b = false then .val []
  else if X.override = 0 ∧ X.disc i = true then .val []
  else if X.other i = true then .val []
  else if X.noDist = true ∧ (X.E.stmt i).reqDisj ≠ [] then .val []
  else getIndepKnownSteps X.E X.pip step >>= fun l => replaceStatement X n (wholeRange X.pip l) cnt i step

/-- The loop over the statements (mmpfas.c 273–322): the first argument counts its rest; `cnt` gives the values of `g_unifTrialCount` for every statement. -/
def trialLoop (X : Impr.Ctx) (n : Nat) (cnt : Nat → Nat → Nat) (step : Nat) (m : List Nat) : Nat → Nat → Out (List Int)
  | 0, _ => .val []
  | c + 1, i => trial X n (cnt i) step m i >>= fun q => if q = [] then trialLoop X n cnt step m c (i + 1) else .val q

/-- `proveByReplacement(prove, step, noDist, 0, 0, maxE, override, …)` (mmpfas.c 253–325) -/
def proveByReplacement (X : Impr.Ctx) (n : Nat) (cnt : Nat → Nat → Nat) (step : Nat) : Out (List Int) :=
  getF X.pip.target step >>= fun m => trialLoop X n cnt step m (X.prove - 1) 1

end MM.Byrep
