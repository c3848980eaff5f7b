import Verif.Pfas.Model
import Verif.Unif.Henty
/-!
# Model of the search of IMPROVE: `proveFloating`, `quickMatchFilter` (src/mmpfas.c 1517–2010)

Messages are not modelled.  The results carry what the functions return and the static variables that outlive a call.
-/
namespace MM.Impr
open MM.Veri MM.Proof MM.Data MM.Tree MM.Pfas
open MM.Unif (Cfg SV SVH ResH makeSubst unifyH unifyHNext)

/-- The globals and the arguments that stay the same during a search. -/
structure Ctx where
  E : Env
  /-- what the unification functions read -/
  C : Cfg
  /-- `g_hentyFilter` -/
  on : Bool
  /-- `g_ProofInProgress` -/
  pip : Pip
  /-- `g_pipDummyVars` -/
  d : Nat
  /-- `statemNum` -/
  prove : Nat
  /-- `maxEDepth` -/
  maxE : Nat
  /-- `noDistinct` -/
  noDist : Bool
  /-- `getMarkupFlag(stmt, USAGE_DISCOURAGED)` -/
  disc : Nat → Bool
  /-- `overrideFlag` -/
  override : Nat
  /-- statement `stmt` is skipped as one of another mathbox (mmpfas.c 1652–1657) -/
  other : Nat → Bool
  /-- `g_userMaxProveFloat` -/
  limit : Nat

/-- The static variables `trials` and `maxDepthExceeded`; `depth` (mmpfas.c 1549) is counted by the model's recursion. -/
structure Sst where
  trials : Nat
  deep : Bool
deriving DecidableEq, Repr

/-- `tokenType == con_`; `E.isVar` is `tokenType == var_`, and a token is one or the other. -/
def con (E : Env) (t : Nat) : Bool := !E.isVar t

/-- A symbol of `mString` if it is a constant, otherwise 0 (mmpfas.c 1941–1952). -/
def symOr0 (E : Env) (t : Nat) : Nat := if con E t then t else 0

/-- The tests of the first, the second and the last symbol (mmpfas.c 1957–1984): `a` is `mString`, `b` the statement's `mathString`; true if a test rejects. -/
def endsDiffer (E : Env) (a b : List Nat) : Bool :=
  let first := symOr0 E (a.getD 0 0)
  let second := if 1 < a.length ∧ first ≠ 0 then symOr0 E (a.getD 1 0) else 0
  let last := symOr0 E (a.getD (a.length - 1) 0)
  (decide (first ≠ 0) && decide (first ≠ b.getD 0 0) && con E (b.getD 0 0)) ||
  (decide (second ≠ 0) && decide (1 < b.length) && decide (second ≠ b.getD 1 0) && con E (b.getD 0 0) && con E (b.getD 1 0)) ||
  (decide (last ≠ 0) && decide (last ≠ b.getD (b.length - 1) 0) && con E (b.getD (b.length - 1) 0))

/-- `quickMatchFilter(trialStmt, mString, 0)` (mmpfas.c 1924–2011).  The last test (1986–2009), which marks symbols in `g_MathToken[].tmp`, is that all constants of the
statement are in `mString`.  Reading the first or last symbol of an empty string is `ub`. -/
def quick (E : Env) (i : Nat) (m : List Nat) : Out Bool :=
  if (E.stmt i).kind ≠ .p ∧ (E.stmt i).kind ≠ .a then .val false
  else if m = [] ∨ (E.stmt i).math = [] then .ub
  else if endsDiffer E m (E.stmt i).math then .val false
  else .val ((E.stmt i).math.all fun t => !con E t || decide (t ∈ m))

/-- The scan of the steps of the current proof, last one first (mmpfas.c 1635–1661): the subproof found; `k` is `selfScanStep + 1`. -/
def selfScan (E : Env) (p : Pip) (m : List Nat) : Nat → Out (Option (List Int))
  | 0 => .val none
  | k + 1 => getF p.target k >>= fun t =>
    if t = m then subproofLen E p.proof k >>= fun len => nmbrSeg p.proof ((k : Int) - len + 2) ((k : Int) + 1) >>= fun q =>
      if unk ∈ q then selfScan E p m k else .val (some q)
    else selfScan E p m k

/-- The statement is skipped for its `$e` hypotheses (mmpfas.c 1703–1744): it has one, and the depth is too great, or a required variable is not in the assertion. -/
def eSkip (X : Ctx) (depth i : Nat) : Bool :=
  (X.E.stmt i).reqHyp.any (fun h => decide ((X.E.stmt h).kind = .e)) &&
    (decide (X.maxE < depth) || (X.E.stmt i).reqVars.any fun v => decide (v ∉ (X.E.stmt i).math))

/-- The hypotheses with dummy variables (mmpfas.c 1766–1786): `hypList`. -/
def dummyHyps (E : Env) (d : Nat) (vars : List Nat) : List Nat → Out (List (List Nat))
  | [] => .val []
  | h :: hs => toDummies E d vars (E.stmt h).math >>= fun m => dummyHyps E d vars hs >>= fun r => .val (m :: r)

/-- The loop over the hypotheses in the order `hypOrdMap` (mmpfas.c 1813–1842): the position of the first one that was not proved, and `hypProofList`.
`rec` is the recursive call; the argument after the list is `hyp`. -/
def hypLoop (rec : List Nat → Sst → Out (List Int × Sst)) (C : Cfg) (v : SV) (hs : List (List Nat)) : List Nat → Nat → List (List Int) → Sst →
    Out (Option Nat × List (List Int) × Sst)
  | [], _, ps, s => .val (none, ps, s)
  | j :: js, k, ps, s =>
    if hs.length ≤ j then .ub
    else makeSubst C v (hs.getD j []) >>= fun x =>
      if x.2 then .bug 1808
      else rec x.1 s >>= fun r =>
        if r.1 = [] then .val (some k, ps, r.2)
        else hypLoop rec C v hs js (k + 1) (ps.set j r.1) r.2

/-- The loop that shifts the elements of `hypOrdMap` (mmpfas.c 1862–1864) -/
def shift : Nat → List Nat → List Nat
  | 0, l => l
  | i + 1, l => shift i (l.set (i + 1) (l.getD i 0))

/-- Moving element `k` of `hypOrdMap` to the front (mmpfas.c 1858–1865) -/
def toFront (ord : List Nat) (k : Nat) : List Nat := (shift k ord).set 0 (ord.getD k 0)

/-- The `while` loop over the unifications (mmpfas.c 1793–1911): `none` if the next statement is to be tried, otherwise the proof returned (empty when the search limit was
exceeded).  The first argument after the strings bounds the number of iterations; the next is the result of `unifyH`.  `g_unifTrialCount` is part of the state vector and is
restored after the recursive calls (1823–1826). -/
def unifLoop (X : Ctx) (n : Nat) (rec : List Nat → Sst → Out (List Int × Sst)) (i : Nat) (A m : List Nat) (hs : List (List Nat)) :
    Nat → ResH → List Nat → List (List Int) → Sst → Out (Option (List Int) × Sst)
  | 0, _, _, _, _ => .fuel
  | _ + 1, .none, _, _, s => .val (none, s)
  | _ + 1, .timeout, _, _, s => .val (none, s)
  | k + 1, .found v, ord, ps, s =>
    hypLoop rec X.C v.sv hs ord 0 ps s >>= fun o =>
    if o.1 = none then
      if X.disc i = true ∧ X.override = 0 then .bug 1869
      else if X.disc i = true ∧ 2 < X.override then .bug 1870
      else .val (some (o.2.1.flatten ++ [(i : Int)]), o.2.2)
    else if X.limit < o.2.2.trials then .val (some [], o.2.2)
    else unifyHNext X.on n n X.C A m v >>= fun r => unifLoop X n rec i A m hs k r (toFront ord (o.1.getD 0)) o.2.1 o.2.2

/-- One statement (mmpfas.c 1672–1919): `none` if the next one is to be tried. -/
def tryStmt (X : Ctx) (n : Nat) (rec : List Nat → Sst → Out (List Int × Sst)) (depth i : Nat) (m : List Nat) (s : Sst) : Out (Option (List Int) × Sst) :=
  quick X.E i m >>= fun q =>
  if q = false then .val (none, s)
  else if X.override = 0 ∧ X.disc i = true then .val (none, s)
  else if X.other i then .val (none, s)
  else if X.noDist = true ∧ (X.E.stmt i).reqDisj ≠ [] then .val (none, s)
  else if eSkip X depth i then .val (none, s)
  else toDummies X.E X.d (X.E.stmt i).reqVars (X.E.stmt i).math >>= fun A =>
    dummyHyps X.E X.d (X.E.stmt i).reqVars (X.E.stmt i).reqHyp >>= fun hs =>
    unifyH X.on n X.C 1 A m >>= fun r =>
    unifLoop X n rec i A m hs n r (List.range hs.length) (List.replicate hs.length []) s

/-- The loop over the statements from the given one down to 1 (mmpfas.c 1672–1919) -/
def stmtLoop (X : Ctx) (n : Nat) (rec : List Nat → Sst → Out (List Int × Sst)) (depth : Nat) (m : List Nat) : Nat → Sst → Out (List Int × Sst)
  | 0, s => .val ([], s)
  | i + 1, s => tryStmt X n rec depth (i + 1) m s >>= fun r =>
    if r.1 = none then stmtLoop X n rec depth m i r.2 else .val (r.1.getD [], r.2)

/-- The first hypothesis of the theorem being proved that is `mString`, required ones first (mmpfas.c 1606–1626). -/
def hypMatch (X : Ctx) (m : List Nat) : Option Nat := ((X.E.stmt X.prove).reqHyp ++ (X.E.stmt X.prove).optHyp).find? fun h => decide ((X.E.stmt h).math = m)

/-- `proveFloating` (mmpfas.c 1521–1919) when `depth` has the value 40 minus the first argument on entry (so that argument 0 exceeds MAX_DEPTH); `trials` is already updated
(1569–1574). -/
def search (X : Ctx) (n : Nat) : Nat → List Nat → Sst → Out (List Int × Sst)
  | 0, _, s => if X.limit < s.trials then .val ([], s) else .val ([], { s with deep := true })
  | r + 1, m, s =>
    if X.limit < s.trials then .val ([], s)
    else if s.deep then .val ([], s)
    else if (hypMatch X m).isSome then .val ([((hypMatch X m).getD 0 : Int)], s)
    else selfScan X.E X.pip m X.pip.proof.length >>= fun o =>
      if o.isSome then .val (o.getD [], s)
      else stmtLoop X n (fun m s => search X n r m { s with trials := s.trials + 1 }) (40 - r) m (X.prove - 1) s

/-- `proveFloating(mString, statemNum, maxEDepth, step, noDistinct, overrideFlag, mathboxFlag)` (mmpfas.c 1521–1919), called from outside: the proof.  `n` bounds the
loops of the unification. -/
def proveFloating (X : Ctx) (n : Nat) (m : List Nat) : Out (List Int) := search X n 40 m ⟨0, false⟩ >>= fun r => .val r.1

end MM.Impr
