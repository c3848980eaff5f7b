import Verif.Pfas.Undo
import Verif.Tree.Model
import Verif.Unif.Spec

/-!
# Model of the functions of the Proof Assistant that change the proof in progress (src/mmpfas.c)

`E` is the database as in `Verif/Proof`; `E.sep` is `g_mathTokens`.  The dummy variables `$1`, `$2`, … are the tokens `E.sep + 1`, `E.sep + 2`, … .
The state vector of a unification is represented by the substitution that `makeSubstUnif` performs with it (C48): a function on the dummy variables.
-/
namespace MM.Pfas
open MM.Veri MM.Proof MM.Data MM.Tree

/-- Reading an element of a `pntrString` of math strings. -/
def getF (l : List (List Nat)) (i : Int) : Out (List Nat) := if 0 ≤ i ∧ i.toNat < l.length then .val (l.getD i.toNat []) else .ub

/-- Assigning an element of a `pntrString`. -/
def setF (l : List (List Nat)) (i : Int) (m : List Nat) : Out (List (List Nat)) := if 0 ≤ i ∧ i.toNat < l.length then .val (l.set i.toNat m) else .ub

/-- `pntrLeft(sin, n)` (mmdata.c 2757–2763).  Simplification: copying beyond the end of `sin` is `ub`. -/
def pntrLeft (l : List (List Nat)) (n : Int) : Out (List (List Nat)) := if n.toNat ≤ l.length then .val (l.take n.toNat) else .ub

/-- `pntrRight(sin, n)` (mmdata.c 2766–2775) -/
def pntrRight (l : List (List Nat)) (n : Int) : List (List Nat) := l.drop (max n 1 - 1).toNat

/-- The loop of `subproofLen` (mmpfas.c 2886–2900): the value of `p` at the end; the first argument bounds the number of iterations. -/
def spLoop (E : Env) (proof : List Int) : Nat → Int → Int → Out Int
  | 0, _, _ => .fuel
  | k + 1, p, lvl =>
    if lvl = 0 then .val p
    else if p - 1 < 0 then .bug 1821
    else rdN proof (p - 1) >>= fun x =>
      if x < 0 then spLoop E proof k (p - 1) (lvl - 1)
      else stmtAt E x >>= fun t =>
        if t.kind = .e ∨ t.kind = .f then spLoop E proof k (p - 1) (lvl - 1)
        else spLoop E proof k (p - 1) (lvl - 1 + t.reqHyp.length)

/-- `subproofLen(proof, endStep)` (mmpfas.c 2882–2902) -/
def subproofLen (E : Env) (proof : List Int) (endStep : Int) : Out Int :=
  spLoop E proof (endStep.toNat + 3) (endStep + 1) 1 >>= fun p => .val (endStep - p + 1)

/-- `addSubProof(subProof, step)` (mmpfas.c 1117–1136) -/
def addSubProof (p : Pip) (sub : List Int) (step : Int) : Out Pip :=
  rdN p.proof step >>= fun x =>
  if x ≠ unk then .bug 1803
  else if sub.length = 0 then .bug 1361
  else
    nmbrLeft p.proof step >>= fun a => pntrLeft p.target step >>= fun t => getF p.source step >>= fun s =>
    if s ≠ [] then .bug 1804
    else
      pntrLeft p.source step >>= fun s => pntrLeft p.user step >>= fun u =>
      .val ⟨a ++ sub ++ nmbrRight p.proof (step + 2), t ++ List.replicate (sub.length - 1) [] ++ pntrRight p.target (step + 1),
        s ++ List.replicate (sub.length - 1) [] ++ pntrRight p.source (step + 1), u ++ List.replicate (sub.length - 1) [] ++ pntrRight p.user (step + 1)⟩

/-- `deleteSubProof(step)` (mmpfas.c 1326–1355).  Of the deallocations only that of `source[step]` shows: the other elements are dropped. -/
def deleteSubProof (E : Env) (p : Pip) (step : Int) : Out Pip :=
  rdN p.proof step >>= fun x =>
  if x = unk then .val p
  else
    subproofLen E p.proof step >>= fun n =>
    nmbrLeft p.proof (step - n + 1) >>= fun a =>
    setF p.source step [] >>= fun src =>
    pntrLeft p.target (step - n + 1) >>= fun t => pntrLeft src (step - n + 1) >>= fun s => pntrLeft p.user (step - n + 1) >>= fun u =>
    .val ⟨a ++ [unk] ++ nmbrRight p.proof (step + 2), t ++ pntrRight p.target (step + 1), s ++ pntrRight src (step + 1), u ++ pntrRight p.user (step + 1)⟩

/-- The dummy variable for token `t` (mmpfas.c 2175–2186): `vars` is `reqVarList`, `d` is `g_pipDummyVars`.  A variable that is not in `reqVarList` would get what an
earlier use left in `tmp`: `ub`.  `declareDummyVars` (2171–2174) only enters the names in `g_MathToken` and is left out. -/
def dummyOf (E : Env) (d : Nat) (vars : List Nat) (t : Nat) : Out Nat :=
  if E.isVar t then (if t ∈ vars then .val (E.sep + 1 + d + vars.idxOf t) else .ub) else .val t

/-- The loops that change the variables of a string to dummy variables (mmpfas.c 2180–2198, 2335–2353). -/
def toDummies (E : Env) (d : Nat) (vars : List Nat) : List Nat → Out (List Nat)
  | [] => .val []
  | t :: l => dummyOf E d vars t >>= fun x => toDummies E d vars l >>= fun r => .val (x :: r)

/-- The loop over the required hypotheses, last one first (mmpfas.c 2155–2166): the new targets and `reqHypPos`, last one first. -/
def setHyps (E : Env) (proof : List Int) : List Nat → Int → List (List Nat) → Out (List (List Nat) × List Int)
  | [], _, t => .val (t, [])
  | h :: hs, pos, t =>
    setF t pos (E.stmt h).math >>= fun t1 =>
    (if hs = [] then .val pos else subproofLen E proof pos >>= fun n => .val (pos - n)) >>= fun pos1 =>
    setHyps E proof hs pos1 t1 >>= fun r => .val (r.1, pos :: r.2)

/-- The loop that changes the variables of the hypotheses (mmpfas.c 2189–2198). -/
def renHyps (E : Env) (d : Nat) (vars : List Nat) : List Int → List (List Nat) → Out (List (List Nat))
  | [], t => .val t
  | pos :: ps, t => getF t pos >>= fun m => toDummies E d vars m >>= fun m1 => setF t pos m1 >>= renHyps E d vars ps

/-- `initStep(step)` (mmpfas.c 2126–2210): the new proof and the new `g_pipDummyVars`. -/
def initStep (E : Env) (p : Pip) (d : Nat) (step : Int) : Out (Pip × Nat) :=
  rdN p.proof step >>= fun x =>
  if x < 0 then
    if x = unk then setF p.source step [] >>= fun s => .val ({ p with source := s }, d)
    else .bug 1809
  else stmtAt E x >>= fun A =>
    if A.kind = .e ∨ A.kind = .f then setF p.source step A.math >>= fun s => .val ({ p with source := s }, d)
    else
      setF p.source step A.math >>= fun s =>
      setHyps E p.proof A.reqHyp.reverse (step - 1) p.target >>= fun r =>
      getF s step >>= fun m => toDummies E d A.reqVars m >>= fun m1 => setF s step m1 >>= fun s1 =>
      renHyps E d A.reqVars r.2 r.1 >>= fun t =>
      .val ({ p with source := s1, target := t }, d + A.reqVars.length)

/-- `assignStatement(statemNum, step)` (mmpfas.c 227–245) -/
def assignStatement (E : Env) (p : Pip) (d : Nat) (stmt : Nat) (step : Int) : Out (Pip × Nat) :=
  rdN p.proof step >>= fun x =>
  if x ≠ unk then .bug 1802
  else stmtAt E stmt >>= fun A =>
    addSubProof p (List.replicate A.reqHyp.length unk ++ [(stmt : Int)]) step >>= fun q =>
    initStep E q d (step + A.reqHyp.length)

/-! ### Unification -/

/-- The unification functions, which are parameters of the model.
`hyps scheme instance` is `unifyH` called with no time limit, as at mmpfas.c 2357–2380: `none` if it fails; otherwise the substitution, and whether a further
call finds another one.  `uniq A B` is `uniqueUnif` (mmunif.c 1245): the value returned and the substitution (used if the value is 1). -/
structure Unifier where
  hyps : List Nat → List Nat → Option ((Nat → List Nat) × Bool)
  uniq : List Nat → List Nat → Nat × (Nat → List Nat)

/-- `makeSubstUnif` on a string with the substitution `τ` (mmunif.c, modelled in `Verif/Unif`; C48). -/
abbrev inst (E : Env) (τ : Nat → List Nat) (l : List Nat) : List Nat := MM.Unif.inst E.sep τ l

/-- `makeSubstAll(stateVector)` (mmpfas.c 2783–2812) -/
def makeSubstAll (E : Env) (τ : Nat → List Nat) (p : Pip) : Pip :=
  { p with target := p.target.map (inst E τ), source := p.source.map (fun m => if m ≠ [] then inst E τ m else m),
           user := p.user.map (fun m => if m ≠ [] then inst E τ m else m) }

/-- The loop over one string in `replaceDummyVar` (mmpfas.c 2829–2838), `sym` going down: the new string and the number of substitutions. -/
def replSyms (v : Nat) (m : List Nat) : Nat → List Nat → Nat → List Nat × Nat
  | 0, l, k => (l, k)
  | sym + 1, l, k => if l.getD sym 0 = v then replSyms v m sym (l.take sym ++ m ++ l.drop (sym + 1)) (k + 1) else replSyms v m sym l k

/-- The three loops for one string each of a step. -/
def replStr (v : Nat) (m l : List Nat) : List Nat × Nat := replSyms v m l.length l 0

/-- `replaceDummyVar(dummyVar, mString)` (mmpfas.c 2815–2878): the new proof and `numSubs`. -/
def replaceDummyVar (E : Env) (p : Pip) (n : Nat) (m : List Nat) : Pip × Nat :=
  ({ p with target := p.target.map (fun l => (replStr (n + E.sep) m l).1), source := p.source.map (fun l => (replStr (n + E.sep) m l).1),
            user := p.user.map (fun l => (replStr (n + E.sep) m l).1) },
   ((p.target ++ p.source ++ p.user).map (fun l => (replStr (n + E.sep) m l).2)).sum)

/-! ### Known subproofs -/

/-- The sources at the given positions (mmpfas.c 2281–2301). -/
def getAll (l : List (List Nat)) : List Nat → Out (List (List Nat))
  | [] => .val []
  | i :: is => getF l i >>= fun m => getAll l is >>= fun r => .val (m :: r)

/-- One step of `assignKnownSteps` (mmpfas.c 2264–2390) at position `pos`: the new sources and stack (top first); `none` if the hypotheses do not unify, which is
reported.  `d` is `g_pipDummyVars`. -/
def knownStep (E : Env) (U : Unifier) (d : Nat) (proof : List Int) (pos : Nat) (src : List (List Nat)) (stk : List Nat) :
    Out (Option (List (List Nat) × List Nat)) :=
  rdN proof pos >>= fun x =>
  if x ≤ 0 then (if x ≠ unk then .bug 1810 else .bug 1830)
  else stmtAt E x >>= fun A =>
    if A.kind = .e ∨ A.kind = .f then setF src pos A.math >>= fun s => .val (some (s, pos :: stk))
    else if stk.length < A.reqHyp.length then .bug 1850
    else
      getAll src (stk.take A.reqHyp.length).reverse >>= fun insts =>
      toDummies E d A.reqVars (bigStr E.sep (A.reqHyp.map fun h => (E.stmt h).math)) >>= fun scheme =>
      toDummies E d A.reqVars A.math >>= fun ass =>
      if U.hyps scheme (bigStr E.sep insts) = none then .val none
      else
        let r := (U.hyps scheme (bigStr E.sep insts)).getD (fun _ => [], false)
        setF src pos (inst E r.1 ass) >>= fun s =>
        if ass.any (fun y => decide (E.sep < y ∧ r.1 y = [y])) then .bug 1814
        else if r.2 then .bug 1815
        else .val (some (s, pos :: stk.drop A.reqHyp.length))

/-- The loop of `assignKnownSteps` over `count` positions from `pos` on: the sources, the stack, and whether it was left by the error. -/
def knownLoop (E : Env) (U : Unifier) (d : Nat) (proof : List Int) : Nat → Nat → List (List Nat) → List Nat → Out (List (List Nat) × List Nat × Bool)
  | 0, _, src, stk => .val (src, stk, false)
  | count + 1, pos, src, stk => knownStep E U d proof pos src stk >>= fun o =>
    match o with
    | none => .val (src, stk, true)
    | some r => knownLoop E U d proof count (pos + 1) r.1 r.2

/-- Assigning the targets of all but the last step (mmpfas.c 2396–2400). -/
def copyTargets (src : List (List Nat)) : Nat → Nat → List (List Nat) → Out (List (List Nat))
  | 0, _, t => .val t
  | count + 1, pos, t => getF src pos >>= fun m => setF t pos m >>= copyTargets src count (pos + 1)

/-- `assignKnownSteps(startStep, sbProofLen)` (mmpfas.c 2247–2408): the new proof, and whether an error was reported. -/
def assignKnownSteps (E : Env) (U : Unifier) (d : Nat) (p : Pip) (start len : Nat) : Out (Pip × Bool) :=
  knownLoop E U d p.proof len start p.source [] >>= fun r =>
  if r.2.2 = false ∧ r.2.1.length ≠ 1 then .bug 1816
  else copyTargets r.1 (len - 1) start p.target >>= fun t => .val ({ p with source := r.1, target := t }, r.2.2)

/-- The loop of `assignKnownSubProofs` (mmpfas.c 2221–2241) from position `k - 1` down; the flag collects the errors reported.
The first argument bounds the number of iterations. -/
def knownSubs (E : Env) (U : Unifier) (d : Nat) : Nat → Nat → Pip → Bool → Out (Pip × Bool)
  | 0, k, p, err => if k = 0 then .val (p, err) else .fuel
  | n + 1, k, p, err =>
    if k = 0 then .val (p, err)
    else subproofLen E p.proof ((k : Int) - 1) >>= fun len =>
      nmbrSeg p.proof ((k : Int) - len + 1) k >>= fun q =>
      if unk ∈ q then knownSubs E U d n (k - 1) p err
      else assignKnownSteps E U d p (k - len.toNat) len.toNat >>= fun r => knownSubs E U d n (k - len.toNat) r.1 (err || r.2)

/-- `assignKnownSubProofs()` (mmpfas.c 2214–2243) -/
def assignKnownSubProofs (E : Env) (U : Unifier) (d : Nat) (p : Pip) : Out (Pip × Bool) := knownSubs E U d p.proof.length p.proof.length p false

/-- The loop that initialises the steps without source (mmpfas.c 3142–3146; metamath.c 4618–4623): `count` steps from `step` on. -/
def initEmpty (E : Env) : Nat → Nat → Pip → Nat → Out (Pip × Nat)
  | 0, _, p, d => .val (p, d)
  | count + 1, step, p, d => getF p.source step >>= fun m =>
    if m = [] then initStep E p d step >>= fun r => initEmpty E count (step + 1) r.1 r.2
    else initEmpty E count (step + 1) p d

/-- The loop that initialises all steps (metamath.c 5709–5711). -/
def initEach (E : Env) : Nat → Nat → Pip → Nat → Out (Pip × Nat)
  | 0, _, p, d => .val (p, d)
  | count + 1, step, p, d => initStep E p d step >>= fun r => initEach E count (step + 1) r.1 r.2

/-! ### Automatic unification -/

/-- The state of the loops of `autoUnify`: the proof, `somethingChanged`, `somethingNotUnified`. -/
structure AU where
  pip : Pip
  changed : Bool
  bad : Bool

/-- The strings compared in one pass (mmpfas.c 2714–2736). -/
def auPair (p : Pip) (step pass : Nat) : Out (List Nat × List Nat) :=
  if pass = 0 then getF p.target step >>= fun a => getF p.user step >>= fun b => .val (a, b)
  else if pass = 1 then getF p.source step >>= fun a => getF p.user step >>= fun b => .val (a, b)
  else getF p.target step >>= fun a => getF p.source step >>= fun b => .val (a, b)

/-- One pass for one step (mmpfas.c 2712–2757). -/
def auOne (E : Env) (U : Unifier) (s : AU) (x : Nat × Nat) : Out AU :=
  auPair s.pip x.1 x.2 >>= fun ab =>
  if ab.1 ≠ [] ∧ ab.2 ≠ [] ∧ ab.1 ≠ ab.2 then
    if (U.uniq ab.1 ab.2).1 = 1 then .val ⟨makeSubstAll E (U.uniq ab.1 ab.2).2 s.pip, true, s.bad⟩ else .val { s with bad := true }
  else .val s

/-- The steps with the three passes each. -/
def auPairs (plen : Nat) : List (Nat × Nat) := (List.range plen).flatMap fun i => [(i, 0), (i, 1), (i, 2)]

/-- The `for` loops (mmpfas.c 2709–2759). -/
def auPass (E : Env) (U : Unifier) : List (Nat × Nat) → AU → Out AU
  | [], s => .val s
  | x :: xs, s => auOne E U s x >>= auPass E U xs

/-- The `while` loop (mmpfas.c 2707–2760); the first argument bounds the number of iterations. -/
def auLoop (E : Env) (U : Unifier) (plen : Nat) : Nat → AU → Out AU
  | 0, _ => .fuel
  | n + 1, s => auPass E U (auPairs plen) { s with changed := false } >>= fun s1 => if s1.changed then auLoop E U plen n s1 else .val s1

/-- `autoUnify(congrats)` (mmpfas.c 2690–2779): the proof and whether the congratulations are printed. -/
def autoUnify (n : Nat) (E : Env) (U : Unifier) (p : Pip) (congrats : Bool) : Out (Pip × Bool) :=
  auLoop E U p.proof.length n ⟨p, true, false⟩ >>= fun s => .val (s.pip, congrats && !s.bad && decide (unk ∉ s.pip.proof))

/-- `initProofStruct(proofStruct, proof, proveStmt)` (mmpfas.c 3120–3153), the proof being unpacked already (`nmbrUnsquishProof`, modelled in `Verif/Tree`):
the structure, `g_pipDummyVars`, and whether an error was reported. -/
def initProofStruct (n : Nat) (E : Env) (U : Unifier) (proof : List Int) (prove : Nat) : Out (Pip × Nat × Bool) :=
  setF (List.replicate proof.length []) ((proof.length : Int) - 1) (E.stmt prove).math >>= fun t =>
  assignKnownSubProofs E U 0 ⟨proof, t, List.replicate proof.length [], List.replicate proof.length []⟩ >>= fun r =>
  initEmpty E proof.length 0 r.1 0 >>= fun q =>
  autoUnify n E U q.1 false >>= fun a => .val (a.1, q.2, r.2)

end MM.Pfas
