import Verif.Impr.Model
import Verif.Pfas.Session
/-!
# Model of MINIMIZE_WITH: `replaceStatement`, `checkStmtMatch`, `minimizeProof` (src/mmpfas.c 327–961, 1357–1491, 2013–2123)

`replaceStatement` is modelled for `searchMethod` 0 (MINIMIZE_WITH, and IMPROVE / 2): `proveFloating` is called only for `$f` hypotheses, so that `tryFloatingProofLater` is always
`N` and `hasFloatingProof` is not used.  The arrays that it keeps for the hypotheses are a function from the number of the hypothesis to a `Slot`.  Messages and storage are not
modelled.
-/
namespace MM.Repl
open MM.Veri MM.Proof MM.Data MM.Tree MM.Pfas MM.Impr
open MM.Unif (Cfg SV SVH ResH makeSubst unifyH unifyHNext)

/-- Element of `hypReEntryFlagList`, `hypStateVectorList`, `hypStepList`, `hypProofList`.  `step` is counted from the first thing tried (`trialStep - (scanLowerBound - reqHyps)`). -/
structure Slot where
  flag : Nat
  sv : Option SVH
  step : Nat
  proof : List Int

/-- The steps that may be tried: `scanLowerBound`, `scanUpperBound`, and `indepKnownSteps` (everything is allowed if `subProofFlag` is 1). -/
structure Range where
  lo : Nat
  hi : Nat
  ok : Nat → Bool

/-- Exchange of two elements. -/
def swapAt (l : List Nat) (i j : Nat) : List Nat := (l.set i (l.getD j 0)).set j (l.getD i 0)

/-- Moving the `$e` hypotheses to the front (mmpfas.c 452–461): the list and `schEHyps`; the first argument counts the rest of the loop, the next is `hyp`. -/
def frontE (isE : Nat → Bool) : Nat → Nat → List Nat × Nat → List Nat × Nat
  | 0, _, r => r
  | c + 1, h, r => if isE (r.1.getD h 0) then frontE isE c (h + 1) (swapAt r.1 h r.2, r.2 + 1) else frontE isE c (h + 1) r

/-- The inner loop of the sort by length (mmpfas.c 467–474) -/
def bubbleIn (len : Nat → Nat) (h : Nat) : Nat → Nat → List Nat → List Nat
  | 0, _, l => l
  | c + 1, i, l => bubbleIn len h c (i + 1) (if len (l.getD h 0) < len (l.getD i 0) then swapAt l h i else l)

/-- The outer loop (mmpfas.c 465–475) -/
def bubble (len : Nat → Nat) (nE : Nat) : Nat → Nat → List Nat → List Nat
  | 0, _, l => l
  | c + 1, h, l => bubble len nE c (h + 1) (bubbleIn len h (nE - (h + 1)) (h + 1) l)

/-- `hypSortMap` and `schEHyps` (mmpfas.c 436–475): `isE j` if hypothesis `j` is a `$e`, `len j` is its length. -/
def sortMap (isE : Nat → Bool) (len : Nat → Nat) (n : Nat) : List Nat × Nat :=
  let r := frontE isE n 0 (List.range n, 0)
  (bubble len r.2 r.2 0 r.1, r.2)

/-- What a hypothesis is tested against (mmpfas.c 617–632): first the required hypotheses of the theorem being proved, then the steps. -/
def testStr (X : Impr.Ctx) (R : Range) (k : Nat) : Out (List Nat) :=
  if k < (X.E.stmt X.prove).reqHyp.length then .val (X.E.stmt ((X.E.stmt X.prove).reqHyp.getD k 0)).math
  else getF X.pip.target ((R.lo + (k - (X.E.stmt X.prove).reqHyp.length) : Nat) : Int)

/-- The proof of it (mmpfas.c 754–766) -/
def testProof (X : Impr.Ctx) (R : Range) (k : Nat) : Out (List Int) :=
  if k < (X.E.stmt X.prove).reqHyp.length then .val [((X.E.stmt X.prove).reqHyp.getD k 0 : Int)]
  else subproofLen X.E X.pip.proof ((R.lo + (k - (X.E.stmt X.prove).reqHyp.length) : Nat) : Int) >>= fun len =>
    nmbrSeg X.pip.proof (((R.lo + (k - (X.E.stmt X.prove).reqHyp.length) : Nat) : Int) - len + 2) (((R.lo + (k - (X.E.stmt X.prove).reqHyp.length) : Nat) : Int) + 1)

/-- The step may not be used (mmpfas.c 634–643). -/
def barred (X : Impr.Ctx) (R : Range) (k : Nat) : Bool :=
  decide ((X.E.stmt X.prove).reqHyp.length ≤ k) && !R.ok (R.lo + (k - (X.E.stmt X.prove).reqHyp.length))

/-- Whether the string occurred before `k` (mmpfas.c 722–744; the code looks from the start on). -/
def seen (X : Impr.Ctx) (R : Range) (t : List Nat) : Nat → Out Bool
  | 0 => .val false
  | k + 1 => testStr X R k >>= fun a => if a = t then .val true else seen X R t k

/-- A test without dummy variables in the hypothesis that rejects, and the test of the first symbols (mmpfas.c 646–662). -/
def unlike (C : Cfg) (m t : List Nat) (dum : Bool) : Bool :=
  (!dum && decide (t ≠ m)) || (C.isCon (t.headD 0) && C.isCon (m.headD 0) && decide (t.headD 0 ≠ m.headD 0))

/-- The call of `unifyH` with the re-entry flag of the slot (mmpfas.c 667–675). -/
def unifSlot (X : Impr.Ctx) (n : Nat) (m t : List Nat) (s : Slot) : Out ResH :=
  if s.flag = 1 then unifyH X.on n X.C 1 m t
  else s.sv.elim .ub fun v => unifyHNext X.on n n X.C m t { v with sv := { v.sv with trials := 1 } }

/-- The state vector that `unifyH` leaves when it returns 1; for 0 and 2 (after `purgeStateVector`) there is none. -/
def ansOf : ResH → Option SVH
  | .found v => some v
  | _ => none

/-- The loop over `trialStep` (mmpfas.c 606–770): whether a match was found, and the new slot.  The first argument counts the rest of the loop; `m` is the hypothesis after
substitutions, `dum` is `dummyVarFlag`. -/
def scan (X : Impr.Ctx) (n : Nat) (R : Range) (m : List Nat) (dum : Bool) : Nat → Nat → Slot → Out (Bool × Slot)
  | 0, _, s => .val (false, s)
  | c + 1, k, s =>
    if barred X R k then scan X n R m dum c (k + 1) s
    else testStr X R k >>= fun t =>
      if dum = false ∧ t ≠ m then scan X n R m dum c (k + 1) s
      else if t = [] ∨ m = [] then .ub
      else if unlike X.C m t dum then scan X n R m dum c (k + 1) s
      else if s.flag < 1 ∨ 2 < s.flag then .bug 1851
      else unifSlot X n m t s >>= fun r =>
        if ansOf r = none then
          if dum = false ∧ s.flag = 2 then .val (false, { s with flag := 1, sv := none })
          else scan X n R m dum c (k + 1) { s with flag := 1, sv := none }
        else (if s.flag = 1 then seen X R t k else .val false) >>= fun b =>
          if b then scan X n R m dum c (k + 1) { s with sv := none }
          else testProof X R k >>= fun q => .val (true, ⟨2, ansOf r, k, q⟩)

/-- The substitutions of the earlier hypotheses (mmpfas.c 535–556): the string and `dummyVarFlag`. -/
def substs (C : Cfg) (σ : Nat → Slot) : List Nat → List Nat × Bool → Out (List Nat × Bool)
  | [], r => .val r
  | j :: js, r => (σ j).sv.elim .ub fun v => makeSubst C v.sv r.1 >>= fun r1 => substs C σ js r1

/-- The hypothesis after substitutions (mmpfas.c 522–556): `pos` is `hyp`, `v` is `stateVector`. -/
def hypStr (C : Cfg) (v : SV) (ord : List Nat) (nE : Nat) (hs : List (List Nat)) (σ : Nat → Slot) (pos : Nat) : Out (List Nat × Bool) :=
  makeSubst C v (hs.getD (ord.getD pos 0) []) >>= fun r => substs C σ (ord.take (min pos nE)) r

/-- Changing one slot. -/
def upd (σ : Nat → Slot) (j : Nat) (s : Slot) : Nat → Slot := fun i => if i = j then s else σ i

/-- One round of the loop over the hypotheses (mmpfas.c 519–814): whether a match was found, and the new slots.  `total` is the number of things to try. -/
def tryHyp (X : Impr.Ctx) (n : Nat) (R : Range) (i : Nat) (v : SV) (ord : List Nat) (nE : Nat) (hs : List (List Nat)) (pos : Nat) (σ : Nat → Slot) : Out (Bool × (Nat → Slot)) :=
  hypStr X.C v ord nE hs σ pos >>= fun m =>
  if pos < nE ∧ (X.E.stmt ((X.E.stmt i).reqHyp.getD (ord.getD pos 0) 0)).kind ≠ .e then .bug 1823
  else if nE ≤ pos ∧ (X.E.stmt ((X.E.stmt i).reqHyp.getD (ord.getD pos 0) 0)).kind ≠ .f then .bug 1824
  else if (σ (ord.getD pos 0)).flag < 1 ∨ 3 < (σ (ord.getD pos 0)).flag then .bug 1826
  else
    let total := (X.E.stmt X.prove).reqHyp.length + (R.hi - R.lo)
    let start := if (σ (ord.getD pos 0)).flag = 2 then (σ (ord.getD pos 0)).step else 0
    (if (σ (ord.getD pos 0)).flag = 3 then .val (false, { σ (ord.getD pos 0) with flag := 1 }) else scan X n R m.1 m.2 (total - start) start (σ (ord.getD pos 0))) >>= fun r =>
    if r.1 then .val (true, upd σ (ord.getD pos 0) r.2)
    else if nE ≤ pos ∧ (σ (ord.getD pos 0)).flag = 1 ∧ (m.1.any fun t => decide (X.E.sep < t)) = false then
      proveFloating X n m.1 >>= fun q =>
      if q = [] then .val (false, upd σ (ord.getD pos 0) r.2) else .val (true, upd σ (ord.getD pos 0) { r.2 with flag := 3, proof := q })
    else .val (false, upd σ (ord.getD pos 0) r.2)

/-- The loop over the hypotheses with backtracking (mmpfas.c 519–893): true when all have proofs.  The first argument bounds the number of rounds. -/
def hypsLoop (X : Impr.Ctx) (n : Nat) (R : Range) (i : Nat) (v : SV) (ord : List Nat) (nE : Nat) (hs : List (List Nat)) : Nat → Nat → (Nat → Slot) → Out (Bool × (Nat → Slot))
  | 0, _, _ => .fuel
  | f + 1, pos, σ =>
    if ord.length ≤ pos then .val (true, σ)
    else tryHyp X n R i v ord nE hs pos σ >>= fun r =>
      if r.1 then hypsLoop X n R i v ord nE hs f (pos + 1) r.2
      else if pos = 0 then .val (false, r.2)
      else hypsLoop X n R i v ord nE hs f (pos - 1) r.2

/-- The loop over the unifications of the assertion with the step (mmpfas.c 498–913): the proof, empty if there is none.  The first argument bounds the rounds; the next gives
the values that the unifications of the hypotheses leave in `g_unifTrialCount`, round by round (any values: what is proved holds for those of the program). -/
def mainLoop (X : Impr.Ctx) (n : Nat) (R : Range) (i : Nat) (A m : List Nat) (ord : List Nat) (nE : Nat) (hs : List (List Nat)) : Nat → (Nat → Nat) → ResH → (Nat → Slot) → Out (List Int)
  | 0, _, _, _ => .fuel
  | _ + 1, _, .none, _ => .val []
  | _ + 1, _, .timeout, _ => .val []
  | f + 1, cnt, .found v, σ =>
    hypsLoop X n R i v.sv ord nE hs n 0 σ >>= fun r =>
    if r.1 then
      if ((List.range hs.length).map fun j => (r.2 j).proof).any List.isEmpty then .bug 1852
      else .val (((List.range hs.length).map fun j => (r.2 j).proof).flatten ++ [(i : Int)])
    else unifyHNext X.on n n X.C A m { v with sv := { v.sv with trials := cnt 0 } } >>= fun q => mainLoop X n R i A m ord nE hs f (fun k => cnt (k + 1)) q r.2

/-- `replaceStatement(i, step, prove, …)` (mmpfas.c 327–961) with the steps of `R` to try. -/
def replaceStatement (X : Impr.Ctx) (n : Nat) (R : Range) (cnt : Nat → Nat) (i step : Nat) : Out (List Int) :=
  if X.override = 0 ∧ X.disc i = true then .bug 1868
  else getF X.pip.target step >>= fun m =>
    if (X.E.stmt i).kind ≠ .a ∧ (X.E.stmt i).kind ≠ .p then .bug 1822
    else toDummies X.E X.d (X.E.stmt i).reqVars (X.E.stmt i).math >>= fun A =>
      dummyHyps X.E X.d (X.E.stmt i).reqVars (X.E.stmt i).reqHyp >>= fun hs =>
      let o := sortMap (fun j => decide ((X.E.stmt ((X.E.stmt i).reqHyp.getD j 0)).kind = .e)) (fun j => (hs.getD j []).length) hs.length
      unifyH X.on n X.C 1 A m >>= fun r =>
      mainLoop X n R i A m o.1 o.2 hs n cnt r fun _ => ⟨1, none, 0, []⟩

/-- The steps to try if `subProofFlag` is 1: those of the subproof (mmpfas.c 383–391). -/
def subRange (X : Impr.Ctx) (step : Nat) : Out Range := subproofLen X.E X.pip.proof step >>= fun len => .val ⟨((step : Int) - len + 1).toNat, step, fun _ => true⟩

/-! ## MINIMIZE_WITH -/

/-- Whether `unifyH` does not return 0. -/
def unifies : ResH → Bool
  | .none => false
  | _ => true

/-- `checkStmtMatch(i, step) != 0` (mmpfas.c 1357–1491) for a `$a` or `$p` statement -/
def stmtMatch (X : Impr.Ctx) (n : Nat) (i step : Nat) : Out Bool :=
  getF X.pip.target step >>= fun m => getF X.pip.user step >>= fun u =>
  if m = [] ∨ (X.E.stmt i).math = [] then .ub
  else
    let b := (X.E.stmt i).math
    let first := X.C.isCon (b.headD 0) && X.C.isCon (m.headD 0)
    if first = true ∧ b.headD 0 ≠ m.headD 0 then .val false
    else if b.getLastD 0 ≠ m.getLastD 0 ∧ X.C.isCon (b.getLastD 0) = true ∧ X.C.isCon (m.getLastD 0) = true then .val false
    else if 1 < m.length ∧ 1 < b.length ∧ first = true ∧ b.getD 1 0 ≠ m.getD 1 0 ∧ X.C.isCon (b.getD 1 0) = true ∧ X.C.isCon (m.getD 1 0) = true then .val false
    else toDummies X.E X.d (X.E.stmt i).reqVars b >>= fun A =>
      unifyH X.on n X.C 1 m A >>= fun r =>
      if u = [] then .val (unifies r)
      else unifyH X.on n X.C 1 u A >>= fun q => .val (unifies r && unifies q)

/-- The arguments of a search in the state `s` of the session. -/
def at' (X : Impr.Ctx) (s : MM.Pfas.St) : Impr.Ctx := { X with pip := s.pip, d := s.d }

/-- The search for a replacement of one step (mmpfas.c 2041–2083): empty if it is not to be replaced.  `cnt` gives the values of `g_unifTrialCount` for
every call of `replaceStatement`. -/
def miniFind (X : Impr.Ctx) (n : Nat) (cnt : Pip → Nat → Nat → Nat) (grow : Bool) (i step : Nat) : Out (List Int) :=
  getF X.pip.target step >>= fun m =>
  if (m.any fun t => decide (X.E.sep < t)) = true then .val []
  else stmtMatch X n i step >>= fun b =>
    if b = false then .val []
    else if X.pip.proof.getD step 0 = (i : Int) ∧ grow = true then .val []
    else subRange X step >>= fun R => replaceStatement X n R (cnt X.pip step) i step >>= fun q =>
      if unk ∈ q then .val []
      else .val q

/-- One step (mmpfas.c 2041–2110): the new state if the step is replaced. -/
def miniStep (X : Impr.Ctx) (n : Nat) (U : Unifier) (cnt : Pip → Nat → Nat → Nat) (grow : Bool) (i step : Nat) (s : MM.Pfas.St) : Out (Option MM.Pfas.St) :=
  miniFind (at' X s) n cnt grow i step >>= fun q =>
  if q = [] then .val none
  else subproofLen X.E s.pip.proof step >>= fun len =>
    if (q.length : Int) < len ∨ grow = true then
      if s.pip.proof.getD step 0 = unk ∧ grow = false then .bug 1831
      else exec n X.E U X.prove s (.insert q step) >>= fun t => .val (some t)
    else .val none

/-- The loop over the steps, last one first (mmpfas.c 2040–2110) -/
def miniFor (X : Impr.Ctx) (n : Nat) (U : Unifier) (cnt : Pip → Nat → Nat → Nat) (grow : Bool) (i : Nat) (s : MM.Pfas.St) : Nat → Out (Option MM.Pfas.St)
  | 0 => .val none
  | k + 1 => miniStep X n U cnt grow i k s >>= fun r => if r.isSome then .val r else miniFor X n U cnt grow i s k

/-- The `while` loop (mmpfas.c 2037–2122); the first argument bounds the rounds, `start` is `startingPlen`. -/
def miniLoop (X : Impr.Ctx) (n : Nat) (U : Unifier) (cnt : Pip → Nat → Nat → Nat) (grow : Bool) (i start : Nat) : Nat → MM.Pfas.St → Out MM.Pfas.St
  | 0, _ => .fuel
  | f + 1, s => miniFor X n U cnt grow i s s.pip.proof.length >>= fun r =>
    r.elim (.val s) fun t => if grow = true ∧ 2 * start < s.pip.proof.length then .val t else miniLoop X n U cnt grow i start f t

/-- `minimizeProof(i, prove, allowGrowthFlag)` (mmpfas.c 2014–2123) -/
def minimizeProof (X : Impr.Ctx) (n : Nat) (U : Unifier) (cnt : Pip → Nat → Nat → Nat) (grow : Bool) (i : Nat) (s : MM.Pfas.St) : Out MM.Pfas.St :=
  miniLoop X n U cnt grow i s.pip.proof.length n s

end MM.Repl
