import Verif.Data.Render
import Verif.Data.Knapsack
/-!
# Model of `compressProof` (src/mmdata.c 1963–2372)

`width` is `g_screenWidth`, `indent` is `2 + getSourceIndentation(statemNum)`.
-/
namespace MM.Data
open MM.Veri MM.Pars MM.Proof

/-- The digits before the last letter of a compressed label number, for `j = lab / 20` (mmdata.c 2325–2332; the characters are written from right to left).
The first argument bounds the number of iterations. -/
def encDigits : Nat → Nat → List Char
  | 0, _ => []
  | n + 1, j => if j = 0 then [] else encDigits n ((j - 1) / 5) ++ ["UVWXY".toList.getD ((j - 1) % 5) ' ']

/-- The compressed label number `lab` (mmdata.c 2322–2332). -/
def encLabel (lab : Nat) : List Char := encDigits (lab / 20) (lab / 20) ++ ["ABCDEFGHIJKLMNOPQRST".toList.getD (lab % 20) ' ']

/-- The loop that counts the digits (mmdata.c 2140–2144, 2302–2306). -/
def countDigits : Nat → Nat → Nat
  | 0, _ => 0
  | n + 1, k => if k = 0 then 0 else countDigits n ((k - 1) / 5) + 1

/-- `numchrs` (mmdata.c 2138–2144, 2300–2306) -/
def numChrs (lab : Nat) : Nat := 1 + countDigits (lab / 20) (lab / 20)

def isAssertN (E : Env) (x : Int) : Bool := decide ((E.stmt x.toNat).kind = .a) || decide ((E.stmt x.toNat).kind = .p)

/-- The bug checks of the loop that breaks up the label list (mmdata.c 2028–2051). -/
def splitCheck (plen : Nat) : List Int → Out Unit
  | [] => .val ()
  | x :: xs =>
    if x ≤ -1000 ∧ -1000 - x ≥ plen then .bug 345
    else if -1000 < x ∧ x < 0 ∧ x ≠ unk then .bug 1346
    else splitCheck plen xs

/-- `hypList`, `assertionList` (mmdata.c 2041–2048) -/
def hypsOf (E : Env) (l : List Int) : List Int := l.filter fun x => decide (0 ≤ x) && !isAssertN E x
def assertsOf (E : Env) (l : List Int) : List Int := l.filter fun x => decide (0 ≤ x) && isAssertN E x

/-- `localLabelFlags[k]` (mmdata.c 2034) -/
def isLocal (l : List Int) (k : Nat) : Bool := decide (-1000 - (k : Int) ∈ l)

/-- `localList` (mmdata.c 2056–2064) -/
def localsOf (l : List Int) (plen : Nat) : List Int := ((List.range plen).filter (isLocal l)).map fun (k : Nat) => -1000 - (k : Int)

/-- `explRefCount` (mmdata.c 2093–2115): the references to a label in the proof; `p` is `statemNum`. -/
def refCount (p : Nat) (proof : List Int) (x : Int) : Out Nat :=
  if proof.any (fun y => decide (y > 0) && decide (y ≥ p)) then .bug 1380
  else if x ≥ p then .ub     -- labelRefCount[explList[i]]
  else if (if x > 0 then proof.count x else 0) = 0 then .bug 1381
  else .val (proof.count x)

def refCounts (p : Nat) (proof : List Int) : List Int → Out (List Nat)
  | [] => .val []
  | x :: xs => do
    let c ← refCount p proof x
    let cs ← refCounts p proof xs
    .val (c :: cs)

/-- The order in which the loops at mmdata.c 2131–2153 visit the explicit labels (by index): the most used ones first. -/
def visitOrder (rc : List Nat) : List Nat :=
  (List.range (rc.foldl max 0)).reverse.flatMap fun i => (List.range rc.length).filter fun j => rc.getD j 0 == i + 1

/-- An explicit label: `explList[j]`, `explComprLen[j]`, `explLabelLen[j]`, `explWorth[j]`, `explUsedFlag[j]`. -/
structure ELab where
  stmt : Int
  len : Nat
  size : Nat
  worth : Int := 0
  used : Bool := false
deriving DecidableEq, Repr

/-- The explicit labels before the re-distribution (mmdata.c 2086–2170). -/
def mkLabs (E : Env) (numReq : Nat) (expl : List Int) (rc : List Nat) : List ELab :=
  expl.zipIdx.map fun x => { stmt := x.1, len := numChrs (numReq + (visitOrder rc).idxOf x.2), size := (E.lab x.1.toNat).length + 1 }

/-- Worths for the group of compressed length `i` (mmdata.c 2188–2200). -/
def initWorth (i : Nat) : List ELab → Out (List ELab)
  | [] => .val []
  | x :: xs =>
    if x.len = i then
      if x.used then .bug 1382
      else do
        let r ← initWorth i xs
        .val ({ x with worth := x.size } :: r)
    else do
      let r ← initWorth i xs
      .val ({ x with worth := -1 } :: r)

/-- The scan of the selection (mmdata.c 2229–2252): the labels, those selected, their total size, the number of labels still unassigned. -/
def takeSel (i : Nat) : List ELab → List Bool → Out (List ELab × List Int × Nat × Nat)
  | x :: xs, b :: bs =>
    if b then
      if x.len ≠ i then .bug 1384
      else if x.worth = -1 then .bug 1385
      else do
        let r ← takeSel i xs bs
        .val ({ x with used := true, worth := -1 } :: r.1, x.stmt :: r.2.1, x.size + r.2.2.1, r.2.2.2)
    else if x.len = i ∧ x.used = false then
      if x.worth ≠ x.size then .bug 1386
      else do
        let r ← takeSel i xs bs
        .val (x :: r.1, r.2.1, r.2.2.1, r.2.2.2 + 1)
    else do
      let r ← takeSel i xs bs
      .val (x :: r.1, r.2)
  | [], _ => .val ([], [], 0, 0)
  | _ :: _, [] => .ub

/-- Variables of the re-distribution: the labels, `newExplList` (`newExplPosition` is its length), `explOffset`. -/
structure FState where
  labs : List ELab
  out : List Int := []
  offset : Nat := 2
deriving DecidableEq, Repr

/-- The loop `while (explUnassignedCount > 0)` (mmdata.c 2201–2258), for at most the given number of iterations; `room` is `g_screenWidth - indentation`. -/
def fillLines (room : Int) (i : Nat) : Nat → Nat → FState → Out FState
  | _, 0, s => .val s
  | 0, _ + 1, _ => .fuel
  | n + 1, _ + 1, s => do
    let k ← knapsack01 (s.labs.map fun x => (x.size, x.worth)) (room - s.offset + 1)
    if k.1 < 0 then .bug 1383
    else do
      let r ← takeSel i s.labs k.2
      if s.out.length + r.2.1.length > s.labs.length then .ub     -- newExplList[newExplPosition]
      else fillLines room i n r.2.2.2 { labs := r.1, out := s.out ++ r.2.1, offset := if r.2.2.2 > 0 then 0 else s.offset + r.2.2.1 }

/-- The loop over the groups (mmdata.c 2185–2259): the groups `i`, …, `i + n - 1`; `fuel` bounds the iterations of each inner loop. -/
def groups (room : Int) (fuel : Nat) : Nat → Nat → FState → Out FState
  | _, 0, s => .val s
  | i, n + 1, s => do
    let labs ← initWorth i s.labs
    let s' ← fillLines room i fuel (labs.countP fun x => x.len == i) { s with labs := labs }
    groups room fuel (i + 1) n s'

/-- The re-ordering of the explicit labels (mmdata.c 2086–2268): `newExplList`. -/
def reorder (E : Env) (p : Nat) (proof expl : List Int) (room : Int) (fuel : Nat) : Out (List Int) := do
  let rc ← refCounts p proof expl
  let labs := mkLabs E (E.stmt p).reqHyp.length expl rc
  let s ← groups room fuel 1 ((labs.map ELab.len).foldl max 0) { labs := labs }
  if s.out.length ≠ expl.length then .bug 1387 else .val s.out

/-- The letters of the proof (mmdata.c 2281–2352); `l` is the final `labelList`, `l0` the first one (for the flags of the local labels), `k` the number of the
first step. -/
def encSteps (l l0 : List Int) : Nat → List Int → Out (List Char)
  | _, [] => .val []
  | k, x :: xs =>
    if x = unk then do
      let r ← encSteps l l0 (k + 1) xs
      .val ('?' :: r)
    else if nmbrElementIn 1 l x = 0 then .bug 1349
    else if (encLabel (nmbrElementIn 1 l x - 1)).length ≠ numChrs (nmbrElementIn 1 l x - 1) then .bug 1374
    else do
      let r ← encSteps l l0 (k + 1) xs
      .val (encLabel (nmbrElementIn 1 l x - 1) ++ (if isLocal l0 k then ['Z'] else []) ++ r)

/-- The label lists of the output: what follows the required hypotheses, in the order of the output (mmdata.c 2078, 2262–2268, 2356–2361). -/
def explicit (E : Env) (p : Nat) (proof : List Int) (old : Bool) (room : Int) (fuel : Nat) : Out (List Int) :=
  let l0 := nmbrUnion ((E.stmt p).reqHyp.map fun (i : Nat) => (i : Int)) proof
  let expl := (hypsOf E l0).drop (E.stmt p).reqHyp.length ++ assertsOf E l0
  if old then .val expl else reorder E p proof expl room fuel

/-- `compressProof(proof, p, old)` (mmdata.c 1963–2372).  `fuel` bounds the iterations of the loop over the lines of labels.  (The growing output buffer is not
modelled.) -/
def compressProof (E : Env) (p : Nat) (proof : List Int) (old : Bool) (width : Int) (indent : Nat) (fuel : Nat) : Out (List Char) :=
  if (E.stmt p).kind ≠ .p then .bug 1344
  else do
    let l0 := nmbrUnion ((E.stmt p).reqHyp.map fun (i : Nat) => (i : Int)) proof
    let _ ← splitCheck proof.length l0
    if (localsOf l0 proof.length).length ≠ (l0.filter fun x => decide (x ≤ -1000)).length then .bug 1347
    else do
      let expl ← explicit E p proof old (width - indent) fuel
      let letters ← encSteps ((hypsOf E l0).take (E.stmt p).reqHyp.length ++ expl ++ localsOf l0 proof.length) l0 0 proof
      let labels ← nmbrCvtRToVString E expl
      .val (['(', ' '] ++ labels ++ [' ', ')', ' '] ++ letters)

end MM.Data
