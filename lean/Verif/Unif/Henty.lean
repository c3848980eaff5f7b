import Verif.Unif.Model
/-!
# Model of the Henty filter: `unifyH`, `uniqueUnif` (src/mmunif.c 1237–1360, 1434–1720)

The three parallel arrays `hentyVars`, `hentyVarStart`, `hentyVarLen` are a list of rows.  Storage (the copies that `uniqueUnif` makes) is not modelled.
-/
namespace MM.Unif

/-- A row: the variable, the start and the length of its value. -/
structure Row where
  var : Nat
  start : Nat
  len : Nat
deriving Repr, DecidableEq

/-- The arrays extracted from the state vector (mmunif.c 1510–1518), bottom of the stack first. -/
def hRows (v : SV) : List Row := ((v.stk.map Frame.var).zip v.seg).reverse.map fun e => ⟨e.1, e.2.1, e.2.2⟩

/-- The loop over `j` (mmunif.c 1533–1537), which looks at the same element every time: `n` rounds. -/
def swapVal (i v1 v2 : Nat) : Nat → List Nat → List Nat
  | 0, l => l
  | n + 1, l => swapVal i v1 v2 n (if l.getD i 0 = v2 then l.set i v1 else l)

/-- The loop that reverses variable-for-variable substitutions (mmunif.c 1523–1541): `done` has the rows before `i`; `l` is `hentySubstList`. -/
def swapRows (C : Cfg) : List Row → List Row → List Nat → Out (List Row × List Nat)
  | done, [], l => .val (done, l)
  | done, r :: rs, l =>
    if r.len = 1 then do
      let v2 ← rd l r.start
      if v2 > C.mt ∧ (r.var : Int) > v2 then swapRows C (done ++ [{ r with var := v2.toNat }]) rs (swapVal r.start r.var v2.toNat l.length l)
      else swapRows C (done ++ [r]) rs l
    else swapRows C (done ++ [r]) rs l

/-! ### The heap sort (mmunif.c 1543–1595) -/

/-- Element `i` (from 1) of the arrays. -/
def rowAt (a : List Row) (i : Nat) : Out Row := if 1 ≤ i ∧ i ≤ a.length then .val (a.getD (i - 1) ⟨0, 0, 0⟩) else .ub

/-- Assigning element `i` (from 1). -/
def setRow (a : List Row) (i : Nat) (r : Row) : Out (List Row) := if 1 ≤ i ∧ i ≤ a.length then .val (a.set (i - 1) r) else .ub

/-- The label `label20` (mmunif.c 1573–1591) up to the next `goto label10`; the first argument bounds the number of jumps. -/
def sift (ir : Nat) (r : Row) : Nat → Nat → Nat → List Row → Out (List Row)
  | 0, _, _, _ => .fuel
  | n + 1, i, j, a =>
    if j ≤ ir then
      (if j < ir then rowAt a j >>= fun x => rowAt a (j + 1) >>= fun y => .val (if x.var < y.var then j + 1 else j) else .val j) >>= fun j =>
      rowAt a j >>= fun x =>
      if r.var < x.var then setRow a i x >>= fun a => sift ir r n j (j + j) a
      else sift ir r n i (ir + 1) a
    else setRow a i r

/-- The label `label10` (mmunif.c 1550–1570); the first argument bounds the number of jumps. -/
def heapLoop : Nat → Nat → Nat → List Row → Out (List Row)
  | 0, _, _, _ => .fuel
  | n + 1, el, ir, a =>
    if 1 < el then
      rowAt a (el - 1) >>= fun r => sift ir r (a.length + 2) (el - 1) (el - 1 + (el - 1)) a >>= fun a => heapLoop n (el - 1) ir a
    else
      rowAt a ir >>= fun r => rowAt a 1 >>= fun x => setRow a ir x >>= fun a =>
      if ir - 1 = 1 then setRow a 1 r
      else sift (ir - 1) r (a.length + 2) el (el + el) a >>= fun a => heapLoop n el (ir - 1) a

/-- The sort (mmunif.c 1546–1595) -/
def heapSort (a : List Row) : Out (List Row) := if a.length < 2 then .val a else heapLoop (2 * a.length) (a.length / 2 + 1) a.length a

/-- The copying of one value (mmunif.c 1609–1611) -/
def copyVal (l : List Nat) (start : Nat) : Nat → Out (List Nat)
  | 0 => .val []
  | n + 1 => rd l start >>= fun t => copyVal l (start + 1) n >>= fun r => .val (t.toNat :: r)

/-- The loop that rebuilds the list of substitutions (mmunif.c 1607–1614): the new starts and `substList`. -/
def rebuild (l : List Nat) : List Row → Nat → Out (List Nat × List Nat)
  | [], _ => .val ([], [])
  | r :: rs, pos => copyVal l r.start r.len >>= fun x => rebuild l rs (pos + r.len) >>= fun y => .val (pos :: y.1, x ++ y.2)

/-- An entry of the filter: `hentyVars`, `hentyVarStart`, `hentySubstList` (`hentyVarLen` is stored but not used). -/
structure HEnt where
  vars : List Nat
  starts : List Nat
  subst : List Nat
deriving Repr, DecidableEq

/-- `hentyNormalize` (mmunif.c 1502–1622).  (`bug(1907)` compares two sums of the same lengths.) -/
def hentyNormalize (C : Cfg) (v : SV) : Out HEnt :=
  swapRows C [] (hRows v) v.unified >>= fun x => heapSort x.1 >>= fun rows => rebuild x.2 rows 0 >>= fun y => .val ⟨rows.map Row.var, y.1, y.2⟩

/-- The state vector with the filter (its elements 12–15). -/
structure SVH where
  sv : SV
  filter : List HEnt
deriving Repr, DecidableEq

/-- The result of `unifyH`: 0, 1 (with the state vector), 2. -/
inductive ResH where
  | none
  | found (v : SVH)
  | timeout
deriving Repr, DecidableEq

/-- `unifyH(schemeA, schemeB, &stateVector, 0)` (mmunif.c 1454–1468); `on` is `g_hentyFilter`. -/
def unifyH (on : Bool) (n : Nat) (C : Cfg) (trials : Nat) (A B : List Nat) : Out ResH :=
  unify n C trials A B >>= fun r =>
  match r with
  | .none => .val .none
  | .timeout => .val .timeout
  | .found v => if on then hentyNormalize C v >>= fun e => .val (.found ⟨v, [e]⟩) else .val (.found ⟨v, []⟩)

/-- `unifyH(schemeA, schemeB, &stateVector, 1)` (mmunif.c 1469–1500), with `hentyMatch` (1624–1651) and `hentyAdd` (1653–1674); the first argument bounds the rounds
of the loop. -/
def unifyHNext (on : Bool) : Nat → Nat → Cfg → List Nat → List Nat → SVH → Out ResH
  | 0, _, _, _, _, _ => .fuel
  | m + 1, n, C, A, B, v =>
    unifyNext n C A B v.sv >>= fun r =>
    match r with
    | .none => .val .none
    | .timeout => .val .timeout
    | .found w =>
      if on then hentyNormalize C w >>= fun e =>
        if e ∈ v.filter then unifyHNext on m n C A B ⟨w, v.filter⟩ else .val (.found ⟨w, v.filter ++ [e]⟩)
      else .val (.found ⟨w, []⟩)

/-- `uniqueUnif(schemeA, schemeB, &stateVector)` (mmunif.c 1237–1360): the value returned and, if that is 1, the state vector. -/
def uniqueUnif (on : Bool) (m n : Nat) (C : Cfg) (trials : Nat) (A B : List Nat) : Out (Nat × Option SV) :=
  unifyH on n C trials A B >>= fun r =>
  match r with
  | .none => .val (0, none)
  | .timeout => .val (2, none)
  | .found v => unifyHNext on m n C A B v >>= fun r =>
    match r with
    | .none => .val (1, some v.sv)
    | .timeout => .val (2, none)
    | .found _ => .val (3, none)

end MM.Unif
