import Verif.Trace.Model

/-!
# Model of `bigAdd`, `bigSub` and `countSteps` (mmcmds.c 3138–3483)

The command SHOW TRACE_BACK / COUNT_STEPS.
-/
namespace MM.Count
open MM.Veri MM.Proof MM.Trace

abbrev Str := List Char

/-! ### Numbers written as strings of digits -/

/-- `bignum[len - p] - '0'`, or 0 when the number has fewer than `p` digits (mmcmds.c 3420–3423). -/
def digit (s : Str) (p : Nat) : Int := if p ≤ s.length then ((s.getD (s.length - p) ' ').toNat : Int) - 48 else 0

/-- `(char)(d + '0')`.  Simplification: `d` is between 0 and 9 when the arguments are numbers; the conversion to `char` is not modelled for other values. -/
def digitChar (d : Int) : Char := Char.ofNat (d + 48).toNat

/-- The loop over the positions `p`, `p+1`, … (`count` of them) (mmcmds.c 3419–3433); `acc` is the part of `bignum3` already written, which grows at the front. -/
def addLoop (a b : Str) : Nat → Nat → Int → Str → Int × Str
  | 0, _, carry, acc => (carry, acc)
  | count + 1, p, carry, acc =>
    let dsum := digit a p + digit b p + carry
    if dsum > 9 then addLoop a b count (p + 1) 1 (digitChar (dsum - 10) :: acc)
    else addLoop a b count (p + 1) 0 (digitChar dsum :: acc)

/-- `while (s[0] == '0') let(&s, right(s, 2))` (mmcmds.c 3435–3438, 3471–3474) -/
def dropZeros (s : Str) : Str := s.dropWhile (· == '0')

/-- `bigAdd(bignum1, bignum2)` (mmcmds.c 3410–3440) -/
def bigAdd (a b : Str) : Str :=
  let r := addLoop a b (max a.length b.length) 1 0 []
  dropZeros (digitChar r.1 :: r.2)

/-- 9s complement (mmcmds.c 3455–3458, 3467–3470) -/
def nines (s : Str) : Str := s.map fun c => digitChar (9 - ((c.toNat : Int) - 48))

/-- `bigSub(bignum1, bignum2)` (mmcmds.c 3449–3477) -/
def bigSub (a b : Str) : Str :=
  let r := bigAdd (nines a) b
  dropZeros (nines (if r.length < a.length then List.replicate (a.length - r.length) '0' ++ r else r))

/-! ### Counting -/

/-- What the command reads of the database: as SHOW TRACE_BACK, and `reqHypList`. -/
structure CDb extends TDb where
  req : Nat → List Nat

/-- The static arrays of `countSteps` (mmcmds.c 3144–3152, 3159) and `unprovedFlag`.  `cnt` is `stmtCount`, a `double`; simplification: it is an exact integer here.  `stmtNodeCount` and
`stmtAveDist` are computed by the program but never used; they are left out.  A cell of `stmtMaxPath` or `stmtProofLen` that has not been written is `none`. -/
structure CState where
  cnt : Nat → Int
  big : Nat → Str
  dist : Nat → Int
  maxPath : Nat → Option Nat
  plen : Nat → Option Nat
  usage : Nat → Nat
  unproved : Bool

/-- The initial contents of the arrays (mmcmds.c 3200–3206). -/
def initState : CState := { cnt := fun _ => 0, big := fun _ => [], dist := fun _ => 0, maxPath := fun _ => none, plen := fun _ => none, usage := fun _ => 0, unproved := false }

/-- The local variables of a call: `stepCount`, `stepBigCount`, `essentialplen`, and the static arrays. -/
structure Loc where
  cnt : Int
  big : Str
  len : Nat
  st : CState

/-- `stepCount--` and `bigSub(stepBigCount, "1")` for the hypotheses that count (mmcmds.c 3276–3287). -/
def subHyps (D : CDb) (ess : Bool) : List Nat → Int → Str → Int × Str
  | [], c, b => (c, b)
  | k :: ks, c, b => if ess = false ∨ D.kind k = .e then subHyps D ess ks (c - 1) (bigSub b ['1']) else subHyps D ess ks c b

/-- `stmtDist[statemNum]` and `stmtMaxPath[statemNum]` (mmcmds.c 3291–3294) -/
def updDist (s x : Nat) (st : CState) : CState :=
  if st.dist s < st.dist x + 1 then { st with dist := upd st.dist s (st.dist x + 1), maxPath := upd st.maxPath s (some x) } else st

/-- What follows for a statement `x` of the proof whose count is `c` (mmcmds.c 3263–3294). -/
def useStmt (D : CDb) (ess : Bool) (s x : Nat) (c : Int) (l : Loc) (st : CState) : Loc :=
  let r := if D.kind x = .p then subHyps D ess (D.req x) (l.cnt + c) (bigAdd l.big (st.big x)) else (l.cnt + c, bigAdd l.big (st.big x))
  { cnt := r.1, big := r.2, len := l.len + 1, st := updDist s x { st with usage := upd st.usage x (st.usage x + 1) } }

/-- One step of the proof of `s` (mmcmds.c 3238–3297); `f` is the recursive call. -/
def countStep (D : CDb) (ess : Bool) (f : Nat → CState → Out (Int × CState)) (s : Nat) (x : Int) (l : Loc) : Out Loc :=
  if x < 0 then
    if x ≤ -1000 then .val { l with len := l.len + 1 }
    else .val { cnt := l.cnt + 1, big := bigAdd l.big ['1'], len := l.len + 1, st := { l.st with unproved := true } }
  else if D.n < x.toNat then .ub
  else if l.st.cnt x.toNat = 0 then f x.toNat l.st >>= fun r => .val (useStmt D ess s x.toNat r.1 l r.2)
  else .val (useStmt D ess s x.toNat (l.st.cnt x.toNat) l l.st)

/-- The loop over the steps (mmcmds.c 3234–3298); `none` instead of the flags when `essentialFlag` is off. -/
def countLoop (D : CDb) (ess : Bool) (f : Nat → CState → Out (Int × CState)) (s : Nat) : List Int → Option (List Int) → Loc → Out Loc
  | [], _, l => .val l
  | x :: xs, none, l => countStep D ess f s x l >>= countLoop D ess f s xs none
  | _ :: _, some [], _ => .ub
  | x :: xs, some (e :: es), l =>
    if e = 0 then countLoop D ess f s xs (some es) l
    else countStep D ess f s x l >>= countLoop D ess f s xs (some es)

/-- `returnPoint:` (mmcmds.c 3300–3310) -/
def finish (s : Nat) (l : Loc) : Out (Int × CState) :=
  if l.st.big s ≠ [] then .bug 264
  else .val (l.cnt, { l.st with cnt := upd l.st.cnt s l.cnt, big := upd l.st.big s l.big, plen := upd l.st.plen s (some l.len) })

/-- `countSteps(statemNum, essentialFlag)` without the initialisation and the final report (mmcmds.c 3209–3310); the first argument bounds the depth of the recursion. -/
def countRec (D : CDb) (ess : Bool) : Nat → Nat → CState → Out (Int × CState)
  | 0, _, _ => .fuel
  | fuel + 1, s, st =>
    if D.kind s ≠ .p then finish s { cnt := 1, big := ['1'], len := 0, st := { st with dist := upd st.dist s 0 } }
    else proofOf D.toTDb s >>= fun proof =>
      essFlags D.toTDb ess proof >>= fun es =>
      countLoop D ess (countRec D ess fuel) s proof es { cnt := 0, big := ['0'], len := 0, st := { st with dist := upd st.dist s (-2) } } >>= finish s

/-! ### The report -/

/-- The numbers of the report: `stmtProofLen[statemNum]`, `actualSubTheorems`, `actualSteps`, `actualSubTheorems2`, `actualSteps2`, `stepBigCount`, `stmtDist[statemNum]` and the statements
of the longest path. -/
structure Report where
  len : Int
  subs : Nat
  steps : Int
  subs2 : Nat
  steps2 : Int
  big : Str
  dist : Int
  path : List Nat
deriving DecidableEq

/-- `stmtProofLen[i]` -/
def plenOf (st : CState) (i : Nat) : Out Nat := (st.plen i).elim .ub .val

/-- The number of hypotheses that count (mmcmds.c 3335–3341). -/
def hypCount (D : CDb) (ess : Bool) (i : Nat) : Nat := ((D.req i).filter fun k => ess = false ∨ D.kind k = .e).length

/-- The totals over the statements `i`, `i+1`, … (`count` of them) (mmcmds.c 3325–3343). -/
def totals (D : CDb) (ess : Bool) (st : CState) : Nat → Nat → Report → Out Report
  | 0, _, r => .val r
  | count + 1, i, r =>
    if D.kind i = .p ∧ st.cnt i ≠ 0 then
      plenOf st i >>= fun k =>
      if st.usage i > 1 then totals D ess st count (i + 1) { r with steps := r.steps + k, subs := r.subs + 1, subs2 := r.subs2 + 1, steps2 := r.steps2 + k }
      else totals D ess st count (i + 1) { r with steps := r.steps + k, subs := r.subs + 1, steps2 := r.steps2 + k - 1 - hypCount D ess i }
    else totals D ess st count (i + 1) r

/-- The longest path (mmcmds.c 3345–3351): `count` iterations, `i` being the loop variable `count - 1`.  `none` stands for a `stmtMaxPath` cell that was never written: using it as an index is
undefined. -/
def pathLoop (st : CState) : Nat → Option Nat → Out (List Nat)
  | 0, _ => .val []
  | _ + 1, none => .ub
  | i + 1, some j => if st.dist j ≠ i then .bug 214 else pathLoop st i (st.maxPath j) >>= fun r => .val (j :: r)

/-- `countSteps(statemNum, essentialFlag)` (mmcmds.c 3142–3401): what it reports.  The text around the numbers, and the approximation `=~ x.xx x 10^n` of long numbers, are not modelled.  The
return value is not used by the caller (metamath.c 3281–3282). -/
def countSteps (D : CDb) (ess : Bool) (s : Nat) : Out Report :=
  countRec D ess (s + 1) s initState >>= fun r =>
  plenOf r.2 s >>= fun k =>
  totals D ess r.2 (s - 1) 1 { len := k, subs := 0, steps := k, subs2 := 0, steps2 := k, big := r.2.big s, dist := r.2.dist s, path := [] } >>= fun rep =>
  pathLoop r.2 (rep.dist + 1).toNat (some s) >>= fun path => .val { rep with path := path }

end MM.Count
