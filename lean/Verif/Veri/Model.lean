import Verif.Basic
/-!
# Model of `assignVar` (src/mmveri.c 224–793): unification of one proof step

Tokens are natural numbers (indices into `g_MathToken`); a `nmbrString` is a `List Nat`
without its `-1` terminator.
-/
namespace MM.Veri

/-- The part of the global token table the verifier consults: `isVar t` is
`g_MathToken[t].tokenType == var_`, `sep` is `g_mathTokens`, the index of the dummy
separator token "$|$" (mmpars.c 649–659). -/
structure Toks where
  isVar : Nat → Bool
  sep : Nat

/-- `nmbrExtractVars` (mmdata.c 1591–1611): the variables of `m` in order of first
occurrence, without duplicates. -/
def extractVars (T : Toks) (m : List Nat) : List Nat :=
  m.foldl (fun v t => if T.isVar t then (if t ∈ v then v else v ++ [t]) else v) []

/-- Inputs of the matching loop: the two big hypothesis strings. -/
structure Ctx extends Toks where
  S : List Nat   -- bigSubstSchemeAss
  I : List Nat   -- bigSubstInstAss

namespace Ctx
variable (c : Ctx)
/-- `bigSubstSchemeVars` (mmveri.c 244). -/
def vars : List Nat := extractVars c.toToks c.S
/-- `g_MathToken[t].tmp` after mmveri.c 284–288: the position of `t` in `bigSubstSchemeVars`. -/
def tmp (t : Nat) : Nat := c.vars.idxOf t
/-- `substSchemeFrstVarOcc[i]` as filled by the scan at mmveri.c 290–300 (the loop that
stores the first position of each variable is summarised by `idxOf`). -/
def frst (i : Nat) : Nat := c.S.idxOf (c.vars.getD i c.sep)
end Ctx

/-- Variables of the scan (mmveri.c 303–308).  `nv` is the C variable `v` plus one, i.e. the
number of variables that currently have an assignment; `len`, `start` are `varAssLen`,
`substInstFrstVarOcc`. -/
structure Scan where
  nv : Nat
  p : Nat
  q : Nat
  len : Nat → Nat
  start : Nat → Nat

/-- State at mmveri.c 304–306: `v = -1; p = 0; q = 0` and the arrays zeroed by `nmbrSpace`. -/
def Scan.init : Scan := ⟨0, 0, 0, fun _ => 0, fun _ => 0⟩

/-- Outcome of one iteration of the `while` at mmveri.c 310. -/
inductive StepOut where
  | cont (s : Scan)
  | done (s : Scan)      -- the while condition is false
  | fail                 -- breakFlag = 1: possibilities exhausted
  | ub
  | bug (n : Nat)

/-- "Backtrack to last variable assigned and add 1 to its length" — the inner
`while (contFlag)` loops at mmveri.c 327–354 and 367–397 (identical up to the bug number
`n`, 2104 or 2106).  Recursion on the number of assigned variables. -/
def backtrack (c : Ctx) (bugNo : Nat) (len start : Nat → Nat) : Nat → StepOut
  | 0 => .fail
  | v + 1 =>
    let len := upd len v (len v + 1)
    let q := start v + len v
    match c.I[q - 1]? with
    | none => .ub
    | some x =>
      if x = c.sep then backtrack c bugNo len start v
      else if q ≥ c.I.length then .bug bugNo
      else .cont ⟨v + 1, c.frst v + 1, q, len, start⟩

/-- The `for` loop at mmveri.c 366–378 that compares the string assigned to a variable,
starting at `a`, with the instance at `q`, for `n` tokens. `false` = mismatch (breakFlag). -/
def cmpRun (I : List Nat) : Nat → Nat → Nat → Out Bool
  | _, _, 0 => .val true
  | a, q, n + 1 =>
    if q ≥ I.length then .val false
    else match I[a]?, I[q]? with
      | some x, some y => if x ≠ y then .val false else cmpRun I (a + 1) (q + 1) n
      | _, _ => .ub

/-- One iteration of the scanning loop, mmveri.c 310–410.  (Reading the `-1` terminator of
the instance is counted as `ub`; the scheme terminator would be used as an index
into `g_MathToken`, which is a genuine out-of-range access.) -/
def scanStep (c : Ctx) (s : Scan) : StepOut :=
  if s.p = c.S.length - 1 ∧ s.q = c.I.length - 1 then .done s
  else match c.S[s.p]? with
  | none => .ub
  | some t =>
    if c.isVar t = false then
      match c.I[s.q]? with
      | none => .ub
      | some u =>
        if t = u then .cont { s with p := s.p + 1, q := s.q + 1 }
        else backtrack c 2104 s.len s.start s.nv
    else
      let v1 := c.tmp t
      if v1 ≥ s.nv then
        if v1 ≠ s.nv then .bug 2105
        else .cont ⟨s.nv + 1, s.p + 1, s.q, upd s.len v1 0, upd s.start v1 s.q⟩
      else
        match cmpRun c.I (s.start v1) s.q (s.len v1) with
        | .val true => .cont { s with p := s.p + 1, q := s.q + s.len v1 }
        | .val false => backtrack c 2106 s.len s.start s.nv
        | .ub => .ub
        | .bug n => .bug n
        | .fuel => .ub

/-- Result of the whole scanning loop. -/
inductive ScanOut where
  | done (s : Scan)
  | fail
  | ub
  | bug (n : Nat)
  | fuel

/-- The `while` loop at mmveri.c 310, run for at most `n` iterations. -/
def scan (c : Ctx) : Nat → Scan → ScanOut
  | 0, _ => .fuel
  | n + 1, s =>
    match scanStep c s with
    | .cont s' => scan c n s'
    | .done s' => .done s'
    | .fail => .fail
    | .ub => .ub
    | .bug k => .bug k

/-- "Prepare to see if the unification is unique" (mmveri.c 755–766): note that the loop
decrements `v` before its first use, so the last variable is never lengthened here.
`prepare n` is called with `v + 1 = n` and returns the re-entry state, or `fail` when
`v < 0` ("It's unique"). -/
def prepare (c : Ctx) (len start : Nat → Nat) : Nat → StepOut
  | 0 => .fail
  | v + 1 =>
    let len := upd len v (len v + 1)
    let q := start v + len v
    match c.I[q - 1]? with
    | none => .ub
    | some x =>
      if x ≠ c.sep then .cont ⟨v + 1, c.frst v + 1, q, len, start⟩
      else if q ≥ c.I.length then .bug 2110
      else prepare c len start v

/-- The token string assigned to the variable with position `i` (mmveri.c: the
`varAssLen[i]` tokens of `bigSubstInstAss` from `substInstFrstVarOcc[i]`). -/
def slice (I : List Nat) (start len : Nat) : List Nat := (I.drop start).take len

/-- Iterations granted to the loop; `Scan2.scan_spec` shows it always suffices. Not in the C code. -/
def fuelBound (c : Ctx) : Nat :=
  (c.I.length + 1) ^ c.vars.length * (c.S.length + 1) + c.S.length + 1

/-- The tokens assigned to variable `t`.  A variable that does not occur in the scheme
would be looked up through a stale `.tmp` field; that is counted as `ub`. -/
def look (c : Ctx) (s : Scan) (t : Nat) : Out (List Nat) :=
  if t ∈ c.vars then .val (slice c.I (s.start (c.tmp t)) (s.len (c.tmp t))) else .ub

/-- "Assemble the final result" (mmveri.c 699–729): the assertion's math string with every
variable replaced by its assigned tokens. -/
def assemble (c : Ctx) (s : Scan) : List Nat → Out (List Nat)
  | [] => .val []
  | t :: m => do
    let x ← if c.isVar t then look c s t else .val [t]
    let y ← assemble c s m
    .val (x ++ y)

/-- Error messages of the verifier (the text is abstracted to its data). -/
inductive Msg where
  /-- "The hypotheses of statement .. at proof step .. cannot be unified" (mmveri.c 432–437) -/
  | noUnify (step stmt : Nat)
  /-- "The unification .. is not unique" (mmveri.c 735–744) -/
  | notUnique (step : Nat) (first second : List Nat)
  /-- "There is a disjoint variable ($d) violation at proof step .." (mmveri.c 577–600 and
  640–682): assertion requires `x`,`y` disjoint; their substitutions contain `a`, `b`. -/
  | disj (step x y a b : Nat)
  /-- "The result of the proof does not match the statement being proved" (mmveri.c 195–206) -/
  | wrongResult (got want : List Nat)
deriving Repr, DecidableEq

/-- `g_Statement[i].type` (mmdata.h) -/
inductive Kind where
  | c | v | d | e | f | a | p | lb | rb | none
deriving Repr, DecidableEq

/-- The fields of `struct statement_struct` (mmdata.h) used by the verifier.  `reqDisj` pairs
up `reqDisjVarsA`/`reqDisjVarsB`, `optDisj` pairs up `optDisjVarsA`/`optDisjVarsB`; `reqDisjStmt`, `optDisjStmt` are `reqDisjVarsStmt`,
`optDisjVarsStmt`, used by WRITE SOURCE / EXTRACT only. -/
structure Stmt where
  kind : Kind := .none
  math : List Nat := []
  reqHyp : List Nat := []
  optHyp : List Nat := []
  reqVars : List Nat := []
  optVars : List Nat := []
  reqDisj : List (Nat × Nat) := []
  optDisj : List (Nat × Nat) := []
  reqDisjStmt : List Nat := []
  optDisjStmt : List Nat := []
deriving Repr, DecidableEq

/-- The database: token table and `g_Statement[]`. -/
structure Db extends Toks where
  stmt : Nat → Stmt

/-- First index of a pair mentioning `a`, or the length (mmveri.c 548–572, "Speed up"). -/
def firstPair (L : List (Nat × Nat)) (a : Nat) : Nat :=
  L.findIdx fun pr => pr.1 == a || pr.2 == a

/-- `reqStart`, `optStart` (mmveri.c 542–576). -/
def disjStarts (R O : List (Nat × Nat)) (a : Nat) : Nat × Nat :=
  if firstPair R a < R.length then (firstPair R a, 0) else (R.length, firstPair O a)

/-- The lookup loops at mmveri.c 618–645: is the (ordered) pair in the required list from
`reqStart` on or in the optional list from `optStart` on? -/
def disjFound (R O : List (Nat × Nat)) (st : Nat × Nat) (a b : Nat) : Bool :=
  let a2 := if a > b then b else a
  let b2 := if a > b then a else b
  ((R.drop st.1).any fun pr => pr.1 == a2 && pr.2 == b2) ||
  ((O.drop st.2).any fun pr => pr.1 == a2 && pr.2 == b2)

/-- The two inner loops of the $d check for one pair `x`,`y` with substituted strings `A`,`B`
(mmveri.c 538–690). -/
def disjPair (T : Toks) (R O : List (Nat × Nat)) (step x y : Nat) (A B : List Nat) : List Msg :=
  A.flatMap fun a =>
    if T.isVar a = false then [] else
    let st := disjStarts R O a
    B.flatMap fun b =>
      if T.isVar b = false then []
      else if a = b then [.disj step x y a b]
      else if disjFound R O st a b then [] else [.disj step x y a b]

/-- The $d check (mmveri.c 517–692) over the mandatory $d pairs of the cited assertion. -/
def disjCheck (c : Ctx) (s : Scan) (R O : List (Nat × Nat)) (step : Nat) :
    List (Nat × Nat) → Out (List Msg)
  | [] => .val []
  | (x, y) :: ds => do
    let A ← look c s x
    let B ← look c s y
    let rest ← disjCheck c s R O step ds
    .val (disjPair c.toToks R O step x y A B ++ rest)

/-- What `assignVar` returns and its effect on `g_WrkProof.errorCount` and the output. -/
structure AssignOut where
  result : List Nat
  ec : Nat
  msgs : List Msg
deriving Repr, DecidableEq

/-- Messages are printed only if no error has been counted for this proof
(`if (!g_WrkProof.errorCount)`). -/
def gate (ec : Nat) (m : List Msg) : List Msg := if ec = 0 then m else []

/-- `assignVar` (mmveri.c 224–793).  Simplified: the `getStep` bookkeeping (473–513) and the
temporary-allocation stack are left out. -/
def assignCtx (db : Db) (c : Ctx) (scheme proved step : Nat) (unk : Bool) (ec : Nat) :
    Out AssignOut :=
  let A := db.stmt scheme
  let P := db.stmt proved
  if c.vars.length ≠ A.reqVars.length then
    if unk then .val ⟨[], ec, []⟩
    else if ec = 0 then .bug 2103 else .val ⟨[], ec, []⟩
  else match scan c (fuelBound c) Scan.init with
  | .ub => .ub
  | .bug n => .bug n
  | .fuel => .fuel
  | .fail => .val ⟨[], ec + 1, gate ec [.noUnify step scheme]⟩
  | .done s =>
    if s.nv ≠ c.vars.length then .bug 2107 else do
    let dm ← disjCheck c s P.reqDisj P.optDisj step A.reqDisj
    let res ← assemble c s A.math
    match prepare c s.len s.start (s.nv - 1) with
    | .ub => .ub
    | .bug n => .bug n
    | .done _ => .ub
    | .fail => .val ⟨res, ec, gate ec dm⟩
    | .cont s1 =>
      match scan c (fuelBound c) s1 with
      | .ub => .ub
      | .bug n => .bug n
      | .fuel => .fuel
      | .fail => .val ⟨res, ec, gate ec dm⟩
      | .done s2 =>
        if s2.nv ≠ c.vars.length then .bug 2107
        else if unk then .val ⟨[], ec, gate ec dm⟩
        else do
          let res2 ← assemble c s2 A.math
          .val ⟨res2, ec + 1, gate ec (dm ++ [.notUnique step res res2])⟩

/-- `assignVar` called with the two big strings. -/
def assignVar (db : Db) (S I : List Nat) (scheme proved step : Nat) (unk : Bool) (ec : Nat) :
    Out AssignOut :=
  assignCtx db { db.toToks with S := S, I := I } scheme proved step unk ec

/-- The state of `verifyProof`'s step loop: `returnFlag`, `g_WrkProof.errorCount`, messages so
far, `RPNStack` (top first) and `mathStringPtrs[0 .. step-1]`. -/
structure VState where
  ret : Nat
  ec : Nat
  msgs : List Msg
  stack : List Nat
  math : List (List Nat)
deriving Repr, DecidableEq

/-- The big hypothesis strings built at mmveri.c 103–131: a separator, then each hypothesis
followed by a separator. -/
def bigStr (sep : Nat) (hyps : List (List Nat)) : List Nat :=
  sep :: hyps.flatMap (· ++ [sep])

/-- The scheme hypotheses with those whose step is unknown (empty) replaced by the empty
string (mmveri.c 110–116). -/
def schemeHyps : List (List Nat) → List (List Nat) → List (List Nat)
  | h :: hs, i :: is => (if i = [] then [] else h) :: schemeHyps hs is
  | _, _ => []

/-- One iteration of the loop in `verifyProof` (mmveri.c 44–185). `numSteps` is the length of the proof.
`RPNStackPtr - numReqHyp < 0` would index before the array: `ub`.  A local reference to a step
not yet processed reads the empty string stored at mmveri.c 30–32. -/
def verifyStep (db : Db) (proved numSteps : Nat) (st : VState) (ps : Int) : Out VState :=
  let step := st.math.length
  if ps = -63 then                         -- '?'
    .val { st with ret := max st.ret 1, stack := step :: st.stack, math := st.math ++ [[]] }
  else if ps < 0 then
    if ps > -1000 then .bug 2101
    else
      let i := (-1000 - ps).toNat
      if i < numSteps then
        .val { st with stack := step :: st.stack, math := st.math ++ [st.math.getD i []] }
      else .ub
  else
    let stmt := ps.toNat
    let A := db.stmt stmt
    match A.kind with
    | .e | .f => .val { st with stack := step :: st.stack, math := st.math ++ [A.math] }
    | .a | .p =>
      let n := A.reqHyp.length
      if n > st.stack.length then .ub
      else
        let insts := (st.stack.take n).reverse.map (fun k => st.math.getD k [])
        let hyps := A.reqHyp.map (fun k => (db.stmt k).math)
        let unk := insts.any (fun i => i = [])
        do
        let r ← assignVar db (bigStr db.sep (schemeHyps hyps insts)) (bigStr db.sep insts)
                  stmt proved step unk st.ec
        .val { ret := if r.result = [] ∧ unk = false then 2 else st.ret
               ec := r.ec
               msgs := st.msgs ++ r.msgs
               stack := step :: st.stack.drop n
               math := st.math ++ [r.result] }
    | _ => .bug 2102

def verifySteps (db : Db) (proved numSteps : Nat) : List Int → VState → Out VState
  | [], st => .val st
  | p :: ps, st => do
    let st' ← verifyStep db proved numSteps st p
    verifySteps db proved numSteps ps st'

/-- Result of `verifyProof`: return code, `g_WrkProof.errorCount`, messages printed. -/
structure VerifyOut where
  ret : Nat
  ec : Nat
  msgs : List Msg
deriving Repr, DecidableEq

/-- `verifyProof` (mmveri.c 25–219), called after `parseProof` left the proof string
`proof`, `errorSeverity` and `errorCount` (`ec`) in `g_WrkProof`. -/
def verifyProof (db : Db) (proved : Nat) (proof : List Int) (errorSeverity ec : Nat) : Out VerifyOut :=
  if (db.stmt proved).kind ≠ .p then .val ⟨4, ec, []⟩
  else if errorSeverity > 2 then .val ⟨errorSeverity, ec, []⟩
  else if proof.length = 0 then .val ⟨2, ec, []⟩
  else do
    let st ← verifySteps db proved proof.length proof ⟨0, ec, [], [], []⟩
    if st.stack.length ≠ 1 then .bug 2108
    else
      let got := st.math.getD (proof.length - 1) []
      if st.ret = 0 ∧ (db.stmt proved).math ≠ got then
        .val ⟨st.ret, st.ec + 1, st.msgs ++ gate st.ec [.wrongResult got (db.stmt proved).math]⟩
      else .val ⟨st.ret, st.ec, st.msgs⟩

end MM.Veri
