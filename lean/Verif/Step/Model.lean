import Verif.Tree.Model
import Verif.Match.Model
import Verif.Vstr.Edit
import Verif.Date.Model
/-!
# Model of `getStepNum`, `getRelStepNums` and `getStatementNum` (src/mmcmds.c 5467–5782)
-/
namespace MM.Step
open MM.Vstr MM.Proof

/-- `-(long)'?'`, the number of an unknown step in a proof. -/
abbrev unk : Int := -63

/-- The test `essentialFlags[i - 1] && pfInProgress[i - 1] == -(long)'?'` (mmcmds.c 5546–5547, 5560–5561, 5605–5606), `i ≥ 1`. -/
def isUnk (es proof : List Int) (i : Nat) : Out Bool := do
  let e ← Out.read es (i - 1)
  if e = 0 then .val false
  else do
    let p ← Out.read proof (i - 1)
    .val (decide (p = unk))

/-- The loop that scans backwards (mmcmds.c 5545–5555): `i` goes down to 1; 0 if the step was not found. -/
def back (es proof : List Int) : Nat → Int → Out Nat
  | 0, _ => .val 0
  | i + 1, j => do
    let b ← isUnk es proof (i + 1)
    if b then (if j - 1 = 0 then .val (i + 1) else back es proof i (j - 1)) else back es proof i j

/-- The loop that scans forwards (mmcmds.c 5559–5569), with `k` steps still to do. -/
def fwd (es proof : List Int) : Nat → Nat → Int → Out Nat
  | 0, _, _ => .val 0
  | k + 1, i, j => do
    let b ← isUnk es proof i
    if b then (if j - 1 = 0 then .val i else fwd es proof k (i + 1) (j - 1)) else fwd es proof k (i + 1) j

/-- The part of `getStepNum` that looks for the step (mmcmds.c 5537–5580); `es` is what `nmbrGetEssential` delivers. -/
def findStep (es : Out (List Int)) (proof : List Int) (neg : Bool) (rel : Int) : Out Int := do
  let es ← es
  let a ← if neg then back es proof proof.length (rel + 1) else fwd es proof proof.length 1 (rel + 1)
  .val (if a = 0 then -1 else (a : Int))

/-- `getStepNum(relStep, pfInProgress, allFlag)` (mmcmds.c 5476–5587).  The messages are not modelled.  `val` and `str` are those of `MM.Date`: a decimal point or
more than 15 digits give `.fuel`. -/
def getStepNum (es : Out (List Int)) (relStep : Str) (proof : List Int) (allFlag : Bool) : Out Int := do
  let u := editBase 32 relStep
  let v ← Date.val u
  if v ≥ 0 ∧ u = Date.str v then .val (if v > proof.length ∨ v < 1 then -1 else v)
  else do
    let first ← left "FIRST".toList u.length
    if u = first then findStep es proof false 0
    else do
      let last ← left "LAST".toList u.length
      if u = last then findStep es proof true 0
      else if u.head? = some '+' then do
        let r ← right u 2
        if r ≠ Date.str v then .val (-1) else findStep es proof false v
      else if u.head? = some '-' then do
        let r ← right u 2
        if r ≠ Date.str (-v) then .val (-1) else findStep es proof true (-v)
      else do
        let all ← left "ALL".toList u.length
        if u = all then .val (if allFlag then 0 else -1) else .val (-1)

/-- The loop of `getRelStepNums` (mmcmds.c 5604–5612): `i` goes down to 1; the list is the part of `relSteps` after position `i`. -/
def relLoop (es proof : List Int) : Nat → Int → List Int → Out (List Int)
  | 0, _, acc => .val acc
  | i + 1, j, acc => do
    let b ← isUnk es proof (i + 1)
    if b then relLoop es proof i (j - 1) (j :: acc) else relLoop es proof i j (((i + 1 : Nat) : Int) :: acc)

/-- `getRelStepNums(pfInProgress)` (mmcmds.c 5595–5618) -/
def getRelStepNums (es : Out (List Int)) (proof : List Int) : Out (List Int) := do
  let es ← es
  relLoop es proof proof.length 0 []

/-! ## `getStatementNum` -/

/-- The arguments of `getStatementNum` (mmcmds.c 5626–5635). -/
structure Args where
  name : Str
  startStmt : Nat
  maxStmt : Nat
  a : Bool
  p : Bool
  e : Bool
  f : Bool
  efOnly : Bool
  unique : Bool

/-- The local variables `matchesFound`, `matchStmt`, `matchStmt2`, `laterMatchFound`. -/
structure St where
  found : Nat
  m1 : Nat
  m2 : Nat
  later : Bool
deriving Repr, DecidableEq

/-- `strpbrk(stmtName, "*?=~%#@,") != NULL` (mmcmds.c 5644) -/
def hasWildcard (s : Str) : Bool := s.any fun c => "*?=~%#@,".toList.contains c

/-- The type tests (mmcmds.c 5671–5676): the type of the statement is not allowed. -/
def refused (A : Args) (k : MM.Veri.Kind) : Bool :=
  (!A.a && k == .a) || (!A.p && k == .p) || (!A.e && k == .e) || (!A.f && k == .f)

/-- The comparison of the label with the name (mmcmds.c 5678–5694). -/
def hit (E : Match.MEnv) (A : Args) (s : Nat) : Out Bool :=
  if hasWildcard A.name then Match.matchesList E (E.lab s) A.name '*' '?' else .val (decide (A.name = E.lab s))

/-- The test for hypotheses of other statements (mmcmds.c 5700–5704). -/
def foreign (E : Match.MEnv) (A : Args) (s : Nat) : Bool :=
  ((E.stmt s).kind == .e || (E.stmt s).kind == .f) && !(E.stmt A.maxStmt).reqHyp.contains s && !(E.stmt A.maxStmt).optHyp.contains s

/-- The counting of a match (mmcmds.c 5716–5725). -/
def count (s : Nat) (st : St) : St :=
  ⟨st.found + 1, if st.found = 0 then s else st.m1, if st.found = 1 then s else st.m2, st.later⟩

/-- The loop of `getStatementNum` (mmcmds.c 5659–5729), `k` statements being left. -/
def scan (E : Match.MEnv) (A : Args) : Nat → Nat → St → Out St
  | 0, _, st => .val st
  | k + 1, s, st =>
    if s ≥ A.maxStmt ∧ (st.found > 0 ∨ A.unique = false) then .val st
    else if E.lab s = [] then scan E A k (s + 1) st
    else if refused A (E.stmt s).kind then scan E A k (s + 1) st
    else hit E A s >>= fun h =>
      if h = false then scan E A k (s + 1) st
      else if A.efOnly ∧ A.maxStmt > E.n then .bug 247
      else if A.efOnly && foreign E A s then scan E A k (s + 1) st
      else if s ≥ A.maxStmt then .val { st with later := true }
      else if A.unique = false ∨ hasWildcard A.name = false then .val (count s st)
      else scan E A k (s + 1) (count s st)

/-- Which message is printed. -/
inductive Msg where
  /-- nothing -/
  | silent
  /-- "No statement label matches" -/
  | noLabel
  /-- "No $p statement label matches" -/
  | noP
  /-- "No $a or $p statement label matches" -/
  | noAP
  /-- "A statement label matching … was not found or is not a hypothesis of the statement being proved" -/
  | notFound
  /-- "You must specify a statement that occurs earlier than the one being proved" -/
  | earlier
  /-- "This command requires a unique label, but there are 2 matches", with the two -/
  | two (x y : Nat)
  /-- "… there are n (allowed) matches …", with the number and the first two -/
  | many (n x y : Nat)
deriving Repr, DecidableEq

/-- The messages (mmcmds.c 5731–5777). -/
def message (A : Args) (st : St) : Msg :=
  if st.found = 0 then
    if A.unique = false then (if A.startStmt = 1 then .noLabel else .silent)
    else if A.a && A.p && A.e && A.f && !A.efOnly then .noLabel
    else if !A.a && A.p && !A.e && !A.f then .noP
    else if !A.e && !A.f then (if st.later = false then .noAP else .earlier)
    else if st.later = false then .notFound else .earlier
  else if st.found = 2 then .two st.m1 st.m2
  else if st.found > 2 then .many st.found st.m1 st.m2
  else .silent

/-- `getStatementNum(…)` (mmcmds.c 5626–5782): the message and the number returned. -/
def getStatementNum (E : Match.MEnv) (A : Args) : Out (Msg × Int) :=
  scan E A (E.n + 1 - A.startStmt) A.startStmt ⟨0, 1, 1, false⟩ >>= fun st =>
    if A.unique = false ∧ st.found > 1 then .bug 248
    else .val (message A st, if st.found ≠ 1 then -1 else (st.m1 : Int))

end MM.Step
