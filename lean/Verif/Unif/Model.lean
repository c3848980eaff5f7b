import Verif.Basic
/-!
# Model of the unification of the Proof Assistant (src/mmunif.c)

Math tokens are natural numbers.  A `nmbrString` is the list of its tokens; the terminating -1 is visible only where the code reads it (`rd`).
-/
namespace MM.Unif

/-- The globals that `unify` uses and does not change. -/
structure Cfg where
  /-- `g_mathTokens`: also the number of the dummy token that ends and separates schemes; tokens above it are the unknown variables `$1`, `$2`, ... -/
  mt : Nat
  /-- `g_MathToken[i].tokenType == con_` -/
  isCon : Nat → Bool
  /-- `g_MathToken[i].tokenName` -/
  name : Nat → List Char
  /-- The math strings of the `$a` statements. -/
  axs : List (List Nat)
  /-- `g_minSubstLen` -/
  min : Nat
  /-- `g_userMaxUnifTrials` -/
  maxTrials : Nat

/-- `l[i]` for a `nmbrString`, with the terminating -1. -/
def rd (l : List Nat) (i : Nat) : Out Int :=
  if i < l.length then .val ((l.getD i 0 : Nat) : Int) else if i = l.length then .val (-1) else .ub

/-! ## The filters for substitutions -/

/-- One of the loops that count brackets (mmunif.c 786–794, 802–810, 818–827, 835–844, 861–870): the final value of `pairingMismatches`. -/
def pairCount (op cl : List Char) : List (List Char) → Int → Int
  | [], n => n
  | t :: ts, n =>
    if t = op then pairCount op cl ts (n + 1)
    else if t = cl then (if n - 1 < 0 then n - 1 else pairCount op cl ts (n - 1))
    else pairCount op cl ts n

/-- The five kinds of brackets (mmunif.c 784–876) -/
def brackets : List (List Char × List Char) :=
  [("(".toList, ")".toList), ("{".toList, "}".toList), ("[".toList, "]".toList), ("<.".toList, ">.".toList), ("[_".toList, "]_".toList)]

/-- `bracketMismatchFound` after the checks of one math string (mmunif.c 782–876) -/
def bracketBad (C : Cfg) (l : List Nat) : Bool := brackets.any fun b => pairCount b.1 b.2 (l.map C.name) 0 ≠ 0

/-- `bracketMatchOn`: set by the one-time scan of all `$a` statements (mmunif.c 757–902).  (The message that the heuristic was turned off is not modelled.) -/
def bracketOn (C : Cfg) : Bool := C.axs.all fun m => !bracketBad C m

/-- `g_firstConst[t]` (mmunif.c 377–403), with the terminating -1 at `g_mathTokens`. -/
def firstConst (C : Cfg) (t : Nat) : Bool := t == C.mt || C.axs.any fun m => C.isCon t && m[1]? == some t

/-- `g_oneConst[t]` (mmunif.c 377–403) -/
def oneConst (C : Cfg) (t : Nat) : Bool := t == C.mt || C.axs.any fun m => C.isCon t && m[1]? == some t && m.length == 2

/-- `g_lastConst[t]` (mmunif.c 377–403) -/
def lastConst (C : Cfg) (t : Nat) : Bool := t == C.mt || C.axs.any fun m => C.isCon t && decide (2 ≤ m.length) && m.getLast? == some t

/-- `impossible` (mmunif.c 914–927) for a non-empty substitution -/
def impossible (C : Cfg) (l : List Nat) : Bool :=
  (C.isCon (l.headD 0) && (!firstConst C (l.headD 0) || (l.length == 1 && !oneConst C (l.headD 0)))) ||
  (C.isCon (l.getLastD 0) && !lastConst C (l.getLastD 0))

/-- Whether a substitution passes the filters (mmunif.c 757–932). -/
def passes (C : Cfg) (l : List Nat) : Bool :=
  !(bracketOn C && bracketBad C l) && !(decide (l ≠ []) && decide (0 < C.min) && impossible C l)

/-! ## The state -/

/-- A stack entry: the variable (`stackUnkVar`) and the state saved when it was pushed (`stackSaveUnkVarStart`, `stackSaveUnkVarLen`, `stackSaveSchemeA`,
`stackSaveSchemeB`).  `seg` has the pair of the saved start and the saved length for this entry and those below it, this entry first. -/
structure Frame where
  var : Nat
  seg : List (Nat × Nat)
  A : List Nat
  B : List Nat
deriving Repr, DecidableEq

/-- The local variables of `unify` that live across its labels.  The stack arrays are lists with the top first (what is in the arrays above the stack top is
never read before it is written); `seg` holds `stackUnkVarStart` and `stackUnkVarLen`; `on y` says that `g_MathToken[y].tmp` is not -1; `trials` is
`g_unifTrialCount`. -/
structure St where
  A : List Nat
  B : List Nat
  p : Nat
  stk : List Frame
  seg : List (Nat × Nat)
  on : Nat → Bool
  trials : Nat

/-- The labels of `unify`; `abort` with and without `timeoutAbortFlag`. -/
inductive Lbl where
  | scan | back | switch | done | abort | timeout
deriving Repr, DecidableEq

/-- The loop at the label `scan` (mmunif.c 556–559); the first argument bounds the rounds. -/
def scanLoop (A B : List Nat) : Nat → Nat → Out Nat
  | 0, _ => .fuel
  | n + 1, p => do
    let a ← rd A p
    let b ← rd B p
    if a = b then do
      let c ← rd A (p + 1)
      if c ≠ -1 then scanLoop A B n (p + 1) else .val p
    else .val p

/-- `nmbrMid(l, p + 1, len)` (mmdata.c 1264–1271) -/
def midTok (l : List Nat) (p len : Nat) : Out (List Nat) := if 0 < len ∧ l.length < p then .ub else .val ((l.drop p).take len)

/-- The adjustment of one start and length (mmunif.c 949–956, 983–990) when the token at position `k` (from 1) is replaced by `j` tokens. -/
def adj1 (k j : Nat) (x : Nat × Nat) : Nat × Nat :=
  if k - 1 < x.1 then (x.1 + j - 1, x.2) else if k ≤ x.1 + x.2 then (x.1, x.2 + j - 1) else x

/-- The adjustments of `p` and of the stack (mmunif.c 945–962, 979–996).  Here `p` may be -1. -/
def adjust (k j : Nat) (p : Int) (seg : List (Nat × Nat)) : Int × List (Nat × Nat) :=
  if (k : Int) - 1 ≤ p then (p + j - 1, if (k : Int) ≤ p then seg.map (adj1 k j) else seg) else (p, seg)

/-- The loop that replaces the token `x` in one scheme (mmunif.c 936–968, 970–1002): the part of the scheme before position `k`, where all is done, and the
rest.  The code looks for the next `x` from the last token of the replacement on, which cannot be `x`; for an empty replacement of the first token it reads
element -1. -/
def replGo (x : Nat) (sub : List Nat) (adj : Bool) : List Nat → List Nat → Int → List (Nat × Nat) → Out (List Nat × Int × List (Nat × Nat))
  | [], pre, p, seg => .val (pre, p, seg)
  | c :: t, pre, p, seg =>
    if c = x then
      if pre.length + sub.length = 0 then .ub
      else
        let r := if adj then adjust (pre.length + 1) sub.length p seg else (p, seg)
        replGo x sub adj t (pre ++ sub) r.1 r.2
    else replGo x sub adj t (pre ++ [c]) p seg

/-- Pop the stack and flag its variable as not on the stack (mmunif.c 736–737, 1073–1096). -/
def pop (s : St) : St :=
  { s with stk := s.stk.tail, on := fun y => if some y = s.stk.head?.map Frame.var then false else s.on y }

/-- From the label `substitute` to the next `goto scan` (mmunif.c 703–1011), for the token `x` and the replacement `sub`; `inA` is `schemeAFlag`. -/
def substitute (C : Cfg) (inA : Bool) (x : Nat) (sub : List Nat) (s : St) : Out (Lbl × St) :=
  if x ∈ sub then .val (.back, s)
  else if sub.head? = some C.mt then .val (.back, pop s)
  else if passes C sub = false then .val (.back, s)
  else do
    let ra ← replGo x sub inA s.A [] s.p s.seg
    let rb ← replGo x sub (!inA) s.B [] ra.2.1 ra.2.2
    .val (.scan, { s with A := ra.1, B := rb.1, p := (rb.2.1 + 1).toNat, seg := rb.2.2 })

/-- Push the token `x` on the stack (mmunif.c 617–636, 661–680). -/
def push (C : Cfg) (x : Nat) (s : St) : St :=
  { s with
    stk := { var := x, seg := (s.p, C.min) :: s.seg, A := s.A, B := s.B } :: s.stk
    seg := (s.p, C.min) :: s.seg
    on := fun y => if y = x then true else s.on y }

/-- The code at `schBUnk` and `schAUnk` (mmunif.c 609–651, 653–697) after a push if there was one. -/
def choose (C : Cfg) (inA : Bool) (x : Nat) (s : St) : Out (Lbl × St) :=
  match s.stk, s.seg with
  | f :: _, (_, len) :: _ =>
    if x ≠ f.var then .bug (if inA then 1904 else 1903)
    else do
      let sub ← midTok (if inA then s.B else s.A) s.p len
      substitute C inA x sub s
  | _, _ => .ub

/-- The code at `schBUnk` and `schAUnk` (mmunif.c 609–651, 653–697).  The stack arrays have `room` elements. -/
def assign (C : Cfg) (room : Nat) (inA : Bool) (x : Nat) (s : St) : Out (Lbl × St) :=
  if s.on x = false then (if s.stk.length < room then choose C inA x (push C x s) else .ub) else choose C inA x s

/-- The choice between the schemes at a mismatch of the tokens `a` and `b` (mmunif.c 585–609, 653, 698–701). -/
def mismatch (C : Cfg) (room : Nat) (a b : Int) (s : St) : Out (Lbl × St) :=
  if b > C.mt ∧ a > C.mt then
    if s.on b.toNat = false then assign C room true a.toNat s
    else if s.on a.toNat = true then .bug 1902
    else assign C room false b.toNat s
  else if b > C.mt then assign C room false b.toNat s
  else if a > C.mt then assign C room true a.toNat s
  else .val (.back, s)

/-- The label `scan` (mmunif.c 551–701) -/
def doScan (C : Cfg) (room : Nat) (s : St) : Out (Lbl × St) := do
  let p ← scanLoop s.A s.B (s.A.length + 1) s.p
  let a ← rd s.A p
  let b ← rd s.B p
  let s' := { s with p := p }
  if a = C.mt ∨ b = C.mt then
    if a ≠ b then
      if a ≤ C.mt ∧ b ≤ C.mt then .val (.back, s') else mismatch C room a b s'
    else do
      let c ← rd s.A (p + 1)
      if c = -1 then .val (.done, s') else mismatch C room a b s'
  else mismatch C room a b s'

/-- Add 1 to the length of the stack top (mmunif.c 1030–1031). -/
def bump : List (Nat × Nat) → List (Nat × Nat)
  | [] => []
  | (p, l) :: t => (p, l + 1) :: t

/-- The label `backtrack` (mmunif.c 1013–1037) -/
def doBack (C : Cfg) (s : St) : Out (Lbl × St) :=
  match s.stk with
  | [] => .val (.abort, s)
  | f :: fs =>
    if s.trials > 0 ∧ s.trials + 1 > C.maxTrials then .val (.timeout, { s with trials := s.trials + 1 })
    else .val (.switch, { s with
      A := f.A, B := f.B, p := (f.seg.headD (0, 0)).1, seg := bump f.seg, stk := { f with seg := bump f.seg } :: fs
      trials := if s.trials > 0 then s.trials + 1 else 0 })

/-- Set the length of the stack top (mmunif.c 1067–1070). -/
def setLen (n : Nat) : List (Nat × Nat) → List (Nat × Nat)
  | [] => []
  | (p, _) :: t => (p, n) :: t

/-- `l[p - 1 + len]` -/
def rdEnd (l : List Nat) (p len : Nat) : Out Int := if p + len = 0 then .ub else rd l (p + len - 1)

/-- The label `switchVarToB` (mmunif.c 1038–1100) -/
def doSwitch (C : Cfg) (s : St) : Out (Lbl × St) :=
  match s.stk with
  | [] => .ub
  | f :: fs => do
    let len := (f.seg.headD (0, 0)).2
    let a ← rd s.A s.p
    if (f.var : Int) = a then do
      let e ← rdEnd s.B s.p len
      if e = C.mt then do
        let b ← rd s.B s.p
        if b > C.mt then
          if (if b = (f.var : Int) then false else s.on b.toNat) = true then .bug 1905
          else .val (.switch, { s with
            stk := { f with var := b.toNat, seg := setLen C.min f.seg } :: fs, seg := setLen C.min f.seg
            on := fun y => if y = b.toNat then true else if y = f.var then false else s.on y })
        else .val (.back, pop s)
      else .val (.scan, { s with seg := f.seg })
    else do
      let e ← rdEnd s.A s.p len
      if e = C.mt then .val (.back, pop s) else .val (.scan, { s with seg := f.seg })

/-- What happens at a label up to the next one. -/
def step (C : Cfg) (room : Nat) : Lbl × St → Out (Lbl × St)
  | (.scan, s) => doScan C room s
  | (.back, s) => doBack C s
  | (.switch, s) => doSwitch C s
  | (l, s) => .val (l, s)

/-- Follow the labels until `done` or `abort`; the first argument bounds the number of jumps. -/
def run (C : Cfg) (room : Nat) : Nat → Lbl × St → Out (Lbl × St)
  | 0, _ => .fuel
  | n + 1, (l, s) =>
    if l = .done ∨ l = .abort ∨ l = .timeout then .val (l, s)
    else do
      let r ← step C room (l, s)
      run C room n r

/-! ## The functions -/

/-- Appending the unknown variables of `l` to the list (mmunif.c 414–446) -/
def addUnk (C : Cfg) : List Nat → List Nat → List Nat
  | [], v => v
  | t :: ts, v => addUnk C ts (if t > C.mt ∧ t ∉ v then v ++ [t] else v)

/-- `unkVars` (mmunif.c 408–446) -/
def unkVars (C : Cfg) (A B : List Nat) : List Nat := addUnk C B (addUnk C A [])

/-- The `stateVector` after a successful call: the stack with its saved states, `stackUnkVarStart`, `stackUnkVarLen`, `unifiedScheme`; and the value of
`g_unifTrialCount`. -/
structure SV where
  stk : List Frame
  seg : List (Nat × Nat)
  unified : List Nat
  trials : Nat
deriving Repr, DecidableEq

/-- The result of `unify`: 0, 1 (with the `stateVector`), 2. -/
inductive Res where
  | none
  | found (v : SV)
  | timeout
deriving Repr, DecidableEq

/-- The fast early exit (mmunif.c 350–370) -/
def early (C : Cfg) (A B : List Nat) : Bool :=
  (C.isCon (A.headD 0) && C.isCon (B.headD 0) && A.headD 0 != B.headD 0) ||
  (C.isCon (A.getLastD 0) && C.isCon (B.getLastD 0) && A.getLastD 0 != B.getLastD 0)

/-- The end of `unify` (mmunif.c 1102–1132, 1172–1175).  Storage is not modelled. -/
def result (r : Lbl × St) : Res :=
  match r.1 with
  | .done => .found ⟨r.2.stk, r.2.seg, r.2.A.take (r.2.A.length - 1), r.2.trials⟩
  | .timeout => .timeout
  | _ => .none

/-- The state at the first `scan` (mmunif.c 373–374, 404–520) -/
def start (C : Cfg) (A B : List Nat) (trials : Nat) : St := ⟨A ++ [C.mt], B ++ [C.mt], 0, [], [], fun _ => false, trials⟩

/-- `unify(schemeA, schemeB, &stateVector, 0)` (mmunif.c 265–1176).  For an empty scheme the type of token -1 is read. -/
def unify (n : Nat) (C : Cfg) (trials : Nat) (A B : List Nat) : Out Res :=
  if A = [] ∨ B = [] then .ub
  else if early C A B then .val .none
  else do
    let r ← run C (unkVars C A B).length n (.scan, start C A B trials)
    .val (result r)

/-- `unify(schemeA, schemeB, &stateVector, 1)` (mmunif.c 521–548) -/
def unifyNext (n : Nat) (C : Cfg) (A B : List Nat) (v : SV) : Out Res :=
  if A = [] ∨ B = [] then .ub
  else if early C A B then .val .none
  else do
    let r ← run C (unkVars C A B).length n
      (.back, ⟨A ++ [C.mt], B ++ [C.mt], 0, v.stk, v.seg, fun y => decide (y ∈ v.stk.map Frame.var), v.trials⟩)
    .val (result r)

/-- The position in `stackUnkVar` (from the bottom of the stack) of an unknown variable, if it is there (mmunif.c 206, 214, 239): its start and length. -/
def segOf (v : SV) (t : Nat) : Option (Nat × Nat) :=
  (((v.stk.map Frame.var).reverse.zip v.seg.reverse).find? fun e => e.1 == t).map Prod.snd

/-- `makeSubstUnif(&newVarFlag, trialScheme, stateVector)` (mmunif.c 156–263): the result and `newVarFlag`. -/
def makeSubst (C : Cfg) (v : SV) : List Nat → Out (List Nat × Bool)
  | [] => .val ([], false)
  | t :: ts => do
    let r ← makeSubst C v ts
    if C.isCon t = false ∧ t > C.mt then
      match segOf v t with
      | some (m, j) => if m + j ≤ v.unified.length then .val ((v.unified.drop m).take j ++ r.1, r.2) else .ub
      | none => .val (t :: r.1, true)
    else .val (t :: r.1, r.2)

end MM.Unif
