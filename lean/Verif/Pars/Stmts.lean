import Verif.Veri.Model
/-!
# Model of `parseMathDecl` and `parseStatements` (src/mmpars.c 555–693, 696–1880)

Input: the statements found by `parseKeywords`, with their label and the list of symbols of the math section
(the splitting of a section into symbols is modelled in `Verif/Lex`).  Statement numbers are positions in
the list whose entry 0 is the dummy `g_Statement[0]`.
-/
namespace MM.Pars
open MM.Veri

/-- Names of labels and math symbols. -/
abbrev Name := List Char

/-- A statement before its symbols are resolved. -/
structure Src where
  kind : Kind := .none
  label : Name := []
  syms : List Name := []
  /-- text of the proof section of a `$p` -/
  proof : List Char := []
deriving Repr, DecidableEq

/-- Error messages of `parseMathDecl`/`parseStatements` (all are "?Error" messages); the number is that of the
statement. -/
inductive PErr where
  | emptyDecl (n : Nat)       -- 633  "At least one math symbol should be declared."
  | labelIsToken (n : Nat)    -- 685  "This label has the same name as the math token ..."
  | tooManyRb (n : Nat)       -- 967  "Too many $}"
  | cNotOutermost (n : Nat)   -- 990
  | redeclared (n : Nat)      -- 1019 "This symbol has already been declared in this scope."
  | conVar (n : Nat)          -- 1035 "A symbol may not be both a constant and a variable."
  | notActive (n : Nat)       -- 1128, 1145
  | notDeclared (n : Nat)     -- 1160
  | constInD (n : Nat)        -- 1194
  | firstNotCon (n : Nat)     -- 1200
  | fSecondCon (n : Nat)      -- 1208
  | fTooLong (n : Nat)        -- 1213
  | dTooShort (n : Nat)       -- 1237
  | empty (n : Nat)           -- 1242
  | fTooShort (n : Nat)       -- 1246
  | dNotUnique (n : Nat)      -- 1300
  | fMixture (n : Nat)        -- 1519
  | varInNoHyp (n : Nat)      -- 1549
  | noF (n : Nat)             -- 1780 "The variable .. does not appear in an active $f statement"
  | dupF (n : Nat)            -- 1810 "The variable .. already appears in the earlier active $f"
  | missingRb                 -- 1830
deriving Repr, DecidableEq

/-- `g_MathToken[]` as filled by `parseMathDecl` (mmpars.c 584–640): one entry, name and
"is a variable", for every symbol of every `$c` and `$v` statement, in source order. -/
def declToks : List Src → List (Name × Bool)
  | [] => []
  | s :: rest =>
    (match s.kind with
      | .c => s.syms.map (·, false)
      | .v => s.syms.map (·, true)
      | _ => []) ++ declToks rest

/-- `g_MathToken[t].tokenType == var_`.  Token `toks.length` is the "$|$" separator, a constant (649–659);
the dummy tokens created for undeclared symbols (1165–1183) are variables. -/
def tokIsVar (toks : List (Name × Bool)) (t : Nat) : Bool :=
  match toks[t]? with
  | some (_, b) => b
  | none => t != toks.length

/-- An entry of `activeEHypStack` / `activeFHypStack` (mmpars.c 736–749). -/
structure HypEnt where
  stmt : Nat
  vars : List Nat
  scope : Int
deriving Repr, DecidableEq

/-- An entry of `activeDisjHypStack` (mmpars.c 757–762). -/
structure DisjEnt where
  a : Nat
  b : Nat
  stmt : Nat
  scope : Int
deriving Repr, DecidableEq

/-- The variables of `parseStatements`.  Stacks are lists with the top first.  `cstack`/`vstack` hold token and
scope (`activeConstStack`, `activeVarStack`); `active`, `tscope`, `tmp` are the fields of `g_MathToken`;
`next` is the number of tokens declared by the statements already processed (in C the tokens of
a `$c`/`$v` statement are in its `mathString`). -/
structure PState where
  scope : Int := 0
  next : Nat := 0
  cstack : List (Nat × Int) := []
  vstack : List (Nat × Int) := []
  estack : List HypEnt := []
  fstack : List HypEnt := []
  dstack : List DisjEnt := []
  active : Nat → Bool := fun _ => false
  tscope : Nat → Int := fun _ => 0
  tmp : Nat → Nat := fun _ => 0
  undecl : Nat := 0
  out : List Stmt := [{}]
  errs : List PErr := []

/-- Number of the statement being processed. -/
def PState.n (s : PState) : Nat := s.out.length

def PState.err (s : PState) (e : PErr) : PState := { s with errs := s.errs ++ [e] }

/-- Report an error if the condition holds. -/
def PState.errIf (s : PState) (b : Bool) (e : PErr) : PState := if b then s.err e else s

/-- `case lb_` (mmpars.c 907–919; the scope-number limit 32000 and `beginScopeStatementNum` are left out). -/
def doLb (s : PState) : PState := { s with scope := s.scope + 1, out := s.out ++ [{ kind := .lb }] }

/-- Remove the entries of the current scope from the top of a stack. -/
def popScope {α : Type} (sc : α → Int) (cur : Int) : List α → List α :=
  List.dropWhile fun x => decide (cur ≤ sc x)

/-- The entries removed by `popScope`. -/
def popped {α : Type} (sc : α → Int) (cur : Int) : List α → List α :=
  List.takeWhile fun x => decide (cur ≤ sc x)

/-- `case rb_` (mmpars.c 920–981). -/
def doRb (s : PState) : PState :=
  let gone := (popped (·.2) s.scope s.cstack).map (·.1) ++ (popped (·.2) s.scope s.vstack).map (·.1)
  let s' := { s with
    active := fun t => s.active t && !gone.contains t
    cstack := popScope (·.2) s.scope s.cstack
    vstack := popScope (·.2) s.scope s.vstack
    estack := popScope (·.scope) s.scope s.estack
    fstack := popScope (·.scope) s.scope s.fstack
    dstack := popScope (·.scope) s.scope s.dstack
    scope := s.scope - 1 }
  let s'' := s'.errIf (decide (s'.scope < 0)) (.tooManyRb s.n)
  { s'' with out := s.out ++ [{ kind := .rb }] }

/-- Indices of the tokens called `nm` (the block `lowerKey..upperKey` of `g_mathKey`). -/
def sameName (toks : List (Name × Bool)) (nm : Name) : List Nat :=
  (List.range toks.length).filter fun j => (toks[j]?.map (·.1)) == some nm

/-- The body of the loop over the symbols of a `$c`/`$v` statement (mmpars.c 1000–1065).  The test
`mathTokenSameAs`, which skips the search when the name is unique, is omitted: with a single candidate, the
not yet active token itself, the search finds nothing. -/
def declOne (toks : List (Name × Bool)) (isV : Bool) (s : PState) (t : Nat) : PState :=
  let same := sameName toks ((toks[t]?.map (·.1)).getD [])
  let nAct := (same.filter fun j => s.active j && decide (s.tscope j ≤ s.scope)).length
  let s1 := { s with errs := s.errs ++ List.replicate nAct (PErr.redeclared s.n) }
  let clash := same.any fun j => tokIsVar toks j != isV
  let s2 := s1.errIf clash (.conVar s.n)
  let s3 := { s2 with active := upd s2.active t true, tscope := upd s2.tscope t s.scope }
  if isV then { s3 with tmp := upd s3.tmp t s.vstack.length, vstack := (t, s.scope) :: s.vstack }
  else { s3 with cstack := (t, s.scope) :: s.cstack }

/-- `case c_`, `case v_` (mmpars.c 982–1067). -/
def doDecl (toks : List (Name × Bool)) (k : Kind) (syms : List Name) (s : PState) : PState :=
  let ts := (List.range syms.length).map (· + s.next)
  let s0 := s.errIf syms.isEmpty (.emptyDecl s.n)
  let s1 := s0.errIf (k == .c && decide (s.scope > 0)) (.cNotOutermost s.n)
  let s2 := ts.foldl (declOne toks (k == .v)) s1
  { s2 with next := s.next + syms.length, out := s.out ++ [{ kind := k, math := ts }] }

/-- "Prevent stray pointers later" (mmpars.c 1131–1139, 1149–1156, 1180–1188). -/
def strayFix (s : PState) (t : Nat) : PState :=
  { s with tmp := upd s.tmp t 0, vstack := if s.vstack.isEmpty then [(t, s.scope)] else s.vstack }

/-- "Find the active symbol with the most recent declaration" (mmpars.c 1113–1126). -/
def bestActive (s : PState) : List Nat → Option Nat × Int → Option Nat × Int
  | [], b => b
  | j :: js, b =>
    bestActive s js (if s.active j && decide (s.tscope j > b.2) then (some j, s.tscope j) else b)

/-- Look-up of one math symbol (mmpars.c 1086–1189).  `symbolLenExists` has `maxSymbolLen + 1` entries, so a symbol longer
than any declared one is an out-of-range read.  (The order of equal names in `g_mathKey` is taken to be
declaration order; `qsort` does not specify it.) -/
def resolve (toks : List (Name × Bool)) (s : PState) (nm : Name) : Out (Nat × PState) :=
  if ∀ p ∈ toks, p.1.length < nm.length then .ub
  else match sameName toks nm with
  | [] =>
    let t := toks.length + (s.undecl + 1)
    if s.undecl + 1 ≥ 100 then .bug 33
    else .val (t, strayFix { s.err (.notDeclared s.n) with undecl := s.undecl + 1 } t)
  | [t] => if s.active t then .val (t, s) else .val (t, strayFix (s.err (.notActive s.n)) t)
  | t :: ts =>
    match bestActive s (t :: ts) (none, -1) with
    | (some j, _) => .val (j, s)
    | (none, _) => .val (t, strayFix (s.err (.notActive s.n)) t)

/-- Checks on a symbol at position `pos` of the math string (mmpars.c 1192–1218). -/
def symChecks (toks : List (Name × Bool)) (k : Kind) (pos t : Nat) (s : PState) : PState :=
  if k = .d then s.errIf (!tokIsVar toks t) (.constInD s.n)
  else if pos = 0 then s.errIf (tokIsVar toks t) (.firstNotCon s.n)
  else if k = .f then
    if pos = 1 then s.errIf (!tokIsVar toks t) (.fSecondCon s.n)
    else s.errIf (decide (pos = 2)) (.fTooLong s.n)
  else s

/-- "Scan the math section for tokens" (mmpars.c 1080–1231). -/
def mathScan (toks : List (Name × Bool)) (k : Kind) : List Name → List Nat → PState → Out (List Nat × PState)
  | [], acc, s => .val (acc, s)
  | nm :: nms, acc, s => do
    let (t, s1) ← resolve toks s nm
    mathScan toks k nms (acc ++ [t]) (symChecks toks k acc.length t s1)

/-- Checks on the length of the math string (mmpars.c 1233–1250). -/
def lenChecks (k : Kind) (m : List Nat) (s : PState) : PState :=
  if k = .d then s.errIf (decide (m.length < 2)) (.dTooShort s.n)
  else if m.isEmpty then s.err (.empty s.n)
  else s.errIf (k == .f && decide (m.length < 2)) (.fTooShort s.n)

/-- The inner loop over `j` for the `$d` variable `p` (mmpars.c 1287–1353). -/
def dInner (p : Nat) : List Nat → PState → PState
  | [], s => s
  | q :: rest, s =>
    if p = q then s.err (.dNotUnique s.n)
    else
      let a := min p q
      let b := max p q
      if s.dstack.any (fun e => e.a == a && e.b == b) then dInner p rest s
      else dInner p rest { s with dstack := ⟨a, b, s.n, s.scope⟩ :: s.dstack }

/-- `case d_` (mmpars.c 1279–1357). -/
def dPairs : List Nat → PState → PState
  | [], s => s
  | p :: rest, s => dPairs rest (dInner p rest s)

/-- List of the variables of a math string, each once, using the flags `activeVarStack[..].tmpFlag` at the
positions `tmp` (mmpars.c 1398–1412 with `mark = 1`, 1430–1445 with `mark = 2`).  Returns the list and the flags. -/
def markVars (toks : List (Name × Bool)) (tmp : Nat → Nat) (mark : Nat) :
    List Nat → List Nat × (Nat → Nat) → List Nat × (Nat → Nat)
  | [], r => r
  | k :: m, (vs, fl) =>
    if tokIsVar toks k && fl (tmp k) == 0 then markVars toks tmp mark m (vs ++ [k], upd fl (tmp k) mark)
    else markVars toks tmp mark m (vs, fl)

/-- The variables of one `$e` added to the required list (mmpars.c 1455–1468). -/
def markE (tmp : Nat → Nat) : List Nat → List Nat × (Nat → Nat) → List Nat × (Nat → Nat)
  | [], r => r
  | k :: m, (vs, fl) => markE tmp m (if fl (tmp k) = 0 then vs ++ [k] else vs, upd fl (tmp k) 1)

/-- "Scan the other variables in the $f hyp to check for conflicts" (mmpars.c 1507–1542). Returns the flags and
whether an error is reported. -/
def fOthers (tmp : Nat → Nat) (req : Nat) : List Nat → (Nat → Nat) → (Nat → Nat) × Bool
  | [], fl => (fl, false)
  | k :: m, fl =>
    let fl' := if fl (tmp k) = 2 then upd fl (tmp k) 1 else fl
    if req ≠ fl' (tmp k) then (fl', true) else fOthers tmp req m fl'

/-- Result of the scan of the `$f` stack. -/
structure FScan where
  req : List Nat
  opt : List Nat
  fl : Nat → Nat
  errs : List PErr

/-- "Scan the list of $f hypotheses to find those that are required" (mmpars.c 1481–1543), bottom of the
stack first. -/
def fScan (tmp : Nat → Nat) : List HypEnt → FScan → FScan
  | [], r => r
  | h :: hs, r =>
    match h.vars with
    | [] => fScan tmp hs { r with req := r.req ++ [h.stmt] }
    | k :: ks =>
      let q := r.fl (tmp k)
      if q ≠ 0 then
        let o := fOthers tmp 1 ks (upd r.fl (tmp k) 1)
        fScan tmp hs ⟨r.req ++ [h.stmt], r.opt, o.1, r.errs ++ if o.2 then [.fMixture h.stmt] else []⟩
      else
        let o := fOthers tmp 0 ks r.fl
        fScan tmp hs ⟨r.req, r.opt ++ [h.stmt], o.1, r.errs ++ if o.2 then [.fMixture h.stmt] else []⟩

/-- "make sure that all variables in the original statement appeared in some hypothesis" (mmpars.c 1545–1565). -/
def leftOver (toks : List (Name × Bool)) (tmp : Nat → Nat) (n : Nat) :
    List Nat → (Nat → Nat) × List PErr → (Nat → Nat) × List PErr
  | [], r => r
  | k :: m, (fl, er) =>
    if tokIsVar toks k && fl (tmp k) == 2 then leftOver toks tmp n m (upd fl (tmp k) 1, er ++ [.varInNoHyp n])
    else leftOver toks tmp n m (fl, er)

/-- Inner loop of `mergeHyps`: `f` statements smaller than `e` come first; `tail` merges the remaining `$e`. -/
def mergeGo (e : Nat) (es : List Nat) (tail : List Nat → List Nat) : List Nat → List Nat
  | [] => e :: es
  | f :: fs => if e > f then f :: mergeGo e es tail fs else e :: tail (f :: fs)

/-- The merge of the two increasing lists of `$e` and `$f` statement numbers (mmpars.c 1571–1590): the smaller
head is taken (`mergeHyps_cons`). -/
def mergeHyps : List Nat → List Nat → List Nat
  | [] => fun fs => fs
  | e :: es => mergeGo e es (mergeHyps es)

theorem mergeHyps_cons {e f : Nat} {es fs : List Nat} : mergeHyps (e :: es) (f :: fs) =
    if e > f then f :: mergeHyps (e :: es) fs else e :: mergeHyps es (f :: fs) := rfl

/-- Math string and kind of an already processed statement. -/
def PState.stmt (s : PState) (i : Nat) : Stmt := s.out.getD i {}

/-- Is there a mandatory `$f` for token `t` among `hs`? (mmpars.c 1763–1774) -/
def hasF (s : PState) (hs : List Nat) (t : Nat) : Bool :=
  hs.any fun n => (s.stmt n).kind == .f && (s.stmt n).math.length == 2 && (s.stmt n).math.getD 1 0 == t

/-- The check of `$f` declarations (mmpars.c 1738–1822): `done` are the mandatory hypotheses before the
current one. -/
def fCheck (toks : List (Name × Bool)) (s : PState) : List Nat → List Nat → List PErr
  | _, [] => []
  | done, m :: rest =>
    (if (s.stmt m).kind ≠ .f then
      ((s.stmt m).math.filter fun t => tokIsVar toks t && !hasF s done t).map fun _ => PErr.noF m
    else if (s.stmt m).math.length = 2 ∧ hasF s done ((s.stmt m).math.getD 1 0) = true then [.dupF m] else [])
    ++ fCheck toks s (done ++ [m]) rest

/-- `case a_`, `case p_` (mmpars.c 1427–1725) and the `$f` check (1738–1822). -/
def doAssert (toks : List (Name × Bool)) (k : Kind) (m : List Nat) (s : PState) : Out PState :=
  let r1 := markVars toks s.tmp 2 m ([], fun _ => 0)
  let r2 := s.estack.reverse.foldl (fun r h => markE s.tmp h.vars r) r1
  let reqVars := r2.1
  let f := fScan s.tmp s.fstack.reverse ⟨[], [], r2.2, []⟩
  let lo := leftOver toks s.tmp s.n m (f.fl, [])
  let reqHyps := mergeHyps (s.estack.reverse.map (·.stmt)) f.req
  let fl := lo.1
  let isReq := fun e : DisjEnt => fl (s.tmp e.a) != 0 && fl (s.tmp e.b) != 0
  let ds := s.dstack.reverse
  let optVars := ((List.range s.vstack.length).filter fun i => fl i == 0).map
    fun i => ((s.vstack.reverse[i]?).map (·.1)).getD 0
  let st : Stmt :=
    { kind := k, math := m, reqHyp := reqHyps, reqVars := reqVars
      reqDisj := (ds.filter isReq).map fun e => (e.a, e.b)
      optHyp := if k = .p then f.opt else []
      optDisj := if k = .p then (ds.filter fun e => !isReq e).map fun e => (e.a, e.b) else []
      optVars := if k = .p then optVars else []
      reqDisjStmt := (ds.filter isReq).map (·.stmt)
      optDisjStmt := if k = .p then (ds.filter fun e => !isReq e).map (·.stmt) else [] }
  if optVars.length + reqVars.length ≠ s.vstack.length then .bug 1708
  else
    let s' := { s with out := s.out ++ [st], errs := s.errs ++ f.errs ++ lo.2 }
    .val { s' with errs := s'.errs ++ fCheck toks s' [] (reqHyps ++ [s.n]) }

/-- `case f_`, `case e_` (mmpars.c 1358–1424). -/
def doHyp (toks : List (Name × Bool)) (k : Kind) (m : List Nat) (s : PState) : PState :=
  let h : HypEnt := ⟨s.n, (markVars toks s.tmp 1 m ([], fun _ => 0)).1, s.scope⟩
  let s' := if k = .e then { s with estack := h :: s.estack } else { s with fstack := h :: s.fstack }
  { s' with out := s.out ++ [{ kind := k, math := m }] }

/-- One iteration of the loop over the statements (mmpars.c 894–1823). -/
def doStmt (toks : List (Name × Bool)) (s : PState) (x : Src) : Out PState :=
  match x.kind with
  | .lb => .val (doLb s)
  | .rb => .val (doRb s)
  | .c => .val (doDecl toks .c x.syms s)
  | .v => .val (doDecl toks .v x.syms s)
  | .d => do
    let (m, s1) ← mathScan toks .d x.syms [] s
    let s2 := dPairs m (lenChecks .d m s1)
    .val { s2 with out := s2.out ++ [{ kind := .d, math := m }] }
  | .e => do
    let (m, s1) ← mathScan toks .e x.syms [] s
    .val (doHyp toks .e m (lenChecks .e m s1))
  | .f => do
    let (m, s1) ← mathScan toks .f x.syms [] s
    .val (doHyp toks .f m (lenChecks .f m s1))
  | .a => do
    let (m, s1) ← mathScan toks .a x.syms [] s
    doAssert toks .a m (lenChecks .a m s1)
  | .p => do
    let (m, s1) ← mathScan toks .p x.syms [] s
    doAssert toks .p m (lenChecks .p m s1)
  | .none => .bug 1707

def doStmts (toks : List (Name × Bool)) : List Src → PState → Out PState
  | [], s => .val s
  | x :: xs, s => do
    let s' ← doStmt toks s x
    doStmts toks xs s'

/-- `parseMathDecl` followed by `parseStatements`. -/
def parseStatements (src : List Src) : Out PState := do
  let s ← doStmts (declToks src) src {}
  .val (s.errIf (decide (s.scope > 0)) .missingRb)

/-- The database the verifier works on. -/
def toDb (src : List Src) (s : PState) : Db where
  isVar := tokIsVar (declToks src)
  sep := (declToks src).length
  stmt := fun i => s.out.getD i {}

end MM.Pars
