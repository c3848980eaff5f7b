import Verif.Pars.Stmts
/-!
# Model of the lexical part of READ (src/mmpars.c)

`whiteSpaceLen`, `tokenLen`, `proofTokenLen` (3664–3823), `readRawSource` (44–171), `parseKeywords` (173–421) and `parseLabels` (427–552).

A C pointer into the source buffer is modelled by the list of characters from there to the terminating NUL.  The source contains no NUL.
-/
namespace MM.Lex
open MM.Veri MM.Pars

/-- `isgraph` in the "C" locale. -/
def isGraph (c : Char) : Bool := decide (33 ≤ c.toNat) && decide (c.toNat ≤ 126)

/-- `isspace` in the "C" locale. -/
def isSpace (c : Char) : Bool := (decide (9 ≤ c.toNat) && decide (c.toNat ≤ 13)) || decide (c.toNat = 32)

/-- Where the loop of `whiteSpaceLen` is: in white space, in a comment `$( .. $)`, in a comment `$! ..`. -/
inductive WMode where
  | ws | com | line
deriving DecidableEq

/-- `whiteSpaceLen` (mmpars.c 3664–3707); the result is the pointer `ptr + whiteSpaceLen(ptr)`.  The nested loops are written as one loop with a mode.
A `$` directly before the terminating NUL inside a comment makes the C code go on after the NUL. -/
def skipWs : WMode → List Char → Out (List Char)
  | .ws, [] => .val []
  | .ws, c :: r =>
    if c = '$' then
      match r with
      | [] => .val [c]
      | d :: r' => if d = '(' then skipWs .com r' else if d = '!' then skipWs .line r' else .val (c :: d :: r')
    else if isGraph c then .val (c :: r)
    else skipWs .ws r
  | .com, [] => .val []
  | .com, c :: r =>
    if c = '$' then
      match r with
      | [] => .ub
      | d :: r' => if d = ')' then skipWs .ws r' else skipWs .com r'
    else skipWs .com r
  | .line, [] => .bug 1716
  | .line, c :: r => if c = '\n' then skipWs .ws r else skipWs .line r

/-- `tokenLen` (mmpars.c 3737–3761) -/
def tokenLen : List Char → Nat
  | [] => 0
  | c :: r =>
    if c = '$' then
      match r with
      | [] => 0
      | d :: r' => if d = '$' ∨ d.isDigit = true then tokenLen r' + 2 else 0
    else if isGraph c then tokenLen r + 1 else 0

/-- The characters that are proof tokens by themselves. -/
def isSingle (c : Char) : Bool := c == ':' || c == '?' || c == '(' || c == ')' || c == '='

/-- The loop of `proofTokenLen` (mmpars.c 3801–3818) -/
def proofTokenTail : List Char → Nat
  | [] => 0
  | c :: r =>
    if c = '$' then
      match r with
      | [] => 0
      | d :: r' => if d = '$' then proofTokenTail r' + 2 else 0
    else if isGraph c = true ∧ isSingle c = false then proofTokenTail r + 1 else 0

/-- `proofTokenLen` (mmpars.c 3791–3820) -/
def proofTokenLen (p : List Char) : Nat := if p.head?.any isSingle then 1 else proofTokenTail p

/-- The loop that reads the tokens of a section: `fbPtr += whiteSpaceLen(fbPtr); j = tokenLen(fbPtr); if (!j) break;`
(e.g. mmpars.c 606–611), for at most `n` iterations. -/
def readToks (len : List Char → Nat) : Nat → List Char → Out (List Name)
  | 0, _ => .fuel
  | n + 1, p => do
    let q ← skipWs .ws p
    if len q = 0 then .val []
    else do
      let ts ← readToks len n (q.drop (len q))
      .val (q.take (len q) :: ts)

/-- The math symbols of a section starting at `p`. -/
def mathToks (p : List Char) : Out (List Name) := readToks tokenLen (p.length + 1) p

/-- The proof tokens of a section starting at `p` (mmpars.c 1923, 1993–2001). -/
def proofToks (p : List Char) : Out (List Name) := readToks proofTokenLen (p.length + 1) p

/-- Number of error messages of `readRawSource` (mmpars.c 44–171): `prev`: the character before is printable; `com`: `insideComment`.
(`mode` is always 0.) -/
def rawErrs : Bool → Bool → List Char → Nat
  | _, com, [] => if com then 1 else 0
  | prev, com, c :: r =>
    if c ≠ '$' then (if isGraph c || isSpace c then 0 else 1) + rawErrs (isGraph c) com r
    else
      (if prev && (!com || decide (r.head? = some ')')) then 1 else 0) +
      (if r.tail.head?.any isGraph && (!com || decide (r.head? = some ')')) then 1 else 0) +
      (if r.head? = some '(' then (if com then 1 else 0) + rawErrs true true r
       else if r.head? = some ')' then (if com then 0 else 1) + rawErrs true false r
       else if com then rawErrs true com r
       else (if r.head? = some '[' ∨ r.head? = some ']' then 1 else 0) + rawErrs true com r)

/-- A statement of `parseKeywords`: type, and pointer and length of the three sections. -/
structure KStmt where
  kind : Kind
  label : List Char
  labelLen : Nat
  math : List Char := []
  mathLen : Nat := 0
  proof : List Char := []
  proofLen : Nat := 0

/-- Variables of `parseKeywords`. -/
structure KState where
  stmts : List KStmt := []
  mode : Nat := 0
  com : Bool := false
  type : Kind := .none
  start : List Char
  errs : Nat := 0

/-- The keyword character of a statement type (mmpars.c 294–304). -/
def kwKind (d : Option Char) : Option Kind :=
  if d = some 'c' then some .c else if d = some 'v' then some .v else if d = some 'e' then some .e
  else if d = some 'f' then some .f else if d = some 'd' then some .d else if d = some 'a' then some .a
  else if d = some 'p' then some .p else if d = some '{' then some .lb else if d = some '}' then some .rb else none

/-- Change of the last statement. -/
def modLast (l : List KStmt) (f : KStmt → KStmt) : List KStmt :=
  match l.getLast? with
  | none => l
  | some x => l.dropLast ++ [f x]

/-- What `parseKeywords` does at a `$` outside comments followed by `d` (mmpars.c 294–382); `r` is the pointer to `d`. -/
def kwStep (d : Option Char) (r : List Char) (s : KState) : KState :=
  match kwKind d with
  | some k =>
    if s.mode ≠ 0 then { s with type := k, errs := s.errs + 1 }
    else { s with
      type := k, stmts := s.stmts ++ [{ kind := k, label := s.start, labelLen := s.start.length - r.length - 1 }]
      start := r.tail, mode := if k ≠ .lb ∧ k ≠ .rb then 1 else 0 }
  | none =>
    if s.mode = 0 then { s with errs := s.errs + 1 }
    else if s.mode = 1 then
      let bad : Bool := decide (s.type = .p) && decide (d ≠ some '=')
      let errs := s.errs + if bad then 1 else 0
      let mode := if bad && decide (d = some '.') then 2 else 1
      if s.type ≠ .p ∧ d ≠ some '.' then { s with errs := errs + 1 }
      else { s with
        stmts := modLast s.stmts fun x => { x with math := s.start, mathLen := s.start.length - r.length - 1 }
        start := r.tail, mode := if s.type = .p ∧ mode ≠ 2 then 2 else 0, errs := errs }
    else
      if d ≠ some '.' then { s with errs := s.errs + 1 }
      else { s with
        stmts := modLast s.stmts fun x => { x with proof := s.start, proofLen := s.start.length - r.length - 1 }
        start := r.tail, mode := 0 }

/-- The loop of `parseKeywords` (mmpars.c 256–383). -/
def kwLoop : List Char → KState → KState
  | [], s =>
    if s.mode ≠ 0 then
      match s.stmts.getLast? with
      | none => { s with errs := s.errs + 1 }
      | some x => { s with errs := s.errs + 1, start := x.label, stmts := s.stmts.dropLast }
    else s
  | c :: r, s =>
    if c ≠ '$' then kwLoop r s
    else match r with
    | [] => kwLoop [] (if s.com then s else kwStep none [] s)
    | d :: r' =>
      if d = '$' then kwLoop r' s
      else if d = '(' then kwLoop r' { s with com := true }
      else if d = ')' then kwLoop r' { s with com := false }
      else if s.com then kwLoop r' s
      else kwLoop r' (kwStep (some d) (d :: r') s)

/-- `parseKeywords`: the statements, the pointer to the text after the last one, the number of error messages. -/
def parseKeywords (text : List Char) : KState := kwLoop text { start := text }

end MM.Lex
