import Verif.Lex.Read
import Verif.Vstr.Model
/-!
# WRITE SOURCE and the changes SAVE PROOF makes to the stored source

The memory a `char *` points to is the list of the characters from there to the terminating NUL.
-/
namespace MM.Write
open MM.Veri MM.Pars MM.Lex

/-- `memcpy(ptr, src, len)` and `ptr += len` (mmpars.c 5131–5133, 5152–5154): `out` is what is in the buffer of `size + 1` characters before `ptr`.
Characters are written behind the buffer, or read behind the end of `src`, if the lengths do not fit. -/
def copy (size : Nat) (src : List Char) (len : Nat) (out : List Char) : Out (List Char) :=
  if src.length < len ∨ size + 1 < out.length + len then .ub else .val (out ++ src.take len)

/-- `ptr[0] = '$'; ptr[1] = c; ptr += 2` (mmpars.c 5140–5142 and the like) -/
def put (size : Nat) (c : Char) (out : List Char) : Out (List Char) :=
  if size + 1 < out.length + 2 then .ub else .val (out ++ ['$', c])

/-- The sizes of the keywords of a statement (mmpars.c 5092–5117).  `dummy`: it is the last statement.  (`default: bug(1748)` cannot be reached since
the types are those of `Kind`.) -/
def kwSize (dummy : Bool) : Kind → Out Nat
  | .lb | .rb => .val 2
  | .v | .c | .d | .e | .f | .a => .val 4
  | .p => .val 6
  | .none => if dummy then .val 0 else .bug 1747

/-- The loop that computes the size of the buffer (mmpars.c 5085–5118); the last statement is the dummy. -/
def sizeLoop : List KStmt → Nat → Out Nat
  | [], size => .val size
  | x :: xs, size => do
    let k ← kwSize xs.isEmpty x.kind
    sizeLoop xs (size + x.labelLen + x.mathLen + x.proofLen + k)

/-- The `switch` of the copying loop (mmpars.c 5134–5180) -/
def copyKw (size : Nat) (dummy : Bool) (x : KStmt) (out : List Char) : Out (List Char) :=
  if x.kind = .none then (if dummy then .val out else .bug 1749)
  else if x.kind = .lb ∨ x.kind = .rb then put size (kwChar x.kind) out
  else if x.kind = .p then do
    let o ← put size (kwChar x.kind) out
    let o ← copy size x.math x.mathLen o
    let o ← put size '=' o
    let o ← copy size x.proof x.proofLen o
    put size '.' o
  else do
    let o ← put size (kwChar x.kind) out
    let o ← copy size x.math x.mathLen o
    put size '.' o

/-- The loop that fills the buffer (mmpars.c 5127–5181) -/
def copyLoop (size : Nat) : List KStmt → List Char → Out (List Char)
  | [], out => .val out
  | x :: xs, out => do
    let o ← copy size x.label x.labelLen out
    let o ← copyKw size xs.isEmpty x o
    copyLoop size xs o

/-- `writeSourceToBuffer` (mmpars.c 5074–5185); the argument is `g_Statement[1], ..., g_Statement[g_statements + 1]`. -/
def writeSourceToBuffer (stmts : List KStmt) : Out (List Char) := do
  let size ← sizeLoop stmts 0
  let out ← copyLoop size stmts []
  if out.length ≠ size then .bug 1751 else .val out

/-- The dummy statement with the text after the last statement (mmpars.c 384–389); `last` is that text. -/
def dummyStmt (last : List Char) : KStmt := { kind := .none, label := last, labelLen := last.length }

/-- What READ puts into `g_Statement[1..g_statements + 1]` (`parseKeywords`, mmpars.c 175–403) -/
def statements (text : List Char) : List KStmt := (parseKeywords text).stmts ++ [dummyStmt (parseKeywords text).start]

/-- SAVE PROOF stores the printed proof (metamath.c 3800–3832); `printed` is `g_printString` after `printLongLine`. -/
def storeProof (printed : List Char) (x : KStmt) : Out KStmt := do
  let s := '\n' :: printed
  let r ← Vstr.right s ((s.length : Int) - 3)
  if r ≠ [' ', '$', '.', '\n'] then .bug 1128
  else .val { x with proof := s, proofLen := s.length - 3 }

/-- SAVE PROOF adds the date to the comment (metamath.c 3750–3787); `note` is `str4`, the text "(Contributed by ...)". -/
def storeNote (note : List Char) (x : KStmt) : Out KStmt :=
  if x.label.length < x.labelLen then .ub
  else do
    let s := x.label.take x.labelLen
    let i ← Vstr.rinstr (s.length + 1) s ['$', ')']
    if i ≠ 0 then do
      let a ← Vstr.left s ((i : Int) - 1)
      let b ← Vstr.right s i
      let t := a ++ note ++ b
      .val { x with label := t, labelLen := t.length }
    else .val x

/-- `str2[0] == 0`: there is no contributor yet, the note is added (metamath.c 3727–3789); `none`: it is not. -/
def storeNoteIf : Option (List Char) → KStmt → Out KStmt
  | some n, x => storeNote n x
  | none, x => .val x

/-- One SAVE PROOF: statement `stmt` (counted from 1), the printed proof, and the note if one is added. -/
structure Save where
  stmt : Nat
  printed : List Char
  note : Option (List Char)

/-- The part of SAVE PROOF that changes the stored source (metamath.c 3722–3832). -/
def saveProof (s : Save) (stmts : List KStmt) : Out (List KStmt) :=
  if h : 0 < s.stmt ∧ s.stmt - 1 < stmts.length then do
    let x := stmts[s.stmt - 1]
    let x ← storeNoteIf s.note x
    let x ← storeProof s.printed x
    .val (stmts.set (s.stmt - 1) x)
  else .ub

/-- Several SAVE PROOF commands one after the other. -/
def saveAll : List Save → List KStmt → Out (List KStmt)
  | [], stmts => .val stmts
  | s :: ss, stmts => do
    let st ← saveProof s stmts
    saveAll ss st

end MM.Write
