import Verif.Vstr.Model
/-!
# `printLongLine`

`printLongLine` (mminou.c 498–737) with the part of `print2` (mminou.c 184–482) its lines meet.  Not modelled: the scroll prompt, the log file and the
page buffer of `print2`.
-/
namespace MM.Long
open MM.Vstr

abbrev NUL : Char := Char.ofNat 0

/-- `QUOTED_SPACE` (mminou.c 41) -/
abbrev QSP : Char := Char.ofNat 3

/-- The character `s[i]` of a string, the terminating NUL included. -/
def ch (s : Str) (i : Nat) : Out Char := if h : i < s.length then .val s[i] else if i = s.length then .val NUL else .ub

/-- `tildeFlag`, `treeIndentationFlag` and `breakMatch1` (with its first character changed) after mminou.c 500–590. -/
structure Cfg where
  tilde : Bool
  tree : Bool
  bm : Str

/-- `(long)tildeFlag + (long)(breakMatch1[0] == '\\')` -/
def Cfg.margin (c : Cfg) : Int := (if c.tilde then 1 else 0) + (if c.bm.head? = some '\\' then 1 else 0)

/-- The characters at which a line is broken (mminou.c 661–662) -/
def Cfg.set (c : Cfg) : Str := if c.bm.head? = some '\\' then [' '] else c.bm

/-- The variables of the loop: `longLine`, `firstLine`, `g_screenWidth`, `startNextLine1`, `startNextLineLen`, and what has been printed. -/
structure LState where
  line : Str
  first : Bool
  width : Int
  next : Str
  nextLen : Int
  out : List Str

/-- `print2("%s\n", l)`: quoted spaces become spaces; a line too long for the screen would be wrapped by a recursive call (mminou.c 368–384) or, when the output
goes to a string, reported as BUG #1505 (mminou.c 455–464); both are `bug 1505` here. -/
def print2 (width : Int) (l : Str) : Out Str :=
  if width + 1 < (l.length : Int) + 1 then .bug 1505 else .val (l.map fun c => if c = QSP then ' ' else c)

/-- From HTML_RESTART to the loop (mminou.c 606–616) -/
def restart (s : LState) : Out LState :=
  if (s.next.length : Int) > s.width - 4 then do
    let n ← left s.next (s.width - 4)
    .val { s with first := true, nextLen := s.width - 4, next := n }
  else .val { s with first := true, nextLen := s.next.length }

/-- The search for a character to break at (mminou.c 661–665); 0 if there is none.  (`strchr` also finds the terminating NUL.) -/
def backSearch (set line : Str) : Nat → Out Nat
  | 0 => .val 0
  | p + 1 => do
    let c ← ch line p
    if c ∈ set ∨ c = NUL then .val (p + 1) else backSearch set line p

/-- "We're in the compressed proof section" (mminou.c 641–644) -/
def inCode (line : Str) (p : Nat) : Out Bool := do
  let l ← left line ((line.length : Int) - 3)
  let a ← (if instr p l [' '] = 0 then ch line (p - 3) >>= fun c => .val (decide (c ≠ ' ')) else .val false)
  if a then .val true else ch line (p - 4) >>= fun c => .val (decide (c = ')'))

/-- Where to break the line (mminou.c 640–681); 0 if nowhere. -/
def breakPos (c : Cfg) (line : Str) (p : Nat) : Out Nat := do
  let code ← (if c.bm.head? = some '&' then inCode line p else .val false)
  if code then ch line (p - 2) >>= fun d => .val (if d = ' ' then p - 1 else p)
  else if c.bm = [] then .val p
  else backSearch c.set line p

/-- What is put before the line (mminou.c 699–710) -/
def prefixOf (c : Cfg) (s : LState) (p : Nat) : Str :=
  if s.first then []
  else if c.tree = true ∧ s.nextLen + p - 1 < s.width then s.next ++ string (s.width - s.nextLen - p + 1) ' ' else s.next

/-- The line without what has been printed (mminou.c 716–730) -/
def restOf (c : Cfg) (line : Str) (p : Nat) : Out Str := do
  let d ← ch line (p - 1)
  if d = ' ' ∧ c.bm ≠ [] then do
    let e ← ch line p
    if e = ' ' then right line (p + 2) else right line (p + 1)
  else right line p

/-- Print the part before position `p` (mminou.c 694–730) -/
def emit (c : Cfg) (s : LState) (p : Nat) : Out LState := do
  let d ← ch s.line 0
  if p = 1 ∧ d ≠ ' ' then .bug 1516
  else do
    let a ← left s.line ((p : Int) - 1)
    let o ← print2 s.width (prefixOf c s p ++ a ++ (if c.tilde then ['~'] else []))
    let r ← restOf c s.line p
    .val { s with first := false, line := r, out := s.out ++ [o] }

/-- The last part (mminou.c 732–743) -/
def emitLast (c : Cfg) (s : LState) : Out LState := do
  let pre := if s.first then [] else if c.tree then s.next ++ string (s.width - s.nextLen - s.line.length) ' ' else s.next
  let o ← print2 s.width (pre ++ s.line)
  .val { s with line := [], out := s.out ++ [o] }

/-- `(1 - firstLine) * startNextLineLen` -/
def LState.indent (s : LState) : Int := if s.first then 0 else s.nextLen

/-- The loop that breaks one line of the caller (mminou.c 606–743), for at most `fuel` rounds. -/
def lineLoop (c : Cfg) : Nat → LState → Out LState
  | 0, _ => .fuel
  | fuel + 1, s =>
    if (s.line.length : Int) + s.indent > s.width - c.margin then
      if s.width - c.margin + 1 - s.indent < 4 then .bug 1524
      else
        breakPos c s.line (s.width - c.margin + 1 - s.indent).toNat >>= fun p =>
        if p = 0 then restart { s with width := s.width + 1 } >>= lineLoop c fuel
        else emit c s p >>= lineLoop c fuel
    else emitLast c s

/-- One line of the caller (mminou.c 605–744); the result has `startNextLine1`, which may have been cut, and the output. -/
def doLine (c : Cfg) (width : Int) (next line : Str) (out : List Str) : Out (Str × List Str) := do
  let s ← restart ⟨line, true, width, next, 0, out⟩
  let s ← lineLoop c (3 * line.length + 5) s
  .val (s.next, s.out)

/-- The loop over the lines of the caller (mminou.c 592–745) -/
def multiLoop (c : Cfg) (width : Int) : Nat → Str → Str → List Str → Out (List Str)
  | 0, _, _, _ => .fuel
  | fuel + 1, multi, next, out =>
    if multi = [] then .val out
    else if instr 1 multi ['\n'] ≠ 0 then do
      let l ← left multi ((instr 1 multi ['\n'] : Int) - 1)
      let m ← right multi ((instr 1 multi ['\n'] : Int) + 1)
      let r ← doLine c width next l out
      multiLoop c width fuel m r.1 r.2
    else do
      let r ← doLine c width next multi out
      multiLoop c width fuel [] r.1 r.2

/-- Spaces in quotes after `=` become `QUOTED_SPACE` (mminou.c 567–580); `prev`: the character before, `q`: `quoteMode`. -/
def quoteSpaces : Option Char → Bool → Str → Str
  | _, _, [] => []
  | prev, q, d :: t =>
    let q' := if d = '"' ∧ prev ≠ none then decide (q = false ∧ prev = some '=') else q
    (if d = ' ' ∧ q' = true then QSP else d) :: quoteSpaces (some d) q' t

/-- What the break characters and the start of the continuation lines stand for (mminou.c 523–590): `\x01` is the tree mode, `"` the quote mode; both break at
spaces.  A start of line `~` means a `~` at the end of the lines. -/
def cfgOf (next bm : Str) : Cfg :=
  let tree := decide (bm.head? = some (Char.ofNat 1))
  let bm1 := if tree then ' ' :: bm.tail else bm
  let bm2 := if bm1.head? = some '"' then ' ' :: bm1.tail else bm1
  ⟨decide (next.head? = some '~'), tree, bm2⟩

/-- `printLongLine` (mminou.c 498–753): the lines printed. -/
def printLongLine (width : Int) (line next bm : Str) : Out (List Str) :=
  if line = [] then print2 width [] >>= fun o => .val [o]
  else
    let multi := if bm.head? = some '"' then quoteSpaces none false line else line
    multiLoop (cfgOf next bm) width (multi.length + 1) multi (if next.head? = some '~' then [' '] else next) []

/-- What is in `g_printString` after the lines were printed with `g_outputToString` (mminou.c 449) -/
def printed (lines : List Str) : Str := lines.flatMap (· ++ ['\n'])

end MM.Long
