import Verif.Fmt.Rewrap
import Verif.Write.Model
/-!
# Model of `outputStatement` (src/mmpars.c 3866–4307) and of WRITE SOURCE / FORMAT and / REWRAP (mmcmds.c 3696–3775)

Since `writeSourceToBuffer` writes the file, what counts is what `outputStatement` stores in `g_Statement[]`; the text it returns is only searched for
carriage returns.
-/
namespace MM.Fmt
open MM.Veri MM.Pars MM.Lex MM.Vstr MM.Long MM.Write

/-- What the formatting depends on besides the statements: `g_screenWidth`, `reformatFlag == 2`, the markup for `rewrapComment`, and the memory `edit` finds in its
buffer. -/
structure FCfg where
  width : Int
  rewrap : Bool
  pm : Str
  um : Str
  g : Nat → Char

/-- The static variables `previousType` and `dollarDpos` (mmpars.c 3877–3878); `.none` is `illegal_`. -/
structure FState where
  prev : Kind := .none
  dpos : Int := 0
deriving DecidableEq

/-- A section copied from the source (mmpars.c 3892–3905) -/
def getSec (ptr : List Char) (len : Nat) : Out Str := if ptr.length < len then .ub else .val (ptr.take len)

/-- `space(n)` -/
def space (n : Nat) : Str := List.replicate n ' '

/-- "Untab the section", only if it has a tab (mmpars.c 3919–3927) -/
def untabIf (g : Nat → Char) (s : Str) : Out Str := if '\t' ∈ s then edit 2048 g s else .val s

/-- The loops that delete one character at every occurrence of `pat`: `left(s, pos - 1 + k)` and `right(s, pos + 1 + k)` (mmpars.c 3934–3939, 3942–3949 with
`k = 0`; 4192–4197 with `k = 1`) -/
def cutLoop (pat : Str) (k : Nat) : Nat → Str → Out Str
  | 0, _ => .fuel
  | n + 1, s =>
    let pos := instr 1 s pat
    if pos = 0 then .val s
    else left s ((pos : Int) - 1 + k) >>= fun a => right s ((pos : Int) + 1 + k) >>= fun b => cutLoop pat k n (a ++ b)

/-- The label section before the `switch` (mmpars.c 3920–3949) -/
def tidy (g : Nat → Char) (s : Str) : Out Str :=
  untabIf g s >>= fun s => cutLoop [' ', '\n'] 0 (s.length + 1) s >>= fun s => cutLoop ['\n', '\n', '\n', '\n'] 0 (s.length + 1) s

/-- `INDENT_FIRST + INDENT_INCR * scope`, less for `$}` (mmpars.c 3914–3918); the scope of a `$}` is at least 1. -/
def indentOf (k : Kind) (scope : Nat) : Nat := if k = .rb then 2 + 2 * scope - 2 else 2 + 2 * scope

/-- A newline at the end of a non-empty text (mmpars.c 3969–3972) -/
def addNl (s : Str) : Str := if s ≠ [] ∧ s.getLast? ≠ some '\n' then s ++ ['\n'] else s

/-- The blank line between `$}` and `${` (mmpars.c 3974–3990) -/
def blankLine (k prev : Kind) (s : Str) : Str :=
  if k = .lb ∧ prev = .rb then
    if s = [] then ['\n', '\n'] else if instr 1 s ['\n', '\n'] = 0 then s ++ ['\n'] else s
  else s

/-- The space before the keyword (mmpars.c 3991–4002) -/
def addIndent (indent : Nat) (s : Str) : Str := if s = [] then [' ', ' '] else s ++ space indent

/-- The label section of `${`, `$}`, `$v`, `$c`, `$d` (mmpars.c 3960–4002) -/
def braceLabel (g : Nat → Char) (k prev : Kind) (indent : Nat) (lab : Str) : Out Str :=
  edit 128 g lab >>= fun s => .val (addIndent indent (blankLine k prev (addNl s)))

/-- The groups of `$d` statements (mmpars.c 4010–4034): the label section and `dollarDpos`; `len` is the length of the math section, `blank`: there are only spaces
and newlines before the `$d`. -/
def dGroup (width : Int) (prev : Kind) (dpos : Int) (indent len : Nat) (blank : Bool) (lab : Str) : Str × Int :=
  if blank = true ∧ prev = .d then
    if dpos + 2 + len + 4 ≤ width then ([' ', ' '], dpos + 2 + len + 4) else ('\n' :: space indent, (indent : Int) + len + 4)
  else (lab, (indent : Int) + len + 4)

/-- The comment of a `$a` or `$p` and what is before it (mmpars.c 4041–4057) -/
def splitComment (lab : Str) : Out (Str × Str) :=
  rinstr (lab.length + 1) lab ['$', '('] >>= fun cs =>
  rinstr (lab.length + 1) lab ['$', ')'] >>= fun ce =>
  if ce + 1 < cs then .bug 1725
  else
    (if cs ≠ 0 then seg lab cs ((ce : Int) + 1) else .val "$( PLEASE PUT DESCRIPTION HERE. $)".toList) >>= fun c =>
    left lab ((cs : Int) - 1) >>= fun p => .val (p, c)

/-- `pos == 0 && stmt > 1`: a newline if there is none (mmpars.c 4066–4071, 4161–4165); the result has the text and `pos`. -/
def needNl (g : Nat → Char) (stmt : Nat) (p : Str) (pos : Nat) : Out (Str × Nat) :=
  if pos = 0 ∧ stmt > 1 then edit 128 g p >>= fun s => .val (s ++ ['\n'], s.length + 2) else .val (p, pos)

/-- The blank line after a `$e` (mmpars.c 4060–4064) -/
def dropBlank (prev : Kind) (p : Str) (pos : Nat) : Out (Str × Nat) :=
  if prev = .e ∧ pos = 2 ∧ p.head? = some '\n' then right p 2 >>= fun q => .val (q, 1) else .val (p, pos)

/-- The lines of the comment are indented (mmpars.c 4090–4109) -/
def indentLoop (ind : Nat) : Nat → Nat → Str → Out Str
  | 0, _, _ => .fuel
  | n + 1, pos, s =>
    let pos := instr ((pos : Int) + 1) s ['\n']
    if pos = 0 then .val s
    else
      let len := ((s.drop pos).takeWhile (· == ' ')).length
      ch s (pos + len) >>= fun c =>
      left s pos >>= fun a => right s ((pos : Int) + len + 1) >>= fun b =>
      indentLoop ind n pos (a ++ (if c ≠ '\n' then space ind else []) ++ b)

/-- The `ASCII_4` characters of `rewrapComment` become spaces (mmpars.c 4122–4128). -/
def restore (s : Str) : Str := s.mapIdx fun i c => if 2 ≤ i ∧ i + 2 < s.length ∧ c = A4 then ' ' else c

/-- "Remove any trailing spaces" (mmpars.c 4139–4147) -/
def trailLoop : Nat → Nat → Str → Out Str
  | 0, _, _ => .fuel
  | n + 1, pos, s =>
    let pos := instr ((pos : Int) + 1) s [' ', '\n']
    if pos = 0 then .val s
    else left s ((pos : Int) - 1) >>= fun a => right s ((pos : Int) + 1) >>= fun b => trailLoop n (pos - 2) (a ++ b)

/-- The comment without `<HTML>` (mmpars.c 4084–4128) -/
def wrapComment (f : FCfg) (indent : Nat) (c : Str) : Out Str :=
  (if f.rewrap then rewrapComment f.pm f.um f.g c else .val c) >>= fun c =>
  indentLoop (indent + 3) (c.length + 1) 0 c >>= fun c =>
  printLongLine f.width (space indent ++ c) (space (indent + 3)) [' '] >>= fun ls =>
  .val (restore (printed ls))

/-- `"<HTML>"` -/
def htmlTag : Str := ['<', 'H', 'T', 'M', 'L', '>']

/-- The label section of `$a` and `$p` (mmpars.c 4039–4153) -/
def assertLabel (f : FCfg) (stmt : Nat) (prev : Kind) (indent : Nat) (name lab : Str) : Out Str :=
  splitComment lab >>= fun pc =>
  rinstr (pc.1.length + 1) pc.1 ['\n'] >>= fun pos =>
  dropBlank prev pc.1 pos >>= fun r =>
  needNl f.g stmt r.1 r.2 >>= fun r =>
  (if instr 1 pc.2 htmlTag ≠ 0 then .val (r.1, pc.2 ++ ['\n'])
   else left r.1 r.2 >>= fun p => wrapComment f indent pc.2 >>= fun c => .val (p, c)) >>= fun q =>
  trailLoop (q.2.length + 1) 2 q.2 >>= fun c =>
  .val (q.1 ++ c ++ space indent ++ name ++ [' '])

/-- The label section of `$e` and `$f` (mmpars.c 4154–4176) -/
def hypLabel (f : FCfg) (stmt : Nat) (prev : Kind) (indent : Nat) (name lab : Str) : Out Str :=
  rinstr (lab.length + 1) lab name >>= fun pos =>
  left lab ((pos : Int) - 1) >>= fun p =>
  rinstr (p.length + 1) p ['\n'] >>= fun pos =>
  needNl f.g stmt p pos >>= fun r =>
  left r.1 r.2 >>= fun p =>
  .val ((if (prev = .d ∨ prev = .e) ∧ instr 1 p ['$', '('] = 0 then ['\n'] else p) ++ space indent ++ name ++ [' '])

/-- "Reduce multiple in-line spaces to single space" (mmpars.c 4199–4212) -/
def spaceLoop : Nat → Nat → Str → Out Str
  | 0, _, _ => .fuel
  | n + 1, pos, s =>
    let pos := instr ((pos : Int) + 1) s [' ', ' ']
    if pos = 0 then .val s
    else if pos > 1 then
      ch s (pos - 2) >>= fun c =>
      if c ≠ '\n' ∧ c ≠ ' ' then
        left s pos >>= fun a => right s ((pos : Int) + 2) >>= fun b => spaceLoop n (pos - 1) (a ++ b)
      else spaceLoop n pos s
    else spaceLoop n pos s

/-- The math section (mmpars.c 4190–4212) -/
def mathOf (s : Str) : Out Str :=
  cutLoop ['\n', '\n'] 1 (s.length + 1) s >>= fun s => spaceLoop (2 * s.length + 2) 0 s

/-- `$d`: the math section without redundant spaces (mmpars.c 4006–4011) -/
def dMath (g : Nat → Char) (k : Kind) (m : Str) : Out Str := if k = .d then edit 16 g m else .val m

/-- There are only spaces and newlines before the `$d` (mmpars.c 4013). -/
def isBlankLabel (g : Nat → Char) (lab : Str) : Out Bool := edit 6 g lab >>= fun s => .val (decide (s = []))

/-- The label section and `dollarDpos` (mmpars.c 3951–4179) -/
def labelSec (f : FCfg) (stmt : Nat) (st : FState) (k : Kind) (indent : Nat) (name lab : Str) (mlen : Nat) : Out (Str × Int) :=
  if k = .none then .bug 1727
  else if k = .a ∨ k = .p then assertLabel f stmt st.prev indent name lab >>= fun l => .val (l, 0)
  else if k = .e ∨ k = .f then hypLabel f stmt st.prev indent name lab >>= fun l => .val (l, 0)
  else
    braceLabel f.g k st.prev indent lab >>= fun l =>
    if k = .d then isBlankLabel f.g l >>= fun b => .val (dGroup f.width st.prev st.dpos indent mlen b l) else .val (l, 0)

/-- The text that is searched for carriage returns (mmpars.c 4230–4243) -/
def outText (x : KStmt) (lab math proof : Str) : Str :=
  lab ++ ['$', kwChar x.kind] ++ (if x.mathLen ≠ 0 then math ++ (if x.kind = .p then ['$', '='] ++ proof else []) ++ ['$', '.'] else [])

/-- The changes stored in `g_Statement[]` (mmpars.c 4264–4284) -/
def storeSecs (x : KStmt) (lab math : Str) : KStmt :=
  let x := if lab ≠ x.label.take x.labelLen then { x with label := lab, labelLen := lab.length } else x
  if math ≠ x.math.take x.mathLen then { x with math := math, mathLen := math.length } else x

/-- `outputStatement` with `reformatFlag > 0` for a statement other than the dummy at the end (mmpars.c 3866–4307); `stmt` is its number. -/
def formatStmt (f : FCfg) (stmt : Nat) (st : FState) (x : KStmt) (name : Name) (scope : Nat) : Out (FState × KStmt) :=
  let st := if stmt = 1 then {} else st
  getSec x.label x.labelLen >>= fun lab =>
  getSec x.math x.mathLen >>= fun math =>
  getSec x.proof x.proofLen >>= fun proof =>
  tidy f.g lab >>= fun lab =>
  untabIf f.g math >>= fun math =>
  dMath f.g x.kind math >>= fun math =>
  labelSec f stmt st x.kind (indentOf x.kind scope) name lab math.length >>= fun r =>
  mathOf math >>= fun math =>
  if '\r' ∈ outText x r.1 math proof then .bug 1758
  else .val (⟨x.kind, r.2⟩, storeSecs x r.1 math)

/-- The loop of `writeSource` (mmcmds.c 3736–3740); `info` has the label and the scope of the statements.  The dummy statement at the end is not changed
(mmpars.c 3896). -/
def formatLoop (f : FCfg) : Nat → FState → List KStmt → List (Name × Nat) → Out (List KStmt)
  | stmt, st, x :: xs, i :: is => formatStmt f stmt st x i.1 i.2 >>= fun r => formatLoop f (stmt + 1) r.1 xs is >>= fun ys => .val (r.2 :: ys)
  | _, _, xs, _ => .val xs

/-- The scopes of the statements (`g_Statement[stmt].scope = g_currentScope`, mmpars.c 904, 911, 970): `${` counts from the next statement on, and so does `$}`. -/
def scopes : List Kind → Nat → List Nat
  | [], _ => []
  | k :: ks, n => n :: scopes ks (if k = .lb then n + 1 else if k = .rb then n - 1 else n)

/-- WRITE SOURCE / FORMAT or / REWRAP after READ of `text` with the result `o`: what is written (mmcmds.c 3731–3743). -/
def writeFormatted (f : FCfg) (text : List Char) (o : ReadOut) : Out (List Char) :=
  formatLoop f 1 {} (statements text) ((o.src.map Src.label).zip (scopes (o.src.map Src.kind) 0)) >>= writeSourceToBuffer

end MM.Fmt
