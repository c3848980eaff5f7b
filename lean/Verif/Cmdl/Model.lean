import Verif.Vstr.Edit
import Verif.Date.Model
/-!
# Model of the command line (src/mmcmdl.c 1569–2144)

The messages (prompts, error texts) are not modelled; `Err` tells which error message is printed.  Commands do not contain NUL.
-/
namespace MM.Cmdl
open MM.Vstr MM.Date

/-! ## The words of a command line -/

/-- An element of `g_rawArgPntr` with its element of `g_rawArgNmbr`, the column where it starts (the first one is 1). -/
structure Arg where
  pos : Nat
  text : Str
deriving DecidableEq, Repr

/-- `mode` (mmcmdl.c 1959–1964) -/
inductive Mode | start | tok | squote | dquote
deriving DecidableEq, Repr

/-- `tokenWhiteSpace` (mmcmdl.c 1946) -/
def white (c : Char) : Bool := c == ' ' || c == '\t' || c == '\n'

/-- `specialOneCharTokens` (mmcmdl.c 1954) -/
def special (tools : Bool) (c : Char) : Bool := !tools && (c == '/' || c == '=')

/-- The loop of `parseCommandLine` (mmcmdl.c 1966–2070) over the rest of the line; `p` is the index of its first character, `t0` is `tokenStart`, `acc` what was found before. -/
def lineGo (tools : Bool) (line : Str) : Str → Nat → Mode → Nat → List Arg → Out (List Arg)
  | [], p, m, t0, acc => if m = .start then .val acc else seg line t0 p >>= fun w => .val (acc ++ [⟨t0, w⟩])
  | c :: l, p, .start, t0, acc =>
    if white c then lineGo tools line l (p + 1) .start t0 acc
    else if p = 0 ∧ c = '!' then .val acc
    else if special tools c then lineGo tools line l (p + 1) .start t0 (acc ++ [⟨p + 1, [c]⟩])
    else if c = '\'' then lineGo tools line l (p + 1) .squote (p + 2) acc
    else if c = '"' then lineGo tools line l (p + 1) .dquote (p + 2) acc
    else lineGo tools line l (p + 1) .tok (p + 1) acc
  | c :: l, p, .tok, t0, acc =>
    if white c then seg line t0 p >>= fun w => lineGo tools line l (p + 1) .start t0 (acc ++ [⟨t0, w⟩])
    else if special tools c then seg line t0 p >>= fun w => lineGo tools line l (p + 1) .start t0 (acc ++ [⟨t0, w⟩, ⟨p + 1, [c]⟩])
    else if c = '\'' then seg line t0 p >>= fun w => lineGo tools line l (p + 1) .squote (p + 2) (acc ++ [⟨t0, w⟩])
    else if c = '"' then seg line t0 p >>= fun w => lineGo tools line l (p + 1) .dquote (p + 2) (acc ++ [⟨t0, w⟩])
    else lineGo tools line l (p + 1) .tok t0 acc
  | c :: l, p, .squote, t0, acc =>
    if c = '\'' then seg line t0 p >>= fun w => lineGo tools line l (p + 1) .start t0 (acc ++ [⟨t0, w⟩])
    else lineGo tools line l (p + 1) .squote t0 acc
  | c :: l, p, .dquote, t0, acc =>
    if c = '"' then seg line t0 p >>= fun w => lineGo tools line l (p + 1) .start t0 (acc ++ [⟨t0, w⟩])
    else lineGo tools line l (p + 1) .dquote t0 acc

/-- `parseCommandLine(line)` (mmcmdl.c 1944–2084) starting without arguments; `tools` is `g_toolsMode`, `prompt` is `g_commandPrompt`. -/
def parseCommandLine (tools : Bool) (prompt line : Str) : Out (List Arg) :=
  lineGo tools line line 0 .start 0 [] >>= fun l => .val (l.map fun a => { a with pos := a.pos + prompt.length })

/-! ## The arguments of a command -/

/-- The messages of `getFullArg`: "?A number was expected here.", the one about a file that cannot be opened, "?Expected …", "?Ambiguous keyword - please specify …" with the keywords it
names, "?No default answer is available". -/
inductive Err | number | file | expected | ambiguous (l : List Str) | noDefault
deriving DecidableEq, Repr

/-- The state: the arguments of the command line (`g_rawArgPntr`), the full arguments (`g_fullArg`), `g_queryMode`, and the number of questions asked. -/
structure St where
  raw : List Str
  full : List Str
  query : Bool
  asked : Nat
deriving DecidableEq, Repr

/-- What does not change: the answers of the user to the questions (`cmdInput1`) and the files that can be opened. -/
structure World where
  answer : Nat → Str
  opens : Str → Bool

/-- `chr(3)` -/
def nothing3 : Str := [Char.ofNat 3]

/-- The default of `# … <…>`, `* … <…>`, `& … <…>`, with its brackets (mmcmdl.c 1639, 1685). -/
def defaultOf (cmd : Str) : Out Str := seg cmd (instr 1 cmd ['<']) (instr 1 cmd ['>'])

/-- A default without its brackets (mmcmdl.c 1652, 1665, 1714, 1742, 1833). -/
def unbracket (d : Str) : Out Str := seg d 2 ((d.length : Int) - 1)

/-- The end of `getFullArg` (mmcmdl.c 1905–1921): the keyword is added to the full arguments. -/
def finish (s : St) (arg : Nat) (kw d : Str) : Out (Option Err × St) :=
  if kw = [] ∧ arg < s.raw.length ∧ d ≠ ['<', '>'] then .val (some .noDefault, s)
  else if s.full.length ≠ arg then .bug 1107
  else .val (none, { s with full := s.full ++ [kw] })

/-- Asking for an argument that was not given (mmcmdl.c 1643–1656, 1694–1718). -/
def askArg (W : World) (d : Str) (bug arg : Nat) (s : St) : Out St :=
  if s.raw.length + 1 ≤ arg then .bug bug
  else (if W.answer s.asked = [] then unbracket d else .val (W.answer s.asked)) >>= fun a =>
    .val { s with raw := s.raw ++ [a], query := true, asked := s.asked + 1 }

/-- An integer is expected (mmcmdl.c 1638–1679). -/
def numArg (W : World) (cmd : Str) (arg : Nat) (s : St) : Out (Option Err × St) :=
  defaultOf cmd >>= fun d =>
  (if s.raw.length ≤ arg then askArg W d 1103 arg s else .val s) >>= fun s =>
  (if s.raw.getD arg [] = [] then unbracket d else .val (s.raw.getD arg [])) >>= fun a =>
  val a >>= fun v =>
  if string ((a.length : Int) - (str v).length) '0' ++ str v ≠ a then .val (some .number, s) else finish s arg (str v) d

/-- `FIRST`, `LAST` or `ALL` (mmcmdl.c 1727–1737) -/
def orWord (cmd : Str) (c1 c2 : Char) (word kw : Str) : Str :=
  if (kw.head? = some c1 ∨ kw.head? = some c2) ∧ instr 1 cmd (' ' :: word) ≠ 0 then word else kw

def orWords (cmd kw : Str) : Str := orWord cmd 'a' 'A' ['A', 'L', 'L'] (orWord cmd 'l' 'L' ['L', 'A', 'S', 'T'] (orWord cmd 'f' 'F' ['F', 'I', 'R', 'S', 'T'] kw))

/-- Any string, or a file, is expected (mmcmdl.c 1684–1758). -/
def anyArg (W : World) (cmd : Str) (arg : Nat) (s : St) : Out (Option Err × St) :=
  defaultOf cmd >>= fun d =>
  if s.raw.length ≤ arg ∧ d = ['<', '$', '>'] then finish s arg nothing3 d
  else (if s.raw.length ≤ arg then askArg W d 1104 arg s else .val s) >>= fun s =>
    let kw := if cmd.head? = some '*' then orWords cmd (s.raw.getD arg []) else s.raw.getD arg []
    (if kw = [] then unbracket d else .val kw) >>= fun kw =>
    if cmd.head? = some '&' ∧ W.opens kw = false then .val (some .file, s) else finish s arg kw d

/-- The choices of a list `A|B|C`, with the default (mmcmdl.c 1761–1771): its pieces between the bars. -/
def splitBar : Str → List Str
  | [] => [[]]
  | c :: l => if c = '|' then [] :: splitBar l else ((splitBar l).headD [] |> fun w => (c :: w) :: (splitBar l).tail)

/-- The word for no argument. -/
def nothingWord : Str := "nothing".toList

/-- The choices and the default (mmcmdl.c 1772–1787) -/
def choices (cmd : Str) : List Str × Str :=
  let l := splitBar cmd
  let d := l.getLastD []
  let r := if d.head? = some '<' then (l.dropLast, if d = ['<', '$', '>'] then '<' :: nothingWord ++ ['>'] else d) else (l, [])
  (if r.1.getLastD [] = ['$'] then r.1.dropLast ++ [nothingWord] else r.1, r.2)

/-- The loop over the choices (mmcmdl.c 1864–1881): the candidates; an exact match makes all others disappear.  `w` is the argument in capital letters. -/
def scan (w : Str) : List Str → List Str → List Str
  | [], acc => acc
  | c :: cs, acc => if c = w then [c] else scan w cs (if c.take w.length = w then acc ++ [c] else acc)

/-- An argument is matched against the choices (mmcmdl.c 1857–1903). -/
def pick (w : Str) (cs : List Str) : Str ⊕ Err :=
  let l := scan (editBase 32 w) cs []
  if l.length < 1 then .inr .expected
  else if 1 < l.length then .inr (.ambiguous l)
  else .inl (l.headD [])

/-- What is done with the result of `pick` (mmcmdl.c 1884–1903) -/
def useKey (s : St) (arg : Nat) (d : Str) (r : Str ⊕ Err) : Out (Option Err × St) := r.elim (fun kw => finish s arg kw d) fun e => .val (some e, s)

/-- Asking for a choice (mmcmdl.c 1808–1849); if there is only one, the user is not asked. -/
def askKey (W : World) (cmd : Str) (cs : List Str) (d : Str) (arg : Nat) (s : St) : Out St :=
  let a := if cs.length ≠ 1 then W.answer s.asked else if cmd = ['$', '|', '<', '$', '>'] then cs.headD [] else []
  let s := { s with query := true, asked := if cs.length ≠ 1 then s.asked + 1 else s.asked }
  (if a = [] then unbracket d else .val a) >>= fun a =>
  if a = nothingWord then .val s
  else if s.raw.length + 1 ≤ arg then .bug 1106
  else .val { s with raw := s.raw ++ [a] }

/-- One of some keywords is expected (mmcmdl.c 1761–1903). -/
def keyArg (W : World) (cmd : Str) (arg : Nat) (s : St) : Out (Option Err × St) :=
  let r := choices cmd
  if r.1 = [] then .ub
  else (if s.raw.length ≤ arg ∧ (r.1.getLastD [] ≠ nothingWord ∨ s.query = true) then askKey W cmd r.1 r.2 arg s else .val s) >>= fun s =>
    if s.raw.length ≤ arg then finish s arg nothing3 r.2
    else useKey s arg r.2 (pick (s.raw.getD arg []) r.1)

/-- `getFullArg(arg, cmdList)` (mmcmdl.c 1623–1932): the error if it returns 0, and the new state. -/
def getFullArg (W : World) (cmd : Str) (arg : Nat) (s : St) : Out (Option Err × St) :=
  if cmd.head? = some '#' then numArg W cmd arg s
  else if cmd.head? = some '*' ∨ cmd.head? = some '&' then anyArg W cmd arg s
  else keyArg W cmd arg s

/-! ## The command -/

/-- What `processCommandLine` does next. -/
inductive Next | call (cmd : Str) | good | bad
deriving DecidableEq

/-- `processCommandLine` (mmcmdl.c 43–1609): the full arguments of the command, if it is accepted.  Its body is a tree of calls of `getFullArg`, whose arguments are counted
without gaps, and of tests of the full arguments found so far; the tree is the parameter `next` (which also has the modes and settings of the program inside).  The first argument
bounds the number of calls.  The end is mmcmdl.c 1575–1600. -/
def process (W : World) (next : List Str → Next) : Nat → St → Out (Option (List Str) × St)
  | 0, _ => .fuel
  | f + 1, s => match next s.full with
    | .bad => .val (none, s)
    | .good =>
      if s.full = [] then .ub
      else
        let F := if s.full.getLastD [] = nothing3 then s.full.dropLast else s.full
        if s.raw.length < F.length then .bug 1102
        else if F.length < s.raw.length then .val (none, s)
        else .val (some F, s)
    | .call cmd => getFullArg W cmd s.full.length s >>= fun r => if r.1.isSome then .val (none, r.2) else process W next f r.2

/-- `cmdMatches(cmdString)` (mmcmdl.c 2095–2124); `full` is `g_fullArg`. -/
def cmdMatches (full : List Str) (cmd : Str) : Bool :=
  if full.length ≤ cmd.count ' ' then false
  else decide (' ' :: cmd = ((full.take (cmd.count ' ' + 1)).map (' ' :: ·)).flatten)

/-- The loop of `switchPos` (mmcmdl.c 2136–2142) -/
def switchGo (sw : Str) : List Str → Nat → Nat
  | [], _ => 0
  | [_], _ => 0
  | a :: b :: l, i => if a = ['/'] ∧ b = sw then i + 1 else switchGo sw (b :: l) (i + 1)

/-- `switchPos(swString)` (mmcmdl.c 2132–2144) -/
def switchPos (full : List Str) (sw : Str) : Out Nat := if instr 1 sw [' '] ≠ 0 then .bug 1108 else .val (switchGo sw full 0)

/-- `lastArgMatches(argString)` (mmcmdl.c 2086–2093) -/
def lastArgMatches (full : List Str) (a : Str) : Out Bool := if full = [] then .ub else .val (decide (a = full.getLastD []))

end MM.Cmdl
