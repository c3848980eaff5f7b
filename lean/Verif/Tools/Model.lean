import Verif.Vstr.Edit
import Verif.Date.Model
/-!
# Model of the text tools (src/metamath.c 1315–2029, `linput` of src/mmvstr.c 267–298, `qsortStringCmp` of src/mmdata.c 3808–3826)

A file is the list of its characters.  The messages (counts of changed lines) and the handling of the output file by `fSafeOpen`/`fSafeRename` (C59) are not modelled; `%s` of
`fprintf` writes a string as it is.  UPDATE, TYPE and BEEP are not modelled.
-/
namespace MM.Tools
open MM.Vstr MM.Date

/-! ## Reading and writing lines -/

/-- `fgets(f, n + 1, stream)`: at most `n` characters, not more than to the end of the line; what is read and what is left. -/
def fgets : Nat → Str → Str × Str
  | 0, s => ([], s)
  | _ + 1, [] => ([], [])
  | n + 1, c :: s => if c = '\n' then (['\n'], s) else (c :: (fgets n s).1, (fgets n s).2)

/-- The loop of `linput` (mmvstr.c 279–296) with a buffer for `n` characters; `t` is the target if `result` is 1.  In the buffer there is a C string: what follows a NUL is lost, and
if the NUL is the first character `f[endpos]` is outside the buffer.  The second argument bounds the number of pieces. -/
def linputGo (n : Nat) : Nat → Option Str → Str → Out (Option Str × Str)
  | 0, _, _ => .fuel
  | k + 1, t, s =>
    if s = [] then .val (t, [])
    else
      let f := (fgets n s).1.takeWhile (· ≠ nul)
      if f = [] then .ub
      else if f.getLastD ' ' = '\n' then .val (some (t.getD [] ++ f.dropLast), (fgets n s).2)
      else linputGo n k (some (t.getD [] ++ f)) (fgets n s).2

/-- `linput(stream, NULL, &target)` (mmvstr.c 267–298) -/
def linput (s : Str) : Out (Option Str × Str) := linputGo 10000 (s.length + 1) none s

/-- `while (linput(…))`: all lines of a file; the first argument bounds their number. -/
def readGo : Nat → Str → Out (List Str)
  | 0, _ => .fuel
  | k + 1, s => linput s >>= fun r => r.1.elim (.val []) fun l => readGo k r.2 >>= fun ls => .val (l :: ls)

def readLines (s : Str) : Out (List Str) := readGo (s.length + 1) s

/-- `fprintf(fp, "%s\n", l)` for each element -/
def writeLines (ls : List Str) : Str := (ls.map (· ++ ['\n'])).flatten

/-- A command that reads a file and writes its result. -/
def onFile (f : List Str → Out (List Str)) (text : Str) : Out Str := readLines text >>= fun ls => f ls >>= fun r => .val (writeLines r)

/-- The body of a loop applied to all lines. -/
def mapLines (f : Str → Out Str) : List Str → Out (List Str)
  | [] => .val []
  | l :: ls => f l >>= fun x => mapLines f ls >>= fun xs => .val (x :: xs)

/-! ## ADD, TAG, DELETE, CLEAN, SUBSTITUTE, SWAP, INSERT, BREAK, BUILD, MATCH, RIGHT (metamath.c 1315–1687) -/

/-- ADD (metamath.c 1445–1448) -/
def add (pre post : Str) (l : Str) : Out Str := .val (pre ++ l ++ post)

/-- TAG (metamath.c 1449–1459); `a` and `b` are `tagStartCounter` and `tagEndCounter`. -/
def tagGo (pre post sm : Str) (sc : Int) (em : Str) (ec : Int) : List Str → Int → Int → List Str
  | [], _, _ => []
  | l :: ls, a, b =>
    let a := if a < sc ∧ instr 1 l sm ≠ 0 then a + 1 else a
    if a = sc ∧ b < ec then (pre ++ l ++ post) :: tagGo pre post sm sc em ec ls a (if instr 1 l em ≠ 0 then b + 1 else b)
    else l :: tagGo pre post sm sc em ec ls a b

/-- A count given as an argument; 0 is 1 (metamath.c 1371–1375). -/
def countArg (v : Int) : Int := if v = 0 then 1 else v

def tag (pre post sm : Str) (sc : Int) (em : Str) (ec : Int) (ls : List Str) : Out (List Str) := .val (tagGo pre post sm (countArg sc) em (countArg ec) ls 0 0)

/-- DELETE (metamath.c 1460–1470) -/
def delete (a b : Str) (l : Str) : Out Str :=
  let p1 : Nat := if a = [] then 1 else instr 1 l a
  let p2 : Nat := if b = [] then l.length + 1 else instr p1 l b
  if p1 ≠ 0 ∧ p2 ≠ 0 then left l ((p1 : Int) - 1) >>= fun x => right l ((p2 : Int) + b.length) >>= fun y => .val (x ++ y)
  else .val l

/-- The flags of CLEAN (metamath.c 1381–1396) -/
def cleanFlags (arg : Str) : Nat :=
  let s := editBase 32 arg
  let flag (c : Char) (n : Nat) : Nat := if instr 1 s [c] > 0 then n else 0
  flag 'P' 1 + flag 'D' 2 + flag 'G' 4 + flag 'B' 8 + flag 'R' 16 + flag 'C' 32 + flag 'E' 128 + flag 'Q' 256 + flag 'L' 512 + flag 'T' 1024 + flag 'U' 2048 + flag 'V' 4096

/-- CLEAN (metamath.c 1471–1476); `g` is the garbage in the buffer of `edit`. -/
def clean (g : Nat → Char) (arg : Str) (l : Str) : Out Str := if cleanFlags arg ≠ 0 then edit (cleanFlags arg) g l else .val l

/-- The loop of SUBSTITUTE (metamath.c 1508–1529); `q` is the number of the occurrence, or -1; `p1` the position found last, `p` the number of occurrences found. -/
def substGo (old new : Str) (q : Int) : Nat → Str → Int → Int → Out Str
  | 0, _, _, _ => .fuel
  | f + 1, s, p1, p =>
    let i := instr (p1 + 1) s old
    if i = 0 then .val s
    else if p + 1 = q ∨ q = -1 then
      left s ((i : Int) - 1) >>= fun x => right s ((i : Int) + old.length) >>= fun y =>
      if q ≠ -1 then .val (x ++ new ++ y) else substGo old new q f (x ++ new ++ y) ((i : Int) + new.length - 1) (p + 1)
    else substGo old new q f s i (p + 1)

/-- `\n` as it is written in an argument -/
def backslashN : Str := ['\\', 'n']

/-- The main loop with SUBSTITUTE (metamath.c 1433–1440, 1477–1531, 1627–1631): `buf` is `bufferedLine`, `m` the additional match required, `old` the string to replace; if it has `\n`
in it (`s` in the code), two lines are joined.  The first argument bounds the number of lines. -/
def substLoop (old new : Str) (q : Int) (m : Str) : Nat → Str → List Str → Out (List Str)
  | 0, _, _ => .fuel
  | f + 1, buf, ls =>
    if buf = [] ∧ ls = [] then .val []
    else
      let l := if buf ≠ [] then buf else ls.headD []
      let rest := if buf ≠ [] then ls else ls.tail
      let k := decide (m = [] ∨ instr 1 l m ≠ 0)
      let join := decide (instr 1 old backslashN ≠ 0) && k && !rest.isEmpty
      let found := decide (instr 1 (l ++ backslashN ++ rest.headD []) old ≠ 0)
      let l2 := if join && found then l ++ backslashN ++ rest.headD [] else l
      let go := k && (!join || found)
      (if go then substGo old new q (l2.length + 2) l2 0 0 else .val l2) >>= fun r =>
      substLoop old new q m f (if join && !found then rest.headD [] else []) (if join then rest.tail else rest) >>= fun rs => .val (r :: rs)

/-- The occurrence (metamath.c 1399–1410): `A…` is all; 0 is 1; always the first with `\n`. -/
def occArg (old arg : Str) (v : Int) : Int := if instr 1 old backslashN ≠ 0 then 1 else if arg.head? = some 'A' ∨ arg.head? = some 'a' then -1 else countArg v

/-- SUBSTITUTE (metamath.c 1397–1414) with the arguments string, replacement, occurrence (`occ`, whose value is `v`) and additional match. -/
def subst (old new occ : Str) (v : Int) (m : Str) (ls : List Str) : Out (List Str) :=
  substLoop old (if new = backslashN then ['\n'] else new) (occArg old occ v) m (ls.length + 1) [] ls

/-- SWAP (metamath.c 1532–1541); the code adds the length of the string to the pointer that `right` returns. -/
def swap (m : Str) (l : Str) : Out Str :=
  let p := instr 1 l m
  if p ≠ 0 then right l p >>= fun x => left l ((p : Int) - 1) >>= fun y => .val (x.drop m.length ++ m ++ y) else .val l

/-- INSERT (metamath.c 1417–1419, 1542–1548) -/
def insert (s : Str) (p : Int) (l : Str) : Out Str :=
  let l := if (l.length : Int) < p - 1 then l ++ string (p - 1 - l.length) ' ' else l
  left l (p - 1) >>= fun x => right l p >>= fun y => .val (x ++ s ++ y)

/-- The inner loop of BREAK (metamath.c 1553–1567): spaces around all `c`. -/
def breakChar (c : Char) : Nat → Str → Int → Out Str
  | 0, _, _ => .fuel
  | f + 1, s, p =>
    let i := instr (p + 1) s [c]
    if i = 0 then .val s
    else left s ((i : Int) - 1) >>= fun x => mid s i 1 >>= fun y => right s ((i : Int) + 1) >>= fun z =>
      breakChar c f (x ++ [' '] ++ y ++ [' '] ++ z) ((i : Int) + 2)

def breakChars : Str → Str → Out Str
  | [], s => .val s
  | c :: cs, s => breakChar c (s.length + 1) s 0 >>= fun r => breakChars cs r

/-- BREAK for a line (metamath.c 1549–1576): spaces become line ends. -/
def breakLine (g : Nat → Char) (spec : Str) (l : Str) : Out Str :=
  breakChars spec l >>= fun s => edit (8 + 16 + 128) g s >>= fun s => .val (s.map fun c => if c = ' ' then '\n' else c)

/-- BREAK: an empty result is not written (metamath.c 1627–1631). -/
def break_ (g : Nat → Char) (spec : Str) : List Str → Out (List Str)
  | [] => .val []
  | l :: ls => breakLine g spec l >>= fun x => break_ g spec ls >>= fun xs => .val (if x = [] then xs else x :: xs)

/-- BUILD (metamath.c 1577–1597, 1627–1641): `acc` is `str4`, the line that is being built.  (The code joins the old line and the next one with a line end, and takes them apart
again at the first line end; a line has none.) -/
def build : Str → List Str → List Str
  | acc, [] => if acc = [] then [] else [acc]
  | acc, l :: ls =>
    if l = [] then build acc ls
    else if acc = [] then build l ls
    else if acc.length + l.length > 72 then acc :: build l ls
    else build (acc ++ [' '] ++ l) ls

/-- MATCH (metamath.c 1598–1610, 1629) -/
def keeps (m yn : Str) (l : Str) : Bool :=
  let p := if m = [] then decide (l ≠ []) else decide (instr 1 l m ≠ 0)
  if yn.head? = some 'n' ∨ yn.head? = some 'N' then !p else p

def match_ (m yn : Str) (ls : List Str) : Out (List Str) := .val (ls.filter (keeps m yn))

/-- RIGHT (metamath.c 1344–1351, 1611–1614): the length of the longest line, then the padding. -/
def longest : List Str → Nat → Nat
  | [], p => p
  | l :: ls, p => longest ls (if p < l.length then l.length else p)

def right_ (ls : List Str) : Out (List Str) := .val (ls.map fun l => string ((longest ls 0 : Int) - l.length) ' ' ++ l)

/-! ## SORT, UNDUPLICATE, DUPLICATE, UNIQUE, REVERSE (metamath.c 1689–1821) -/

/-- `strcmp(a, b) <= 0`: the characters are compared as unsigned bytes. -/
def strLe : Str → Str → Bool
  | [], _ => true
  | _ :: _, [] => false
  | a :: s, b :: t => if a.toNat < b.toNat then true else if b.toNat < a.toNat then false else strLe s t

/-- What `qsortStringCmp` compares (mmdata.c 3808–3826), with the key `k`; `right` begins at the first character for 0. -/
def keyOf (k : Str) (l : Str) : Str := if k = [] then l else l.drop (instr 1 l k - 1)

/-- What the C standard says of `qsort(…, qsortStringCmp)`: the same lines, in order; the order of lines with equal keys is not determined. -/
def Qsort (k : Str) (ls m : List Str) : Prop := m.Perm ls ∧ m.Pairwise fun a b => strLe (keyOf k a) (keyOf k b) = true

inductive SortMode | sort | undup | dup | uniq
deriving DecidableEq

/-- Whether line `i` of the sorted lines is written (metamath.c 1749–1801). -/
def written (mode : SortMode) (m : List Str) (i : Nat) : Bool :=
  match mode with
  | .sort => true
  | .undup => if i = 0 then true else decide (m[i - 1]? ≠ m[i]?)
  | .dup => if i > 0 then (if m[i - 1]? = m[i]? then (if i = m.length - 1 then true else decide (m[i]? ≠ m[i + 1]?)) else false) else false
  | .uniq =>
    if i < m.length - 1 then (if m[i]? ≠ m[i + 1]? then (if i = 0 then true else decide (m[i - 1]? ≠ m[i]?)) else false)
    else if i = 0 then true else decide (m[i - 1]? ≠ m[i]?)

/-- The output (metamath.c 1747–1808), from the sorted lines. -/
def sortOut (mode : SortMode) (m : List Str) : List Str := ((List.range m.length).filter (written mode m)).map fun i => m.getD i []

/-- The loop of REVERSE (metamath.c 1738–1742) from `i` on, `k` times. -/
def revGo (n : Nat) : Nat → Nat → List Str → List Str
  | 0, _, m => m
  | k + 1, i, m => revGo n k (i + 1) ((m.set i (m.getD (n - 1 - i) [])).set (n - 1 - i) (m.getD i []))

def reverse (ls : List Str) : List Str := revGo ls.length (ls.length - ls.length / 2) (ls.length / 2) ls

/-! ## PARALLEL, NUMBER, COUNT, COPY (metamath.c 1823–1951, 1996–2029) -/

/-- PARALLEL (metamath.c 1833–1857): lines are read from both files; at the end of a file the line is empty. -/
def parallel (btwn : Str) : List Str → List Str → List Str
  | [], [] => []
  | a :: as, [] => (a ++ btwn ++ []) :: parallel btwn as []
  | [], b :: bs => ([] ++ btwn ++ b) :: parallel btwn [] bs
  | a :: as, b :: bs => (a ++ btwn ++ b) :: parallel btwn as bs

/-- NUMBER (metamath.c 1884–1888) -/
def number : Nat → Int → Int → Int → Out (List Str)
  | 0, _, _, _ => .fuel
  | f + 1, i, last, inc => if i ≤ last then number f (i + inc) last inc >>= fun ls => .val (str i :: ls) else .val []

/-- The inner loop of COUNT (metamath.c 1925–1930) -/
def countGo (m l : Str) : Nat → Int → Nat → Out Nat
  | 0, _, _ => .fuel
  | f + 1, p, n => if instr (p + 1) l m = 0 then .val n else countGo m l f (instr (p + 1) l m) (n + 1)

/-- The numbers COUNT prints: lines, occurrences (`p2`), lines with an occurrence (`p1`) (metamath.c 1893–1933). -/
def count (m : Str) : List Str → Nat × Nat × Nat → Out (Nat × Nat × Nat)
  | [], r => .val r
  | l :: ls, (n, p2, p1) => if instr 1 l m ≠ 0 then countGo m l (l.length + 2) 0 p2 >>= fun q => count m ls (n + 1, q, p1 + 1) else count m ls (n + 1, p2, p1)

/-- The loop of COPY (metamath.c 2001–2024): `s` is `str4`, the list of files with a comma at the end; `disk` are the lines of the files that can be opened. -/
def copyGo (disk : Str → Option (List Str)) : Nat → Str → List Str → Out (Option (List Str))
  | 0, _, _ => .fuel
  | f + 1, s, acc =>
    if s = [] then .val (some acc)
    else left s ((instr 1 s [','] : Int) - 1) >>= fun x => right s ((instr 1 s [','] : Int) + 1) >>= fun y =>
      (disk x).elim (.val none) fun ls => copyGo disk f y (acc ++ ls)

def copy (disk : Str → Option (List Str)) (list : Str) : Out (Option (List Str)) := copyGo disk (list.length + 2) (list ++ [',']) []

end MM.Tools
