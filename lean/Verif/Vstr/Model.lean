import Verif.Basic
/-!
# Model of the string functions of src/mmvstr.c

A C string is the list of its characters without the NUL.  `long` arguments are `Int`.
-/
namespace MM.Vstr

/-- A C string (`vstring`): its characters, none of which is NUL. -/
abbrev Str := List Char

/-- `mid` (mmvstr.c 312–320).  `strncpy(sout, sin + start - 1, length)` reads at least one byte when `length > 0`; if
`start - 1` is beyond the terminating NUL that byte is outside the string.  (Forming such a pointer without reading is
not counted.) -/
def mid (s : Str) (start length : Int) : Out Str :=
  let start := if start < 1 then 1 else start
  let length := if length < 0 then 0 else length
  if length > 0 ∧ start - 1 > s.length then .ub
  else .val ((s.drop (start - 1).toNat).take length.toNat)

/-- `seg` (mmvstr.c 306–309) -/
def seg (s : Str) (start stop : Int) : Out Str :=
  let start := if start < 1 then 1 else start
  mid s start (stop - start + 1)

/-- `left` (mmvstr.c 323–325) -/
def left (s : Str) (n : Int) : Out Str := mid s 1 n

/-- `right` (mmvstr.c 328–330) -/
def right (s : Str) (n : Int) : Out Str := seg s n s.length

/-- The search loop of `instr` (mmvstr.c 650–659) from the suffix that starts at index `p`: `strchr` stops at the next
character equal to `match[0]` (for an empty `match` that is the terminating NUL), `strncmp` compares all of `match` there.
The two loops (inside `strchr` and the `while`) are one recursion here. -/
def instrFrom (m : Str) : Str → Nat → Nat
  | [], p => if m = [] then p + 1 else 0
  | c :: t, p => if m.head? = some c ∧ m.isPrefixOf (c :: t) = true then p + 1 else instrFrom m t (p + 1)

/-- `instr` (mmvstr.c 642–661) -/
def instr (start : Int) (s m : Str) : Nat :=
  let start := if start < 1 then 1 else start
  let start := if start > s.length then (s.length : Int) + 1 else start
  instrFrom m (s.drop (start - 1).toNat) (start - 1).toNat

/-- The loop of `rinstr` (mmvstr.c 669–674), run for at most `fuel` iterations. -/
def rinstrGo (s m : Str) : Nat → Nat → Nat → Out Nat
  | 0, _, _ => .fuel
  | fuel + 1, pos, save =>
    let pos := instr (pos + 1) s m
    if pos = 0 then .val save else rinstrGo s m fuel pos pos

/-- `rinstr` (mmvstr.c 665–676) with a given number of iterations. -/
def rinstr (fuel : Nat) (s m : Str) : Out Nat := rinstrGo s m fuel 0 0

/-- Result of the scanning loop shared by `entry` (mmvstr.c 850–862) and `entryPosition` (938–951): `i`, `lastComma + 1`,
`commaCount`, and whether the end of the list was reached. -/
structure EScan where
  i : Nat
  first : Nat
  commas : Nat
  atEnd : Bool
deriving Repr, DecidableEq

def entryScan (element : Int) : Str → Nat → Nat → Nat → EScan
  | [], i, first, cc => ⟨i, first, cc, true⟩
  | c :: t, i, first, cc =>
    if c = ',' then
      if ((cc + 1 : Nat) : Int) = element then ⟨i, first, cc + 1, false⟩
      else entryScan element t (i + 1) (i + 1) (cc + 1)
    else entryScan element t (i + 1) first cc

/-- `entry` (mmvstr.c 846–871) -/
def entry (element : Int) (list : Str) : Str :=
  if element < 1 then []
  else
    let r := entryScan element list 0 0 0
    let cc := if r.atEnd then r.commas + 1 else r.commas
    if element > cc then [] else (list.drop r.first).take (r.i - r.first)

/-- The loop of `lookup` (mmvstr.c 886–905).  `e` is the expression from `exprPos` on (only meaningful while `ok`, the C
variable `match`, is 1). -/
def lookupGo (expr : Str) : Str → Nat → Str → Bool → Nat
  | [], num, e, ok => if ok = true ∧ e = [] then num + 1 else 0
  | c :: t, num, e, ok =>
    if c = ',' then
      if ok = true ∧ e = [] then num + 1 else lookupGo expr t (num + 1) expr true
    else lookupGo expr t num e.tail (ok && e.head? == some c)

/-- `lookup` (mmvstr.c 877–907) -/
def lookup (expr list : Str) : Nat := lookupGo expr list 0 expr true

/-- `numEntries` (mmvstr.c 912–925) -/
def numEntries (list : Str) : Nat := if list = [] then 0 else list.count ',' + 1

/-- `entryPosition` (mmvstr.c 934–958).  `list[i - 1]` and `list[lastComma + 1]` are the last character of the list and the first
one after the last comma. -/
def entryPosition (element : Int) (list : Str) : Nat :=
  if element < 1 then 0
  else
    let r := entryScan element list 0 0 0
    if r.atEnd = true ∧ (r.i = 0 ∨ list[r.i - 1]? = some ',') then 0
    else
      let cc := if r.atEnd then r.commas + 1 else r.commas
      if element > cc then 0
      else if list[r.first]? = some ',' then 0
      else r.first + 1

/-- `string` (mmvstr.c 620–627) -/
def string (n : Int) (c : Char) : Str := List.replicate n.toNat c

/-- `cat` (mmvstr.c 217–248) without the limit of 50 arguments -/
def cat (l : List Str) : Str := l.flatten

end MM.Vstr
