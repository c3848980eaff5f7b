import Verif.Vstr.Model
/-!
# Model of `edit` (src/mmvstr.c 333–617)

Characters are bytes: codes below 256.
-/
namespace MM.Vstr

/-- `isblank_` (mmvstr.c 336) -/
def isBlank (c : Char) : Bool := c == ' ' || c == '\t'

/-- `isblankorlf_` (mmvstr.c 337) -/
def isBlankOrLf (c : Char) : Bool := c == ' ' || c == '\t' || c == '\n'

/-- CR, LF, FF, ESC, BS (mmvstr.c 417–423) -/
def isCtrl (c : Char) : Bool := [13, 10, 12, 27, 8].contains c.toNat

/-- VT220 graphics to `+`, `-`, `|` (mmvstr.c 460–474) -/
def screenChar (c : Char) : Char :=
  let g := c.toNat
  if (234 ≤ g ∧ g ≤ 237) ∨ g = 218 ∨ g = 217 ∨ g = 191 ∨ g = 192 then '+'
  else if g = 241 ∨ g = 196 then '-'
  else if g = 248 ∨ g = 166 ∨ g = 179 then '|'
  else c

/-- `control & 2^k` (mmvstr.c 366–384) -/
abbrev on (control k : Nat) : Bool := control.testBit k

/-- Case conversion as in mmvstr.c 441–442, 456–457. -/
def toUp (c : Char) : Char := if 'a' ≤ c ∧ c ≤ 'z' then Char.ofNat (c.toNat - 32) else c
def toLow (c : Char) : Char := if 'A' ≤ c ∧ c ≤ 'Z' then Char.ofNat (c.toNat + 32) else c
/-- mmvstr.c 445–448 -/
def bracket (c : Char) : Char := if c = '[' then '(' else if c = ']' then ')' else c
/-- `& 0x7F` (mmvstr.c 412–413) -/
def noParity (c : Char) : Char := Char.ofNat (c.toNat % 128)

/-- The body of the main loop outside quotes (mmvstr.c 407–474); `none`: the character is set to 0, to be deleted. -/
def editChar (ctl : Nat) (c : Char) : Option Char :=
  if on ctl 1 && isBlank c then none
  else
    let c := if on ctl 0 then noParity c else c
    if c.toNat = 0 then none
    else if on ctl 2 && isCtrl c then none
    else if on ctl 13 && c.toNat == 13 then none
    else
      let c := if on ctl 5 then toUp c else c
      let c := if on ctl 6 then bracket c else c
      let c := if on ctl 9 then toLow c else c
      some (if on ctl 12 then screenChar c else c)

/-- The main loop (mmvstr.c 396–479) and the clean-up of deleted characters (483–485); `q` is `processing_inside_quote`. -/
def editLoop (ctl : Nat) : Bool → Str → Str
  | _, [] => []
  | q, c :: t =>
    let q := if on ctl 8 && (c == '"' || c == '\'') then !q else q
    if q then c :: editLoop ctl q t
    else (editChar ctl c).toList ++ editLoop ctl q t

/-- Remove trailing characters (mmvstr.c 489–499). -/
def trimEnd (p : Char → Bool) (s : Str) : Str := (s.reverse.dropWhile p).reverse

/-- "Reduce multiple space/tab to a single space" (mmvstr.c 502–515) -/
def reduce : Bool → Str → Str
  | _, [] => []
  | last, c :: t =>
    if isBlank c then (if last then reduce true t else ' ' :: reduce true t) else c :: reduce false t

/-- `edit` up to line 515, i.e. all codes but 1024 and 2048. -/
def editBase (ctl : Nat) (s : Str) : Str :=
  let s := if on ctl 3 then s.dropWhile isBlank else s
  let s := editLoop ctl false s
  let s := if on ctl 7 then trimEnd isBlank s else s
  let s := if on ctl 14 then trimEnd isBlankOrLf s else s
  if on ctl 4 then reduce false s else s

/-- NUL -/
def nul : Char := Char.ofNat 0

/-- Variables of the untab loop (mmvstr.c 543–559): the buffer and `k`, `i`, `m`. -/
structure UT where
  buf : Nat → Char
  k : Nat
  i : Nat
  m : Nat

/-- The loop `for (i = 1; i <= k; i++)` (mmvstr.c 545–559) over a buffer of `cap` bytes.  The shift reads `sout[k] .. sout[i]` and writes
up to `sout[k + d - 1]`, `d = 8 - ((m-1) & 7)`. -/
def untabGo (cap : Nat) : Nat → UT → Out (Nat → Char)
  | 0, _ => .fuel
  | n + 1, u =>
    if u.i > u.k then .val u.buf
    else if u.i - 1 ≥ cap then .ub
    else
      let c := u.buf (u.i - 1)
      if c = '\n' then untabGo cap n { u with m := 0, i := u.i + 1 }
      else if c ≠ '\t' then untabGo cap n { u with m := u.m + 1, i := u.i + 1 }
      else
        let d := 8 - u.m % 8
        if u.k + d - 1 ≥ cap then .ub
        else
          let buf' := fun p => if p < u.i - 1 then u.buf p else if p < u.i - 1 + d then ' '
            else if p ≤ u.k + d - 1 then u.buf (p - (d - 1)) else u.buf p
          untabGo cap n ⟨buf', u.k + d, u.i + 1, u.m + 1⟩

/-- The string in a buffer: the characters before the first NUL. -/
def cstr (cap : Nat) (buf : Nat → Char) : Str := ((List.range cap).map buf).takeWhile (· ≠ nul)

/-- A buffer holding the string `s`; what follows its NUL is arbitrary (`g`): uninitialised memory or left-overs. -/
def fill (s : Str) (g : Nat → Char) : Nat → Char :=
  fun p => if p < s.length then s.getD p nul else if p = s.length then nul else g p

/-- "Untab" (mmvstr.c 543–559) of the string `s` in a buffer of `cap` bytes. -/
def untab (cap : Nat) (g : Nat → Char) (s : Str) : Out Str := do
  let b ← untabGo cap (cap + 2) ⟨fill s g, s.length, 1, 0⟩
  .val (cstr cap b)

/-- "Tab the line" (mmvstr.c 577–612): in every block of 8 characters that is followed by a further character, two or more trailing spaces
become a tab.  (The deletion in place is summarised by list operations.) -/
def tabLine : Nat → Str → Str
  | 0, s => s
  | n + 1, s =>
    if s.length ≤ 8 then s
    else
      let b := s.take 8
      let b' := b.reverse.dropWhile (· == ' ')
      (if b'.length ≤ 6 then b'.reverse ++ ['\t'] else b) ++ tabLine n (s.drop 8)

/-- `edit` (mmvstr.c 333–617); the buffer has `strlen + 1` bytes, 7 times as many if `control & 2048`. -/
def edit (ctl : Nat) (g : Nat → Char) (s : Str) : Out Str := do
  let cap := if on ctl 11 then (s.length + 1) * 7 else s.length + 1
  let r ← if on ctl 11 || on ctl 10 then untab cap g (editBase ctl s) else .val (editBase ctl s)
  if on ctl 10 then
    -- `while (sout[j - 1] == ' ' && j > i - 8)` (595): with 8 leading spaces `j` becomes 0 and `sout[-1]` is read
    if r.length > 8 ∧ (r.take 8).all (· == ' ') then .ub else .val (tabLine r.length r)
  else .val r

end MM.Vstr
