import Verif.Vstr.Model
/-!
# Model of the date functions (src/mmdata.c) and of `val` and `str` (src/mmvstr.c)
-/
namespace MM.Date
open Vstr

/-- The loop of `val` (mmvstr.c 710–727) over the characters from the last one to the first one.  The C code computes with `double`; here `v` and `power` are
integers, which is exact as long as the sum has at most 15 digits.  What happens beyond that, and with a decimal point, is not modelled (`.fuel`). -/
def valGo : List Char → Int → Int → Bool → Out Int
  | [], v, _, sgn => .val (if sgn then -v else v)
  | c :: t, v, power, sgn =>
    if c = '.' then .fuel
    else if c = '-' then valGo t v power true
    else if c.isDigit then
      if power > 10 ^ 14 then .fuel else valGo t (v + ((c.toNat : Int) - 48) * power) (10 * power) sgn
    else valGo t v power sgn

/-- `(long)val(s)` (mmvstr.c 705–730), for integers, see `valGo`. -/
def val (s : Str) : Out Int := valGo s.reverse 0 1 false

/-- The position where the loop of `str` (mmvstr.c 810–813) stops. -/
def stripAt (s : Str) : Nat → Nat
  | 0 => 0
  | i + 1 => if s[i + 1]? ≠ some '0' then i + 1 else stripAt s i

/-- `str(f)` (mmvstr.c 801–818) for an integer `f` of at most 15 digits, for which `sprintf(s, "%f", f)` gives the digits and `.000000`. -/
def str (f : Int) : Str :=
  let s := (if f < 0 then ['-'] else []) ++ Nat.toDigits 10 f.natAbs ++ ".000000".toList
  let i := stripAt s (s.length - 1)
  if s[i]? = some '.' then s.take i else s.take (i + 1)

/-- `MONTHS` (mmdata.c 3751) -/
def months : Str := "JanFebMarAprMayJunJulAugSepOctNovDec".toList

/-- The result of `parseDate`: the error flag and the three numbers. -/
structure Parsed where
  err : Bool
  dd : Int
  mmm : Int
  yyyy : Int
deriving Repr, DecidableEq

/-- The century of a two-digit year (mmdata.c 3755–3762); `START_YEAR` is 93. -/
def fullYear (y : Int) : Int := if y < 100 then (if y < 93 then y + 2000 else y + 1900) else y

/-- `parseDate(dateStr, &dd, &mmm, &yyyy)` (mmdata.c 3746–3765).  The division of C truncates. -/
def parseDate (s : Str) : Out Parsed := do
  let j : Int := instr 1 s ['-']
  let a ← left s (j - 1)
  let dd ← val a
  let b ← mid s (j + 1) 3
  let mmm := Int.tdiv ((instr 1 months b : Int) - 1) 3 + 1
  let j2 : Int := instr (j + 1) s ['-']
  let c ← right s (j2 + 1)
  let y ← val c
  .val ⟨decide (dd < 1 ∨ dd > 31 ∨ mmm < 1 ∨ mmm > 12), dd, mmm, fullYear y⟩

/-- `buildDate(dd, mmm, yyyy, &dateStr)` (mmdata.c 3769–3773) -/
def buildDate (dd mmm yyyy : Int) : Out Str := do
  let m ← mid months (mmm * 3 - 2) 3
  .val (cat [str dd, ['-'], m, ['-'], str yyyy])

/-- `compareDates(date1, date2)` (mmdata.c 3777–3803) -/
def compareDates (date1 date2 : Str) : Out Int :=
  if date1 = [] ∨ date2 = [] then
    if date1 = [] ∧ date2 = [] then .val 0
    else if date1 = [] then .val (-1)
    else .val 1
  else do
    let p ← parseDate date1
    let q ← parseDate date2
    let dd1 := p.dd + p.mmm * 32 + p.yyyy * 500
    let dd2 := q.dd + q.mmm * 32 + q.yyyy * 500
    if dd1 < dd2 then .val (-1) else if dd1 = dd2 then .val 0 else .val 1

end MM.Date
