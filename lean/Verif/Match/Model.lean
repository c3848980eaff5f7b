import Verif.Proof.Model
import Verif.Vstr.Comma
/-!
# Model of `matches` and `matchesList` (src/mmdata.c 815–965)
-/
namespace MM.Match
open MM.Proof MM.Pars MM.Vstr

/-- What the special label patterns refer to: the statements, `g_Statement[].pinkNumber`, `g_proveStatement`, `proofSectionChanged`, and
`(long)val(s)` of a number string. -/
structure MEnv extends Env where
  pink : Nat → Int
  prove : Int
  changed : Nat → Bool
  val : Str → Int

/-- `lookupLabel` (mmpars.c 3602–3616) -/
def lookupLabel (E : Env) (nm : Name) : Out Int :=
  match E.look (labelKeys E) nm with
  | none => .val (-1)
  | some j =>
    if (E.stmt j.toNat).kind ≠ .a ∧ (E.stmt j.toNat).kind ≠ .p then .bug 1718 else .val j

/-- Character `i` of a C string, NUL at its end. -/
abbrev chr (s : Str) (i : Nat) : Option Char := s[i]?

/-- "Get to first wild card character" (mmdata.c 929–932): `none` is NUL. -/
def skip (one : Char) (pat test : Str) : Nat → Nat → Nat
  | 0, p => p
  | n + 1, p =>
    if (chr pat p = chr test p ∨ (chr pat p = some one ∧ chr test p ≠ none)) ∧ chr pat p ≠ none then skip one pat test n (p + 1)
    else p

/-- The loop "Scan remainder of pattern" (mmdata.c 946–967), run for at most `fuel` iterations. -/
def scan (wild one : Char) (pat test : Str) : Nat → Nat → Nat → Nat → Nat → Out Bool
  | 0, _, _, _, _ => .fuel
  | n + 1, ppos, tpos, pctr, i =>
    if chr pat (ppos + 1 + i) = some wild then scan wild one pat test n (ppos + 1 + i) (tpos + pctr + i) 0 0
    else if chr pat (ppos + 1 + i) ≠ chr test (tpos + pctr + i) ∧
        (chr pat (ppos + 1 + i) ≠ some one ∨ chr test (tpos + pctr + i) = none) then
      if chr test (tpos + pctr + i) = none then .val false
      else scan wild one pat test n ppos tpos (pctr + 1) 0
    else if chr pat (ppos + 1 + i) = none then .val true
    else scan wild one pat test n ppos tpos pctr (i + 1)

/-- Iterations granted to the loop; `Match.scan_spec` shows that they suffice.  Not in the C code. -/
def fuelFor (pat test : Str) : Nat := ((pat.length + 1) * (test.length + 2) + test.length + 2) * (pat.length + 2) + 1

/-- The wild card part of `matches` (mmdata.c 928–967). -/
def glob (wild one : Char) (test pat : Str) : Out Bool :=
  let p := skip one pat test (pat.length + 1) 0
  match chr pat p with
  | none => .val (chr test p).isNone
  | some c => if c ≠ wild then .val false else scan wild one pat test (fuelFor pat test) p p 0 0

/-- First statement of a range pattern (mmdata.c 859–864) -/
def rangeFrom (E : MEnv) (pat : Str) (i : Nat) : Out Int :=
  if i = 1 then .val 1 else do
    let l ← left pat ((i : Int) - 1)
    lookupLabel E.toEnv l

/-- Last statement of a range pattern (mmdata.c 866–871) -/
def rangeTo (E : MEnv) (pat : Str) (i : Nat) : Out Int :=
  if i = pat.length then .val (E.n : Int) else do
    let r ← right pat ((i : Int) + 1)
    lookupLabel E.toEnv r

/-- The label patterns `a~b`, `#n`, `@n`, `=`, `%` (mmdata.c 853–926); `none`: none of them. -/
def special (E : MEnv) (test pat : Str) : Out (Option Bool) :=
  let i := instr 1 pat ['~']
  if i ≠ 0 then do
    let s1 ← rangeFrom E pat i
    let s2 ← lookupLabel E.toEnv test
    let s3 ← rangeTo E pat i
    .val (some (decide (s1 ≥ 1 ∧ s2 ≥ 1 ∧ s3 ≥ 1 ∧ s1 ≤ s2 ∧ s2 ≤ s3)))
  else if pat.head? = some '#' then do
    let r ← right pat 2
    let s1 := E.val r
    if s1 < 1 ∨ s1 > E.n then .val (some false)
    else .val (some (decide (E.lab s1.toNat = test)))
  else if pat.head? = some '@' then do
    let s1 ← lookupLabel E.toEnv test
    if s1 < 1 then .val (some false)
    else do
      let r ← right pat 2
      .val (some (decide (E.pink s1.toNat = E.val r)))
  else if pat = ['='] then do
    let s1 ← lookupLabel E.toEnv test
    .val (some (decide (E.prove = s1)))
  else if pat = ['%'] then do
    let s1 ← lookupLabel E.toEnv test
    .val (some (decide (s1 > 0) && decide ((E.stmt s1.toNat).kind = .p) && E.changed s1.toNat))
  else .val none

/-- `matches` (mmdata.c 846–970) -/
def matchesOne (E : MEnv) (test pat : Str) (wild one : Char) : Out Bool := do
  let sp ← if wild = '*' then special E test pat else .val none
  match sp with
  | some b => .val b
  | none => glob wild one test pat

/-- The loop of `matchesList` (mmdata.c 828–834) over the entries `i .. i + n - 1`. -/
def matchesGo (E : MEnv) (test pat : Str) (wild one : Char) : Nat → Nat → Out Bool
  | 0, _ => .val false
  | n + 1, i => do
    let b ← matchesOne E test (entry i pat) wild one
    if b then .val true else matchesGo E test pat wild one n (i + 1)

/-- `matchesList` (mmdata.c 817–839) -/
def matchesList (E : MEnv) (test pat : Str) (wild one : Char) : Out Bool :=
  matchesGo E test pat wild one (numEntries pat) 1

end MM.Match
