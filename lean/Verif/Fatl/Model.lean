import Verif.Basic
/-!
# Model of the fatal error messages (src/mmfatl.c)

A C string is the list of its characters before the terminating NUL.
-/
namespace MM.Fatl

/-- `NUL` (mmfatl.c 38) -/
def nul : Char := Char.ofNat 0

/-- `MMFATL_ELLIPSIS` (mmfatl.h 105) -/
def ellipsis : List Char := ['.', '.', '.', '\n']

/-- `struct Buffer` (mmfatl.c 73–87): the array `text` and the index of `begin` in it.  The member `end` is the constant index `C` (`MMFATL_MAX_MSG_SIZE`, 1024 in
mmfatl.h 94), which is a parameter here. -/
structure Buf where
  text : List Char
  beg : Nat
deriving Repr, DecidableEq

/-- `*p = c` for the element with index `i` of an array. -/
def poke (l : List Char) (i : Nat) (c : Char) : Out (List Char) := if i < l.length then .val (l.set i c) else .ub

/-- `initBuffer` (mmfatl.c 107–114), `fatalErrorInit` (415–420) -/
def initBuffer (C : Nat) : Buf := { text := List.replicate C nul ++ ellipsis ++ [nul], beg := 0 }

/-- `isBufferEmpty` (mmfatl.c 123–125) -/
def isEmpty (b : Buf) : Bool := b.beg == 0

/-- `isBufferOverflow` (mmfatl.c 148–150) -/
def isOverflow (C : Nat) (b : Buf) : Bool := b.beg == C

/-- `getLastBufferedChar` (mmfatl.c 136–138) -/
def lastChar (b : Buf) : Out Char := if isEmpty b then .val nul else Out.read b.text (b.beg - 1)

/-- `appendText(source, type, buffer)` (mmfatl.c 177–184); `fmt` says that `type` is `FORMAT`.  The second component of the result is the number of characters
copied. -/
def appendText (C : Nat) (fmt : Bool) : List Char → Buf → Out (Buf × Nat)
  | [], b => .val (b, 0)
  | c :: cs, b =>
    if (fmt = true ∧ c = '%') ∨ isOverflow C b = true then .val (b, 0)
    else do
      let t ← poke b.text b.beg c
      let r ← appendText C fmt cs ⟨t, b.beg + 1⟩
      .val (r.1, r.2 + 1)

/-- An argument of a `...` parameter list: `char const*` (`none` is NULL), or `unsigned`. -/
inductive Arg where
  | str (s : Option (List Char))
  | num (n : Nat)
deriving Repr, DecidableEq

/-- The loop of `unsignedToString` (mmfatl.c 275–278); `n` bounds the iterations. -/
def digitLoop : Nat → Nat → List Char → Nat → Out (List Char × Nat)
  | 0, _, _, _ => .fuel
  | n + 1, value, digits, ofs =>
    if value = 0 then .val (digits, ofs)
    else if ofs = 0 then .ub
    else do
      let d ← poke digits (ofs - 1) (Char.ofNat (value % 10 + 48))
      digitLoop n (value / 10) d (ofs - 1)

/-- `unsignedToString(value)` (mmfatl.c 260–281) for a 32-bit `unsigned`: the array `digits` has (4 * 8 * 146) / 485 + 2 = 11 elements.  The result is the C string
that starts at `digits + ofs`. -/
def unsignedToString (value : Nat) : Out (List Char) := do
  let d ← poke (List.replicate ((4 * 8 * 146) / 485 + 2) nul) 10 nul
  if value = 0 then do
    let d' ← poke d 9 '0'
    .val ((d'.drop 9).takeWhile (· ≠ nul))
  else do
    let r ← digitLoop (value + 1) value d 10
    .val ((r.1.drop r.2).takeWhile (· ≠ nul))

/-- `struct ParserState` (mmfatl.c 202–226): the buffer, the rest of the format, the arguments not yet used. -/
structure PSt where
  out : Buf
  format : List Char
  args : List Arg
deriving Repr, DecidableEq

/-- `checkOverflow(state)` (mmfatl.c 293–298) -/
def checkOverflow (C : Nat) (s : PSt) : PSt := if isOverflow C s.out then { s with format := [] } else s

/-- `handleText(state)` (mmfatl.c 313–316) -/
def handleText (C : Nat) (s : PSt) : Out PSt := do
  let r ← appendText C true s.format s.out
  .val (checkOverflow C { s with out := r.1, format := s.format.drop r.2 })

/-- The end of `handleSubstitution` (mmfatl.c 365–369): `arg` is the text, `none` if NULL. -/
def substTail (C : Nat) (s : PSt) (arg : Option (List Char)) : Out PSt :=
  if arg.isSome then do
    let r ← appendText C false (arg.getD []) s.out
    .val (checkOverflow C { s with out := r.1 })
  else .val s

/-- `va_arg(state->args, char const*)` (mmfatl.c 349) -/
def popStr : List Arg → Out (Option (List Char) × List Arg)
  | .str x :: a => .val (x, a)
  | _ => .ub

/-- `va_arg(state->args, unsigned)` (mmfatl.c 353) -/
def popNum : List Arg → Out (Nat × List Arg)
  | .num n :: a => .val (n, a)
  | _ => .ub

/-- `handleSubstitution(state)` (mmfatl.c 342–370), at a `%`. -/
def handleSubst (C : Nat) (s : PSt) : Out PSt :=
  let c := (s.format.drop 1).headD nul
  if c = 's' then do
    let a ← popStr s.args
    substTail C { s with format := s.format.drop 2, args := a.2 } a.1
  else if c = 'u' then do
    let a ← popNum s.args
    let t ← unsignedToString a.1
    substTail C { s with format := s.format.drop 2, args := a.2 } (some t)
  else if c = '%' then substTail C { s with format := s.format.drop 2 } (some ['%'])
  else substTail C { s with format := s.format.drop 1 } (some ['%'])

/-- One round of `parse` (mmfatl.c 383–386) -/
def parseRound (C : Nat) (s : PSt) : Out PSt := if s.format.headD nul = '%' then handleSubst C s else handleText C s

/-- `parse(state)` (mmfatl.c 381–388); the first argument bounds the rounds. -/
def parseF (C : Nat) : Nat → PSt → Out PSt
  | 0, _ => .fuel
  | n + 1, s => do
    let r ← parseRound C s
    if r.format.headD nul ≠ nul then parseF C n r else .val r

/-- `parse(state)` (mmfatl.c 381–388) -/
def parse (C : Nat) (s : PSt) : Out PSt := parseF C (s.format.length + 1) s

/-- `fatalErrorPush(format, ...)` (mmfatl.c 422–436): the new buffer and the result. -/
def push (C : Nat) (b : Buf) (format : Option (List Char)) (args : List Arg) : Out (Buf × Bool) :=
  if isOverflow C b = false ∧ format.isSome then do
    let r ← parse C ⟨b, format.getD [], args⟩
    .val (r.out, !isOverflow C r.out)
  else .val (b, !isOverflow C b)

/-- The C string that starts at `buffer->text`; without a terminating NUL in the array, reading it is undefined. -/
def cstr (l : List Char) : Out (List Char) := if nul ∈ l then .val (l.takeWhile (· ≠ nul)) else .ub

/-- `fatalErrorPrintAndExit()` (mmfatl.c 438–449): what is written to `stderr`. -/
def printAndExit (C : Nat) (b : Buf) : Out (List Char) :=
  if isOverflow C b = false ∧ isEmpty b = false then do
    let c ← lastChar b
    if c ≠ '\n' then do
      let r ← push C b (some ['\n']) []
      cstr r.1.text
    else cstr b.text
  else cstr b.text

/-- The format chosen by `fatalErrorExitAt` for the error location (mmfatl.c 456–466) -/
def locFormat (file : Option (List Char)) (line : Nat) : Option (List Char) :=
  if file.getD [] ≠ [] then
    if line > 0 then some "At %s:%u\n".toList else some "In file %s:\n".toList
  else if line > 0 then some "%sIn line %u:\n".toList else none

/-- `fatalErrorExitAt(file, line, msgWithPlaceholders, ...)` (mmfatl.c 451–477): what is written to `stderr`. -/
def exitAt (C : Nat) (file : Option (List Char)) (line : Nat) (msg : Option (List Char)) (args : List Arg) : Out (List Char) := do
  let r ← push C (initBuffer C) (locFormat file line) [.str file, .num line]
  if r.2 = true ∧ msg.isSome then do
    let s ← parse C ⟨r.1, msg.getD [], args⟩
    printAndExit C s.out
  else printAndExit C r.1

end MM.Fatl
