import Verif.Vstr.Edit
import Verif.Long.Model
/-!
# Model of `rewrapComment` (src/mmpars.c 4313–4546)

The function works on the comment character by character, with the 1-based positions of `instr` and the 0-based ones of C arrays; so does the model.
-/
namespace MM.Fmt
open MM.Vstr MM.Long

/-- `ASCII_4`: a space at which the line must not be broken. -/
abbrev A4 : Char := Char.ofNat 4

/-- `cat(left(s, n), " ", right(s, n + 1))` -/
def putSpace (s : Str) (n : Int) : Out Str := left s n >>= fun a => right s (n + 1) >>= fun b => .val (a ++ ' ' :: b)

/-- A space after the character at (1-based) `pos` if `c` says so (mmpars.c 4336–4346, 4366–4370) -/
def padAfter (need : Bool) (s : Str) (pos : Nat) : Out Str := if need then putSpace s pos else .val s

/-- A space before it if there is none; `pos` is then behind it (mmpars.c 4347–4352, 4371–4376). -/
def padBefore (prev : Char) (s : Str) (pos : Nat) : Out (Str × Nat) :=
  if prev ≠ ' ' then putSpace s ((pos : Int) - 1) >>= fun t => .val (t, pos + 1) else .val (s, pos)

/-- "Make sure back quotes are surrounded by space" (mmpars.c 4327–4353); `mm` is `mathmode`. -/
def quoteLoop : Nat → Bool → Nat → Str → Out Str
  | 0, _, _, _ => .fuel
  | n + 1, mm, pos, s =>
    let pos := instr ((pos : Int) + 1) s ['`']
    if pos = 0 then .val s
    else
      ch s (pos - 2) >>= fun p => ch s pos >>= fun q =>
      if p = '`' ∨ q = '`' then quoteLoop n (!mm) pos s
      else
        padAfter (decide (q ≠ ' ' ∧ q ≠ '\n' ∧ ((!mm) = true ∨ (q ≠ '_' ∧ q ≠ '-')))) s pos >>= fun t =>
        padBefore p t pos >>= fun r => quoteLoop n (!mm) r.2 r.1

/-- "Make sure "~" for labels are surrounded by space" (mmpars.c 4359–4377) -/
def tildeLoop : Nat → Nat → Str → Out Str
  | 0, _, _ => .fuel
  | n + 1, pos, s =>
    let pos := instr ((pos : Int) + 1) s ['~']
    if pos = 0 then .val s
    else
      ch s (pos - 2) >>= fun p => ch s pos >>= fun q =>
      if p = '~' ∨ q = '~' then tildeLoop n pos s
      else
        padAfter (decide (q ≠ ' ')) s pos >>= fun t =>
        padBefore p t pos >>= fun r => tildeLoop n r.2 r.1

/-- "Change all newlines to space unless double newline" (mmpars.c 4382–4387): position `pos` of a comment of length `len`; `prev` is the character before. -/
def joinLines (len : Nat) : Nat → Char → Str → Str
  | _, _, [] => []
  | pos, prev, c :: t =>
    let d := if 2 ≤ pos ∧ pos + 2 < len ∧ c = '\n' ∧ prev ≠ '\n' ∧ t.head? ≠ some '\n' then ' ' else c
    d :: joinLines len (pos + 1) d t

/-- "Remove spaces and blank lines at end of comment" (mmpars.c 4390–4398) -/
def endLoop : Nat → Str → Out Str
  | 0, _ => .fuel
  | n + 1, s =>
    if s.length < 4 then .ub
    else
      ch s (s.length - 3) >>= fun a =>
      if a ≠ ' ' then .bug 1730
      else
        ch s (s.length - 4) >>= fun b =>
        if b ≠ ' ' ∧ b ≠ '\n' then .val s
        else left s ((s.length : Int) - 4) >>= fun x => right s ((s.length : Int) - 2) >>= fun y => endLoop n (x ++ y)

/-- `islower` -/
def isLower (c : Char) : Bool := decide ('a' ≤ c ∧ c ≤ 'z')

/-- "Put period at end of comment ending with lowercase letter" (mmpars.c 4406–4409) -/
def period (s : Str) : Out Str :=
  if s.length < 4 then .ub
  else ch s (s.length - 4) >>= fun b =>
    if isLower b then left s ((s.length : Int) - 3) >>= fun x => .val (x ++ ['.', ' ', '$', ')']) else .val s

/-- "Change to ASCII 4 those spaces where the line shouldn't be broken" (mmpars.c 4411–4422); `len` is `length`, which does not count the period. -/
def mathSpaces (len : Nat) : Nat → Bool → Str → Str
  | _, _, [] => []
  | pos, mm, c :: t =>
    let here : Bool := decide (3 ≤ pos ∧ pos + 2 < len)
    let mm := if here && c == '`' then !mm else mm
    (if here && mm && c == ' ' then A4 else c) :: mathSpaces len (pos + 1) mm t

/-- The spaces in the markup `m` (mmpars.c 4432–4449) -/
def markupSpaces (m s : Str) : Str :=
  let pos := instr 1 s m
  if pos ≠ 0 then s.mapIdx fun j c => if pos ≤ j ∧ j + 1 < pos + m.length ∧ c = ' ' then A4 else c else s

def isUpper (c : Char) : Bool := decide ('A' ≤ c ∧ c ≤ 'Z')

/-- `strchr(set, c) != NULL`; also true for the terminating NUL. -/
def inSet (set : List Char) (c : Char) : Bool := set.contains c || c == NUL

/-- OPENING_PUNCTUATION, CLOSING_PUNCTUATION, SENTENCE_END_PUNCTUATION (mmpars.c 4315–4318) -/
def opening : List Char := ['(', '[', '\'', '"']
def closing : List Char := ['.', ',', ';', ')', '?', '!', ':', ']', '\'', '"']
def sentenceEnd : List Char := [')', '\'', '"']

/-- The space after a sentence that ends at the 0-based position `pos - 1` (mmpars.c 4468–4487) -/
def sentencePad (s : Str) (pos : Nat) : Out Str :=
  ch s pos >>= fun c =>
  if c ≠ ' ' then .val s
  else ch s (pos + 1) >>= fun d => if isUpper d || inSet opening d then putSpace s ((pos : Int) + 1) else .val s

/-- "Put two spaces after end of sentence and colon" (mmpars.c 4451–4489) for one character `e` -/
def sentenceLoop (e : Char) : Nat → Nat → Str → Out Str
  | 0, _, _ => .fuel
  | n + 1, pos, s =>
    let pos := instr ((pos : Int) + 1) s [e]
    if pos = 0 then .val s
    else
      ch s (pos - 2) >>= fun p =>
      if e = '.' ∧ isUpper p = true then sentenceLoop e n pos s
      else
        ch s pos >>= fun q =>
        let pos := if inSet sentenceEnd q then pos + 1 else pos
        sentencePad s pos >>= fun t => sentenceLoop e n pos t

/-- The character `comment[pos + k]` in the loop over the template -/
def at' (s : Str) (i : Nat) : Char := s.getD i NUL

/-- The spaces at which the line is not broken (mmpars.c 4490–4541), `commentTemplate` being merged into the comment.  All positions read are inside. -/
def noBreak (s : Str) (pos : Nat) : Bool :=
  (at' s (pos - 1) == '~' && at' s (pos - 2) != '~')
  || ((at' s (pos - 2) == ' ' || inSet opening (at' s (pos - 2))) && inSet opening (at' s (pos - 1)))
  || ((at' s (pos + 2) == ' ' || at' s (pos + 2) == '\n' || at' s (pos + 2) == A4 || inSet closing (at' s (pos + 2))) && inSet closing (at' s (pos + 1)))
  || (at' s (pos - 3) == ' ' && at' s (pos - 2) == 'p' && at' s (pos - 1) == '.')

def template (s : Str) : Str :=
  s.mapIdx fun pos c => if 3 ≤ pos ∧ pos + 2 < s.length ∧ ((c = ' ' ∧ noBreak s pos = true) ∨ pos + 3 = s.length) then A4 else c

/-- The `~` are only looked at if there is no math in the comment (mmpars.c 4358). -/
def tildes (s : Str) : Out Str := if instr 2 s ['`'] = 0 then tildeLoop (s.length + 1) 2 s else .val s

/-- `rewrapComment` (mmpars.c 4313–4546); `pm`, `um` are `g_proofDiscouragedMarkup` and `g_usageDiscouragedMarkup`, `g` the uninitialised memory of `edit`. -/
def rewrapComment (pm um : Str) (g : Nat → Char) (comment : Str) : Out Str :=
  quoteLoop (comment.length + 1) false 2 comment >>= fun s =>
  tildes s >>= fun s =>
  edit 16 g (joinLines s.length 0 NUL s) >>= fun s =>
  endLoop (s.length + 1) s >>= fun s =>
  period s >>= fun t =>
  let t := markupSpaces um (markupSpaces pm (mathSpaces s.length 0 false t))
  sentenceLoop '.' (t.length + 1) 2 t >>= fun t =>
  sentenceLoop '?' (t.length + 1) 2 t >>= fun t =>
  sentenceLoop '!' (t.length + 1) 2 t >>= fun t =>
  sentenceLoop ':' (t.length + 1) 2 t >>= fun t =>
  .val (template t)

end MM.Fmt
