import Verif.Lex.Model
/-!
# Model of file inclusion (src/mmpars.c, src/mminou.c)

`readFileToString` (mminou.c 1292–1455), `rawWhiteSpaceLen`, `rawTokenLen` (mmpars.c 3715–3782), `getNextInclusion` (4821–5069), `readInclude` (5459–5930) and `readSourceAndIncludes` (5943–6047).

A C pointer into a buffer is modelled by the list of characters from there to the terminating NUL; the buffer contains no NUL.  File and line numbers for
messages (`g_IncludeCall[].current_line`, `current_offset`, ...) and the messages themselves are not modelled.
-/
namespace MM.Incl
open MM.Veri MM.Pars MM.Lex

/-- The loop of `readFileToString` that takes the low byte of each pair in a UTF-16 file and drops carriage returns (mminou.c 1362–1392).
`none`: a character that is not ASCII, NUL, or half a character. -/
def unicodeText : List Char → Option (List Char)
  | [] => some []
  | [_] => none
  | c :: d :: r => if d.toNat ≠ 0 then none else if c.toNat = 0 then none else if c = '\r' then unicodeText r else (unicodeText r).map (c :: ·)

/-- The loop of `readFileToString` that cleans up carriage returns (mminou.c 1401–1416). -/
def cleanCr : List Char → List Char
  | [] => []
  | c :: r => if c = '\r' then (if r.head? = some '\n' then cleanCr r else '\n' :: cleanCr r) else c :: cleanCr r

/-- The end of `readFileToString` (mminou.c 1420–1430): the last line gets a line end.  The test reads `fileBuf[-1]` if there is no character. -/
def endLine (t : List Char) : Out (Option (List Char)) :=
  if t = [] then .ub else if t.getLast? = some '\n' then .val (some t) else .val (some (t ++ ['\n']))

/-- `readFileToString` (mminou.c 1292–1455) for the bytes of a file that can be opened; `.val none` is the return value `NULL`.
NUL bytes in a file without byte order mark are not modelled (the text would be cut at the first of them). -/
def readFileToString (bytes : List Char) : Out (Option (List Char)) :=
  if (bytes.take 2).map Char.toNat = [255, 254] then
    (match unicodeText (bytes.drop 2) with
     | none => .val none
     | some t => endLine t)
  else endLine (cleanCr bytes)

/-- The pointer after the white space: `p + rawWhiteSpaceLen(p)` (mmpars.c 3715–3725). -/
def rawWs (p : List Char) : List Char := p.dropWhile fun c => !isGraph c

/-- The token at a pointer: `rawTokenLen(p)` characters (mmpars.c 3773–3782). -/
def rawTok (p : List Char) : List Char := p.takeWhile isGraph

/-- The pointer after the token. -/
def afterTok (p : List Char) : List Char := p.dropWhile isGraph

/-- From `GET_PASSED_END_OF_COMMENT` on (mmpars.c 5004–5052): the pointer after the next `$)`, or the pointer to the terminating NUL. -/
def findClose : List Char → List Char
  | [] => []
  | c :: r => if c = '$' ∧ r.head? = some ')' then r.tail else findClose r

/-- What `getNextInclusion` has found, as pointers: `c1`, `c2`, `e1`, `e2` are the positions `cmdPos1`, `cmdPos2`, `endPos1`, `endPos2`,
but for `block` and `noEnd` the pointer `c2` is directly after the comment (`cmdPos2` is one character further). -/
inductive Cmd where
  /-- 'N' -/
  | none
  /-- 'I' -/
  | incl (c1 : List Char) (nm : Name) (c2 : List Char)
  /-- 'S' -/
  | skip (c1 : List Char) (nm : Name) (c2 : List Char)
  /-- 'B' -/
  | block (c1 : List Char) (nm : Name) (c2 e1 e2 : List Char)
  /-- 'E' -/
  | noEnd (c2 : List Char)

/-- `lookForEndMode`: the open `$( Begin $[ nm $] $)`. -/
structure Look where
  c1 : List Char
  nm : Name
  c2 : List Char

/-- The rest of a comment `$( Begin/Skip/End $[ file $] $)` (mmpars.c 4937–4980); `q` points to `Begin`, `Skip` or `End`; `ok`: test of the file name.
`.inl p`: go on at `GET_PASSED_END_OF_COMMENT` with `fbPtr = p`; `.inr (nm, p)`: the file name and the pointer after the comment. -/
def markup (ok : Name → Bool) (q : List Char) : List Char ⊕ (Name × List Char) :=
  let q2 := rawWs (afterTok q)
  if rawTok q2 ≠ ['$', '['] then .inl q2
  else
    let q3 := rawWs (afterTok q2)
    if ok (rawTok q3) = false then .inl q3
    else
      let q4 := rawWs (afterTok q3)
      if rawTok q4 ≠ ['$', ']'] then .inl q4
      else
        let q5 := rawWs (afterTok q4)
        if rawTok q5 ≠ ['$', ')'] then .inl q5 else .inr (rawTok q3, afterTok q5)

/-- What a comment is for `getNextInclusion` (mmpars.c 4917–4936); `q` points to the first token after `$(`; `look`: `lookForEndMode` with the file name.
`strncmp(*fileName, fbPtr, j)`, where `j` is the length of the token at `fbPtr`, is 0 if the token is a prefix of the file name. -/
inductive Com where
  | other (p : List Char)
  | begin (nm : Name) (p : List Char)
  | skip (nm : Name) (p : List Char)
  | close (p : List Char)

def comment (look : Option Look) (q : List Char) : Com :=
  match look with
  | none =>
    if rawTok q = ['B', 'e', 'g', 'i', 'n'] then (match markup (fun _ => true) q with | .inl p => .other p | .inr (nm, p) => .begin nm p)
    else if rawTok q = ['S', 'k', 'i', 'p'] then (match markup (fun _ => true) q with | .inl p => .other p | .inr (nm, p) => .skip nm p)
    else .other q
  | some l =>
    if rawTok q = ['E', 'n', 'd'] then (match markup (fun w => w.isPrefixOf l.nm) q with | .inl p => .other p | .inr (_, p) => .close p)
    else .other q

/-- `getNextInclusion` (mmpars.c 4821–5069): at most `n` iterations of its loop. -/
def nextIncl : Nat → Option Look → List Char → Out Cmd
  | 0, _, _ => .fuel
  | n + 1, look, p =>
    let q := rawWs p
    if rawTok q = [] then
      (match look with
       | none => .val .none
       | some l => .val (.noEnd l.c2))
    else if q.head? ≠ some '$' then nextIncl n look (afterTok q)
    else if q.tail.head? = some '[' then
      (match look with
       | none => do
         let q1 ← skipWs .ws (afterTok q)
         let q2 ← skipWs .ws (afterTok q1)
         if rawTok q2 = ['$', ']'] then .val (.incl q (rawTok q1) (afterTok q2)) else nextIncl n none (afterTok q2)
       | some l => nextIncl n (some l) (afterTok q))
    else if q.tail.head? = some '(' then
      (match comment look (rawWs (afterTok q)), look with
       | .other p', _ => nextIncl n look (findClose p')
       | .skip nm p', _ => .val (.skip q nm p')
       | .begin nm p', _ => nextIncl n (some ⟨q, nm, p'⟩) p'
       | .close p', some l => .val (.block l.c1 l.nm l.c2 q p')
       | .close _, none => .bug 1743)
    else nextIncl n look (afterTok q)

/-- `"$( Begin $[ <nm> $] $)\n"` (mmpars.c 5664, 5730) -/
def beginText (nm : Name) : List Char := "$( Begin $[ ".toList ++ nm ++ " $] $)\n".toList
/-- `"$( End $[ <nm> $] $)"` (mmpars.c 5666, 5731) -/
def endText (nm : Name) : List Char := "$( End $[ ".toList ++ nm ++ " $] $)".toList
/-- `"$( Skip $[ <nm> $] $)"` (mmpars.c 5795, 5825) -/
def skipText (nm : Name) : List Char := "$( Skip $[ ".toList ++ nm ++ " $] $)".toList

/-- The names of the files included so far other than the main file (the entries of `g_IncludeCall[]` with `pushOrPop = 0`, the last one first),
and `errorFlag`. -/
structure St where
  seen : List Name
  err : Bool := false
deriving DecidableEq

/-- The contents of an included file, or nothing and an error message (mmpars.c 5644–5656, 5718–5727). -/
def content (s : St) : Option (List Char) → List Char × St
  | some t => (t, s)
  | none => ([], { s with err := true })

/-- The text between two pointers. -/
def upTo (p q : List Char) : List Char := p.take (p.length - q.length)

/-- `readInclude` (mmpars.c 5459–5930) from `startOffset` on; `p` is the pointer to `newFileBuf + startOffset`, the result is the final text from there on.
`fs`: the files (`readFileToString`), `main`: name of the main file, which is the entry 0 of `g_IncludeCall[]` (`bug(1765)`, 5773).
The `size` outputs are the lengths of the texts.  In the case 'B' the expansion of the text between Begin and End is only used for its length. -/
def expand (fs : Name → Out (Option (List Char))) (main : Name) : Nat → St → List Char → Out (List Char × St)
  | 0, _, _ => .fuel
  | n + 1, s, p => do
    let cmd ← nextIncl (p.length + 1) none p
    match cmd with
    | .none => .val (p, s)
    | .noEnd c2 =>
      if c2.length < 2 then .ub
      else do
        let (o, s') ← expand fs main n { s with err := true } (c2.drop 2)
        .val (upTo p (c2.drop 2) ++ o, s')
    | .incl c1 nm c2 =>
      if nm = main then .bug 1765
      else if nm ∈ s.seen then do
        let (o, s') ← expand fs main n s c2
        .val (upTo p c1 ++ (skipText nm ++ o), s')
      else do
        let t ← fs nm
        let (i, s1) ← expand fs main n (content { s with seen := nm :: s.seen } t).2 (content s t).1
        let (o, s') ← expand fs main n s1 c2
        .val (upTo p c1 ++ (beginText nm ++ (i ++ (endText nm ++ o))), s')
    | .skip c1 nm c2 =>
      if nm = main then .bug 1765
      else if nm ∈ s.seen then do
        let (o, s') ← expand fs main n s c2
        .val (upTo p c2 ++ o, s')
      else do
        let t ← fs nm
        let (i, s1) ← expand fs main n (content { s with seen := nm :: s.seen } t).2 (content s t).1
        let (o, s') ← expand fs main n s1 c2
        .val (upTo p c1 ++ (beginText nm ++ (i ++ (endText nm ++ o))), s')
    | .block c1 nm c2 e1 e2 =>
      if nm = main then .bug 1765
      else if nm ∈ s.seen then do
        let (o, s') ← expand fs main n s e2
        .val (upTo p c1 ++ (skipText nm ++ o), s')
      else do
        let (i, s1) ← expand fs main n { s with seen := nm :: s.seen } (upTo c2.tail e1)
        let size := (c1.length - c2.tail.length) + i.length + (e1.length - e2.length)
        if c1.length < size then .ub
        else do
          let (o, s') ← expand fs main n s1 (c1.drop size)
          .val (upTo p c1 ++ (c1.take size ++ o), s')

/-- `readSourceAndIncludes` (mmpars.c 5943–6047): the text of the main file with all files included; `.val none`: an error, nothing is read. -/
def readSourceAndIncludes (fs : Name → Out (Option (List Char))) (n : Nat) (main : Name) : Out (Option (List Char)) := do
  let t ← fs main
  let (o, s) ← expand fs main n (content { seen := [] } t).2 (content { seen := [] } t).1
  .val (if s.err then none else some o)

/-- The files of a disk as the program reads them: `readFileToString` returns `NULL` if there is no such file. -/
def diskFs (disk : Name → Option (List Char)) (f : Name) : Out (Option (List Char)) :=
  match disk f with
  | none => .val none
  | some b => readFileToString b

end MM.Incl
