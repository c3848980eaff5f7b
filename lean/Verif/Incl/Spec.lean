import Verif.Lex.Toks
import Mathlib.Data.List.Infix
/-!
# File inclusion in the Metamath language

A source file is a sequence of words (maximal runs of printable characters, `words` of `Lex/Toks.lean`).  A comment goes from a word `$(` to the next word
`$)` and contains neither of the two character pairs otherwise.  `$[ f $]` is replaced by the contents of the file `f` when `f` is met for the first time,
and by nothing later; a reference to the main file is ignored, too.
-/
namespace MM.Incl
open MM.Veri MM.Pars MM.Lex

/-- The word contains `$(` or `$)`. -/
def hasMark (w : Name) : Bool := decide (['$', '('] <:+: w) || decide (['$', ')'] <:+: w)

/-- The words outside comments (`true`: inside a comment); `none` if comments are not well-formed. -/
def uncomment : Bool → List Name → Option (List Name)
  | false, [] => some []
  | true, [] => none
  | false, w :: ws =>
    if w = ['$', '('] then uncomment true ws else if hasMark w then none else (uncomment false ws).map (w :: ·)
  | true, w :: ws =>
    if w = ['$', ')'] then uncomment false ws else if hasMark w then none else uncomment true ws

/-- The words of a file outside comments. -/
def tokens (text : List Char) : Option (List Name) := uncomment false (words text)

/-- `Inc disk s ts s' out`: when the files `s` have been met, the words `ts` become `out` by inclusion of files, and then the files `s'` have been met. -/
inductive Inc (disk : Name → Option (List Char)) : List Name → List Name → List Name → List Name → Prop
  | done (s : List Name) : Inc disk s [] s []
  | word {s s' ws out : List Name} {w : Name} : ¬ ['$', '['] <+: w → Inc disk s ws s' out → Inc disk s (w :: ws) s' (w :: out)
  | again {s s' ws out : List Name} {f : Name} : '$' ∉ f → f ∈ s → Inc disk s ws s' out → Inc disk s (['$', '['] :: f :: ['$', ']'] :: ws) s' out
  | first {s s1 s' ws ts out1 out : List Name} {f : Name} {text : List Char} : '$' ∉ f → f ∉ s → disk f = some text → tokens text = some ts →
      Inc disk (f :: s) ts s1 out1 → Inc disk s1 ws s' out → Inc disk s (['$', '['] :: f :: ['$', ']'] :: ws) s' (out1 ++ out)

/-- `out` are the words (outside comments) of the file `main` with all inclusions carried out. -/
def Expands (disk : Name → Option (List Char)) (main : Name) (out : List Name) : Prop :=
  ∃ text ts s', disk main = some text ∧ tokens text = some ts ∧ Inc disk [main] ts s' out

/-- The file does not contain comments `$( Begin ..` and `$( Skip ..`, which the program uses as its own markup. -/
def NoMarkup (text : List Char) : Prop :=
  ¬ [['$', '('], ['B', 'e', 'g', 'i', 'n']] <:+: words text ∧ ¬ [['$', '('], ['S', 'k', 'i', 'p']] <:+: words text

/-- The file contains `$[ f $]` outside comments. -/
def Includes (text : List Char) (f : Name) : Prop := ∃ ts, tokens text = some ts ∧ [['$', '['], f, ['$', ']']] <:+: ts

/-- The words with `$` that may stand outside comments. -/
def isKeyword (w : Name) : Bool :=
  match w with
  | ['$', d] => ['c', 'v', 'f', 'e', 'd', 'a', 'p', '=', '.', '{', '}', '[', ']'].contains d
  | _ => false

/-- The lexical rules for file inclusion, and the main file is not included. -/
structure Lexical (main : Name) (ts : List Name) : Prop where
  keyword : ∀ w ∈ ts, '$' ∈ w → isKeyword w = true
  name : ∀ g, [['$', '['], g, ['$', ']']] <:+: ts → '$' ∉ g ∧ g ≠ main

/-- A file of plain text: at least one character, no byte order mark of UTF-16. -/
def PlainFile (bytes : List Char) : Prop := bytes ≠ [] ∧ (bytes.take 2).map Char.toNat ≠ [255, 254]

end MM.Incl
