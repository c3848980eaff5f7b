import Verif.Write.Model
/-!
# What WRITE SOURCE after SAVE PROOF commands should write
-/
namespace MM.Write
open MM.Veri MM.Pars MM.Lex

/-- A printable character or white space, not `$`. -/
def TextChar (c : Char) : Prop := (isGraph c = true ∨ isSpace c = true) ∧ c ≠ '$'

/-- The note is text between white space. -/
structure NoteOk (n : List Char) : Prop where
  chars : ∀ c ∈ n, TextChar c
  first : ∃ c t, n = c :: t ∧ isSpace c = true
  last : ∃ t c, n = t ++ [c] ∧ isSpace c = true

/-- The SAVE PROOF saves a proof of a `$p` statement: `kinds` are the types of the statements. -/
structure Save.Ok (kinds : List Kind) (s : Save) : Prop where
  isP : ∃ n, s.stmt = n + 1 ∧ kinds[n]? = some .p
  printed : ∃ body, s.printed = body ++ [' ', '$', '.', '\n'] ∧ ∀ c ∈ body, TextChar c
  note : ∀ n, s.note = some n → NoteOk n

/-- `l'` is the label section `l` with the note at the end of the last comment, if there is a comment. -/
def NoteAdded (note : Option (List Char)) (l l' : List Char) : Prop :=
  match note with
  | none => l' = l
  | some n => (¬ ['$', ')'] <:+: l ∧ l' = l) ∨ ∃ a b, l = a ++ ['$', ')'] ++ b ∧ ¬ ['$', ')'] <:+: b ∧ l' = a ++ n ++ ['$', ')'] ++ b

/-- The sections `ys` are the sections `xs` after the SAVE PROOF: only the proof of that statement is replaced, and the note added. -/
def Saved (s : Save) (xs ys : List Sections) : Prop :=
  ∃ a x b y body, xs = a ++ x :: b ∧ ys = a ++ y :: b ∧ s.stmt = a.length + 1 ∧ s.printed = body ++ [' ', '$', '.', '\n'] ∧
    y.kind = x.kind ∧ y.math = x.math ∧ y.proof = '\n' :: body ++ [' '] ∧ NoteAdded s.note x.label y.label

/-- After several. -/
inductive SavedAll : List Save → List Sections → List Sections → Prop
  | nil (xs : List Sections) : SavedAll [] xs xs
  | cons {s : Save} {ss : List Save} {xs ys zs : List Sections} : Saved s xs ys → SavedAll ss ys zs → SavedAll (s :: ss) xs zs

end MM.Write
