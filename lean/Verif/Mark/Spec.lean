import Verif.Mark.Model
/-!
# What it is for a comment to discourage
-/
namespace MM.Mark
open MM.Vstr MM.Veri

/-- The last comment of a text: between the last `$(` and the last `$)`. -/
def LastComment (sec b : Str) : Prop :=
  ∃ x y, sec = x ++ ['$', '('] ++ b ++ ['$', ')'] ++ y ∧ ¬ ['$', '('] <:+: b ++ ['$', ')'] ++ y ∧ ¬ ['$', ')'] <:+: y

/-- The text `s` begins with the phrase `m`: a space of `m` may be any number, but not zero, of spaces and tabs in `s`, and line breaks (LF, CR, FF, and ESC, BS) in `s` do not
count at all. -/
inductive Reads : Str → Str → Prop
  | done (s) : Reads [] s
  | skip {m s c} : c.toNat ∈ [13, 10, 12, 27, 8] → Reads m s → Reads m (c :: s)
  | char {m s c} : c ≠ ' ' → c ≠ '\t' → Reads m s → Reads (c :: m) (c :: s)
  | gap {m s c} : c = ' ' ∨ c = '\t' → Reads m s → Reads (' ' :: m) (c :: s)
  | more {m s c} : c = ' ' ∨ c = '\t' → Reads (' ' :: m) s → Reads (' ' :: m) (c :: s)

/-- The phrase is somewhere in the text. -/
def Has (m s : Str) : Prop := ∃ x u, s = x ++ u ∧ Reads m u

/-- The statement `i` is an assertion, and the last comment before it has the phrase. -/
def Marked (db : Db) (m : Str) (i : Nat) : Prop := (db.kind i = .a ∨ db.kind i = .p) ∧ ∃ b, LastComment (db.sec i) b ∧ Has m b

/-- A C string has no NUL in it. -/
def CString (s : Str) : Prop := ∀ c ∈ s, c.toNat ≠ 0

/-- The states of the program: databases are read (after ERASE, which resets), and flags are asked for. -/
inductive Reached (g : Nat → Char) : Db → Option Cache → Prop
  | read (db) : (∀ i, CString (db.sec i)) → Reached g db none
  | ask {db o b o'} {i mode : Nat} : Reached g db o → getMarkupFlag g db o i mode = .val (b, o') → Reached g db o'

end MM.Mark
