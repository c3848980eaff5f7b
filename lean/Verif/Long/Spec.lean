import Verif.Long.Model
/-!
# How a long line may be broken
-/
namespace MM.Long
open MM.Vstr

/-- What may stand before a line: nothing before the first one; before the others the given start of line, possibly cut but not below `width - 4`
characters, and padded when right-justified.  (A line of at least 4 characters that cannot be broken may lose its indentation.) -/
def Ind (c : Cfg) (width : Int) (next : Str) (first : Bool) (line i : Str) : Prop :=
  if first then i = []
  else (i = [] ∧ 3 < line.length) ∨ ∃ k n : Nat, width - 4 ≤ k ∧ (c.tree = false → n = 0) ∧ i = next.take k ++ List.replicate n ' '

/-- The line `a ++ g ++ b` may be broken between `a` and `b`, `g` being lost: at one space or two, anywhere if there are no break characters, and for a compressed
proof inside the code. -/
def Gap (c : Cfg) (a g b : Str) : Prop :=
  if c.bm = [] then g = [] ∧ a ≠ []
  else (g = [' '] ∧ b.head? ≠ some ' ') ∨ g = [' ', ' '] ∨
    (c.bm.head? = some '&' ∧ g = [] ∧ b ≠ [] ∧ b.head? ≠ some ' ' ∧
      ((' ' ∉ b.take (b.length - 3) ∧ ∃ a' x y, a = a' ++ [x, y] ∧ x ≠ ' ' ∧ y ≠ ' ') ∨ ∃ a' x y, a = a' ++ [')', x, y] ∧ y ≠ ' '))

/-- The lines `ls` are the line, broken. -/
inductive Wrapped (c : Cfg) (width : Int) (next : Str) : Bool → Str → List Str → Prop
  | last {first : Bool} {line i : Str} : Ind c width next first line i → Wrapped c width next first line [i ++ line]
  | more {first : Bool} {a g b i : Str} {ls : List Str} : Ind c width next first (a ++ g ++ b) i → Gap c a g b → Wrapped c width next false b ls →
      Wrapped c width next first (a ++ g ++ b) ((i ++ a ++ if c.tilde then ['~'] else []) :: ls)

/-- The lines of a text; a newline at the end starts no further line. -/
def linesOf : Str → List Str
  | [] => []
  | d :: t =>
    if d = '\n' then [] :: linesOf t
    else match linesOf t with
      | [] => [[d]]
      | l :: ls => (d :: l) :: ls

/-- Quoted spaces are printed as spaces. -/
def unquote (s : Str) : Str := s.map fun c => if c = QSP then ' ' else c

/-- No piece of `n` characters without a break character, except in the code of a compressed proof; or the line may be broken anywhere. -/
def Short (c : Cfg) (n : Nat) (line : Str) : Prop :=
  c.bm = [] ∨ ∀ a w b, line = a ++ w ++ b → w.length = n → (∃ d ∈ w, d ∈ c.set) ∨ (c.bm.head? = some '&' ∧ ' ' ∈ c.set ∧ ' ' ∉ b.take (b.length - 3))

/-- How many characters of the start of the continuation lines are used -/
def cut (W0 : Int) (next : Str) : Int := min next.length (W0 - 4)

end MM.Long
