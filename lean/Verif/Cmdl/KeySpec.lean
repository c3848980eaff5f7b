import Verif.Cmdl.Model
/-!
# C77: the arguments of a command, specification
-/
namespace MM.Cmdl
open MM.Vstr

/-- The word in capital letters (C36: `edit(…, 32)`). -/
def capital (w : Str) : Str := w.map toUp

/-- What the user typed stands for the keyword `K` among the choices: it is `K`, or, if it is no keyword itself, an abbreviation of `K` and of no other choice. -/
def Stands (cs : List Str) (w K : Str) : Prop :=
  K ∈ cs ∧ (capital w = K ∨ (capital w ∉ cs ∧ capital w <+: K ∧ ∀ i j : Nat, (∃ c, cs[i]? = some c ∧ capital w <+: c) → (∃ c, cs[j]? = some c ∧ capital w <+: c) → i = j))

/-- The text of a list of choices with a default: `A|B|<A>`. -/
def menu (ks : List Str) (d : Str) : Str := (ks.map (· ++ ['|'])).flatten ++ ('<' :: d ++ ['>'])

end MM.Cmdl
