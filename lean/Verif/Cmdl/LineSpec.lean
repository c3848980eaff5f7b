import Verif.Cmdl.Model
/-!
# C76: the words of a command line, specification
-/
namespace MM.Cmdl
open MM.Vstr

/-- A character that is part of a word: no white space, no quote, and, outside TOOLS, not `/` or `=`. -/
def Plain (tools : Bool) (c : Char) : Prop := c ≠ ' ' ∧ c ≠ '\t' ∧ c ≠ '\n' ∧ c ≠ '\'' ∧ c ≠ '"' ∧ (tools = false → c ≠ '/' ∧ c ≠ '=')

/-- `Reads tools p l args`: the text `l`, whose first character is in column `p`, consists of the arguments `args`: words, single characters `/` and `=` (outside TOOLS),
and texts in quotes, without the quotes; the last quote may be missing. -/
inductive Reads (tools : Bool) : Nat → Str → List Arg → Prop
  | nil {p} : Reads tools p [] []
  | blank {p c l as} : c = ' ' ∨ c = '\t' ∨ c = '\n' → Reads tools (p + 1) l as → Reads tools p (c :: l) as
  | one {p c l as} : tools = false → c = '/' ∨ c = '=' → Reads tools (p + 1) l as → Reads tools p (c :: l) (⟨p, [c]⟩ :: as)
  | word {p w l as} : w ≠ [] → (∀ c ∈ w, Plain tools c) → (∀ c, l.head? = some c → ¬ Plain tools c) → Reads tools (p + w.length) l as → Reads tools p (w ++ l) (⟨p, w⟩ :: as)
  | quoted {p q w l as} : q = '\'' ∨ q = '"' → q ∉ w → Reads tools (p + w.length + 2) l as → Reads tools p (q :: (w ++ q :: l)) (⟨p + 1, w⟩ :: as)
  | unended {p q w} : q = '\'' ∨ q = '"' → q ∉ w → Reads tools p (q :: w) [⟨p + 1, w⟩]

end MM.Cmdl
