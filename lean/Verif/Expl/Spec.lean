import Verif.Tree.Spec
import Verif.Proof.Items
/-!
# Specification of the `/EXPLICIT` proof format

Written without reference to the modelled functions (except for `Item`, the form of a step in a normal proof).  A step is written
`target=label`; the target names the hypothesis that the step is for.  `xmeaning` is a stack machine for such proofs: every entry of the stack has a
target, and an assertion gives each of its hypotheses the entry whose target is the label of the hypothesis, whatever the order of the entries.
-/
namespace MM.Expl
open MM.Veri MM.Pars MM.Proof MM.Tree

/-- A step of an explicit proof: what a step of a normal proof has, and a target. -/
structure XItem where
  item : Item
  tgt : Name

/-- The text of a sequence of steps: `label1 : label2 : … target = token`. -/
def xtext (xs : List XItem) : List Name := xs.flatMap fun x => declText x.item.labels ++ [x.tgt, ['='], x.item.tok]

/-- The proof that is found under the target `nm`. -/
def pick (es : List (Name × List Int)) (nm : Name) : Option (List Int) := (es.find? fun e => e.1 == nm).map fun e => e.2

/-- The proofs of the hypotheses `hs`, each one found by its label. -/
def chosen (E : Env) (es : List (Name × List Int)) : List Nat → Option (List Int)
  | [] => some []
  | h :: hs => (pick es (E.lab h)).bind fun a => (chosen E es hs).bind fun b => some (a ++ b)

/-- The hypotheses of a step: those of an assertion, none otherwise. -/
def hyps (E : Env) (x : Int) : List Nat := if arity E x = 0 then [] else (E.stmt x.toNat).reqHyp

/-- One step of the machine: the stack (top first) has targets and proofs without references, the record has the proofs of the steps done. -/
def xstep (E : Env) (st : List (Name × List Int) × List (List Int)) (s : Name × Int) : Option (List (Name × List Int) × List (List Int)) :=
  if s.2 ≤ -1000 then (st.2[(-1000 - s.2).toNat]?).bind fun b => some ((s.1, b) :: st.1, st.2 ++ [b])
  else if arity E s.2 ≤ st.1.length then
    (chosen E (st.1.take (arity E s.2)).reverse (hyps E s.2)).bind fun b =>
      some ((s.1, b ++ [s.2]) :: st.1.drop (arity E s.2), st.2 ++ [b ++ [s.2]])
  else none

/-- The machine on a list of steps. -/
def xrun (E : Env) : List (Name × Int) → List (Name × List Int) × List (List Int) → Option (List (Name × List Int) × List (List Int))
  | [], st => some st
  | s :: ss, st => (xstep E st s).bind (xrun E ss)

/-- The explicit proof with the steps `q` (target and step) stands for the proof `l` (without references, hypotheses in the order of the database). -/
def Explicit (E : Env) (q : List (Name × Int)) (l : List Int) : Prop := ∃ (t : Name) (rec : List (List Int)), xrun E q ([], []) = some ([(t, l)], rec)

end MM.Expl
