import Verif.Tree.Model
/-!
# Specification: proof trees and the stack machine of packed proofs

Written without reference to the modelled functions.
-/
namespace MM.Tree
open MM.Veri MM.Proof MM.Data

/-- The number of steps that step `x` consumes: the hypotheses of the assertion `x`; none for a hypothesis, an unknown step or a reference to an earlier step. -/
def arity (E : Env) (x : Int) : Nat := if 1 ≤ x ∧ ((E.stmt x.toNat).kind = .a ∨ (E.stmt x.toNat).kind = .p) then (E.stmt x.toNat).reqHyp.length else 0

/-- A possible proof step: `?`, a reference, or a labelled statement of the database. -/
def StepOk (E : Env) (x : Int) : Prop :=
  x = unk ∨ x ≤ -1000 ∨ (1 ≤ x ∧ x ≤ E.n ∧ ((E.stmt x.toNat).kind = .f ∨ (E.stmt x.toNat).kind = .e ∨ (E.stmt x.toNat).kind = .a ∨ (E.stmt x.toNat).kind = .p))

/-- Lists of proof trees: `snoc left x ch` has a last tree with root `x` and the subtrees `ch`. -/
inductive Forest where
  | nil
  | snoc (left : Forest) (x : Int) (ch : Forest)
deriving Repr, DecidableEq

namespace Forest

/-- The steps of the trees in the order of a proof: subtrees first, then the root. -/
def flat : Forest → List Int
  | nil => []
  | snoc l x ch => flat l ++ flat ch ++ [x]

/-- The number of trees. -/
def count : Forest → Nat
  | nil => 0
  | snoc l _ _ => count l + 1

/-- Every node has as many subtrees as its statement has hypotheses. -/
def Wf (E : Env) : Forest → Prop
  | nil => True
  | snoc l x ch => Wf E l ∧ Wf E ch ∧ StepOk E x ∧ arity E x = count ch

/-- A tree. -/
def tree (x : Int) (ch : Forest) : Forest := snoc nil x ch

/-- `Occurs f j path pre x ch`: the tree with root `x` and subtrees `ch` occurs in tree number `j` of `f`.  `path` has the ancestors of the node, the nearest one
first, each with the number of the slot (counted from 0) by which it is reached; `pre` has the steps before the tree. -/
inductive Occurs : Forest → Nat → List (Int × Nat) → List Int → Int → Forest → Prop
  | here (l x ch) : Occurs (snoc l x ch) (count l) [] (flat l) x ch
  | left {l j path pre y c} (x ch) : Occurs l j path pre y c → Occurs (snoc l x ch) j path pre y c
  | child {ch j path pre y c} (l x) : Occurs ch j path pre y c → Occurs (snoc l x ch) (count l) (path ++ [(x, j)]) (flat l ++ pre) y c

end Forest

/-- One step of the machine that gives packed proofs their meaning.  The stack and the record of the steps done hold complete proofs without references.
A statement takes its subproofs from the stack; a reference to step `k` repeats the proof of step `k`. -/
def expandStep (E : Env) (st : List (List Int) × List (List Int)) (x : Int) : Option (List (List Int) × List (List Int)) :=
  if x ≤ -1000 then
    match st.2[(-1000 - x).toNat]? with
    | some b => some (b :: st.1, st.2 ++ [b])
    | none => none
  else if arity E x ≤ st.1.length then
    let b := (st.1.take (arity E x)).reverse.flatten ++ [x]
    some (b :: st.1.drop (arity E x), st.2 ++ [b])
  else none

/-- The machine on a list of steps. -/
def expandRun (E : Env) : List Int → List (List Int) × List (List Int) → Option (List (List Int) × List (List Int))
  | [], st => some st
  | x :: xs, st => (expandStep E st x).bind (expandRun E xs)

/-- The packed proof `q` stands for the proof `p` (without references). -/
def Expands (E : Env) (q p : List Int) : Prop := ∃ rec, expandRun E q ([], []) = some ([p], rec)

/-- A normal proof: proper steps, no references, and the steps form one tree. -/
def NormalProof (E : Env) (p : List Int) : Prop := ∃ x ch, (Forest.tree x ch).Wf E ∧ (Forest.tree x ch).flat = p ∧ ∀ y ∈ p, -1000 < y

/-- References in a packed proof are to earlier steps that are assertions with at least one hypothesis. -/
def RefsOk (E : Env) (q : List Int) : Prop := ∀ (k : Nat) (x : Int), q[k]? = some x → x ≤ -1000 → ∃ (i : Nat) (y : Int), x = -1000 - (i : Int) ∧ i < k ∧ q[i]? = some y ∧ 1 ≤ arity E y

end MM.Tree
