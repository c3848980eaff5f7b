import Verif.Tree.Unsquish
/-!
# Concrete cases of C21, C33, C34
-/
namespace MM.Tree
open MM.Veri MM.Proof MM.Data Forest

/-- `$f` 1, `$f` 2, `$e` 3, assertion 4 with the hypotheses 1 and 2, assertion 5 with the hypotheses 1 and 3, theorem 6. -/
def exE : Env where
  isVar := fun _ => false
  sep := 0
  stmt := fun i => match i with
    | 1 => ({ kind := .f } : Stmt)
    | 2 => { kind := .f }
    | 3 => { kind := .e }
    | 4 => { kind := .a, reqHyp := [1, 2] }
    | 5 => { kind := .a, reqHyp := [1, 3] }
    | 6 => { kind := .p }
    | _ => {}
  lab := fun _ => []
  n := 6
  look := fun _ _ => none

/-- 4 applied to 1 and 2 -/
def ex12 : Forest := snoc (snoc nil 1 nil) 2 nil
/-- 4 applied to two copies of it -/
def exIn : Forest := snoc (snoc nil 4 ex12) 4 ex12
/-- 5 applied to 4(1,2) and to a tree with the essential step -/
def exCh : Forest := snoc (snoc nil 4 exIn) 5 (snoc (snoc nil 4 exIn) 3 nil)

theorem ex_flat : (tree 5 exCh).flat = [1, 2, 4, 1, 2, 4, 4, 1, 2, 4, 1, 2, 4, 4, 3, 5, 5] := by decide

theorem ex_wf : (tree 5 exCh).Wf exE := by
  simp [tree, exCh, exIn, ex12, Wf, StepOk, arity, exE, count]

theorem ex_hyps : HypsIn exE := by
  intro i _ h hm
  simp only [exE] at hm ⊢
  split at hm <;> simp at hm <;> omega

theorem ex_normal : NormalProof exE (tree 5 exCh).flat := ⟨5, exCh, ex_wf, rfl, by rw [ex_flat]; decide⟩

/-- The packed form of the example: the second `4 (1, 2)` and the second `4 (4 (1, 2), 4 (1, 2))` become references. -/
example : squish exE [1, 2, 4, 1, 2, 4, 4, 1, 2, 4, 1, 2, 4, 4, 3, 5, 5] = .val [1, 2, 4, -1002, 4, -1004, 3, 5, 5] := by decide +kernel

example : unsquish exE 30 [1, 2, 4, -1002, 4, -1004, 3, 5, 5] = .val [1, 2, 4, 1, 2, 4, 4, 1, 2, 4, 1, 2, 4, 4, 3, 5, 5] := by decide +kernel

example : ∃ q, squish exE (tree 5 exCh).flat = .val q ∧ q.length ≤ 17 ∧ unsquish exE 30 q = .val (tree 5 exCh).flat :=
  C21_pack_unpack ex_normal (by rw [ex_flat]; decide)

example : ∃ q rec, squish exE (tree 5 exCh).flat = .val q ∧ expandRun exE q ([], []) = some ([(tree 5 exCh).flat], rec) ∧
    ∀ (i j : Nat) (y z : Int), i < j → q[i]? = some y → q[j]? = some z → 1 ≤ arity exE y → 1 ≤ arity exE z → rec[i]? ≠ rec[j]? :=
  C21_no_repeated_subproof ex_normal

example : indentation exE [1, 2, 4, 1, 2, 4, 4, 1, 2, 4, 1, 2, 4, 4, 3, 5, 5] 0 = .val [3, 3, 2, 3, 3, 2, 1, 4, 4, 3, 4, 4, 3, 2, 2, 1, 0] := by decide +kernel

example : essential exE [1, 2, 4, 1, 2, 4, 4, 1, 2, 4, 1, 2, 4, 4, 3, 5, 5] = .val [0, 0, 0, 0, 0, 0, 0, 0, 0, 0, 0, 0, 0, 0, 1, 1, 1] := by decide +kernel

example : targetHyp exE [1, 2, 4, 1, 2, 4, 4, 1, 2, 4, 1, 2, 4, 4, 3, 5, 5] 6 = .val [1, 2, 1, 1, 2, 2, 1, 1, 2, 1, 1, 2, 2, 1, 3, 3, 6] := by decide +kernel

/-- The step with index 2 is a node at depth 2, reached through the first slot of `4` and the first slot of `5`. -/
theorem ex_occurs : Occurs (tree 5 exCh) 0 [(4, 0), (5, 0)] [] 4 ex12 :=
  .child nil 5 (.left 5 _ (.child nil 4 (.left 4 ex12 (.here nil 4 ex12))))

example : subLen exE (tree 5 exCh).flat 2 = .val 3 := (C33_subproof_is_subtree ex_wf ex_occurs).1

end MM.Tree
