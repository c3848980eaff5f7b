import Verif.Lex.Read
import Mathlib.Data.List.Sort
/-!
# Concrete cases for C16, C23, C24 and C42
-/
namespace MM.Lex
open MM.Veri MM.Pars MM.Proof MM.Spec

theorem leName_total : ∀ (a b : Name), leName a b = true ∨ leName b a = true := by
  intro a
  induction a with
  | nil => intro b; simp [leName]
  | cons c a ih =>
    intro b
    cases b with
    | nil => simp [leName]
    | cons d b =>
      simp only [leName, Bool.or_eq_true, Bool.and_eq_true, decide_eq_true_eq]
      rcases Nat.lt_trichotomy c.toNat d.toNat with h | h | h
      · exact Or.inl (Or.inl h)
      · have hc : c = d := Char.ext (UInt32.toNat_inj.1 h)
        subst hc
        rcases ih b with h | h <;> simp [h]
      · exact Or.inr (Or.inl h)

theorem leName_trans : ∀ (a b c : Name), leName a b = true → leName b c = true → leName a c = true := by
  intro a
  induction a with
  | nil => intro b c _ _; simp [leName]
  | cons x a ih =>
    intro b c h1 h2
    cases b with
    | nil => simp [leName] at h1
    | cons y b =>
      cases c with
      | nil => simp [leName] at h2
      | cons z c =>
        simp only [leName, Bool.or_eq_true, Bool.and_eq_true, decide_eq_true_eq] at h1 h2 ⊢
        rcases h1 with h1 | ⟨rfl, h1⟩
        · rcases h2 with h2 | ⟨rfl, h2⟩
          · exact Or.inl (by omega)
          · exact Or.inl h1
        · rcases h2 with h2 | ⟨rfl, h2⟩
          · exact Or.inl h2
          · exact Or.inr ⟨rfl, ih _ _ h1 h2⟩

/-- A sort as `SortOk` assumes of `qsort` exists. -/
theorem sortOk_mergeSort : SortOk (fun l => l.mergeSort fun a b => leName a.1 b.1) := by
  intro l
  refine ⟨List.mergeSort_perm _ _, ?_⟩
  have := List.pairwise_mergeSort (le := fun (a b : Name × Nat) => leName a.1 b.1) (fun a b c => leName_trans a.1 b.1 c.1) (fun a b => by
    have := leName_total a.1 b.1; simpa using this) l
  exact this

/-- A sort by insertion, which evaluates in the kernel. -/
def insSort : List (Name × Nat) → List (Name × Nat) := List.insertionSort fun a b => leName a.1 b.1 = true

theorem sortOk_insSort : SortOk insSort := by
  intro l
  have : Std.Total (fun (a b : Name × Nat) => leName a.1 b.1 = true) := ⟨fun a b => leName_total a.1 b.1⟩
  have : IsTrans (Name × Nat) (fun a b => leName a.1 b.1 = true) := ⟨fun a b c => leName_trans a.1 b.1 c.1⟩
  exact ⟨List.perm_insertionSort _ l, List.pairwise_insertionSort _ l⟩

/-- A source with comments, a scope, a `$d`, a hypothesis, an axiom and a theorem. -/
def demoText : List Char :=
  "$( A comment. $)\n$c wff |- -> $.\n$v p q $.\nwp $f wff p $. wq $f wff q $.\n${ $d p q $.\n  min $e |- p $( inner $) $.\n  ax $a |- -> p q $.\n  th $p |- -> p q $= wp wq $( here $) min ax $.\n$}\n".toList

example : (match readSource insSort demoText with | .val o => decide (o.errs = 0) && decide (o.src.length = 10) | _ => false) = true := by
  decide +kernel

/-- C42 applies to `demoText`; the theorem is stored with its label, its symbols and its proof text. -/
example : (match readSource insSort demoText with
    | .val o => (o.src.map fun x => (String.ofList x.label, x.syms.map String.ofList, String.ofList x.proof))[8]? ==
        some ("th", ["|-", "->", "p", "q"], " wp wq $( here $) min ax ")
    | _ => false) = true := by decide +kernel

/-- Two statements with the same label: both are reported (C16). -/
example : (match readSource insSort "$c a $. x $a a $. y $a a $. x $a a $.".toList with
    | .val o => decide (o.errs = 2) | _ => false) = true := by decide +kernel

example : (let k := parseKeywords "$c a $. x $a a $. y $a a $. x $a a $.".toList
    match parseLabels insSort k.stmts k.start with
    | .val l => decide (l.dups = [2, 4]) && decide (l.errs = 2) | _ => false) = true := by decide +kernel

/-- C23: a section with a comment. -/
example : Blank " a $( x $) b ".toList " a   b ".toList ∧ Stop "$.".toList := by
  constructor
  · have c : CommentText " x ".toList := by
      constructor
      · decide +kernel
      · decide +kernel
    have h0 : Blank " b ".toList " b ".toList := .char _ (by decide) (.char _ (by decide) (.char _ (by decide) .nil))
    exact .char _ (by decide) (.char _ (by decide) (.char _ (by decide) (.comment c h0)))
  · exact Or.inr ⟨'.', [], rfl, by decide, by decide, by decide, by decide⟩

example : (match proofToks "( a:b )=?c $.".toList with | .val l => l.map String.ofList == ["(", "a", ":", "b", ")", "=", "?", "c"] | _ => false) = true := by
  decide +kernel

end MM.Lex
