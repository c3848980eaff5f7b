import Verif.Spec.Unify
/-!
# Specification: Metamath derivations

Written from the Metamath language definition (Metamath book, section 4.2 and appendix C), without
reference to the program.
-/
namespace MM.Spec

/-- An assertion with its mandatory frame: mandatory `$d` pairs, mandatory hypotheses (`$f` and
`$e`) in order, and the asserted math string. -/
structure Assertion where
  dv : List (Nat × Nat)
  hyps : List (List Nat)
  concl : List Nat

/-- The substitution respects the disjoint-variable conditions of `A` relative to those (`dv`) of the
statement being proved. -/
def DvOk (isVar : Nat → Bool) (dv : Nat → Nat → Prop) (A : Assertion) (σ : Nat → List Nat) : Prop :=
  ∀ x y, (x, y) ∈ A.dv → ∀ a ∈ σ x, ∀ b ∈ σ y, isVar a = true → isVar b = true → a ≠ b ∧ dv a b

/-- Strings derivable from the hypotheses `H` using the assertions `Ax`, under the
disjoint-variable declarations `dv`. -/
inductive Derivable (isVar : Nat → Bool) (H : List Nat → Prop) (Ax : Assertion → Prop)
    (dv : Nat → Nat → Prop) : List Nat → Prop
  | hyp (e) : H e → Derivable isVar H Ax dv e
  | app (A σ) : Ax A → DvOk isVar dv A σ →
      (∀ h ∈ A.hyps, Derivable isVar H Ax dv (subst isVar σ h)) →
      Derivable isVar H Ax dv (subst isVar σ A.concl)

/-- One step of a (possibly packed) RPN proof. -/
inductive Step where
  /-- push the hypothesis `e` -/
  | hyp (e : List Nat)
  /-- apply an assertion to the top of the stack -/
  | use (A : Assertion)
  /-- push again the result of the (0-based) earlier step `i` -/
  | back (i : Nat)

/-- `RPN steps hist stack`: processing `steps` from an empty stack is correct, gives the results
`hist` step by step and leaves `stack` (top first). -/
inductive RPN (isVar : Nat → Bool) (dv : Nat → Nat → Prop) :
    List Step → List (List Nat) → List (List Nat) → Prop
  | nil : RPN isVar dv [] [] []
  | hyp {s h st} (e) : RPN isVar dv s h st → RPN isVar dv (s ++ [.hyp e]) (h ++ [e]) (e :: st)
  | back {s h st} (i e) : RPN isVar dv s h st → h[i]? = some e →
      RPN isVar dv (s ++ [.back i]) (h ++ [e]) (e :: st)
  | use {s h st} (A σ) : RPN isVar dv s h ((A.hyps.map (subst isVar σ)).reverse ++ st) →
      DvOk isVar dv A σ →
      RPN isVar dv (s ++ [.use A]) (h ++ [subst isVar σ A.concl]) (subst isVar σ A.concl :: st)

/-- `steps` is a correct proof of `f`. -/
def Proves (isVar : Nat → Bool) (dv : Nat → Nat → Prop) (steps : List Step) (f : List Nat) : Prop :=
  ∃ hist, RPN isVar dv steps hist [f]

theorem rpn_derivable {isVar H Ax dv steps hist stack} (h : RPN isVar dv steps hist stack)
    (hH : ∀ e, Step.hyp e ∈ steps → H e) (hA : ∀ A, Step.use A ∈ steps → Ax A) :
    (∀ e ∈ hist, Derivable isVar H Ax dv e) ∧ (∀ e ∈ stack, Derivable isVar H Ax dv e) := by
  induction h with
  | nil => simp
  | hyp e _ ih =>
    obtain ⟨h1, h2⟩ := ih (fun e he => hH e (by simp [he])) (fun A hm => hA A (by simp [hm]))
    have hd : Derivable isVar H Ax dv e := .hyp e (hH e (by simp))
    constructor <;> intro x hx <;> simp at hx
    · rcases hx with hx | rfl
      · exact h1 x hx
      · exact hd
    · rcases hx with rfl | hx
      · exact hd
      · exact h2 x hx
  | back i e _ hi ih =>
    obtain ⟨h1, h2⟩ := ih (fun e he => hH e (by simp [he])) (fun A hm => hA A (by simp [hm]))
    have hd : Derivable isVar H Ax dv e := h1 e (List.mem_of_getElem? hi)
    constructor <;> intro x hx <;> simp at hx
    · rcases hx with hx | rfl
      · exact h1 x hx
      · exact hd
    · rcases hx with rfl | hx
      · exact hd
      · exact h2 x hx
  | use A σ _ hdv ih =>
    obtain ⟨h1, h2⟩ := ih (fun e he => hH e (by simp [he])) (fun A hm => hA A (by simp [hm]))
    have hd : Derivable isVar H Ax dv (subst isVar σ A.concl) := by
      refine .app A σ (hA A (by simp)) hdv (fun h hh => h2 _ ?_)
      simp only [List.mem_append, List.mem_reverse, List.mem_map]
      exact Or.inl ⟨h, hh, rfl⟩
    constructor <;> intro x hx <;> simp at hx
    · rcases hx with hx | rfl
      · exact h1 x hx
      · exact hd
    · rcases hx with rfl | hx
      · exact hd
      · exact h2 x (by simp [hx])

/-- A correct proof establishes derivability. -/
theorem Proves.derivable {isVar H Ax dv steps f} (h : Proves isVar dv steps f)
    (hH : ∀ e, Step.hyp e ∈ steps → H e) (hA : ∀ A, Step.use A ∈ steps → Ax A) :
    Derivable isVar H Ax dv f := by
  obtain ⟨hist, h⟩ := h
  exact (rpn_derivable h hH hA).2 f (by simp)

end MM.Spec
