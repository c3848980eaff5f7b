import Verif.Extr.Tau
import Verif.Proof.CompProps
/-!
# Proofs in the extract

A correct proof of the source, with the numbers of statements and tokens replaced by those of the extract, is a correct proof of the extract.
-/
namespace MM.Extr
open MM.Veri MM.Pars MM.Spec MM.Proof MM.Trace

section
variable {src : List Src} {s : PState}

/-- A mandatory variable occurs in a mandatory hypothesis. -/
theorem mand_in_hyp (h : Accepted src s) {i v : Nat} (hi : IsAssert src i) (hm : Mandatory (isVarOf src) (kinds src) s.math i v) :
    ∃ f ∈ (s.stmt i).reqHyp, v ∈ s.math f := by
  have hR := (C41_read_accepts_exactly src).mp ⟨s, h⟩
  have hn := nested_of hR
  obtain ⟨i1, i2⟩ := assert_bound hi
  have hnm := mand_name h hn hi hm
  have hv : ∃ m, (m = i ∨ (Active (kinds src) m i ∧ kindAt (kinds src) m = .e)) ∧ nameOf (declToks src) v ∈ symsAt src m := by
    rcases hnm.2 with e | ⟨j, a, b, c⟩
    · exact ⟨i, Or.inl rfl, e⟩
    · exact ⟨j, Or.inr ⟨a, b⟩, c⟩
  obtain ⟨m, m1, m2⟩ := hv
  obtain ⟨f, _, hf⟩ := (hR.stmt i i1 i2).typed hi m m1 _ m2 hnm.1
  have hfr := ffor_hyp h hn hi i2 hnm hf
  refine ⟨f, hfr, ?_⟩
  have hmem : nameOf (declToks src) v ∈ symsAt src f := List.mem_of_getElem? hf.2.2
  obtain ⟨t, ht, e⟩ := (tok_of_name h (Or.inl (by rw [hf.2.1]; simp))).mp hmem
  obtain ⟨hl, _, _⟩ := mandatory_decl h hn hi hm
  have hva : TokActive (kinds src) s.math i v := by
    rcases hm.2 with e | ⟨j, a, b, c⟩
    · exact tokActive_of h hn (Or.inl rfl) (by rcases hi with e | e <;> rw [e] <;> simp) e
    · exact tokActive_of h hn (Or.inr a) (by rw [b]; simp) c
  have := name_uniq h i1 (by omega) (tokActive_of h hn (Or.inr hf.1) (by rw [hf.2.1]; simp) ht) hva (by rw [e, nameOf_some hl])
  subst this
  exact ht

variable {s' : PState} {keep : Nat → Bool} {r : List Name × List Name}

/-- What the assertions `A` of the source and `A'` of the extract have to do with each other, with the map `f` of tokens: `isVar` is the one of the source. -/
structure Same (isVar : Nat → Bool) (U : Nat → Prop) (f : Nat → Nat) (A A' : Assertion) : Prop where
  concl : A'.concl = A.concl.map f
  hyps : A'.hyps = A.hyps.map (List.map f)
  useC : ∀ t ∈ A.concl, U t
  useH : ∀ e ∈ A.hyps, ∀ t ∈ e, U t
  cover : ∀ t ∈ A.concl, isVar t = true → ∃ e ∈ A.hyps, t ∈ e
  dv : ∀ x' y', (x', y') ∈ A'.dv → ∃ x y, x' = f x ∧ y' = f y ∧ isVar x = true ∧ isVar y = true ∧ (∃ e ∈ A.hyps, x ∈ e) ∧ (∃ e ∈ A.hyps, y ∈ e) ∧ ((x, y) ∈ A.dv ∨ (y, x) ∈ A.dv)

theorem assert_tau (h : Accepted src s) (h' : Accepted (ext src keep r) s') (hK : Kept src keep) {j : Nat} (kj : keep j = true) {A : Assertion}
    (hA : IsAssertion (isVarOf src) (kinds src) s.math j A) :
    ∃ A', IsAssertion (isVarOf (ext src keep r)) (kinds (ext src keep r)) s'.math (pos keep j) A' ∧ Same (isVarOf src) (Used src keep) (tau src s s' keep) A A' := by
  have hR := (C41_read_accepts_exactly src).mp ⟨s, h⟩
  have hn := nested_of hR
  have hj : IsAssert src j := hA.1
  obtain ⟨j1, j2⟩ := assert_bound hj
  have hj' : IsAssert (ext src keep r) (pos keep j) := by
    unfold IsAssert
    rw [kind_ext j1 j2 kj]; exact hj
  have hfr := isAssertion_frame h' hj'
  refine ⟨_, hfr, ?_⟩
  obtain ⟨_, e2, e3⟩ := isAssertion_unique hA (isAssertion_frame h hj)
  have e1 : A.hyps = (s.stmt j).reqHyp.map s.math := by
    obtain ⟨e1, _⟩ := isAssertion_unique hA (isAssertion_frame h hj)
    rw [e1]; rfl
  have ec : A.concl = s.math j := hA.2.1
  have hyp : (frameOf (toDb (ext src keep r) s') (pos keep j)).hyps = (s'.stmt (pos keep j)).reqHyp.map s'.math := rfl
  have hcl : (frameOf (toDb (ext src keep r) s') (pos keep j)).concl = s'.math (pos keep j) := rfl
  have hkept : ∀ k ∈ (s.stmt j).reqHyp, keep k = true ∧ kindAt (kinds src) k ∈ [Kind.d, .e, .f, .a, .p] := by
    intro k hk
    rcases (hyp_name h hn hj).mp hk with ⟨a, b⟩ | ⟨nm, a, b⟩
    · exact ⟨hK.ess j kj hj k a b, by rw [b]; simp⟩
    · exact ⟨hK.flt j kj hj nm b k a, by rw [a.2.1]; simp⟩
  obtain ⟨u, eu⟩ := math_tau h h' hK kj (by rcases hj with e | e <;> rw [e] <;> simp)
  have hcov : ∀ v, Mandatory (isVarOf src) (kinds src) s.math j v → ∃ e ∈ A.hyps, v ∈ e := by
    intro v hv
    obtain ⟨f, f1, f2⟩ := mand_in_hyp h hj hv
    exact ⟨s.math f, by rw [e1]; exact List.mem_map_of_mem f1, f2⟩
  refine ⟨by rw [hcl, ec, eu], ?_, fun t ht => u t (by rwa [ec] at ht), ?_, fun t ht hv => hcov t ⟨hv, Or.inl (by rwa [ec] at ht)⟩, ?_⟩
  · rw [hyp, e1, hyps_ext h h' hK hj kj, List.map_map, List.map_map]
    apply List.map_congr_left
    intro k hk
    exact (math_tau h h' hK (hkept k hk).1 (hkept k hk).2).2
  · intro e he t ht
    rw [e1] at he
    obtain ⟨k, hk, rfl⟩ := List.mem_map.mp he
    exact (math_tau h h' hK (hkept k hk).1 (hkept k hk).2).1 t ht
  · intro x' y' hxy
    obtain ⟨hlt, mx, my, hd⟩ := (hfr.2.2.2 x' y').mp hxy
    obtain ⟨x, x1, x2, rfl⟩ := mand_from h h' hK hj kj mx
    obtain ⟨y, y1, y2, rfl⟩ := mand_from h h' hK hj kj my
    have hd' := dv_from h h' hK j1 j2 kj x2 y2 hd
    refine ⟨x, y, rfl, rfl, x1.1, y1.1, hcov x x1, hcov y y1, ?_⟩
    rcases Nat.lt_trichotomy x y with c | c | c
    · exact Or.inl ((hA.2.2.2 x y).mpr ⟨c, x1, y1, hd'⟩)
    · subst c; omega
    · obtain ⟨d, q1, q2, q3, q4⟩ := hd'
      exact Or.inr ((hA.2.2.2 y x).mpr ⟨c, y1, x1, ⟨d, q1, q2, q4, q3⟩⟩)

end

section rename
variable {isVar isVar' : Nat → Bool} {U : Nat → Prop} {f g : Nat → Nat}

/-- A substitution carried over -/
def carry (f g : Nat → Nat) (σ : Nat → List Nat) : Nat → List Nat := fun t => (σ (g t)).map f

theorem subst_carry (hv : ∀ t, U t → isVar' (f t) = isVar t) (hg : ∀ t, U t → g (f t) = t) (σ : Nat → List Nat) : ∀ {m : List Nat}, (∀ t ∈ m, U t) →
    subst isVar' (carry f g σ) (m.map f) = (subst isVar σ m).map f
  | [], _ => rfl
  | a :: m, h => by
    rw [List.map_cons, subst_cons, subst_cons, List.map_append, subst_carry hv hg σ (fun t ht => h t (by simp [ht])), hv a (h a (by simp))]
    congr 1
    cases isVar a
    · rfl
    · simp only [if_true]
      unfold carry
      rw [hg a (h a (by simp))]

theorem mem_subst {σ : Nat → List Nat} {m : List Nat} {t x : Nat} (hx : x ∈ m) (hv : isVar x = true) (ht : t ∈ σ x) : t ∈ subst isVar σ m := by
  unfold subst
  rw [List.mem_flatMap]
  exact ⟨x, hx, by rw [if_pos hv]; exact ht⟩

theorem use_subst {σ : Nat → List Nat} {m : List Nat} (h1 : ∀ t ∈ m, U t) (h2 : ∀ x ∈ m, isVar x = true → ∀ t ∈ σ x, U t) : ∀ t ∈ subst isVar σ m, U t := by
  intro t ht
  unfold subst at ht
  rw [List.mem_flatMap] at ht
  obtain ⟨x, a, b⟩ := ht
  cases hx : isVar x <;> rw [hx] at b
  · simp at b; subst b; exact h1 _ a
  · exact h2 x a hx t (by simpa using b)

/-- Steps that correspond -/
inductive SameStep (isVar : Nat → Bool) (U : Nat → Prop) (f : Nat → Nat) : Step → Step → Prop
  | hyp (e) : (∀ t ∈ e, U t) → SameStep isVar U f (.hyp e) (.hyp (e.map f))
  | use (A A') : Same isVar U f A A' → SameStep isVar U f (.use A) (.use A')
  | back (i) : SameStep isVar U f (.back i) (.back i)

theorem forall2_snoc {α β : Type} {R : α → β → Prop} {l : List α} {a : α} {m : List β} (h : List.Forall₂ R (l ++ [a]) m) :
    ∃ m' b, m = m' ++ [b] ∧ List.Forall₂ R l m' ∧ R a b := by
  induction l generalizing m with
  | nil =>
    cases h with
    | cons h1 h2 => cases h2; exact ⟨[], _, rfl, .nil, h1⟩
  | cons x l ih =>
    cases h with
    | cons h1 h2 =>
      obtain ⟨m', b, rfl, h3, h4⟩ := ih h2
      exact ⟨_ :: m', b, rfl, .cons h1 h3, h4⟩

/-- The proof carried over is a proof. -/
theorem rpn_carry {dv dv' : Nat → Nat → Prop} (hv : ∀ t, U t → isVar' (f t) = isVar t) (hg : ∀ t, U t → g (f t) = t)
    (hsym : ∀ a b, dv a b → dv b a) (hdv : ∀ a b, a ≠ b → dv a b → dv' (f a) (f b)) {steps : List Step} {hist stack : List (List Nat)}
    (h : RPN isVar dv steps hist stack) : ∀ {steps' : List Step}, List.Forall₂ (SameStep isVar U f) steps steps' →
      RPN isVar' dv' steps' (hist.map (List.map f)) (stack.map (List.map f)) ∧ (∀ e ∈ hist, ∀ t ∈ e, U t) ∧ (∀ e ∈ stack, ∀ t ∈ e, U t) := by
  induction h with
  | nil =>
    intro steps' h2
    cases h2
    exact ⟨.nil, by simp, by simp⟩
  | hyp e _ ih =>
    intro steps' h2
    obtain ⟨m, b, rfl, h3, h4⟩ := forall2_snoc h2
    obtain ⟨i1, i2, i3⟩ := ih h3
    cases h4 with
    | hyp _ hu =>
      refine ⟨?_, ?_, ?_⟩
      · rw [List.map_append, List.map_cons]
        exact .hyp _ i1
      · intro x hx
        rcases List.mem_append.mp hx with hx | hx
        · exact i2 x hx
        · simp at hx; subst hx; exact hu
      · intro x hx
        rcases List.mem_cons.mp hx with hx | hx
        · subst hx; exact hu
        · exact i3 x hx
  | back i e _ hi ih =>
    intro steps' h2
    obtain ⟨m, b, rfl, h3, h4⟩ := forall2_snoc h2
    obtain ⟨i1, i2, i3⟩ := ih h3
    have hu := i2 e (List.mem_of_getElem? hi)
    cases h4
    refine ⟨?_, ?_, ?_⟩
    · rw [List.map_append, List.map_cons]
      exact .back i _ i1 (by rw [List.getElem?_map, hi]; rfl)
    · intro x hx
      rcases List.mem_append.mp hx with hx | hx
      · exact i2 x hx
      · simp at hx; subst hx; exact hu
    · intro x hx
      rcases List.mem_cons.mp hx with hx | hx
      · subst hx; exact hu
      · exact i3 x hx
  | use A σ _ hd ih =>
    intro steps' h2
    obtain ⟨m, b, rfl, h3, h4⟩ := forall2_snoc h2
    obtain ⟨i1, i2, i3⟩ := ih h3
    cases h4 with
    | use _ A' hS =>
      have hσ : ∀ x, isVar x = true → (∃ e ∈ A.hyps, x ∈ e) → ∀ t ∈ σ x, U t := by
        rintro x hx ⟨e, he, hxe⟩ t ht
        exact i3 (subst isVar σ e) (List.mem_append.mpr (Or.inl (List.mem_reverse.mpr (List.mem_map_of_mem he)))) t (mem_subst hxe hx ht)
      have hu : ∀ t ∈ subst isVar σ A.concl, U t := use_subst hS.useC (fun x hx hvx => hσ x hvx (hS.cover x hx hvx))
      have ec : subst isVar' (carry f g σ) A'.concl = (subst isVar σ A.concl).map f := by rw [hS.concl]; exact subst_carry hv hg σ hS.useC
      refine ⟨?_, ?_, ?_⟩
      · rw [List.map_append, List.map_cons, List.map_cons, ← ec]
        refine .use A' (carry f g σ) ?_ ?_
        · have : A'.hyps.map (subst isVar' (carry f g σ)) = (A.hyps.map (subst isVar σ)).map (List.map f) := by
            rw [hS.hyps, List.map_map, List.map_map]
            apply List.map_congr_left
            intro e he
            exact subst_carry hv hg σ (hS.useH e he)
          rw [this, ← List.map_reverse, ← List.map_append]
          exact i1
        · intro x' y' hxy a' ha' b' hb' va vb
          obtain ⟨x, y, rfl, rfl, vx, vy, hx, hy, hor⟩ := hS.dv x' y' hxy
          have ux : U x := by obtain ⟨e, he, hxe⟩ := hx; exact hS.useH e he x hxe
          have uy : U y := by obtain ⟨e, he, hxe⟩ := hy; exact hS.useH e he y hxe
          unfold carry at ha' hb'
          rw [hg x ux] at ha'
          rw [hg y uy] at hb'
          obtain ⟨a, ha, rfl⟩ := List.mem_map.mp ha'
          obtain ⟨b, hb, rfl⟩ := List.mem_map.mp hb'
          have ua := hσ x vx hx a ha
          have ub := hσ y vy hy b hb
          rw [hv a ua] at va
          rw [hv b ub] at vb
          have key : a ≠ b ∧ dv a b := by
            rcases hor with c | c
            · exact hd x y c a ha b hb va vb
            · have := hd y x c b hb a ha vb va
              exact ⟨fun e => this.1 e.symm, hsym _ _ this.2⟩
          refine ⟨fun e => key.1 ?_, hdv a b key.1 key.2⟩
          rw [← hg a ua, e, hg b ub]
      · intro x hx
        rcases List.mem_append.mp hx with hx | hx
        · exact i2 x hx
        · simp at hx; subst hx; exact hu
      · intro x hx
        rcases List.mem_cons.mp hx with hx | hx
        · subst hx; exact hu
        · exact i3 x (List.mem_append.mpr (Or.inr hx))

end rename
end MM.Extr
