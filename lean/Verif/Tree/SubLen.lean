import Verif.Tree.Spec
/-!
# `nmbrGetSubproofLen` follows the proof tree (C33)
-/
namespace MM.Tree
open MM.Veri MM.Proof MM.Data Forest

variable {E : Env}

theorem rdN_append (a b : List Int) (x : Int) : rdN (a ++ x :: b) a.length = .val x := by
  unfold rdN
  rw [if_neg (by omega), if_pos (by simp)]
  simp [List.getD]

theorem arity_hyp {x : Int} (h : x < 0 ∨ (E.stmt x.toNat).kind = .f ∨ (E.stmt x.toNat).kind = .e) : arity E x = 0 := by
  unfold arity
  rw [if_neg]
  rintro ⟨h1, h2⟩
  rcases h with h | h | h
  · omega
  · rw [h] at h2; rcases h2 with h2 | h2 <;> cases h2
  · rw [h] at h2; rcases h2 with h2 | h2 <;> cases h2

theorem arity_ap {x : Int} (hx : StepOk E x) (h0 : ¬ x < 0) (h : ¬ ((E.stmt x.toNat).kind = .f ∨ (E.stmt x.toNat).kind = .e)) :
    1 ≤ x ∧ x ≤ E.n ∧ ((E.stmt x.toNat).kind = .a ∨ (E.stmt x.toNat).kind = .p) ∧ arity E x = (E.stmt x.toNat).reqHyp.length := by
  rcases hx with hx | hx | ⟨h1, h2, h3⟩
  · unfold unk at hx; omega
  · omega
  · have h4 : (E.stmt x.toNat).kind = .a ∨ (E.stmt x.toNat).kind = .p := by
      rcases h3 with h3 | h3 | h3 | h3
      · exact absurd (Or.inl h3) h
      · exact absurd (Or.inr h3) h
      · exact Or.inl h3
      · exact Or.inr h3
    exact ⟨h1, h2, h4, by unfold arity; rw [if_pos ⟨h1, h4⟩]⟩

theorem count_zero {f : Forest} (h : f.count = 0) : f = nil := by
  cases f with
  | nil => rfl
  | snoc l x ch => simp [count] at h

theorem flat_snoc_length (l : Forest) (x : Int) (ch : Forest) : (snoc l x ch).flat.length = l.flat.length + ch.flat.length + 1 := by
  simp [flat]; omega

/-- The recursion at a position where the steps read so far end with the trees `f`. -/
theorem subLoop_flat (A : List Int) : ∀ (f : Forest) (n : Nat) (q r : List Int), f.Wf E → A = q ++ f.flat ++ r → f.flat.length < n + 1 →
    subLoop (subLenF E A n) f.count ((q.length : Int) + f.flat.length - 1) = .val ((q.length : Int) - 1)
  | nil, n, q, r, _, _, _ => by simp [count, subLoop, flat]
  | snoc l x ch, n, q, r, hw, hA, hn => by
    obtain ⟨hl, hc, hx, ha⟩ := hw
    rw [flat_snoc_length] at hn
    cases n with
    | zero => omega
    | succ n =>
      have hsub : subLenF E A (n + 1) ((q.length : Int) + (snoc l x ch).flat.length - 1) = .val ((ch.flat.length : Int) + 1) := by
        have hpos : (q.length : Int) + (snoc l x ch).flat.length - 1 = ((q ++ l.flat ++ ch.flat).length : Int) := by
          rw [flat_snoc_length]; simp only [List.length_append]; omega
        have hrd : rdN A ((q.length : Int) + (snoc l x ch).flat.length - 1) = .val x := by
          rw [hpos, hA]
          have := rdN_append (q ++ l.flat ++ ch.flat) r x
          rw [← this]; simp [flat]
        unfold subLenF
        rw [hrd, if_neg (by rw [hpos]; omega), Out.bind_val]
        by_cases h0 : x < 0
        · rw [if_pos h0]
          have := count_zero (ha.symm.trans (arity_hyp (Or.inl h0)))
          subst this; simp [flat]
        · rw [if_neg h0]
          have hle : x ≤ E.n := by
            rcases hx with hx | hx | hx
            · unfold unk at hx; omega
            · omega
            · exact hx.2.1
          unfold stmtAt
          rw [if_neg (by omega), Out.bind_val]
          by_cases hk : (E.stmt x.toNat).kind = .f ∨ (E.stmt x.toNat).kind = .e
          · rw [if_pos hk]
            have := count_zero (ha.symm.trans (arity_hyp (Or.inr hk)))
            subst this; simp [flat]
          · rw [if_neg hk, ← (arity_ap hx h0 hk).2.2.2, ha]
            have ih := subLoop_flat A ch n (q ++ l.flat) (x :: r) hc (by rw [hA]; simp [flat]) (by omega)
            have e : ((q ++ l.flat).length : Int) + ch.flat.length - 1 = (q.length : Int) + (snoc l x ch).flat.length - 1 - 1 := by
              rw [flat_snoc_length]; simp only [List.length_append]; omega
            rw [e] at ih
            rw [ih, Out.bind_val]
            rw [flat_snoc_length]; simp only [List.length_append]
            congr 1; omega
      unfold count subLoop
      rw [hsub, Out.bind_val]
      have ih := subLoop_flat A l (n + 1) q (ch.flat ++ x :: r) hl (by rw [hA]; simp [flat]) (by omega)
      rw [← ih]
      congr 1
      rw [flat_snoc_length]; omega

/-- The length of the subproof whose root is the step after `q ++ ch`. -/
theorem subLen_tree {A q r : List Int} {x : Int} {ch : Forest} (hw : (tree x ch).Wf E) (hA : A = q ++ ch.flat ++ x :: r) :
    subLen E A ((q.length : Int) + ch.flat.length) = .val ((ch.flat.length : Int) + 1) := by
  obtain ⟨_, hc, hx, ha⟩ := hw
  unfold subLen
  have hfuel : ch.flat.length < ((q.length : Int) + ch.flat.length).toNat + 1 + 1 := by omega
  rw [show ((q.length : Int) + ch.flat.length).toNat + 2 = (((q.length : Int) + ch.flat.length).toNat + 1) + 1 from rfl]
  generalize ((q.length : Int) + ch.flat.length).toNat + 1 = n at *
  have hrd : rdN A ((q.length : Int) + ch.flat.length) = .val x := by
    have := rdN_append (q ++ ch.flat) r x
    rw [hA, ← this]; simp
  unfold subLenF
  rw [hrd, if_neg (by omega), Out.bind_val]
  by_cases h0 : x < 0
  · rw [if_pos h0]
    have := count_zero (ha.symm.trans (arity_hyp (Or.inl h0)))
    subst this; simp [flat]
  · rw [if_neg h0]
    have hle : x ≤ E.n := by
      rcases hx with hx | hx | hx
      · unfold unk at hx; omega
      · omega
      · exact hx.2.1
    unfold stmtAt
    rw [if_neg (by omega), Out.bind_val]
    by_cases hk : (E.stmt x.toNat).kind = .f ∨ (E.stmt x.toNat).kind = .e
    · rw [if_pos hk]
      have := count_zero (ha.symm.trans (arity_hyp (Or.inr hk)))
      subst this; simp [flat]
    · rw [if_neg hk, ← (arity_ap hx h0 hk).2.2.2, ha]
      rw [subLoop_flat A ch n q (x :: r) hc hA (by omega), Out.bind_val]
      congr 1; omega

theorem occurs_wf {f : Forest} {j : Nat} {path : List (Int × Nat)} {pre : List Int} {x : Int} {ch : Forest} (h : Occurs f j path pre x ch) :
    f.Wf E → (tree x ch).Wf E ∧ ∃ r, f.flat = pre ++ ch.flat ++ x :: r := by
  induction h with
  | here l x ch =>
    rintro ⟨_, hc, hx, ha⟩
    exact ⟨⟨trivial, hc, hx, ha⟩, [], by simp [flat]⟩
  | left x ch _ ih =>
    rintro ⟨hl, _⟩
    obtain ⟨h1, r, h2⟩ := ih hl
    exact ⟨h1, r ++ ch.flat ++ [x], by simp [flat, h2]⟩
  | child l x _ ih =>
    rintro ⟨_, hc, _⟩
    obtain ⟨h1, r, h2⟩ := ih hc
    exact ⟨h1, r ++ [x], by simp [flat, h2]⟩

/-- Every step of a proof is the root of a tree. -/
theorem occurs_exists : ∀ (f : Forest) (i : Nat), i < f.flat.length → ∃ j path pre x ch, Occurs f j path pre x ch ∧ i = pre.length + ch.flat.length
  | nil, i, h => by simp [flat] at h
  | snoc l x ch, i, h => by
    rw [flat_snoc_length] at h
    by_cases h1 : i < l.flat.length
    · obtain ⟨j, path, pre, y, c, ho, hi⟩ := occurs_exists l i h1
      exact ⟨j, path, pre, y, c, .left x ch ho, hi⟩
    · by_cases h2 : i < l.flat.length + ch.flat.length
      · obtain ⟨j, path, pre, y, c, ho, hi⟩ := occurs_exists ch (i - l.flat.length) (by omega)
        exact ⟨_, _, _, y, c, .child l x ho, by simp; omega⟩
      · exact ⟨_, _, _, x, ch, .here l x ch, by omega⟩

theorem occurs_end {f : Forest} {j : Nat} {path : List (Int × Nat)} {pre : List Int} {x : Int} {ch : Forest} (h : Occurs f j path pre x ch) :
    pre.length + ch.flat.length < f.flat.length := by
  induction h with
  | here l x ch => rw [flat_snoc_length]; omega
  | left x ch _ ih => rw [flat_snoc_length]; omega
  | child l x _ ih => rw [flat_snoc_length, List.length_append]; omega

/-- … and of one tree only. -/
theorem occurs_unique {f : Forest} {j : Nat} {path : List (Int × Nat)} {pre : List Int} {x : Int} {ch : Forest} (h : Occurs f j path pre x ch) :
    ∀ {j' path' pre' x' ch'}, Occurs f j' path' pre' x' ch' → pre.length + ch.flat.length = pre'.length + ch'.flat.length →
      j = j' ∧ path = path' ∧ pre = pre' ∧ x = x' ∧ ch = ch' := by
  induction h with
  | here l x ch =>
    intro j' path' pre' x' ch' h' e
    cases h' with
    | here => simp
    | left _ _ h' => have := occurs_end h'; omega
    | child _ _ h' => have := occurs_end h'; rw [List.length_append] at e; omega
  | left x ch h ih =>
    intro j' path' pre' x' ch' h' e
    cases h' with
    | here => have := occurs_end h; omega
    | left _ _ h' => exact ih h' e
    | child _ _ h' => have := occurs_end h; rw [List.length_append] at e; omega
  | child l x h ih =>
    intro j' path' pre' x' ch' h' e
    rw [List.length_append] at e
    cases h' with
    | here => have := occurs_end h; omega
    | left _ _ h' => have := occurs_end h'; omega
    | child _ _ h' =>
      rw [List.length_append] at e
      obtain ⟨rfl, rfl, rfl, rfl, rfl⟩ := ih h' (by omega)
      simp

/-- **C33** The subproof length of a step is the number of steps of the subtree with that step as its root; cutting that many steps out of the proof gives exactly
the steps of the subtree. -/
theorem C33_subproof_is_subtree {t : Int} {f : Forest} (hw : (tree t f).Wf E) {j : Nat} {path : List (Int × Nat)} {pre : List Int} {x : Int} {ch : Forest}
    (h : Occurs (tree t f) j path pre x ch) :
    subLen E (tree t f).flat ((pre.length : Int) + ch.flat.length) = .val ((tree x ch).flat.length : Int) ∧
      nmbrSeg (tree t f).flat (pre.length + 1) (pre.length + ch.flat.length + 1) = .val (tree x ch).flat := by
  obtain ⟨h1, r, h2⟩ := occurs_wf h hw
  constructor
  · rw [subLen_tree h1 h2]; simp [tree, flat]
  · rw [h2]
    unfold nmbrSeg
    dsimp only
    have e1 : (max ((pre.length : Int) + 1) 1 - 1).toNat = pre.length := by omega
    have e2 : ((if (pre.length : Int) + ch.flat.length + 1 < 1 then 0 else (pre.length : Int) + ch.flat.length + 1) - max ((pre.length : Int) + 1) 1 + 1).toNat = (ch.flat ++ [x]).length := by
      rw [if_neg (by omega), List.length_append, List.length_singleton]; omega
    rw [e1, e2, if_pos (by simp only [List.length_append, List.length_cons, List.length_nil]; omega)]
    simp only [List.append_assoc, List.drop_left, tree, flat, List.nil_append]
    rw [show ch.flat ++ x :: r = (ch.flat ++ [x]) ++ r by simp, List.take_left]

end MM.Tree
