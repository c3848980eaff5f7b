import Verif.Unif.Model
import Mathlib.Data.List.GetD
/-!
# What the filters of `unify` let pass
-/
namespace MM.Unif

/-- The brackets `op`, `cl` in `l` pair up: no prefix has more `cl` than `op`, and in all there are as many. -/
def Balanced (op cl : List Char) (l : List (List Char)) : Prop :=
  (∀ k, (l.take k).count cl ≤ (l.take k).count op) ∧ l.count op = l.count cl

/-- The five pairs of brackets. -/
def AllBalanced (l : List (List Char)) : Prop :=
  Balanced "(".toList ")".toList l ∧ Balanced "{".toList "}".toList l ∧ Balanced "[".toList "]".toList l ∧ Balanced "<.".toList ">.".toList l ∧
    Balanced "[_".toList "]_".toList l

/-- The values that the documentation of the filters allows: if the brackets of all axioms pair up, so do those of `l`; and, unless empty values are allowed, a
constant at the start of `l` is the first token after the type code of some axiom (of one with no further token, if `l` is the constant alone), and a constant at
the end of `l` is the last token of some axiom. -/
def Plausible (C : Cfg) (l : List Nat) : Prop :=
  ((∀ m ∈ C.axs, AllBalanced (m.map C.name)) → AllBalanced (l.map C.name)) ∧
  (0 < C.min → ∀ t, C.isCon t = true →
    (l.head? = some t → (∃ m ∈ C.axs, m[1]? = some t) ∧ (l = [t] → ∃ m ∈ C.axs, m.length = 2 ∧ m[1]? = some t)) ∧
    (l.getLast? = some t → ∃ m ∈ C.axs, 2 ≤ m.length ∧ m.getLast? = some t))

theorem pairCount_zero {op cl : List Char} (hne : op ≠ cl) : ∀ (l : List (List Char)) (n : Nat),
    pairCount op cl l n = 0 ↔ (∀ k, (l.take k).count cl ≤ n + (l.take k).count op) ∧ n + l.count op = l.count cl
  | [], n => by simp [pairCount]
  | t :: l, n => by
    have split : ∀ P : Nat → Prop, (∀ k, P k) ↔ P 0 ∧ ∀ k, P (k + 1) := by
      intro P
      constructor
      · intro h; exact ⟨h 0, fun k => h _⟩
      · rintro ⟨h0, h1⟩ k
        cases k with
        | zero => exact h0
        | succ k => exact h1 k
    rw [split fun k => ((t :: l).take k).count cl ≤ n + ((t :: l).take k).count op]
    simp only [List.take_zero, List.count_nil, Nat.zero_le, true_and, List.take_succ_cons, Nat.add_zero, List.count_cons, beq_iff_eq]
    rw [pairCount]
    by_cases h1 : t = op
    · have h2 : ¬ t = cl := by rw [h1]; exact hne
      rw [if_pos h1]
      have := pairCount_zero hne l (n + 1)
      rw [show ((n : Int) + 1) = ((n + 1 : Nat) : Int) from rfl, this]
      simp only [h1, hne, if_true, if_false]
      constructor
      · rintro ⟨a, b⟩; exact ⟨fun k => by have := a k; omega, by omega⟩
      · rintro ⟨a, b⟩; exact ⟨fun k => by have := a k; omega, by omega⟩
    · rw [if_neg h1]
      by_cases h2 : t = cl
      · rw [if_pos h2]
        have hne' : ¬ cl = op := fun h => hne h.symm
        simp only [h2, if_true, hne', if_false, Nat.add_zero]
        by_cases h3 : (n : Int) - 1 < 0
        · rw [if_pos h3]
          have : n = 0 := by omega
          subst this
          constructor
          · intro h; simp at h
          · rintro ⟨a, _⟩
            have := a 0
            simp at this
        · rw [if_neg h3]
          obtain ⟨k, rfl⟩ : ∃ k, n = k + 1 := ⟨n - 1, by omega⟩
          have := pairCount_zero hne l k
          rw [show (((k + 1 : Nat) : Int) - 1) = (k : Int) by omega, this]
          constructor
          · rintro ⟨a, b⟩; refine ⟨fun i => by have := a i; omega, by omega⟩
          · rintro ⟨a, b⟩; refine ⟨fun i => by have := a i; omega, by omega⟩
      · rw [if_neg h2]
        simp only [h1, h2, if_false, Nat.add_zero]
        exact pairCount_zero hne l n

theorem balanced_iff {op cl : List Char} (hne : op ≠ cl) (l : List (List Char)) : pairCount op cl l 0 = 0 ↔ Balanced op cl l := by
  have := pairCount_zero hne l 0
  simp only [Nat.zero_add] at this
  exact this

theorem bracketBad_iff (C : Cfg) (l : List Nat) : bracketBad C l = false ↔ AllBalanced (l.map C.name) := by
  unfold bracketBad brackets AllBalanced
  simp only [List.any_cons, List.any_nil, Bool.or_false, Bool.or_eq_false_iff, decide_eq_false_iff_not, ne_eq, not_not]
  rw [balanced_iff (by decide), balanced_iff (by decide), balanced_iff (by decide), balanced_iff (by decide), balanced_iff (by decide)]

theorem bracketOn_iff (C : Cfg) : bracketOn C = true ↔ ∀ m ∈ C.axs, AllBalanced (m.map C.name) := by
  unfold bracketOn
  rw [List.all_eq_true]
  constructor
  · intro h m hm; exact (bracketBad_iff C m).1 (by simpa using h m hm)
  · intro h m hm; simpa using (bracketBad_iff C m).2 (h m hm)

/-- C50 (the filters): a value without separator passes the filters if and only if it is plausible in the sense of the documentation. -/
theorem C50_passes_iff (C : Cfg) {l : List Nat} (hm : C.mt ∉ l) : passes C l = true ↔ Plausible C l := by
  unfold passes Plausible
  rw [Bool.and_eq_true]
  apply and_congr
  · rw [← bracketOn_iff, ← bracketBad_iff]
    cases bracketOn C <;> cases bracketBad C l <;> simp
  · by_cases h0 : 0 < C.min
    rotate_left
    · simp [h0]
    cases l with
    | nil => simp
    | cons c l =>
      obtain ⟨d, hd⟩ : ∃ d, (c :: l).getLast? = some d := ⟨(c :: l).getLast (by simp), List.getLast?_eq_some_getLast (by simp)⟩
      have hgd : (c :: l).getLastD 0 = d := by rw [List.getLastD_eq_getLast?, hd]; rfl
      have hc : ¬ c = C.mt := by rintro rfl; simp at hm
      have hdm : ¬ d = C.mt := by rintro rfl; exact hm (List.mem_of_getLast? hd)
      have e1 : ∀ t, C.isCon t = true → ¬ t = C.mt → (firstConst C t = true ↔ ∃ m ∈ C.axs, m[1]? = some t) := by
        intro t h h'
        unfold firstConst
        simp [h, h', List.any_eq_true]
      have e2 : ∀ t, C.isCon t = true → ¬ t = C.mt → (oneConst C t = true ↔ ∃ m ∈ C.axs, m.length = 2 ∧ m[1]? = some t) := by
        intro t h h'
        unfold oneConst
        simp [h, h', List.any_eq_true]
        constructor
        · rintro ⟨m, a, b, c⟩; exact ⟨m, a, c, b⟩
        · rintro ⟨m, a, b, c⟩; exact ⟨m, a, c, b⟩
      have e3 : ∀ t, C.isCon t = true → ¬ t = C.mt → (lastConst C t = true ↔ ∃ m ∈ C.axs, 2 ≤ m.length ∧ m.getLast? = some t) := by
        intro t h h'
        unfold lastConst
        simp [h, h', List.any_eq_true]
      have e4 : ((c :: l).length == 1) = true ↔ c :: l = [c] := by simp
      simp only [h0, decide_true, Bool.and_true, true_imp_iff, Bool.not_eq_true', hd, Option.some.injEq, List.head?_cons]
      rw [show decide (c :: l ≠ []) = true by simp, Bool.true_and]
      unfold impossible
      rw [List.headD_cons, hgd, Bool.or_eq_false_iff]
      have p1 : (C.isCon c && (!firstConst C c || ((c :: l).length == 1 && !oneConst C c))) = false ↔
          (C.isCon c = true → (∃ m ∈ C.axs, m[1]? = some c) ∧ (c :: l = [c] → ∃ m ∈ C.axs, m.length = 2 ∧ m[1]? = some c)) := by
        cases hcc : C.isCon c with
        | false => simp
        | true =>
          rw [← e1 c hcc hc, ← e2 c hcc hc, ← e4]
          cases firstConst C c <;> cases oneConst C c <;> cases ((c :: l).length == 1) <;> simp
      have p2 : (C.isCon d && !lastConst C d) = false ↔ (C.isCon d = true → ∃ m ∈ C.axs, 2 ≤ m.length ∧ m.getLast? = some d) := by
        cases hcd : C.isCon d with
        | false => simp
        | true => rw [← e3 d hcd hdm]; cases lastConst C d <;> simp
      rw [p1, p2]
      constructor
      · rintro ⟨a, b⟩ t ht
        refine ⟨?_, ?_⟩
        · rintro rfl; exact a ht
        · rintro rfl; exact b ht
      · intro h
        exact ⟨fun hcc => (h c hcc).1 rfl, fun hcd => (h d hcd).2 rfl⟩

end MM.Unif
