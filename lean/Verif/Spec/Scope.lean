import Verif.Veri.Model
import Verif.Spec.Deriv
import Mathlib.Data.List.GetD
/-!
# Specification: scopes, active statements, mandatory hypotheses

From the Metamath specification (Metamath book, sections 4.2.2, 4.2.7, 4.2.8).  A source file is given as
the list of the kinds of its statements; statements are numbered from 1.
-/
namespace MM.Spec
open MM.Veri

/-- Change of the nesting depth caused by a statement. -/
def delta : Kind → Int
  | .lb => 1
  | .rb => -1
  | _ => 0

/-- Nesting depth just before statement number `i`. -/
def depth (ks : List Kind) (i : Nat) : Int := ((ks.take (i - 1)).map delta).sum

/-- What statement `j` declares is still active just before statement `i`: it comes earlier and the
block it is in has not been closed in between. -/
def Active (ks : List Kind) (j i : Nat) : Prop :=
  1 ≤ j ∧ j < i ∧ ∀ k, j ≤ k → k ≤ i → depth ks j ≤ depth ks k

/-- `kindAt ks i` is the kind of statement number `i`. -/
def kindAt (ks : List Kind) (i : Nat) : Kind := if i = 0 then .none else ks.getD (i - 1) .none

theorem depth_append {ks : List Kind} {k : Kind} {i : Nat} (h : i ≤ ks.length + 1) :
    depth (ks ++ [k]) i = depth ks i := by
  unfold depth
  rw [List.take_append_of_le_length (by omega)]

theorem depth_last {ks : List Kind} {k : Kind} :
    depth (ks ++ [k]) (ks.length + 2) = depth ks (ks.length + 1) + delta k := by
  unfold depth
  rw [List.take_of_length_le (by simp), List.take_of_length_le (by simp)]
  simp

theorem kindAt_append {ks : List Kind} {k : Kind} {i : Nat} (h : i ≤ ks.length) :
    kindAt (ks ++ [k]) i = kindAt ks i := by
  unfold kindAt
  by_cases h0 : i = 0
  · simp [h0]
  · rw [if_neg h0, if_neg h0, List.getD_append _ _ _ _ (by omega)]

theorem kindAt_last {ks : List Kind} {k : Kind} : kindAt (ks ++ [k]) (ks.length + 1) = k := by
  simp [kindAt]

/-- How activity changes over one statement. -/
theorem active_step {ks : List Kind} {k : Kind} {j : Nat} :
    Active (ks ++ [k]) j (ks.length + 2) ↔
      (j = ks.length + 1 ∧ k ≠ .rb) ∨
      (Active ks j (ks.length + 1) ∧ (k = .rb → depth ks j < depth ks (ks.length + 1))) := by
  have hd : ∀ i, i ≤ ks.length + 1 → depth (ks ++ [k]) i = depth ks i := fun i h => depth_append h
  unfold Active
  constructor
  · rintro ⟨h1, h2, h3⟩
    rcases Nat.lt_or_ge j (ks.length + 1) with hj | hj
    · right
      refine ⟨⟨h1, hj, fun i hi hi2 => ?_⟩, ?_⟩
      · have := h3 i hi (by omega)
        rwa [hd j (by omega), hd i (by omega)] at this
      · rintro rfl
        have := h3 (ks.length + 2) (by omega) (by omega)
        rw [hd j (by omega), depth_last] at this
        simp only [delta] at this
        omega
    · left
      have hj : j = ks.length + 1 := by omega
      refine ⟨hj, ?_⟩
      rintro rfl
      have := h3 (ks.length + 2) (by omega) (by omega)
      rw [hj, hd _ (by omega), depth_last] at this
      simp only [delta] at this
      omega
  · rintro (⟨rfl, hk⟩ | ⟨⟨h1, h2, h3⟩, hrb⟩)
    · refine ⟨by omega, by omega, fun i hi hi2 => ?_⟩
      rcases Nat.lt_or_ge i (ks.length + 2) with hi3 | hi3
      · have : i = ks.length + 1 := by omega
        rw [this]; exact Int.le_refl _
      · have : i = ks.length + 2 := by omega
        rw [this, hd _ (by omega), depth_last]
        have : 0 ≤ delta k := by
          unfold delta; split <;> first | omega | exact absurd rfl hk
        omega
    · refine ⟨h1, by omega, fun i hi hi2 => ?_⟩
      rcases Nat.lt_or_ge i (ks.length + 2) with hi3 | hi3
      · rw [hd j (by omega), hd i (by omega)]; exact h3 i hi (by omega)
      · have : i = ks.length + 2 := by omega
        rw [this, hd j (by omega), depth_last]
        have h4 := h3 (ks.length + 1) (by omega) (by omega)
        by_cases hk : k = .rb
        · have := hrb hk; subst hk; simp only [delta]; omega
        · have : 0 ≤ delta k := by
            unfold delta; split <;> first | omega | exact absurd rfl hk
          omega

theorem Active.trans {ks : List Kind} {a b c : Nat} (h1 : Active ks a b) (h2 : Active ks b c) : Active ks a c := by
  obtain ⟨x1, x2, x3⟩ := h1
  obtain ⟨y1, y2, y3⟩ := h2
  refine ⟨x1, by omega, fun k hk hk2 => ?_⟩
  rcases Nat.lt_or_ge k b with h | h
  · exact x3 k hk (by omega)
  · exact Int.le_trans (x3 b (by omega) (by omega)) (y3 k h hk2)

/-- Activity depends only on the statements up to the place where it is asked. -/
theorem active_prefix {ks more : List Kind} {j i : Nat} (hi : i ≤ ks.length + 1) :
    Active (ks ++ more) j i ↔ Active ks j i := by
  have hd : ∀ k, k ≤ ks.length + 1 → depth (ks ++ more) k = depth ks k := by
    intro k hk; unfold depth; rw [List.take_append_of_le_length (by omega)]
  unfold Active
  constructor
  · rintro ⟨h1, h2, h3⟩
    refine ⟨h1, h2, fun k hk hk2 => ?_⟩
    have := h3 k hk hk2
    rwa [hd j (by omega), hd k (by omega)] at this
  · rintro ⟨h1, h2, h3⟩
    refine ⟨h1, h2, fun k hk hk2 => ?_⟩
    rw [hd j (by omega), hd k (by omega)]; exact h3 k hk hk2

end MM.Spec

namespace MM.Spec
open MM.Veri

/-- `v` is a mandatory variable of assertion number `i`: it occurs in the assertion or in an active `$e`
hypothesis (Metamath book 4.2.7).  `math j` is the math string of statement `j`. -/
def Mandatory (isVar : Nat → Bool) (ks : List Kind) (math : Nat → List Nat) (i v : Nat) : Prop :=
  isVar v = true ∧ (v ∈ math i ∨ ∃ j, Active ks j i ∧ kindAt ks j = .e ∧ v ∈ math j)

/-- Statement `j` is a mandatory hypothesis of assertion `i`: an active `$e`, or an active `$f` for a mandatory
variable. -/
def MandHyp (isVar : Nat → Bool) (ks : List Kind) (math : Nat → List Nat) (i j : Nat) : Prop :=
  Active ks j i ∧ (kindAt ks j = .e ∨ (kindAt ks j = .f ∧ ∃ v ∈ math j, Mandatory isVar ks math i v))

/-- Statement `j` is an active `$f` hypothesis that is not mandatory for assertion `i`. -/
def OptHyp (isVar : Nat → Bool) (ks : List Kind) (math : Nat → List Nat) (i j : Nat) : Prop :=
  Active ks j i ∧ kindAt ks j = .f ∧ ∀ v ∈ math j, ¬ Mandatory isVar ks math i v

/-- The variables `a` and `b` occur together in a `$d` statement active at statement `i`. -/
def DvDeclared (ks : List Kind) (math : Nat → List Nat) (i a b : Nat) : Prop :=
  ∃ j, Active ks j i ∧ kindAt ks j = .d ∧ a ∈ math j ∧ b ∈ math j

/-- The declaration of token `t` is active at statement `i`. -/
def TokActive (ks : List Kind) (math : Nat → List Nat) (i t : Nat) : Prop :=
  ∃ j, Active ks j i ∧ (kindAt ks j = .c ∨ kindAt ks j = .v) ∧ t ∈ math j

end MM.Spec

namespace MM.Spec
open MM.Veri

/-- Properly nested statement kinds. -/
inductive Balanced : List Kind → Prop
  | nil : Balanced []
  | stmt {k ks} : k ≠ .lb → k ≠ .rb → Balanced ks → Balanced (k :: ks)
  | block {as bs} : Balanced as → Balanced bs → Balanced (.lb :: as ++ .rb :: bs)

/-- `A` is the assertion (with its mandatory frame) made by statement `i` of a source with statement kinds `ks` and math
strings `math`: its hypotheses are those of the specification, in order of appearance, and its disjoint-variable
conditions are the pairs of mandatory variables occurring together in an active `$d`. -/
def IsAssertion (isVar : Nat → Bool) (ks : List Kind) (math : Nat → List Nat) (i : Nat) (A : Assertion) : Prop :=
  (kindAt ks i = .a ∨ kindAt ks i = .p) ∧ A.concl = math i ∧
  (∃ hs : List Nat, hs.Pairwise (· < ·) ∧ (∀ j, j ∈ hs ↔ MandHyp isVar ks math i j) ∧ A.hyps = hs.map math) ∧
  (∀ a b, (a, b) ∈ A.dv ↔ a < b ∧ Mandatory isVar ks math i a ∧ Mandatory isVar ks math i b ∧ DvDeclared ks math i a b)

end MM.Spec
