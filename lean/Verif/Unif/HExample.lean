import Verif.Unif.HProps
import Verif.Unif.Example
/-!
# Examples for the Henty filter
-/
namespace MM.Unif

theorem inst_comp (mt : Nat) (σ τ : Nat → List Nat) : ∀ l : List Nat, inst mt τ (inst mt σ l) = inst mt (fun y => inst mt τ (σ y)) l
  | [] => rfl
  | t :: l => by
    rw [inst_cons, inst_cons, inst_append, inst_comp mt σ τ l]
    by_cases h : mt < t
    · rw [if_pos h, if_pos h]
    · rw [if_neg h, if_neg h, inst_cons, if_neg h]; rfl

theorem Variant.trans {mt : Nat} {σ τ υ : Nat → List Nat} (h : Variant mt σ τ) (h' : Variant mt τ υ) : Variant mt σ υ := by
  obtain ⟨⟨a, ha⟩, b, hb⟩ := h
  obtain ⟨⟨a', ha'⟩, b', hb'⟩ := h'
  exact ⟨⟨fun y => inst mt a' (a y), fun y hy => by rw [← inst_comp, ha y hy, ha' y hy]⟩, ⟨fun y => inst mt b (b' y), fun y hy => by rw [← inst_comp, hb' y hy, hb y hy]⟩⟩

theorem Variant.symm {mt : Nat} {σ τ : Nat → List Nat} (h : Variant mt σ τ) : Variant mt τ σ := ⟨h.2, h.1⟩

namespace Ex

def foundH (r : Out ResH) : Option SVH :=
  match r with
  | .val (.found v) => some v
  | _ => none

theorem foundH_eq {r : Out ResH} {v : SVH} (h : foundH r = some v) : r = .val (.found v) := by
  unfold foundH at h
  split at h
  · cases h; rfl
  · cases h

/-! ## Answers that are the same up to the choice of variables

`|- $1` against `|- $2`: the answers `$1 = $2` and `$2 = $1` are one for the filter. -/

theorem proper4 : Proper C [0, 7] [0, 8] := ⟨by decide, by decide, by decide, by decide, by decide⟩

def v4 : SV := ⟨[⟨7, [(1, 1)], [0, 7, 6], [0, 8, 6]⟩], [(1, 1)], [0, 8], 0⟩

example : uniqueUnif true 100 100 C 0 [0, 7] [0, 8] = .val (1, some v4) := by decide +kernel

/-- Without the filter there are two answers. -/
example : uniqueUnif false 100 100 C 0 [0, 7] [0, 8] = .val (3, none) := by decide +kernel

/-- The hypotheses of `C56_unique` hold. -/
example : ∀ a, Calls C [0, 7] [0, 8] (fun _ => True) a → ∀ σ τ, SubstOf C a σ → SubstOf C v4 τ → Variant C.mt σ τ := by
  obtain ⟨v, h1, _, h3⟩ := C56_unique hK proper4 (on := true) (m := 100) (n := 100) (t := 0) (o := some v4) (by decide +kernel)
  cases h1
  exact h3

/-- A second answer that is a variant. -/
example : ∃ a, Calls C [0, 7] [0, 8] (fun _ => True) a ∧ makeSubst C a [7, 6, 8] = .val ([7, 6, 7], true) := by
  refine ⟨⟨[⟨8, [(1, 1)], [0, 7, 6], [0, 8, 6]⟩], [(1, 1)], [0, 7], 0⟩, ?_, by decide +kernel⟩
  refine .next (n := 100) (t := 0) (v := v4) (.first (n := 100) (t := 0) trivial (by decide +kernel)) trivial (by decide +kernel)

/-- The hypotheses of `C56_unique_none` hold. -/
example (a : SV) : ¬ Calls C [0, 4] [0, 1, 8] (fun _ => True) a :=
  C56_unique_none (on := true) (m := 100) (n := 100) (t := 0) (o := none) ⟨by decide, by decide, by decide, by decide, by decide⟩ (by decide +kernel) a

/-- The hypotheses of `C56_unique_several_partial` and `C56_distinct` hold. -/
example : ∃ v w, Calls C A2 B2 (fun _ => True) v ∧ Calls C A2 B2 (fun _ => True) w ∧
    ∀ σ τ, SubstOf C v σ → SubstOf C w τ → ∃ y ∈ A2, C.mt < y ∧ σ y ≠ τ y :=
  C56_unique_several_partial hK proper2 (by decide) (m := 100) (n := 100) (t := 0) (o := none) (by decide +kernel)

example : ∃ l v, l.length = 2 ∧ HCalls true C A2 B2 l v := by
  cases h : foundH (unifyH true 100 C 0 A2 B2) with
  | none => exact absurd h (by decide +kernel)
  | some v =>
    have h0 := h
    cases h' : foundH (unifyHNext true 100 100 C A2 B2 v) with
    | none =>
      have : ((foundH (unifyH true 100 C 0 A2 B2)).bind fun v => foundH (unifyHNext true 100 100 C A2 B2 v)).isSome = true := by decide +kernel
      rw [h0, Option.bind_some, h'] at this
      cases this
    | some w => exact ⟨[v.sv] ++ [w.sv], w, rfl, .next (t := v.sv.trials) (.first (foundH_eq h)) (foundH_eq h')⟩

/-- The hypotheses of `C56_unique_match` hold: `|- ( $1 -> ( $2 -> $1 ) )` matches `|- ( ( p -> q ) -> ( q -> ( p -> q ) ) )` in one way. -/
example : ∃ v, uniqueUnif true 100 100 C 1 A B = .val (1, some v) ∧ makeSubst C v [7, 6, 8] = .val ([1, 4, 2, 5, 3, 6, 5], false) := by
  have h : ∃ r, uniqueUnif true 100 100 C 1 A B = .val r ∧ r.1 = 1 ∧ (r.2.map fun v => makeSubst C v [7, 6, 8]) = some (.val ([1, 4, 2, 5, 3, 6, 5], false)) := by
    obtain ⟨M, r, hM⟩ := C56_unique_ends proper true 1
    cases hu : uniqueUnif true 100 100 C 1 A B with
    | val r =>
      refine ⟨r, rfl, ?_, ?_⟩
      · have : (match uniqueUnif true 100 100 C 1 A B with | .val r => r.1 | _ => 0) = 1 := by decide +kernel
        rw [hu] at this; exact this
      · have : (match uniqueUnif true 100 100 C 1 A B with | .val r => r.2.map fun v => makeSubst C v [7, 6, 8] | _ => none) = some (.val ([1, 4, 2, 5, 3, 6, 5], false)) := by decide +kernel
        rw [hu] at this; exact this
    | ub => exact absurd hu (by decide +kernel)
    | fuel => exact absurd hu (by decide +kernel)
    | bug k =>
      have : (match uniqueUnif true 100 100 C 1 A B with | .val r => r.1 | _ => 0) = 1 := by decide +kernel
      rw [hu] at this; cases this
  obtain ⟨⟨k, o⟩, h1, rfl, h3⟩ := h
  cases o with
  | none => cases h3
  | some v =>
    refine ⟨v, h1, ?_⟩
    simp only [Option.map_some, Option.some.injEq] at h3
    exact h3

/-! ## What the filter misses

`|- ( $3 -> $4 )` against `|- ( $1 -> ( $1 -> p ) )`: the answers `$3 = $1`, `$4 = ( $1 -> p )` and `$1 = $3`, `$4 = ( $3 -> p )` are the same up to the choice of
variables.  In the normal form of the first one the variable-for-variable substitution is reversed, but `$1` is not replaced in the value of `$4`: the loop that
should do that looks at one and the same element in every round.  So the normal forms differ, and `uniqueUnif` reports several unifications. -/

def A5 : List Nat := [0, 1, 9, 2, 10, 3]
def B5 : List Nat := [0, 1, 7, 2, 1, 7, 2, 4, 3, 3]

theorem proper5 : Proper C A5 B5 := ⟨by decide, by decide, by decide, by decide, by decide⟩

def v5 : SVH := ⟨⟨[⟨10, [(4, 5), (2, 1)], [0, 1, 7, 2, 10, 3, 6], [0, 1, 7, 2, 1, 7, 2, 4, 3, 3, 6]⟩, ⟨9, [(2, 1)], [0, 1, 9, 2, 10, 3, 6], [0, 1, 7, 2, 1, 7, 2, 4, 3, 3, 6]⟩],
    [(4, 5), (2, 1)], [0, 1, 7, 2, 1, 7, 2, 4, 3, 3], 0⟩, [⟨[7, 10], [0, 1], [9, 1, 7, 2, 4, 3]⟩]⟩

def w5 : SVH := ⟨⟨[⟨10, [(4, 5), (2, 1)], [0, 1, 9, 2, 10, 3, 6], [0, 1, 9, 2, 1, 9, 2, 4, 3, 3, 6]⟩, ⟨7, [(2, 1)], [0, 1, 9, 2, 10, 3, 6], [0, 1, 7, 2, 1, 7, 2, 4, 3, 3, 6]⟩],
    [(4, 5), (2, 1)], [0, 1, 9, 2, 1, 9, 2, 4, 3, 3], 0⟩, [⟨[7, 10], [0, 1], [9, 1, 7, 2, 4, 3]⟩, ⟨[7, 10], [0, 1], [9, 1, 9, 2, 4, 3]⟩]⟩

def σ5 : Nat → List Nat := fun y => if y = 9 then [7] else if y = 10 then [1, 7, 2, 4, 3] else [y]
def τ5 : Nat → List Nat := fun y => if y = 7 then [9] else if y = 10 then [1, 9, 2, 4, 3] else [y]

theorem variant5 : Variant C.mt σ5 τ5 := by
  refine ⟨⟨τ5, fun y hy => ?_⟩, ⟨σ5, fun y hy => ?_⟩⟩
  · by_cases h9 : y = 9
    · subst h9; decide
    by_cases h10 : y = 10
    · subst h10; decide
    unfold σ5
    rw [if_neg h9, if_neg h10, inst_one hy]
  · by_cases h7 : y = 7
    · subst h7; decide
    by_cases h10 : y = 10
    · subst h10; decide
    unfold τ5
    rw [if_neg h7, if_neg h10, inst_one hy]

theorem subst_of_values {v : SV} {σ τ : Nat → List Nat} (hσ : SubstOf C v σ) (h : ∀ y, C.mt < y → ∃ f, makeSubst C v [y] = .val (τ y, f)) : ∀ y, C.mt < y → σ y = τ y := by
  intro y hy
  obtain ⟨f, hf⟩ := hσ [y]
  obtain ⟨g, hg⟩ := h y hy
  rw [hf, inst_one hy] at hg
  injection hg with hg
  injection hg

theorem variant_congr {mt : Nat} {σ σ' τ τ' : Nat → List Nat} (h : Variant mt σ τ) (h1 : ∀ y, mt < y → σ' y = σ y) (h2 : ∀ y, mt < y → τ' y = τ y) : Variant mt σ' τ' := by
  obtain ⟨⟨a, ha⟩, b, hb⟩ := h
  exact ⟨⟨a, fun y hy => by rw [h1 y hy, h2 y hy, ha y hy]⟩, ⟨b, fun y hy => by rw [h1 y hy, h2 y hy, hb y hy]⟩⟩

/-- The whole statement of C56, that `uniqueUnif` returns 3 only if there are answers that are not the same up to the choice of variables, is false of the code. -/
theorem C56_several_false : uniqueUnif true 100 100 C 0 A5 B5 = .val (3, none) ∧
    ∀ a b, Calls C A5 B5 (fun _ => True) a → Calls C A5 B5 (fun _ => True) b → ∀ σ τ, SubstOf C a σ → SubstOf C b τ → Variant C.mt σ τ := by
  refine ⟨by decide +kernel, ?_⟩
  have h1 : unifyH true 100 C 0 A5 B5 = .val (.found v5) := by decide +kernel
  have h2 : unifyHNext true 100 100 C A5 B5 v5 = .val (.found w5) := by decide +kernel
  have h3 : unifyHNext true 100 100 C A5 B5 w5 = .val .none := by decide +kernel
  have hc : HCalls true C A5 B5 ([v5.sv] ++ [w5.sv]) w5 := .next (t := 0) (.first h1) h2
  have hv : ∀ σ, SubstOf C v5.sv σ → ∀ y, C.mt < y → σ y = σ5 y := by
    intro σ hσ
    refine subst_of_values hσ fun y hy => ?_
    by_cases h9 : y = 9
    · subst h9; exact ⟨false, by decide +kernel⟩
    by_cases h10 : y = 10
    · subst h10; exact ⟨false, by decide +kernel⟩
    unfold σ5
    rw [if_neg h9, if_neg h10]
    refine ⟨true, ?_⟩
    have : segOf v5.sv y = none := by simp [segOf, v5, Ne.symm h9, Ne.symm h10]
    unfold makeSubst
    rw [show makeSubst C v5.sv [] = .val ([], false) from rfl, Out.bind_val, if_pos ⟨hK y hy, hy⟩, this]
  have hw : ∀ σ, SubstOf C w5.sv σ → ∀ y, C.mt < y → σ y = τ5 y := by
    intro σ hσ
    refine subst_of_values hσ fun y hy => ?_
    by_cases h7 : y = 7
    · subst h7; exact ⟨false, by decide +kernel⟩
    by_cases h10 : y = 10
    · subst h10; exact ⟨false, by decide +kernel⟩
    unfold τ5
    rw [if_neg h7, if_neg h10]
    refine ⟨true, ?_⟩
    have : segOf w5.sv y = none := by simp [segOf, w5, Ne.symm h7, Ne.symm h10]
    unfold makeSubst
    rw [show makeSubst C w5.sv [] = .val ([], false) from rfl, Out.bind_val, if_pos ⟨hK y hy, hy⟩, this]
  have key : ∀ a, Calls C A5 B5 (fun _ => True) a → ∀ σ, SubstOf C a σ → Variant C.mt σ σ5 := by
    intro a ha σ hσ
    obtain ⟨b, hb, hV⟩ := C56_complete hK proper5 hc (t := 0) h3 ha
    obtain ⟨τ, hτ⟩ := substOf_exists hK proper5 (C56_answers proper5 hc b hb)
    have := hV σ τ hσ hτ
    simp only [List.cons_append, List.nil_append, List.mem_cons, List.not_mem_nil, or_false] at hb
    rcases hb with rfl | rfl
    · exact variant_congr this (fun _ _ => rfl) (fun y hy => (hv τ hτ y hy).symm)
    · exact (variant_congr this (fun _ _ => rfl) (fun y hy => (hw τ hτ y hy).symm)).trans variant5.symm
  intro a b ha hb σ τ hσ hτ
  exact (key a ha σ hσ).trans (key b hb τ hτ).symm

end Ex
end MM.Unif
