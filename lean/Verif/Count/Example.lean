import Verif.Count.Source
import Verif.Trace.Example

/-!
# Databases for C67
-/
namespace MM.Count.Ex
open MM.Veri MM.Pars MM.Spec MM.Proof MM.Lex MM.Trace MM.Trace.Ex

/-- A database given by its kinds, mandatory hypotheses and proofs. -/
def mk (kinds : List Kind) (req : List (List Nat)) (proofs : List (List Int)) : CDb where
  n := kinds.length - 1
  kind := fun i => kinds.getD i .none
  label := fun _ => []
  parse := fun i => .val ⟨proofs.getD i [], 0, 0⟩
  ess := fun l => .val (l.map fun _ => 1)
  menv := menvOf (pfEnv pfOut pfSrc)
  text := fun _ => []
  textLen := fun _ => 0
  req := fun i => req.getD i []

/-- `1 $e`, `2 $e`, the axiom 3 from 1 and 2, the axiom 4, the theorem 5 from 1, the theorems 6, 7 and 8. -/
def d8 : CDb := mk [.none, .e, .e, .a, .a, .p, .p, .p, .p] [[], [], [], [1, 2], [], [1], [], [1], []]
  [[], [], [], [], [], [1, 4, 3], [4, 5, 5], [1, 1, 3], [4, 5, 7]]

theorem d8_theorem {p : Nat} (h1 : 1 ≤ p) (h2 : p ≤ 8) (hk : d8.kind p = .p) : p = 5 ∨ p = 6 ∨ p = 7 ∨ p = 8 := by
  have : ∀ p < 9, 1 ≤ p → d8.kind p = .p → p = 5 ∨ p = 6 ∨ p = 7 ∨ p = 8 := by decide
  exact this p (by omega) h1 hk

def s8 (i : Nat) : List Int := [[], [], [], [], [], [1, 4, 3], [4, 5, 5], [1, 1, 3], [4, 5, 7]].getD i []

theorem d8_steps (p : Nat) : StepsOf d8.toTDb false p (s8 p) := ⟨_, rfl, Or.inr (Or.inl ⟨Nat.zero_le 1, rfl, rfl⟩)⟩

theorem d8_sane : Sane d8 false where
  steps := by
    intro p h1 h2 hk
    refine ⟨s8 p, d8_steps p, ?_⟩
    rcases d8_theorem h1 h2 hk with rfl | rfl | rfl | rfl <;> decide
  req := by
    intro p h1 h2 hk
    rcases d8_theorem h1 h2 hk with rfl | rfl | rfl | rfl <;> decide
  unk := fun h => by cases h

/-- The fully expanded proofs. -/
def f8 (i : Nat) : List Int := [[], [], [], [], [], [1, 4, 3], [4, 4, 3, 4, 3], [1, 1, 3], [4, 4, 3, 4, 4, 3, 3]].getD i []

theorem d8_full {p : Nat} (h1 : 1 ≤ p) (h2 : p ≤ 8) (hk : d8.kind p = .p) : Expanded d8 false f8 (s8 p) (f8 p) := by
  rcases d8_theorem h1 h2 hk with rfl | rfl | rfl | rfl <;> (unfold Expanded; decide)

theorem d8_leads {s p : Nat} (h1 : 1 ≤ s) (h2 : s ≤ 8) (h : Leads d8 false s p) : 1 ≤ p ∧ p ≤ s := leads_range d8_sane h1 h2 h

theorem d8_proofs {s : Nat} (h1 : 1 ≤ s) (h2 : s ≤ 8) : Proofs d8 false s s8 f8 where
  steps := fun p _ _ => d8_steps p
  full := fun p hl hk => by
    have := d8_leads h1 h2 hl
    exact d8_full this.1 (by omega) hk

theorem d8_complete {s : Nat} (h1 : 1 ≤ s) (h2 : s ≤ 8) : Complete d8 false s s8 := by
  intro p hl hk
  have := d8_leads h1 h2 hl
  rcases d8_theorem this.1 (by omega) hk with rfl | rfl | rfl | rfl <;> decide

theorem d8_once : Once d8 false 6 s8 := by
  intro p hl hne hk
  have := d8_leads (by omega) (by omega) hl
  rcases d8_theorem this.1 (by omega) hk with rfl | rfl | rfl | rfl
  · decide
  · exact absurd rfl hne
  · omega
  · omega

/-- The hypotheses of `C67_count_partial` are met for theorem 6 ... -/
theorem C67_example : ∃ rep, countSteps d8 false 6 = .val rep ∧ value rep.big = (f8 6).length := by
  obtain ⟨rep, h1, _, _, h2, _⟩ := C67_count_partial d8_sane (by decide) (by decide) rfl (d8_proofs (by decide) (by decide)) d8_once (d8_complete (by decide) (by decide))
  exact ⟨rep, h1, h2⟩

/-- ... which uses one subtheorem (twice) and whose fully expanded proof has 5 steps. -/
example : countSteps d8 false 6 = .val { len := 3, subs := 1, steps := 6, subs2 := 1, steps2 := 6, big := ['5'], dist := 2, path := [6, 5, 1] } := by decide +kernel

/-- Theorem 7 uses its hypothesis twice: for theorem 8 the command reports 5 steps, but the fully expanded proof has 7. -/
theorem C67_hypothesis_twice : (∃ rep, countSteps d8 false 8 = .val rep ∧ value rep.big = 5) ∧ Expanded d8 false f8 (s8 8) (f8 8) ∧ (f8 8).length = 7 ∧ Proofs d8 false 8 s8 f8 := by
  refine ⟨⟨{ len := 3, subs := 2, steps := 9, subs2 := 0, steps2 := 5, big := ['5'], dist := 2, path := [8, 5, 1] }, by decide +kernel, by decide⟩, d8_full (by decide) (by decide) rfl, rfl, d8_proofs (by decide) (by decide)⟩

/-- `1`, `2`, `3` `$e`, the axiom 4, the theorem 5 from 1, 2, 3, the axiom 6 from 1, the axiom 7 from 1 and 2.  Theorem 8 is proved by a compressed proof that applies theorem 5 to the same
statement three times; theorem 9 goes on with axiom 6, and theorem 10 uses theorem 9 twice. -/
def d10 : CDb := mk [.none, .e, .e, .e, .a, .p, .a, .a, .p, .p, .p] [[], [], [], [], [], [1, 2, 3], [1], [1, 2], [], [], []]
  [[], [], [], [], [], [1], [], [], [4, -1000, -1000, 5], [4, -1000, -1000, 5, 6], [9, 9, 7]]

/-- With a compressed proof the subtraction goes below zero: the command reports that the proof of theorem 8 "would have 8 steps if fully expanded", where it would have one step. -/
theorem C67_compressed : ∃ rep, countSteps d10 false 8 = .val rep ∧ rep.big = ['8'] :=
  ⟨{ len := 4, subs := 1, steps := 5, subs2 := 0, steps2 := 1, big := ['8'], dist := 2, path := [8, 5, 1] }, by decide +kernel, rfl⟩

/-- A count that is zero, although the digits are not, makes the program compute it again, and it stops with an internal error. -/
theorem C67_internal_error : countSteps d10 false 10 = .bug 264 := by decide +kernel

/-- The database of C51 after READ meets `C67_sane_after_read`. -/
theorem C67_after_read_example (e : Bool) : Sane (srcDb (menvOf (pfEnv pfOut pfSrc)) (fun _ => 100) (fun _ => cpSection) (fun _ => cpText.length)) e := by
  obtain ⟨s, h, ho⟩ := pfSrc_accepted
  exact C67_sane_after_read h linLook_ok (pfEnv_eq (src := pfSrc) ho).symm (fun p h1 h2 hk => cp_par h1 h2 hk) e

end MM.Count.Ex
