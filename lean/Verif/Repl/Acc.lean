import Verif.Repl.Loop
import Verif.Impr.Ends
/-!
# The series of unifications ends, whatever the values of `g_unifTrialCount`
-/
namespace MM.Unif

variable {C : Cfg} {A B : List Nat} {on : Bool}

/-- `w` is the answer of a further call after `v`, with any value of `g_unifTrialCount`. -/
def NextT (on : Bool) (C : Cfg) (A B : List Nat) (w v : SVH) : Prop := ∃ t m n, unifyHNext on m n C A B { v with sv := { v.sv with trials := t } } = .val (.found w)

theorem treeT_acc (hP : Proper C A B) {x : Lbl × St} (h : Tree C A B (Ans C A B) Over x) : ∀ (f : List HEnt) (m n k : Nat) (w : SVH),
    ((run C (unkVars C A B).length k x >>= fun r => Out.val (result r)) >>= cont on m n C A B f) = .val (.found w) → Acc (NextT on C A B) w := by
  induction h with
  | @leaf x h =>
    intro f m n k w hw
    obtain ⟨l, s⟩ := x
    have hl : l = .done ∨ l = .abort ∨ l = .timeout := by rcases h with h | h; exact Or.inr (Or.inr h); exact Or.inr (Or.inl h)
    cases k with
    | zero => cases hw
    | succ k =>
      rw [run_end hl, Out.bind_val] at hw
      rcases h with h | h
      · dsimp only at h; subst h; cases hw
      · dsimp only at h; subst h; cases hw
  | step h _ ih =>
    intro f m n k w hw
    cases k with
    | zero => cases hw
    | succ k => rw [run_goes h] at hw; exact ih f m n k w hw
  | @done s h hall ih =>
    intro f m n k w hw
    cases k with
    | zero => cases hw
    | succ k =>
      have e0 : (run C (unkVars C A B).length (k + 1) (.done, s) >>= fun r => Out.val (result r)) = .val (.found (svOf s)) := by
        rw [run_end (Or.inl rfl), Out.bind_val]; rfl
      rw [e0, Out.bind_val] at hw
      have next : ∀ (g : List HEnt) (t m' n' : Nat) (w' : SVH), unifyHNext on m' n' C A B ⟨{ svOf s with trials := t }, g⟩ = .val (.found w') → Acc (NextT on C A B) w' := by
        intro g t m' n' w' hw'
        cases m' with
        | zero => cases hw'
        | succ m' =>
          rw [next_cont] at hw'
          have := unifyNext_eq hP n' t s
          rw [this] at hw'
          by_cases he : early C A B = true
          · rw [if_pos he] at hw'; cases hw'
          · rw [if_neg he] at hw'
            exact ih t g m' n' n' w' hw'
      have acc : ∀ g, Acc (NextT on C A B) ⟨svOf s, g⟩ := fun g => ⟨_, fun w' ⟨t, m', n', hw'⟩ => next g t m' n' w' hw'⟩
      unfold cont at hw
      dsimp only at hw
      cases on with
      | false => rw [if_neg (by simp)] at hw; cases hw; exact acc _
      | true =>
        rw [if_pos rfl] at hw
        obtain ⟨e, _, hw⟩ := bind_inv hw
        by_cases hf : e ∈ f
        · rw [if_pos hf] at hw; exact next f s.trials m n w hw
        · rw [if_neg hf] at hw; cases hw; exact acc _

/-- The series of further calls ends. -/
theorem firstT_acc (hP : Proper C A B) {n t0 : Nat} {v : SVH} (h : unifyH on n C t0 A B = .val (.found v)) : Acc (NextT on C A B) v := by
  have hc := C56_answers hP (HCalls.first h) v.sv (by simp)
  obtain ⟨s, hs, ha⟩ := calls_at hP hc
  refine ⟨_, fun w ⟨t, m, n, hw⟩ => ?_⟩
  cases m with
  | zero => cases hw
  | succ m =>
    rw [next_cont] at hw
    dsimp only at hw
    rw [hs] at hw
    have := unifyNext_eq hP n t s
    rw [this] at hw
    by_cases he : early C A B = true
    · rw [if_pos he] at hw; cases hw
    · rw [if_neg he] at hw
      exact treeT_acc hP (ha.2 t) v.filter m n n w hw

theorem hcalls_acc (hP : Proper C A B) {l : List SV} {v : SVH} (h : HCalls on C A B l v) : Acc (NextT on C A B) v := by
  induction h with
  | first h => exact firstT_acc hP h
  | next _ h ih => exact ih.inv ⟨_, _, _, h⟩

end MM.Unif
