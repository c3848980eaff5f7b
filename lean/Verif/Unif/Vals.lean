import Verif.Unif.HProps
/-!
# The values in an answer, and calls without a limit of trials
-/
namespace MM.Unif

variable {C : Cfg} {A B : List Nat} {on : Bool}

/-- A variable with a value is one of the schemes, and the variables in its value are variables of the schemes without a value. -/
theorem answer_vars (hK : ∀ t, C.mt < t → C.isCon t = false) (hP : Proper C A B) {v : SV} (h : Calls C A B (fun _ => True) v) {σ : Nat → List Nat} (hσ : SubstOf C v σ) :
    ∀ y, C.mt < y → σ y ≠ [y] → (y ∈ A ∨ y ∈ B) ∧ ∀ z ∈ σ y, C.mt < z → (z ∈ A ∨ z ∈ B) ∧ σ z = [z] := by
  obtain ⟨s, p, ps, rfl, hc, _⟩ := normalize_calls hP h
  intro y hy hne
  rw [substOf hK hc hσ hy] at hne ⊢
  have hm : y ∈ vars s.stk := Classical.byContradiction fun hn => hne (sol_unbound hn)
  refine ⟨(hc.unk y hm).2, fun z hz hz1 => ⟨hc.toks z hz1 (Or.inl ?_), ?_⟩⟩
  · obtain ⟨e, he⟩ := mem_zip_left hc.len hm
    rw [sol_bound hc he] at hz
    exact List.mem_of_mem_drop (List.mem_of_mem_take hz)
  · rw [substOf hK hc hσ hz1]
    exact sol_unbound (val_unbound hc hm hz)

/-- The substitution of an answer is a unifier; its values hold no separator. -/
theorem answer_unifies (hK : ∀ t, C.mt < t → C.isCon t = false) (hP : Proper C A B) {v : SV} (h : Calls C A B (fun _ => True) v) {σ : Nat → List Nat} (hσ : SubstOf C v σ) :
    inst C.mt σ A = inst C.mt σ B ∧ ∀ y, C.mt < y → C.mt ∉ σ y := by
  obtain ⟨τ, h1, h2, h3, h4, _⟩ := C48_unify_sound hK hP h
  have e : ∀ l, inst C.mt σ l = inst C.mt τ l := by
    intro l
    obtain ⟨f, hf⟩ := hσ l
    have := h1 l v.trials
    rw [show ({ v with trials := v.trials } : SV) = v from rfl, hf] at this
    injection this with this
    injection this with this _
  refine ⟨by rw [e, e, h2, h3], fun y hy => ?_⟩
  have := e [y]
  rw [inst_one hy, inst_one hy] at this
  rw [this]
  exact (h4 y hy).2.1

theorem unify_zero (hP : Proper C A B) {n : Nat} {v : SV} (h : unify n C 0 A B = .val (.found v)) : v.trials = 0 := by
  rw [unify_eq hP] at h
  by_cases he : early C A B = true
  · rw [if_pos he] at h; cases h
  · rw [if_neg he] at h
    obtain ⟨r, h1, h2⟩ := bind_inv h
    have hz := run_zero n h1 ⟨rfl, nofun⟩
    injection h2 with h2
    obtain ⟨l, s⟩ := r
    cases l <;> simp [result] at h2
    rw [← h2]
    exact hz.1

theorem unifyH_zero (hP : Proper C A B) {n : Nat} {r : ResH} (h : unifyH on n C 0 A B = .val r) : r ≠ .timeout ∧ ∀ v, r = .found v → v.sv.trials = 0 := by
  unfold unifyH at h
  obtain ⟨q, h1, h2⟩ := bind_inv h
  cases q with
  | none => cases h2; exact ⟨nofun, nofun⟩
  | timeout => exact absurd h1 (C49_unify_no_timeout hP n)
  | found w =>
    have := unify_zero hP h1
    dsimp only at h2
    cases on
    · rw [if_neg (by simp)] at h2; cases h2
      exact ⟨nofun, fun v hv => by cases hv; exact this⟩
    · rw [if_pos rfl] at h2
      obtain ⟨e, _, h2⟩ := bind_inv h2
      cases h2
      exact ⟨nofun, fun v hv => by cases hv; exact this⟩

theorem unifyNext_zero (hne : A ≠ [] ∧ B ≠ []) {n : Nat} {v : SV} (hv : v.trials = 0) {r : Res} (h : unifyNext n C A B v = .val r) :
    r ≠ .timeout ∧ ∀ w, r = .found w → w.trials = 0 := by
  unfold unifyNext at h
  rw [if_neg (by simp [hne])] at h
  by_cases he : early C A B = true
  · rw [if_pos he] at h; cases h; exact ⟨nofun, nofun⟩
  · rw [if_neg he] at h
    obtain ⟨q, h1, h2⟩ := bind_inv h
    have hz := run_zero n h1 ⟨hv, nofun⟩
    injection h2 with h2
    obtain ⟨l, s⟩ := q
    obtain ⟨z1, z2⟩ := hz
    cases l <;> simp [result] at h2 z1 z2 <;> subst h2 <;> refine ⟨nofun, ?_⟩ <;> intro w hw <;> cases hw
    exact z1

/-- A further call with the trial count 0 does not time out. -/
theorem next_no_timeout (hne : A ≠ [] ∧ B ≠ []) (m n : Nat) {v : SVH} (hv : v.sv.trials = 0) : unifyHNext on m n C A B v ≠ .val .timeout := by
  induction m generalizing v with
  | zero => exact nofun
  | succ m ih =>
    intro h
    rw [unifyHNext] at h
    obtain ⟨r, h1, h2⟩ := bind_inv h
    have hz := unifyNext_zero hne hv h1
    cases r with
    | none => cases h2
    | timeout => exact hz.1 rfl
    | found w =>
      dsimp only at h2
      by_cases hon : on = true
      · rw [if_pos hon] at h2
        obtain ⟨e, _, h2⟩ := bind_inv h2
        by_cases hf : e ∈ v.filter
        · rw [if_pos hf] at h2
          exact ih (v := ⟨w, v.filter⟩) (hz.2 w rfl) h2
        · rw [if_neg hf] at h2; cases h2
      · rw [if_neg hon] at h2; cases h2

end MM.Unif
