import Verif.Veri.Scan2
/-! # The uniqueness check -/
namespace MM.Veri
open MM.Spec

theorem scan_first {c : Ctx} (hc : Pre c) :
    match scan c (fuelBound c) Scan.init with
    | .done s => Inv c s ∧ s.p + 1 = c.S.length ∧ s.q + 1 = c.I.length ∧
        s.nv = c.vars.length ∧ Match c (asg c s.len s.start) ∧
        ∀ σ, Match c σ → ¬ Lt c σ s.len s.nv
    | .fail => ∀ σ, ¬ Match c σ
    | _ => False := by
  have h := scan_spec hc (fuelBound c) _ (inv_init hc) (meas_lt_fuel _ _)
  have h0 : Comp c Scan.init.nv Scan.init.len (fun _ => False) := by
    intro σ hm ⟨j, hj, hjv, _⟩
    exact absurd hjv (Nat.not_lt_zero j)
  cases hres : scan c (fuelBound c) Scan.init <;> rw [hres] at h <;> dsimp only at h ⊢
  · obtain ⟨h1, h2, h3, _, h4⟩ := h
    exact ⟨h1, h2, h3, (done_match hc h1 h2 h3).1, (done_match hc h1 h2 h3).2, h4 _ h0⟩
  · exact h _ h0

theorem prepare_spec {c : Ctx} (hc : Pre c) (start : Nat → Nat) (r : Nat)
    (P : (Nat → List Nat) → Prop) :
    ∀ (nv : Nat) (len : Nat → Nat), InvA c nv len start →
    r < (digits c len nv + 1) * (c.I.length + 1) ^ (c.vars.length - nv) →
    match prepare c len start nv with
    | .cont s' => Inv c s' ∧ r < rank c s'.nv s'.len ∧
        ((∀ σ, Match c σ → Lt c σ len nv ∨ Agree c σ len nv → P σ) → Comp c s'.nv s'.len P)
    | .fail => (∀ σ, Match c σ → Lt c σ len nv ∨ Agree c σ len nv → P σ) → ∀ σ, Match c σ → P σ
    | .bug n => n = 2110 ∧ ∃ v < nv, start v + len v + 1 = c.I.length
    | _ => False := by
  intro nv
  induction nv with
  | zero =>
    intro len hA hr
    simp only [prepare]
    intro h σ hm
    exact h σ hm (Or.inr (fun i hi => absurd hi (Nat.not_lt_zero i)))
  | succ v ih =>
    intro len hA hr
    have hv : v < c.vars.length := hA.nv_le
    have hfit := hA.fits v (by omega)
    have hq : start v + upd len v (len v + 1) v - 1 = start v + len v := by rw [upd_same]; omega
    simp only [prepare, hq, List.getElem?_eq_getElem hfit]
    by_cases hx : c.I[start v + len v] = c.sep
    · rw [if_neg (by simpa using hx)]
      have hg : c.I[start v + len v]? = some c.sep := by rw [List.getElem?_eq_getElem hfit, hx]
      by_cases hb : start v + upd len v (len v + 1) v ≥ c.I.length
      · simp only [if_pos hb]
        rw [upd_same] at hb
        exact ⟨trivial, v, by omega, by omega⟩
      rw [if_neg hb]
      have := ih (upd len v (len v + 1)) ((hA.mono (Nat.le_succ v)).upd_len _) (by
        rw [digits_upd (Nat.le_refl _)]
        exact Nat.lt_of_lt_of_le hr (next_pop hv (by omega)))
      have key : ∀ σ, Match c σ → Lt c σ (upd len v (len v + 1)) v ∨ Agree c σ (upd len v (len v + 1)) v →
          Lt c σ len (v + 1) ∨ Agree c σ len (v + 1) := by
        intro σ hm hh
        apply lt_pop hc hm hA hg
        rcases hh with ⟨j, hj, hjv, he, hl⟩ | ha
        · left
          refine ⟨j, hj, hjv, ?_, ?_⟩
          · intro i hi; rw [he i hi, upd_other _ _ (by omega)]
          · rwa [upd_other _ _ (by omega)] at hl
        · right
          intro i hi hil
          rw [ha i hi hil, upd_other _ _ (by omega)]
      split at this
      · obtain ⟨h1, h2, h3⟩ := this
        refine ⟨h1, h2, fun h => h3 (fun σ hm hh => h σ hm (key σ hm hh))⟩
      · exact fun h => this (fun σ hm hh => h σ hm (key σ hm hh))
      · obtain ⟨h1, w, h2, h3⟩ := this
        refine ⟨h1, w, by omega, ?_⟩
        rwa [upd_other _ _ (by omega)] at h3
      · exact this
    · rw [if_pos hx]
      have hg : c.I[start v + len v]? = some c.I[start v + len v] := List.getElem?_eq_getElem hfit
      refine ⟨?_, ?_, ?_⟩
      · have := inv_bump hc hA hg hx
        simpa only [upd_same] using this
      · show r < rank c (v + 1) (upd len v (len v + 1))
        have : rank c (v + 1) (upd len v (len v + 1)) =
          (digits c len (v + 1) + 1) * (c.I.length + 1) ^ (c.vars.length - (v + 1)) := by
          simp only [rank, digits, digits_upd (Nat.le_refl _), upd_same]
          rfl
        omega
      · intro h σ hm hh
        exact h σ hm (lt_bump hh)

/-- Length of a substitution instance when the value at one variable is longer. -/
theorem subst_length_le {isVar : Nat → Bool} {σ τ : Nat → List Nat} {m : List Nat}
    (h : ∀ t ∈ m, isVar t = true → (σ t).length ≤ (τ t).length) :
    (subst isVar σ m).length ≤ (subst isVar τ m).length := by
  induction m with
  | nil => simp [subst]
  | cons a m ih =>
    rw [subst_cons, subst_cons, List.length_append, List.length_append]
    have h1 := ih (fun t ht => h t (List.mem_cons_of_mem _ ht))
    by_cases hv : isVar a = true
    · have := h a List.mem_cons_self hv
      simp only [hv, if_true]; omega
    · simp only [hv]; simpa using h1

theorem subst_length_lt {isVar : Nat → Bool} {σ τ : Nat → List Nat} {m : List Nat}
    (h : ∀ t ∈ m, isVar t = true → (σ t).length ≤ (τ t).length)
    {x : Nat} (hx : x ∈ m) (hv : isVar x = true) (hl : (σ x).length < (τ x).length) :
    (subst isVar σ m).length < (subst isVar τ m).length := by
  obtain ⟨A, B, rfl⟩ := List.append_of_mem hx
  rw [subst_append, subst_append, subst_cons, subst_cons, if_pos hv, if_pos hv]
  simp only [List.length_append]
  have hA := subst_length_le (m := A) (fun t ht => h t (by simp [ht]))
  have hB := subst_length_le (m := B) (fun t ht => h t (by simp [ht]))
  omega

/-- Two solutions with the same lengths for all but the last variable have the same
length for it too. -/
theorem agree_last {c : Ctx} {σ τ : Nat → List Nat} (hs : Match c σ) (ht : Match c τ)
    (h : ∀ i, i + 1 < c.vars.length → ∀ hi : i < c.vars.length,
      (σ c.vars[i]).length = (τ c.vars[i]).length) :
    ∀ i, ∀ hi : i < c.vars.length, (σ c.vars[i]).length = (τ c.vars[i]).length := by
  intro i hi
  by_cases e : i + 1 < c.vars.length
  · exact h i e hi
  have hmem : c.vars[i] ∈ c.S := ((mem_extractVars c.toToks c.S _).mp (List.getElem_mem hi)).1
  have hle : ∀ ρ μ : Nat → List Nat, (ρ c.vars[i]).length ≤ (μ c.vars[i]).length →
      (∀ j, j + 1 < c.vars.length → ∀ hj : j < c.vars.length,
        (ρ c.vars[j]).length = (μ c.vars[j]).length) →
      ∀ t ∈ c.S, c.isVar t = true → (ρ t).length ≤ (μ t).length := by
    intro ρ μ h1 h2 t ht hv
    have : t ∈ c.vars := (mem_extractVars c.toToks c.S _).mpr ⟨ht, hv⟩
    obtain ⟨j, hj, rfl⟩ := List.getElem_of_mem this
    by_cases e2 : j + 1 < c.vars.length
    · exact Nat.le_of_eq (h2 j e2 hj)
    · have : j = i := by omega
      subst this; exact h1
  unfold Match at hs ht
  rcases Nat.lt_trichotomy (σ c.vars[i]).length (τ c.vars[i]).length with hl | hl | hl
  · have := subst_length_lt (hle σ τ (by omega) h) hmem (isVar_vars c hi) hl
    rw [hs, ht] at this; omega
  · exact hl
  · have := subst_length_lt (hle τ σ (by omega) (fun j a b => (h j a b).symm)) hmem (isVar_vars c hi) hl
    rw [hs, ht] at this; omega

/-- Same lengths, same strings. -/
theorem match_eq_of_len {c : Ctx} {nv : Nat} {len start : Nat → Nat} (hA : InvA c nv len start)
    (hn : nv = c.vars.length) {σ} (hs : Match c σ)
    (h : ∀ i, ∀ hi : i < c.vars.length, (σ c.vars[i]).length = len i) :
    ∀ t ∈ c.S, c.isVar t = true → σ t = asg c len start t := by
  intro t ht hv
  have : t ∈ c.vars := (mem_extractVars c.toToks c.S _).mpr ⟨ht, hv⟩
  obtain ⟨j, hj, rfl⟩ := List.getElem_of_mem this
  rw [agree_asg hA hs (fun i _ hi => h i hi) j (by omega) hj, asg_vars hj]

/-- The result of the uniqueness check following a first solution `s`. -/
theorem uniq_spec {c : Ctx} (hc : Pre c) {s : Scan} (h : Inv c s) (hn : s.nv = c.vars.length)
    (hm1 : Match c (asg c s.len s.start)) (hlex : ∀ σ, Match c σ → ¬ Lt c σ s.len s.nv) :
    match prepare c s.len s.start (s.nv - 1) with
    | .fail => ∀ σ, Match c σ → ∀ t ∈ c.S, c.isVar t = true → σ t = asg c s.len s.start t
    | .bug n => n = 2110 ∧ ∃ v < s.nv - 1, s.start v + s.len v + 1 = c.I.length
    | .cont s1 =>
      match scan c (fuelBound c) s1 with
      | .done s2 => Inv c s2 ∧ s2.nv = c.vars.length ∧ Match c (asg c s2.len s2.start) ∧
          ∃ t ∈ c.S, c.isVar t = true ∧ asg c s2.len s2.start t ≠ asg c s.len s.start t
      | .fail => ∀ σ, Match c σ → ∀ t ∈ c.S, c.isVar t = true → σ t = asg c s.len s.start t
      | _ => False
    | _ => False := by
  have hlen1 : ∀ i, ∀ hi : i < c.vars.length, (asg c s.len s.start c.vars[i]).length = s.len i := by
    intro i hi
    rw [asg_vars hi, slice_length (by have := h.fits i (by omega); omega)]
  let P : (Nat → List Nat) → Prop := fun σ =>
    ∀ t ∈ c.S, c.isVar t = true → σ t = asg c s.len s.start t
  have hA1 : InvA c (s.nv - 1) s.len s.start := h.toInvA.mono (by omega)
  have hbase : ∀ σ, Match c σ → Lt c σ s.len (s.nv - 1) ∨ Agree c σ s.len (s.nv - 1) → P σ := by
    intro σ hm hh
    rcases hh with ⟨j, hj, hjv, he, hl⟩ | ha
    · exact absurd ⟨j, hj, by omega, he, hl⟩ (hlex σ hm)
    · apply match_eq_of_len h.toInvA hn hm
      have := agree_last hm hm1 (fun i hi hil => by
        rw [ha i (by omega) hil, hlen1 i hil])
      intro i hi; rw [this i hi, hlen1 i hi]
  have hr : rank c s.nv s.len <
      (digits c s.len (s.nv - 1) + 1) * (c.I.length + 1) ^ (c.vars.length - (s.nv - 1)) := by
    by_cases e : s.nv = 0
    · have := rank_le_next (c := c) (len := s.len) (v := s.nv)
      rw [e] at this ⊢; exact this
    · have h1 := rank_le_next (c := c) (len := s.len) (v := s.nv)
      have h2 := next_pop (c := c) (len := s.len) (v := s.nv - 1) (by omega)
        (by have := h.fits (s.nv - 1) (by omega); omega)
      rw [show s.nv - 1 + 1 = s.nv by omega] at h2
      omega
  have hp := prepare_spec hc s.start (rank c s.nv s.len) P (s.nv - 1) s.len hA1 hr
  cases heq : prepare c s.len s.start (s.nv - 1) <;> rw [heq] at hp <;> dsimp only at hp ⊢
  · rename_i s1
    obtain ⟨h1, h2, h3⟩ := hp
    have h3' := h3 hbase
    have hs := scan_spec hc (fuelBound c) s1 h1 (meas_lt_fuel _ _)
    cases heq2 : scan c (fuelBound c) s1 <;> rw [heq2] at hs <;> dsimp only at hs ⊢
    · rename_i s2
      obtain ⟨g1, g2, g3, g4, g5⟩ := hs
      obtain ⟨d1, d2⟩ := done_match hc g1 g2 g3
      refine ⟨g1, d1, d2, ?_⟩
      by_contra hcon
      push Not at hcon
      have hle : ∀ i, i < c.vars.length → s2.len i = s.len i := by
        intro i hi
        have hmem := (mem_extractVars c.toToks c.S _).mp (List.getElem_mem (l := c.vars) hi)
        have h8 := hcon _ hmem.1 hmem.2
        have h9 := congrArg List.length h8
        rw [hlen1 i hi, asg_vars hi, slice_length (by have := g1.fits i (by omega); omega)] at h9
        exact h9
      have hdig : ∀ k, k ≤ c.vars.length → digits c s2.len k = digits c s.len k := by
        intro k
        induction k with
        | zero => intro _; rfl
        | succ k ihk => intro hk; simp only [digits]; rw [ihk (by omega), hle k (by omega)]
      have : rank c s2.nv s2.len = rank c s.nv s.len := by
        unfold rank; rw [d1, hn, hdig _ (Nat.le_refl _)]
      omega
    · exact hs P h3'
  · exact hp hbase
  · exact hp

end MM.Veri
