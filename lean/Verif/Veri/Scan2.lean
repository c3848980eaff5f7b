import Verif.Veri.Scan
/-! # One step of the matching loop, the whole loop, the uniqueness check -/
namespace MM.Veri
open MM.Spec

theorem slice_cons {I : List Nat} {a n x : Nat} (h : I[a]? = some x) :
    slice I a (n + 1) = x :: slice I (a + 1) n := by
  have hl : a < I.length := by
    by_contra h2; rw [List.getElem?_eq_none (by omega)] at h; cases h
  rw [List.getElem?_eq_getElem hl] at h
  rw [slice, slice, List.drop_eq_getElem_cons hl, List.take_succ_cons, Option.some.inj h]

theorem cmpRun_spec (I : List Nat) : ∀ (n a q : Nat), a + n ≤ I.length →
    ∃ b, cmpRun I a q n = .val b ∧ (b = true ↔ q + n ≤ I.length ∧ slice I a n = slice I q n ∨ n = 0) := by
  intro n
  induction n with
  | zero => intro a q _; exact ⟨true, rfl, by simp⟩
  | succ n ih =>
    intro a q ha
    unfold cmpRun
    by_cases hq : q ≥ I.length
    · rw [if_pos hq]
      refine ⟨false, rfl, ?_⟩
      simp; omega
    · rw [if_neg hq]
      have h1 : I[a]? = some I[a] := List.getElem?_eq_getElem (by omega)
      have h2 : I[q]? = some I[q] := List.getElem?_eq_getElem (by omega)
      rw [h1, h2]
      dsimp only
      by_cases e : I[a] = I[q]
      · rw [if_neg (by simpa using e)]
        obtain ⟨b, hb, hiff⟩ := ih (a + 1) (q + 1) (by omega)
        refine ⟨b, hb, ?_⟩
        rw [hiff, slice_cons h1, slice_cons h2, e]
        simp only [List.cons.injEq, true_and]
        constructor
        · rintro (⟨h3, h4⟩ | h3)
          · exact Or.inl ⟨by omega, h4⟩
          · subst h3; exact Or.inl ⟨by omega, by simp [slice]⟩
        · rintro (⟨h3, h4⟩ | h3)
          · exact Or.inl ⟨by omega, h4⟩
          · omega
      · rw [if_pos e]
        refine ⟨false, rfl, ?_⟩
        rw [slice_cons h1, slice_cons h2]
        simp [e]

/-- Number of separators passed is the same on both sides. -/
theorem inv_count {c : Ctx} (hc : Pre c) {s : Scan} (h : Inv c s) :
    (c.S.take s.p).count c.sep = (c.I.take s.q).count c.sep := by
  rw [h.pre_eq, count_subst hc.sep_con]
  intro t ht hv
  have : t ∈ c.vars.take s.nv := by rw [← h.ev, mem_extractVars]; exact ⟨ht, hv⟩
  rw [List.mem_take_iff_getElem] at this
  obtain ⟨i, hi, rfl⟩ := this
  rw [asg_vars (by omega)]
  exact h.nosep i (by omega)

theorem count_split {l : List Nat} {p t x : Nat} (h : l[p]? = some t) :
    l.count x = (l.take p).count x + (if t = x then 1 else 0) + (l.drop (p + 1)).count x := by
  conv_lhs => rw [← List.take_append_drop (p + 1) l, take_succ_of_get h]
  simp only [List.count_append, List.count_singleton]
  simp

theorem last_count {l : List Nat} {p x : Nat} (h : ∃ l', l = l' ++ [x]) (hp : p + 1 < l.length) :
    1 ≤ (l.drop (p + 1)).count x := by
  obtain ⟨l', rfl⟩ := h
  rw [List.drop_append_of_le_length (by simp at hp; omega)]
  simp

/-- Matching constants can only be separators at both ends or strictly inside both. -/
theorem const_advance {c : Ctx} (hc : Pre c) {s : Scan} (h : Inv c s) {t : Nat}
    (hS : c.S[s.p]? = some t) (hI : c.I[s.q]? = some t)
    (hnd : ¬ (s.p = c.S.length - 1 ∧ s.q = c.I.length - 1)) :
    s.p + 1 < c.S.length ∧ s.q + 1 < c.I.length := by
  have hcn := hc.cnt
  have h0 := inv_count hc h
  have e1 := count_split (x := c.sep) hS
  have e2 := count_split (x := c.sep) hI
  have hp := h.p_lt
  have hq := h.q_lt
  obtain ⟨S', hS'⟩ := hc.S_last
  by_cases a : s.p + 1 < c.S.length
  · refine ⟨a, ?_⟩
    by_contra b
    have : c.sep = t := by
      obtain ⟨I', hI'⟩ := hc.I_last
      have : s.q = I'.length := by rw [hI'] at hq b; simp at hq b; omega
      rw [hI', this] at hI; simpa using hI
    rw [if_pos this.symm] at e1 e2
    have := last_count hc.S_last a
    have h4 : (c.I.drop (s.q + 1)).count c.sep = 0 := by
      rw [List.drop_eq_nil_of_le (by omega)]; rfl
    omega
  · exfalso
    have : c.sep = t := by
      have : s.p = S'.length := by rw [hS'] at hp a; simp at hp a; omega
      rw [hS', this] at hS; simpa using hS
    rw [if_pos this.symm] at e1 e2
    have h4 : (c.S.drop (s.p + 1)).count c.sep = 0 := by
      rw [List.drop_eq_nil_of_le (by omega)]; rfl
    have h5 : s.q + 1 < c.I.length := by
      by_contra b; exact hnd ⟨by omega, by omega⟩
    have := last_count hc.I_last h5
    omega

theorem var_advance {c : Ctx} (hc : Pre c) {s : Scan} {t : Nat} (h : s.p < c.S.length)
    (hS : c.S[s.p]? = some t) (hv : c.isVar t = true) : s.p + 1 < c.S.length := by
  by_contra a
  obtain ⟨S', hS'⟩ := hc.S_last
  have : s.p = S'.length := by rw [hS'] at h a; simp at h a; omega
  rw [hS', this] at hS
  have : c.sep = t := by simpa using hS
  rw [← this, hc.sep_con] at hv; cases hv

/-- Termination measure. -/
def meas (c : Ctx) (s : Scan) : Nat :=
  ((c.I.length + 1) ^ c.vars.length - rank c s.nv s.len) * (c.S.length + 1) + (c.S.length - s.p)

theorem Inv.rank_lt {c : Ctx} {s : Scan} (h : Inv c s) :
    rank c s.nv s.len < (c.I.length + 1) ^ c.vars.length :=
  MM.Veri.rank_lt h.nv_le (fun i hi => by have := h.fits i hi; omega)

theorem meas_lt_of_rank {c : Ctx} {s s' : Scan} (h' : Inv c s')
    (hr : rank c s.nv s.len < rank c s'.nv s'.len) : meas c s' < meas c s := by
  have h1 := h'.rank_lt
  unfold meas
  generalize rank c s.nv s.len = r at *
  generalize rank c s'.nv s'.len = r' at *
  generalize (c.I.length + 1) ^ c.vars.length = B at *
  have : (B - r' + 1) * (c.S.length + 1) ≤ (B - r) * (c.S.length + 1) :=
    Nat.mul_le_mul_right _ (by omega)
  rw [Nat.add_mul] at this
  omega

theorem meas_lt_of_p {c : Ctx} {s s' : Scan} (hr : rank c s'.nv s'.len = rank c s.nv s.len)
    (hp : s'.p = s.p + 1) (hlt : s.p < c.S.length) : meas c s' < meas c s := by
  unfold meas
  rw [hr, hp]
  omega

/-- A mismatch: the current partial assignment cannot be extended to a solution. -/
def Dead (c : Ctx) (s : Scan) : Prop := ∀ σ, Match c σ → ¬ Agree c σ s.len s.nv

theorem backtrack_step {c : Ctx} (hc : Pre c) (b : Nat) {s : Scan} (h : Inv c s) (hd : Dead c s) :
    match backtrack c b s.len s.start s.nv with
    | .cont s' => Inv c s' ∧ meas c s' < meas c s ∧ rank c s.nv s.len ≤ rank c s'.nv s'.len ∧
        ∀ P, Comp c s.nv s.len P → Comp c s'.nv s'.len P
    | .done s' => s' = s ∧ s.p + 1 = c.S.length ∧ s.q + 1 = c.I.length
    | .fail => ∀ P, Comp c s.nv s.len P → ∀ σ, Match c σ → P σ
    | _ => False := by
  have key := fun P => backtrack_spec hc b s.start (rank c s.nv s.len) P s.nv s.len h.toInvA rank_le_next
  split
  · rename_i s' heq
    have k1 := key (fun _ => True)
    rw [heq] at k1
    refine ⟨k1.1, meas_lt_of_rank k1.1 k1.2.1, Nat.le_of_lt k1.2.1, ?_⟩
    intro P hP
    have k2 := key P
    rw [heq] at k2
    exact k2.2.2 (fun σ hm hh => hh.elim (fun h1 => hP σ hm h1) (fun h1 => absurd h1 (hd σ hm)))
  · rename_i s' heq
    have k2 := key (fun _ => True)
    rw [heq] at k2; exact k2.elim
  · rename_i heq
    intro P hP
    have k2 := key P
    rw [heq] at k2
    exact k2 (fun σ hm hh => hh.elim (fun h1 => hP σ hm h1) (fun h1 => absurd h1 (hd σ hm)))
  · rename_i s1 h1 h2 h3
    have k2 := key (fun _ => True)
    revert k2 h1 h2 h3
    cases backtrack c b s.len s.start s.nv <;> simp

theorem scanStep_spec {c : Ctx} (hc : Pre c) {s : Scan} (h : Inv c s) :
    match scanStep c s with
    | .cont s' => Inv c s' ∧ meas c s' < meas c s ∧ rank c s.nv s.len ≤ rank c s'.nv s'.len ∧
        ∀ P, Comp c s.nv s.len P → Comp c s'.nv s'.len P
    | .done s' => s' = s ∧ s.p + 1 = c.S.length ∧ s.q + 1 = c.I.length
    | .fail => ∀ P, Comp c s.nv s.len P → ∀ σ, Match c σ → P σ
    | _ => False := by
  have hp := h.p_lt
  have hq := h.q_lt
  unfold scanStep
  by_cases hd : s.p = c.S.length - 1 ∧ s.q = c.I.length - 1
  · rw [if_pos hd]; exact ⟨rfl, by omega, by omega⟩
  rw [if_neg hd]
  have hS : c.S[s.p]? = some c.S[s.p] := List.getElem?_eq_getElem hp
  have hI : c.I[s.q]? = some c.I[s.q] := List.getElem?_eq_getElem hq
  rw [hS]
  dsimp only
  by_cases hv : c.isVar c.S[s.p] = true
  · -- variable
    rw [if_neg (by simp [hv])]
    have hadv := var_advance hc hp hS hv
    have hmem : c.S[s.p] ∈ c.S := List.getElem_mem hp
    have htv : c.S[s.p] ∈ c.vars := (mem_extractVars c.toToks c.S _).mpr ⟨hmem, hv⟩
    have htl : c.tmp c.S[s.p] < c.vars.length := List.idxOf_lt_length_iff.mpr htv
    have htg : c.vars[c.tmp c.S[s.p]] = c.S[s.p] := List.getElem_idxOf htl
    have hnl := h.nv_le
    have hev1 : extractVars c.toToks (c.S.take (s.p + 1)) = if c.S[s.p] ∈ c.vars.take s.nv then
        c.vars.take s.nv else c.vars.take s.nv ++ [c.S[s.p]] := by
      rw [take_succ_of_get hS, extractVars_snoc, if_pos hv, h.ev]
    by_cases hnew : c.tmp c.S[s.p] ≥ s.nv
    · rw [if_pos hnew]
      have hnm : c.S[s.p] ∉ c.vars.take s.nv := fun hh => by
        have := idxOf_lt_of_mem_take hh
        unfold Ctx.tmp at hnew; omega
      rw [if_neg hnm] at hev1
      have hpf := extractVars_take_prefix c (s.p + 1)
      rw [hev1] at hpf
      have hl1 := hpf.length_le
      simp only [List.length_append, List.length_take, List.length_singleton] at hl1
      have hn : s.nv < c.vars.length := by omega
      have hvn : c.vars[s.nv] = c.S[s.p] := by
        have hx := hpf.getElem (i := s.nv) (by simp; omega)
        rw [List.getElem_append_right (by simp)] at hx
        simpa using hx.symm
      have hteq : c.tmp c.S[s.p] = s.nv := by rw [← hvn, tmp_vars c hn]
      rw [if_neg (by simpa using hteq), hteq]
      have hfr : c.frst s.nv = s.p := by
        have hns : c.vars[s.nv] ∉ c.S.take s.p := by
          intro hh
          apply hnm
          rw [← h.ev, mem_extractVars]
          exact ⟨hvn ▸ hh, hv⟩
        have h5 : ¬ c.frst s.nv < s.p := by
          rw [frst_lt_iff c hnl hn h.ev]; omega
        have h6 : c.S.idxOf c.S[s.p] ≤ s.p := by
          have : c.S[s.p] ∈ c.S.take (s.p + 1) := by
            rw [List.mem_take_iff_getElem]; exact ⟨s.p, by omega, rfl⟩
          have := idxOf_lt_of_mem_take this
          omega
        have h7 : c.frst s.nv = c.S.idxOf c.S[s.p] := by
          unfold Ctx.frst; rw [List.getD_eq_getElem _ _ hn, hvn]
        omega
      have hasg : ∀ j, j < s.nv → ∀ hj : j < c.vars.length,
          asg c (upd s.len s.nv 0) (upd s.start s.nv s.q) c.vars[j] = asg c s.len s.start c.vars[j] := by
        intro j hj hjl
        rw [asg_vars hjl, asg_vars hjl, upd_other _ _ (by omega), upd_other _ _ (by omega)]
      have hpre : c.I.take s.q =
          subst c.isVar (asg c (upd s.len s.nv 0) (upd s.start s.nv s.q)) (c.S.take s.p) := by
        rw [h.pre_eq]; exact (subst_take_congr h.ev hasg).symm
      have hA0 : InvA c s.nv (upd s.len s.nv 0) (upd s.start s.nv s.q) := {
        nv_le := hnl
        fits := fun i hi => by
          rw [upd_other _ _ (by omega), upd_other _ _ (by omega)]; exact h.fits i hi
        pre := fun i hi => by
          rw [upd_other _ _ (by omega), h.pre i hi]
          exact (subst_take_congr (extractVars_frst c (by omega))
            (fun j hj hjl => hasg j (by omega) hjl)).symm
        nosep := fun i hi => by
          rw [upd_other _ _ (by omega), upd_other _ _ (by omega)]; exact h.nosep i hi }
      have hA : InvA c (s.nv + 1) (upd s.len s.nv 0) (upd s.start s.nv s.q) := by
        apply hA0.push hn
        · simp only [upd_same]; omega
        · rw [upd_same, hfr]; exact hpre
        · simp [slice]
      refine ⟨{ hA with p_lt := hadv, q_lt := hq, ev := ?_, pre_eq := ?_ }, ?_, Nat.le_of_eq (rank_succ_zero hn).symm, ?_⟩
      · show extractVars c.toToks (c.S.take (s.p + 1)) = c.vars.take (s.nv + 1)
        rw [hev1, List.take_add_one, List.getElem?_eq_getElem hn, hvn]; rfl
      · show c.I.take s.q = subst c.isVar _ (c.S.take (s.p + 1))
        rw [take_succ_of_get hS, subst_append, ← hpre, subst_singleton, if_pos hv]
        simp [asg, hteq, slice]
      · exact meas_lt_of_p (s := s) (rank_succ_zero hn) rfl hp
      · intro P hP σ hm ⟨j, hj, hjv, he, hl⟩
        have hjn : j ≠ s.nv := by
          rintro rfl
          dsimp only at hl
          rw [upd_same] at hl; omega
        refine hP σ hm ⟨j, hj, ?_, ?_, ?_⟩
        · dsimp only at hjv; omega
        · intro i hi
          have := he i hi
          dsimp only at this hjv
          rwa [upd_other _ _ (by omega)] at this
        · dsimp only at hl
          rwa [upd_other _ _ (by omega)] at hl
    · rw [if_neg hnew]
      have hlt : c.tmp c.S[s.p] < s.nv := by omega
      have hfit := h.fits _ hlt
      have hin : c.S[s.p] ∈ c.vars.take s.nv := mem_take_of_idxOf_lt htv hlt
      rw [if_pos hin] at hev1
      obtain ⟨b, hb, hiff⟩ := cmpRun_spec c.I (s.len (c.tmp c.S[s.p])) (s.start (c.tmp c.S[s.p])) s.q (by omega)
      rw [hb]
      cases b with
      | true =>
        dsimp only
        have hor := hiff.mp rfl
        have heq : slice c.I (s.start (c.tmp c.S[s.p])) (s.len (c.tmp c.S[s.p])) =
            slice c.I s.q (s.len (c.tmp c.S[s.p])) := by
          rcases hor with hor | hor
          · exact hor.2
          · rw [hor]; simp [slice]
        have hqq : s.q + s.len (c.tmp c.S[s.p]) < c.I.length := by
          rcases hor with ⟨hor, _⟩ | hor
          · by_contra hcon
            have hns := h.nosep _ hlt
            rw [heq] at hns
            apply hns
            have hlen : 0 < s.len (c.tmp c.S[s.p]) := by omega
            obtain ⟨I', hI'⟩ := hc.I_last
            have hsp : c.I[s.q + (s.len (c.tmp c.S[s.p]) - 1)]? = some c.sep := by
              have : s.q + (s.len (c.tmp c.S[s.p]) - 1) = I'.length := by
                have := congrArg List.length hI'
                simp at this; omega
              rw [this, hI']; simp
            have h9 := slice_succ hsp
            rw [show s.len (c.tmp c.S[s.p]) - 1 + 1 = s.len (c.tmp c.S[s.p]) by omega] at h9
            rw [h9]; simp
          · omega
        refine ⟨{ h.toInvA with p_lt := hadv, q_lt := hqq, ev := hev1, pre_eq := ?_ }, ?_, Nat.le_refl _, ?_⟩
        · show c.I.take (s.q + _) = subst c.isVar (asg c s.len s.start) (c.S.take (s.p + 1))
          rw [take_succ_of_get hS, subst_append, ← h.pre_eq, subst_singleton, if_pos hv, asg, heq, take_slice]
        · exact meas_lt_of_p (s := s) rfl rfl hp
        · exact fun P hP => hP
      | false =>
        dsimp only
        apply backtrack_step hc 2106 h
        intro σ hm ha
        have hrest := agree_rest h hm ha hS
        rw [if_pos hv] at hrest
        have hs := agree_asg h.toInvA hm ha _ hlt htl
        rw [htg] at hs
        have : False := by
          have hlen := ha _ hlt htl
          rw [htg] at hlen
          have hnf : ¬ (s.q + s.len (c.tmp c.S[s.p]) ≤ c.I.length ∧
              slice c.I (s.start (c.tmp c.S[s.p])) (s.len (c.tmp c.S[s.p])) =
              slice c.I s.q (s.len (c.tmp c.S[s.p])) ∨ s.len (c.tmp c.S[s.p]) = 0) := by
            intro hh; exact absurd (hiff.mpr hh) (by simp)
          apply hnf
          left
          have hll := congrArg List.length hrest
          simp only [List.length_append, List.length_take] at hll
          refine ⟨by omega, ?_⟩
          rw [← hs]
          conv_rhs => rw [slice, hrest]
          rw [List.append_assoc, List.drop_append_of_le_length (by rw [List.length_take]; omega),
            List.drop_eq_nil_of_le (by rw [List.length_take]; omega), List.nil_append,
            List.take_append_of_le_length (by omega), List.take_of_length_le (by omega)]
        exact this
  · -- constant
    have hv' : c.isVar c.S[s.p] = false := by simpa using hv
    rw [if_pos hv', hI]
    dsimp only
    by_cases he : c.S[s.p] = c.I[s.q]
    · rw [if_pos he]
      have hadv := const_advance hc h hS (by rw [hI, he]) hd
      refine ⟨{ h.toInvA with p_lt := hadv.1, q_lt := hadv.2, ev := ?_, pre_eq := ?_ }, ?_, Nat.le_refl _, fun P hP => hP⟩
      · show extractVars c.toToks (c.S.take (s.p + 1)) = _
        rw [take_succ_of_get hS, extractVars_snoc, if_neg hv]; exact h.ev
      · show c.I.take (s.q + 1) = subst c.isVar _ (c.S.take (s.p + 1))
        rw [take_succ_of_get hS, take_succ_of_get hI, subst_append, subst_singleton, if_neg hv, h.pre_eq, he]
      · exact meas_lt_of_p (s := s) rfl rfl hp
    · rw [if_neg he]
      apply backtrack_step hc 2104 h
      intro σ hm ha
      have hrest := agree_rest h hm ha hS
      rw [if_neg hv] at hrest
      apply he
      have hI2 : c.I[s.q]? = some c.S[s.p] := by
        conv_lhs => rw [hrest]
        rw [List.append_assoc, List.getElem?_append_right (by rw [List.length_take]; omega),
          List.length_take, show s.q - min s.q c.I.length = 0 by omega]
        simp
      rw [hI] at hI2
      exact (Option.some.inj hI2).symm

theorem scan_spec {c : Ctx} (hc : Pre c) : ∀ (n : Nat) (s : Scan), Inv c s → meas c s < n →
    match scan c n s with
    | .done s' => Inv c s' ∧ s'.p + 1 = c.S.length ∧ s'.q + 1 = c.I.length ∧
        rank c s.nv s.len ≤ rank c s'.nv s'.len ∧
        ∀ P, Comp c s.nv s.len P → Comp c s'.nv s'.len P
    | .fail => ∀ P, Comp c s.nv s.len P → ∀ σ, Match c σ → P σ
    | _ => False := by
  intro n
  induction n with
  | zero => intro s _ h; omega
  | succ n ih =>
    intro s hi hm
    have hs := scanStep_spec hc hi
    unfold scan
    cases hst : scanStep c s with
    | cont s' =>
      rw [hst] at hs
      dsimp only at hs ⊢
      have := ih s' hs.1 (by omega)
      split at this
      · exact ⟨this.1, this.2.1, this.2.2.1, Nat.le_trans hs.2.2.1 this.2.2.2.1,
          fun P hP => this.2.2.2.2 P (hs.2.2.2 P hP)⟩
      · exact fun P hP => this P (hs.2.2.2 P hP)
      · exact this
    | done s' =>
      rw [hst] at hs
      dsimp only at hs ⊢
      obtain ⟨rfl, h1, h2⟩ := hs
      exact ⟨hi, h1, h2, Nat.le_refl _, fun P hP => hP⟩
    | fail => rw [hst] at hs; exact hs
    | ub => rw [hst] at hs; exact hs
    | bug k => rw [hst] at hs; exact hs

theorem inv_init {c : Ctx} (hc : Pre c) : Inv c Scan.init := by
  obtain ⟨S', hS⟩ := hc.S_last
  obtain ⟨I', hI⟩ := hc.I_last
  refine { nv_le := ?_, fits := ?_, pre := ?_, nosep := ?_, p_lt := ?_, q_lt := ?_, ev := ?_, pre_eq := ?_ }
  all_goals simp [Scan.init, hS, hI, extractVars, subst_nil]

theorem meas_lt_fuel (c : Ctx) (s : Scan) : meas c s < fuelBound c := by
  unfold meas fuelBound
  have : ((c.I.length + 1) ^ c.vars.length - rank c s.nv s.len) * (c.S.length + 1) ≤
    (c.I.length + 1) ^ c.vars.length * (c.S.length + 1) := Nat.mul_le_mul_right _ (by omega)
  omega

/-- When the loop is finished, all variables are assigned and the assignment is a solution. -/
theorem done_match {c : Ctx} (hc : Pre c) {s : Scan} (h : Inv c s) (hp : s.p + 1 = c.S.length)
    (hq : s.q + 1 = c.I.length) : s.nv = c.vars.length ∧ Match c (asg c s.len s.start) := by
  obtain ⟨S', hS⟩ := hc.S_last
  obtain ⟨I', hI⟩ := hc.I_last
  have hp' : s.p = S'.length := by rw [hS] at hp; simpa using hp
  have hq' : s.q = I'.length := by rw [hI] at hq; simpa using hq
  have h1 : c.S.take s.p = S' := by rw [hS, hp']; simp
  have h2 : c.I.take s.q = I' := by rw [hI, hq']; simp
  have hev := h.ev
  have hpe := h.pre_eq
  rw [h1] at hev hpe
  rw [h2] at hpe
  constructor
  · have : c.vars = c.vars.take s.nv := by
      rw [← hev]
      show extractVars c.toToks c.S = _
      rw [hS, extractVars_snoc, if_neg (by simp [hc.sep_con])]
    have := congrArg List.length this
    rw [List.length_take] at this
    have := h.nv_le
    omega
  · unfold Match
    rw [hS, hI, subst_append, ← hpe, subst_singleton, if_neg (by simp [hc.sep_con])]

end MM.Veri
