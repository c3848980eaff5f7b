import Verif.Veri.Lemmas
import Mathlib.Tactic.Ring
/-! # The matching loop: invariant, completeness, termination -/
namespace MM.Veri
open MM.Spec

/-- Preconditions of the matcher, established by `verifyProof` (mmveri.c 106–136): the
separator is a constant, both strings end with it and contain it equally often. -/
structure Pre (c : Ctx) : Prop where
  sep_con : c.isVar c.sep = false
  S_last : ∃ S', c.S = S' ++ [c.sep]
  I_last : ∃ I', c.I = I' ++ [c.sep]
  cnt : c.S.count c.sep = c.I.count c.sep

/-- The substitution described by the arrays. -/
def asg (c : Ctx) (len start : Nat → Nat) (t : Nat) : List Nat :=
  slice c.I (start (c.tmp t)) (len (c.tmp t))

/-- `σ` makes the scheme equal to the instance. -/
def Match (c : Ctx) (σ : Nat → List Nat) : Prop := subst c.isVar σ c.S = c.I

/-- What is known about the assigned variables `i < nv`. -/
structure InvA (c : Ctx) (nv : Nat) (len start : Nat → Nat) : Prop where
  nv_le : nv ≤ c.vars.length
  fits : ∀ i < nv, start i + len i < c.I.length
  pre : ∀ i < nv, c.I.take (start i) = subst c.isVar (asg c len start) (c.S.take (c.frst i))
  nosep : ∀ i < nv, c.sep ∉ slice c.I (start i) (len i)

structure Inv (c : Ctx) (s : Scan) : Prop extends InvA c s.nv s.len s.start where
  p_lt : s.p < c.S.length
  q_lt : s.q < c.I.length
  ev : extractVars c.toToks (c.S.take s.p) = c.vars.take s.nv
  pre_eq : c.I.take s.q = subst c.isVar (asg c s.len s.start) (c.S.take s.p)

/-- Lexicographically smaller than the current lengths, at a position below `nv`. -/
def Lt (c : Ctx) (σ : Nat → List Nat) (len : Nat → Nat) (nv : Nat) : Prop :=
  ∃ j, ∃ h : j < c.vars.length, j < nv ∧
    (∀ i, ∀ hi : i < j, (σ (c.vars[i]'(by omega))).length = len i) ∧ (σ c.vars[j]).length < len j

def Agree (c : Ctx) (σ : Nat → List Nat) (len : Nat → Nat) (nv : Nat) : Prop :=
  ∀ i, i < nv → ∀ h : i < c.vars.length, (σ c.vars[i]).length = len i

/-- Everything below the current position has property `P`. -/
def Comp (c : Ctx) (nv : Nat) (len : Nat → Nat) (P : (Nat → List Nat) → Prop) : Prop :=
  ∀ σ, Match c σ → Lt c σ len nv → P σ

/-! ## Basic facts -/

theorem slice_upd_ne {c : Ctx} {len start : Nat → Nat} {v x : Nat} {t : Nat} (h : c.tmp t ≠ v) :
    asg c (upd len v x) start t = asg c len start t := by
  simp [asg, upd_other _ _ h]

/-- Two substitutions agreeing on `vars[j]` for `j < n` agree on strings whose variables are
`vars.take n`. -/
theorem subst_take_congr {c : Ctx} {σ τ : Nat → List Nat} {p n : Nat}
    (hev : extractVars c.toToks (c.S.take p) = c.vars.take n)
    (h : ∀ j, j < n → ∀ hj : j < c.vars.length, σ c.vars[j] = τ c.vars[j]) :
    subst c.isVar σ (c.S.take p) = subst c.isVar τ (c.S.take p) := by
  apply subst_congr
  intro t ht hv
  have : t ∈ c.vars.take n := by rw [← hev, mem_extractVars]; exact ⟨ht, hv⟩
  rw [List.mem_take_iff_getElem] at this
  obtain ⟨i, hi, rfl⟩ := this
  exact h i (by omega) (by omega)

theorem asg_vars {c : Ctx} {len start : Nat → Nat} {i : Nat} (h : i < c.vars.length) :
    asg c len start c.vars[i] = slice c.I (start i) (len i) := by
  simp [asg, tmp_vars c h]

theorem take_slice (I : List Nat) (a n : Nat) : I.take a ++ slice I a n = I.take (a + n) := by
  rw [slice, List.take_add]

theorem slice_length {I : List Nat} {a n : Nat} (h : a + n ≤ I.length) : (slice I a n).length = n := by
  simp [slice]; omega

theorem slice_succ {I : List Nat} {a n x : Nat} (h : I[a + n]? = some x) :
    slice I a (n + 1) = slice I a n ++ [x] := by
  rw [slice, List.take_add_one, List.getElem?_drop, h]; rfl

/-- For a solution that agrees in length with the assigned variables, the assigned
strings are the solution's. -/
theorem agree_asg {c : Ctx} {nv : Nat} {len start : Nat → Nat} (h : InvA c nv len start)
    {σ} (hm : Match c σ) (ha : Agree c σ len nv) :
    ∀ i, i < nv → ∀ hi : i < c.vars.length, σ c.vars[i] = slice c.I (start i) (len i) := by
  intro i
  induction i using Nat.strong_induction_on with
  | _ i ih =>
    intro hin hi
    have h1 : subst c.isVar σ (c.S.take (c.frst i)) = c.I.take (start i) := by
      rw [h.pre i hin]
      apply subst_take_congr (extractVars_frst c hi)
      intro j hj hjl
      rw [ih j hj (by omega) hjl, asg_vars hjl]
    have hS : c.S = c.S.take (c.frst i) ++ [c.vars[i]] ++ c.S.drop (c.frst i + 1) := by
      rw [← take_succ_of_get (frst_get c hi), List.take_append_drop]
    have hl := ha i hin hi
    unfold Match at hm
    rw [hS, subst_append, subst_append, subst_singleton, if_pos (isVar_vars c hi), h1] at hm
    have hfit := h.fits i hin
    conv_rhs => rw [slice, ← hm]
    rw [List.append_assoc, List.drop_append_of_le_length (by rw [List.length_take]; omega)]
    rw [List.drop_eq_nil_of_le (by rw [List.length_take]; omega), List.nil_append,
      List.take_append_of_le_length (by omega), List.take_of_length_le (by omega)]


theorem count_subst {isVar : Nat → Bool} {sep : Nat} (hs : isVar sep = false) {σ : Nat → List Nat}
    {m : List Nat} (h : ∀ t ∈ m, isVar t = true → sep ∉ σ t) :
    (subst isVar σ m).count sep = m.count sep := by
  induction m with
  | nil => rfl
  | cons a m ih =>
    rw [subst_cons, List.count_append, ih (fun t ht => h t (List.mem_cons_of_mem _ ht)),
      List.count_cons]
    by_cases hv : isVar a = true
    · rw [if_pos hv, List.count_eq_zero.mpr (h a List.mem_cons_self hv), if_neg]
      · omega
      · intro e; have := beq_iff_eq.mp e; subst this; rw [hs] at hv; cases hv
    · rw [if_neg hv, List.count_singleton]; omega

theorem count_subst_ge {isVar : Nat → Bool} {sep : Nat} (hs : isVar sep = false) (σ : Nat → List Nat)
    (m : List Nat) : m.count sep ≤ (subst isVar σ m).count sep := by
  induction m with
  | nil => simp
  | cons a m ih =>
    rw [subst_cons, List.count_append, List.count_cons]
    by_cases hv : isVar a = true
    · have : ¬ (a == sep) = true := by
        intro e; have := beq_iff_eq.mp e; subst this; rw [hs] at hv; cases hv
      rw [if_pos hv, if_neg this]; omega
    · rw [if_neg hv, List.count_singleton]; omega

/-- In a solution no variable is assigned the separator. -/
theorem match_nosep {c : Ctx} (hc : Pre c) {σ} (hm : Match c σ) {t : Nat} (ht : t ∈ c.S)
    (hv : c.isVar t = true) : c.sep ∉ σ t := by
  intro hsep
  obtain ⟨A, B, hAB⟩ := List.append_of_mem ht
  have h1 := hc.cnt
  unfold Match at hm
  rw [← hm, hAB, subst_append, subst_cons, if_pos hv] at h1
  simp only [List.count_append, List.count_cons] at h1
  have hA := count_subst_ge hc.sep_con σ A
  have hB := count_subst_ge hc.sep_con σ B
  have hp := List.count_pos_iff.mpr hsep
  have : ¬ (t == c.sep) = true := by
    intro e; have := beq_iff_eq.mp e; rw [this, hc.sep_con] at hv; cases hv
  rw [if_neg this] at h1
  omega

/-- A solution agreeing with the assigned variables reproduces the scanned prefix. -/
theorem agree_prefix {c : Ctx} {s : Scan} (h : Inv c s) {σ} (hm : Match c σ)
    (ha : Agree c σ s.len s.nv) : subst c.isVar σ (c.S.take s.p) = c.I.take s.q := by
  rw [h.pre_eq]
  apply subst_take_congr h.ev
  intro j hj hjl
  rw [agree_asg h.toInvA hm ha j hj hjl, asg_vars hjl]

theorem agree_rest {c : Ctx} {s : Scan} (h : Inv c s) {σ} (hm : Match c σ)
    (ha : Agree c σ s.len s.nv) {t : Nat} (ht : c.S[s.p]? = some t) :
    c.I = c.I.take s.q ++ (if c.isVar t then σ t else [t]) ++ subst c.isVar σ (c.S.drop (s.p + 1)) := by
  have hS : c.S = c.S.take s.p ++ [t] ++ c.S.drop (s.p + 1) := by
    rw [← take_succ_of_get ht, List.take_append_drop]
  have := hm
  unfold Match at this
  rw [hS, subst_append, subst_append, subst_singleton, agree_prefix h hm ha] at this
  exact this.symm

/-! ## Rank -/

/-- The assigned lengths read as digits in base `|I| + 1`. -/
def digits (c : Ctx) (len : Nat → Nat) : Nat → Nat
  | 0 => 0
  | k + 1 => digits c len k * (c.I.length + 1) + len k

def rank (c : Ctx) (nv : Nat) (len : Nat → Nat) : Nat :=
  digits c len nv * (c.I.length + 1) ^ (c.vars.length - nv)

theorem digits_upd {c : Ctx} {len : Nat → Nat} {v x k : Nat} (h : k ≤ v) :
    digits c (upd len v x) k = digits c len k := by
  induction k with
  | zero => rfl
  | succ k ih => simp only [digits]; rw [ih (by omega), upd_other _ _ (by omega)]

theorem rank_succ_zero {c : Ctx} {nv : Nat} {len : Nat → Nat} (h : nv < c.vars.length) :
    rank c (nv + 1) (upd len nv 0) = rank c nv len := by
  have : c.vars.length - nv = (c.vars.length - (nv + 1)) + 1 := by omega
  simp only [rank, digits, digits_upd (Nat.le_refl _), upd_same, this, Nat.pow_succ]
  ring

theorem digits_lt {c : Ctx} {len : Nat → Nat} {k : Nat} (h : ∀ i < k, len i ≤ c.I.length) :
    digits c len k < (c.I.length + 1) ^ k := by
  induction k with
  | zero => simp [digits]
  | succ k ih =>
    simp only [digits, Nat.pow_succ]
    have h1 := ih (fun i hi => h i (by omega))
    have h2 := h k (by omega)
    have : (digits c len k + 1) * (c.I.length + 1) ≤ (c.I.length + 1) ^ k * (c.I.length + 1) :=
      Nat.mul_le_mul_right _ h1
    rw [Nat.add_mul] at this
    omega

theorem rank_lt {c : Ctx} {len : Nat → Nat} {k : Nat} (hk : k ≤ c.vars.length)
    (h : ∀ i < k, len i ≤ c.I.length) :
    rank c k len < (c.I.length + 1) ^ c.vars.length := by
  have : (c.I.length + 1) ^ c.vars.length =
      (c.I.length + 1) ^ k * (c.I.length + 1) ^ (c.vars.length - k) := by
    rw [← Nat.pow_add]; congr 1; omega
  rw [rank, this]
  exact Nat.mul_lt_mul_of_pos_right (digits_lt h) (Nat.pow_pos (by omega))


theorem rank_le_next {c : Ctx} {len : Nat → Nat} {v : Nat} :
    rank c v len < (digits c len v + 1) * (c.I.length + 1) ^ (c.vars.length - v) :=
  Nat.mul_lt_mul_of_pos_right (by omega) (Nat.pow_pos (by omega))

/-- Popping a variable: the next value of the previous digit dominates. -/
theorem next_pop {c : Ctx} {len : Nat → Nat} {v : Nat} (hv : v < c.vars.length)
    (hl : len v ≤ c.I.length) :
    (digits c len (v + 1) + 1) * (c.I.length + 1) ^ (c.vars.length - (v + 1)) ≤
      (digits c len v + 1) * (c.I.length + 1) ^ (c.vars.length - v) := by
  have : c.vars.length - v = (c.vars.length - (v + 1)) + 1 := by omega
  simp only [digits, this, Nat.pow_succ]
  generalize (c.I.length + 1) ^ (c.vars.length - (v + 1)) = X at *
  have : (digits c len v * (c.I.length + 1) + len v) + 1 ≤ (digits c len v + 1) * (c.I.length + 1) := by
    rw [Nat.add_mul]; omega
  calc _ ≤ (digits c len v + 1) * (c.I.length + 1) * X := Nat.mul_le_mul_right _ this
    _ = _ := by ring

theorem getLast_sep {c : Ctx} (hc : Pre c) {q : Nat} {x : Nat} (h : c.I[q]? = some x)
    (hx : x ≠ c.sep) : q + 1 < c.I.length := by
  obtain ⟨I', hI⟩ := hc.I_last
  by_contra hcon
  have hq : q < c.I.length := by
    by_contra h2; rw [List.getElem?_eq_none (by omega)] at h; cases h
  have : q = I'.length := by rw [hI] at hq hcon; simp at hq hcon; omega
  rw [hI, this] at h
  simp at h
  exact hx h.symm

theorem InvA.mono {c : Ctx} {len start : Nat → Nat} {v n : Nat} (h : InvA c n len start)
    (hv : v ≤ n) : InvA c v len start where
  nv_le := Nat.le_trans hv h.nv_le
  fits i hi := h.fits i (by omega)
  pre i hi := h.pre i (by omega)
  nosep i hi := h.nosep i (by omega)

/-- Changing the length of variable `v` (or a later one) does not disturb the facts about earlier ones. -/
theorem InvA.upd_len {c : Ctx} {len start : Nat → Nat} {v : Nat} (h : InvA c v len start) (x : Nat) :
    InvA c v (upd len v x) start where
  nv_le := h.nv_le
  fits i hi := by rw [upd_other _ _ (by omega)]; exact h.fits i hi
  pre i hi := by
    rw [h.pre i hi]
    have hn := h.nv_le
    apply subst_take_congr (extractVars_frst c (by omega))
    intro j hj hjl
    rw [asg_vars hjl, asg_vars hjl, upd_other _ _ (by omega)]
  nosep i hi := by rw [upd_other _ _ (by omega)]; exact h.nosep i hi

/-- Appending a variable with a correct start and a separator-free value. -/
theorem InvA.push {c : Ctx} {len start : Nat → Nat} {v : Nat} (h : InvA c v len start)
    (hv : v < c.vars.length) (hf : start v + len v < c.I.length)
    (hp : c.I.take (start v) = subst c.isVar (asg c len start) (c.S.take (c.frst v)))
    (hn : c.sep ∉ slice c.I (start v) (len v)) : InvA c (v + 1) len start where
  nv_le := hv
  fits i hi := by
    by_cases e : i = v
    · subst e; exact hf
    · exact h.fits i (by omega)
  pre i hi := by
    by_cases e : i = v
    · subst e; exact hp
    · exact h.pre i (by omega)
  nosep i hi := by
    by_cases e : i = v
    · subst e; exact hn
    · exact h.nosep i (by omega)

/-- The prefix up to and including the first occurrence of variable `v`. -/
theorem pre_eq_frst {c : Ctx} {len start : Nat → Nat} {v : Nat} (hv : v < c.vars.length)
    (hp : c.I.take (start v) = subst c.isVar (asg c len start) (c.S.take (c.frst v))) :
    c.I.take (start v + len v) = subst c.isVar (asg c len start) (c.S.take (c.frst v + 1)) := by
  rw [take_succ_of_get (frst_get c hv), subst_append, subst_singleton, if_pos (isVar_vars c hv),
    ← hp, asg_vars hv, take_slice]

theorem ev_frst_succ {c : Ctx} {v : Nat} (hv : v < c.vars.length) :
    extractVars c.toToks (c.S.take (c.frst v + 1)) = c.vars.take (v + 1) := by
  rw [take_succ_of_get (frst_get c hv), extractVars_snoc, if_pos (isVar_vars c hv),
    extractVars_frst c hv, if_neg, List.take_add_one, List.getElem?_eq_getElem hv]
  · rfl
  · intro hh
    have h3 := idxOf_lt_of_mem_take hh
    have h4 : c.vars.idxOf c.vars[v] = v := (nodup_extractVars c.toToks c.S).idxOf_getElem v hv
    omega

/-- Making variable `v` one token longer when that token is not the separator. -/
theorem inv_bump {c : Ctx} (hc : Pre c) {len start : Nat → Nat} {v x : Nat}
    (h : InvA c (v + 1) len start) (hx : c.I[start v + len v]? = some x) (hs : x ≠ c.sep) :
    Inv c ⟨v + 1, c.frst v + 1, start v + (len v + 1), upd len v (len v + 1), start⟩ := by
  have hv : v < c.vars.length := h.nv_le
  have hlt := getLast_sep hc hx hs
  have hA : InvA c v (upd len v (len v + 1)) start := (h.mono (Nat.le_succ v)).upd_len _
  have hpre : c.I.take (start v) =
      subst c.isVar (asg c (upd len v (len v + 1)) start) (c.S.take (c.frst v)) := by
    rw [h.pre v (by omega)]
    apply subst_take_congr (extractVars_frst c hv)
    intro j hj hjl
    rw [asg_vars hjl, asg_vars hjl, upd_other _ _ (by omega)]
  have hP : InvA c (v + 1) (upd len v (len v + 1)) start := by
    apply hA.push hv _ hpre
    · rw [upd_same, slice_succ hx]
      have := h.nosep v (by omega)
      simp only [List.mem_append, List.mem_singleton, not_or]
      exact ⟨this, fun e => hs e.symm⟩
    · rw [upd_same]; omega
  refine { hP with p_lt := ?_, q_lt := ?_, ev := ?_, pre_eq := ?_ }
  · have h1 := frst_lt c hv
    obtain ⟨S', hS⟩ := hc.S_last
    have h2 := frst_get c hv
    show c.frst v + 1 < c.S.length
    by_contra hcon
    have : c.frst v = S'.length := by
      rw [hS] at h1 hcon; simp only [List.length_append, List.length_singleton] at h1 hcon; omega
    rw [this] at h2
    have h3 : c.S[S'.length]? = some c.sep := by rw [hS]; simp
    rw [h3] at h2
    have := isVar_vars c hv
    rw [← Option.some.inj h2, hc.sep_con] at this
    cases this
  · show start v + (len v + 1) < c.I.length
    omega
  · exact ev_frst_succ hv
  · show c.I.take (start v + (len v + 1)) = _
    have := pre_eq_frst (len := upd len v (len v + 1)) hv hpre
    rw [upd_same] at this
    exact this

theorem lt_bump {c : Ctx} {σ : Nat → List Nat} {len : Nat → Nat} {v : Nat}
    (h : Lt c σ (upd len v (len v + 1)) (v + 1)) : Lt c σ len (v + 1) ∨ Agree c σ len (v + 1) := by
  obtain ⟨j, hj, hjv, he, hl⟩ := h
  have he' : ∀ i, ∀ hi : i < j, (σ (c.vars[i]'(by omega))).length = len i := by
    intro i hi; rw [he i hi, upd_other _ _ (by omega)]
  by_cases e : j = v
  · subst e
    rw [upd_same] at hl
    by_cases e2 : (σ c.vars[j]).length = len j
    · right
      intro i hi hil
      by_cases e3 : i = j
      · subst e3; exact e2
      · exact he' i (by omega)
    · left; exact ⟨j, hj, hjv, he', by omega⟩
  · left
    rw [upd_other _ _ e] at hl
    exact ⟨j, hj, hjv, he', hl⟩

/-- When the token after variable `v` is the separator, no solution makes it longer. -/
theorem lt_pop {c : Ctx} (hc : Pre c) {len start : Nat → Nat} {v : Nat} {σ} (hm : Match c σ)
    (h : InvA c (v + 1) len start) (hx : c.I[start v + len v]? = some c.sep)
    (hh : Lt c σ len v ∨ Agree c σ len v) :
    Lt c σ len (v + 1) ∨ Agree c σ len (v + 1) := by
  rcases hh with ⟨j, hj, hjv, he, hl⟩ | ha
  · left; exact ⟨j, hj, by omega, he, hl⟩
  · have hv : v < c.vars.length := h.nv_le
    rcases Nat.lt_trichotomy (σ c.vars[v]).length (len v) with hl | hl | hl
    · left; exact ⟨v, hv, by omega, fun i hi => ha i hi (by omega), hl⟩
    · right
      intro i hi hil
      by_cases e3 : i = v
      · subst e3; exact hl
      · exact ha i (by omega) hil
    · exfalso
      have hA := h.mono (Nat.le_succ v)
      have h1 : subst c.isVar σ (c.S.take (c.frst v)) = c.I.take (start v) := by
        rw [h.pre v (by omega)]
        apply subst_take_congr (extractVars_frst c hv)
        intro j hj hjl
        rw [agree_asg hA hm ha j hj hjl, asg_vars hjl]
      have hS : c.S = c.S.take (c.frst v) ++ [c.vars[v]] ++ c.S.drop (c.frst v + 1) := by
        rw [← take_succ_of_get (frst_get c hv), List.take_append_drop]
      have hm' := hm
      unfold Match at hm'
      rw [hS, subst_append, subst_append, subst_singleton, if_pos (isVar_vars c hv), h1] at hm'
      have hfit := h.fits v (by omega)
      rw [← hm', List.append_assoc,
        List.getElem?_append_right (by rw [List.length_take]; omega),
        List.getElem?_append_left (by rw [List.length_take]; omega)] at hx
      have hmem : c.vars[v] ∈ c.S := ((mem_extractVars c.toToks c.S _).mp (List.getElem_mem hv)).1
      exact match_nosep hc hm hmem (isVar_vars c hv) (List.mem_of_getElem? hx)

theorem backtrack_spec {c : Ctx} (hc : Pre c) (b : Nat) (start : Nat → Nat) (r : Nat)
    (P : (Nat → List Nat) → Prop) :
    ∀ (nv : Nat) (len : Nat → Nat), InvA c nv len start →
    r < (digits c len nv + 1) * (c.I.length + 1) ^ (c.vars.length - nv) →
    match backtrack c b len start nv with
    | .cont s' => Inv c s' ∧ r < rank c s'.nv s'.len ∧
        ((∀ σ, Match c σ → Lt c σ len nv ∨ Agree c σ len nv → P σ) → Comp c s'.nv s'.len P)
    | .fail => (∀ σ, Match c σ → Lt c σ len nv ∨ Agree c σ len nv → P σ) → ∀ σ, Match c σ → P σ
    | _ => False := by
  intro nv
  induction nv with
  | zero =>
    intro len hA hr
    simp only [backtrack]
    intro h σ hm
    exact h σ hm (Or.inr (fun i hi => absurd hi (Nat.not_lt_zero i)))
  | succ v ih =>
    intro len hA hr
    have hv : v < c.vars.length := hA.nv_le
    have hfit := hA.fits v (by omega)
    have hq : start v + upd len v (len v + 1) v - 1 = start v + len v := by rw [upd_same]; omega
    simp only [backtrack, hq, List.getElem?_eq_getElem hfit]
    by_cases hx : c.I[start v + len v] = c.sep
    · simp only [if_pos hx]
      have hg : c.I[start v + len v]? = some c.sep := by rw [List.getElem?_eq_getElem hfit, hx]
      have := ih (upd len v (len v + 1)) ((hA.mono (Nat.le_succ v)).upd_len _) (by
        rw [digits_upd (Nat.le_refl _)]
        exact Nat.lt_of_lt_of_le hr (next_pop hv (by omega)))
      have key : ∀ σ, Match c σ → Lt c σ (upd len v (len v + 1)) v ∨ Agree c σ (upd len v (len v + 1)) v →
          Lt c σ len (v + 1) ∨ Agree c σ len (v + 1) := by
        intro σ hm hh
        apply lt_pop hc hm hA hg
        rcases hh with ⟨j, hj, hjv, he, hl⟩ | ha
        · left
          refine ⟨j, hj, hjv, ?_, ?_⟩
          · intro i hi; rw [he i hi, upd_other _ _ (by omega)]
          · rwa [upd_other _ _ (by omega)] at hl
        · right
          intro i hi hil
          rw [ha i hi hil, upd_other _ _ (by omega)]
      split at this
      · obtain ⟨h1, h2, h3⟩ := this
        refine ⟨h1, h2, fun h => h3 (fun σ hm hh => h σ hm (key σ hm hh))⟩
      · exact fun h => this (fun σ hm hh => h σ hm (key σ hm hh))
      · exact this
    · simp only [if_neg hx]
      have hg : c.I[start v + len v]? = some c.I[start v + len v] := List.getElem?_eq_getElem hfit
      have hlt := getLast_sep hc hg hx
      rw [if_neg (by rw [upd_same]; omega)]
      refine ⟨?_, ?_, ?_⟩
      · have := inv_bump hc hA hg hx
        simpa only [upd_same] using this
      · show r < rank c (v + 1) (upd len v (len v + 1))
        have : rank c (v + 1) (upd len v (len v + 1)) =
          (digits c len (v + 1) + 1) * (c.I.length + 1) ^ (c.vars.length - (v + 1)) := by
          simp only [rank, digits, digits_upd (Nat.le_refl _), upd_same]
          rfl
        omega
      · intro h σ hm hh
        exact h σ hm (lt_bump hh)

end MM.Veri
