import Verif.Repl.Mini
/-!
# `minimizeProof`: the loops
-/
namespace MM.Repl
open MM.Veri MM.Proof MM.Data MM.Tree MM.Pfas MM.Impr MM.Spec
open MM.Pfas.AF MM.Pfas.Cx
open MM.Unif (Cfg SV SVH ResH makeSubst unifyH unifyHNext HCalls Calls bind_inv)

variable {X : Impr.Ctx} {R : Range} {n : Nat} {dv : Nat → Nat → Prop} {i : Nat} {U : Unifier}

theorem stmtMatch_ne {step : Nat} {m : List Nat} (hm : getF X.pip.target step = .val m) {b : Bool} (h : stmtMatch X n i step = .val b) : m ≠ [] := by
  unfold stmtMatch at h
  rw [hm, Out.bind_val] at h
  obtain ⟨u, _, h⟩ := bind_inv h
  intro e
  rw [if_pos (Or.inl e)] at h
  cases h

theorem miniFind_sound (hR : Rdy X) (hP : PipOk X) (hi : 1 ≤ i ∧ i < X.prove) (hd : X.noDist = false) {cnt : Pip → Nat → Nat → Nat} {grow : Bool} {step : Nat} {q : List Int}
    (h : miniFind X n cnt grow i step = .val q) (hne : q ≠ []) : ∃ m, getF X.pip.target step = .val m ∧ Str X.E m ∧ Good X dv m q ∧ X.pip.target.length ≠ 0 := by
  unfold miniFind at h
  obtain ⟨m, hm, h⟩ := bind_inv h
  by_cases c1 : (m.any fun t => decide (X.E.sep < t)) = true
  · rw [if_pos c1] at h; exact absurd (Out.val.inj h).symm hne
  rw [if_neg c1] at h
  obtain ⟨b, hb, h⟩ := bind_inv h
  by_cases c2 : b = false
  · rw [if_pos c2] at h; exact absurd (Out.val.inj h).symm hne
  rw [if_neg c2] at h
  by_cases c3 : X.pip.proof.getD step 0 = (i : Int) ∧ grow = true
  · rw [if_pos c3] at h; exact absurd (Out.val.inj h).symm hne
  rw [if_neg c3] at h
  obtain ⟨R, _, h⟩ := bind_inv h
  obtain ⟨q', hq, h⟩ := bind_inv h
  by_cases c4 : unk ∈ q'
  · rw [if_pos c4] at h; exact absurd (Out.val.inj h).symm hne
  rw [if_neg c4] at h
  obtain rfl := (Out.val.inj h).symm
  have hmem : m ∈ X.pip.target := by
    unfold getF at hm
    split at hm
    · rename_i c
      rw [← Out.val.inj hm, List.getD_eq_getElem _ _ c.2]
      exact List.getElem_mem c.2
    · cases hm
  have hstr : Str X.E m := by
    refine ⟨stmtMatch_ne hm hb, fun t ht => ?_⟩
    have h1 : ¬ X.E.sep < t := fun hlt => c1 (List.any_eq_true.mpr ⟨t, ht, by simpa using hlt⟩)
    have h2 : t ≠ X.E.sep := fun e => hR.ns m hmem (e ▸ ht)
    omega
  exact ⟨m, hm, hstr, replace_sound hR hP hi (fun h => by rw [hd] at h; cases h) hm hstr hq hne (Or.inl c4), by have := List.length_pos_of_mem hmem; omega⟩

/-- What one replacement does. -/
structure Replaced (X : Impr.Ctx) (U : Unifier) (grow : Bool) (i step : Nat) (s t : MM.Pfas.St) : Prop where
  insert : ∃ q m, getF s.pip.target step = .val m ∧ Good (at' X s) (fun _ _ => False) m q ∧ (∀ n, exec n X.E U X.prove s (.insert q step) = .val t) ∧
    ∃ a old b, s.pip.proof = a ++ old ++ b ∧ a.length + old.length = step + 1 ∧ t.pip.proof = a ++ q ++ b ∧ (grow = false → q.length < old.length)
  pip : t.err = false → PipOk (at' X t)
  ns : t.err = false → NS X.E t.pip.target
  err : t.err = false → s.err = false
  d : t.d = s.d

theorem exec_insert_n {s : MM.Pfas.St} {q : List Int} {step : Nat} (n k : Nat) : exec n X.E U X.prove s (.insert q step) = exec k X.E U X.prove s (.insert q step) := rfl

theorem exec_err {s t : MM.Pfas.St} {q : List Int} {step : Nat} (h : exec n X.E U X.prove s (.insert q step) = .val t) (he : t.err = false) : s.err = false := by
  rw [exec] at h
  split at h
  · obtain ⟨r, _, h⟩ := bind_inv h
    obtain ⟨a, _, h⟩ := bind_inv h
    obtain rfl := (Out.val.inj h).symm
    have he : (s.err || a.2) = false := he
    rw [Bool.or_eq_false_iff] at he
    exact he.1
  · rw [Out.val.inj h]; exact he

theorem miniStep_sound {s t : MM.Pfas.St} (hR : Rdy (at' X s)) (hP : PipOk (at' X s)) (hU : U.Ok X.E) (hi : 1 ≤ i ∧ i < X.prove) (hd : X.noDist = false) {cnt : Pip → Nat → Nat → Nat} {grow : Bool}
    {step : Nat} (hst : step < s.pip.proof.length) (h : miniStep X n U cnt grow i step s = .val (some t)) : Replaced X U grow i step s t := by
  unfold miniStep at h
  obtain ⟨q, hq, h⟩ := bind_inv h
  by_cases c1 : q = []
  · rw [if_pos c1] at h; cases h
  rw [if_neg c1] at h
  obtain ⟨len, hl, h⟩ := bind_inv h
  by_cases c2 : (q.length : Int) < len ∨ grow = true
  · rw [if_pos c2] at h
    by_cases c3 : s.pip.proof.getD step 0 = unk ∧ grow = false
    · rw [if_pos c3] at h; cases h
    rw [if_neg c3] at h
    obtain ⟨t', ht, h⟩ := bind_inv h
    obtain rfl := Option.some.inj (Out.val.inj h)
    obtain ⟨m, hm, hs, hg, _⟩ := miniFind_sound (dv := fun _ _ => False) hR hP hi hd hq c1
    obtain ⟨a, old, b, e1, e2, e3, e4, e5, e6⟩ := insert_good hR.ready.env hU hP hst hg hm ht
    refine ⟨⟨q, m, hm, hg, fun k => (exec_insert_n k n).trans ht, a, old, b, e1, e2, e4, fun hgr => ?_⟩, fun he => (e6 he).1, fun he => (e6 he).2 hR.ns, exec_err ht, e5⟩
    have e3 : subproofLen X.E s.pip.proof step = .val (old.length : Int) := e3
    rw [hl] at e3
    rw [Out.val.inj e3] at c2
    rw [hgr] at c2
    rcases c2 with c2 | c2
    · omega
    · cases c2
  · rw [if_neg c2] at h; cases h

theorem miniFor_some {cnt : Pip → Nat → Nat → Nat} {grow : Bool} {s t : MM.Pfas.St} : ∀ {k : Nat}, miniFor X n U cnt grow i s k = .val (some t) →
    ∃ step < k, miniStep X n U cnt grow i step s = .val (some t) ∧ ∀ j, step < j → j < k → miniStep X n U cnt grow i j s = .val none
  | 0, h => by cases h
  | k + 1, h => by
    rw [miniFor] at h
    obtain ⟨r, r1, h⟩ := bind_inv h
    cases r with
    | some t' =>
      rw [if_pos (show (some t').isSome = true from rfl)] at h
      obtain rfl := Option.some.inj (Out.val.inj h)
      exact ⟨k, by omega, r1, fun j h1 h2 => by omega⟩
    | none =>
      rw [if_neg (by simp)] at h
      obtain ⟨step, h1, h2, h3⟩ := miniFor_some h
      refine ⟨step, by omega, h2, fun j h4 h5 => ?_⟩
      by_cases e : j = k
      · subst e; exact r1
      · exact h3 j h4 (by omega)

theorem miniFor_none {cnt : Pip → Nat → Nat → Nat} {grow : Bool} {s : MM.Pfas.St} : ∀ {k : Nat}, miniFor X n U cnt grow i s k = .val none → ∀ j < k, miniStep X n U cnt grow i j s = .val none
  | 0, _, j, hj => by omega
  | k + 1, h, j, hj => by
    rw [miniFor] at h
    obtain ⟨r, r1, h⟩ := bind_inv h
    cases r with
    | some t' => rw [if_pos (show (some t').isSome = true from rfl)] at h; cases h
    | none =>
      rw [if_neg (by simp)] at h
      by_cases e : j = k
      · subst e; exact r1
      · exact miniFor_none h j (by omega)

/-- A sequence of replacements. -/
inductive Steps (X : Impr.Ctx) (U : Unifier) (grow : Bool) (i : Nat) : MM.Pfas.St → MM.Pfas.St → Nat → Prop
  | refl (s) : Steps X U grow i s s 0
  | step {s t u : MM.Pfas.St} {k j : Nat} : j < s.pip.proof.length → Replaced X U grow i j s t → Steps X U grow i t u k → Steps X U grow i s u (k + 1)

theorem miniLoop_err {cnt : Pip → Nat → Nat → Nat} {grow : Bool} {start : Nat} : ∀ {f : Nat} {s t : MM.Pfas.St}, miniLoop X n U cnt grow i start f s = .val t → t.err = false → s.err = false
  | 0, _, _, h, _ => by cases h
  | f + 1, s, t, h, he => by
    rw [miniLoop] at h
    obtain ⟨r, r1, h⟩ := bind_inv h
    cases r with
    | none =>
      have h : Out.val s = .val t := h
      rw [Out.val.inj h]; exact he
    | some u =>
      have h : (if grow = true ∧ 2 * start < s.pip.proof.length then Out.val u else miniLoop X n U cnt grow i start f u) = .val t := h
      have hu : u.err = false := by
        by_cases c : grow = true ∧ 2 * start < s.pip.proof.length
        · rw [if_pos c] at h; rw [Out.val.inj h]; exact he
        · rw [if_neg c] at h; exact miniLoop_err h he
      obtain ⟨step, _, h2, _⟩ := miniFor_some r1
      unfold miniStep at h2
      obtain ⟨q, _, h2⟩ := bind_inv h2
      split at h2
      · cases h2
      obtain ⟨len, _, h2⟩ := bind_inv h2
      split at h2
      · split at h2
        · cases h2
        · obtain ⟨t', ht, h2⟩ := bind_inv h2
          obtain rfl := Option.some.inj (Out.val.inj h2)
          exact exec_err ht hu
      · cases h2

theorem miniLoop_sound (hU : U.Ok X.E) (hi : 1 ≤ i ∧ i < X.prove) (hd : X.noDist = false) {cnt : Pip → Nat → Nat → Nat} {grow : Bool} {start : Nat} :
    ∀ {f : Nat} {s t : MM.Pfas.St}, Rdy (at' X s) → PipOk (at' X s) → miniLoop X n U cnt grow i start f s = .val t → t.err = false →
      (∃ k, Steps X U grow i s t k) ∧ PipOk (at' X t) ∧ Rdy (at' X t)
  | 0, _, _, _, _, h, _ => by cases h
  | f + 1, s, t, hR, hP, h, he => by
    rw [miniLoop] at h
    obtain ⟨r, r1, h⟩ := bind_inv h
    cases r with
    | none =>
      have h : Out.val s = .val t := h
      obtain rfl := Out.val.inj h
      exact ⟨⟨0, .refl s⟩, hP, hR⟩
    | some u =>
      have h : (if grow = true ∧ 2 * start < s.pip.proof.length then Out.val u else miniLoop X n U cnt grow i start f u) = .val t := h
      have hu : u.err = false := by
        by_cases c : grow = true ∧ 2 * start < s.pip.proof.length
        · rw [if_pos c] at h; rw [Out.val.inj h]; exact he
        · rw [if_neg c] at h; exact miniLoop_err h he
      obtain ⟨step, h1, h2, _⟩ := miniFor_some r1
      have hr := miniStep_sound hR hP hU hi hd h1 h2
      have hR' : Rdy (at' X u) := ⟨⟨hR.ready.env, hR.ready.mt, hR.ready.con, hR.ready.min, hR.ready.tight, hR.ready.last, hR.ready.hyps, hR.ready.over⟩, hR.fits, hr.ns hu, hR.occurs⟩
      by_cases c : grow = true ∧ 2 * start < s.pip.proof.length
      · rw [if_pos c] at h
        obtain rfl := Out.val.inj h
        exact ⟨⟨1, .step h1 hr (.refl _)⟩, hr.pip hu, hR'⟩
      · rw [if_neg c] at h
        obtain ⟨⟨k, hk⟩, h3⟩ := miniLoop_sound hU hi hd hR' (hr.pip hu) h he
        exact ⟨⟨k + 1, .step h1 hr hk⟩, h3⟩

/-- Without MAY_GROW every replacement shortens the proof. -/
theorem Steps.shorter {s t : MM.Pfas.St} {k : Nat} (h : Steps X U false i s t k) : t.pip.proof.length + k ≤ s.pip.proof.length := by
  induction h with
  | refl s => simp
  | step hj hr _ ih =>
    obtain ⟨q, m, _, _, _, a, old, b, e1, _, e3, e4⟩ := hr.insert
    have := e4 rfl
    rw [e3] at ih
    rw [e1]
    simp only [List.length_append] at ih ⊢
    omega

theorem Steps.known {grow : Bool} {s t : MM.Pfas.St} {k : Nat} (h : Steps X U grow i s t k) : unk ∈ t.pip.proof → unk ∈ s.pip.proof := by
  induction h with
  | refl s => exact id
  | step hj hr _ ih =>
    intro hu
    obtain ⟨q, m, _, hg, _, a, old, b, e1, _, e3, e4⟩ := hr.insert
    have := ih hu
    rw [e3] at this
    rw [e1]
    simp only [List.mem_append] at this ⊢
    rcases this with (h | h) | h
    · exact Or.inl (Or.inl h)
    · exact absurd rfl (hg.1 _ h).2
    · exact Or.inr h

theorem Steps.reach {grow : Bool} {s t : MM.Pfas.St} {k N : Nat} (h : Steps X U grow i s t k) : Reach N X.E U X.prove s → Reach N X.E U X.prove t := by
  induction h with
  | refl s => exact id
  | step hj hr _ ih =>
    intro h
    obtain ⟨q, m, _, hg, he, _⟩ := hr.insert
    have hok := good_formed hg
    exact ih (.act (c := .insert q _) h hok (he N))

theorem Steps.run {grow : Bool} {s t : MM.Pfas.St} {k N : Nat} (h : Steps X U grow i s t k) : Run N X.E U X.prove s → Run N X.E U X.prove t := by
  induction h with
  | refl s => exact id
  | step hj hr _ ih =>
    intro h
    obtain ⟨q, m, _, hg, he, _⟩ := hr.insert
    have hok := good_formed hg
    exact ih (.act (c := .insert q _) h hok trivial (he N))
end MM.Repl
