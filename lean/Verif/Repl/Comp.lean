import Verif.Repl.Sound
import Verif.Unif.HExample
/-!
# `replaceStatement`: the substitutions together
-/
namespace MM.Repl
open MM.Veri MM.Proof MM.Data MM.Tree MM.Pfas MM.Impr MM.Spec
open MM.Unif (Cfg SV SVH ResH makeSubst unifyH unifyHNext HCalls Calls bind_inv)

variable {X : Impr.Ctx} {R : Range} {n : Nat} {dv : Nat → Nat → Prop}

theorem calls_of {A B : List Nat} {on : Bool} {C : Cfg} (hP : MM.Unif.Proper C A B) {l : List SV} {v : SVH} (hc : HCalls on C A B l v) : Calls C A B (fun _ => True) v.sv :=
  MM.Unif.C56_answers hP hc v.sv (by cases hc <;> simp)

/-- What a state vector does. -/
theorem sv_inst (hR : Rdy X) {A B : List Nat} (hP : MM.Unif.Proper X.C A B) {v : SV} (hc : Calls X.C A B (fun _ => True) v) :
    ∃ σ : Nat → List Nat, (∀ l, ∃ f, makeSubst X.C v l = .val (inst X.E σ l, f)) ∧ inst X.E σ A = inst X.E σ B ∧ (∀ y, X.E.sep < y → X.E.sep ∉ σ y ∧ σ y ≠ []) := by
  obtain ⟨σ, h1, h2, h3, h4, _⟩ := MM.Unif.C48_unify_sound hR.fits.con hP hc
  rw [hR.fits.mt] at h1 h2 h3 h4
  refine ⟨σ, fun l => ⟨_, h1 l v.trials⟩, h2.trans h3.symm, fun y hy => ⟨(h4 y hy).2.1, ?_⟩⟩
  have := (h4 y hy).1
  rw [hR.fits.min] at this
  exact fun e => by rw [e] at this; simp at this

theorem substs_append {C : Cfg} {σ : Nat → Slot} : ∀ {a b : List Nat} {r : List Nat × Bool}, substs C σ (a ++ b) r = substs C σ a r >>= fun r1 => substs C σ b r1
  | [], _, _ => rfl
  | j :: a, b, r => by
    rw [List.cons_append, substs, substs]
    cases (σ j).sv with
    | none => rfl
    | some w =>
      show (makeSubst C w.sv r.1 >>= fun r1 => substs C σ (a ++ b) r1) = (makeSubst C w.sv r.1 >>= fun r1 => substs C σ a r1) >>= fun r1 => substs C σ b r1
      cases makeSubst C w.sv r.1 with
      | val x => exact substs_append
      | _ => rfl

theorem inst_ne {E : Env} {T : Nat → List Nat} (hT : ∀ y, E.sep < y → T y ≠ []) {m : List Nat} (h : m ≠ []) : inst E T m ≠ [] := by
  obtain ⟨t, l, rfl⟩ := List.exists_cons_of_ne_nil h
  unfold inst
  rw [MM.Unif.inst_cons]
  by_cases c : E.sep < t
  · rw [if_pos c]
    intro e
    exact hT t c (List.append_eq_nil_iff.mp e).1
  · rw [if_neg c]; simp

variable {i : Nat} {v : SV} {ord : List Nat} {nE : Nat}

/-- The substitutions of the assertion and of the first `k` hypotheses together: `T`. -/
structure Comp (X : Impr.Ctx) (dv : Nat → Nat → Prop) (v : SV) (ord : List Nat) (A : List Nat) (m : List Nat) (hs : List (List Nat)) (σ : Nat → Slot) (k : Nat) (T : Nat → List Nat) : Prop where
  eq : ∀ l, ∃ f, (makeSubst X.C v l >>= fun r => substs X.C σ (ord.take k) r) = .val (inst X.E T l, f)
  ne : ∀ y, X.E.sep < y → X.E.sep ∉ T y ∧ T y ≠ []
  main : inst X.E T A = m
  hyps : ∀ p < k, (∀ t ∈ inst X.E T (hs.getD (ord.getD p 0) []), t < X.E.sep) ∧ Good X dv (inst X.E T (hs.getD (ord.getD p 0) [])) (σ (ord.getD p 0)).proof

theorem comp_step (hR : Rdy X) (hP : PipOk X) {A m : List Nat} {hs : List (List Nat)} {σ : Nat → Slot} (hm : ∀ t ∈ m, t < X.E.sep) (hlen : nE ≤ ord.length)
    (hh : ∀ j < ord.length, hs.getD (ord.getD j 0) [] ≠ [] ∧ X.E.sep ∉ hs.getD (ord.getD j 0) []) (hu : ∀ j < ord.length, ∀ m, Match X R m (σ (ord.getD j 0)) → unk ∉ (σ (ord.getD j 0)).proof) {k : Nat} (hk : k < nE)
    {T : Nat → List Nat} (hc : Comp X dv v ord A m hs σ k T) (hA : At X R v ord nE hs σ k) : ∃ T', Comp X dv v ord A m hs σ (k + 1) T' := by
  obtain ⟨mm, h1, h2 | h2⟩ := hA
  swap
  · omega
  unfold hypStr at h1
  rw [Nat.min_eq_left (by omega)] at h1
  obtain ⟨f, hf⟩ := hc.eq (hs.getD (ord.getD k 0) [])
  rw [hf] at h1
  obtain rfl := Out.val.inj h1
  obtain ⟨t, w, l, e1, e2, e3, e4, e5, e6, e7, e8⟩ := h2.ex
  dsimp only at e5 e8
  have hprop := hR.fits.proper e5 e4 (inst_ns (fun y hy => (hc.ne y hy).1) (hh k (by omega)).2) (test_ns hR e1)
  obtain ⟨ρ, r1, r2, r3⟩ := sv_inst hR hprop (calls_of hprop e8)
  have hg : Good X dv t (σ (ord.getD k 0)).proof := test_good hR.ready hP e1 e2 (hu k (by omega) _ h2)
  have ht := good_toks hR.ready hg
  have hcomp : ∀ l, inst X.E ρ (inst X.E T l) = inst X.E (fun y => inst X.E ρ (T y)) l := fun l => MM.Unif.inst_comp _ _ _ _
  refine ⟨fun y => inst X.E ρ (T y), ?_, ?_, ?_, ?_⟩
  · intro l
    obtain ⟨g, hg⟩ := hc.eq l
    have et : ord.take (k + 1) = ord.take k ++ [ord.getD k 0] := by
      rw [List.take_succ_eq_append_getElem (by omega), List.getD_eq_getElem _ _ (by omega)]
    have : (makeSubst X.C v l >>= fun r => substs X.C σ (ord.take (k + 1)) r) =
        (makeSubst X.C v l >>= fun r => substs X.C σ (ord.take k) r) >>= fun r => substs X.C σ [ord.getD k 0] r := by
      rw [et]
      cases makeSubst X.C v l with
      | val x => exact substs_append
      | _ => rfl
    rw [this, hg, Out.bind_val, substs, e3]
    obtain ⟨g', hg'⟩ := r1 (inst X.E T l)
    refine ⟨g', ?_⟩
    show (makeSubst X.C w.sv (inst X.E T l) >>= fun r => substs X.C σ [] r) = _
    rw [hg', Out.bind_val, hcomp]
    rfl
  · intro y hy
    exact ⟨inst_ns (fun z hz => (r3 z hz).1) (hc.ne y hy).1, inst_ne (fun z hz => (r3 z hz).2) (hc.ne y hy).2⟩
  · rw [← hcomp, hc.main, inst_id ρ hm]
  · intro p hp
    rw [← hcomp]
    by_cases e : p = k
    · subst e
      rw [r2, inst_id ρ ht]
      exact ⟨ht, hg⟩
    · obtain ⟨q1, q2⟩ := hc.hyps p (by omega)
      rw [inst_id ρ q1]
      exact ⟨q1, q2⟩

theorem comp_all (hR : Rdy X) (hP : PipOk X) {A m : List Nat} {hs : List (List Nat)} {σ : Nat → Slot} (hm : m ≠ [] ∧ ∀ t ∈ m, t < X.E.sep) (hlen : nE ≤ ord.length)
    (hA : A ≠ [] ∧ X.E.sep ∉ A) (hh : ∀ j < ord.length, hs.getD (ord.getD j 0) [] ≠ [] ∧ X.E.sep ∉ hs.getD (ord.getD j 0) [])
    (hu : ∀ j < ord.length, ∀ m, Match X R m (σ (ord.getD j 0)) → unk ∉ (σ (ord.getD j 0)).proof) (hc : Calls X.C A m (fun _ => True) v) (hat : ∀ q < ord.length, At X R v ord nE hs σ q) :
    ∀ k ≤ nE, ∃ T, Comp X dv v ord A m hs σ k T
  | 0, _ => by
    have hprop := hR.fits.proper hA.1 hm.1 hA.2 (fun h => Nat.lt_irrefl _ (hm.2 _ h))
    obtain ⟨ρ, r1, r2, r3⟩ := sv_inst hR hprop hc
    refine ⟨ρ, fun l => ?_, r3, by rw [r2, inst_id ρ hm.2], fun p hp => by omega⟩
    obtain ⟨f, hf⟩ := r1 l
    exact ⟨f, by rw [hf]; rfl⟩
  | k + 1, hk => by
    obtain ⟨T, hT⟩ := comp_all hR hP hm hlen hA hh hu hc hat k (by omega)
    exact comp_step hR hP hm.2 hlen hh hu (by omega) hT (hat k (by omega))

/-- When every hypothesis has a proof, the whole is a proof of the step. -/
theorem repl_good (hR : Rdy X) (hP : PipOk X) (hi : 1 ≤ i ∧ i < X.prove) (hk : (X.E.stmt i).kind = .a ∨ (X.E.stmt i).kind = .p) (hd : X.noDist = true → (X.E.stmt i).reqDisj = [])
    {m : List Nat} (hm : Str X.E m) {σ : Nat → Slot} (hord : ord.Perm (List.range (X.E.stmt i).reqHyp.length)) (hlen : nE ≤ ord.length)
    (hE : ∀ p, nE ≤ p → p < ord.length → (X.E.stmt ((X.E.stmt i).reqHyp.getD (ord.getD p 0) 0)).kind = .f)
    (hc : Calls X.C (dum X i (X.E.stmt i).math) m (fun _ => True) v) (hpre : Pre X R v ord nE (dumHyps X i) ord.length σ)
    (hu : ∀ j < (X.E.stmt i).reqHyp.length, ∀ m, Match X R m (σ j) → unk ∉ (σ j).proof) :
    Good X dv m (((List.range (dumHyps X i).length).map fun j => (σ j).proof).flatten ++ [(i : Int)]) := by
  have hR1 := hR.ready
  have hol : ord.length = (X.E.stmt i).reqHyp.length := by rw [hord.length_eq, List.length_range]
  have hlt : ∀ p < ord.length, ord.getD p 0 < (X.E.stmt i).reqHyp.length := by
    intro p hp
    rw [List.getD_eq_getElem _ _ hp]
    exact List.mem_range.mp (hord.mem_iff.mp (List.getElem_mem hp))
  have hmem : ∀ j (hj : j < (X.E.stmt i).reqHyp.length), (X.E.stmt i).reqHyp[j] ∈ (X.E.stmt i).reqHyp := fun j hj => List.getElem_mem hj
  have hhs : ∀ j < ord.length, (dumHyps X i).getD (ord.getD j 0) [] ≠ [] ∧ X.E.sep ∉ (dumHyps X i).getD (ord.getD j 0) [] := by
    intro j hj
    have hj' := hlt j hj
    have e := getD_hyps (X := X) i (ord.getD j 0) hj'
    obtain ⟨g1, g2, k, l, g3, _⟩ := str_hyp hR1 hk (hmem _ hj')
    unfold dumHyps
    rw [e]
    refine ⟨?_, ren_sep g1⟩
    unfold dum
    rw [g3]; simp
  obtain ⟨k0, l0, ec, _⟩ := (hR1.env.ass i hk).concl
  obtain ⟨T, hT⟩ := comp_all (dv := dv) hR hP hm hlen (A := dum X i (X.E.stmt i).math) ⟨by unfold dum; rw [ec]; simp, ren_sep (str_math hR1 hk)⟩ hhs
    (fun j hj => hu _ (hlt j hj)) hc hpre.below nE (Nat.le_refl _)
  -- the value of every required variable is known
  have hval : ∀ t ∈ (X.E.stmt i).reqVars, ∀ u ∈ T (X.E.sep + 1 + X.d + (X.E.stmt i).reqVars.idxOf t), u < X.E.sep := by
    intro t ht u hu'
    have hv := (((hR1.env.ass i hk).vars t).mp ht).1
    rcases hR.occurs i hk t ht with h1 | ⟨h, h1, h2, h3⟩
    · refine hm.2 u ?_
      rw [← hT.main]
      have e2 := inst_ren (E := X.E) (σ := T) (d := X.d) (vars := (X.E.stmt i).reqVars) (str_math hR1 hk)
      unfold dum
      rw [e2]
      exact List.mem_flatMap.mpr ⟨t, h1, by rw [if_pos hv]; exact hu'⟩
    · obtain ⟨j, hj⟩ := List.getElem?_of_mem h1
      obtain ⟨hj1, hj2⟩ := List.getElem?_eq_some_iff.mp hj
      obtain ⟨p, hp⟩ := List.getElem?_of_mem (hord.mem_iff.mpr (List.mem_range.mpr hj1))
      obtain ⟨hp1, hp2⟩ := List.getElem?_eq_some_iff.mp hp
      have ep : ord.getD p 0 = j := by rw [List.getD_eq_getElem _ _ hp1]; exact hp2
      have hpn : p < nE := by
        apply Classical.byContradiction
        intro hn
        have := hE p (by omega) hp1
        rw [ep, List.getD_eq_getElem _ _ hj1, hj2, h2] at this
        cases this
      have := (hT.hyps p hpn).1
      rw [ep] at this
      unfold dumHyps at this
      rw [getD_hyps (X := X) i j hj1, hj2] at this
      refine this u ?_
      have e2 := inst_ren (E := X.E) (σ := T) (d := X.d) (vars := (X.E.stmt i).reqVars) (str_hyp hR1 hk h1).1
      unfold dum
      rw [e2]
      exact List.mem_flatMap.mpr ⟨t, h3, by rw [if_pos hv]; exact hu'⟩
  have hstr : ∀ j (hj : j < (X.E.stmt i).reqHyp.length), ∀ u ∈ inst X.E T ((dumHyps X i).getD j []), u < X.E.sep := by
    intro j hj u hu'
    unfold dumHyps at hu'
    rw [getD_hyps (X := X) i j hj] at hu'
    obtain ⟨g1, g2, _⟩ := str_hyp hR1 hk (hmem _ hj)
    have e2 := inst_ren (E := X.E) (σ := T) (d := X.d) (vars := (X.E.stmt i).reqVars) g1
    unfold dum at hu'
    rw [e2] at hu'
    obtain ⟨t, ht, hu'⟩ := List.mem_flatMap.mp hu'
    by_cases hv : X.E.isVar t = true
    · rw [if_pos hv] at hu'; exact hval t (g2 t ht hv) u hu'
    · rw [if_neg hv] at hu'
      rw [List.mem_singleton.mp hu']; exact g1 t ht
  have hgood : ∀ p < ord.length, Good X dv (inst X.E T ((dumHyps X i).getD (ord.getD p 0) [])) (σ (ord.getD p 0)).proof := by
    intro p hp
    by_cases hpn : p < nE
    · exact (hT.hyps p hpn).2
    · obtain ⟨mm, h1, h2⟩ := hpre.below p hp
      unfold hypStr at h1
      rw [Nat.min_eq_right (by omega)] at h1
      obtain ⟨f, hf⟩ := hT.eq ((dumHyps X i).getD (ord.getD p 0) [])
      rw [hf] at h1
      obtain rfl := Out.val.inj h1
      have hs := hstr _ (hlt p hp)
      rcases h2 with h2 | ⟨_, h2⟩
      · obtain ⟨t, w, l, e1, e2, e3, e4, e5, e6, e7, e8⟩ := h2.ex
        dsimp only at e5 e8
        have hprop := hR.fits.proper e5 e4 (fun h => Nat.lt_irrefl _ (hs _ h)) (test_ns hR e1)
        obtain ⟨ρ, r1, r2, r3⟩ := sv_inst hR hprop (calls_of hprop e8)
        have hg : Good X dv t (σ (ord.getD p 0)).proof := test_good hR1 hP e1 e2 (hu _ (hlt p hp) _ h2)
        rw [inst_id ρ hs, inst_id ρ (good_toks hR1 hg)] at r2
        rw [r2]; exact hg
      · obtain ⟨n', hq⟩ := h2.ex
        unfold proveFloating at hq
        obtain ⟨r, r1, r2⟩ := bind_inv hq
        have r2 := Out.val.inj r2
        rw [← r2]
        refine search_sound hR1 hP 40 _ _ r ⟨inst_ne (fun y hy => (hT.ne y hy).2) (hhs p hp).1, hs⟩ r1 ?_
        rw [r2]; exact h2.ne
  have e1 := inst_ren (E := X.E) (σ := T) (d := X.d) (vars := (X.E.stmt i).reqVars) (str_math hR1 hk)
  have e2 := hT.main
  unfold dum at e2
  rw [e1] at e2
  rw [← e2]
  refine good_use hi (by have := hR1.last; omega) hk hd (forall₂_hyps (by simp) fun j hj => ?_)
  have hjm : j ∈ ord := hord.mem_iff.mpr (List.mem_range.mpr hj)
  obtain ⟨p, hp⟩ := List.getElem?_of_mem hjm
  obtain ⟨hp1, hp2⟩ := List.getElem?_eq_some_iff.mp hp
  have ep : ord.getD p 0 = j := by rw [List.getD_eq_getElem _ _ hp1]; exact hp2
  have hg := hgood p hp1
  rw [ep] at hg
  unfold dumHyps at hg
  rw [getD_hyps (X := X) i j hj] at hg
  have e3 := inst_ren (E := X.E) (σ := T) (d := X.d) (vars := (X.E.stmt i).reqVars) (str_hyp hR1 hk (hmem _ hj)).1
  unfold dum at hg
  rw [e3] at hg
  rw [List.getD_eq_getElem _ _ (by simpa using hj)]
  simpa using hg

end MM.Repl
