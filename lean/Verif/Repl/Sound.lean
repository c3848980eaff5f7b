import Verif.Repl.Inv
/-!
# The proofs that `replaceStatement` returns are correct
-/
namespace MM.Repl
open MM.Veri MM.Proof MM.Data MM.Tree MM.Pfas MM.Impr MM.Spec
open MM.Pfas.AF MM.Pfas.Cx
open MM.Unif (Cfg SV SVH ResH makeSubst unifyH unifyHNext HCalls Calls bind_inv)

variable {X : Impr.Ctx} {R : Range} {n : Nat} {dv : Nat → Nat → Prop}

/-- What the database, the arguments and the proof in progress must satisfy. -/
structure Rdy (X : Impr.Ctx) : Prop where
  ready : Ready X
  fits : Fits X.C X.E
  ns : NS X.E X.pip.target
  /-- a required variable is in the assertion or in a `$e` hypothesis -/
  occurs : ∀ i, (X.E.stmt i).kind = .a ∨ (X.E.stmt i).kind = .p → ∀ v ∈ (X.E.stmt i).reqVars, v ∈ (X.E.stmt i).math ∨
    ∃ h ∈ (X.E.stmt i).reqHyp, (X.E.stmt h).kind = .e ∧ v ∈ (X.E.stmt h).math

/-! ### Proved strings have no dummy variables -/

theorem rpn_toks {E : Env} (G : GoodEnv E) {s : List Step} {h st : List (List Nat)} (hr : RPN E.isVar dv s h st) :
    (∀ x ∈ s, (∃ e : List Nat, x = .hyp e ∧ ∀ t ∈ e, t < E.sep) ∨ ∃ i, x = .use { frameOf E.toDb i with dv := [] } ∧ ((E.stmt i).kind = .a ∨ (E.stmt i).kind = .p)) →
    ∀ m ∈ st, ∀ t ∈ m, t < E.sep := by
  induction hr with
  | nil => intro _ m hm; cases hm
  | hyp e _ ih =>
    intro hs m hm
    rcases List.mem_cons.mp hm with rfl | hm
    · rcases hs _ (List.mem_append_right _ (List.mem_singleton.mpr rfl)) with ⟨e', h1, h2⟩ | ⟨i, h1, _⟩
      · injection h1 with h1; subst h1; exact h2
      · cases h1
    · exact ih (fun x hx => hs x (List.mem_append_left _ hx)) m hm
  | back i e _ _ ih =>
    intro hs
    rcases hs _ (List.mem_append_right _ (List.mem_singleton.mpr rfl)) with ⟨e', h1, h2⟩ | ⟨i, h1, _⟩ <;> cases h1
  | use A σ _ _ ih =>
    intro hs m hm
    have ih := ih fun x hx => hs x (List.mem_append_left _ hx)
    rcases List.mem_cons.mp hm with rfl | hm
    · rcases hs _ (List.mem_append_right _ (List.mem_singleton.mpr rfl)) with ⟨e', h1, h2⟩ | ⟨i, h1, hk⟩
      · cases h1
      · injection h1 with h1; subst h1
        intro t ht
        obtain ⟨u, hu, ht⟩ := List.mem_flatMap.mp ht
        by_cases hv : E.isVar u = true
        · rw [if_pos hv] at ht
          obtain ⟨_, e, he, hue⟩ := ((G.ass i hk).vars u).mp ((G.ass i hk).mathVars u hu hv)
          refine ih (subst E.isVar σ e) (List.mem_append_left _ (List.mem_reverse.mpr (List.mem_map.mpr ⟨e, he, rfl⟩))) t ?_
          exact List.mem_flatMap.mpr ⟨u, hue, by rw [if_pos hv]; exact ht⟩
        · rw [if_neg hv] at ht
          rw [List.mem_singleton.mp ht]
          exact G.toks i (by tauto) u hu
    · exact ih m (List.mem_append_right _ hm)

theorem toks_of {E : Env} (G : GoodEnv E) {prove : Nat} {l : List Int} {steps : List Step} {h' st : List (List Nat)} (h1 : ∀ x ∈ l, Legal E prove x ∧ x ≠ unk)
    (h2 : l.map (decode E.toDb) = steps.map some) (k : RPN E.isVar dv (steps.map noDv) h' st) : ∀ m ∈ st, ∀ t ∈ m, t < E.sep := by
  refine rpn_toks G k ?_
  intro x hx
  obtain ⟨y, hy, rfl⟩ := List.mem_map.mp hx
  have hd : some y ∈ l.map (decode E.toDb) := by rw [h2]; exact List.mem_map_of_mem hy
  obtain ⟨ps, hps, hdec⟩ := List.mem_map.mp hd
  obtain ⟨hL, hu⟩ := h1 ps hps
  obtain ⟨g1, _, g2⟩ := hL.resolve_left hu
  unfold decode at hdec
  rw [if_neg (by omega), if_neg (by omega)] at hdec
  rcases g2 with ⟨_, g2⟩ | ⟨_, g2⟩
  · left
    refine ⟨(E.stmt ps.toNat).math, ?_, G.toks _ (by tauto)⟩
    rcases g2 with g2 | g2 <;> rw [g2] at hdec <;> (rw [← Option.some.inj hdec]; rfl)
  · right
    refine ⟨ps.toNat, ?_, g2⟩
    rcases g2 with g2 | g2 <;> rw [g2] at hdec <;> (rw [← Option.some.inj hdec]; rfl)

theorem good_toks (R : Ready X) {m : List Nat} {l : List Int} (h : Good X dv m l) : ∀ t ∈ m, t < X.E.sep := by
  obtain ⟨h1, _, steps, h2, h3⟩ := h
  obtain ⟨h', k⟩ := h3 [] [] [] .nil
  exact toks_of R.env h1 h2 k m (by simp)

/-! ### What is tried -/

/-- A complete subproof of the proof in progress proves its target. -/
theorem sub_good (R : Ready X) (hP : PipOk X) {k : Nat} {t : List Nat} {len : Int} {q : List Int} (ht : getF X.pip.target k = .val t) (hl : subproofLen X.E X.pip.proof k = .val len)
    (hq : nmbrSeg X.pip.proof ((k : Int) - len + 2) ((k : Int) + 1) = .val q) (hn : unk ∉ q) : Good X dv t q := by
  obtain ⟨f, hr, hA, hu, hL⟩ := hP
  have hk : k < f.flat.length := by
    unfold getF at ht
    split at ht
    · rename_i c
      have := c.2
      rw [hr.target, List.length_map] at this
      simpa using this
    · cases ht
  obtain ⟨c, x, ch, rfl, e⟩ := locate f hk
  obtain ⟨len', l1, l2⟩ := seg_at hr (hA.mono fun _ _ => NodeOk.shape)
  rw [← e] at l1 l2
  rw [hl] at l1
  obtain rfl := Out.val.inj l1
  rw [hq] at l2
  obtain rfl := Out.val.inj l2
  have hm : x.tgt = t := by
    have ht2 : getF X.pip.target k = .val x.tgt := by
      unfold getF
      have hl : k < X.pip.target.length := by rw [hr.target, List.length_map]; omega
      rw [if_pos ⟨by omega, by simpa using hl⟩, hr.target, flat_plug]
      congr 1
      rw [Int.toNat_natCast, e]
      simp [List.getD_eq_getElem?_getD, List.getElem?_append]
    rw [ht] at ht2
    exact (Out.val.inj ht2).symm
  have hsub : ∀ y ∈ (snoc nil x ch).flat, y ∈ (c.plug x ch).flat := by
    intro y hy; rw [flat_plug]; simp [AF.flat] at hy ⊢; tauto
  have hin : ∀ z ∈ (snoc nil x ch).flat.map Node.stmt, z ∈ X.pip.proof := by
    intro z hz
    rw [hr.proof]
    obtain ⟨y, hy, rfl⟩ := List.mem_map.mp hz
    exact List.mem_map.mpr ⟨y, hsub y hy, rfl⟩
  have hk : ∀ y ∈ (snoc nil x ch).flat, y.stmt ≠ unk := fun y hy e => hn (by rw [← e]; exact List.mem_map.mpr ⟨y, hy, rfl⟩)
  obtain ⟨steps, s1, s2⟩ := forest_rpn R.env (dv := dv) (allP_flat hA) hk fun y hy => hu y (hsub y hy) (hk y hy)
  refine ⟨fun z hz => ⟨hL z (hin z hz), fun e => hn (by rw [← e]; exact hz)⟩, fun _ hd z hz => hd z (hin z hz), steps, s1, fun s h st hrp => ?_⟩
  obtain ⟨h', k⟩ := s2 hrp
  exact ⟨h', by simpa [tgts, hm] using k⟩

theorem hyp_good (R : Ready X) {h : Nat} (hh : h ∈ (X.E.stmt X.prove).reqHyp ++ (X.E.stmt X.prove).optHyp) : Good X dv (X.E.stmt h).math [(h : Int)] := by
  obtain ⟨h1, h2, h3⟩ := R.hyps h hh
  have hdec : decode X.E.toDb (h : Int) = some (.hyp (X.E.stmt h).math) := by
    unfold decode
    rw [if_neg (by omega), if_neg (by omega)]
    rcases h3 with h3 | h3 <;> simp [h3]
  refine ⟨?_, ?_, [.hyp (X.E.stmt h).math], by simp [hdec], ?_⟩
  · intro x hx
    obtain rfl := List.mem_singleton.mp hx
    refine ⟨Or.inr ⟨by omega, by omega, Or.inl ⟨by simpa using hh, by simpa using h3⟩⟩, by unfold unk; omega⟩
  · intro _ _ x hx hk
    obtain rfl := List.mem_singleton.mp hx
    rw [Int.toNat_natCast] at hk
    rcases h3 with h3 | h3 <;> rw [h3] at hk <;> rcases hk with hk | hk <;> cases hk
  · intro s h' st hr
    exact ⟨_, RPN.hyp _ hr⟩

theorem test_good (R : Ready X) (hP : PipOk X) {r : Range} {k : Nat} {t : List Nat} {q : List Int} (ht : testStr X r k = .val t) (hq : testProof X r k = .val q) (hn : unk ∉ q) :
    Good X dv t q := by
  unfold testStr at ht
  unfold testProof at hq
  by_cases c : k < (X.E.stmt X.prove).reqHyp.length
  · rw [if_pos c] at ht hq
    obtain rfl := Out.val.inj ht
    obtain rfl := Out.val.inj hq
    refine hyp_good R (List.mem_append_left _ ?_)
    rw [List.getD_eq_getElem _ _ c]
    exact List.getElem_mem c
  · rw [if_neg c] at ht hq
    obtain ⟨len, l1, l2⟩ := bind_inv hq
    exact sub_good R hP ht l1 l2 hn

theorem test_ns (hR : Rdy X) {r : Range} {k : Nat} {t : List Nat} (ht : testStr X r k = .val t) : X.E.sep ∉ t := by
  unfold testStr at ht
  by_cases c : k < (X.E.stmt X.prove).reqHyp.length
  · rw [if_pos c] at ht
    obtain rfl := Out.val.inj ht
    have hm : (X.E.stmt X.prove).reqHyp.getD k 0 ∈ (X.E.stmt X.prove).reqHyp ++ (X.E.stmt X.prove).optHyp := by
      rw [List.getD_eq_getElem _ _ c]
      exact List.mem_append_left _ (List.getElem_mem c)
    obtain ⟨_, _, h3⟩ := hR.ready.hyps _ hm
    exact fun h => Nat.lt_irrefl _ (hR.ready.env.toks _ (by tauto) _ h)
  · rw [if_neg c] at ht
    unfold getF at ht
    split at ht
    · rename_i c2
      obtain rfl := Out.val.inj ht
      rw [List.getD_eq_getElem _ _ c2.2]
      exact hR.ns _ (List.getElem_mem _)
    · cases ht

end MM.Repl
