import Verif.Repl.Main
import Verif.Impr.Props
import Verif.Pfas.EndProps
/-!
# `minimizeProof`: one replacement
-/
namespace MM.Repl
open MM.Veri MM.Proof MM.Data MM.Tree MM.Pfas MM.Impr MM.Spec
open MM.Pfas.AF MM.Pfas.Cx
open MM.Unif (Cfg SV SVH ResH makeSubst unifyH unifyHNext HCalls Calls bind_inv)

variable {X : Impr.Ctx} {R : Range} {n : Nat} {dv : Nat → Nat → Prop} {i : Nat} {U : Unifier}

theorem good_formed {m : List Nat} {q : List Int} (hg : Good X dv m q) : Formed X.E X.prove q ∧ unk ∉ q := by
  obtain ⟨steps, s1, h', s2⟩ := good_proves hg
  refine ⟨⟨?_, fun x hx => (hg.1 x hx).1⟩, fun hu => (hg.1 _ hu).2 rfl⟩
  rw [rpnCount_cnt hg.1 s1, ← cnt_noDv, rpn_cnt s2]
  rfl

theorem steps_shape {E : Env} : ∀ {l : List Int} {steps : List Step}, (∀ x ∈ l, 1 ≤ x) → l.map (decode E.toDb) = steps.map some →
    ∀ x ∈ steps.map noDv, (∃ e : List Nat, x = .hyp e) ∨ ∃ i, x = .use { frameOf E.toDb i with dv := [] } ∧ ((E.stmt i).kind = .a ∨ (E.stmt i).kind = .p) := by
  intro l steps hl h x hx
  obtain ⟨y, hy, rfl⟩ := List.mem_map.mp hx
  have : some y ∈ l.map (decode E.toDb) := by rw [h]; exact List.mem_map_of_mem hy
  obtain ⟨ps, hps, hdec⟩ := List.mem_map.mp this
  have h1 := hl ps hps
  unfold decode at hdec
  rw [if_neg (by omega), if_neg (by omega)] at hdec
  cases hk : (E.stmt ps.toNat).kind <;> rw [hk] at hdec <;> first
    | cases hdec; done
    | (obtain rfl := Option.some.inj hdec; exact Or.inl ⟨_, rfl⟩)
    | (obtain rfl := Option.some.inj hdec; exact Or.inr ⟨ps.toNat, rfl, by rw [hk]; simp⟩)

/-- As `swap_rep`, with the place. -/
theorem swap_at {E : Env} {P : Node → List (List Nat) → Prop} {prove : Nat} (hK : Kept E P) {p : Pip} {f : AF} (hr : Rep p f) (hA : All P f) {step : Nat} (hs : step < p.proof.length)
    {sub : List Int} (hF : Formed E prove sub) :
    ∃ c x ch y g q, f = Cx.plug c x ch ∧ sub = g.flat.map Node.stmt ++ [y] ∧ swapSub E p sub step = .val (q, c.pre.length) ∧ Rep q (c.plug ⟨y, x.tgt, [], x.usr⟩ g) ∧
      All (Shape E) g ∧ StepOk E y ∧ arity E y = g.tgts.length ∧ -1000 < y ∧ step = c.pre.length + ch.flat.length ∧ subproofLen E p.proof step = .val ((ch.flat.length : Int) + 1) := by
  obtain ⟨c, x, ch, rfl, hi⟩ := locate f (i := step) (by rw [hr.proof] at hs; simpa using hs)
  obtain ⟨y, g, g1, g2, g3, g4, g5, g6⟩ := formed_forest hF
  obtain ⟨h1, h2, h3⟩ := basic_at hK hA
  have hsp := subproofLen_at h1 h2 (proof := p.proof) (pre := c.pre.map Node.stmt) (post := c.post.map Node.stmt) (by rw [hr.at.1]; simp)
  rw [List.length_map, ← hi] at hsp
  obtain ⟨q1, d1, d2⟩ := delete_at hK hr hA
  have hpos : ((MM.Pfas.pos c ch : Nat) : Int) = (step : Int) := by rw [hi]; rfl
  rw [hpos] at d1
  obtain ⟨q, a1, a2⟩ := addSubProof_rep d2 rfl rfl g3 y
  have e : (step : Int) - ((ch.flat.length : Int) + 1) + 1 = (c.pre.length : Int) := by rw [hi]; omega
  refine ⟨c, x, ch, y, g, q, rfl, g1, ?_, a2, g2, g4, g5, g6, hi, hsp⟩
  unfold swapSub
  rw [hsp, Out.bind_val, d1, Out.bind_val, e, g1, a1, Out.bind_val]
  rfl

theorem forest_toks {E : Env} (G : GoodEnv E) {prove : Nat} {f : AF} (hA : All (NodeOk E) f) (hn : ∀ x ∈ f.flat, x.stmt ≠ unk) (he : ∀ x ∈ f.flat, x.tgt = x.src)
    (hL : ∀ x ∈ f.flat, Legal E prove x.stmt) : ∀ x ∈ f.flat, ∀ t ∈ x.tgt, t < E.sep := by
  intro x hx
  obtain ⟨k, hk⟩ := List.getElem?_of_mem hx
  obtain ⟨hk1, hk2⟩ := List.getElem?_eq_some_iff.mp hk
  obtain ⟨c, y, ch, rfl, e⟩ := locate f hk1
  have hxy : y = x := by
    rw [← hk2]
    simp [flat_plug, e, List.getElem_append]
  subst hxy
  have hsub : ∀ z ∈ (snoc nil y ch).flat, z ∈ (c.plug y ch).flat := by
    intro z hz; rw [flat_plug]; simp [AF.flat] at hz ⊢; tauto
  obtain ⟨steps, s1, s2⟩ := forest_rpn G (dv := fun _ _ => False) (allP_flat hA) (fun z hz => hn z (hsub z hz)) fun z hz => he z (hsub z hz)
  obtain ⟨h', k⟩ := s2 RPN.nil
  refine toks_of G (prove := prove) ?_ s1 k y.tgt (by simp [AF.tgts])
  intro z hz
  obtain ⟨w, hw, rfl⟩ := List.mem_map.mp hz
  exact ⟨hL w (hsub w hw), hn w (hsub w hw)⟩

/-- Inserting a correct proof of the target of a step. -/
theorem insert_good (G : GoodEnv X.E) (hU : U.Ok X.E) {s t : MM.Pfas.St} (hP : PipOk (at' X s)) {step : Nat} (hst : step < s.pip.proof.length) {m : List Nat} {q : List Int}
    (hg : Good (at' X s) dv m q) (htm : getF s.pip.target step = .val m) (he : exec n X.E U X.prove s (.insert q step) = .val t) :
    ∃ a old b, s.pip.proof = a ++ old ++ b ∧ a.length + old.length = step + 1 ∧ subproofLen X.E s.pip.proof step = .val (old.length : Int) ∧ t.pip.proof = a ++ q ++ b ∧ t.d = s.d ∧
      (t.err = false → PipOk (at' X t) ∧ (NS X.E s.pip.target → NS X.E t.pip.target)) := by
  obtain ⟨f, hr, hA, hu, hL⟩ := hP
  obtain ⟨hF, hnu⟩ := good_formed hg
  have hr : Rep s.pip f := hr
  have hA : All (NodeOk X.E) f := hA
  obtain ⟨c, x, ch, y, g, p1, rfl, hsub, e1, e2, g2, g4, g5, g6, hstep, hsp⟩ := swap_at (kept_nodeOk G) hr hA hst hF
  have hgu : ∀ z ∈ g.flat, z.stmt ≠ unk := fun z hz he => hnu (by rw [hsub, ← he]; simp; exact Or.inl ⟨z, hz, rfl⟩)
  have hyu : y ≠ unk := fun he => hnu (by rw [hsub, ← he]; simp)
  have hlen : q.length = g.flat.length + 1 := by rw [hsub]; simp
  have hat := hr.at
  have hxm : x.tgt = m := by
    have : getF s.pip.target step = .val x.tgt := by
      rw [hat.2.1]
      exact getF_at' (by simp; exact_mod_cast hstep)
    rw [this] at htm
    exact Out.val.inj htm
  rw [exec, if_pos hst, e1, Out.bind_val, hlen] at he
  obtain ⟨av, av1, he⟩ := bind_inv he
  obtain rfl := (Out.val.inj he).symm
  have fin : ∀ {p' : Pip} {x' : Node} {g' : AF}, Rep p' (c.plug x' g') → x'.stmt = y → g'.flat.map Node.stmt = g.flat.map Node.stmt →
      p'.proof = c.pre.map Node.stmt ++ q ++ c.post.map Node.stmt := by
    intro p' x' g' h1 h2 h3
    rw [h1.at.1, h2, h3, hsub]
    simp
  have main : av.1.proof = c.pre.map Node.stmt ++ q ++ c.post.map Node.stmt ∧ (av.2 = false → PipOk (at' X { s with pip := av.1, err := s.err || av.2 }) ∧ (NS X.E s.pip.target → NS X.E av.1.target)) := by
    rcases assignKnownSteps_rep G hU (d := s.d) e2 g2 ⟨g4, g5, g6⟩ hgu hyu with ⟨q', g', x', a1, a2, a3, a4, a5, a6, a7, a8⟩ | ⟨q', g', x', a1, a2, a3, a4, a5, a6, a7⟩
    · rw [a1] at av1
      obtain rfl := (Out.val.inj av1).symm
      refine ⟨fin a2 a3 a7, fun _ => ⟨⟨_, a2, all_replug hA a4 a5 a6, ?_, ?_⟩, ?_⟩⟩
      · have hsrc : x'.tgt = x'.src := by
          have hgn : ∀ z ∈ g'.flat, z.stmt ≠ unk := no_unk a7 hgu
          obtain ⟨steps, t1, t2⟩ := forest_rpn G (dv := dv) (f := snoc nil { x' with tgt := x'.src } g') ⟨trivial, a5, nodeOk_tgtFree _ _ _ a6⟩ (by
              intro z hz
              simp only [AF.flat, List.nil_append, List.mem_append, List.mem_singleton] at hz
              rcases hz with hz | rfl
              · exact hgn z hz
              · exact fun h => hyu (a3.symm.trans h)) (by
              intro z hz
              simp only [AF.flat, List.nil_append, List.mem_append, List.mem_singleton] at hz
              rcases hz with hz | rfl
              · exact a8 z hz
              · rfl)
          obtain ⟨h1, k1⟩ := t2 RPN.nil
          obtain ⟨steps2, u1, u2⟩ := hg.2.2
          obtain ⟨h2, k2⟩ := u2 [] [] [] .nil
          have eq : (snoc nil { x' with tgt := x'.src } g').flat.map Node.stmt = q := by
            have : x'.stmt = y := a3
            simp only [AF.flat, List.nil_append, List.map_append, List.map_cons, List.map_nil, a7, this]
            exact hsub.symm
          rw [eq] at t1
          have es : steps = steps2 := List.map_injective_iff.mpr (Option.some_injective _) (t1.symm.trans u1)
          subst es
          have hpos : ∀ z ∈ q, (1 : Int) ≤ z := fun z hz => by
            obtain ⟨h3, h4⟩ := hg.1 z hz
            rcases h3 with h3 | h3
            · exact absurd h3 h4
            · exact h3.1
          have := rpn_det G k1 (steps_shape hpos t1) _ _ k2
          simp only [AF.tgts, List.nil_append, List.append_nil, List.reverse_cons, List.reverse_nil] at this
          rw [a4, show (⟨y, x.tgt, [], x.usr⟩ : Node).tgt = m from hxm]
          injection this with this
          exact this.symm
        intro z hz hzu
        rw [flat_plug] at hz hu
        simp only [List.mem_append, List.mem_singleton] at hz
        rcases hz with ((hz | hz) | rfl) | hz
        · exact hu z (by simp [hz]) hzu
        · exact a8 z hz
        · exact hsrc
        · exact hu z (by simp [hz]) hzu
      · exact legal_replug hr a2 hL (by rw [a3]; exact hF.2 _ (by rw [hsub]; simp)) fun z hz => hF.2 _ (by
          rw [hsub, ← a7]; simp; exact Or.inl ⟨z, hz, rfl⟩)
      · intro hns
        have hgt := forest_toks G (prove := X.prove) a5 (no_unk a7 hgu) a8 fun z hz => hF.2 _ (by rw [hsub, ← a7]; simp; exact Or.inl ⟨z, hz, rfl⟩)
        show NS X.E q'.target
        rw [a2.at.2.1]
        rw [hat.2.1] at hns
        intro z hz hzs
        simp only [List.mem_append, List.mem_cons] at hz
        rcases hz with (hz | hz) | hz | hz
        · exact hns z (by simp only [List.mem_append]; exact Or.inl (Or.inl hz)) hzs
        · obtain ⟨w, hw, rfl⟩ := List.mem_map.mp hz
          exact Nat.lt_irrefl _ (hgt w hw _ hzs)
        · rw [hz, a4] at hzs
          exact hns x.tgt (by simp) hzs
        · exact hns z (by simp only [List.mem_append, List.mem_cons]; exact Or.inr (Or.inr hz)) hzs
    · rw [a1] at av1
      obtain rfl := (Out.val.inj av1).symm
      exact ⟨fin a2 a3 a7, fun h => by cases h⟩
  refine ⟨c.pre.map Node.stmt, ch.flat.map Node.stmt ++ [x.stmt], c.post.map Node.stmt, by rw [hat.1]; simp, by simp; omega, by rw [hsp]; simp, main.1, rfl, fun h => main.2 ?_⟩
  have h : (s.err || av.2) = false := h
  rw [Bool.or_eq_false_iff] at h
  exact h.2
end MM.Repl
