import Verif.Pfas.Reach
import Verif.Veri.Props

/-!
# What the congratulations of the Proof Assistant mean
-/
namespace MM.Pfas
open MM.Veri MM.Proof MM.Data MM.Tree MM.Spec AF Cx
variable {P : Node → List (List Nat) → Prop} {E : Env} {U : Unifier} {prove : Nat}

/-- The invariant of sessions. -/
def Inv (E : Env) (prove : Nat) (s : St) : Prop := InvP E prove (Basic E) s.pip ∧ (s.err = false → InvP E prove (NodeOk E) s.pip)

theorem inv_map {s : St} {p : Pip} {d : Nat} (G : GoodEnv E) (h : Inv E prove s) (hp : ∀ {Q : Node → List (List Nat) → Prop}, Kept E Q → InvP E prove Q s.pip → InvP E prove Q p) :
    Inv E prove { s with pip := p, d := d } := ⟨hp kept_basic h.1, fun he => hp (kept_nodeOk G) (h.2 he)⟩

/-- The commands that do not call `autoUnify`. -/
def PAct.Plain : PAct → Prop
  | .replace _ _ => False
  | .unify => False
  | .rebuild _ => False
  | _ => True

/-- Every command keeps the invariant; only `autoUnify` may fail to end. -/
theorem exec_out (G : GoodEnv E) (hU : U.Ok E) (hm : ∀ t ∈ (E.stmt prove).math, t < E.sep) {n : Nat} {s : St} {c : PAct} (h : Inv E prove s) (hc : c.Ok E prove) :
    (exec n E U prove s c = .fuel ∧ ¬ c.Plain) ∨ ∃ s', exec n E U prove s c = .val s' ∧ Inv E prove s' := by
  cases c with
  | assign stmt step =>
    right
    have e : exec n E U prove s (.assign stmt step) = if step < s.pip.proof.length ∧ s.pip.proof.getD step 0 = unk then
      assignStatement E s.pip s.d stmt step >>= fun r => .val { s with pip := r.1, d := r.2 } else .val s := rfl
    rw [e]
    by_cases hs : step < s.pip.proof.length ∧ s.pip.proof.getD step 0 = unk
    · rw [if_pos hs]
      obtain ⟨r, r1, r2⟩ := assign_inv G kept_basic h.1 (d := s.d) hs.1 hs.2 hc
      rw [r1, Out.bind_val]
      refine ⟨_, rfl, r2, fun he => ?_⟩
      obtain ⟨r', r3, r4⟩ := assign_inv G (kept_nodeOk G) (h.2 he) (d := s.d) hs.1 hs.2 hc
      rw [r1] at r3
      cases r3
      exact r4
    · rw [if_neg hs]; exact ⟨s, rfl, h⟩
  | insert sub step =>
    right
    have e : exec n E U prove s (.insert sub step) = if step < s.pip.proof.length then
      swapSub E s.pip sub step >>= fun r => assignKnownSteps E U s.d r.1 r.2 sub.length >>= fun a => .val { s with pip := a.1, err := s.err || a.2 } else .val s := rfl
    rw [e]
    by_cases hs : step < s.pip.proof.length
    · rw [if_pos hs]
      obtain ⟨r, a, r1, r2, r3, r4⟩ := insert_inv G hU kept_basic h.1 (d := s.d) hs hc.1 hc.2
      rw [r1, Out.bind_val, r2, Out.bind_val]
      refine ⟨_, rfl, r3, fun he => ?_⟩
      simp only [Bool.or_eq_false_iff] at he
      obtain ⟨r', a', k1, k2, k3, k4⟩ := insert_inv G hU (kept_nodeOk G) (h.2 he.1) (d := s.d) hs hc.1 hc.2
      rw [r1] at k1
      cases k1
      rw [r2] at k2
      cases k2
      exact k4 he.2
    · rw [if_neg hs]; exact ⟨s, rfl, h⟩
  | replace sub step =>
    have e : exec n E U prove s (.replace sub step) = if step < s.pip.proof.length then
      swapSub E s.pip sub step >>= fun r => assignKnownSubProofs E U s.d r.1 >>= fun a => initEmpty E a.1.proof.length 0 a.1 s.d >>= fun q =>
      autoUnify n E U q.1 false >>= fun u => .val ⟨u.1, q.2, s.err || a.2⟩ else .val s := rfl
    rw [e]
    by_cases hs : step < s.pip.proof.length
    · rw [if_pos hs]
      obtain ⟨r, a, q, r1, r2, r3, _, r4⟩ := replace_inv G hU hm h.1 (d := s.d) (n := n) hs hc
      rw [r1, Out.bind_val, r2, Out.bind_val, r3, Out.bind_val]
      rcases r4 with r4 | ⟨u, u1, u2, u3⟩
      · rw [r4]; exact Or.inl ⟨rfl, id⟩
      · rw [u1, Out.bind_val]
        refine Or.inr ⟨_, rfl, u2, fun he => ?_⟩
        simp only [Bool.or_eq_false_iff] at he
        exact u3 he.2 (h.2 he.1)
    · rw [if_neg hs]; exact Or.inr ⟨s, rfl, h⟩
  | delete step =>
    right
    have e : exec n E U prove s (.delete step) = if step < s.pip.proof.length then deleteSubProof E s.pip step >>= fun p => .val { s with pip := p } else .val s := rfl
    rw [e]
    by_cases hs : step < s.pip.proof.length
    · rw [if_pos hs]
      obtain ⟨q, q1, q2⟩ := delete_inv kept_basic h.1 hs
      rw [q1, Out.bind_val]
      refine ⟨_, rfl, q2, fun he => ?_⟩
      obtain ⟨q', q3, q4⟩ := delete_inv (kept_nodeOk G) (h.2 he) hs
      rw [q1] at q3
      cases q3
      exact q4
    · rw [if_neg hs]; exact ⟨s, rfl, h⟩
  | letVar k m =>
    right
    have e : exec n E U prove s (.letVar k m) = if 1 ≤ k ∧ k ≤ s.d then .val { s with pip := (replaceDummyVar E s.pip k m).1 } else .val s := rfl
    rw [e]
    by_cases hs : 1 ≤ k ∧ k ≤ s.d
    · rw [if_pos hs]
      exact ⟨_, rfl, inv_map G h fun hQ hq => letVar_inv hQ hm hs.1 m hq⟩
    · rw [if_neg hs]; exact ⟨s, rfl, h⟩
  | letStep step m =>
    right
    have e : exec n E U prove s (.letStep step m) = if step < s.pip.proof.length then setF s.pip.user step m >>= fun u => .val { s with pip := { s.pip with user := u } } else .val s := rfl
    rw [e]
    by_cases hs : step < s.pip.proof.length
    · rw [if_pos hs, setF_val (by rw [h.1.lens.2.2]; exact hs), Out.bind_val]
      exact ⟨_, rfl, inv_map G h fun hQ hq => usr_inv hQ hq (by simp)⟩
    · rw [if_neg hs]; exact ⟨s, rfl, h⟩
  | choose τ => exact Or.inr ⟨_, rfl, inv_map G h fun hQ hq => subst_inv hQ hm τ hq⟩
  | unify =>
    have e : exec n E U prove s .unify = (autoUnify n E U s.pip true >>= fun u => .val { s with pip := u.1 }) := rfl
    rw [e]
    rcases autoUnify_out (U := U) kept_basic hm (n := n) (b := true) h.1 with h1 | ⟨u, hu⟩
    · rw [h1]; exact Or.inl ⟨rfl, id⟩
    · rw [hu, Out.bind_val]
      exact Or.inr ⟨_, rfl, inv_map G h fun hQ hq => autoUnify_inv hQ hm hq hu⟩
  | initStep step =>
    right
    have e : exec n E U prove s (.initStep step) = if step < s.pip.proof.length then
      MM.Pfas.initStep E s.pip s.d step >>= fun r => setF r.1.user step [] >>= fun u => .val { s with pip := { r.1 with user := u }, d := r.2 } else .val s := rfl
    rw [e]
    by_cases hs : step < s.pip.proof.length
    · rw [if_pos hs]
      have key : ∀ {Q : Node → List (List Nat) → Prop}, Kept E Q → InvP E prove Q s.pip → ∃ r, MM.Pfas.initStep E s.pip s.d (step : Int) = .val r ∧ InvP E prove Q r.1 ∧
          step < r.1.user.length := by
        intro Q hQ hq
        obtain ⟨f, hr, hA, ht, hL⟩ := hq
        have hlen : s.pip.proof.length = f.flat.length := by rw [hr.proof, List.length_map]
        obtain ⟨q, d', g, h1, h2, h3, h4, h5, _⟩ := initStep_at G (d := s.d) hQ.toMid hr hA (i := step) (by omega)
        refine ⟨_, h1, .of hr ht hL h2 h3 h4 h5, ?_⟩
        have := congrArg List.length h5
        simp only [List.length_map] at this
        rw [h2.user, List.length_map]
        omega
      obtain ⟨r, r1, r2, r3⟩ := key kept_basic h.1
      rw [r1, Out.bind_val, setF_val r3, Out.bind_val]
      refine ⟨_, rfl, usr_inv kept_basic r2 (by simp), fun he => ?_⟩
      obtain ⟨r', k1, k2, k3⟩ := key (kept_nodeOk G) (h.2 he)
      rw [r1] at k1
      cases k1
      exact usr_inv (kept_nodeOk G) k2 (by simp)
    · rw [if_neg hs]; exact ⟨s, rfl, h⟩
  | initAll =>
    right
    have e : exec n E U prove s .initAll = (initEach E s.pip.proof.length 0 s.pip 0 >>= fun r => assignKnownSubProofs E U r.2 r.1 >>= fun a => .val ⟨a.1, r.2, a.2⟩) := rfl
    rw [e]
    obtain ⟨f, hr, hA, ht, hL⟩ := h.1
    have hlen : s.pip.proof.length = f.flat.length := by rw [hr.proof, List.length_map]
    obtain ⟨q, d', g, h1, h2, h3, h4, h5⟩ := initEach_ok G s.pip.proof.length 0 (d := 0) hr hA (allB_zero f) (by omega)
    obtain ⟨q', e', g', k1, k2, k3, k4, k5, k6⟩ := assignKnownSubProofs_rep G hU (d := d') mid_nodeOk h2 h3
    rw [h1, Out.bind_val, k1, Out.bind_val]
    exact ⟨_, rfl, .of hr ht hL k2 k3 (k4.trans h4) (k5.trans h5), fun he => .of hr ht hL k2 (k6 he) (k4.trans h4) (k5.trans h5)⟩
  | initUser => exact Or.inr ⟨_, rfl, inv_map G h fun hQ hq => usr_inv hQ hq (by simp)⟩
  | rebuild proof =>
    have e : exec n E U prove s (.rebuild proof) = (initProofStruct n E U proof prove >>= fun r => .val ⟨r.1, r.2.1, r.2.2⟩) := rfl
    rw [e]
    rcases init_inv G hU hm (n := n) hc with h1 | ⟨r, r1, r2, r3⟩
    · rw [h1]; exact Or.inl ⟨rfl, id⟩
    · rw [r1, Out.bind_val]
      exact Or.inr ⟨_, rfl, r2, r3⟩

theorem exec_inv (G : GoodEnv E) (hU : U.Ok E) (hm : ∀ t ∈ (E.stmt prove).math, t < E.sep) {n : Nat} {s : St} {c : PAct} (h : Inv E prove s) (hc : c.Ok E prove) :
    exec n E U prove s c = .fuel ∨ ∃ s', exec n E U prove s c = .val s' ∧ Inv E prove s' := (exec_out G hU hm h hc).imp And.left id

theorem reach_inv (G : GoodEnv E) (hU : U.Ok E) (hm : ∀ t ∈ (E.stmt prove).math, t < E.sep) {n : Nat} {s : St} (h : Reach n E U prove s) : Inv E prove s := by
  induction h with
  | start hF he =>
    rcases init_inv G hU hm (n := n) hF with h1 | ⟨r, r1, r2, r3⟩
    · rw [h1] at he; cases he
    · rw [r1] at he
      cases he
      exact ⟨r2, r3⟩
  | act _ hc he ih =>
    rcases exec_inv G hU hm (n := n) ih hc with h1 | ⟨s', h1, h2⟩
    · rw [h1] at he; cases he
    · rw [h1] at he
      cases he
      exact h2
  | undo _ _ _ ih => exact ih

/-! ## Complete proofs -/

/-- The step without its disjoint-variable conditions: the Proof Assistant does not check them. -/
def noDv : Step → Step
  | .use A => .use { A with dv := [] }
  | s => s

theorem step_decode {x : Node} {ts : List (List Nat)} (h : NodeOk E x ts) (hn : x.stmt ≠ unk) :
    (ts = [] ∧ x.src = (E.stmt x.stmt.toNat).math ∧ decode E.toDb x.stmt = some (.hyp (E.stmt x.stmt.toNat).math)) ∨
    ∃ σ, x.src = subst E.isVar σ (E.stmt x.stmt.toNat).math ∧ ts = (Veri.hypsOf E.toDb x.stmt.toNat).map (subst E.isVar σ) ∧
      decode E.toDb x.stmt = some (.use (frameOf E.toDb x.stmt.toNat)) := by
  obtain ⟨h1, _, h3, h4⟩ := h
  rcases h1.cases with ⟨h, _⟩ | ⟨h, hk, ht⟩ | ⟨h, hk, _⟩
  · exact absurd h hn
  · left
    refine ⟨ht, h3 (by omega) hk, ?_⟩
    unfold decode
    rw [if_neg (by omega), if_neg (by omega)]
    rcases hk with hk | hk <;> rw [hk]
  · right
    obtain ⟨σ, s1, s2⟩ := h4 (by omega) hk
    refine ⟨σ, s1, ?_, ?_⟩
    · rw [s2]; unfold hypSubs Veri.hypsOf; rw [List.map_map]; rfl
    · unfold decode
      rw [if_neg (by omega), if_neg (by omega)]
      rcases hk with hk | hk <;> rw [hk]

/-- A consistent forest without unknown steps whose targets are its sources is a list of correct proofs of the targets. -/
theorem forest_rpn (G : GoodEnv E) {dv : Nat → Nat → Prop} : ∀ {f : AF}, All (NodeOk E) f → (∀ x ∈ f.flat, x.stmt ≠ unk) → (∀ x ∈ f.flat, x.tgt = x.src) →
    ∃ steps : List Step, (f.flat.map Node.stmt).map (decode E.toDb) = steps.map some ∧
      ∀ {s h st}, RPN E.isVar dv s h st → ∃ h', RPN E.isVar dv (s ++ steps.map noDv) h' (f.tgts.reverse ++ st)
  | nil, _, _, _ => ⟨[], rfl, fun hr => ⟨_, by simpa [tgts] using hr⟩⟩
  | snoc l x ch, hA, hn, he => by
    obtain ⟨s1, a1, a2⟩ := forest_rpn G (dv := dv) hA.1 (fun y hy => hn y (by simp [AF.flat, hy])) (fun y hy => he y (by simp [AF.flat, hy]))
    obtain ⟨s2, b1, b2⟩ := forest_rpn G (dv := dv) hA.2.1 (fun y hy => hn y (by simp [AF.flat, hy])) (fun y hy => he y (by simp [AF.flat, hy]))
    have hxe := he x (by simp [AF.flat])
    rcases step_decode hA.2.2 (hn x (by simp [AF.flat])) with ⟨ht, hs, hd⟩ | ⟨σ, hs, ht, hd⟩
    · have hc := tgts_nil ht
      subst hc
      refine ⟨s1 ++ [.hyp (E.stmt x.stmt.toNat).math], ?_, fun hr => ?_⟩
      · simp only [AF.flat, List.append_nil, List.map_append, List.map_cons, List.map_nil, a1, hd]
      · obtain ⟨h', k⟩ := a2 hr
        have := RPN.hyp (E.stmt x.stmt.toNat).math k
        exact ⟨h' ++ [(E.stmt x.stmt.toNat).math], by simpa [tgts, hxe, hs, noDv] using this⟩
    · refine ⟨s1 ++ s2 ++ [.use (frameOf E.toDb x.stmt.toNat)], ?_, fun hr => ?_⟩
      · simp only [AF.flat, List.map_append, List.map_cons, List.map_nil, a1, b1, hd]
      · obtain ⟨h', k⟩ := a2 hr
        obtain ⟨h2, k2⟩ := b2 k
        rw [ht] at k2
        have := RPN.use (isVar := E.isVar) (dv := dv) { frameOf E.toDb x.stmt.toNat with dv := [] } σ k2 (by intro x y h; simp at h)
        exact ⟨h2 ++ [subst E.isVar σ (E.stmt x.stmt.toNat).math], by simpa [tgts, hxe, hs, noDv, frameOf] using this⟩

theorem tgts_ne (G : GoodEnv E) : ∀ {f : AF}, All (NodeOk E) f → (∀ m ∈ f.tgts, m ≠ []) → ∀ x ∈ f.flat, x.tgt ≠ []
  | nil, _, _, x, hx => by simp [AF.flat] at hx
  | snoc l y ch, hA, ht, x, hx => by
    simp only [AF.flat, List.mem_append, List.mem_singleton] at hx
    rcases hx with (hx | hx) | rfl
    · exact tgts_ne G hA.1 (fun m hm => ht m (by simp [tgts, hm])) x hx
    · refine tgts_ne G hA.2.1 ?_ x hx
      obtain ⟨h1, _, _, h4⟩ := hA.2.2
      intro m hm
      rcases h1.cases with ⟨_, h⟩ | ⟨_, _, h⟩ | ⟨h, hk, _⟩
      · rw [h] at hm; simp at hm
      · rw [h] at hm; simp at hm
      · obtain ⟨σ, _, h5⟩ := h4 (by omega) hk
        rw [h5] at hm
        obtain ⟨j, hj, rfl⟩ := List.mem_map.mp hm
        exact subst_ne (G.hypHead j (G.hypKind _ hk j hj))
    · exact ht x.tgt (by simp [tgts])

/-- If the Proof Assistant congratulates and no error was reported since the steps were initialised, the proof is correct but for the disjoint-variable conditions. -/
theorem congrats_sound (G : GoodEnv E) (hU : U.Ok E) (hm : ∀ t ∈ (E.stmt prove).math, t < E.sep) (hne : (E.stmt prove).math ≠ []) {n : Nat} {s : St} (h : Reach n E U prove s)
    (herr : s.err = false) {q : Pip} (hq : autoUnify n E U s.pip true = .val (q, true)) (dv : Nat → Nat → Prop) :
    q.proof = s.pip.proof ∧ (∀ x ∈ q.proof, Legal E prove x ∧ x ≠ unk) ∧
    ∃ steps : List Step, q.proof.map (decode E.toDb) = steps.map some ∧ Proves E.isVar dv (steps.map noDv) (E.stmt prove).math := by
  obtain ⟨f, hr, hA, ht, hL⟩ := (reach_inv G hU hm h).2 herr
  rcases autoUnify_rep (U := U) (instClosed_nodeOk G) (n := n) hr hA (by rw [ht]; simpa using hm) true with h1 | ⟨q', b', g, h1, h2, h3, h4, h5, h6⟩
  · rw [h1] at hq; cases hq
  · rw [h1] at hq
    cases hq
    obtain ⟨hn, he⟩ := h6 rfl
    have hpr := rep_proof hr h2 h5
    have htn := tgts_ne G h3 (by rw [h4, ht]; simpa using hne)
    have hsn : ∀ x ∈ g.flat, x.src ≠ [] := by
      have : All (fun x _ => x.stmt ≠ unk → x.src ≠ []) g := h3.mono fun x ts h => h.src_ne G
      exact fun x hx => AF.All.mem (R := fun x => x.stmt ≠ unk → x.src ≠ []) (fun _ _ h => h) this x hx (hn x hx)
    obtain ⟨steps, s1, s2⟩ := forest_rpn G (dv := dv) h3 hn fun x hx => he x hx (htn x hx) (hsn x hx)
    refine ⟨hpr, ?_, steps, by rw [h2.proof]; exact s1, ?_⟩
    · intro x hx
      refine ⟨hL x (by rw [← hpr]; exact hx), fun he => ?_⟩
      rw [h2.proof] at hx
      obtain ⟨y, hy, rfl⟩ := List.mem_map.mp hx
      exact hn y hy he
    · obtain ⟨h', k⟩ := s2 (RPN.nil (isVar := E.isVar) (dv := dv))
      rw [h4, ht] at k
      exact ⟨h', by simpa using k⟩

end MM.Pfas
