import Verif.Pfas.Clean
import Verif.Pfas.Props

/-!
# C57: the commands of the Proof Assistant end
-/
namespace MM.Pfas
open MM.Veri MM.Proof MM.Data MM.Tree MM.Spec MM.Pars AF
open MM.Unif (Cfg Proper bind_inv)
variable {E : Env} {U : Unifier} {C : Cfg} {prove : Nat}

/-- The formulas that the user types and the values of the unifications chosen hold no separator (which is not a token one can type). -/
def PAct.Tok (E : Env) : PAct → Prop
  | .letVar _ m => E.sep ∉ m
  | .letStep _ m => E.sep ∉ m
  | .choose τ => ∀ y, E.sep < y → E.sep ∉ τ y
  | _ => True

/-- Runions (as `Reach`) with such commands. -/
inductive Run (n : Nat) (E : Env) (U : Unifier) (prove : Nat) : St → Prop
  | start {proof : List Int} {r : Pip × Nat × Bool} : Formed E prove proof → initProofStruct n E U proof prove = .val r → Run n E U prove ⟨r.1, r.2.1, r.2.2⟩
  | act {s s' : St} {c : PAct} : Run n E U prove s → c.Ok E prove → c.Tok E → exec n E U prove s c = .val s' → Run n E U prove s'
  | undo {s s' : St} : Run n E U prove s → Run n E U prove s' → Run n E U prove ⟨s'.pip, s.d, s'.err⟩

theorem Run.reach {n : Nat} {s : St} (h : Run n E U prove s) : Reach n E U prove s := by
  induction h with
  | start hF he => exact .start hF he
  | act _ hc _ he ih => exact .act ih hc he
  | undo _ _ h1 h2 => exact .undo h1 h2

/-! ### A larger bound does not change a result -/

theorem auLoop_mono {plen : Nat} : ∀ {n : Nat} {s s' : AU}, auLoop E U plen n s = .val s' → ∀ {k : Nat}, n ≤ k → auLoop E U plen k s = .val s'
  | 0, _, _, h, _, _ => by cases h
  | n + 1, s, s', h, k, hk => by
    obtain ⟨k, rfl⟩ := Nat.exists_eq_succ_of_ne_zero (show k ≠ 0 by omega)
    rw [Nat.succ_eq_add_one, auLoop]
    rw [auLoop] at h
    obtain ⟨s1, h1, h2⟩ := bind_inv h
    rw [h1, Out.bind_val]
    split at h2
    · rw [if_pos (by assumption)]; exact auLoop_mono h2 (by omega)
    · rw [if_neg (by assumption)]; exact h2

theorem autoUnify_mono {p : Pip} {b : Bool} {n k : Nat} {r : Pip × Bool} (h : autoUnify n E U p b = .val r) (hk : n ≤ k) : autoUnify k E U p b = .val r := by
  unfold autoUnify at h ⊢
  obtain ⟨s, h1, h2⟩ := bind_inv h
  rw [auLoop_mono h1 hk]
  exact h2

theorem init_mono {proof : List Int} {n k : Nat} {r : Pip × Nat × Bool} (h : initProofStruct n E U proof prove = .val r) (hk : n ≤ k) :
    initProofStruct k E U proof prove = .val r := by
  unfold initProofStruct at h ⊢
  obtain ⟨t, h1, h⟩ := bind_inv h
  obtain ⟨a, h2, h⟩ := bind_inv h
  obtain ⟨q, h3, h⟩ := bind_inv h
  obtain ⟨u, h4, h⟩ := bind_inv h
  rw [h1, Out.bind_val, h2, Out.bind_val, h3, Out.bind_val, autoUnify_mono h4 hk]
  exact h

theorem exec_mono {s s' : St} {c : PAct} {n k : Nat} (h : exec n E U prove s c = .val s') (hk : n ≤ k) : exec k E U prove s c = .val s' := by
  cases c with
  | replace sub step =>
    have e : ∀ n, exec n E U prove s (.replace sub step) = if step < s.pip.proof.length then
      swapSub E s.pip sub step >>= fun r => assignKnownSubProofs E U s.d r.1 >>= fun a => initEmpty E a.1.proof.length 0 a.1 s.d >>= fun q =>
      autoUnify n E U q.1 false >>= fun u => .val ⟨u.1, q.2, s.err || a.2⟩ else .val s := fun _ => rfl
    rw [e] at h ⊢
    by_cases hs : step < s.pip.proof.length
    · rw [if_pos hs] at h ⊢
      obtain ⟨t, h1, h⟩ := bind_inv h
      obtain ⟨a, h2, h⟩ := bind_inv h
      obtain ⟨q, h3, h⟩ := bind_inv h
      obtain ⟨u, h4, h⟩ := bind_inv h
      rw [h1, Out.bind_val, h2, Out.bind_val, h3, Out.bind_val, autoUnify_mono h4 hk]
      exact h
    · rw [if_neg hs] at h ⊢; exact h
  | unify =>
    have e : ∀ n, exec n E U prove s .unify = (autoUnify n E U s.pip true >>= fun u => .val { s with pip := u.1 }) := fun _ => rfl
    rw [e] at h ⊢
    obtain ⟨u, h1, h⟩ := bind_inv h
    rw [autoUnify_mono h1 hk]
    exact h
  | rebuild proof =>
    have e : ∀ n, exec n E U prove s (.rebuild proof) = (initProofStruct n E U proof prove >>= fun r => .val ⟨r.1, r.2.1, r.2.2⟩) := fun _ => rfl
    rw [e] at h ⊢
    obtain ⟨u, h1, h⟩ := bind_inv h
    rw [init_mono h1 hk]
    exact h
  | assign _ _ => exact h
  | insert _ _ => exact h
  | delete _ => exact h
  | letVar _ _ => exact h
  | letStep _ _ => exact h
  | choose _ => exact h
  | initStep _ => exact h
  | initAll => exact h
  | initUser => exact h

/-- A session within one bound is one within every larger bound. -/
theorem Run.mono {n k : Nat} (hk : n ≤ k) {s : St} (h : Run n E U prove s) : Run k E U prove s := by
  induction h with
  | start hF he => exact .start hF (init_mono he hk)
  | act _ hc ht he ih => exact .act ih hc ht (exec_mono he hk)
  | undo _ _ h1 h2 => exact .undo h1 h2

/-! ### Runions are clean -/

theorem formed_ok {proof : List Int} (h : Formed E prove proof) : ∀ x ∈ proof, StepOk E x := fun x hx => (legal_step (h.2 x hx)).1

theorem init_clean (G : GoodEnv E) (hR : Realises C U) (hC : Fits C E) (hm : ∀ t ∈ (E.stmt prove).math, t < E.sep) {proof : List Int} (hF : Formed E prove proof) :
    ∃ N r, initProofStruct N E U proof prove = .val r ∧ Clean E r.1 := by
  have hU : U.Ok E := hR.ok hC.mt (by rw [hC.min]) hC.con
  obtain ⟨t, a, q, h1, h2, h3, h4, _⟩ := init_pre G hU hF
  have c0 : Clean E ⟨proof, t, List.replicate proof.length [], List.replicate proof.length []⟩ :=
    ⟨setF_ns h1 (ns_replicate _) (fun h => Nat.lt_irrefl _ (hm _ h)), ns_replicate _, ns_replicate _, formed_ok hF⟩
  have c1 := initEmpty_clean G h3 (assignKnownSubProofs_clean G hR hC h2 c0)
  obtain ⟨u, hu⟩ := autoUnify_ends hR hC hm h4 c1.noSep false (Nat.lt_succ_self _)
  refine ⟨(dums E q.1).length.succ, (u.1, q.2, a.2), ?_, autoUnify_clean hR hC hm hu h4 c1⟩
  unfold initProofStruct
  rw [h1, Out.bind_val, h2, Out.bind_val, h3, Out.bind_val, hu]
  rfl

theorem exec_clean (G : GoodEnv E) (hR : Realises C U) (hC : Fits C E) (hm : ∀ t ∈ (E.stmt prove).math, t < E.sep) {s : St} {c : PAct} (hI : Inv E prove s) (hp : Clean E s.pip)
    (hc : c.Ok E prove) (ht : c.Tok E) : ∃ N s', exec N E U prove s c = .val s' ∧ Clean E s'.pip := by
  have hU : U.Ok E := hR.ok hC.mt (by rw [hC.min]) hC.con
  have hv : c.Plain → (∀ s', exec 0 E U prove s c = .val s' → Clean E s'.pip) → ∃ N s', exec N E U prove s c = .val s' ∧ Clean E s'.pip := by
    intro h1 h2
    rcases exec_out G hU hm (n := 0) hI hc with ⟨_, h⟩ | ⟨s', h, _⟩
    · exact absurd h1 h
    · exact ⟨0, s', h, h2 s' h⟩
  cases c with
  | replace sub step =>
    have e : ∀ n, exec n E U prove s (.replace sub step) = if step < s.pip.proof.length then
      swapSub E s.pip sub step >>= fun r => assignKnownSubProofs E U s.d r.1 >>= fun a => initEmpty E a.1.proof.length 0 a.1 s.d >>= fun q =>
      autoUnify n E U q.1 false >>= fun u => .val ⟨u.1, q.2, s.err || a.2⟩ else .val s := fun _ => rfl
    by_cases hs : step < s.pip.proof.length
    · obtain ⟨r, a, q, r1, r2, r3, r4, _⟩ := replace_inv G hU hm hI.1 (d := s.d) (n := 0) hs hc
      have c1 := initEmpty_clean G r3 (assignKnownSubProofs_clean G hR hC r2 (swapSub_clean r1 hp (formed_ok hc)))
      obtain ⟨u, hu⟩ := autoUnify_ends hR hC hm r4 c1.noSep false (Nat.lt_succ_self _)
      refine ⟨(dums E q.1).length.succ, ⟨u.1, q.2, s.err || a.2⟩, ?_, autoUnify_clean hR hC hm hu r4 c1⟩
      rw [e, if_pos hs, r1, Out.bind_val, r2, Out.bind_val, r3, Out.bind_val, hu]
      rfl
    · exact ⟨0, s, by rw [e, if_neg hs], hp⟩
  | unify =>
    have e : ∀ n, exec n E U prove s .unify = (autoUnify n E U s.pip true >>= fun u => .val { s with pip := u.1 }) := fun _ => rfl
    obtain ⟨u, hu⟩ := autoUnify_ends hR hC hm hI.1 hp.noSep true (Nat.lt_succ_self _)
    refine ⟨(dums E s.pip).length.succ, { s with pip := u.1 }, ?_, autoUnify_clean hR hC hm hu hI.1 hp⟩
    rw [e, hu]
    rfl
  | rebuild proof =>
    have e : ∀ n, exec n E U prove s (.rebuild proof) = (initProofStruct n E U proof prove >>= fun r => .val ⟨r.1, r.2.1, r.2.2⟩) := fun _ => rfl
    obtain ⟨N, r, r1, r2⟩ := init_clean G hR hC hm (proof := proof) hc
    exact ⟨N, ⟨r.1, r.2.1, r.2.2⟩, by rw [e, r1]; rfl, r2⟩
  | assign stmt step =>
    refine hv trivial fun s' h => ?_
    have e : exec 0 E U prove s (.assign stmt step) = if step < s.pip.proof.length ∧ s.pip.proof.getD step 0 = unk then
      assignStatement E s.pip s.d stmt step >>= fun r => .val { s with pip := r.1, d := r.2 } else .val s := rfl
    rw [e] at h
    split at h
    · obtain ⟨r, h1, h⟩ := bind_inv h
      cases h
      exact assignStatement_clean G h1 hp (legal_step hc).1
    · cases h; exact hp
  | insert sub step =>
    refine hv trivial fun s' h => ?_
    have e : exec 0 E U prove s (.insert sub step) = if step < s.pip.proof.length then
      swapSub E s.pip sub step >>= fun r => assignKnownSteps E U s.d r.1 r.2 sub.length >>= fun a => .val { s with pip := a.1, err := s.err || a.2 } else .val s := rfl
    rw [e] at h
    split at h
    · obtain ⟨r, h1, h⟩ := bind_inv h
      obtain ⟨a, h2, h⟩ := bind_inv h
      cases h
      exact (assignKnownSteps_clean G hR hC h2 (swapSub_clean h1 hp (formed_ok hc.1))).1
    · cases h; exact hp
  | delete step =>
    refine hv trivial fun s' h => ?_
    have e : exec 0 E U prove s (.delete step) = if step < s.pip.proof.length then deleteSubProof E s.pip step >>= fun p => .val { s with pip := p } else .val s := rfl
    rw [e] at h
    split at h
    · obtain ⟨r, h1, h⟩ := bind_inv h
      cases h
      exact deleteSubProof_clean h1 hp
    · cases h; exact hp
  | letVar k m =>
    refine hv trivial fun s' h => ?_
    have e : exec 0 E U prove s (.letVar k m) = if 1 ≤ k ∧ k ≤ s.d then .val { s with pip := (replaceDummyVar E s.pip k m).1 } else .val s := rfl
    rw [e] at h
    split at h
    · cases h; exact replaceDummyVar_clean ht hp
    · cases h; exact hp
  | letStep step m =>
    refine hv trivial fun s' h => ?_
    have e : exec 0 E U prove s (.letStep step m) = if step < s.pip.proof.length then setF s.pip.user step m >>= fun u => .val { s with pip := { s.pip with user := u } } else .val s := rfl
    rw [e] at h
    split at h
    · obtain ⟨u, h1, h⟩ := bind_inv h
      cases h
      exact ⟨hp.t, hp.s, setF_ns h1 hp.u ht, hp.pf⟩
    · cases h; exact hp
  | choose τ => exact ⟨0, _, rfl, makeSubstAll_clean ht hp⟩
  | initStep step =>
    refine hv trivial fun s' h => ?_
    have e : exec 0 E U prove s (.initStep step) = if step < s.pip.proof.length then
      MM.Pfas.initStep E s.pip s.d step >>= fun r => setF r.1.user step [] >>= fun u => .val { s with pip := { r.1 with user := u }, d := r.2 } else .val s := rfl
    rw [e] at h
    split at h
    · obtain ⟨r, h1, h⟩ := bind_inv h
      obtain ⟨u, h2, h⟩ := bind_inv h
      cases h
      have c1 := (initStep_clean G h1 hp).1
      exact ⟨c1.t, c1.s, setF_ns h2 c1.u List.not_mem_nil, c1.pf⟩
    · cases h; exact hp
  | initAll =>
    refine hv trivial fun s' h => ?_
    have e : exec 0 E U prove s .initAll = (initEach E s.pip.proof.length 0 s.pip 0 >>= fun r => assignKnownSubProofs E U r.2 r.1 >>= fun a => .val ⟨a.1, r.2, a.2⟩) := rfl
    rw [e] at h
    obtain ⟨r, h1, h⟩ := bind_inv h
    obtain ⟨a, h2, h⟩ := bind_inv h
    cases h
    exact assignKnownSubProofs_clean G hR hC h2 (initEach_clean G h1 hp)
  | initUser =>
    refine ⟨0, _, rfl, hp.t, hp.s, ?_, hp.pf⟩
    intro m hm' hs
    obtain ⟨y, _, rfl⟩ := List.mem_map.mp hm'
    exact absurd hs List.not_mem_nil

theorem run_clean (G : GoodEnv E) (hR : Realises C U) (hC : Fits C E) (hm : ∀ t ∈ (E.stmt prove).math, t < E.sep) {n : Nat} {s : St} (h : Run n E U prove s) :
    Inv E prove s ∧ Clean E s.pip := by
  refine ⟨reach_inv G (hR.ok hC.mt (by rw [hC.min]) hC.con) hm h.reach, ?_⟩
  induction h with
  | start hF he =>
    obtain ⟨N, r, h1, h2⟩ := init_clean G hR hC hm hF
    have k1 := init_mono h1 (Nat.le_max_left N n)
    rw [init_mono he (Nat.le_max_right N n)] at k1
    cases k1
    exact h2
  | act h1 hc ht he ih =>
    obtain ⟨N, s1, k1, k2⟩ := exec_clean G hR hC hm (reach_inv G (hR.ok hC.mt (by rw [hC.min]) hC.con) hm h1.reach) ih hc ht
    have k3 := exec_mono k1 (Nat.le_max_left N n)
    rw [exec_mono he (Nat.le_max_right N n)] at k3
    cases k3
    exact k2
  | undo _ _ _ ih => exact ih

variable {src : List Src} {s : PState} {look : Look}

/-- C57: there are unification functions as in mmunif.c: their calls end. -/
theorem C57_unifier_exists (hC : Fits C E) : ∃ U, Realises C U := realises_exists C hC.con

/-- C57: with the unification functions of mmunif.c every command of every session ends, normally: there is a bound on the rounds of its automatic unification. -/
theorem C57_command_ends (h : Accepted src s) (hp : kindAt (kinds src) prove = .p) (hC : Fits C (envOf look src s)) (hR : Realises C U) {n : Nat} {t : St}
    (hr : Run n (envOf look src s) U prove t) {c : PAct} (hc : c.Ok (envOf look src s) prove) (ht : c.Tok (envOf look src s)) :
    ∃ N t', ∀ k, N ≤ k → exec k (envOf look src s) U prove t c = .val t' := by
  obtain ⟨hm, _⟩ := math_of_parse (look := look) h hp
  obtain ⟨h1, h2⟩ := run_clean (goodEnv_of_parse h) hR hC hm hr
  obtain ⟨N, t', h3, _⟩ := exec_clean (goodEnv_of_parse h) hR hC hm h1 h2 hc ht
  exact ⟨N, t', fun k hk => exec_mono h3 hk⟩

/-- C57: so does the start of a session, with any stored proof that has the form of a proof. -/
theorem C57_start_ends (h : Accepted src s) (hp : kindAt (kinds src) prove = .p) (hC : Fits C (envOf look src s)) (hR : Realises C U) {proof : List Int}
    (hF : Formed (envOf look src s) prove proof) : ∃ N r, ∀ k, N ≤ k → initProofStruct k (envOf look src s) U proof prove = .val r := by
  obtain ⟨hm, _⟩ := math_of_parse (look := look) h hp
  obtain ⟨N, r, h1, _⟩ := init_clean (goodEnv_of_parse h) hR hC hm hF
  exact ⟨N, r, fun k hk => init_mono h1 hk⟩

/-- C57: the bound is the same for all sessions with a larger one: no session depends on it. -/
theorem C57_bound_irrelevant {E : Env} {n k : Nat} (hk : n ≤ k) {t : St} (h : Run n E U prove t) : Run k E U prove t := h.mono hk

/-- C57, with C54: with the unification functions of mmunif.c, congratulations in a session without reported errors mean a proof of the statement. -/
theorem C57_congratulations_sound (h : Accepted src s) (hp : kindAt (kinds src) prove = .p) (hC : Fits C (envOf look src s)) (hR : Realises C U) {n : Nat} {t : St}
    (hr : Run n (envOf look src s) U prove t) (herr : t.err = false) : CongratsSound n src s look U prove t :=
  C54_congratulations_sound_partial h hp (hR.ok hC.mt (by rw [hC.min]) hC.con) hr.reach herr

end MM.Pfas
