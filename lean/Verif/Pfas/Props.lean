import Verif.Pfas.Sound
import Verif.Pars.HypReq
import Verif.Pfas.UndoSpec
import Verif.Proof.Props

/-!
# Properties of sessions of the Proof Assistant
-/
namespace MM.Pfas
open MM.Veri MM.Proof MM.Data MM.Tree MM.Spec MM.Pars AF Cx
variable {U : Unifier} {prove : Nat} {src : List Src} {s : PState} {look : Look}

theorem goodEnv_of_parse (h : Accepted src s) : GoodEnv (envOf look src s) := by
  have I := (parse_inv h.1 h.2).1
  have hk := fun i => kind_env (look := look) h i
  constructor
  · show tokIsVar (declToks src) (declToks src).length = false
    unfold tokIsVar
    rw [List.getElem?_eq_none (Nat.le_refl _)]
    simp
  · intro i hi t ht
    rw [hk i] at hi
    exact (I.acts i (by rcases hi with hi | hi | hi | hi <;> rw [hi] <;> simp) t ht).1
  · intro i hi
    rw [hk i] at hi
    exact goodAss_of_parse h hi
  · intro i hi j hj
    rw [hk i] at hi
    rw [hk j]
    rcases (((I.frame i hi).hyp j).mp hj).2 with h1 | ⟨h1, _⟩
    · exact Or.inr h1
    · exact Or.inl h1
  · intro i hi
    refine reqHyp_nil h.1 i ?_ ?_ <;> intro hc <;> rcases hi with hi | hi <;> rw [show (s.stmt i).kind = ((envOf look src s).stmt i).kind from rfl, hi] at hc <;> cases hc
  · intro i hi
    rw [hk i] at hi
    rcases hi with hi | hi
    · obtain ⟨c, v, e, hc, _⟩ := I.fShape i hi
      exact ⟨c, [v], e, hc⟩
    · obtain ⟨c, m, e, hc⟩ := I.shape i (by rw [hi]; simp)
      exact ⟨c, m, e, hc⟩

theorem math_of_parse (h : Accepted src s) (hp : kindAt (kinds src) prove = .p) :
    (∀ t ∈ ((envOf look src s).stmt prove).math, t < (envOf look src s).sep) ∧ ((envOf look src s).stmt prove).math ≠ [] := by
  have I := (parse_inv h.1 h.2).1
  refine ⟨fun t ht => (I.acts prove (by rw [hp]; simp) t ht).1, ?_⟩
  obtain ⟨c, m, e, _⟩ := I.shape prove (by rw [hp]; simp)
  show s.math prove ≠ []
  rw [e]; simp

/-- The assertions before `prove`, without their disjoint-variable conditions. -/
def PrecedesNoDv (src : List Src) (s : PState) (prove : Nat) (A : Assertion) : Prop :=
  ∃ i < prove, IsAssert src i ∧ A = ⟨[], (s.stmt i).reqHyp.map s.math, s.math i⟩

/-- C54, the whole statement: congratulations mean that the proof in progress is complete and, but for disjoint-variable conditions, correct. -/
def CongratsSound (n : Nat) (src : List Src) (s : PState) (look : Look) (U : Unifier) (prove : Nat) (t : St) : Prop :=
  ∀ q, autoUnify n (envOf look src s) U t.pip true = .val (q, true) →
    q.proof = t.pip.proof ∧ unk ∉ q.proof ∧ LegalRefs (toDb src s) prove q.proof ∧
    ∃ steps : List Step, q.proof.map (decode (toDb src s)) = steps.map some ∧ Proves (isVarOf src) (fun _ _ => False) (steps.map noDv) (s.math prove)

/-- C54 (partial): it holds in every session, whatever the commands and the answers of the unification, if no "Could not simultaneously unify" error was reported since
all steps were initialised the last time. -/
theorem C54_congratulations_sound_partial (h : Accepted src s) (hp : kindAt (kinds src) prove = .p) (hU : U.Ok (envOf look src s)) {n : Nat} {t : St}
    (hr : Reach n (envOf look src s) U prove t) (herr : t.err = false) : CongratsSound n src s look U prove t := by
  intro q hq
  obtain ⟨hm, hne⟩ := math_of_parse (look := look) h hp
  obtain ⟨h1, h2, steps, h3, h4⟩ := congrats_sound (goodEnv_of_parse h) hU hm hne hr herr hq (fun _ _ => False)
  refine ⟨h1, fun hu => (h2 _ hu).2 rfl, ?_, steps, h3, h4⟩
  intro ps hps _
  rcases (h2 ps hps).1 with hu | ⟨_, _, hl⟩
  · exact absurd hu (h2 ps hps).2
  · exact hl

/-- C54, corollary: the statement then follows from its hypotheses and the assertions before it, but for disjoint-variable conditions. -/
theorem C54_derivable_partial (h : Accepted src s) (hp : kindAt (kinds src) prove = .p) (hU : U.Ok (envOf look src s)) {n : Nat} {t : St}
    (hr : Reach n (envOf look src s) U prove t) (herr : t.err = false) {q : Pip} (hq : autoUnify n (envOf look src s) U t.pip true = .val (q, true)) :
    Derivable (isVarOf src) (fun e => ∃ k, Active (kinds src) k prove ∧ (kindAt (kinds src) k = .e ∨ kindAt (kinds src) k = .f) ∧ e = s.math k)
      (PrecedesNoDv src s prove) (fun _ _ => False) (s.math prove) := by
  obtain ⟨_, _, hl, steps, h3, h4⟩ := C54_congratulations_sound_partial h hp hU hr herr q hq
  have hdec : ∀ x ∈ steps, ∃ ps ∈ q.proof, decode (toDb src s) ps = some x := by
    intro x hx
    have : some x ∈ q.proof.map (decode (toDb src s)) := by rw [h3]; exact List.mem_map_of_mem hx
    simpa using this
  apply h4.derivable
  · intro e he
    obtain ⟨x, hx, hxe⟩ := List.mem_map.mp he
    cases x with
    | use A => simp [noDv] at hxe
    | back i => simp [noDv] at hxe
    | hyp e' =>
      simp only [noDv, Step.hyp.injEq] at hxe
      subst hxe
      obtain ⟨ps, hps, hd⟩ := hdec _ hx
      obtain ⟨k1, k2, k3⟩ := decode_hyp hd
      rcases hl ps hps k1 with ⟨k4, _⟩ | ⟨_, k5⟩
      · obtain ⟨m1, m2⟩ := (mem_hyps_iff (look := look) h hp ps.toNat).mp k4
        exact ⟨_, m1, m2, k3⟩
      · rcases k2 with k2 | k2 <;> rcases k5 with k5 | k5 <;> rw [k2] at k5 <;> cases k5
  · intro A hA
    obtain ⟨x, hx, hxe⟩ := List.mem_map.mp hA
    cases x with
    | hyp e => simp [noDv] at hxe
    | back i => simp [noDv] at hxe
    | use A' =>
      simp only [noDv, Step.use.injEq] at hxe
      obtain ⟨ps, hps, hd⟩ := hdec _ hx
      obtain ⟨k1, k2, k3⟩ := decode_use hd
      rcases hl ps hps k1 with ⟨_, k5⟩ | ⟨k4, k5⟩
      · rcases k2 with k2 | k2 <;> rcases k5 with k5 | k5 <;> rw [k2] at k5 <;> cases k5
      · refine ⟨ps.toNat, k4, by rw [kind_toDb h] at k5; exact k5, ?_⟩
        rw [← hxe, k3]
        rfl

theorem verifies_of_noDv (h : Accepted src s) (hp : kindAt (kinds src) prove = .p) {proof : List Int} (hpos : ∀ x ∈ proof, 0 ≤ x)
    (hdv : ∀ x ∈ proof, (s.stmt x.toNat).reqDisj = []) {steps : List Step} (h3 : proof.map (decode (toDb src s)) = steps.map some)
    (h4 : Proves (isVarOf src) (fun _ _ => False) (steps.map noDv) (s.math prove)) :
    ∃ out, verifyProof (toDb src s) prove proof 0 0 = .val out ∧ out.ret = 0 ∧ out.msgs = [] := by
  have hsteps : steps.map noDv = steps := by
    refine (List.map_congr_left fun x hx => ?_).trans (List.map_id _)
    have : some x ∈ proof.map (decode (toDb src s)) := by rw [h3]; exact List.mem_map_of_mem hx
    obtain ⟨ps, hps, hd⟩ := List.mem_map.mp this
    cases x with
    | hyp e => rfl
    | back i => rfl
    | use A =>
      obtain ⟨_, _, k3⟩ := decode_use hd
      have : A.dv = [] := by rw [k3]; exact hdv ps hps
      simp [noDv, ← this]
  rw [hsteps] at h4
  obtain ⟨hist, h4⟩ := h4
  have h4 := Veri.RPN.mono (d' := Declared (toDb src s) prove) (fun _ _ _ hf => hf.elim) h4
  refine C08_correct_is_verified (db := toDb src s) tok_sep (by rw [kind_toDb h]; exact hp) (by omega) (dvOrdered_of_parse h hp) (fun ps _ => goodRef_of_parse h ps) ?_ h3 ⟨hist, h4⟩
  have : ∀ (l : List Int) (k : Nat), (∀ x ∈ l, 0 ≤ x) → BackOk k l := by
    intro l
    induction l with
    | nil => intro k _; trivial
    | cons x l ih => intro k hx; exact ⟨fun hc => by have := hx x List.mem_cons_self; omega, ih _ fun y hy => hx y (List.mem_cons_of_mem _ hy)⟩
  exact this _ _ hpos

/-- C54, corollary: if the assertions cited have no disjoint-variable conditions, VERIFY PROOF accepts the proof. -/
theorem C54_verifies_partial (h : Accepted src s) (hp : kindAt (kinds src) prove = .p) (hU : U.Ok (envOf look src s)) {n : Nat} {t : St}
    (hr : Reach n (envOf look src s) U prove t) (herr : t.err = false) {q : Pip} (hq : autoUnify n (envOf look src s) U t.pip true = .val (q, true))
    (hdv : ∀ x ∈ q.proof, (s.stmt x.toNat).reqDisj = []) :
    ∃ out, verifyProof (toDb src s) prove q.proof 0 0 = .val out ∧ out.ret = 0 ∧ out.msgs = [] := by
  obtain ⟨hm, hne⟩ := math_of_parse (look := look) h hp
  obtain ⟨_, h2, steps, h3, h4⟩ := congrats_sound (goodEnv_of_parse h) hU hm hne hr herr hq (fun _ _ => False)
  refine verifies_of_noDv h hp ?_ hdv h3 h4
  intro x hx
  rcases (h2 x hx).1 with hu | ⟨h1, _⟩
  · exact absurd hu (h2 x hx).2
  · omega

/-- C55: no session reads or writes outside the proof in progress or reaches an internal error: a command with legal arguments ends normally, if its automatic
unification ends. -/
theorem C55_session_safe (h : Accepted src s) (hp : kindAt (kinds src) prove = .p) (hU : U.Ok (envOf look src s)) {n : Nat} {t : St}
    (hr : Reach n (envOf look src s) U prove t) {c : PAct} (hc : c.Ok (envOf look src s) prove) :
    exec n (envOf look src s) U prove t c = .fuel ∨ ∃ t', exec n (envOf look src s) U prove t c = .val t' := by
  obtain ⟨hm, _⟩ := math_of_parse (look := look) h hp
  rcases exec_inv (goodEnv_of_parse h) hU hm (n := n) (reach_inv (goodEnv_of_parse h) hU hm hr) hc with h1 | ⟨t', h1, _⟩
  · exact Or.inl h1
  · exact Or.inr ⟨t', h1⟩

/-- C55: likewise the start of a session with any stored proof that has the form of a proof. -/
theorem C55_start_safe (h : Accepted src s) (hp : kindAt (kinds src) prove = .p) (hU : U.Ok (envOf look src s)) {n : Nat} {proof : List Int}
    (hF : Formed (envOf look src s) prove proof) :
    initProofStruct n (envOf look src s) U proof prove = .fuel ∨ ∃ r, initProofStruct n (envOf look src s) U proof prove = .val r := by
  obtain ⟨hm, _⟩ := math_of_parse (look := look) h hp
  rcases init_inv (goodEnv_of_parse h) hU hm (n := n) hF with h1 | ⟨r, h1, _⟩
  · exact Or.inl h1
  · exact Or.inr ⟨r, h1⟩

/-- C55: and in every session the proof in progress has one target, source and user formula per step, has the form of a proof (with unknown steps), cites only
hypotheses active for the statement and earlier assertions, and its last target is the statement to be proved. -/
theorem C55_session_shape (h : Accepted src s) (hp : kindAt (kinds src) prove = .p) (hU : U.Ok (envOf look src s)) {n : Nat} {t : St}
    (hr : Reach n (envOf look src s) U prove t) : Pip.Ok t.pip ∧ Formed (envOf look src s) prove t.pip.proof ∧ t.pip.target.getLast? = some (s.math prove) := by
  obtain ⟨hm, _⟩ := math_of_parse (look := look) h hp
  have hi := (reach_inv (goodEnv_of_parse h) hU hm hr).1
  have hl := hi.lens
  obtain ⟨f, hr', hA, ht, hL⟩ := hi
  have hc : f.count = 1 := by rw [← tgts_length, ht]; rfl
  obtain ⟨x, ch, rfl⟩ := count_one hc
  have hne : t.pip.proof ≠ [] := by rw [hr'.proof]; simp [AF.flat]
  have key : ∀ (g : AF) (rest : List Int) (k : Nat), All (Basic (envOf look src s)) g →
      rpnCount (envOf look src s) (g.flat.map Node.stmt ++ rest) k = rpnCount (envOf look src s) rest (k + g.count) := by
    intro g
    induction g with
    | nil => intro rest k _; rfl
    | snoc l nd ch ih1 ih2 =>
      intro rest k hg
      have e : (snoc l nd ch).flat.map Node.stmt ++ rest = l.flat.map Node.stmt ++ (ch.flat.map Node.stmt ++ (nd.stmt :: rest)) := by simp [AF.flat]
      rw [e, ih1 _ _ hg.1, ih2 _ _ hg.2.1]
      have e2 : rpnCount (envOf look src s) (nd.stmt :: rest) (k + l.count + ch.count) = if arity (envOf look src s) nd.stmt ≤ k + l.count + ch.count then
        rpnCount (envOf look src s) rest (k + l.count + ch.count - arity (envOf look src s) nd.stmt + 1) else none := rfl
      have ha := hg.2.2.1.2.1
      rw [tgts_length] at ha
      rw [e2, if_pos (by omega)]
      congr 1
      simp only [AF.count]
      omega
  refine ⟨⟨hne, hl⟩, ⟨?_, hL⟩, ?_⟩
  · have := key (snoc nil x ch) [] 0 hA
    rw [List.append_nil] at this
    rw [hr'.proof, this]
    rfl
  · rw [hr'.target]
    simp only [tgts, List.nil_append, List.cons.injEq, and_true] at ht
    simp only [AF.flat, List.map_append, List.map_cons, List.map_nil, List.getLast?_append, List.getLast?_singleton, ht]
    rfl

end MM.Pfas
