import Verif.Repl.Loop
/-!
# C75: MINIMIZE_WITH
-/
namespace MM.Repl
open MM.Veri MM.Proof MM.Data MM.Tree MM.Pfas MM.Impr MM.Spec MM.Pars
open MM.Unif (bind_inv)

variable {X : Impr.Ctx} {src : List Src} {s : PState} {look : Look} {U : Unifier} {i n : Nat} {cnt : Pip → Nat → Nat → Nat}

/-- MINIMIZE_WITH assertion `i` (which is before the theorem) is called in the session: the database was read without error, SET EMPTY_SUBSTITUTION is off, and `NO_DISTINCT` of
IMPROVE is not given (mmpfas.c 2078). -/
structure Mini (src : List Src) (s : PState) (look : Look) (X : Impr.Ctx) (U : Unifier) (i : Nat) : Prop where
  set : Setting src s look X
  min : X.C.min = 1
  dist : X.noDist = false
  unif : U.Ok X.E
  stmt : 1 ≤ i ∧ i < X.prove

/-- A state of the session in which the known steps are unified with their targets, no error was reported, and no target holds the separator that the program uses internally
(`C75_no_separator`). -/
structure Tidy (X : Impr.Ctx) (U : Unifier) (a : MM.Pfas.St) : Prop where
  reach : ∃ N, Reach N X.E U X.prove a
  unified : Unified a
  ns : ∀ m ∈ a.pip.target, X.C.mt ∉ m

theorem rdy_of (h : Setting src s look X) (hmin : X.C.min = 1) {a : MM.Pfas.St} (hns : ∀ m ∈ a.pip.target, X.C.mt ∉ m) : Rdy (at' X a) := by
  have hR := ready_of_setting h
  have hE := h.env
  have I := (parse_inv h.read.1 h.read.2).1
  have hk := fun i => kind_env (look := look) h.read i
  refine ⟨⟨hR.env, hR.mt, hR.con, hR.min, hR.tight, hR.last, hR.hyps, hR.over⟩, ⟨hR.mt, hmin, hR.con⟩, ?_, ?_⟩
  · intro m hm
    show X.E.sep ∉ m
    rw [← hR.mt]
    exact hns m hm
  · intro i hi v hv
    have hi : (X.E.stmt i).kind = .a ∨ (X.E.stmt i).kind = .p := hi
    have hv : v ∈ (X.E.stmt i).reqVars := hv
    show v ∈ (X.E.stmt i).math ∨ ∃ h ∈ (X.E.stmt i).reqHyp, (X.E.stmt h).kind = .e ∧ v ∈ (X.E.stmt h).math
    rw [hE] at hi hv ⊢
    rw [hk i] at hi
    have hf := I.frame i hi
    obtain ⟨_, hv | ⟨j, h1, h2, h3⟩⟩ := (hf.var v).mp hv
    · exact Or.inl hv
    · exact Or.inr ⟨j, (hf.hyp j).mpr ⟨h1, Or.inl h2⟩, by rw [hk j]; exact h2, h3⟩

theorem pip_of (h : Setting src s look X) (hU : U.Ok X.E) {a : MM.Pfas.St} {N : Nat} (hr : Reach N X.E U X.prove a) (hu : Unified a) : PipOk (at' X a) :=
  pipOk_of_session (X := at' X a) ⟨h.read, h.env, h.prove, h.mt, h.con, h.min, h.over⟩ (Or.inr ⟨N, U, a, hU, hr, rfl, hu⟩)

theorem unified_of {a : MM.Pfas.St} (he : a.err = false) (hP : PipOk (at' X a)) : Unified a := by
  obtain ⟨f, hr, _, hu, _⟩ := hP
  have hr : Rep a.pip f := hr
  refine ⟨he, fun k hk hn => ?_⟩
  rw [hr.proof, List.length_map] at hk
  rw [hr.proof] at hn
  rw [hr.target, hr.source]
  have hg := List.getElem?_eq_getElem hk
  simp only [List.getD_eq_getElem?_getD, List.getElem?_map, hg, Option.map_some, Option.getD_some] at hn ⊢
  exact hu _ (List.getElem_mem hk) hn

/-- C75: no command of a session puts the separator into a target, with the unification functions of mmunif.c. -/
theorem C75_no_separator (h : Setting src s look X) (hmin : X.C.min = 1) (hR : Realises X.C U) {N : Nat} {a : MM.Pfas.St} (hr : Run N X.E U X.prove a) :
    ∀ m ∈ a.pip.target, X.C.mt ∉ m := by
  have hY := ready_of_setting h
  obtain ⟨hm, _⟩ := math_of_parse (look := look) h.read h.prove
  rw [← h.env] at hm
  intro m hm1
  rw [hY.mt]
  exact (run_clean hY.env hR ⟨hY.mt, hmin, hY.con⟩ hm hr).2.t m hm1

/-- C75 (partial): a proof without unknown steps that `replaceStatement` returns for a formula is correct but for the disjoint-variable conditions, if the known steps of the
current proof are unified with their targets. -/
theorem C75_replace_sound_partial (h : Mini src s look X U i) {a : MM.Pfas.St} (ha : Tidy X U a) {R : Range} {step : Nat} {m : List Nat} (ht : a.pip.target[step]? = some m)
    (hm : Formula src m) {q : List Int} {cnt : Nat → Nat} (hq : replaceStatement (at' X a) n R cnt i step = .val q) (hne : q ≠ []) (hu : unk ∉ q) : Found src s X m q := by
  obtain ⟨N, hr⟩ := ha.reach
  have ht' : getF a.pip.target step = .val m := by
    obtain ⟨h1, h2⟩ := List.getElem?_eq_some_iff.mp ht
    unfold getF
    rw [if_pos ⟨by omega, by simpa using h1⟩]
    congr 1
    rw [Int.toNat_natCast, List.getD_eq_getElem _ _ h1]
    exact h2
  have hg := replace_sound (dv := fun _ _ => False) (rdy_of h.set h.min ha.ns) (pip_of h.set h.unif hr ha.unified) h.stmt (fun e => by
    have e : X.noDist = true := e
    rw [h.dist] at e; cases e) ht' ⟨hm.1, fun t htm => by
      show t < X.E.sep
      rw [h.set.env]; exact hm.2 t htm⟩ hq hne (Or.inl hu)
  obtain ⟨steps, s1, s2⟩ := good_proves hg
  obtain ⟨hL, _⟩ := hg
  have hL : ∀ x ∈ q, Legal X.E X.prove x ∧ x ≠ unk := hL
  have s1 : q.map (decode X.E.toDb) = steps.map some := s1
  have s2 : Proves X.E.isVar (fun _ _ => False) (steps.map noDv) m := s2
  rw [h.set.env] at hL s1 s2
  refine ⟨hu, ?_, steps, s1, s2⟩
  intro ps hps _
  rcases (hL ps hps).1 with hu | ⟨_, _, hl⟩
  · exact absurd hu (hL ps hps).2
  · exact hl

theorem steps_of (h : Mini src s look X U i) {a b : MM.Pfas.St} (ha : Tidy X U a) {grow : Bool} (hm : minimizeProof X n U cnt grow i a = .val b) (hb : b.err = false) :
    (∃ k, Steps X U grow i a b k) ∧ PipOk (at' X b) ∧ Rdy (at' X b) := by
  obtain ⟨N, hr⟩ := ha.reach
  exact miniLoop_sound h.unif h.stmt h.dist (rdy_of h.set h.min ha.ns) (pip_of h.set h.unif hr ha.unified) hm hb

/-- C75 (partial): MINIMIZE_WITH leaves such a state again if it reported no error, and makes no step unknown; what it does is a sequence of insertions that the session allows. -/
theorem C75_minimize_state_partial (h : Mini src s look X U i) {a b : MM.Pfas.St} (ha : Tidy X U a) {grow : Bool} (hm : minimizeProof X n U cnt grow i a = .val b) (hb : b.err = false) :
    Tidy X U b ∧ (unk ∈ b.pip.proof → unk ∈ a.pip.proof) ∧ ∀ N, Run N X.E U X.prove a → Run N X.E U X.prove b := by
  obtain ⟨⟨k, hk⟩, hP, hR⟩ := steps_of h ha hm hb
  obtain ⟨N, hr⟩ := ha.reach
  refine ⟨⟨⟨N, hk.reach hr⟩, unified_of hb hP, ?_⟩, hk.known, fun _ => hk.run⟩
  intro m hm
  rw [(ready_of_setting h.set).mt]
  exact hR.ns m hm

/-- C75 (partial): a complete proof is after MINIMIZE_WITH a complete proof of the same theorem, but for the disjoint-variable conditions. -/
theorem C75_minimize_sound_partial (h : Mini src s look X U i) {a b : MM.Pfas.St} (ha : Tidy X U a) {grow : Bool} (hm : minimizeProof X n U cnt grow i a = .val b) (hb : b.err = false)
    (hc : unk ∉ a.pip.proof) : Found src s X (s.math X.prove) b.pip.proof := by
  obtain ⟨⟨⟨N, hr⟩, hu, _⟩, hk, _⟩ := C75_minimize_state_partial h ha hm hb
  have hcb : unk ∉ b.pip.proof := fun h1 => hc (hk h1)
  have hR := ready_of_setting h.set
  obtain ⟨hmt, _⟩ := math_of_parse (look := look) h.set.read h.set.prove
  rw [← h.set.env] at hmt
  obtain ⟨f, hf, hA, htg, hL⟩ := (reach_inv hR.env h.unif hmt hr).2 hb
  have hn : ∀ x ∈ f.flat, x.stmt ≠ unk := fun x hx e => hcb (by rw [hf.proof, ← e]; exact List.mem_map_of_mem hx)
  obtain ⟨steps, s1, s2⟩ := forest_rpn hR.env (dv := fun _ _ => False) hA hn (by
    intro x hx
    obtain ⟨j, hj⟩ := List.getElem?_of_mem hx
    obtain ⟨hj1, hj2⟩ := List.getElem?_eq_some_iff.mp hj
    have := hu.2 j (by rw [hf.proof, List.length_map]; exact hj1)
    rw [hf.proof, hf.target, hf.source] at this
    simp only [List.getD_eq_getElem?_getD, List.getElem?_map, hj, Option.map_some, Option.getD_some] at this
    exact this (hn x hx))
  obtain ⟨h', k⟩ := s2 RPN.nil
  rw [← hf.proof] at s1
  rw [htg] at k
  rw [h.set.env] at s1 k hL
  refine ⟨hcb, ?_, steps, s1, h', by simp at k; exact k⟩
  intro ps hps _
  rcases hL ps hps with hu | ⟨_, _, hl⟩
  · exact absurd (hu ▸ hps) hcb
  · exact hl

/-- C75 (partial): without MAY_GROW the proof is unchanged or became shorter. -/
theorem C75_minimize_shorter_partial (h : Mini src s look X U i) {a b : MM.Pfas.St} (ha : Tidy X U a) (hm : minimizeProof X n U cnt false i a = .val b) (hb : b.err = false) :
    b = a ∨ b.pip.proof.length < a.pip.proof.length := by
  obtain ⟨⟨k, hk⟩, _⟩ := steps_of h ha hm hb
  have := hk.shorter
  cases hk with
  | refl => exact Or.inl rfl
  | step _ _ _ => right; omega

theorem miniLoop_last {start : Nat} : ∀ {f : Nat} {a b : MM.Pfas.St}, miniLoop X n U cnt false i start f a = .val b → miniFor X n U cnt false i b b.pip.proof.length = .val none
  | 0, _, _, h => by cases h
  | f + 1, a, b, h => by
    rw [miniLoop] at h
    obtain ⟨r, r1, h⟩ := bind_inv h
    cases r with
    | none =>
      have h : Out.val a = .val b := h
      obtain rfl := Out.val.inj h
      exact r1
    | some u =>
      have h : (if false = true ∧ 2 * start < a.pip.proof.length then Out.val u else miniLoop X n U cnt false i start f u) = .val b := h
      rw [if_neg (by simp)] at h
      exact miniLoop_last h

/-- C75: without MAY_GROW it goes on until it can do no more: repeating the command changes nothing. -/
theorem C75_minimize_idempotent {a b : MM.Pfas.St} (hm : minimizeProof X n U cnt false i a = .val b) : minimizeProof X n U cnt false i b = .val b := by
  unfold minimizeProof at hm ⊢
  cases n with
  | zero => cases hm
  | succ n =>
    rw [miniLoop, miniLoop_last hm]
    rfl

end MM.Repl
