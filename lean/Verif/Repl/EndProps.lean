import Verif.Repl.Ends3
import Verif.Repl.Props
/-!
# C75: MINIMIZE_WITH ends
-/
namespace MM.Repl
open MM.Veri MM.Proof MM.Data MM.Tree MM.Pfas MM.Impr MM.Spec MM.Pars
open MM.Pfas.AF MM.Pfas.Cx
open MM.Unif (bind_inv)

variable {X : Impr.Ctx} {src : List Src} {s : PState} {look : Look} {U : Unifier} {i : Nat} {cnt : Pip → Nat → Nat → Nat}

/-- MINIMIZE_WITH is called for an assertion, as the command does it: without a test of the "(New usage is discouraged.)" (metamath.c has made it), and the unifications are those of
mmunif.c. -/
structure MiniC (src : List Src) (s : PState) (look : Look) (X : Impr.Ctx) (U : Unifier) (i : Nat) : Prop extends Mini src s look X U i where
  kind : kindAt (kinds src) i = .a ∨ kindAt (kinds src) i = .p
  over : X.override = 2
  real : Realises X.C U

theorem MiniC.kind' (h : MiniC src s look X U i) : (X.E.stmt i).kind = .a ∨ (X.E.stmt i).kind = .p := by
  rw [h.set.env, kind_env (look := look) h.set.read i]
  exact h.kind

/-- A state of a session with the unifications of mmunif.c in which the known steps are unified with their targets and no error was reported. -/
structure Here (X : Impr.Ctx) (U : Unifier) (N : Nat) (a : MM.Pfas.St) : Prop where
  run : Run N X.E U X.prove a
  unified : Unified a

theorem MiniC.fits (h : MiniC src s look X U i) : Fits X.C X.E := ⟨(ready_of_setting h.set).mt, h.min, (ready_of_setting h.set).con⟩

theorem MiniC.math (h : MiniC src s look X U i) : (∀ t ∈ (X.E.stmt X.prove).math, t < X.E.sep) ∧ (X.E.stmt X.prove).math ≠ [] := by
  have := math_of_parse (look := look) h.set.read h.set.prove
  rw [← h.set.env] at this
  exact this

theorem Here.rdy (h : MiniC src s look X U i) {N : Nat} {a : MM.Pfas.St} (ha : Here X U N a) : Rdy (at' X a) :=
  rdy_of h.set h.min (C75_no_separator h.set h.min h.real ha.run)

theorem Here.pip (h : MiniC src s look X U i) {N : Nat} {a : MM.Pfas.St} (ha : Here X U N a) : PipOk (at' X a) := pip_of h.set h.unif ha.run.reach ha.unified

theorem Here.strs (h : MiniC src s look X U i) {N : Nat} {a : MM.Pfas.St} (ha : Here X U N a) : Strs (at' X a) := by
  have hY := ready_of_setting h.set
  obtain ⟨hI, hC⟩ := run_clean hY.env h.real h.fits h.math.1 ha.run
  obtain ⟨f, hr, hA, ht, _⟩ := hI.2 ha.unified.1
  refine ⟨fun m hm => ?_, hC.u⟩
  have hm : m ∈ a.pip.target := hm
  rw [hr.target] at hm
  obtain ⟨x, hx, rfl⟩ := List.mem_map.mp hm
  refine full_forest hY.env hA ?_ x hx
  rw [ht]
  intro t h1
  rw [List.mem_singleton.mp h1]; exact h.math.2

theorem miniStep_ends (h : MiniC src s look X U i) {N : Nat} {a : MM.Pfas.St} (ha : Here X U N a) {step : Nat} (hst : step < a.pip.proof.length) :
    ∃ M r, ∀ n, M ≤ n → miniStep X n U cnt false i step a = .val r := by
  have hR := ha.rdy h
  have hP := ha.pip h
  obtain ⟨M, q, hM⟩ := miniFind_ends hR hP (ha.strs h) h.kind' (fun hx => by have : X.override = 0 := hx.1; rw [h.over] at this; omega) cnt false hst
  by_cases c1 : q = []
  · exact ⟨M, none, fun n hn => by unfold miniStep; rw [hM n hn, Out.bind_val, if_pos c1]⟩
  obtain ⟨m, hm, _, hg, _⟩ := miniFind_sound (dv := fun _ _ => False) hR hP h.stmt h.dist (hM M (Nat.le_refl _)) c1
  have hY := ready_of_setting h.set
  obtain ⟨hI, hC⟩ := run_clean hY.env h.real h.fits h.math.1 ha.run
  obtain ⟨K, t, ht, _⟩ := exec_clean hY.env h.real h.fits h.math.1 (c := .insert q step) hI hC (good_formed (X := at' X a) hg) trivial
  obtain ⟨x, old, b, e1, e2, e3, _⟩ := insert_good hY.env h.unif hP hst hg hm ht
  have e3 : subproofLen X.E a.pip.proof step = .val (old.length : Int) := e3
  by_cases c2 : (q.length : Int) < (old.length : Int)
  · refine ⟨M, some t, fun n hn => ?_⟩
    unfold miniStep
    rw [hM n hn, Out.bind_val, if_neg c1, e3, Out.bind_val, if_pos (Or.inl c2), if_neg, (exec_insert_n n K).trans ht, Out.bind_val]
    rintro ⟨hu, _⟩
    obtain ⟨f, hr, hA, _⟩ := hP
    have hr : Rep a.pip f := hr
    obtain ⟨c, x', ch, rfl, e⟩ := locate f (i := step) (by rw [hr.proof] at hst; simpa using hst)
    obtain ⟨h1, h2⟩ := all_plug (hA.mono fun _ _ => NodeOk.shape)
    have hu' : x'.stmt = unk := by
      rw [hr.at.1] at hu
      rw [← hu, e]
      simp [List.getD_eq_getElem?_getD]
    have hch : ch = .nil := by
      have := h2.2.1
      rw [hu'] at this
      have h0 : arity (at' X a).E unk = 0 := by unfold arity; rw [if_neg (by unfold unk; omega)]
      rw [h0] at this
      cases ch with
      | nil => rfl
      | snoc l y d => simp [AF.tgts] at this
    have hs := subproofLen_at h1 ⟨h2.1, h2.2⟩ (proof := a.pip.proof) (pre := c.pre.map Node.stmt) (post := c.post.map Node.stmt) (by rw [hr.at.1]; simp)
    rw [List.length_map, ← e] at hs
    have hs : subproofLen X.E a.pip.proof step = .val ((ch.flat.length : Int) + 1) := hs
    rw [e3] at hs
    have := Out.val.inj hs
    rw [hch] at this
    have hq : 0 < q.length := List.length_pos_of_ne_nil c1
    simp [AF.flat] at this
    omega
  · refine ⟨M, none, fun n hn => ?_⟩
    unfold miniStep
    rw [hM n hn, Out.bind_val, if_neg c1, e3, Out.bind_val, if_neg (by rintro (h | h); exact c2 h; cases h)]

theorem miniFor_ends (h : MiniC src s look X U i) {N : Nat} {a : MM.Pfas.St} (ha : Here X U N a) : ∀ k ≤ a.pip.proof.length, ∃ M r, ∀ n, M ≤ n → miniFor X n U cnt false i a k = .val r
  | 0, _ => ⟨0, none, fun _ _ => rfl⟩
  | k + 1, hk => by
    obtain ⟨M, r, hM⟩ := miniStep_ends (cnt := cnt) h ha (step := k) (by omega)
    by_cases c : r.isSome = true
    · exact ⟨M, r, fun n hn => by rw [miniFor, hM n hn, Out.bind_val, if_pos c]⟩
    · obtain ⟨M', r', hM'⟩ := miniFor_ends h ha k (by omega)
      exact ⟨max M M', r', fun n hn => by rw [miniFor, hM n (by omega), Out.bind_val, if_neg c]; exact hM' n (by omega)⟩

theorem miniLoop_ends (h : MiniC src s look X U i) {N start : Nat} : ∀ (d : Nat) {a : MM.Pfas.St}, Here X U N a → a.pip.proof.length ≤ d →
    (∃ M b, ∀ n f, M ≤ n → M ≤ f → miniLoop X n U cnt false i start f a = .val b) ∨ ∃ t k, Steps X U false i a t k ∧ t.err = true
  | d, a, ha, hd => by
    obtain ⟨M, r, hM⟩ := miniFor_ends (cnt := cnt) h ha a.pip.proof.length (Nat.le_refl _)
    cases r with
    | none =>
      refine Or.inl ⟨M + 1, a, fun n f hn hf => ?_⟩
      obtain ⟨f, rfl, _⟩ := succ_of hf
      rw [miniLoop, hM n (by omega)]
      rfl
    | some t =>
      obtain ⟨step, h1, h2, _⟩ := miniFor_some (hM M (Nat.le_refl _))
      have hr := miniStep_sound (ha.rdy h) (ha.pip h) h.unif h.stmt h.dist h1 h2
      have st : Steps X U false i a t 1 := .step h1 hr (.refl _)
      by_cases c : t.err = true
      · exact Or.inr ⟨t, 1, st, c⟩
      have c : t.err = false := by simpa using c
      have ht : Here X U N t := ⟨st.run ha.run, unified_of c (hr.pip c)⟩
      have hl := st.shorter
      cases d with
      | zero => omega
      | succ d =>
        rcases miniLoop_ends h d ht (by omega) with ⟨M', b, hb⟩ | ⟨t', k, h3, h4⟩
        · refine Or.inl ⟨max M (M' + 1), b, fun n f hn hf => ?_⟩
          obtain ⟨f, rfl, _⟩ := succ_of (N := M') (f := f) (by omega)
          rw [miniLoop, hM n (by omega)]
          exact hb n f (by omega) (by omega)
        · exact Or.inr ⟨t', k + 1, .step h1 hr h3, h4⟩

/-- C75 (partial): without MAY_GROW, MINIMIZE_WITH ends, without a crash or an internal error, unless one of its insertions reports that the steps cannot be unified. -/
theorem C75_minimize_ends_partial (h : MiniC src s look X U i) {N : Nat} {a : MM.Pfas.St} (ha : Here X U N a) :
    (∃ M b, ∀ n, M ≤ n → minimizeProof X n U cnt false i a = .val b) ∨ ∃ t k, Steps X U false i a t k ∧ t.err = true := by
  rcases miniLoop_ends (cnt := cnt) (start := a.pip.proof.length) h a.pip.proof.length ha (Nat.le_refl _) with ⟨M, b, hb⟩ | h1
  · exact Or.inl ⟨M, b, fun n hn => hb n n hn hn⟩
  · exact Or.inr h1

end MM.Repl
