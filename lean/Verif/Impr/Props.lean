import Verif.Impr.Ends
import Verif.Pfas.Props
/-!
# C74: the search of IMPROVE
-/
namespace MM.Impr
open MM.Veri MM.Proof MM.Data MM.Tree MM.Pfas MM.Spec MM.Pars
open MM.Unif (bind_inv)

variable {X : Ctx} {src : List Src} {s : PState} {look : Look}

/-- The search is made for a theorem (or an axiom) of a database that was read without error.  The unification functions read the same token table; SET EMPTY_SUBSTITUTION may
be on or off; `overrideFlag` has one of its values. -/
structure Setting (src : List Src) (s : PState) (look : Look) (X : Ctx) : Prop where
  read : Accepted src s
  env : X.E = envOf look src s
  prove : kindAt (kinds src) X.prove = .p
  mt : X.C.mt = (declToks src).length
  con : ∀ t, X.C.mt < t → X.C.isCon t = false
  min : X.C.min ≤ 1
  over : X.override ≤ 2

/-- There is no proof in progress, or it is that of a session of the Proof Assistant. -/
def InSession (X : Ctx) (ok : MM.Pfas.St → Prop) : Prop :=
  X.pip = Pip.empty ∨ ∃ (n : Nat) (U : Unifier) (t : MM.Pfas.St), U.Ok X.E ∧ Reach n X.E U X.prove t ∧ X.pip = t.pip ∧ ok t

/-- The known steps are unified with their targets, and no error "Could not simultaneously unify" was reported since the steps were initialised. -/
def Unified (t : MM.Pfas.St) : Prop := t.err = false ∧ ∀ i < t.pip.proof.length, t.pip.proof.getD i 0 ≠ unk → t.pip.target.getD i [] = t.pip.source.getD i []

/-- A formula without dummy variables. -/
def Formula (src : List Src) (m : List Nat) : Prop := m ≠ [] ∧ ∀ t ∈ m, t < (declToks src).length

/-- The whole statement of soundness: the steps are known, may be cited, and are a correct proof of `m` but for the disjoint-variable conditions. -/
def Found (src : List Src) (s : PState) (X : Ctx) (m : List Nat) (l : List Int) : Prop :=
  unk ∉ l ∧ LegalRefs (toDb src s) X.prove l ∧
  ∃ steps : List Step, l.map (decode (toDb src s)) = steps.map some ∧ Proves (isVarOf src) (fun _ _ => False) (steps.map noDv) m

theorem ready_of_setting (h : Setting src s look X) : Ready X := by
  have hE := h.env
  have I := (parse_inv h.read.1 h.read.2).1
  have hk := fun i => kind_env (look := look) h.read i
  refine ⟨by rw [hE]; exact goodEnv_of_parse h.read, by rw [h.mt, hE]; rfl, h.con, h.min, ?_, ?_, ?_, h.over⟩
  · rw [hE]
    intro i hi he v hv
    rw [hk i] at hi
    have hf := I.frame i hi
    obtain ⟨_, hv | ⟨j, h1, h2, _⟩⟩ := (hf.var v).mp hv
    · exact hv
    · refine absurd ?_ (he j ((hf.hyp j).mpr ⟨h1, Or.inl h2⟩))
      rw [hk j]; exact h2
  · rw [hE]
    show X.prove ≤ src.length + 1
    have hp := h.prove
    apply Classical.byContradiction
    intro hn
    unfold kindAt at hp
    rw [if_neg (by omega), List.getD_eq_default _ _ (by rw [kinds_length]; omega)] at hp
    cases hp
  · rw [hE]
    intro j hj
    rw [mem_hyps_iff h.read h.prove] at hj
    have hkj := hk j
    refine ⟨hj.1.1, ?_, by rw [hkj]; exact hj.2⟩
    show j ≤ src.length
    have hp := hj.2
    apply Classical.byContradiction
    intro hn
    unfold kindAt at hp
    rw [if_neg (by omega), List.getD_eq_default _ _ (by rw [kinds_length]; omega)] at hp
    rcases hp with hp | hp <;> cases hp

theorem rep_empty : Rep Pip.empty AF.nil := ⟨rfl, rfl, rfl, rfl⟩

theorem shape_of_session (h : Setting src s look X) {ok : MM.Pfas.St → Prop} (hs : InSession X ok) : ∃ f, Rep X.pip f ∧ AF.All (Shape X.E) f := by
  rcases hs with hs | ⟨n, U, t, hU, hr, e, _⟩
  · exact ⟨.nil, by rw [hs]; exact rep_empty, trivial⟩
  · have hR := ready_of_setting h
    obtain ⟨hm, _⟩ := math_of_parse (look := look) h.read h.prove
    rw [← h.env] at hm
    obtain ⟨f, hf, hA, _⟩ := (reach_inv hR.env hU hm hr).1
    exact ⟨f, by rw [e]; exact hf, hA.mono fun _ _ h => h.1⟩

theorem pipOk_of_session (h : Setting src s look X) (hs : InSession X Unified) : PipOk X := by
  rcases hs with hs | ⟨n, U, t, hU, hr, e, herr, hu⟩
  · exact ⟨.nil, by rw [hs]; exact rep_empty, trivial, (fun x hx => by cases hx), (fun x hx => by rw [hs] at hx; cases hx)⟩
  · have hR := ready_of_setting h
    obtain ⟨hm, _⟩ := math_of_parse (look := look) h.read h.prove
    rw [← h.env] at hm
    obtain ⟨f, hf, hA, _, hL⟩ := (reach_inv hR.env hU hm hr).2 herr
    refine ⟨f, by rw [e]; exact hf, hA, ?_, by rw [e]; exact hL⟩
    intro x hx hn
    obtain ⟨i, hi⟩ := List.getElem?_of_mem hx
    obtain ⟨hi1, hi2⟩ := List.getElem?_eq_some_iff.mp hi
    have := hu i (by rw [hf.proof, List.length_map]; exact hi1)
    rw [hf.proof, hf.target, hf.source] at this
    simp only [List.getD_eq_getElem?_getD, List.getElem?_map, hi, Option.map_some, Option.getD_some] at this
    exact this hn

theorem good_of_found (h : Setting src s look X) (hs : InSession X Unified) {m : List Nat} (hm : Formula src m) {n : Nat} {l : List Int} (hl : proveFloating X n m = .val l)
    (hne : l ≠ []) : Good X (fun _ _ => False) m l := by
  unfold proveFloating at hl
  obtain ⟨r, r1, r2⟩ := bind_inv hl
  obtain rfl := (Out.val.inj r2).symm
  refine search_sound (ready_of_setting h) (pipOk_of_session h hs) 40 m _ r ⟨hm.1, ?_⟩ r1 hne
  intro t ht
  rw [h.env]
  exact hm.2 t ht

theorem good_proves {dv : Nat → Nat → Prop} {m : List Nat} {l : List Int} (h : Good X dv m l) :
    ∃ steps : List Step, l.map (decode X.E.toDb) = steps.map some ∧ Proves X.E.isVar dv (steps.map noDv) m := by
  obtain ⟨_, _, steps, h1, h2⟩ := h
  obtain ⟨h', k⟩ := h2 [] [] [] .nil
  exact ⟨steps, h1, h', by simpa using k⟩

/-- C74 (partial): what IMPROVE finds is right, if the known steps of the current proof are unified with their targets. -/
theorem C74_search_sound_partial (h : Setting src s look X) (hs : InSession X Unified) {m : List Nat} (hm : Formula src m) {n : Nat} {l : List Int}
    (hl : proveFloating X n m = .val l) (hne : l ≠ []) : Found src s X m l := by
  have hg := good_of_found h hs hm hl hne
  obtain ⟨steps, s1, s2⟩ := good_proves hg
  obtain ⟨hL, _⟩ := hg
  rw [h.env] at hL s1 s2
  refine ⟨fun hu => (hL _ hu).2 rfl, ?_, steps, s1, s2⟩
  intro ps hps _
  rcases (hL ps hps).1 with hu | ⟨_, _, hl⟩
  · exact absurd hu (hL ps hps).2
  · exact hl

theorem noDv_id {l : List Int} {steps : List Step} (h : l.map (decode X.E.toDb) = steps.map some) (hd : ∀ x ∈ l, NoD X.E x) : steps.map noDv = steps := by
  refine (List.map_congr_left fun x hx => ?_).trans (List.map_id _)
  have : some x ∈ l.map (decode X.E.toDb) := by rw [h]; exact List.mem_map_of_mem hx
  obtain ⟨ps, hps, hdec⟩ := List.mem_map.mp this
  cases x with
  | hyp e => rfl
  | back k => rfl
  | use A =>
    have hn := hd ps hps
    unfold decode at hdec
    by_cases c : ps = -63
    · rw [if_pos c] at hdec; cases hdec
    rw [if_neg c] at hdec
    by_cases c : ps < 0
    · rw [if_pos c] at hdec
      by_cases c : ps > -1000
      · rw [if_pos c] at hdec; cases hdec
      · rw [if_neg c] at hdec; cases hdec
    rw [if_neg c] at hdec
    have key : (X.E.stmt ps.toNat).kind = .a ∨ (X.E.stmt ps.toNat).kind = .p → A = frameOf X.E.toDb ps.toNat → noDv (Step.use A) = id (Step.use A) := by
      rintro hk rfl
      show Step.use { frameOf X.E.toDb ps.toNat with dv := [] } = Step.use (frameOf X.E.toDb ps.toNat)
      unfold frameOf
      rw [show (X.E.toDb.stmt ps.toNat).reqDisj = [] from hn hk]
    cases hk : (X.E.stmt ps.toNat).kind <;> rw [hk] at hdec <;> first
      | cases hdec; done
      | exact key (by rw [hk]; simp) (by injection hdec with e; injection e with e; exact e.symm)

/-- C74 (NO_DISTINCT): with that qualifier the proof found is correct without reservation, if the current proof cites no assertion with `$d` requirements. -/
theorem C74_no_distinct_partial (h : Setting src s look X) (hs : InSession X Unified) (hn : X.noDist = true)
    (hd : ∀ x ∈ X.pip.proof, kindAt (kinds src) x.toNat = .a ∨ kindAt (kinds src) x.toNat = .p → (s.stmt x.toNat).reqDisj = []) {m : List Nat} (hm : Formula src m) {n : Nat}
    {l : List Int} (hl : proveFloating X n m = .val l) (hne : l ≠ []) :
    ∃ steps : List Step, l.map (decode (toDb src s)) = steps.map some ∧ Proves (isVarOf src) (fun _ _ => False) steps m := by
  have hg := good_of_found h hs hm hl hne
  obtain ⟨steps, s1, s2⟩ := good_proves hg
  have hk := fun i => kind_env (look := look) h.read i
  have hnd := hg.2.1 hn fun x hx hkx => by
    rw [h.env] at hkx ⊢
    rw [hk] at hkx
    exact hd x hx hkx
  rw [noDv_id s1 hnd, h.env] at s2
  rw [h.env] at s1
  exact ⟨steps, s1, s2⟩

/-- C74: the search ends, with no undefined behaviour and none of its internal errors (1808, 1869, 1870), whatever the limits; `r` may be "no proof". -/
theorem C74_search_ends (h : Setting src s look X) (hs : InSession X fun _ => True) {m : List Nat} (hm : Formula src m) : ∃ N r, ∀ n, N ≤ n → proveFloating X n m = .val r := by
  obtain ⟨f, hf, hA⟩ := shape_of_session h hs
  obtain ⟨N, r, hN⟩ := search_ends (ready_of_setting h) hf hA 40 m ⟨0, false⟩ ⟨hm.1, by intro t ht; rw [h.env]; exact hm.2 t ht⟩
  exact ⟨N, r.1, fun n hn => by unfold proveFloating; rw [hN n hn]; rfl⟩

/-! ### The form of the steps -/

/-- As `rpnCount`, for decoded steps. -/
def cnt : List Step → Nat → Option Nat
  | [], k => some k
  | .use A :: l, k => if A.hyps.length ≤ k then cnt l (k - A.hyps.length + 1) else none
  | _ :: l, k => cnt l (k + 1)

theorem cnt_append : ∀ (a b : List Step) (k : Nat), cnt (a ++ b) k = (cnt a k).bind (cnt b)
  | [], _, _ => rfl
  | .use A :: a, b, k => by
    show (if A.hyps.length ≤ k then cnt (a ++ b) (k - A.hyps.length + 1) else none) = (if A.hyps.length ≤ k then cnt a (k - A.hyps.length + 1) else none).bind (cnt b)
    by_cases h : A.hyps.length ≤ k
    · rw [if_pos h, if_pos h]; exact cnt_append a b _
    · rw [if_neg h, if_neg h]; rfl
  | .hyp _ :: a, b, k => cnt_append a b (k + 1)
  | .back _ :: a, b, k => cnt_append a b (k + 1)

theorem rpn_cnt {isVar : Nat → Bool} {dv : Nat → Nat → Prop} {s : List Step} {h st : List (List Nat)} (hr : RPN isVar dv s h st) : cnt s 0 = some st.length := by
  induction hr with
  | nil => rfl
  | hyp e _ ih => rw [cnt_append, ih]; rfl
  | back i e _ _ ih => rw [cnt_append, ih]; rfl
  | @use s h st A σ _ _ ih =>
    rw [cnt_append, ih]
    simp [cnt]

theorem cnt_noDv : ∀ (l : List Step) (k : Nat), cnt (l.map noDv) k = cnt l k
  | [], _ => rfl
  | .use A :: l, k => by
    show (if A.hyps.length ≤ k then cnt (l.map noDv) (k - A.hyps.length + 1) else none) = if A.hyps.length ≤ k then cnt l (k - A.hyps.length + 1) else none
    rw [cnt_noDv l]
  | .hyp _ :: l, k => cnt_noDv l (k + 1)
  | .back _ :: l, k => cnt_noDv l (k + 1)

theorem rpnCount_cnt {E : Env} {prove : Nat} : ∀ {l : List Int} {steps : List Step}, (∀ x ∈ l, Legal E prove x ∧ x ≠ unk) → l.map (decode E.toDb) = steps.map some → ∀ k,
    rpnCount E l k = cnt steps k
  | [], [], _, _, _ => rfl
  | [], _ :: _, _, h, _ => by cases h
  | _ :: _, [], _, h, _ => by cases h
  | x :: l, y :: steps, hL, h, k => by
    simp only [List.map_cons, List.cons.injEq] at h
    have ih := rpnCount_cnt (fun z hz => hL z (List.mem_cons_of_mem _ hz)) h.2
    obtain ⟨h1, hu⟩ := hL x (by simp)
    obtain ⟨h1, _, h2⟩ := h1.resolve_left hu
    have hd := h.1
    unfold decode at hd
    rw [if_neg (by omega), if_neg (by omega)] at hd
    have er : ∀ a, (if 1 ≤ x ∧ ((E.stmt x.toNat).kind = .a ∨ (E.stmt x.toNat).kind = .p) then (E.stmt x.toNat).reqHyp.length else 0) = a →
        rpnCount E (x :: l) k = if a ≤ k then rpnCount E l (k - a + 1) else none := by rintro a rfl; rfl
    rcases h2 with ⟨_, h2⟩ | ⟨_, h2⟩
    · have e : y = .hyp (E.stmt x.toNat).math := by rcases h2 with h2 | h2 <;> rw [h2] at hd <;> exact (Option.some.inj hd).symm
      rw [er 0 (if_neg (by rintro ⟨_, h3⟩; rcases h2 with h2 | h2 <;> rw [h2] at h3 <;> simp at h3)), if_pos (by omega), e, ih]
      rfl
    · have e : y = .use (frameOf E.toDb x.toNat) := by rcases h2 with h2 | h2 <;> rw [h2] at hd <;> exact (Option.some.inj hd).symm
      rw [er _ (if_pos ⟨h1, h2⟩), e]
      show _ = if (Veri.hypsOf E.toDb x.toNat).length ≤ k then cnt steps (k - (Veri.hypsOf E.toDb x.toNat).length + 1) else none
      have el : (Veri.hypsOf E.toDb x.toNat).length = (E.stmt x.toNat).reqHyp.length := by unfold Veri.hypsOf; rw [List.length_map]
      rw [el, ih]

/-- C74: what IMPROVE finds may be inserted in the current proof (it is what C54 and C55 require of IMPROVE). -/
theorem C74_found_inserts_partial (h : Setting src s look X) (hs : InSession X Unified) {m : List Nat} (hm : Formula src m) {n : Nat} {l : List Int}
    (hl : proveFloating X n m = .val l) (hne : l ≠ []) (step : Nat) : PAct.Ok (envOf look src s) X.prove (.insert l step) := by
  have hg := good_of_found h hs hm hl hne
  obtain ⟨steps, s1, h', s2⟩ := good_proves hg
  rw [← h.env]
  refine ⟨⟨?_, fun x hx => (hg.1 x hx).1⟩, fun hu => (hg.1 _ hu).2 rfl⟩
  rw [rpnCount_cnt hg.1 s1, ← cnt_noDv, rpn_cnt s2]
  rfl

/-! ### The quick filter -/

theorem subst_append' {isVar : Nat → Bool} {σ : Nat → List Nat} (a b : List Nat) : subst isVar σ (a ++ b) = subst isVar σ a ++ subst isVar σ b := by
  unfold subst; rw [List.flatMap_append]

/-- C74: the statements that the quick filter skips are not assertions, or no substitution makes them the formula. -/
theorem C74_quick_filter {E : Env} {i : Nat} {m : List Nat} (h : quick E i m = .val false) (hk : (E.stmt i).kind = .a ∨ (E.stmt i).kind = .p) (σ : Nat → List Nat) :
    subst E.isVar σ (E.stmt i).math ≠ m := by
  intro hm
  unfold quick at h
  rw [if_neg (by rintro ⟨h1, h2⟩; rcases hk with hk | hk; exact h2 hk; exact h1 hk)] at h
  generalize (E.stmt i).math = b at h hm
  by_cases c : m = [] ∨ b = []
  · rw [if_pos c] at h; cases h
  rw [if_neg c] at h
  have hb : b ≠ [] := fun e => c (Or.inr e)
  obtain ⟨b0, b', rfl⟩ := List.exists_cons_of_ne_nil hb
  have hcon : ∀ t, con E t = true → E.isVar t = false := fun t ht => by simpa [con] using ht
  by_cases c2 : endsDiffer E m (b0 :: b') = true
  · unfold endsDiffer at c2
    dsimp only at c2
    simp only [Bool.or_eq_true, Bool.and_eq_true, decide_eq_true_eq] at c2
    have sym : ∀ t, symOr0 E t ≠ 0 → symOr0 E t = t := by
      intro t ht
      unfold symOr0 at ht ⊢
      by_cases hc : con E t = true
      · rw [if_pos hc]
      · rw [if_neg hc] at ht; exact absurd rfl ht
    rcases c2 with (⟨⟨h1, h2⟩, h3⟩ | ⟨⟨⟨⟨h1, h2⟩, h3⟩, h4⟩, h5⟩) | ⟨⟨h1, h2⟩, h3⟩
    · rw [sym _ h1] at h2
      have hv := hcon _ h3
      simp only [List.getD_cons_zero] at h2 hv
      rw [subst_cons, hv] at hm
      apply h2
      rw [← hm]
      simp
    · by_cases hc : 1 < m.length ∧ symOr0 E (m.getD 0 0) ≠ 0
      · rw [if_pos hc] at h1 h3
        rw [sym _ h1] at h3
        obtain ⟨b1, b'', rfl⟩ := List.exists_cons_of_ne_nil (show b' ≠ [] from fun e => by simp [e] at h2)
        have v0 := hcon _ h4
        have v1 := hcon _ h5
        simp only [List.getD_cons_zero, List.getD_cons_succ] at h3 v0 v1
        rw [subst_cons, subst_cons, v0, v1] at hm
        apply h3
        rw [← hm]
        simp
      · rw [if_neg hc] at h1; exact absurd rfl h1
    · rw [sym _ h1] at h2
      rcases List.eq_nil_or_concat (b0 :: b') with e | ⟨a, z, e⟩
      · cases e
      · have ez : (b0 :: b').getD ((b0 :: b').length - 1) 0 = z := by rw [e]; simp [List.getD_eq_getElem?_getD]
        rw [ez] at h2 h3
        have hv := hcon _ h3
        rw [e, List.concat_eq_append, subst_append', show subst E.isVar σ [z] = [z] by simp [subst, hv]] at hm
        apply h2
        rw [← hm]
        simp [List.getD_eq_getElem?_getD]
  · rw [if_neg c2] at h
    have h := Out.val.inj h
    rw [List.all_eq_false] at h
    obtain ⟨t, ht, hn⟩ := h
    simp only [Bool.or_eq_true, Bool.not_eq_true', decide_eq_true_eq, not_or, Bool.not_eq_false] at hn
    apply hn.2
    rw [← hm]
    exact List.mem_flatMap.mpr ⟨t, ht, by rw [hcon t hn.1]; simp⟩

end MM.Impr
