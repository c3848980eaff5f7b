import Verif.Impr.Model
import Verif.Pfas.Concrete
import Verif.Unif.HProps
/-!
# The proofs that the search of IMPROVE finds are correct
-/
namespace MM.Impr
open MM.Veri MM.Proof MM.Data MM.Tree MM.Pfas MM.Spec
open MM.Pfas.AF MM.Pfas.Cx
open MM.Unif (Cfg SV SVH ResH makeSubst unifyH unifyHNext HCalls Proper Calls)

/-- What the database and the arguments must satisfy; all of it holds of a database that was read (`ready_of_parse`). -/
structure Ready (X : Ctx) : Prop where
  env : GoodEnv X.E
  mt : X.C.mt = X.E.sep
  con : ∀ t, X.C.mt < t → X.C.isCon t = false
  min : X.C.min ≤ 1
  /-- the required variables of an assertion without `$e` hypotheses are in the assertion -/
  tight : ∀ i, (X.E.stmt i).kind = .a ∨ (X.E.stmt i).kind = .p → (∀ h ∈ (X.E.stmt i).reqHyp, (X.E.stmt h).kind ≠ .e) → ∀ v ∈ (X.E.stmt i).reqVars, v ∈ (X.E.stmt i).math
  last : X.prove ≤ X.E.n + 1
  hyps : ∀ h ∈ (X.E.stmt X.prove).reqHyp ++ (X.E.stmt X.prove).optHyp, 1 ≤ h ∧ h ≤ X.E.n ∧ ((X.E.stmt h).kind = .e ∨ (X.E.stmt h).kind = .f)
  over : X.override ≤ 2

/-- A non-empty string of ordinary tokens. -/
def Str (E : Env) (m : List Nat) : Prop := m ≠ [] ∧ ∀ t ∈ m, t < E.sep

/-- The assertion has no `$d` requirement. -/
def NoD (E : Env) (x : Int) : Prop := (E.stmt x.toNat).kind = .a ∨ (E.stmt x.toNat).kind = .p → (E.stmt x.toNat).reqDisj = []

/-- The steps are a correct proof of `m` but for the disjoint-variable conditions. -/
def Good (X : Ctx) (dv : Nat → Nat → Prop) (m : List Nat) (l : List Int) : Prop :=
  (∀ x ∈ l, Legal X.E X.prove x ∧ x ≠ unk) ∧ (X.noDist = true → (∀ x ∈ X.pip.proof, NoD X.E x) → ∀ x ∈ l, NoD X.E x) ∧
  ∃ steps : List Step, l.map (decode X.E.toDb) = steps.map some ∧ ∀ s h st, RPN X.E.isVar dv s h st → ∃ h', RPN X.E.isVar dv (s ++ steps.map noDv) h' (m :: st)

/-- The proof in progress: its nodes are consistent and its known steps are unified with their targets. -/
def PipOk (X : Ctx) : Prop :=
  ∃ f, Rep X.pip f ∧ All (NodeOk X.E) f ∧ (∀ x ∈ f.flat, x.stmt ≠ unk → x.tgt = x.src) ∧ ∀ x ∈ X.pip.proof, Legal X.E X.prove x

variable {X : Ctx} {dv : Nat → Nat → Prop}

/-! ### The scan of the current proof -/

theorem allP_flat {P : Node → List (List Nat) → Prop} {c : Cx} {x : Node} {f : AF} (h : All P (c.plug x f)) : All P (snoc nil x f) := ⟨trivial, (all_plug h).1, (all_plug h).2⟩

/-- One step of the scan. -/
theorem seg_at {p : Pip} {c : Cx} {x : Node} {ch : AF} (hr : Rep p (c.plug x ch)) (hA : All (Shape X.E) (c.plug x ch)) :
    ∃ len, subproofLen X.E p.proof ((c.pre.length + ch.flat.length : Nat) : Int) = .val len ∧
      nmbrSeg p.proof (((c.pre.length + ch.flat.length : Nat) : Int) - len + 2) (((c.pre.length + ch.flat.length : Nat) : Int) + 1) =
        .val ((snoc nil x ch).flat.map Node.stmt) := by
  obtain ⟨h1, h2⟩ := all_plug hA
  have hp : p.proof = c.pre.map Node.stmt ++ (ch.flat.map Node.stmt ++ [x.stmt]) ++ c.post.map Node.stmt := by
    rw [hr.proof, flat_plug]; simp
  have hl := subproofLen_at h1 h2 hp
  rw [List.length_map] at hl
  refine ⟨_, hl, ?_⟩
  rw [hp, nmbrSeg_at]
  · simp [AF.flat]
  · simp; omega
  · simp; omega

theorem scan_val {p : Pip} {f : AF} (hr : Rep p f) (hA : All (Shape X.E) f) (m : List Nat) : ∀ {k : Nat}, k ≤ f.flat.length → ∃ o, selfScan X.E p m k = .val o ∧
    ∀ q, o = some q → ∃ c x ch, f = Cx.plug c x ch ∧ x.tgt = m ∧ q = (snoc nil x ch).flat.map Node.stmt ∧ unk ∉ q
  | 0, _ => ⟨none, rfl, nofun⟩
  | k + 1, hk => by
    obtain ⟨o, ih1, ih2⟩ := scan_val hr hA m (k := k) (by omega)
    obtain ⟨c, x, ch, rfl, e⟩ := locate f (i := k) (by omega)
    have ht : getF p.target k = .val x.tgt := by
      unfold getF
      have hl : k < p.target.length := by rw [hr.target, List.length_map]; omega
      rw [if_pos ⟨by omega, by simpa using hl⟩, hr.target, flat_plug]
      congr 1
      rw [Int.toNat_natCast, e]
      simp [List.getD_eq_getElem?_getD, List.getElem?_append]
    unfold selfScan
    rw [ht, Out.bind_val]
    by_cases hm : x.tgt = m
    · obtain ⟨len, l1, l2⟩ := seg_at hr hA
      rw [← e] at l1 l2
      rw [if_pos hm, l1, Out.bind_val, l2, Out.bind_val]
      by_cases hu : unk ∈ (snoc nil x ch).flat.map Node.stmt
      · rw [if_pos hu]; exact ⟨o, ih1, ih2⟩
      · rw [if_neg hu]
        exact ⟨_, rfl, fun q hq => ⟨c, x, ch, rfl, hm, (Option.some.inj hq).symm, by rw [← Option.some.inj hq]; exact hu⟩⟩
    · rw [if_neg hm]; exact ⟨o, ih1, ih2⟩

theorem scan_good (R : Ready X) (hP : PipOk X) {m : List Nat} {q : List Int} (h : selfScan X.E X.pip m X.pip.proof.length = .val (some q)) : Good X dv m q := by
  obtain ⟨f, hr, hA, hu, hL⟩ := hP
  have hl : X.pip.proof.length = f.flat.length := by rw [hr.proof, List.length_map]
  obtain ⟨o, h1, h2⟩ := scan_val hr (hA.mono fun _ _ => NodeOk.shape) m (k := X.pip.proof.length) (by omega)
  rw [h1] at h
  cases h
  obtain ⟨c, x, ch, rfl, hm, rfl, hn⟩ := h2 q rfl
  have hsub : ∀ y ∈ (snoc nil x ch).flat, y ∈ (c.plug x ch).flat := by
    intro y hy; rw [flat_plug]; simp [AF.flat] at hy ⊢; tauto
  have hin : ∀ z ∈ (snoc nil x ch).flat.map Node.stmt, z ∈ X.pip.proof := by
    intro z hz
    rw [hr.proof]
    obtain ⟨y, hy, rfl⟩ := List.mem_map.mp hz
    exact List.mem_map.mpr ⟨y, hsub y hy, rfl⟩
  have hk : ∀ y ∈ (snoc nil x ch).flat, y.stmt ≠ unk := fun y hy e => hn (by rw [← e]; exact List.mem_map.mpr ⟨y, hy, rfl⟩)
  obtain ⟨steps, s1, s2⟩ := forest_rpn R.env (dv := dv) (allP_flat hA) hk fun y hy => hu y (hsub y hy) (hk y hy)
  refine ⟨fun z hz => ⟨hL z (hin z hz), fun e => hn (by rw [← e]; exact hz)⟩, fun _ hd z hz => hd z (hin z hz), steps, s1, fun s h st hrp => ?_⟩
  obtain ⟨h', k⟩ := s2 hrp
  exact ⟨h', by simpa [tgts, hm] using k⟩

/-! ### One unification -/

theorem str_math (R : Ready X) {i : Nat} (hk : (X.E.stmt i).kind = .a ∨ (X.E.stmt i).kind = .p) : ∀ t ∈ (X.E.stmt i).math, t < X.E.sep := R.env.toks i (by tauto)

theorem str_hyp (R : Ready X) {i : Nat} (hk : (X.E.stmt i).kind = .a ∨ (X.E.stmt i).kind = .p) {h : Nat} (hh : h ∈ (X.E.stmt i).reqHyp) :
    (∀ t ∈ (X.E.stmt h).math, t < X.E.sep) ∧ (∀ t ∈ (X.E.stmt h).math, X.E.isVar t = true → t ∈ (X.E.stmt i).reqVars) ∧ ∃ k l, (X.E.stmt h).math = k :: l ∧ X.E.isVar k = false := by
  have hh' := R.env.hypKind i hk h hh
  refine ⟨R.env.toks h (by tauto), ?_, R.env.hypHead h hh'⟩
  intro t ht hv
  exact ((R.env.ass i hk).vars t).mpr ⟨hv, _, List.mem_map.mpr ⟨h, hh, rfl⟩, ht⟩

/-- The string with dummy variables. -/
abbrev dum (X : Ctx) (i : Nat) (l : List Nat) : List Nat := l.map (ren X.E X.d (X.E.stmt i).reqVars)

theorem proper (R : Ready X) {i : Nat} (hk : (X.E.stmt i).kind = .a ∨ (X.E.stmt i).kind = .p) {m : List Nat} (hm : Str X.E m) : Proper X.C (dum X i (X.E.stmt i).math) m := by
  obtain ⟨k, l, e, hv⟩ := (R.env.ass i hk).concl
  have hkl := str_math R hk k (by rw [e]; simp)
  obtain ⟨t, m', rfl⟩ := List.exists_cons_of_ne_nil hm.1
  have ht := hm.2 t (by simp)
  refine ⟨by rw [e]; simp, hm.1, ?_, R.min, Or.inr ⟨?_, ?_⟩⟩
  · rw [R.mt, List.count_eq_zero.mpr (ren_sep (str_math R hk)), List.count_eq_zero.mpr (fun h => Nat.lt_irrefl _ (hm.2 _ h))]
  · rw [e, R.mt]; simp [ren, hv]; omega
  · rw [R.mt]; simp; omega

/-- An answer of the unification: a substitution that makes the assertion `m`, and what `makeSubstUnif` makes of the hypotheses. -/
theorem answer (R : Ready X) {i : Nat} (hk : (X.E.stmt i).kind = .a ∨ (X.E.stmt i).kind = .p) (hin : ∀ v ∈ (X.E.stmt i).reqVars, v ∈ (X.E.stmt i).math) {m : List Nat} (hm : Str X.E m)
    {v : SV} (hc : Calls X.C (dum X i (X.E.stmt i).math) m (fun _ => True) v) :
    ∃ τ : Nat → List Nat, subst X.E.isVar τ (X.E.stmt i).math = m ∧ ∀ h ∈ (X.E.stmt i).reqHyp,
      makeSubst X.C v (dum X i (X.E.stmt h).math) = .val (subst X.E.isVar τ (X.E.stmt h).math, false) ∧ Str X.E (subst X.E.isVar τ (X.E.stmt h).math) := by
  obtain ⟨σ, h1, h2, h3, h4, _⟩ := MM.Unif.C48_unify_sound R.con (proper R hk hm) hc
  have e1 : MM.Unif.inst X.C.mt σ (dum X i (X.E.stmt i).math) = m := by
    rw [h2, ← h3, R.mt]; exact inst_id (E := X.E) σ hm.2
  rw [R.mt] at e1
  have e2 := inst_ren (E := X.E) (σ := σ) (d := X.d) (vars := (X.E.stmt i).reqVars) (str_math R hk)
  have e3 : subst X.E.isVar (fun t => σ (X.E.sep + 1 + X.d + (X.E.stmt i).reqVars.idxOf t)) (X.E.stmt i).math = m := by rw [← e2]; exact e1
  have hval : ∀ t ∈ (X.E.stmt i).reqVars, ∀ u ∈ σ (X.E.sep + 1 + X.d + (X.E.stmt i).reqVars.idxOf t), u < X.E.sep := by
    intro t ht u hu
    refine hm.2 u ?_
    rw [← e3]
    have hv := (((R.env.ass i hk).vars t).mp ht).1
    exact List.mem_flatMap.mpr ⟨t, hin t ht, by rw [if_pos hv]; exact hu⟩
  refine ⟨_, e3, fun h hh => ?_⟩
  obtain ⟨g1, g2, g3⟩ := str_hyp R hk hh
  refine ⟨?_, subst_ne g3, ?_⟩
  · have e := h1 (dum X i (X.E.stmt h).math) v.trials
    have ev : ({ v with trials := v.trials } : SV) = v := rfl
    rw [ev] at e
    rw [e, R.mt]
    have ei := inst_ren (E := X.E) (σ := σ) (d := X.d) (vars := (X.E.stmt i).reqVars) g1
    have ef : ((dum X i (X.E.stmt h).math).any fun y => decide (X.E.sep < y ∧ σ y = [y])) = false := by
      rw [List.any_eq_false]
      intro y hy
      obtain ⟨t, ht, rfl⟩ := List.mem_map.mp hy
      simp only [decide_eq_true_eq, not_and]
      intro hlt he
      by_cases hv : X.E.isVar t = true
      · have hr : ren X.E X.d (X.E.stmt i).reqVars t = X.E.sep + 1 + X.d + (X.E.stmt i).reqVars.idxOf t := by unfold ren; rw [if_pos hv]
        rw [hr] at he
        have := hval t (g2 t ht hv) (X.E.sep + 1 + X.d + (X.E.stmt i).reqVars.idxOf t) (by rw [he]; exact List.mem_singleton.mpr rfl)
        omega
      · have hr : ren X.E X.d (X.E.stmt i).reqVars t = t := by unfold ren; rw [if_neg hv]
        rw [hr] at hlt
        have := g1 t ht
        omega
    rw [ef]
    exact congrArg Out.val (Prod.ext ei rfl)
  · intro u hu
    obtain ⟨t, ht, hu⟩ := List.mem_flatMap.mp hu
    by_cases hv : X.E.isVar t = true
    · rw [if_pos hv] at hu; exact hval t (g2 t ht hv) u hu
    · rw [if_neg hv] at hu
      rw [List.mem_singleton.mp hu]; exact g1 t ht

/-! ### The hypotheses -/

theorem goods {τ : Nat → List Nat} : ∀ {hs : List (List Nat)} {ps : List (List Int)}, List.Forall₂ (fun h p => Good X dv (subst X.E.isVar τ h) p) hs ps →
    (∀ x ∈ ps.flatten, Legal X.E X.prove x ∧ x ≠ unk) ∧ (X.noDist = true → (∀ x ∈ X.pip.proof, NoD X.E x) → ∀ x ∈ ps.flatten, NoD X.E x) ∧
    ∃ steps : List Step, ps.flatten.map (decode X.E.toDb) = steps.map some ∧
      ∀ s h st, RPN X.E.isVar dv s h st → ∃ h', RPN X.E.isVar dv (s ++ steps.map noDv) h' ((hs.map (subst X.E.isVar τ)).reverse ++ st)
  | [], [], _ => ⟨by simp, by simp, [], rfl, fun s h st hr => ⟨h, by simpa using hr⟩⟩
  | h :: hs, p :: ps, .cons h1 h2 => by
    obtain ⟨a1, a2, s1, a3, a4⟩ := h1
    obtain ⟨b1, b2, s2, b3, b4⟩ := goods h2
    refine ⟨?_, ?_, s1 ++ s2, by simp [a3, b3], ?_⟩
    · intro x hx
      simp only [List.flatten_cons, List.mem_append] at hx
      exact hx.elim (a1 x) (b1 x)
    · intro hn hd x hx
      simp only [List.flatten_cons, List.mem_append] at hx
      exact hx.elim (a2 hn hd x) (b2 hn hd x)
    · intro s h' st hr
      obtain ⟨h2', k⟩ := a4 s h' st hr
      obtain ⟨h3', k2⟩ := b4 _ _ _ k
      exact ⟨h3', by simpa using k2⟩

/-- The steps of a finished statement. -/
theorem good_use {i : Nat} (hi : 1 ≤ i ∧ i < X.prove) (hn : i ≤ X.E.n) (hk : (X.E.stmt i).kind = .a ∨ (X.E.stmt i).kind = .p) (hd : X.noDist = true → (X.E.stmt i).reqDisj = [])
    {τ : Nat → List Nat} {ps : List (List Int)}
    (h : List.Forall₂ (fun h p => Good X dv (subst X.E.isVar τ h) p) (Veri.hypsOf X.E.toDb i) ps) : Good X dv (subst X.E.isVar τ (X.E.stmt i).math) (ps.flatten ++ [(i : Int)]) := by
  obtain ⟨a1, a2, steps, a3, a4⟩ := goods h
  have hdec : decode X.E.toDb (i : Int) = some (.use (frameOf X.E.toDb i)) := by
    unfold decode
    rw [if_neg (by omega), if_neg (by omega)]
    rcases hk with hk | hk <;> simp [hk]
  refine ⟨?_, ?_, steps ++ [.use (frameOf X.E.toDb i)], by simp [a3, hdec], ?_⟩
  · intro x hx
    rcases List.mem_append.mp hx with hx | hx
    · exact a1 x hx
    · obtain rfl := List.mem_singleton.mp hx
      refine ⟨Or.inr ⟨by omega, by omega, Or.inr ⟨by simpa using hi.2, by simpa using hk⟩⟩, ?_⟩
      unfold unk; omega
  · intro hn hp x hx
    rcases List.mem_append.mp hx with hx | hx
    · exact a2 hn hp x hx
    · obtain rfl := List.mem_singleton.mp hx
      intro _
      simpa using hd hn
  · intro s h st hr
    obtain ⟨h', k⟩ := a4 s h st hr
    have := RPN.use (isVar := X.E.isVar) (dv := dv) { frameOf X.E.toDb i with dv := [] } τ k (by intro x y h; simp at h)
    exact ⟨h' ++ [subst X.E.isVar τ (X.E.stmt i).math], by simpa [noDv, frameOf] using this⟩

end MM.Impr
