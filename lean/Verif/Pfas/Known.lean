import Verif.Pfas.Inv

/-!
# `assignKnownSteps` on a tree without unknown steps
-/
namespace MM.Pfas
open MM.Veri MM.Proof MM.Data MM.Tree AF Cx
open MM.Spec (subst)

variable {E : Env} {U : Unifier} {P Q : Node → List (List Nat) → Prop}

/-- What is needed of `unifyH` (C48, which is proved of `unify`, whose answers `unifyH` filters) when it compares the hypotheses of an assertion with formulas that hold
no dummy variable: an answer makes the strings equal, with values that hold no separator; and when a further call finds another answer, that is a unifier with other
values. -/
structure Unifier.Ok (E : Env) (U : Unifier) : Prop where
  sound : ∀ A B σ b, A.count E.sep = B.count E.sep → A.head? = some E.sep → B.head? = some E.sep → (∀ t ∈ B, t ≤ E.sep) → U.hyps A B = some (σ, b) →
    inst E σ A = inst E σ B ∧ ∀ y, E.sep < y → E.sep ∉ σ y
  again : ∀ A B σ, A.count E.sep = B.count E.sep → A.head? = some E.sep → B.head? = some E.sep → (∀ t ∈ B, t ≤ E.sep) → U.hyps A B = some (σ, true) →
    ∃ τ y, inst E τ A = inst E τ B ∧ (∀ y, E.sep < y → E.sep ∉ τ y) ∧ E.sep < y ∧ y ∈ A ∧ τ y ≠ σ y

/-- The same trees but for the sources. -/
def SameS : AF → AF → Prop
  | nil, nil => True
  | snoc l x ch, snoc l' x' ch' => SameS l l' ∧ SameS ch ch' ∧ x'.stmt = x.stmt ∧ x'.tgt = x.tgt ∧ x'.usr = x.usr
  | _, _ => False

/-- The sources are instances of the statements, the hypotheses of a step being the sources of its children. -/
def SrcOk (E : Env) : AF → Prop
  | nil => True
  | snoc l x ch => SrcOk E l ∧ SrcOk E ch ∧ (∀ t ∈ x.src, t < E.sep) ∧
    ((E.stmt x.stmt.toNat).kind = .e ∨ (E.stmt x.stmt.toNat).kind = .f → x.src = (E.stmt x.stmt.toNat).math) ∧
    ((E.stmt x.stmt.toNat).kind = .a ∨ (E.stmt x.stmt.toNat).kind = .p →
      ∃ σ, x.src = subst E.isVar σ (E.stmt x.stmt.toNat).math ∧ ch.srcs = hypSubs E x.stmt.toNat σ)

theorem SameS.length : ∀ {f g : AF}, SameS f g → g.flat.length = f.flat.length ∧ g.count = f.count
  | nil, nil, _ => ⟨rfl, rfl⟩
  | snoc _ _ _, snoc _ _ _, h => by
    have h1 := SameS.length h.1
    have h2 := SameS.length h.2.1
    simp [AF.flat, AF.count, h1.1, h1.2, h2.1]
  | nil, snoc _ _ _, h => h.elim
  | snoc _ _ _, nil, h => h.elim

theorem SameS.maps : ∀ {f g : AF}, SameS f g → g.flat.map Node.stmt = f.flat.map Node.stmt ∧ g.flat.map Node.tgt = f.flat.map Node.tgt ∧
    g.flat.map Node.usr = f.flat.map Node.usr ∧ g.tgts = f.tgts
  | nil, nil, _ => ⟨rfl, rfl, rfl, rfl⟩
  | snoc _ _ _, snoc _ _ _, h => by
    have h1 := SameS.maps h.1
    have h2 := SameS.maps h.2.1
    simp [AF.flat, tgts, h1.1, h2.1, h1.2.1, h2.2.1, h1.2.2.1, h2.2.2.1, h1.2.2.2, h.2.2.1, h.2.2.2.1, h.2.2.2.2]
  | nil, snoc _ _ _, h => h.elim
  | snoc _ _ _, nil, h => h.elim

/-- The numbers of the roots, last one first. -/
def rootN (a : Nat) : AF → List Nat
  | nil => []
  | snoc l _ ch => (a + l.flat.length + ch.flat.length) :: rootN a l

theorem rootN_length (a : Nat) : ∀ f : AF, (rootN a f).length = f.count
  | nil => rfl
  | snoc l _ _ => by simp [rootN, AF.count, rootN_length a l]

theorem rootN_same (a : Nat) : ∀ {f g : AF}, SameS f g → rootN a g = rootN a f
  | nil, nil, _ => rfl
  | snoc _ _ _, snoc _ _ _, h => by
    simp only [rootN]
    rw [rootN_same a h.1, h.1.length.1, h.2.1.length.1]
  | nil, snoc _ _ _, h => h.elim
  | snoc _ _ _, nil, h => h.elim

theorem getAll_append {l : List (List Nat)} : ∀ {is js : List Nat} {r s : List (List Nat)}, getAll l is = .val r → getAll l js = .val s → getAll l (is ++ js) = .val (r ++ s)
  | [], js, r, s, h1, h2 => by cases h1; exact h2
  | i :: is, js, r, s, h1, h2 => by
    rw [getAll] at h1
    cases hm : getF l i <;> rw [hm] at h1
    all_goals try cases h1
    rename_i m
    rw [Out.bind_val] at h1
    cases hr : getAll l is <;> rw [hr] at h1
    all_goals try cases h1
    rename_i r1
    rw [List.cons_append, getAll, hm, Out.bind_val, getAll_append hr h2]
    rfl

theorem getAll_roots : ∀ {g : AF} {A B : List (List Nat)}, getAll (A ++ g.flat.map Node.src ++ B) (rootN A.length g).reverse = .val g.srcs
  | nil, A, B => rfl
  | snoc l x ch, A, B => by
    rw [rootN, List.reverse_cons, srcs]
    refine getAll_append ?_ ?_
    · have := getAll_roots (g := l) (A := A) (B := ch.flat.map Node.src ++ x.src :: B)
      rw [← this]
      congr 1
      simp [AF.flat]
    · have e : A ++ (snoc l x ch).flat.map Node.src ++ B = (A ++ l.flat.map Node.src ++ ch.flat.map Node.src) ++ x.src :: B := by simp [AF.flat]
      rw [getAll, e, getF_at' (by simp; omega)]
      rfl

theorem inst_append {τ : Nat → List Nat} {a b : List Nat} : inst E τ (a ++ b) = inst E τ a ++ inst E τ b := by simp [inst, MM.Unif.inst]

theorem inst_bigStr {τ : Nat → List Nat} (hs : List (List Nat)) : inst E τ (bigStr E.sep hs) = bigStr E.sep (hs.map (inst E τ)) := by
  induction hs using List.reverseRecOn with
  | nil => simp [bigStr, inst, MM.Unif.inst]
  | append_singleton hyps a ih =>
    rw [bigStr_snoc, inst_append, inst_append, ih, List.map_append, List.map_singleton, bigStr_snoc]
    simp [inst, MM.Unif.inst]

theorem inst_ren {σ : Nat → List Nat} {d : Nat} {vars m : List Nat} (h : ∀ t ∈ m, t < E.sep) :
    inst E σ (m.map (ren E d vars)) = subst E.isVar (fun t => σ (E.sep + 1 + d + vars.idxOf t)) m := by
  rw [ren_subst, inst_subst _ _ h]
  refine MM.Spec.subst_congr fun t _ _ => ?_
  simp only [dsub, inst, MM.Unif.inst, List.flatMap_cons, List.flatMap_nil, List.append_nil]
  rw [if_pos (by omega)]

theorem ren_bigStr (G : GoodEnv E) {d : Nat} {vars : List Nat} (hs : List (List Nat)) :
    (bigStr E.sep hs).map (ren E d vars) = bigStr E.sep (hs.map fun m => m.map (ren E d vars)) := by
  have hv : E.isVar E.sep = false := G.sepConst
  have hr : ren E d vars E.sep = E.sep := by simp [ren, hv]
  induction hs using List.reverseRecOn with
  | nil => simp [bigStr, hr]
  | append_singleton hyps a ih =>
    rw [bigStr_snoc, List.map_append, List.map_append, ih, List.map_append (l₁ := hyps), List.map_singleton, List.map_singleton, bigStr_snoc]
    simp [hr]

theorem ren_sep {d : Nat} {vars m : List Nat} (h : ∀ t ∈ m, t < E.sep) : E.sep ∉ m.map (ren E d vars) := by
  intro hm
  obtain ⟨t, ht, e⟩ := List.mem_map.mp hm
  unfold ren at e
  by_cases hv : E.isVar t = true
  · rw [if_pos hv] at e; omega
  · rw [if_neg hv] at e
    have := h t ht
    omega

/-- The values of the dummy variables of a known step. -/
theorem unify_hyps (G : GoodEnv E) {d : Nat} {i : Nat} (hk : (E.stmt i).kind = .a ∨ (E.stmt i).kind = .p) {insts : List (List Nat)}
    (hi : ∀ m ∈ insts, ∀ t ∈ m, t < E.sep) {σ : Nat → List Nat}
    (hs : inst E σ ((bigStr E.sep ((E.stmt i).reqHyp.map fun h => (E.stmt h).math)).map (ren E d (E.stmt i).reqVars)) = inst E σ (bigStr E.sep insts))
    (hf : ∀ y, E.sep < y → E.sep ∉ σ y) :
    insts = hypSubs E i (fun t => σ (E.sep + 1 + d + (E.stmt i).reqVars.idxOf t)) := by
  have ht : ∀ h ∈ (E.stmt i).reqHyp, ∀ t ∈ (E.stmt h).math, t < E.sep := fun h hh => G.toks h (by rcases G.hypKind i hk h hh with h | h <;> simp [h])
  have hb : inst E σ (bigStr E.sep insts) = bigStr E.sep insts := by
    rw [inst_bigStr]
    congr 1
    conv => rhs; rw [← List.map_id insts]
    exact List.map_congr_left fun m hm => inst_id σ (hi m hm)
  rw [ren_bigStr G, inst_bigStr, hb] at hs
  have h1 : SepFree E.sep insts := fun m hm hc => Nat.lt_irrefl _ (hi m hm _ hc)
  have e : ((List.map (fun h => (E.stmt h).math) (E.stmt i).reqHyp).map (fun m => m.map (ren E d (E.stmt i).reqVars))).map (inst E σ) =
      hypSubs E i (fun t => σ (E.sep + 1 + d + (E.stmt i).reqVars.idxOf t)) := by
    unfold hypSubs
    rw [List.map_map, List.map_map]
    exact List.map_congr_left fun h hh => inst_ren (ht h hh)
  rw [e] at hs
  have h2 : SepFree E.sep (hypSubs E i (fun t => σ (E.sep + 1 + d + (E.stmt i).reqVars.idxOf t))) := by
    intro m hm hc
    obtain ⟨h, hh, rfl⟩ := List.mem_map.mp hm
    obtain ⟨t, ht1, ht2⟩ := List.mem_flatMap.mp hc
    by_cases hv : E.isVar t = true
    · rw [if_pos hv] at ht2; exact hf _ (by omega) ht2
    · rw [if_neg hv] at ht2
      have := ht h hh t ht1
      have := List.mem_singleton.mp ht2
      omega
  exact (bigStr_inj h2 h1 hs).symm

/-- The values are strings of ordinary tokens. -/
theorem vals_lt (G : GoodEnv E) {i : Nat} (hk : (E.stmt i).kind = .a ∨ (E.stmt i).kind = .p) {insts : List (List Nat)} (hi : ∀ m ∈ insts, ∀ t ∈ m, t < E.sep)
    {σ : Nat → List Nat} (h : insts = hypSubs E i σ) : ∀ t ∈ (E.stmt i).reqVars, ∀ u ∈ σ t, u < E.sep := by
  intro t ht u hu
  obtain ⟨hv, m, hm, htm⟩ := ((G.ass i hk).vars t).mp ht
  obtain ⟨j, hj, rfl⟩ := List.mem_map.mp hm
  refine hi (subst E.isVar σ (E.stmt j).math) (by rw [h]; exact List.mem_map.mpr ⟨j, hj, rfl⟩) u ?_
  exact List.mem_flatMap.mpr ⟨t, htm, by rw [if_pos hv]; exact hu⟩

/-- Substitutions giving the same instances agree on the mandatory variables. -/
theorem vals_unique (G : GoodEnv E) {i : Nat} (hk : (E.stmt i).kind = .a ∨ (E.stmt i).kind = .p) {σ τ : Nat → List Nat}
    (h : hypSubs E i σ = hypSubs E i τ) : ∀ t ∈ (E.stmt i).reqVars, σ t = τ t := by
  intro t ht
  have hd := (G.ass i hk).fdisc
  obtain ⟨hv, m, hm, htm⟩ := ((G.ass i hk).vars t).mp ht
  have key : ∃ k, E.isVar k = false ∧ [k, t] ∈ Veri.hypsOf E.toDb i := by
    obtain ⟨hs, rest, e⟩ := List.append_of_mem hm
    obtain ⟨k, h1, h2⟩ := hd hs m rest e t htm hv
    refine ⟨k, h1, ?_⟩
    rcases h2 with h2 | h2
    · rw [← h2]; exact hm
    · rw [e]; exact List.mem_append_left _ h2
  obtain ⟨k, h1, h2⟩ := key
  obtain ⟨j, hj, e⟩ := List.mem_map.mp h2
  have h3 := List.map_inj_left.mp h j hj
  have e' : (E.stmt j).math = [k, t] := e
  rw [e'] at h3
  simp only [MM.Spec.subst, List.flatMap_cons, List.flatMap_nil, h1, hv, if_true, List.append_nil, Bool.false_eq_true, if_false, List.singleton_append] at h3
  exact (List.cons.inj h3).2

theorem knownLoop_succ {d : Nat} {proof : List Int} {count pos : Nat} {src : List (List Nat)} {stk : List Nat} {r : List (List Nat) × List Nat}
    (h : knownStep E U d proof pos src stk = .val (some r)) : knownLoop E U d proof (count + 1) pos src stk = knownLoop E U d proof count (pos + 1) r.1 r.2 := by
  rw [knownLoop, h]; rfl

theorem knownLoop_err {d : Nat} {proof : List Int} {count pos : Nat} {src : List (List Nat)} {stk : List Nat}
    (h : knownStep E U d proof pos src stk = .val none) : knownLoop E U d proof (count + 1) pos src stk = .val (src, stk, true) := by
  rw [knownLoop, h]; rfl

theorem srcs_mem : ∀ {g : AF}, SrcOk E g → ∀ m ∈ g.srcs, ∀ t ∈ m, t < E.sep
  | nil, _, m, hm => by simp [srcs] at hm
  | snoc l x ch, h, m, hm => by
    simp only [srcs, List.mem_append, List.mem_singleton] at hm
    rcases hm with hm | rfl
    · exact srcs_mem h.1 m hm
    · exact h.2.2.1

theorem knownStep_hyp {d : Nat} {a b : List Int} {x : Int} (hx : StepOk E x) (h1 : 1 ≤ x) (hk : (E.stmt x.toNat).kind = .e ∨ (E.stmt x.toNat).kind = .f)
    {A B : List (List Nat)} {m : List Nat} (hA : A.length = a.length) {stk : List Nat} :
    knownStep E U d (a ++ x :: b) a.length (A ++ m :: B) stk = .val (some (A ++ (E.stmt x.toNat).math :: B, a.length :: stk)) := by
  unfold knownStep
  rw [rdN_at, Out.bind_val, if_neg (by omega), stmtAt_ok hx (by omega), Out.bind_val, if_pos hk, setF_at (by omega), Out.bind_val]

theorem knownStep_ass (G : GoodEnv E) (hU : U.Ok E) {d : Nat} {a b : List Int} {x : Int} (hx : StepOk E x) (h1 : 1 ≤ x)
    (hk : (E.stmt x.toNat).kind = .a ∨ (E.stmt x.toNat).kind = .p)
    {A B : List (List Nat)} {m : List Nat} (hA : A.length = a.length) {top stk : List Nat} (htop : top.length = (E.stmt x.toNat).reqHyp.length)
    {insts : List (List Nat)} (hi : getAll (A ++ m :: B) top.reverse = .val insts) (hl : insts.length = (E.stmt x.toNat).reqHyp.length)
    (hlt : ∀ m ∈ insts, ∀ t ∈ m, t < E.sep) :
    (∃ σ, insts = hypSubs E x.toNat σ ∧
      knownStep E U d (a ++ x :: b) a.length (A ++ m :: B) (top ++ stk) = .val (some (A ++ subst E.isVar σ (E.stmt x.toNat).math :: B, a.length :: stk))) ∨
    knownStep E U d (a ++ x :: b) a.length (A ++ m :: B) (top ++ stk) = .val none := by
  obtain ⟨v1, v2⟩ := G.vars hk
  have ht : ∀ h ∈ (E.stmt x.toNat).reqHyp, ∀ t ∈ (E.stmt h).math, t < E.sep := fun h hh => G.toks h (by rcases G.hypKind _ hk h hh with h | h <;> simp [h])
  have htm : ∀ t ∈ (E.stmt x.toNat).math, t < E.sep := G.toks _ (by rcases hk with h | h <;> simp [h])
  have hsv : E.isVar E.sep = false := G.sepConst
  unfold knownStep
  rw [rdN_at, Out.bind_val, if_neg (by omega), stmtAt_ok hx (by omega), Out.bind_val, if_neg (by rcases hk with h | h <;> rw [h] <;> simp), if_neg (by simp; omega),
    List.take_left' htop, hi, Out.bind_val, toDummies_val (by
      intro t htt hv
      rcases mem_bigStr.mp htt with rfl | ⟨h, hh, htt⟩
      · rw [hsv] at hv; cases hv
      · obtain ⟨j, hj, rfl⟩ := List.mem_map.mp hh
        exact v2 j hj t htt hv), Out.bind_val, toDummies_val v1, Out.bind_val]
  generalize hsch : (bigStr E.sep ((E.stmt x.toNat).reqHyp.map fun h => (E.stmt h).math)).map (ren E d (E.stmt x.toNat).reqVars) = sch
  cases hu : U.hyps sch (bigStr E.sep insts) with
  | none => exact Or.inr (by rw [if_pos rfl])
  | some r =>
    left
    obtain ⟨σ, fl⟩ := r
    have hc : sch.count E.sep = (bigStr E.sep insts).count E.sep := by
      rw [← hsch, ren_bigStr G, bigStr_count, bigStr_count]
      · simp [hl]
      · intro m hm hc; exact Nat.lt_irrefl _ (hlt m hm _ hc)
      · intro m hm
        obtain ⟨m', hm', rfl⟩ := List.mem_map.mp hm
        obtain ⟨j, hj, rfl⟩ := List.mem_map.mp hm'
        exact ren_sep (ht j hj)
    have hh1 : sch.head? = some E.sep := by rw [← hsch, ren_bigStr G]; rfl
    have hble : ∀ t ∈ bigStr E.sep insts, t ≤ E.sep := by
      intro t htt
      rcases mem_bigStr.mp htt with rfl | ⟨m, hm, h⟩
      · exact Nat.le_refl _
      · exact Nat.le_of_lt (hlt m hm t h)
    obtain ⟨hs, hf⟩ := hU.sound _ _ _ _ hc hh1 rfl hble hu
    have hins := unify_hyps G (d := d) hk hlt (by rw [hsch]; exact hs) hf
    refine ⟨_, hins, ?_⟩
    rw [if_neg (by simp)]
    dsimp only [Option.getD_some]
    rw [setF_at (by omega), Out.bind_val, inst_ren htm]
    have hlt2 := vals_lt G hk hlt hins
    rw [if_neg, if_neg, List.drop_left' htop]
    · intro hb
      subst hb
      obtain ⟨τ, y, t1, t2, t3, t4, t5⟩ := hU.again _ _ _ hc hh1 rfl hble hu
      have hins2 := unify_hyps G (d := d) hk hlt (by rw [hsch]; exact t1) t2
      have := vals_unique G hk (hins.symm.trans hins2)
      rw [← hsch, ren_bigStr G] at t4
      rcases mem_bigStr.mp t4 with rfl | ⟨m', hm', hy⟩
      · exact Nat.lt_irrefl _ t3
      · obtain ⟨m'', hm'', rfl⟩ := List.mem_map.mp hm'
        obtain ⟨j, hj, rfl⟩ := List.mem_map.mp hm''
        obtain ⟨t, ht1, rfl⟩ := List.mem_map.mp hy
        unfold ren at t3 t5
        by_cases hv : E.isVar t = true
        · rw [if_pos hv] at t5
          exact t5 (this t (v2 j hj t ht1 hv)).symm
        · rw [if_neg hv] at t3
          have := ht j hj t ht1
          omega
    · intro hany
      obtain ⟨y, hy, h3⟩ := List.any_eq_true.mp hany
      obtain ⟨h3, h4⟩ := of_decide_eq_true h3
      obtain ⟨t, ht1, rfl⟩ := List.mem_map.mp hy
      unfold ren at h3 h4
      by_cases hv : E.isVar t = true
      · rw [if_pos hv] at h4
        have := hlt2 t (v1 t ht1 hv) _ (by rw [h4]; exact List.mem_singleton_self _)
        omega
      · rw [if_neg hv] at h3
        have := htm t ht1
        omega

/-- The loop on trees without unknown steps: it computes the sources, or reports an error. -/
theorem knownLoop_forest (G : GoodEnv E) (hU : U.Ok E) {d : Nat} : ∀ {f : AF} (_ : All (Shape E) f) (_ : ∀ x ∈ f.flat, x.stmt ≠ unk) {a b : List Int}
    {A B : List (List Nat)} (_ : A.length = a.length) (stk : List Nat) (k : Nat),
    (∃ g, SameS f g ∧ SrcOk E g ∧
      knownLoop E U d (a ++ f.flat.map Node.stmt ++ b) (f.flat.length + k) a.length (A ++ f.flat.map Node.src ++ B) stk =
        knownLoop E U d (a ++ f.flat.map Node.stmt ++ b) k (a.length + f.flat.length) (A ++ g.flat.map Node.src ++ B) (rootN a.length f ++ stk)) ∨
    ∃ M stk1, knownLoop E U d (a ++ f.flat.map Node.stmt ++ b) (f.flat.length + k) a.length (A ++ f.flat.map Node.src ++ B) stk = .val (A ++ M ++ B, stk1, true) ∧
      M.length = f.flat.length
  | nil, _, _, a, b, A, B, _, stk, k => Or.inl ⟨nil, trivial, trivial, by simp [AF.flat, rootN]⟩
  | snoc l x ch, hS, hn, a, b, A, B, hA, stk, k => by
    obtain ⟨s1, s2, s3⟩ := hS
    have e1 : (snoc l x ch).flat.length + k = l.flat.length + (ch.flat.length + (k + 1)) := by simp [AF.flat]; omega
    have e2 : a ++ (snoc l x ch).flat.map Node.stmt ++ b = a ++ l.flat.map Node.stmt ++ (ch.flat.map Node.stmt ++ x.stmt :: b) := by simp [AF.flat]
    have e3 : A ++ (snoc l x ch).flat.map Node.src ++ B = A ++ l.flat.map Node.src ++ (ch.flat.map Node.src ++ x.src :: B) := by simp [AF.flat]
    rw [e1, e2, e3]
    rcases knownLoop_forest G hU (d := d) s1 (fun x hx => hn x (by simp [AF.flat, hx])) (a := a) (b := ch.flat.map Node.stmt ++ x.stmt :: b) (A := A)
      (B := ch.flat.map Node.src ++ x.src :: B) hA stk (ch.flat.length + (k + 1)) with ⟨gl, l1, l2, l3⟩ | ⟨M, stk1, h1, h2⟩
    rotate_left
    · refine Or.inr ⟨M ++ ch.flat.map Node.src ++ [x.src], stk1, ?_, by simp [AF.flat, h2]⟩
      rw [h1]
      simp
    rw [l3]
    have e4 : a ++ l.flat.map Node.stmt ++ (ch.flat.map Node.stmt ++ x.stmt :: b) = (a ++ l.flat.map Node.stmt) ++ ch.flat.map Node.stmt ++ (x.stmt :: b) := by simp
    have e5 : A ++ gl.flat.map Node.src ++ (ch.flat.map Node.src ++ x.src :: B) = (A ++ gl.flat.map Node.src) ++ ch.flat.map Node.src ++ (x.src :: B) := by simp
    have hlen : (a ++ l.flat.map Node.stmt).length = a.length + l.flat.length := by simp
    have hlen2 : (A ++ gl.flat.map Node.src).length = (a ++ l.flat.map Node.stmt).length := by simp [hA, l1.length.1]
    rw [e4, e5]
    rcases knownLoop_forest G hU (d := d) s2 (fun x hx => hn x (by simp [AF.flat, hx])) (a := a ++ l.flat.map Node.stmt) (b := x.stmt :: b) (A := A ++ gl.flat.map Node.src)
      (B := x.src :: B) hlen2 (rootN a.length l ++ stk) (k + 1) with ⟨gc, c1, c2, c3⟩ | ⟨M, stk1, h1, h2⟩
    rotate_left
    · rw [hlen] at h1
      refine Or.inr ⟨gl.flat.map Node.src ++ M ++ [x.src], stk1, ?_, by simp [AF.flat, h2, l1.length.1]⟩
      rw [h1]
      simp
    rw [hlen] at c3
    rw [c3]
    have e6 : a ++ l.flat.map Node.stmt ++ ch.flat.map Node.stmt ++ (x.stmt :: b) = (a ++ l.flat.map Node.stmt ++ ch.flat.map Node.stmt) ++ x.stmt :: b := by simp
    have e7 : A ++ gl.flat.map Node.src ++ gc.flat.map Node.src ++ (x.src :: B) = (A ++ gl.flat.map Node.src ++ gc.flat.map Node.src) ++ x.src :: B := by simp
    have hlen4 : (a ++ l.flat.map Node.stmt ++ ch.flat.map Node.stmt).length = a.length + l.flat.length + ch.flat.length := by simp; omega
    have hlen5 : (A ++ gl.flat.map Node.src ++ gc.flat.map Node.src).length = (a ++ l.flat.map Node.stmt ++ ch.flat.map Node.stmt).length := by
      simp [hA, l1.length.1, c1.length.1]
    have hx1 : 1 ≤ x.stmt := by
      rcases s3.cases with ⟨h, _⟩ | ⟨h, _⟩ | ⟨h, _⟩
      · exact absurd h (hn x (by simp [AF.flat]))
      · exact h
      · exact h
    have fin : ∀ m : List Nat, knownStep E U d ((a ++ l.flat.map Node.stmt ++ ch.flat.map Node.stmt) ++ x.stmt :: b) (a.length + l.flat.length + ch.flat.length)
        ((A ++ gl.flat.map Node.src ++ gc.flat.map Node.src) ++ x.src :: B) (rootN (a.length + l.flat.length) ch ++ (rootN a.length l ++ stk)) =
        .val (some ((A ++ gl.flat.map Node.src ++ gc.flat.map Node.src) ++ m :: B, (a.length + l.flat.length + ch.flat.length) :: (rootN a.length l ++ stk))) →
        knownLoop E U d ((a ++ l.flat.map Node.stmt ++ ch.flat.map Node.stmt) ++ x.stmt :: b) (k + 1) (a.length + l.flat.length + ch.flat.length)
          ((A ++ gl.flat.map Node.src ++ gc.flat.map Node.src) ++ x.src :: B) (rootN (a.length + l.flat.length) ch ++ (rootN a.length l ++ stk)) =
        knownLoop E U d ((a ++ l.flat.map Node.stmt ++ ch.flat.map Node.stmt) ++ x.stmt :: b) k (a.length + (snoc l x ch).flat.length)
          (A ++ (snoc gl ⟨x.stmt, x.tgt, m, x.usr⟩ gc).flat.map Node.src ++ B) (rootN a.length (snoc l x ch) ++ stk) := by
      intro m hm
      rw [knownLoop_succ hm]
      have h1 : a.length + (snoc l x ch).flat.length = a.length + l.flat.length + ch.flat.length + 1 := by simp [AF.flat]; omega
      rw [h1]
      congr 1
      simp [AF.flat]
    rcases s3.cases with ⟨h, _⟩ | ⟨_, hk, hts⟩ | ⟨_, hk, hts⟩
    · exact absurd h (hn x (by simp [AF.flat]))
    · left
      have hc0 := tgts_nil hts
      have hst := knownStep_hyp (U := U) (d := d) (b := b) s3.1 hx1 hk (m := x.src) (B := B) hlen5 (stk := rootN (a.length + l.flat.length) ch ++ (rootN a.length l ++ stk))
      rw [hlen4] at hst
      have hroot : rootN (a.length + l.flat.length) ch = [] := by rw [hc0]; rfl
      refine ⟨snoc gl ⟨x.stmt, x.tgt, (E.stmt x.stmt.toNat).math, x.usr⟩ gc, ⟨l1, c1, rfl, rfl, rfl⟩,
        ⟨l2, c2, G.toks _ (by rcases hk with h | h <;> simp [h]), fun _ => rfl, ?_⟩, ?_⟩
      · intro h; dsimp only at h; rcases hk with h' | h' <;> rw [h'] at h <;> simp at h
      · have := fin (E.stmt x.stmt.toNat).math (by rw [hst, hroot]; rfl)
        rw [← e6, ← e7] at this
        exact this
    · have hl1 : (rootN (a.length + l.flat.length) ch).length = (E.stmt x.stmt.toNat).reqHyp.length := by rw [rootN_length, ← tgts_length]; exact hts
      have hAl : (A ++ gl.flat.map Node.src).length = a.length + l.flat.length := by rw [hlen2, hlen]
      have hget : getAll ((A ++ gl.flat.map Node.src ++ gc.flat.map Node.src) ++ x.src :: B) (rootN (a.length + l.flat.length) ch).reverse = .val gc.srcs := by
        rw [← rootN_same _ c1, ← hAl]
        exact getAll_roots
      rcases knownStep_ass G hU (d := d) (b := b) s3.1 hx1 hk hlen5 hl1 (stk := rootN a.length l ++ stk) hget (by rw [srcs_length, c1.length.2, ← tgts_length, hts]) (srcs_mem c2)
        with ⟨σ, h1, h2⟩ | h2
      · left
        rw [hlen4] at h2
        refine ⟨snoc gl ⟨x.stmt, x.tgt, subst E.isVar σ (E.stmt x.stmt.toNat).math, x.usr⟩ gc, ⟨l1, c1, rfl, rfl, rfl⟩, ⟨l2, c2, ?_, ?_, fun _ => ⟨σ, rfl, h1⟩⟩, ?_⟩
        · intro t ht
          obtain ⟨u, hu1, hu2⟩ := List.mem_flatMap.mp ht
          by_cases hv : E.isVar u = true
          · rw [if_pos hv] at hu2
            exact vals_lt G hk (srcs_mem c2) h1 u ((G.vars hk).1 u hu1 hv) t hu2
          · rw [if_neg hv] at hu2
            rw [List.mem_singleton.mp hu2]
            exact G.toks _ (by rcases hk with h | h <;> simp [h]) u hu1
        · intro h; dsimp only at h; rcases hk with h' | h' <;> rw [h'] at h <;> simp at h
        · have := fin _ h2
          rw [← e6, ← e7] at this
          exact this
      · right
        rw [hlen4] at h2
        refine ⟨gl.flat.map Node.src ++ gc.flat.map Node.src ++ [x.src], rootN (a.length + l.flat.length) ch ++ (rootN a.length l ++ stk), ?_, by
          simp [AF.flat, l1.length.1, c1.length.1]⟩
        rw [e6, e7, knownLoop_err h2]
        simp

end MM.Pfas
