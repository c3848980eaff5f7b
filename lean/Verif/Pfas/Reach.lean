import Verif.Pfas.Each

/-!
# The invariant of sessions
-/
namespace MM.Pfas
open MM.Veri MM.Proof MM.Data MM.Tree MM.Spec AF Cx
variable {P : Node → List (List Nat) → Prop} {E : Env} {U : Unifier} {prove : Nat}

/-- The proof in progress is a tree with legal steps whose root target is the statement to be proved, and whose nodes satisfy `P`. -/
def InvP (E : Env) (prove : Nat) (P : Node → List (List Nat) → Prop) (p : Pip) : Prop :=
  ∃ f, Rep p f ∧ All P f ∧ f.tgts = [(E.stmt prove).math] ∧ ∀ x ∈ p.proof, Legal E prove x

/-- The properties that the commands keep. -/
structure Kept (E : Env) (P : Node → List (List Nat) → Prop) : Prop extends Mid E P where
  inst : InstClosed E P
  usr : ∀ x ts u, P x ts → P { x with usr := u } ts

theorem kept_nodeOk (G : GoodEnv E) : Kept E (NodeOk E) := { mid_nodeOk with inst := instClosed_nodeOk G, usr := fun _ _ _ h => h }

theorem kept_basic : Kept E (Basic E) := { mid_basic with inst := instClosed_basic, usr := fun _ _ _ h => h }

theorem rep_proof {p q : Pip} {f g : AF} (h1 : Rep p f) (h2 : Rep q g) (h : g.flat.map Node.stmt = f.flat.map Node.stmt) : q.proof = p.proof := by rw [h1.proof, h2.proof, h]

theorem InvP.of {p q : Pip} {f g : AF} (h1 : Rep p f) (ht : f.tgts = [(E.stmt prove).math]) (hL : ∀ x ∈ p.proof, Legal E prove x) (h2 : Rep q g) (hA : All P g) (h3 : g.tgts = f.tgts)
    (h : g.flat.map Node.stmt = f.flat.map Node.stmt) : InvP E prove P q :=
  ⟨g, h2, hA, h3.trans ht, by rw [rep_proof h1 h2 h]; exact hL⟩

/-! ## Substitutions -/

theorem subst_inv (hK : Kept E P) (hm : ∀ t ∈ (E.stmt prove).math, t < E.sep) (τ : Nat → List Nat) {p : Pip} (h : InvP E prove P p) : InvP E prove P (makeSubstAll E τ p) := by
  obtain ⟨f, hr, hA, ht, hL⟩ := h
  exact .of hr ht hL (makeSubstAll_rep τ hr) (all_map (fun x ts h => hK.inst τ x ts h) hA) (by rw [AF.map_tgts, ht, map_id_tgts (by simpa using hm)]) (map_stmt f)

theorem letVar_inv (hK : Kept E P) (hm : ∀ t ∈ (E.stmt prove).math, t < E.sep) {k : Nat} (hk : 1 ≤ k) (m : List Nat) {p : Pip} (h : InvP E prove P p) :
    InvP E prove P (replaceDummyVar E p k m).1 := by
  obtain ⟨f, hr, hA, ht, hL⟩ := h
  exact .of hr ht hL (replaceDummyVar_rep hk m hr) (all_map (fun x ts h => hK.inst _ x ts h) hA) (by rw [AF.map_tgts, ht, map_id_tgts (by simpa using hm)]) (map_stmt f)

theorem autoUnify_inv (hK : Kept E P) (hm : ∀ t ∈ (E.stmt prove).math, t < E.sep) {n : Nat} {b : Bool} {p : Pip} (h : InvP E prove P p) {r : Pip × Bool}
    (he : autoUnify n E U p b = .val r) : InvP E prove P r.1 := by
  obtain ⟨f, hr, hA, ht, hL⟩ := h
  rcases autoUnify_rep (U := U) hK.inst (n := n) hr hA (by rw [ht]; simpa using hm) b with h | ⟨q, b', g, h1, h2, h3, h4, h5, _⟩
  · rw [h] at he; cases he
  · rw [h1] at he
    cases he
    exact .of hr ht hL h2 h3 h4 h5

theorem autoUnify_out (hK : Kept E P) (hm : ∀ t ∈ (E.stmt prove).math, t < E.sep) {n : Nat} {b : Bool} {p : Pip} (h : InvP E prove P p) :
    autoUnify n E U p b = .fuel ∨ ∃ r, autoUnify n E U p b = .val r := by
  obtain ⟨f, hr, hA, ht, hL⟩ := h
  rcases autoUnify_rep (U := U) hK.inst (n := n) hr hA (by rw [ht]; simpa using hm) b with h | ⟨q, b', g, h1, _⟩
  · exact Or.inl h
  · exact Or.inr ⟨_, h1⟩

/-! ## The user strings -/

theorem withUsr (hU : ∀ x ts u, P x ts → P { x with usr := u } ts) : ∀ {f : AF} {us : List (List Nat)}, us.length = f.flat.length → All P f →
    ∃ g : AF, g.flat.map Node.usr = us ∧ g.flat.map Node.stmt = f.flat.map Node.stmt ∧ g.flat.map Node.tgt = f.flat.map Node.tgt ∧ g.flat.map Node.src = f.flat.map Node.src ∧
      g.tgts = f.tgts ∧ All P g
  | nil, us, h, _ => by
    have : us = [] := List.length_eq_zero_iff.mp h
    subst this
    exact ⟨nil, rfl, rfl, rfl, rfl, rfl, trivial⟩
  | snoc l x ch, us, h, hA => by
    simp only [AF.flat, List.length_append, List.length_singleton] at h
    have e : us = us.take l.flat.length ++ ((us.drop l.flat.length).take ch.flat.length ++ us.drop (l.flat.length + ch.flat.length)) := by
      rw [← List.drop_drop, List.take_append_drop, List.take_append_drop]
    obtain ⟨g1, a1, a2, a3, a4, a5, a6⟩ := withUsr hU (f := l) (us := us.take l.flat.length) (by simp; omega) hA.1
    obtain ⟨g2, b1, b2, b3, b4, b5, b6⟩ := withUsr hU (f := ch) (us := (us.drop l.flat.length).take ch.flat.length) (by simp; omega) hA.2.1
    obtain ⟨u, hu⟩ : ∃ u, us.drop (l.flat.length + ch.flat.length) = [u] := List.length_eq_one_iff.mp (by simp; omega)
    refine ⟨snoc g1 { x with usr := u } g2, ?_, by simp [AF.flat, a2, b2], by simp [AF.flat, a3, b3], by simp [AF.flat, a4, b4], by simp [tgts, a5], a6, b6, ?_⟩
    · rw [e, hu]
      simp [AF.flat, a1, b1]
    · rw [b5]
      exact hU _ _ _ hA.2.2

theorem usr_inv (hK : Kept E P) {p : Pip} (h : InvP E prove P p) {u : List (List Nat)} (hu : u.length = p.user.length) : InvP E prove P { p with user := u } := by
  obtain ⟨f, hr, hA, ht, hL⟩ := h
  obtain ⟨g, a1, a2, a3, a4, a5, a6⟩ := withUsr hK.usr (us := u) (by rw [hu, hr.user, List.length_map]) hA
  exact .of hr ht hL ⟨hr.proof.trans a2.symm, hr.target.trans a3.symm, hr.source.trans a4.symm, a1.symm⟩ a6 a5 a2

theorem setF_val {l : List (List Nat)} {i : Nat} (h : i < l.length) (m : List Nat) : setF l (i : Int) m = .val (l.set i m) := by
  unfold setF
  rw [if_pos ⟨by omega, by simpa using h⟩]
  simp

theorem InvP.lens {p : Pip} (h : InvP E prove P p) : p.target.length = p.proof.length ∧ p.source.length = p.proof.length ∧ p.user.length = p.proof.length := by
  obtain ⟨f, hr, _⟩ := h
  rw [hr.proof, hr.target, hr.source, hr.user]
  simp

/-! ## DELETE and ASSIGN -/

theorem basic_at {c : Cx} {x : Node} {f : AF} (hK : Kept E P) (hA : All P (c.plug x f)) : All (Shape E) f ∧ Shape E x f.tgts ∧ (x.stmt = unk → f = nil ∧ x.src = []) := by
  obtain ⟨h1, h2⟩ := all_plug hA
  have hs := (hK.basic _ _ h2).1
  refine ⟨h1.mono fun x ts h => (hK.basic x ts h).1, hs, fun hu => ⟨hs.nil (Or.inl (by rw [hu]; decide)), (hK.basic _ _ h2).2 hu⟩⟩

theorem nodeOk_unk (x : Node) (hx : x.stmt = unk) (hs : x.src = []) : NodeOk E x [] :=
  ⟨⟨Or.inl hx, by rw [hx]; rfl, by rw [hx]; decide⟩, fun _ => hs, fun h => by rw [hx] at h; exact absurd h (by decide), fun h => by rw [hx] at h; exact absurd h (by decide)⟩

/-- After `deleteSubProof` the step is unknown. -/
theorem delete_at (hK : Kept E P) {p : Pip} {c : Cx} {x : Node} {f : AF} (hr : Rep p (c.plug x f)) (hA : All P (c.plug x f)) :
    ∃ q, deleteSubProof E p (pos c f) = .val q ∧ Rep q (c.plug ⟨unk, x.tgt, [], x.usr⟩ nil) := by
  obtain ⟨h1, h2, h3⟩ := basic_at hK hA
  by_cases hu : x.stmt = unk
  · obtain ⟨h4, h5⟩ := h3 hu
    subst h4
    refine ⟨p, ?_, ?_⟩
    · unfold deleteSubProof
      rw [hr.at.1, rdN_at' (by simp [pos]), Out.bind_val, if_pos hu]
    · have : x = ⟨unk, x.tgt, [], x.usr⟩ := by rw [← hu, ← h5]
      rw [← this]
      exact hr
  · exact deleteSubProof_rep hr h1 h2 hu

theorem legal_replug {c : Cx} {x y : Node} {f g : AF} {p q : Pip} (h1 : Rep p (c.plug x f)) (h2 : Rep q (c.plug y g)) (hL : ∀ z ∈ p.proof, Legal E prove z)
    (hy : Legal E prove y.stmt) (hg : ∀ z ∈ g.flat, Legal E prove z.stmt) : ∀ z ∈ q.proof, Legal E prove z := by
  rw [h2.proof]
  rw [h1.proof] at hL
  intro z hz
  obtain ⟨nd, hnd, rfl⟩ := List.mem_map.mp hz
  rw [flat_plug] at hnd hL
  simp only [List.mem_append, List.mem_singleton] at hnd
  rcases hnd with ((h | h) | rfl) | h
  · exact hL _ (List.mem_map.mpr ⟨nd, by simp [h], rfl⟩)
  · exact hg _ h
  · exact hy
  · exact hL _ (List.mem_map.mpr ⟨nd, by simp [h], rfl⟩)

theorem delete_inv (hK : Kept E P) {p : Pip} (h : InvP E prove P p) {step : Nat} (hs : step < p.proof.length) : ∃ q, deleteSubProof E p step = .val q ∧ InvP E prove P q := by
  obtain ⟨f, hr, hA, ht, hL⟩ := h
  obtain ⟨c, x, ch, rfl, hi⟩ := locate f (i := step) (by rw [hr.proof] at hs; simpa using hs)
  obtain ⟨q, h1, h2⟩ := delete_at hK hr hA
  have : (step : Int) = (pos c ch : Nat) := by rw [hi]; rfl
  rw [this]
  refine ⟨q, h1, _, h2, all_replug hA rfl trivial (hK.ok _ _ (nodeOk_unk _ rfl rfl)), by rw [← ht]; exact tgts_replug c ch _ rfl, ?_⟩
  exact legal_replug hr h2 hL (Or.inl rfl) (by intro z hz; simp [AF.flat] at hz)

/-- Unknown steps. -/
def unks : Nat → AF
  | 0 => nil
  | k + 1 => snoc (unks k) ⟨unk, [], [], []⟩ nil

theorem unks_flat : ∀ k, (unks k).flat = List.replicate k ⟨unk, [], [], []⟩
  | 0 => rfl
  | k + 1 => by simp [unks, AF.flat, unks_flat k, List.replicate_succ']

theorem unks_ok : ∀ k, All (NodeOk E) (unks k)
  | 0 => trivial
  | k + 1 => ⟨unks_ok k, trivial, nodeOk_unk _ rfl rfl⟩

theorem unks_count : ∀ k, (unks k).tgts.length = k
  | 0 => rfl
  | k + 1 => by simp [unks, tgts, unks_count k]

theorem assign_inv (G : GoodEnv E) (hK : Kept E P) {p : Pip} (h : InvP E prove P p) {d stmt step : Nat} (hs : step < p.proof.length) (hu : p.proof.getD step 0 = unk)
    (hl : Legal E prove stmt) : ∃ r, assignStatement E p d stmt step = .val r ∧ InvP E prove P r.1 := by
  obtain ⟨f, hr, hA, ht, hL⟩ := h
  obtain ⟨c, x, ch, rfl, hi⟩ := locate f (i := step) (by rw [hr.proof] at hs; simpa using hs)
  obtain ⟨h1, h2, h3⟩ := basic_at hK hA
  have hx : x.stmt = unk := by
    rw [← hu, hr.at.1, List.getD_eq_getElem?_getD, List.getElem?_append_right (by simp; omega)]
    have : step - (c.pre.map Node.stmt ++ ch.flat.map Node.stmt).length = 0 := by simp; omega
    rw [this]; rfl
  obtain ⟨h4, h5⟩ := h3 hx
  subst h4
  simp only [AF.flat, List.length_nil, Nat.add_zero] at hi
  subst hi
  have hrd : rdN p.proof (c.pre.length : Int) = .val unk := by rw [hr.at.1, rdN_at' (by simp [AF.flat]), hx]
  have hst := legal_step hl
  have hsa : stmtAt E (stmt : Int) = .val (E.stmt stmt) := by rw [stmtAt_ok hst.1 (by omega)]; rfl
  obtain ⟨q, q1, q2⟩ := addSubProof_rep (g := unks (E.stmt stmt).reqHyp.length) hr hx h5 (by
    intro y hy
    rw [unks_flat] at hy
    rw [List.eq_of_mem_replicate hy]
    exact ⟨rfl, rfl, rfl⟩) (stmt : Int)
  have hsub : (unks (E.stmt stmt).reqHyp.length).flat.map Node.stmt = List.replicate (E.stmt stmt).reqHyp.length unk := by rw [unks_flat]; simp
  rw [hsub] at q1
  have hstep : ((c.pre.length : Int) + ((E.stmt stmt).reqHyp.length : Nat)) = (pos c (unks (E.stmt stmt).reqHyp.length) : Nat) := by
    unfold pos; rw [unks_flat]; simp
  have har : arity E (stmt : Int) = (E.stmt stmt).reqHyp.length := by
    unfold arity
    by_cases hk : 1 ≤ (stmt : Int) ∧ ((E.stmt (stmt : Int).toNat).kind = .a ∨ (E.stmt (stmt : Int).toNat).kind = .p)
    · rw [if_pos hk]; rfl
    · rw [if_neg hk]
      rcases hst.1 with h | h | ⟨h, _, hk'⟩
      · simp only [unk] at h; omega
      · omega
      · have : (E.stmt stmt).kind = .f ∨ (E.stmt stmt).kind = .e := by
          rcases hk' with h6 | h6 | h6 | h6
          · exact Or.inl h6
          · exact Or.inr h6
          · exact absurd ⟨h, Or.inl h6⟩ hk
          · exact absurd ⟨h, Or.inr h6⟩ hk
        rw [G.hypNone _ this]; rfl
  have hok := unks_ok (E := E) (E.stmt stmt).reqHyp.length
  obtain ⟨q', d', x', ts, e1, e2, e3, e4, e5⟩ := initStep_rep G (d := d) q2 (hok.mono fun _ _ h => h.shape)
    ⟨hst.1, by rw [unks_count]; exact har, hst.2⟩
  refine ⟨(q', d'), ?_, _, e2, ?_, ?_, ?_⟩
  · unfold assignStatement
    rw [hrd, Out.bind_val, if_neg (fun hc => hc rfl), hsa, Out.bind_val, q1, Out.bind_val, hstep, e1]
  · exact all_replug hA e4 ((all_setR nodeOk_tgtFree hok).mono hK.ok) (hK.ok _ _ e5)
  · rw [← ht]; exact tgts_replug c _ _ e4
  · refine legal_replug hr e2 hL (by rw [e3]; exact hl) ?_
    intro z hz
    have : z.stmt ∈ ((unks (E.stmt stmt).reqHyp.length).setR ts).flat.map Node.stmt := List.mem_map.mpr ⟨z, hz, rfl⟩
    rw [(setR_flat _ _).2.1, hsub] at this
    exact Or.inl (List.eq_of_mem_replicate this)

/-! ## Insertion of proofs -/

theorem swap_rep (hK : Kept E P) {p : Pip} {f : AF} (hr : Rep p f) (hA : All P f) {step : Nat} (hs : step < p.proof.length) {sub : List Int} (hF : Formed E prove sub) :
    ∃ c x ch y g q, f = Cx.plug c x ch ∧ sub = g.flat.map Node.stmt ++ [y] ∧ swapSub E p sub step = .val (q, c.pre.length) ∧ Rep q (c.plug ⟨y, x.tgt, [], x.usr⟩ g) ∧
      All (Shape E) g ∧ Blank g ∧ StepOk E y ∧ arity E y = g.tgts.length ∧ -1000 < y := by
  obtain ⟨c, x, ch, rfl, hi⟩ := locate f (i := step) (by rw [hr.proof] at hs; simpa using hs)
  obtain ⟨y, g, g1, g2, g3, g4, g5, g6⟩ := formed_forest hF
  obtain ⟨h1, h2, h3⟩ := basic_at hK hA
  have hsp := subproofLen_at h1 h2 (proof := p.proof) (pre := c.pre.map Node.stmt) (post := c.post.map Node.stmt) (by rw [hr.at.1]; simp)
  rw [List.length_map, ← hi] at hsp
  obtain ⟨q1, d1, d2⟩ := delete_at hK hr hA
  have hpos : ((pos c ch : Nat) : Int) = (step : Int) := by rw [hi]; rfl
  rw [hpos] at d1
  obtain ⟨q, a1, a2⟩ := addSubProof_rep d2 rfl rfl g3 y
  have e : (step : Int) - ((ch.flat.length : Int) + 1) + 1 = (c.pre.length : Int) := by rw [hi]; omega
  refine ⟨c, x, ch, y, g, q, rfl, g1, ?_, a2, g2, g3, g4, g5, g6⟩
  unfold swapSub
  rw [hsp, Out.bind_val, d1, Out.bind_val, e, g1, a1, Out.bind_val]
  rfl

theorem insert_inv (G : GoodEnv E) (hU : U.Ok E) (hK : Kept E P) {p : Pip} (h : InvP E prove P p) {d step : Nat} (hs : step < p.proof.length) {sub : List Int}
    (hF : Formed E prove sub) (hu : unk ∉ sub) :
    ∃ r a, swapSub E p sub step = .val r ∧ assignKnownSteps E U d r.1 r.2 sub.length = .val a ∧ InvP E prove (Basic E) a.1 ∧ (a.2 = false → InvP E prove P a.1) := by
  obtain ⟨f, hr, hA, ht, hL⟩ := h
  obtain ⟨c, x, ch, y, g, q, rfl, hsub, e1, e2, g2, g3, g4, g5, g6⟩ := swap_rep hK hr hA hs hF
  have hgu : ∀ z ∈ g.flat, z.stmt ≠ unk := fun z hz he => hu (by rw [hsub, ← he]; simp; exact Or.inl ⟨z, hz, rfl⟩)
  have hyu : y ≠ unk := fun he => hu (by rw [hsub, ← he]; simp)
  have hlen : sub.length = g.flat.length + 1 := by rw [hsub]; simp
  have hLg : ∀ g' : AF, g'.flat.map Node.stmt = g.flat.map Node.stmt → ∀ z ∈ g'.flat, Legal E prove z.stmt := fun g' hg' z hz => hF.2 _ (by
    rw [hsub, ← hg']; simp; exact Or.inl ⟨z, hz, rfl⟩)
  have hLy : Legal E prove y := hF.2 _ (by rw [hsub]; simp)
  rcases assignKnownSteps_rep G hU (d := d) e2 g2 ⟨g4, g5, g6⟩ hgu hyu with ⟨q', g', x', a1, a2, a3, a4, a5, a6, a7, _⟩ | ⟨q', g', x', a1, a2, a3, a4, a5, a6, a7⟩
  · have key : ∀ {Q : Node → List (List Nat) → Prop}, Kept E Q → All Q (c.plug x ch) → InvP E prove Q q' := fun hQ hAQ =>
      ⟨_, a2, all_replug hAQ a4 (a5.mono hQ.ok) (hQ.ok _ _ a6), (tgts_replug (x := x) c ch _ a4).trans ht, legal_replug hr a2 hL (by rw [a3]; exact hLy) (hLg _ a7)⟩
    refine ⟨_, _, e1, by rw [hlen]; exact a1, key kept_basic (hA.mono hK.basic), fun _ => key hK hA⟩
  · refine ⟨_, _, e1, by rw [hlen]; exact a1, ?_, fun h => by cases h⟩
    refine ⟨_, a2, all_replug (hA.mono hK.basic) a4 (all_basic a5 (no_unk a7 hgu)) ⟨a6, fun he => absurd (a3.symm.trans he) hyu⟩, (tgts_replug (x := x) c ch _ a4).trans ht, ?_⟩
    exact legal_replug hr a2 hL (by rw [a3]; exact hLy) (hLg _ a7)

theorem blank_weak : ∀ {g : AF}, All (Shape E) g → (∀ x ∈ g.flat, x.src = []) → All (Weak E) g
  | nil, _, _ => trivial
  | snoc _ x _, h, hb => ⟨blank_weak h.1 (fun y hy => hb y (by simp [AF.flat, hy])), blank_weak h.2.1 (fun y hy => hb y (by simp [AF.flat, hy])), h.2.2,
      Or.inl (hb x (by simp [AF.flat]))⟩

/-- From a proof with some strings empty: the known subproofs are computed, the other steps initialised. -/
theorem fill_inv (G : GoodEnv E) (hU : U.Ok E) {p : Pip} (hb : InvP E prove (Basic E) p) {d d' : Nat} :
    ∃ a q, assignKnownSubProofs E U d p = .val a ∧ initEmpty E a.1.proof.length 0 a.1 d' = .val q ∧ InvP E prove (Basic E) q.1 ∧
      (a.2 = false → InvP E prove (Weak E) p → InvP E prove (NodeOk E) q.1) := by
  have key : ∀ {Q : Node → List (List Nat) → Prop}, Mid E Q → InvP E prove Q p → ∃ a q, assignKnownSubProofs E U d p = .val a ∧ initEmpty E a.1.proof.length 0 a.1 d' = .val q ∧
      (InvP E prove (Basic E) q.1) ∧ (a.2 = false → ∃ g, Rep q.1 g ∧ All Q g ∧ g.tgts = [(E.stmt prove).math] ∧ (∀ x ∈ q.1.proof, Legal E prove x) ∧ Done q.1 g.flat.length) := by
    intro Q hQ h
    obtain ⟨f, hr, hA, ht, hL⟩ := h
    obtain ⟨q, e, g, a1, a2, a3, a4, a5, a6⟩ := assignKnownSubProofs_rep G hU (d := d) hQ hr hA
    have hlen : q.proof.length = g.flat.length := by rw [a2.proof, List.length_map]
    obtain ⟨q1, d1, g1, b1, b2, b3, b4, b5, b6⟩ := initEmpty_rep G (P := Basic E) mid_basic q.proof.length 0 (d := d') a2 a3 (by omega) (fun i hi => absurd hi (Nat.not_lt_zero _))
    refine ⟨(q, e), (q1, d1), a1, b1, .of hr ht hL b2 b3 (b4.trans a4) (b5.trans a5), fun he => ?_⟩
    obtain ⟨q2, d2, g2, c1, c2, c3, c4, c5, c6⟩ := initEmpty_rep G hQ q.proof.length 0 (d := d') a2 (a6 he) (by omega) (fun i hi => absurd hi (Nat.not_lt_zero _))
    rw [b1] at c1
    cases c1
    refine ⟨g2, c2, c3, c4.trans (a4.trans ht), ?_, ?_⟩
    · rw [rep_proof hr c2 (c5.trans a5)]; exact hL
    · have : g2.flat.length = g.flat.length := by simpa using congrArg List.length c5
      rw [this]; exact c6
  obtain ⟨a, q, h1, h2, h3, _⟩ := key mid_basic hb
  refine ⟨a, q, h1, h2, h3, fun he hw => ?_⟩
  obtain ⟨a', q', k1, k2, _, k4⟩ := key mid_weak hw
  rw [h1] at k1
  cases k1
  rw [h2] at k2
  cases k2
  obtain ⟨g, m1, m2, m3, m4, m5⟩ := k4 he
  exact ⟨g, m1, weak_done m1 m2 m5, m3, m4⟩

theorem replace_inv (G : GoodEnv E) (hU : U.Ok E) (hm : ∀ t ∈ (E.stmt prove).math, t < E.sep) {p : Pip} (hb : InvP E prove (Basic E) p) {d n step : Nat} (hs : step < p.proof.length)
    {sub : List Int} (hF : Formed E prove sub) :
    ∃ r a q, swapSub E p sub step = .val r ∧ assignKnownSubProofs E U d r.1 = .val a ∧ initEmpty E a.1.proof.length 0 a.1 d = .val q ∧ InvP E prove (Basic E) q.1 ∧
      (autoUnify n E U q.1 false = .fuel ∨ ∃ u, autoUnify n E U q.1 false = .val u ∧ InvP E prove (Basic E) u.1 ∧
        (a.2 = false → InvP E prove (NodeOk E) p → InvP E prove (NodeOk E) u.1)) := by
  have key : ∀ {Q R : Node → List (List Nat) → Prop}, Kept E Q → (∀ x ts, Q x ts → R x ts) → (∀ x ts, Weak E x ts → R x ts) → InvP E prove Q p →
      ∃ r, swapSub E p sub step = .val r ∧ InvP E prove R r.1 := by
    intro Q R hQ hQR hWR h
    obtain ⟨f, hr, hA, ht, hL⟩ := h
    obtain ⟨c, x, ch, y, g, q, rfl, hsub, e1, e2, g2, g3, g4, g5, g6⟩ := swap_rep hQ hr hA hs hF
    refine ⟨_, e1, _, e2, all_replug (hA.mono hQR) rfl ((blank_weak g2 fun x hx => (g3 x hx).2.1).mono hWR) (hWR _ _ ⟨⟨g4, g5, g6⟩, Or.inl rfl⟩), by rw [← ht]; exact tgts_replug c ch _ rfl, ?_⟩
    exact legal_replug hr e2 hL (hF.2 _ (by rw [hsub]; simp)) fun z hz => hF.2 _ (by rw [hsub]; simp; exact Or.inl ⟨z, hz, rfl⟩)
  obtain ⟨r, r1, r2⟩ := key kept_basic (fun _ _ h => h) mid_weak.basic hb
  obtain ⟨a, q, a1, a2, a3, a4⟩ := fill_inv G hU r2 (d := d) (d' := d)
  refine ⟨r, a, q, r1, a1, a2, a3, ?_⟩
  rcases autoUnify_out (U := U) kept_basic hm (n := n) (b := false) a3 with h | ⟨u, hu⟩
  · exact Or.inl h
  · refine Or.inr ⟨u, hu, autoUnify_inv kept_basic hm a3 hu, fun he hn => ?_⟩
    obtain ⟨r', r3, r4⟩ := key (kept_nodeOk G) (fun x ts h => mid_weak.ok x ts h) (fun _ _ h => h) hn
    rw [r1] at r3
    cases r3
    exact autoUnify_inv (kept_nodeOk G) hm (a4 he r4) hu

theorem init_pre (G : GoodEnv E) (hU : U.Ok E) {proof : List Int} (hF : Formed E prove proof) :
    ∃ (t : List (List Nat)) (a : Pip × Bool) (q : Pip × Nat), setF (List.replicate proof.length []) ((proof.length : Int) - 1) (E.stmt prove).math = .val t ∧
      assignKnownSubProofs E U 0 ⟨proof, t, List.replicate proof.length [], List.replicate proof.length []⟩ = .val a ∧ initEmpty E proof.length 0 a.1 0 = .val q ∧
      InvP E prove (Basic E) q.1 ∧ (a.2 = false → InvP E prove (NodeOk E) q.1) := by
  obtain ⟨y, g, g1, g2, g3, g4, g5, g6⟩ := formed_forest hF
  have hlen : proof.length = g.flat.length + 1 := by rw [g1]; simp
  have hset : setF (List.replicate proof.length []) ((proof.length : Int) - 1) (E.stmt prove).math = .val (List.replicate g.flat.length [] ++ [(E.stmt prove).math]) := by
    rw [hlen, List.replicate_succ']
    exact setF_at (b := []) (by simp)
  have hr : Rep ⟨proof, List.replicate g.flat.length [] ++ [(E.stmt prove).math], List.replicate proof.length [], List.replicate proof.length []⟩
      (snoc nil ⟨y, (E.stmt prove).math, [], []⟩ g) := by
    constructor
    · simpa [AF.flat] using g1
    · simp only [AF.flat, List.nil_append, List.map_append, List.map_cons, List.map_nil]
      rw [map_blank (fun x hx => (g3 x hx).1)]
    · simp only [AF.flat, List.nil_append, List.map_append, List.map_cons, List.map_nil, hlen, List.replicate_succ']
      rw [map_blank (fun x hx => (g3 x hx).2.1)]
    · simp only [AF.flat, List.nil_append, List.map_append, List.map_cons, List.map_nil, hlen, List.replicate_succ']
      rw [map_blank (fun x hx => (g3 x hx).2.2)]
  have hwA : All (Weak E) (snoc nil ⟨y, (E.stmt prove).math, [], []⟩ g) := ⟨trivial, blank_weak g2 fun x hx => (g3 x hx).2.1, ⟨g4, g5, g6⟩, Or.inl rfl⟩
  have hw : InvP E prove (Weak E) ⟨proof, List.replicate g.flat.length [] ++ [(E.stmt prove).math], List.replicate proof.length [], List.replicate proof.length []⟩ :=
    ⟨_, hr, hwA, rfl, hF.2⟩
  have hb : InvP E prove (Basic E) ⟨proof, List.replicate g.flat.length [] ++ [(E.stmt prove).math], List.replicate proof.length [], List.replicate proof.length []⟩ := by
    obtain ⟨f, a, b, c, d⟩ := hw
    exact ⟨f, a, b.mono mid_weak.basic, c, d⟩
  obtain ⟨a, q, a1, a2, a3, a4⟩ := fill_inv G hU hb (d := 0) (d' := 0)
  have hal : a.1.proof.length = proof.length := by
    obtain ⟨q', e, g', b1, b2, _, _, b5, _⟩ := assignKnownSubProofs_rep G hU (d := 0) (P := Weak E) mid_weak hr hwA
    rw [a1] at b1
    cases b1
    rw [rep_proof hr b2 b5]
  rw [hal] at a2
  exact ⟨_, a, q, hset, a1, a2, a3, fun he => a4 he hw⟩

theorem init_inv (G : GoodEnv E) (hU : U.Ok E) (hm : ∀ t ∈ (E.stmt prove).math, t < E.sep) {n : Nat} {proof : List Int} (hF : Formed E prove proof) :
    initProofStruct n E U proof prove = .fuel ∨
    ∃ r, initProofStruct n E U proof prove = .val r ∧ InvP E prove (Basic E) r.1 ∧ (r.2.2 = false → InvP E prove (NodeOk E) r.1) := by
  obtain ⟨t, a, q, h1, h2, h3, h4, h5⟩ := init_pre G hU hF
  unfold initProofStruct
  rw [h1, Out.bind_val, h2, Out.bind_val, h3, Out.bind_val]
  rcases autoUnify_out (U := U) kept_basic hm (n := n) (b := false) h4 with h | ⟨u, hu⟩
  · rw [h]; exact Or.inl rfl
  · rw [hu, Out.bind_val]
    exact Or.inr ⟨_, rfl, autoUnify_inv kept_basic hm h4 hu, fun he => autoUnify_inv (kept_nodeOk G) hm (h5 he) hu⟩

end MM.Pfas
