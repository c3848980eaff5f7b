import Verif.Pfas.Ends

/-!
# The strings of a session hold no separator
-/
namespace MM.Pfas
open MM.Veri MM.Proof MM.Data MM.Tree AF
open MM.Unif (Cfg Proper bind_inv)
variable {E : Env} {U : Unifier} {C : Cfg}

/-- No string of the list holds the separator. -/
def NS (E : Env) (l : List (List Nat)) : Prop := ∀ m ∈ l, E.sep ∉ m

/-- No string holds the separator; the steps are proper. -/
structure Clean (E : Env) (p : Pip) : Prop where
  t : NS E p.target
  s : NS E p.source
  u : NS E p.user
  pf : ∀ x ∈ p.proof, StepOk E x

theorem Clean.noSep {p : Pip} (h : Clean E p) : NoSep E p := by
  intro m hm
  unfold strs at hm
  rcases List.mem_append.mp hm with hm | hm
  · rcases List.mem_append.mp hm with hm | hm
    · exact h.t m hm
    · exact h.s m hm
  · exact h.u m hm

theorem NoSep.clean {p : Pip} (h : NoSep E p) (hp : ∀ x ∈ p.proof, StepOk E x) : Clean E p :=
  ⟨fun m hm => h m (by simp [strs, hm]), fun m hm => h m (by simp [strs, hm]), fun m hm => h m (by simp [strs, hm]), hp⟩

theorem ns_append {a b : List (List Nat)} (ha : NS E a) (hb : NS E b) : NS E (a ++ b) := fun m hm => (List.mem_append.mp hm).elim (ha m) (hb m)

theorem ns_replicate (n : Nat) : NS E (List.replicate n []) := fun m hm => by rw [List.eq_of_mem_replicate hm]; exact List.not_mem_nil

theorem ns_sub {a b : List (List Nat)} (h : NS E b) (hs : a ⊆ b) : NS E a := fun m hm => h m (hs hm)

theorem setF_ns {l l' : List (List Nat)} {i : Int} {m : List Nat} (h : setF l i m = .val l') (hl : NS E l) (hm : E.sep ∉ m) : NS E l' := by
  unfold setF at h
  split at h
  · cases h
    intro x hx
    rcases List.mem_or_eq_of_mem_set hx with h | rfl
    · exact hl x h
    · exact hm
  · cases h

theorem pntrLeft_ns {l l' : List (List Nat)} {i : Int} (h : pntrLeft l i = .val l') (hl : NS E l) : NS E l' := by
  unfold pntrLeft at h
  split at h
  · cases h; exact ns_sub hl (List.take_subset _ _)
  · cases h

theorem pntrRight_ns {l : List (List Nat)} {i : Int} (hl : NS E l) : NS E (pntrRight l i) := ns_sub hl (List.drop_subset _ _)

theorem nmbrLeft_sub {l l' : List Int} {i : Int} (h : nmbrLeft l i = .val l') : l' ⊆ l := by
  unfold nmbrLeft at h
  split at h
  · cases h; exact List.take_subset _ _
  · cases h

theorem nmbrRight_sub {l : List Int} {i : Int} : nmbrRight l i ⊆ l := List.drop_subset _ _

theorem addSubProof_clean {p q : Pip} {sub : List Int} {step : Int} (h : addSubProof p sub step = .val q) (hp : Clean E p) (hs : ∀ x ∈ sub, StepOk E x) : Clean E q := by
  unfold addSubProof at h
  obtain ⟨x, _, h⟩ := bind_inv h
  split at h
  · cases h
  · split at h
    · cases h
    · obtain ⟨a, h1, h⟩ := bind_inv h
      obtain ⟨t, h2, h⟩ := bind_inv h
      obtain ⟨s0, _, h⟩ := bind_inv h
      split at h
      · cases h
      · obtain ⟨s, h3, h⟩ := bind_inv h
        obtain ⟨u, h4, h⟩ := bind_inv h
        cases h
        refine ⟨ns_append (ns_append (pntrLeft_ns h2 hp.t) (ns_replicate _)) (pntrRight_ns hp.t), ns_append (ns_append (pntrLeft_ns h3 hp.s) (ns_replicate _)) (pntrRight_ns hp.s),
          ns_append (ns_append (pntrLeft_ns h4 hp.u) (ns_replicate _)) (pntrRight_ns hp.u), ?_⟩
        intro y hy
        rcases List.mem_append.mp hy with hy | hy
        · rcases List.mem_append.mp hy with hy | hy
          · exact hp.pf y (nmbrLeft_sub h1 hy)
          · exact hs y hy
        · exact hp.pf y (nmbrRight_sub hy)

theorem deleteSubProof_clean {p q : Pip} {step : Int} (h : deleteSubProof E p step = .val q) (hp : Clean E p) : Clean E q := by
  unfold deleteSubProof at h
  obtain ⟨x, _, h⟩ := bind_inv h
  split at h
  · cases h; exact hp
  · obtain ⟨n, _, h⟩ := bind_inv h
    obtain ⟨a, h1, h⟩ := bind_inv h
    obtain ⟨src, h0, h⟩ := bind_inv h
    obtain ⟨t, h2, h⟩ := bind_inv h
    obtain ⟨s, h3, h⟩ := bind_inv h
    obtain ⟨u, h4, h⟩ := bind_inv h
    cases h
    have hsrc := setF_ns h0 hp.s List.not_mem_nil
    refine ⟨ns_append (pntrLeft_ns h2 hp.t) (pntrRight_ns hp.t), ns_append (pntrLeft_ns h3 hsrc) (pntrRight_ns hsrc), ns_append (pntrLeft_ns h4 hp.u) (pntrRight_ns hp.u), ?_⟩
    intro y hy
    rcases List.mem_append.mp hy with hy | hy
    · rcases List.mem_append.mp hy with hy | hy
      · exact hp.pf y (nmbrLeft_sub h1 hy)
      · rw [List.mem_singleton.mp hy]; exact Or.inl rfl
    · exact hp.pf y (nmbrRight_sub hy)

theorem swapSub_clean {p : Pip} {sub : List Int} {step : Nat} {r : Pip × Nat} (h : swapSub E p sub step = .val r) (hp : Clean E p) (hs : ∀ x ∈ sub, StepOk E x) :
    Clean E r.1 := by
  unfold swapSub at h
  obtain ⟨q, _, h⟩ := bind_inv h
  obtain ⟨p1, h1, h⟩ := bind_inv h
  obtain ⟨p2, h2, h⟩ := bind_inv h
  cases h
  exact addSubProof_clean h2 (deleteSubProof_clean h1 hp) hs

/-! ### Dummy variables -/

theorem dummyOf_sep {d : Nat} {vars : List Nat} {t x : Nat} (h : dummyOf E d vars t = .val x) (hv : E.isVar E.sep = false) : x = E.sep ↔ t = E.sep := by
  unfold dummyOf at h
  by_cases ht : E.isVar t = true
  · rw [if_pos ht] at h
    split at h
    · cases h
      constructor
      · intro h; omega
      · rintro rfl; rw [hv] at ht; cases ht
    · cases h
  · rw [if_neg ht] at h; cases h; rfl

theorem toDummies_count {d : Nat} {vars : List Nat} (hv : E.isVar E.sep = false) : ∀ {m m' : List Nat}, toDummies E d vars m = .val m' → m'.count E.sep = m.count E.sep
  | [], m', h => by cases h; rfl
  | t :: l, m', h => by
    rw [toDummies] at h
    obtain ⟨x, h1, h⟩ := bind_inv h
    obtain ⟨r, h2, h⟩ := bind_inv h
    cases h
    rw [List.count_cons, List.count_cons, toDummies_count hv h2]
    have := dummyOf_sep h1 hv
    by_cases hx : x = E.sep
    · simp [hx, this.mp hx]
    · have ht : ¬ t = E.sep := fun e => hx (this.mpr e)
      simp [hx, ht]

theorem toDummies_ns {d : Nat} {vars m m' : List Nat} (hv : E.isVar E.sep = false) (h : toDummies E d vars m = .val m') (hm : E.sep ∉ m) : E.sep ∉ m' := by
  rw [← List.count_eq_zero, toDummies_count hv h, List.count_eq_zero]; exact hm

theorem setHyps_ns {proof : List Int} : ∀ {hs : List Nat} {pos : Int} {t : List (List Nat)} {r : List (List Nat) × List Int}, setHyps E proof hs pos t = .val r →
    (∀ h ∈ hs, E.sep ∉ (E.stmt h).math) → NS E t → NS E r.1
  | [], pos, t, r, h, _, ht => by cases h; exact ht
  | x :: hs, pos, t, r, h, hh, ht => by
    rw [setHyps] at h
    obtain ⟨t1, h1, h⟩ := bind_inv h
    obtain ⟨pos1, _, h⟩ := bind_inv h
    obtain ⟨r1, h2, h⟩ := bind_inv h
    cases h
    exact setHyps_ns (r := r1) h2 (fun h hm => hh h (List.mem_cons_of_mem _ hm)) (setF_ns h1 ht (hh x List.mem_cons_self))

theorem renHyps_ns {d : Nat} {vars : List Nat} (hv : E.isVar E.sep = false) : ∀ {ps : List Int} {t t' : List (List Nat)}, renHyps E d vars ps t = .val t' → NS E t → NS E t'
  | [], t, t', h, ht => by cases h; exact ht
  | pos :: ps, t, t', h, ht => by
    rw [renHyps] at h
    obtain ⟨m, h1, h⟩ := bind_inv h
    obtain ⟨m1, h2, h⟩ := bind_inv h
    obtain ⟨t1, h3, h⟩ := bind_inv h
    exact renHyps_ns hv h (setF_ns h3 ht (toDummies_ns hv h2 (ht m (getF_mem h1))))

theorem math_ns (G : GoodEnv E) {x : Int} (hx : StepOk E x) (h0 : 0 ≤ x) : E.sep ∉ (E.stmt x.toNat).math := by
  rcases hx with hx | hx | hx
  · simp only [unk] at hx; omega
  · omega
  · intro h; exact Nat.lt_irrefl _ (G.toks _ hx.2.2 _ h)

theorem hyp_ns (G : GoodEnv E) {x : Int} (hx : StepOk E x) (h0 : 0 ≤ x) (hk : ¬ ((E.stmt x.toNat).kind = .e ∨ (E.stmt x.toNat).kind = .f)) :
    ∀ h ∈ (E.stmt x.toNat).reqHyp, E.sep ∉ (E.stmt h).math := by
  have hk : (E.stmt x.toNat).kind = .a ∨ (E.stmt x.toNat).kind = .p := by
    rcases hx with hx | hx | ⟨_, _, h | h | h | h⟩
    · simp only [unk] at hx; omega
    · omega
    · exact absurd (Or.inr h) hk
    · exact absurd (Or.inl h) hk
    · exact Or.inl h
    · exact Or.inr h
  intro h hh hs
  exact Nat.lt_irrefl _ (G.toks h (by rcases G.hypKind _ hk h hh with h | h <;> simp [h]) _ hs)

theorem rdN_ok {l : List Int} {i x : Int} (h : rdN l i = .val x) (hl : ∀ x ∈ l, StepOk E x) (h0 : 0 ≤ x) : StepOk E x := by
  unfold rdN at h
  split at h
  · cases h
  · split at h
    · rename_i hi
      cases h
      rw [List.getD_eq_getElem?_getD, List.getElem?_eq_getElem hi]
      exact hl _ (List.getElem_mem _)
    · split at h
      · cases h; omega
      · cases h

theorem initStep_clean (G : GoodEnv E) {p : Pip} {d : Nat} {step : Int} {r : Pip × Nat} (h : initStep E p d step = .val r) (hp : Clean E p) :
    Clean E r.1 ∧ r.1.proof = p.proof := by
  unfold initStep at h
  obtain ⟨x, hx, h⟩ := bind_inv h
  by_cases h0 : x < 0
  · rw [if_pos h0] at h
    split at h
    · obtain ⟨s, h1, h⟩ := bind_inv h
      cases h
      exact ⟨⟨hp.t, setF_ns h1 hp.s List.not_mem_nil, hp.u, hp.pf⟩, rfl⟩
    · cases h
  · rw [if_neg h0] at h
    have hok := rdN_ok hx hp.pf (by omega)
    rw [stmtAt_ok hok (by omega), Out.bind_val] at h
    by_cases hk : (E.stmt x.toNat).kind = .e ∨ (E.stmt x.toNat).kind = .f
    · rw [if_pos hk] at h
      obtain ⟨s, h1, h⟩ := bind_inv h
      cases h
      exact ⟨⟨hp.t, setF_ns h1 hp.s (math_ns G hok (by omega)), hp.u, hp.pf⟩, rfl⟩
    · rw [if_neg hk] at h
      obtain ⟨s, h1, h⟩ := bind_inv h
      obtain ⟨q, h2, h⟩ := bind_inv h
      obtain ⟨m, h3, h⟩ := bind_inv h
      obtain ⟨m1, h4, h⟩ := bind_inv h
      obtain ⟨s1, h5, h⟩ := bind_inv h
      obtain ⟨t, h6, h⟩ := bind_inv h
      cases h
      have k1 := setF_ns h1 hp.s (math_ns G hok (by omega))
      refine ⟨⟨renHyps_ns G.sepConst h6 (setHyps_ns h2 ?_ hp.t), setF_ns h5 k1 (toDummies_ns G.sepConst h4 (k1 m (getF_mem h3))), hp.u, hp.pf⟩, rfl⟩
      intro h hh
      exact hyp_ns G hok (by omega) hk h (List.mem_reverse.mp hh)

theorem assignStatement_clean (G : GoodEnv E) {p : Pip} {d stmt : Nat} {step : Int} {r : Pip × Nat} (h : assignStatement E p d stmt step = .val r) (hp : Clean E p)
    (hs : StepOk E stmt) : Clean E r.1 := by
  unfold assignStatement at h
  obtain ⟨x, _, h⟩ := bind_inv h
  split at h
  · cases h
  · obtain ⟨A, _, h⟩ := bind_inv h
    obtain ⟨q, h1, h⟩ := bind_inv h
    refine (initStep_clean G h (addSubProof_clean h1 hp ?_)).1
    intro y hy
    rcases List.mem_append.mp hy with hy | hy
    · rw [List.eq_of_mem_replicate hy]; exact Or.inl rfl
    · rw [List.mem_singleton.mp hy]; exact hs

/-! ### Known subproofs -/

theorem getAll_ns {l : List (List Nat)} (hl : NS E l) : ∀ {is : List Nat} {r : List (List Nat)}, getAll l is = .val r → NS E r ∧ r.length = is.length
  | [], r, h => by cases h; exact ⟨nofun, rfl⟩
  | i :: is, r, h => by
    rw [getAll] at h
    obtain ⟨m, h1, h⟩ := bind_inv h
    obtain ⟨r1, h2, h⟩ := bind_inv h
    cases h
    obtain ⟨k1, k2⟩ := getAll_ns hl h2
    exact ⟨fun x hx => (List.mem_cons.mp hx).elim (fun e => by rw [e]; exact hl m (getF_mem h1)) (k1 x), by simp [k2]⟩

theorem inst_ns {τ : Nat → List Nat} (hτ : ∀ y, E.sep < y → E.sep ∉ τ y) {m : List Nat} (hm : E.sep ∉ m) : E.sep ∉ inst E τ m := by
  intro hs
  obtain ⟨t, ht, ⟨h1, h2⟩ | ⟨_, rfl⟩⟩ := mem_inst.mp hs
  · exact hτ t h1 h2
  · exact hm ht

theorem knownStep_clean (G : GoodEnv E) (hR : Realises C U) (hC : Fits C E) {d : Nat} {proof : List Int} (hpf : ∀ x ∈ proof, StepOk E x) {pos : Nat} {src : List (List Nat)}
    {stk : List Nat} {r : List (List Nat) × List Nat} (h : knownStep E U d proof pos src stk = .val (some r)) (hs : NS E src) : NS E r.1 := by
  unfold knownStep at h
  obtain ⟨x, hx, h⟩ := bind_inv h
  by_cases h0 : x ≤ 0
  · rw [if_pos h0] at h; split at h <;> cases h
  · rw [if_neg h0] at h
    have hok := rdN_ok hx hpf (by omega)
    rw [stmtAt_ok hok (by omega), Out.bind_val] at h
    by_cases hk : (E.stmt x.toNat).kind = .e ∨ (E.stmt x.toNat).kind = .f
    · rw [if_pos hk] at h
      obtain ⟨s, h1, h⟩ := bind_inv h
      cases h
      exact setF_ns h1 hs (math_ns G hok (by omega))
    · rw [if_neg hk] at h
      by_cases hl : stk.length < (E.stmt x.toNat).reqHyp.length
      · rw [if_pos hl] at h; cases h
      · rw [if_neg hl] at h
        obtain ⟨insts, h1, h⟩ := bind_inv h
        obtain ⟨sch, h2, h⟩ := bind_inv h
        obtain ⟨ass, h3, h⟩ := bind_inv h
        obtain ⟨i1, i2⟩ := getAll_ns hs h1
        have hcs : sch.count E.sep = (bigStr E.sep insts).count E.sep := by
          rw [toDummies_count G.sepConst h2, bigStr_count, bigStr_count]
          · rw [i2]; simp; omega
          · exact i1
          · intro m hm
            obtain ⟨j, hj, rfl⟩ := List.mem_map.mp hm
            exact hyp_ns G hok (by omega) hk j hj
        have hne : sch ≠ [] := by
          intro e
          have := hcs
          rw [e] at this
          simp [bigStr] at this
        have hP : Proper C sch (bigStr E.sep insts) := ⟨hne, by simp [bigStr], by rw [hC.mt]; exact hcs, by rw [hC.min], Or.inl hC.min⟩
        cases hu : U.hyps sch (bigStr E.sep insts) with
        | none => rw [hu, if_pos rfl] at h; cases h
        | some q =>
          rw [hu, if_neg (by simp)] at h
          dsimp only [Option.getD_some] at h
          obtain ⟨s, h4, h⟩ := bind_inv h
          have key := (hR.hyps_answer hC.con hP (σ := q.1) (b := q.2) hu).2
          rw [hC.mt] at key
          have hres := setF_ns h4 hs (inst_ns key (toDummies_ns G.sepConst h3 (math_ns G hok (by omega))))
          split at h
          · cases h
          · split at h
            · cases h
            · cases h; exact hres

theorem knownLoop_clean (G : GoodEnv E) (hR : Realises C U) (hC : Fits C E) {d : Nat} {proof : List Int} (hpf : ∀ x ∈ proof, StepOk E x) :
    ∀ {count pos : Nat} {src : List (List Nat)} {stk : List Nat} {r : List (List Nat) × List Nat × Bool}, knownLoop E U d proof count pos src stk = .val r → NS E src → NS E r.1
  | 0, _, _, _, _, h, hs => by cases h; exact hs
  | count + 1, pos, src, stk, r, h, hs => by
    rw [knownLoop] at h
    obtain ⟨o, h1, h⟩ := bind_inv h
    cases o with
    | none => cases h; exact hs
    | some q => exact knownLoop_clean G hR hC hpf h (knownStep_clean G hR hC hpf h1 hs)

theorem copyTargets_ns {src : List (List Nat)} (hs : NS E src) : ∀ {count pos : Nat} {t t' : List (List Nat)}, copyTargets src count pos t = .val t' → NS E t → NS E t'
  | 0, _, _, _, h, ht => by cases h; exact ht
  | count + 1, pos, t, t', h, ht => by
    rw [copyTargets] at h
    obtain ⟨m, h1, h⟩ := bind_inv h
    obtain ⟨t1, h2, h⟩ := bind_inv h
    exact copyTargets_ns hs h (setF_ns h2 ht (hs m (getF_mem h1)))

theorem assignKnownSteps_clean (G : GoodEnv E) (hR : Realises C U) (hC : Fits C E) {d : Nat} {p : Pip} {start len : Nat} {r : Pip × Bool}
    (h : assignKnownSteps E U d p start len = .val r) (hp : Clean E p) : Clean E r.1 ∧ r.1.proof = p.proof := by
  unfold assignKnownSteps at h
  obtain ⟨q, h1, h⟩ := bind_inv h
  split at h
  · cases h
  · obtain ⟨t, h2, h⟩ := bind_inv h
    cases h
    have k := knownLoop_clean G hR hC hp.pf h1 hp.s
    exact ⟨⟨copyTargets_ns k h2 hp.t, k, hp.u, hp.pf⟩, rfl⟩

theorem knownSubs_clean (G : GoodEnv E) (hR : Realises C U) (hC : Fits C E) {d : Nat} : ∀ {n k : Nat} {p : Pip} {err : Bool} {r : Pip × Bool},
    knownSubs E U d n k p err = .val r → Clean E p → Clean E r.1 ∧ r.1.proof = p.proof
  | 0, k, p, err, r, h, hp => by
    rw [knownSubs] at h
    split at h
    · cases h; exact ⟨hp, rfl⟩
    · cases h
  | n + 1, k, p, err, r, h, hp => by
    rw [knownSubs] at h
    split at h
    · cases h; exact ⟨hp, rfl⟩
    · obtain ⟨len, _, h⟩ := bind_inv h
      obtain ⟨q, _, h⟩ := bind_inv h
      split at h
      · exact knownSubs_clean G hR hC h hp
      · obtain ⟨a, h1, h⟩ := bind_inv h
        obtain ⟨k1, k2⟩ := assignKnownSteps_clean G hR hC h1 hp
        obtain ⟨k3, k4⟩ := knownSubs_clean G hR hC h k1
        exact ⟨k3, k4.trans k2⟩

theorem assignKnownSubProofs_clean (G : GoodEnv E) (hR : Realises C U) (hC : Fits C E) {d : Nat} {p : Pip} {r : Pip × Bool} (h : assignKnownSubProofs E U d p = .val r)
    (hp : Clean E p) : Clean E r.1 := (knownSubs_clean G hR hC h hp).1

theorem initEmpty_clean (G : GoodEnv E) : ∀ {count step : Nat} {p : Pip} {d : Nat} {r : Pip × Nat}, initEmpty E count step p d = .val r → Clean E p → Clean E r.1
  | 0, _, _, _, _, h, hp => by cases h; exact hp
  | count + 1, step, p, d, r, h, hp => by
    rw [initEmpty] at h
    obtain ⟨m, _, h⟩ := bind_inv h
    split at h
    · obtain ⟨q, h1, h⟩ := bind_inv h
      exact initEmpty_clean G h (initStep_clean G h1 hp).1
    · exact initEmpty_clean G h hp

theorem initEach_clean (G : GoodEnv E) : ∀ {count step : Nat} {p : Pip} {d : Nat} {r : Pip × Nat}, initEach E count step p d = .val r → Clean E p → Clean E r.1
  | 0, _, _, _, _, h, hp => by cases h; exact hp
  | count + 1, step, p, d, r, h, hp => by
    rw [initEach] at h
    obtain ⟨q, h1, h⟩ := bind_inv h
    exact initEach_clean G h (initStep_clean G h1 hp).1

theorem replSyms_mem {v : Nat} {m : List Nat} {y : Nat} : ∀ {n : Nat} {l : List Nat} {k : Nat}, y ∈ (replSyms v m n l k).1 → y ∈ l ∨ y ∈ m
  | 0, l, k, h => Or.inl h
  | n + 1, l, k, h => by
    rw [replSyms] at h
    split at h
    · rcases replSyms_mem h with h | h
      · rcases List.mem_append.mp h with h | h
        · rcases List.mem_append.mp h with h | h
          · exact Or.inl (List.mem_of_mem_take h)
          · exact Or.inr h
        · exact Or.inl (List.mem_of_mem_drop h)
      · exact Or.inr h
    · exact replSyms_mem h

theorem replaceDummyVar_clean {p : Pip} {n : Nat} {m : List Nat} (hm : E.sep ∉ m) (hp : Clean E p) : Clean E (replaceDummyVar E p n m).1 := by
  have key : ∀ {l : List (List Nat)}, NS E l → NS E (l.map fun l => (replStr (n + E.sep) m l).1) := by
    intro l hl x hx hs
    obtain ⟨y, hy, rfl⟩ := List.mem_map.mp hx
    rcases replSyms_mem hs with h | h
    · exact hl y hy h
    · exact hm h
  exact ⟨key hp.t, key hp.s, key hp.u, hp.pf⟩

theorem makeSubstAll_clean {τ : Nat → List Nat} (hτ : ∀ y, E.sep < y → E.sep ∉ τ y) {p : Pip} (hp : Clean E p) : Clean E (makeSubstAll E τ p) :=
  (noSep_subst hτ hp.noSep).clean hp.pf

theorem autoUnify_clean (hR : Realises C U) (hC : Fits C E) {prove : Nat} (hm : ∀ t ∈ (E.stmt prove).math, t < E.sep) {n : Nat} {p : Pip} {b : Bool} {r : Pip × Bool}
    (h : autoUnify n E U p b = .val r) (hi : InvP E prove (Basic E) p) (hp : Clean E p) : Clean E r.1 := by
  refine (autoUnify_noSep hR hC h hp.noSep).clean ?_
  obtain ⟨_, _, _, _, hL⟩ := autoUnify_inv kept_basic hm hi h
  exact fun x hx => (legal_step (hL x hx)).1

end MM.Pfas
