import Verif.Repl.Comp
import Verif.Repl.Sort
/-!
# `replaceStatement` and one step of `minimizeProof`
-/
namespace MM.Repl
open MM.Veri MM.Proof MM.Data MM.Tree MM.Pfas MM.Impr MM.Spec
open MM.Pfas.AF MM.Pfas.Cx
open MM.Unif (Cfg SV SVH ResH makeSubst unifyH unifyHNext HCalls Calls bind_inv)

variable {X : Impr.Ctx} {R : Range} {n : Nat} {dv : Nat → Nat → Prop} {i : Nat}

/-- Nothing was tried yet. -/
def Fresh (σ : Nat → Slot) (k : Nat) : Prop := ∀ j < k, (σ j).flag = 1

/-- The proofs of what may be tried have no unknown steps. -/
def Known (X : Impr.Ctx) (R : Range) : Prop := ∀ k q, k < total X R → barred X R k = false → testProof X R k = .val q → unk ∉ q

theorem mainLoop_sound (hR : Rdy X) (hP : PipOk X) (hi : 1 ≤ i ∧ i < X.prove) (hk : (X.E.stmt i).kind = .a ∨ (X.E.stmt i).kind = .p) (hd : X.noDist = true → (X.E.stmt i).reqDisj = [])
    {m : List Nat} (hm : Str X.E m) {ord : List Nat} {nE : Nat} (hord : ord.Perm (List.range (X.E.stmt i).reqHyp.length)) (hlen : nE ≤ ord.length)
    (hE : ∀ p, nE ≤ p → p < ord.length → (X.E.stmt ((X.E.stmt i).reqHyp.getD (ord.getD p 0) 0)).kind = .f) :
    ∀ (f : Nat) (cnt : Nat → Nat) (r : ResH) (σ : Nat → Slot) (q : List Int), mainLoop X n R i (dum X i (X.E.stmt i).math) m ord nE (dumHyps X i) f cnt r σ = .val q →
      (∀ v, r = .found v → ∃ l, HCalls X.on X.C (dum X i (X.E.stmt i).math) m l v) → Fresh σ (X.E.stmt i).reqHyp.length → q ≠ [] → unk ∉ q ∨ Known X R → Good X dv m q
  | 0, _, _, _, _, h, _, _, _, _ => by cases h
  | _ + 1, _, .none, _, q, h, _, _, hne, _ => by obtain rfl := (Out.val.inj h).symm; exact absurd rfl hne
  | _ + 1, _, .timeout, _, q, h, _, _, hne, _ => by obtain rfl := (Out.val.inj h).symm; exact absurd rfl hne
  | f + 1, cnt, .found v, σ, q, h, hv, hf, hne, hu => by
    have hnd : ord.Nodup := hord.nodup_iff.mpr List.nodup_range
    have hol : ord.length = (X.E.stmt i).reqHyp.length := by rw [hord.length_eq, List.length_range]
    have hlt : ∀ p < ord.length, ord.getD p 0 < (X.E.stmt i).reqHyp.length := by
      intro p hp
      rw [List.getD_eq_getElem _ _ hp]
      exact List.mem_range.mp (hord.mem_iff.mp (List.getElem_mem hp))
    obtain ⟨l, hc⟩ := hv v rfl
    rw [mainLoop] at h
    obtain ⟨r, r1, h⟩ := bind_inv h
    have key := hypsLoop_inv hnd (Nat.zero_le _) (⟨fun q hq => by omega, fun hp => Or.inl (hf _ (hlt _ hp)), fun q _ hq => hf _ (hlt _ hq)⟩ : Inv X R v.sv ord nE (dumHyps X i) 0 σ) r1
    by_cases c1 : r.1 = true
    · rw [if_pos c1] at h key
      by_cases c2 : ((List.range (dumHyps X i).length).map fun j => (r.2 j).proof).any List.isEmpty = true
      · rw [if_pos c2] at h; cases h
      rw [if_neg c2] at h
      obtain rfl := (Out.val.inj h).symm
      refine repl_good hR hP hi hk hd hm hord hlen hE (calls_of (proper hR.ready hk hm) hc) key fun j hj mm hM => hu.elim (fun hu hj2 => hu ?_) fun hK => ?_
      swap
      · obtain ⟨_, _, _, _, e2, _⟩ := hM.ex
        exact hK _ _ hM.lt hM.free e2
      refine List.mem_append_left _ (List.mem_flatten.mpr ⟨_, List.mem_map.mpr ⟨j, List.mem_range.mpr (by simpa using hj), rfl⟩, hj2⟩)
    · rw [if_neg c1] at h key
      obtain ⟨q', q1, h⟩ := bind_inv h
      refine mainLoop_sound hR hP hi hk hd hm hord hlen hE f _ q' r.2 q h ?_ ?_ hne hu
      · intro w hw
        subst hw
        exact ⟨_, .next hc q1⟩
      · intro j hj
        obtain ⟨p, hp⟩ := List.getElem?_of_mem (hord.mem_iff.mpr (List.mem_range.mpr hj))
        obtain ⟨hp1, hp2⟩ := List.getElem?_eq_some_iff.mp hp
        have := key.above p (Nat.zero_le _) hp1
        rw [List.getD_eq_getElem _ _ hp1, hp2] at this
        exact this

theorem kinds_split (hR : Ready X) (hk : (X.E.stmt i).kind = .a ∨ (X.E.stmt i).kind = .p) {ord : List Nat} {nE : Nat} (hord : ord.Perm (List.range (X.E.stmt i).reqHyp.length))
    (hs : Split (fun j => decide ((X.E.stmt ((X.E.stmt i).reqHyp.getD j 0)).kind = .e)) ord nE) :
    ∀ p, nE ≤ p → p < ord.length → (X.E.stmt ((X.E.stmt i).reqHyp.getD (ord.getD p 0) 0)).kind = .f := by
  intro p h1 h2
  have := hs.2.2 p h1 h2
  rw [decide_eq_false_iff_not] at this
  have hj : ord.getD p 0 < (X.E.stmt i).reqHyp.length := by
    rw [List.getD_eq_getElem _ _ h2]
    exact List.mem_range.mp (hord.mem_iff.mp (List.getElem_mem h2))
  refine (hR.env.hypKind i hk _ ?_).resolve_right this
  rw [List.getD_eq_getElem _ _ hj]
  exact List.getElem_mem hj

/-- What `replaceStatement` makes of the statement and its hypotheses. -/
theorem prepared (hR : Ready X) (hk : (X.E.stmt i).kind = .a ∨ (X.E.stmt i).kind = .p) :
    toDummies X.E X.d (X.E.stmt i).reqVars (X.E.stmt i).math = .val (dum X i (X.E.stmt i).math) ∧
    dummyHyps X.E X.d (X.E.stmt i).reqVars (X.E.stmt i).reqHyp = .val (dumHyps X i) :=
  ⟨toDummies_val (hR.env.ass i hk).mathVars, dummyHyps_val fun h hh => (str_hyp hR hk hh).2.1⟩

theorem replace_sound (hR : Rdy X) (hP : PipOk X) (hi : 1 ≤ i ∧ i < X.prove) (hd : X.noDist = true → (X.E.stmt i).reqDisj = []) {cnt : Nat → Nat} {step : Nat} {m : List Nat}
    (ht : getF X.pip.target step = .val m) (hm : Str X.E m) {q : List Int} (h : replaceStatement X n R cnt i step = .val q) (hne : q ≠ []) (hu : unk ∉ q ∨ Known X R) : Good X dv m q := by
  unfold replaceStatement at h
  by_cases c1 : X.override = 0 ∧ X.disc i = true
  · rw [if_pos c1] at h; cases h
  rw [if_neg c1, ht, Out.bind_val] at h
  by_cases c2 : (X.E.stmt i).kind ≠ .a ∧ (X.E.stmt i).kind ≠ .p
  · rw [if_pos c2] at h; cases h
  rw [if_neg c2] at h
  have hk : (X.E.stmt i).kind = .a ∨ (X.E.stmt i).kind = .p := by
    by_cases e : (X.E.stmt i).kind = .a
    · exact Or.inl e
    · exact Or.inr (Classical.byContradiction fun e2 => c2 ⟨e, e2⟩)
  obtain ⟨p1, p2⟩ := prepared hR.ready hk
  rw [p1, Out.bind_val, p2, Out.bind_val] at h
  obtain ⟨r, r1, h⟩ := bind_inv h
  have hl : (dumHyps X i).length = (X.E.stmt i).reqHyp.length := by simp
  have hs := sortMap_spec (fun j => decide ((X.E.stmt ((X.E.stmt i).reqHyp.getD j 0)).kind = .e)) (fun j => ((dumHyps X i).getD j []).length) (dumHyps X i).length
  rw [hl] at hs h
  refine mainLoop_sound hR hP hi hk hd hm hs.1 hs.2.1 (kinds_split hR.ready hk hs.1 hs.2) n cnt r _ q h ?_ (fun j _ => rfl) hne hu
  intro v hv
  subst hv
  exact ⟨_, .first r1⟩

/-! ### What a proof proves is determined -/

theorem rpn_snoc {isVar : Nat → Bool} {s : List Step} {x : Step} {h st : List (List Nat)} (hr : RPN isVar dv (s ++ [x]) h st) :
    (∃ e h0 st0, x = .hyp e ∧ RPN isVar dv s h0 st0 ∧ st = e :: st0) ∨ (∃ k, x = .back k) ∨
    ∃ A σ h0 st0, x = .use A ∧ RPN isVar dv s h0 ((A.hyps.map (subst isVar σ)).reverse ++ st0) ∧ st = subst isVar σ A.concl :: st0 := by
  generalize hl : s ++ [x] = l at hr
  cases hr with
  | nil => simp at hl
  | hyp e h1 =>
    obtain ⟨rfl, h2⟩ := List.append_inj' hl rfl
    injection h2 with h2
    exact Or.inl ⟨e, _, _, h2, h1, rfl⟩
  | back k e h1 _ =>
    obtain ⟨rfl, h2⟩ := List.append_inj' hl rfl
    injection h2 with h2
    exact Or.inr (Or.inl ⟨k, h2⟩)
  | use A σ h1 _ =>
    obtain ⟨rfl, h2⟩ := List.append_inj' hl rfl
    injection h2 with h2
    exact Or.inr (Or.inr ⟨A, σ, _, _, h2, h1, rfl⟩)

theorem rpn_det {E : Env} (G : GoodEnv E) {s : List Step} {h st : List (List Nat)} (hr : RPN E.isVar dv s h st) :
    (∀ x ∈ s, (∃ e : List Nat, x = .hyp e) ∨ ∃ i, x = .use { frameOf E.toDb i with dv := [] } ∧ ((E.stmt i).kind = .a ∨ (E.stmt i).kind = .p)) →
    ∀ h' st', RPN E.isVar dv s h' st' → st = st' := by
  induction hr with
  | nil =>
    intro _ h' st' hr2
    generalize hl : ([] : List Step) = l at hr2
    cases hr2 with
    | nil => rfl
    | hyp e _ => simp at hl
    | back _ _ _ _ => simp at hl
    | use _ _ _ _ => simp at hl
  | hyp e _ ih =>
    intro hs h' st' hr2
    rcases rpn_snoc hr2 with ⟨e', h0, st0, h1, h2, h3⟩ | ⟨k, h1⟩ | ⟨A, σ, h0, st0, h1, _⟩
    · injection h1 with h1
      subst h1
      rw [h3, ih (fun x hx => hs x (List.mem_append_left _ hx)) _ _ h2]
    · cases h1
    · cases h1
  | back k e _ _ ih =>
    intro hs
    rcases hs _ (List.mem_append_right _ (List.mem_singleton.mpr rfl)) with ⟨e', h1⟩ | ⟨i, h1, _⟩ <;> cases h1
  | @use s h st A σ _ _ ih =>
    intro hs h' st' hr2
    rcases rpn_snoc hr2 with ⟨e', h0, st0, h1, _⟩ | ⟨k, h1⟩ | ⟨B, τ, h0, st0, h1, h2, h3⟩
    · cases h1
    · cases h1
    · injection h1 with h1
      subst h1
      have e := ih (fun x hx => hs x (List.mem_append_left _ hx)) _ _ h2
      obtain ⟨e1, e2⟩ := List.append_inj e (by simp)
      have e1 := List.reverse_injective e1
      rcases hs _ (List.mem_append_right _ (List.mem_singleton.mpr rfl)) with ⟨e', h1⟩ | ⟨i, h1, hk⟩
      · cases h1
      · injection h1 with h1; subst h1
        have hun := (G.ass i hk).fdisc.unique (σ := σ) (τ := τ) rfl e1.symm
        rw [h3, e2]
        congr 1
        refine subst_congr fun t ht hv => ?_
        exact hun t (((G.ass i hk).vars t).mp ((G.ass i hk).mathVars t ht hv))

end MM.Repl
