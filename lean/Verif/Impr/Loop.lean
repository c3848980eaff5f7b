import Verif.Impr.Sound
import Mathlib.Data.List.GetD
import Mathlib.Data.List.Perm.Basic
/-!
# The loops of the search
-/
namespace MM.Impr
open MM.Veri MM.Proof MM.Data MM.Tree MM.Pfas MM.Spec
open MM.Unif (Cfg SV SVH ResH makeSubst unifyH unifyHNext HCalls Proper Calls bind_inv)

variable {X : Ctx} {dv : Nat → Nat → Prop}

/-! ### The order of the hypotheses -/

theorem shift_ok : ∀ (k : Nat) (l : List Nat), k < l.length → (shift k l).set 0 (l.getD k 0) = l.getD k 0 :: (l.take k ++ l.drop (k + 1))
  | 0, l, h => by
    obtain ⟨a, l, rfl⟩ := List.exists_cons_of_ne_nil (show l ≠ [] from fun e => by simp [e] at h)
    simp [shift]
  | k + 1, l, h => by
    have h1 := shift_ok k (l.set (k + 1) (l.getD k 0)) (by rw [List.length_set]; omega)
    have e1 : (l.set (k + 1) (l.getD k 0)).getD k 0 = l.getD k 0 := by
      rw [List.getD_eq_getElem?_getD, List.getElem?_set_ne (by omega), ← List.getD_eq_getElem?_getD]
    rw [e1] at h1
    have e2 : ∀ x, (shift (k + 1) l).set 0 x = ((shift k (l.set (k + 1) (l.getD k 0))).set 0 (l.getD k 0)).set 0 x := by
      intro x; rw [List.set_set]; rfl
    rw [e2, h1, List.set_cons_zero]
    congr 1
    have hk : k < l.length := by omega
    rw [List.take_set_of_le (by omega), List.drop_set, if_neg (by omega), Nat.sub_self, List.drop_eq_getElem_cons h, List.set_cons_zero]
    rw [show List.take (k + 1) l = List.take k l ++ [l.getD k 0] by rw [List.take_add_one, List.getD_eq_getElem _ _ hk]; simp [hk]]
    simp

theorem toFront_perm {l : List Nat} {k : Nat} (h : k < l.length) : (toFront l k).Perm l := by
  unfold toFront
  rw [shift_ok k l h, List.getD_eq_getElem _ _ h]
  refine List.perm_middle.symm.trans (List.Perm.of_eq ?_)
  rw [← List.drop_eq_getElem_cons h, List.take_append_drop]

/-! ### Soundness -/

/-- The recursive call is right. -/
def RecSound (X : Ctx) (dv : Nat → Nat → Prop) (rec : List Nat → Sst → Out (List Int × Sst)) : Prop :=
  ∀ m s r, Str X.E m → rec m s = .val r → r.1 ≠ [] → Good X dv m r.1

theorem getD_hyps (i j : Nat) (hj : j < (X.E.stmt i).reqHyp.length) :
    ((X.E.stmt i).reqHyp.map fun h => dum X i (X.E.stmt h).math).getD j [] = dum X i (X.E.stmt ((X.E.stmt i).reqHyp[j])).math := by
  rw [List.getD_eq_getElem _ _ (by simpa using hj)]; simp

/-- The hypotheses of assertion `i` with dummy variables. -/
abbrev dumHyps (X : Ctx) (i : Nat) : List (List Nat) := (X.E.stmt i).reqHyp.map fun h => dum X i (X.E.stmt h).math

theorem hypLoop_sound {rec : List Nat → Sst → Out (List Int × Sst)} (hrec : RecSound X dv rec) {i : Nat} {v : SV} {τ : Nat → List Nat}
    (hτ : ∀ h ∈ (X.E.stmt i).reqHyp, makeSubst X.C v (dum X i (X.E.stmt h).math) = .val (subst X.E.isVar τ (X.E.stmt h).math, false) ∧
      Str X.E (subst X.E.isVar τ (X.E.stmt h).math)) :
    ∀ (ord : List Nat) (k : Nat) (ps : List (List Int)) (s : Sst) (o : Option Nat × List (List Int) × Sst), hypLoop rec X.C v (dumHyps X i) ord k ps s = .val o →
      o.2.1.length = ps.length ∧ (∀ q, o.1 = some q → q < k + ord.length) ∧
      (ps.length = (X.E.stmt i).reqHyp.length → o.1 = none → ∀ j (hj : j < (X.E.stmt i).reqHyp.length),
        (j ∈ ord ∨ Good X dv (subst X.E.isVar τ (X.E.stmt (X.E.stmt i).reqHyp[j]).math) (ps.getD j [])) →
        Good X dv (subst X.E.isVar τ (X.E.stmt (X.E.stmt i).reqHyp[j]).math) (o.2.1.getD j []))
  | [], k, ps, s, o, h => by
    obtain rfl := (Out.val.inj h).symm
    refine ⟨rfl, nofun, fun _ _ j hj hg => hg.resolve_left (by simp)⟩
  | j :: js, k, ps, s, o, h => by
    unfold hypLoop at h
    by_cases hj : (dumHyps X i).length ≤ j
    · rw [if_pos hj] at h; cases h
    · rw [if_neg hj] at h
      rw [List.length_map] at hj
      have hj' : j < (X.E.stmt i).reqHyp.length := by omega
      obtain ⟨g1, g2⟩ := hτ _ (List.getElem_mem hj')
      rw [getD_hyps i j hj', g1, Out.bind_val, if_neg (by simp)] at h
      obtain ⟨r, r1, r2⟩ := bind_inv h
      by_cases hr : r.1 = []
      · rw [if_pos hr] at r2
        obtain rfl := (Out.val.inj r2).symm
        refine ⟨rfl, fun q hq => ?_, fun _ hn => by cases hn⟩
        obtain rfl := Option.some.inj hq
        simp
      · rw [if_neg hr] at r2
        obtain ⟨a1, a2, a3⟩ := hypLoop_sound hrec hτ js (k + 1) (ps.set j r.1) r.2 o r2
        refine ⟨by rw [a1, List.length_set], fun q hq => by have := a2 q hq; simp; omega, fun hp hn l hl hg => ?_⟩
        refine a3 (by rw [List.length_set]; exact hp) hn l hl ?_
        by_cases hlj : l = j
        · subst hlj
          refine Or.inr ?_
          rw [List.getD_eq_getElem _ _ (by rw [List.length_set]; omega), List.getElem_set_self]
          exact hrec _ _ _ g2 r1 hr
        · rcases hg with hg | hg
          · exact Or.inl ((List.mem_cons.mp hg).resolve_left hlj)
          · refine Or.inr ?_
            rw [List.getD_eq_getElem?_getD, List.getElem?_set_ne (fun e => hlj e.symm), ← List.getD_eq_getElem?_getD]
            exact hg

theorem forall₂_hyps {i : Nat} {τ : Nat → List Nat} {ps : List (List Int)} (hp : ps.length = (X.E.stmt i).reqHyp.length)
    (h : ∀ j (hj : j < (X.E.stmt i).reqHyp.length), Good X dv (subst X.E.isVar τ (X.E.stmt (X.E.stmt i).reqHyp[j]).math) (ps.getD j [])) :
    List.Forall₂ (fun h p => Good X dv (subst X.E.isVar τ h) p) (Veri.hypsOf X.E.toDb i) ps := by
  rw [List.forall₂_iff_get]
  refine ⟨by unfold Veri.hypsOf; rw [List.length_map, hp], fun j h1 h2 => ?_⟩
  have hj : j < (X.E.stmt i).reqHyp.length := by omega
  have := h j hj
  rw [List.getD_eq_getElem _ _ h2] at this
  simpa [Veri.hypsOf] using this

theorem unifLoop_sound (R : Ready X) {n : Nat} {rec : List Nat → Sst → Out (List Int × Sst)} (hrec : RecSound X dv rec) {i : Nat} (hi : 1 ≤ i ∧ i < X.prove)
    (hk : (X.E.stmt i).kind = .a ∨ (X.E.stmt i).kind = .p) (hd : X.noDist = true → (X.E.stmt i).reqDisj = [])
    (hin : ∀ v ∈ (X.E.stmt i).reqVars, v ∈ (X.E.stmt i).math) {m : List Nat} (hm : Str X.E m) :
    ∀ (k : Nat) (r : ResH) (ord : List Nat) (ps : List (List Int)) (s : Sst) (o : Option (List Int) × Sst),
      unifLoop X n rec i (dum X i (X.E.stmt i).math) m (dumHyps X i) k r ord ps s = .val o →
      (∀ v, r = .found v → ∃ l, HCalls X.on X.C (dum X i (X.E.stmt i).math) m l v) → ord.Perm (List.range (X.E.stmt i).reqHyp.length) →
      ps.length = (X.E.stmt i).reqHyp.length → ∀ p, o.1 = some p → p ≠ [] → Good X dv m p
  | 0, _, _, _, _, _, h, _, _, _ => by cases h
  | _ + 1, .none, _, _, _, o, h, _, _, _ => by obtain rfl := (Out.val.inj h).symm; nofun
  | _ + 1, .timeout, _, _, _, o, h, _, _, _ => by obtain rfl := (Out.val.inj h).symm; nofun
  | k + 1, .found v, ord, ps, s, o, h, hv, hord, hps => by
    obtain ⟨l, hc⟩ := hv v rfl
    have hP := proper R hk hm
    have hcalls : Calls X.C (dum X i (X.E.stmt i).math) m (fun _ => True) v.sv := by
      refine MM.Unif.C56_answers hP hc v.sv ?_
      cases hc <;> simp
    obtain ⟨τ, t1, t2⟩ := answer R hk hin hm hcalls
    rw [unifLoop] at h
    obtain ⟨q, q1, q2⟩ := bind_inv h
    obtain ⟨a1, a2, a3⟩ := hypLoop_sound hrec t2 ord 0 ps s q q1
    by_cases hq : q.1 = none
    · rw [if_pos hq] at q2
      by_cases c1 : X.disc i = true ∧ X.override = 0
      · rw [if_pos c1] at q2; cases q2
      · rw [if_neg c1] at q2
        by_cases c2 : X.disc i = true ∧ 2 < X.override
        · rw [if_pos c2] at q2; cases q2
        · rw [if_neg c2] at q2
          obtain rfl := (Out.val.inj q2).symm
          intro p hp _
          obtain rfl := Option.some.inj hp
          rw [← t1]
          refine good_use hi (by have := R.last; omega) hk hd (forall₂_hyps (by rw [a1, hps]) fun j hj => ?_)
          exact a3 hps hq j hj (Or.inl (hord.mem_iff.mpr (List.mem_range.mpr hj)))
    · rw [if_neg hq] at q2
      by_cases c1 : X.limit < q.2.2.trials
      · rw [if_pos c1] at q2
        obtain rfl := (Out.val.inj q2).symm
        intro p hp hne
        exact absurd (Option.some.inj hp).symm hne
      · rw [if_neg c1] at q2
        obtain ⟨r, r1, r2⟩ := bind_inv q2
        obtain ⟨j, hj⟩ := Option.ne_none_iff_exists'.mp hq
        have hj2 := a2 j hj
        rw [hj] at r2
        refine unifLoop_sound R hrec hi hk hd hin hm k r _ _ _ o r2 ?_ ?_ (by rw [a1, hps])
        · intro w hw
          subst hw
          exact ⟨_, .next (t := v.sv.trials) hc r1⟩
        · exact (toFront_perm (by simpa using hj2)).trans hord

theorem quick_kind {E : Env} {i : Nat} {m : List Nat} (h : quick E i m = .val true) : (E.stmt i).kind = .a ∨ (E.stmt i).kind = .p := by
  unfold quick at h
  by_cases hk : (E.stmt i).kind ≠ .p ∧ (E.stmt i).kind ≠ .a
  · rw [if_pos hk] at h; cases h
  · by_cases h1 : (E.stmt i).kind = .a
    · exact Or.inl h1
    · exact Or.inr (Decidable.not_not.mp fun h2 => hk ⟨h2, h1⟩)

theorem dummyHyps_val {E : Env} {d : Nat} {vars : List Nat} : ∀ {l : List Nat}, (∀ h ∈ l, ∀ t ∈ (E.stmt h).math, E.isVar t = true → t ∈ vars) →
    dummyHyps E d vars l = .val (l.map fun h => (E.stmt h).math.map (ren E d vars))
  | [], _ => rfl
  | h :: l, hh => by
    rw [dummyHyps, toDummies_val (hh h (by simp)), Out.bind_val, dummyHyps_val fun a ha => hh a (List.mem_cons_of_mem _ ha)]
    rfl

/-- The statements that are tried. -/
theorem allIn (R : Ready X) {depth i : Nat} (hk : (X.E.stmt i).kind = .a ∨ (X.E.stmt i).kind = .p) (h : ¬ eSkip X depth i = true) :
    ∀ v ∈ (X.E.stmt i).reqVars, v ∈ (X.E.stmt i).math := by
  intro v hv
  apply Classical.byContradiction
  intro hn
  apply h
  unfold eSkip
  rw [Bool.and_eq_true, Bool.or_eq_true]
  refine ⟨?_, Or.inr (List.any_eq_true.mpr ⟨v, hv, by simpa using hn⟩)⟩
  apply Classical.byContradiction
  intro he
  refine hn (R.tight i hk (fun h hh hke => he (List.any_eq_true.mpr ⟨h, hh, by simpa using hke⟩)) v hv)

theorem tryStmt_sound (R : Ready X) {n : Nat} {rec : List Nat → Sst → Out (List Int × Sst)} (hrec : RecSound X dv rec) {depth i : Nat} (hi : 1 ≤ i ∧ i < X.prove)
    {m : List Nat} (hm : Str X.E m) {s : Sst} {o : Option (List Int) × Sst} (h : tryStmt X n rec depth i m s = .val o) : ∀ p, o.1 = some p → p ≠ [] → Good X dv m p := by
  unfold tryStmt at h
  obtain ⟨q, q1, h⟩ := bind_inv h
  by_cases hq : q = false
  · rw [if_pos hq] at h; obtain rfl := (Out.val.inj h).symm; nofun
  · rw [if_neg hq] at h
    have hqt : q = true := by simpa using hq
    subst hqt
    have hk := quick_kind q1
    by_cases c1 : X.override = 0 ∧ X.disc i = true
    · rw [if_pos c1] at h; obtain rfl := (Out.val.inj h).symm; nofun
    rw [if_neg c1] at h
    by_cases c2 : X.other i = true
    · rw [if_pos c2] at h; obtain rfl := (Out.val.inj h).symm; nofun
    rw [if_neg c2] at h
    by_cases c3 : X.noDist = true ∧ (X.E.stmt i).reqDisj ≠ []
    · rw [if_pos c3] at h; obtain rfl := (Out.val.inj h).symm; nofun
    rw [if_neg c3] at h
    by_cases c4 : eSkip X depth i = true
    · rw [if_pos c4] at h; obtain rfl := (Out.val.inj h).symm; nofun
    rw [if_neg c4, toDummies_val (R.env.ass i hk).mathVars, Out.bind_val, dummyHyps_val fun h hh => (str_hyp R hk hh).2.1, Out.bind_val] at h
    obtain ⟨r, r1, h⟩ := bind_inv h
    refine unifLoop_sound R hrec hi hk (fun e => Decidable.not_not.mp fun hne => c3 ⟨e, hne⟩) (allIn R hk c4) hm n r _ _ s o h ?_ ?_ (by simp)
    · intro v hv; subst hv; exact ⟨_, .first r1⟩
    · rw [List.length_map]

theorem stmtLoop_sound (R : Ready X) {n : Nat} {rec : List Nat → Sst → Out (List Int × Sst)} (hrec : RecSound X dv rec) {depth : Nat} {m : List Nat} (hm : Str X.E m) :
    ∀ (i : Nat) (s : Sst) (o : List Int × Sst), i < X.prove ∨ i = 0 → stmtLoop X n rec depth m i s = .val o → o.1 ≠ [] → Good X dv m o.1
  | 0, s, o, _, h, hne => by obtain rfl := (Out.val.inj h).symm; exact absurd rfl hne
  | i + 1, s, o, hi, h, hne => by
    unfold stmtLoop at h
    obtain ⟨r, r1, h⟩ := bind_inv h
    by_cases hr : r.1 = none
    · rw [if_pos hr] at h
      exact stmtLoop_sound R hrec hm i r.2 o (by omega) h hne
    · rw [if_neg hr] at h
      obtain rfl := (Out.val.inj h).symm
      obtain ⟨p, hp⟩ := Option.ne_none_iff_exists'.mp hr
      have e : r.1.getD [] = p := by rw [hp]; rfl
      change r.1.getD [] ≠ [] at hne
      change Good X dv m (r.1.getD [])
      rw [e] at hne ⊢
      exact tryStmt_sound R hrec (by omega) hm r1 p hp hne

theorem hypMatch_good (R : Ready X) {m : List Nat} {h : Nat} (hh : hypMatch X m = some h) : Good X dv m [(h : Int)] := by
  have hmem := List.mem_of_find?_eq_some hh
  have hmath := List.find?_some hh
  simp only [decide_eq_true_eq] at hmath
  obtain ⟨h1, h2, h3⟩ := R.hyps h hmem
  have hdec : decode X.E.toDb (h : Int) = some (.hyp (X.E.stmt h).math) := by
    unfold decode
    rw [if_neg (by omega), if_neg (by omega)]
    rcases h3 with h3 | h3 <;> simp [h3]
  refine ⟨?_, ?_, [.hyp (X.E.stmt h).math], by simp [hdec], ?_⟩
  · intro x hx
    obtain rfl := List.mem_singleton.mp hx
    refine ⟨Or.inr ⟨by omega, by omega, Or.inl ⟨by simpa using hmem, by simpa using h3⟩⟩, ?_⟩
    unfold unk; omega
  · intro _ _ x hx
    obtain rfl := List.mem_singleton.mp hx
    intro hk
    rcases h3 with h3 | h3 <;> simp [h3] at hk
  · intro s h' st hr
    exact ⟨_, by rw [← hmath]; exact RPN.hyp _ hr⟩

theorem search_sound (R : Ready X) (hP : PipOk X) {n : Nat} : ∀ (k : Nat) (m : List Nat) (s : Sst) (r : List Int × Sst), Str X.E m → search X n k m s = .val r → r.1 ≠ [] → Good X dv m r.1
  | 0, m, s, r, _, h, hne => by
    unfold search at h
    by_cases c : X.limit < s.trials
    · rw [if_pos c] at h; obtain rfl := (Out.val.inj h).symm; exact absurd rfl hne
    · rw [if_neg c] at h; obtain rfl := (Out.val.inj h).symm; exact absurd rfl hne
  | k + 1, m, s, r, hm, h, hne => by
    unfold search at h
    by_cases c : X.limit < s.trials
    · rw [if_pos c] at h; obtain rfl := (Out.val.inj h).symm; exact absurd rfl hne
    rw [if_neg c] at h
    by_cases c : s.deep = true
    · rw [if_pos c] at h; obtain rfl := (Out.val.inj h).symm; exact absurd rfl hne
    rw [if_neg c] at h
    by_cases c : (hypMatch X m).isSome = true
    · rw [if_pos c] at h
      obtain ⟨j, hj⟩ := Option.isSome_iff_exists.mp c
      obtain rfl := (Out.val.inj h).symm
      rw [hj]
      exact hypMatch_good R hj
    rw [if_neg c] at h
    obtain ⟨o, o1, h⟩ := bind_inv h
    by_cases c : o.isSome = true
    · rw [if_pos c] at h
      obtain ⟨q, rfl⟩ := Option.isSome_iff_exists.mp c
      obtain rfl := (Out.val.inj h).symm
      exact scan_good R hP o1
    rw [if_neg c] at h
    refine stmtLoop_sound R (fun m' s' r' hm' h' hne' => search_sound R hP k m' _ r' hm' h' hne') hm _ s r ?_ h hne
    omega

end MM.Impr
