import Verif.Repl.Ends2
/-!
# MINIMIZE_WITH ends
-/
namespace MM.Repl
open MM.Veri MM.Proof MM.Data MM.Tree MM.Pfas MM.Impr MM.Spec
open MM.Pfas.AF MM.Pfas.Cx
open MM.Unif (Cfg SV SVH ResH makeSubst unifyH unifyHNext HCalls Calls bind_inv NextT hcalls_acc Proper)

variable {X : Impr.Ctx} {R : Range} {i : Nat} {U : Unifier}

theorem succ_of {f N : Nat} (h : N + 1 ≤ f) : ∃ k, f = k + 1 ∧ N ≤ k := ⟨f - 1, by omega, by omega⟩

theorem hyp_strs (hR : Ready X) (hk : (X.E.stmt i).kind = .a ∨ (X.E.stmt i).kind = .p) {j : Nat} (hj : j < (X.E.stmt i).reqHyp.length) :
    (dumHyps X i).getD j [] ≠ [] ∧ X.E.sep ∉ (dumHyps X i).getD j [] := by
  have e := getD_hyps (X := X) i j hj
  obtain ⟨g1, g2, k, l, g3, _⟩ := str_hyp hR hk (List.getElem_mem hj)
  unfold dumHyps
  rw [e]
  refine ⟨?_, ren_sep g1⟩
  unfold dum
  rw [g3]; simp

theorem mainLoop_ends (hR : Rdy X) (hP : PipOk X) (hT : Try X R) (hk : (X.E.stmt i).kind = .a ∨ (X.E.stmt i).kind = .p) {m : List Nat} (hm : Str X.E m) {ord : List Nat} {nE : Nat}
    (hord : ord.Perm (List.range (X.E.stmt i).reqHyp.length)) (hlen : nE ≤ ord.length) (kE : ∀ p < nE, (X.E.stmt ((X.E.stmt i).reqHyp.getD (ord.getD p 0) 0)).kind = .e)
    (kF : ∀ p, nE ≤ p → p < ord.length → (X.E.stmt ((X.E.stmt i).reqHyp.getD (ord.getD p 0) 0)).kind = .f) {v : SVH}
    (hacc : Acc (NextT X.on X.C (dum X i (X.E.stmt i).math) m) v) : (∃ l, HCalls X.on X.C (dum X i (X.E.stmt i).math) m l v) → ∀ (cnt : Nat → Nat) (σ : Nat → Slot),
    Fresh σ (X.E.stmt i).reqHyp.length → ∃ N o, ∀ n f, N ≤ n → N ≤ f → mainLoop X n R i (dum X i (X.E.stmt i).math) m ord nE (dumHyps X i) f cnt (.found v) σ = .val o := by
  induction hacc with
  | intro v _ ih =>
    rintro ⟨l, hc⟩ cnt σ hf
    have hprop := proper hR.ready hk hm
    have hnd : ord.Nodup := hord.nodup_iff.mpr List.nodup_range
    have hlt : ∀ p < ord.length, ord.getD p 0 < (X.E.stmt i).reqHyp.length := by
      intro p hp
      rw [List.getD_eq_getElem _ _ hp]
      exact List.mem_range.mp (hord.mem_iff.mp (List.getElem_mem hp))
    have hpos : ∀ j < (X.E.stmt i).reqHyp.length, ∃ p < ord.length, ord.getD p 0 = j := by
      intro j hj
      obtain ⟨p, hp⟩ := List.getElem?_of_mem (hord.mem_iff.mpr (List.mem_range.mpr hj))
      obtain ⟨hp1, hp2⟩ := List.getElem?_eq_some_iff.mp hp
      exact ⟨p, hp1, by rw [List.getD_eq_getElem _ _ hp1]; exact hp2⟩
    have S : Sit X R i v.sv ord nE (dumHyps X i) (dum X i (X.E.stmt i).math) m :=
      ⟨hR, hP, hT, hnd, hlen, fun j hj => hyp_strs hR.ready hk (hlt j hj), kE, kF, hprop, calls_of hprop hc⟩
    obtain ⟨N, o, h1, h2⟩ := hypsLoop_ends S (σ := σ) fun p hp => hf _ (hlt p hp)
    by_cases c : o.1 = true
    · rw [if_pos c] at h2
      refine ⟨N + 1, ((List.range (dumHyps X i).length).map fun j => (o.2 j).proof).flatten ++ [(i : Int)], fun n f hn hf => ?_⟩
      obtain ⟨f, rfl, _⟩ := succ_of hf
      rw [mainLoop, h1 n (by omega), Out.bind_val, if_pos c, if_neg]
      intro h
      obtain ⟨x, hx, hx2⟩ := List.any_eq_true.mp h
      obtain ⟨j, hj, rfl⟩ := List.mem_map.mp hx
      have hj := List.mem_range.mp hj
      obtain ⟨p, hp, e⟩ := hpos j (by simpa using hj)
      have := h2 p hp
      rw [e] at this
      exact this (List.isEmpty_iff.mp hx2)
    · rw [if_neg c] at h2
      have hfr : Fresh o.2 (X.E.stmt i).reqHyp.length := by
        intro j hj
        obtain ⟨p, hp, e⟩ := hpos j hj
        rw [← e]; exact h2 p hp
      obtain ⟨M, r, hM⟩ := MM.Unif.C56_next_ends hprop hc (cnt 0)
      have e : ∀ n f, N ≤ n → M ≤ n → mainLoop X n R i (dum X i (X.E.stmt i).math) m ord nE (dumHyps X i) (f + 1) cnt (.found v) σ =
          mainLoop X n R i (dum X i (X.E.stmt i).math) m ord nE (dumHyps X i) f (fun k => cnt (k + 1)) r o.2 := by
        intro n f hn hn2
        rw [mainLoop, h1 n hn, Out.bind_val, if_neg c, hM n n hn2 hn2, Out.bind_val]
      have key : ∃ N' o', ∀ n f, N' ≤ n → N' ≤ f → mainLoop X n R i (dum X i (X.E.stmt i).math) m ord nE (dumHyps X i) f (fun k => cnt (k + 1)) r o.2 = .val o' := by
        cases r with
        | none => exact ⟨1, [], fun n f _ hf => by obtain ⟨f, rfl, _⟩ := succ_of hf; rfl⟩
        | timeout => exact ⟨1, [], fun n f _ hf => by obtain ⟨f, rfl, _⟩ := succ_of hf; rfl⟩
        | found w => exact ih w ⟨cnt 0, M, M, hM M M (Nat.le_refl _) (Nat.le_refl _)⟩ ⟨_, .next hc (hM M M (Nat.le_refl _) (Nat.le_refl _))⟩ _ _ hfr
      obtain ⟨N', o', h3⟩ := key
      refine ⟨max (max N M) (N' + 1), o', fun n f hn hf => ?_⟩
      obtain ⟨f, rfl, _⟩ := succ_of (N := N') (f := f) (by omega)
      rw [e n f (by omega) (by omega)]
      exact h3 n f (by omega) (by omega)

theorem replace_ends (hR : Rdy X) (hP : PipOk X) (hT : Try X R) (hk : (X.E.stmt i).kind = .a ∨ (X.E.stmt i).kind = .p) (ho : ¬ (X.override = 0 ∧ X.disc i = true)) (cnt : Nat → Nat)
    {step : Nat} {m : List Nat} (ht : getF X.pip.target step = .val m) (hm : Str X.E m) : ∃ N q, ∀ n, N ≤ n → replaceStatement X n R cnt i step = .val q := by
  obtain ⟨p1, p2⟩ := prepared hR.ready hk
  have hl : (dumHyps X i).length = (X.E.stmt i).reqHyp.length := by simp
  have hs := sortMap_spec (fun j => decide ((X.E.stmt ((X.E.stmt i).reqHyp.getD j 0)).kind = .e)) (fun j => ((dumHyps X i).getD j []).length) (dumHyps X i).length
  obtain ⟨N, r, hN⟩ := MM.Unif.C56_first_ends (proper hR.ready hk hm) X.on 1
  have e : ∀ n, N ≤ n → replaceStatement X n R cnt i step = mainLoop X n R i (dum X i (X.E.stmt i).math) m
      (sortMap (fun j => decide ((X.E.stmt ((X.E.stmt i).reqHyp.getD j 0)).kind = .e)) (fun j => ((dumHyps X i).getD j []).length) (dumHyps X i).length).1
      (sortMap (fun j => decide ((X.E.stmt ((X.E.stmt i).reqHyp.getD j 0)).kind = .e)) (fun j => ((dumHyps X i).getD j []).length) (dumHyps X i).length).2
      (dumHyps X i) n cnt r fun _ => ⟨1, none, 0, []⟩ := by
    intro n hn
    unfold replaceStatement
    rw [if_neg ho, ht, Out.bind_val, if_neg (by rintro ⟨h1, h2⟩; rcases hk with h | h; exact h1 h; exact h2 h), p1, Out.bind_val, p2, Out.bind_val, hN n hn, Out.bind_val]
  have key : ∃ N' o', ∀ n f, N' ≤ n → N' ≤ f → mainLoop X n R i (dum X i (X.E.stmt i).math) m
      (sortMap (fun j => decide ((X.E.stmt ((X.E.stmt i).reqHyp.getD j 0)).kind = .e)) (fun j => ((dumHyps X i).getD j []).length) (dumHyps X i).length).1
      (sortMap (fun j => decide ((X.E.stmt ((X.E.stmt i).reqHyp.getD j 0)).kind = .e)) (fun j => ((dumHyps X i).getD j []).length) (dumHyps X i).length).2
      (dumHyps X i) f cnt r (fun _ => ⟨1, none, 0, []⟩) = .val o' := by
    cases r with
    | none => exact ⟨1, [], fun n f _ hf => by obtain ⟨f, rfl, _⟩ := succ_of hf; rfl⟩
    | timeout => exact ⟨1, [], fun n f _ hf => by obtain ⟨f, rfl, _⟩ := succ_of hf; rfl⟩
    | found w =>
      rw [hl] at hs
      have hc := HCalls.first (hN N (Nat.le_refl _))
      rw [hl]
      refine mainLoop_ends hR hP hT hk hm hs.1 hs.2.1 ?_ (kinds_split hR.ready hk hs.1 hs.2) (hcalls_acc (proper hR.ready hk hm) hc) ⟨_, hc⟩ cnt _ fun j _ => rfl
      intro p hp
      exact of_decide_eq_true (hs.2.2.1 p hp)
  obtain ⟨N', o', h⟩ := key
  exact ⟨max N N', o', fun n hn => by rw [e n (by omega)]; exact h n n (by omega) (by omega)⟩

/-! ### One step of MINIMIZE_WITH -/

/-- The strings of the proof in progress are as the program expects them. -/
structure Strs (X : Impr.Ctx) : Prop where
  full : ∀ m ∈ X.pip.target, m ≠ []
  user : ∀ m ∈ X.pip.user, X.E.sep ∉ m

theorem full_forest {E : Env} (G : GoodEnv E) : ∀ {f : AF}, All (NodeOk E) f → (∀ t ∈ f.tgts, t ≠ []) → ∀ x ∈ f.flat, x.tgt ≠ []
  | .nil, _, _, x, hx => by cases hx
  | .snoc l nd ch, hA, ht, x, hx => by
    obtain ⟨h1, h2, h3⟩ := hA
    have hl := full_forest G h1 fun t h => ht t (by simp [AF.tgts, h])
    have hc := full_forest G h2 (by
      intro t h
      obtain ⟨⟨_, ha, _⟩, _, _, h6⟩ := h3
      have hpos := List.length_pos_of_mem h
      rw [← ha] at hpos
      unfold arity at hpos
      by_cases c : 1 ≤ nd.stmt ∧ ((E.stmt nd.stmt.toNat).kind = .a ∨ (E.stmt nd.stmt.toNat).kind = .p)
      · obtain ⟨σ, _, hs⟩ := h6 (by omega) c.2
        rw [hs] at h
        obtain ⟨j, hj, rfl⟩ := List.mem_map.mp h
        obtain ⟨k, m, e, hv⟩ := G.hypHead j (G.hypKind _ c.2 j hj)
        rw [e]
        unfold subst
        rw [List.flatMap_cons, if_neg (by simp [hv])]
        simp
      · rw [if_neg c] at hpos; omega)
    rw [AF.flat] at hx
    simp only [List.mem_append, List.mem_singleton] at hx
    rcases hx with (hx | hx) | rfl
    · exact hl x hx
    · exact hc x hx
    · exact ht _ (by simp [AF.tgts])

theorem unifies_ends (hR : Rdy X) {A B : List Nat} (hA : A ≠ [] ∧ X.E.sep ∉ A) (hB : B ≠ [] ∧ X.E.sep ∉ B) : ∃ N r, ∀ n, N ≤ n → unifyH X.on n X.C 1 A B = .val r :=
  MM.Unif.C56_first_ends (hR.fits.proper hA.1 hB.1 hA.2 hB.2) X.on 1

theorem stmtMatch_ends (hR : Rdy X) (hS : Strs X) (hk : (X.E.stmt i).kind = .a ∨ (X.E.stmt i).kind = .p) {step : Nat} {m u : List Nat} (ht : getF X.pip.target step = .val m) (hm : m ∈ X.pip.target)
    (hu : getF X.pip.user step = .val u) (hum : u ∈ X.pip.user) : ∃ N b, ∀ n, N ≤ n → stmtMatch X n i step = .val b := by
  obtain ⟨p1, _⟩ := prepared hR.ready hk
  obtain ⟨k0, l0, ec, _⟩ := (hR.ready.env.ass i hk).concl
  have ec : (X.E.stmt i).math = k0 :: l0 := ec
  have hA : dum X i (X.E.stmt i).math ≠ [] ∧ X.E.sep ∉ dum X i (X.E.stmt i).math := ⟨by unfold dum; rw [ec]; simp, ren_sep (str_math hR.ready hk)⟩
  obtain ⟨N, r, hN⟩ := unifies_ends hR ⟨hS.full m hm, hR.ns m hm⟩ hA
  have hc : ¬ (m = [] ∨ (X.E.stmt i).math = []) := by
    rintro (h | h)
    · exact hS.full m hm h
    · rw [ec] at h; cases h
  have last : ∃ N b, ∀ n, N ≤ n → (toDummies X.E X.d (X.E.stmt i).reqVars (X.E.stmt i).math >>= fun A => unifyH X.on n X.C 1 m A >>= fun r =>
      if u = [] then .val (unifies r) else unifyH X.on n X.C 1 u A >>= fun q => .val (unifies r && unifies q)) = .val b := by
    rw [p1]
    by_cases c : u = []
    · exact ⟨N, unifies r, fun n hn => by rw [Out.bind_val, hN n hn, Out.bind_val, if_pos c]⟩
    · obtain ⟨N', q, hN'⟩ := unifies_ends hR ⟨c, hS.user u hum⟩ hA
      exact ⟨max N N', unifies r && unifies q, fun n hn => by rw [Out.bind_val, hN n (by omega), Out.bind_val, if_neg c, hN' n (by omega), Out.bind_val]⟩
  unfold stmtMatch
  simp only [ht, hu, Out.bind_val, if_neg hc]
  split
  · exact ⟨0, _, fun _ _ => rfl⟩
  · split
    · exact ⟨0, _, fun _ _ => rfl⟩
    · split
      · exact ⟨0, _, fun _ _ => rfl⟩
      · exact last

theorem miniFind_ends (hR : Rdy X) (hP : PipOk X) (hS : Strs X) (hk : (X.E.stmt i).kind = .a ∨ (X.E.stmt i).kind = .p) (ho : ¬ (X.override = 0 ∧ X.disc i = true))
    (cnt : Pip → Nat → Nat → Nat) (grow : Bool) {step : Nat} (hst : step < X.pip.proof.length) : ∃ N q, ∀ n, N ≤ n → miniFind X n cnt grow i step = .val q := by
  obtain ⟨f, hr, hA, hP'⟩ := hP
  obtain ⟨c, x, ch, rfl, e⟩ := locate f (i := step) (by rw [hr.proof] at hst; simpa using hst)
  have hP : PipOk X := ⟨_, hr, hA, hP'⟩
  have ht : getF X.pip.target step = .val x.tgt := by rw [e]; exact target_at hr
  have hm : x.tgt ∈ X.pip.target := by rw [hr.target, flat_plug]; simp
  have hu : getF X.pip.user step = .val x.usr := by
    rw [hr.at.2.2.2]
    exact getF_at' (by simp; exact_mod_cast e)
  have hum : x.usr ∈ X.pip.user := by rw [hr.user, flat_plug]; simp
  obtain ⟨len, l1, _⟩ := seg_at hr (hA.mono fun _ _ => NodeOk.shape)
  rw [← e] at l1
  by_cases c1 : (x.tgt.any fun t => decide (X.E.sep < t)) = true
  · exact ⟨0, [], fun n _ => by unfold miniFind; rw [ht, Out.bind_val, if_pos c1]⟩
  have hstr : Str X.E x.tgt := by
    refine ⟨hS.full _ hm, fun t h => ?_⟩
    have h1 : ¬ X.E.sep < t := fun hlt => c1 (List.any_eq_true.mpr ⟨t, h, by simpa using hlt⟩)
    have h2 : t ≠ X.E.sep := fun e => hR.ns _ hm (e ▸ h)
    omega
  obtain ⟨N, b, hN⟩ := stmtMatch_ends hR hS hk ht hm hu hum
  by_cases c2 : b = false
  · exact ⟨N, [], fun n hn => by unfold miniFind; rw [ht, Out.bind_val, if_neg c1, hN n hn, Out.bind_val, if_pos c2]⟩
  by_cases c3 : X.pip.proof.getD step 0 = (i : Int) ∧ grow = true
  · exact ⟨N, [], fun n hn => by unfold miniFind; rw [ht, Out.bind_val, if_neg c1, hN n hn, Out.bind_val, if_neg c2, if_pos c3]⟩
  have hT : Try X ⟨((step : Int) - len + 1).toNat, step, fun _ => true⟩ := try_of hR.ready hP hS.full (by show step ≤ _; omega)
  obtain ⟨N', q, hN'⟩ := replace_ends hR hP hT hk ho (cnt X.pip step) ht hstr
  refine ⟨max N N', if unk ∈ q then [] else q, fun n hn => ?_⟩
  unfold miniFind subRange
  rw [ht, Out.bind_val, if_neg c1, hN n (by omega), Out.bind_val, if_neg c2, if_neg c3, l1, Out.bind_val, Out.bind_val, hN' n (by omega), Out.bind_val]
  by_cases c4 : unk ∈ q
  · rw [if_pos c4, if_pos c4]
  · rw [if_neg c4, if_neg c4]

end MM.Repl
