import Verif.Impr.Loop
/-!
# The search of IMPROVE ends
-/
namespace MM.Unif

variable {C : Cfg} {A B : List Nat} {on : Bool}

/-- `w` is the answer of a further call after `v`. -/
def NextOf (on : Bool) (C : Cfg) (A B : List Nat) (w v : SVH) : Prop := ∃ m n, unifyHNext on m n C A B v = .val (.found w)

theorem tree_acc (hP : Proper C A B) {x : Lbl × St} (h : Tree C A B (Ans C A B) Over x) : ∀ (f : List HEnt) (m n k : Nat) (w : SVH),
    ((run C (unkVars C A B).length k x >>= fun r => Out.val (result r)) >>= cont on m n C A B f) = .val (.found w) → Acc (NextOf on C A B) w := by
  induction h with
  | @leaf x h =>
    intro f m n k w hw
    obtain ⟨l, s⟩ := x
    have hl : l = .done ∨ l = .abort ∨ l = .timeout := by rcases h with h | h; exact Or.inr (Or.inr h); exact Or.inr (Or.inl h)
    cases k with
    | zero => cases hw
    | succ k =>
      rw [run_end hl, Out.bind_val] at hw
      rcases h with h | h
      · dsimp only at h; subst h; cases hw
      · dsimp only at h; subst h; cases hw
  | step h _ ih =>
    intro f m n k w hw
    cases k with
    | zero => cases hw
    | succ k => rw [run_goes h] at hw; exact ih f m n k w hw
  | @done s h hall ih =>
    intro f m n k w hw
    cases k with
    | zero => cases hw
    | succ k =>
      have e0 : (run C (unkVars C A B).length (k + 1) (.done, s) >>= fun r => Out.val (result r)) = .val (.found (svOf s)) := by
        rw [run_end (Or.inl rfl), Out.bind_val]; rfl
      rw [e0, Out.bind_val] at hw
      have next : ∀ (g : List HEnt) (m' n' : Nat) (w' : SVH), unifyHNext on m' n' C A B ⟨svOf s, g⟩ = .val (.found w') → Acc (NextOf on C A B) w' := by
        intro g m' n' w' hw'
        cases m' with
        | zero => cases hw'
        | succ m' =>
          rw [next_cont] at hw'
          have := unifyNext_eq hP n' s.trials s
          rw [show (⟨svOf s, g⟩ : SVH).sv = { svOf s with trials := s.trials } from rfl, this] at hw'
          by_cases he : early C A B = true
          · rw [if_pos he] at hw'; cases hw'
          · rw [if_neg he] at hw'
            exact ih s.trials g m' n' n' w' hw'
      have acc : ∀ g, Acc (NextOf on C A B) ⟨svOf s, g⟩ := fun g => ⟨_, fun w' ⟨m', n', hw'⟩ => next g m' n' w' hw'⟩
      unfold cont at hw
      dsimp only at hw
      cases on with
      | false => rw [if_neg (by simp)] at hw; cases hw; exact acc _
      | true =>
        rw [if_pos rfl] at hw
        obtain ⟨e, _, hw⟩ := bind_inv hw
        by_cases hf : e ∈ f
        · rw [if_pos hf] at hw; exact next f m n w hw
        · rw [if_neg hf] at hw; cases hw; exact acc _

/-- The series of further calls ends. -/
theorem first_acc (hP : Proper C A B) {n t : Nat} {v : SVH} (h : unifyH on n C t A B = .val (.found v)) : Acc (NextOf on C A B) v := by
  have hc := C56_answers hP (HCalls.first h) v.sv (by simp)
  obtain ⟨s, hs, ha⟩ := calls_at hP hc
  refine ⟨_, fun w ⟨m, n, hw⟩ => ?_⟩
  cases m with
  | zero => cases hw
  | succ m =>
    rw [next_cont, hs] at hw
    have := unifyNext_eq hP n s.trials s
    rw [show svOf s = { svOf s with trials := s.trials } from rfl, this] at hw
    by_cases he : early C A B = true
    · rw [if_pos he] at hw; cases hw
    · rw [if_neg he] at hw
      exact tree_acc hP (ha.2 s.trials) v.filter m n n w hw

end MM.Unif

namespace MM.Impr
open MM.Veri MM.Proof MM.Data MM.Tree MM.Pfas MM.Spec
open MM.Unif (Cfg SV SVH ResH makeSubst unifyH unifyHNext HCalls Proper Calls bind_inv NextOf first_acc)

variable {X : Ctx}

/-- The recursive calls end. -/
def RecEnds (X : Ctx) (rec : Nat → List Nat → Sst → Out (List Int × Sst)) : Prop := ∀ m s, Str X.E m → ∃ N r, ∀ n, N ≤ n → rec n m s = .val r

theorem hypLoop_ends {rec : Nat → List Nat → Sst → Out (List Int × Sst)} (hrec : RecEnds X rec) {i : Nat} {v : SV} {τ : Nat → List Nat}
    (hτ : ∀ h ∈ (X.E.stmt i).reqHyp, makeSubst X.C v (dum X i (X.E.stmt h).math) = .val (subst X.E.isVar τ (X.E.stmt h).math, false) ∧
      Str X.E (subst X.E.isVar τ (X.E.stmt h).math)) :
    ∀ (ord : List Nat) (k : Nat) (ps : List (List Int)) (s : Sst), (∀ j ∈ ord, j < (X.E.stmt i).reqHyp.length) →
      ∃ N o, (∀ n, N ≤ n → hypLoop (rec n) X.C v (dumHyps X i) ord k ps s = .val o) ∧ ∀ q, o.1 = some q → q < k + ord.length
  | [], k, ps, s, _ => ⟨0, _, fun _ _ => rfl, nofun⟩
  | j :: js, k, ps, s, h => by
    have hj := h j (by simp)
    obtain ⟨g1, g2⟩ := hτ _ (List.getElem_mem hj)
    obtain ⟨N, r, hN⟩ := hrec _ s g2
    have e : ∀ n, N ≤ n → hypLoop (rec n) X.C v (dumHyps X i) (j :: js) k ps s =
        if r.1 = [] then .val (some k, ps, r.2) else hypLoop (rec n) X.C v (dumHyps X i) js (k + 1) (ps.set j r.1) r.2 := by
      intro n hn
      conv_lhs => unfold hypLoop
      rw [if_neg (by rw [List.length_map]; omega), getD_hyps i j hj, g1, Out.bind_val, if_neg (by simp), hN n hn, Out.bind_val]
    by_cases hr : r.1 = []
    · refine ⟨N, _, fun n hn => by rw [e n hn, if_pos hr], fun q hq => ?_⟩
      obtain rfl := Option.some.inj hq
      simp
    · obtain ⟨N', o, h1, h2⟩ := hypLoop_ends hrec hτ js (k + 1) (ps.set j r.1) r.2 fun j hj => h j (List.mem_cons_of_mem _ hj)
      refine ⟨max N N', o, fun n hn => by rw [e n (by omega), if_neg hr]; exact h1 n (by omega), fun q hq => ?_⟩
      have := h2 q hq
      simp
      omega

theorem unifLoop_ends (R : Ready X) {rec : Nat → List Nat → Sst → Out (List Int × Sst)} (hrec : RecEnds X rec) {i : Nat}
    (hk : (X.E.stmt i).kind = .a ∨ (X.E.stmt i).kind = .p) (hin : ∀ v ∈ (X.E.stmt i).reqVars, v ∈ (X.E.stmt i).math)
    (hdisc : ¬ (X.override = 0 ∧ X.disc i = true)) {m : List Nat} (hm : Str X.E m) {v : SVH}
    (hacc : Acc (NextOf X.on X.C (dum X i (X.E.stmt i).math) m) v) : (∃ l, HCalls X.on X.C (dum X i (X.E.stmt i).math) m l v) →
    ∀ (ord : List Nat) (ps : List (List Int)) (s : Sst), ord.Perm (List.range (X.E.stmt i).reqHyp.length) →
      ∃ N o, ∀ n k, N ≤ n → N ≤ k → unifLoop X n (rec n) i (dum X i (X.E.stmt i).math) m (dumHyps X i) k (.found v) ord ps s = .val o := by
  induction hacc with
  | intro v _ ih =>
    rintro ⟨l, hc⟩ ord ps s hord
    have hP := proper R hk hm
    have hcalls : Calls X.C (dum X i (X.E.stmt i).math) m (fun _ => True) v.sv := by
      refine MM.Unif.C56_answers hP hc v.sv ?_
      cases hc <;> simp
    obtain ⟨τ, _, t2⟩ := answer R hk hin hm hcalls
    obtain ⟨N, o, h1, h2⟩ := hypLoop_ends hrec t2 ord 0 ps s fun j hj => List.mem_range.mp (hord.mem_iff.mp hj)
    obtain ⟨M, r, hM⟩ := MM.Unif.C56_next_ends hP hc v.sv.trials
    have hM' : ∀ n, M ≤ n → unifyHNext X.on n n X.C (dum X i (X.E.stmt i).math) m v = .val r := fun n hn => hM n n hn hn
    have e : ∀ n k, N ≤ n → M ≤ n → unifLoop X n (rec n) i (dum X i (X.E.stmt i).math) m (dumHyps X i) (k + 1) (.found v) ord ps s =
        if o.1 = none then .val (some (o.2.1.flatten ++ [(i : Int)]), o.2.2)
        else if X.limit < o.2.2.trials then .val (some [], o.2.2)
        else unifLoop X n (rec n) i (dum X i (X.E.stmt i).math) m (dumHyps X i) k r (toFront ord (o.1.getD 0)) o.2.1 o.2.2 := by
      intro n k hn hn2
      conv_lhs => rw [unifLoop]
      rw [h1 n hn, Out.bind_val]
      by_cases c : o.1 = none
      · have := R.over
        rw [if_pos c, if_pos c, if_neg fun h => hdisc ⟨h.2, h.1⟩, if_neg (by omega)]
      · rw [if_neg c, if_neg c, hM' n hn2, Out.bind_val]
    by_cases c : o.1 = none
    · refine ⟨max (max N M) 1, (some (o.2.1.flatten ++ [(i : Int)]), o.2.2), fun n k hn hk => ?_⟩
      obtain ⟨k, rfl⟩ := Nat.exists_eq_succ_of_ne_zero (show k ≠ 0 by omega)
      rw [Nat.succ_eq_add_one, e n k (by omega) (by omega), if_pos c]
    by_cases c2 : X.limit < o.2.2.trials
    · refine ⟨max (max N M) 1, (some [], o.2.2), fun n k hn hk => ?_⟩
      obtain ⟨k, rfl⟩ := Nat.exists_eq_succ_of_ne_zero (show k ≠ 0 by omega)
      rw [Nat.succ_eq_add_one, e n k (by omega) (by omega), if_neg c, if_pos c2]
    have key : ∃ N' o', ∀ n k, N' ≤ n → N' ≤ k → unifLoop X n (rec n) i (dum X i (X.E.stmt i).math) m (dumHyps X i) k r (toFront ord (o.1.getD 0)) o.2.1 o.2.2 = .val o' := by
      cases r with
      | none =>
        refine ⟨1, (none, o.2.2), fun n k hn hk => ?_⟩
        obtain ⟨k, rfl⟩ := Nat.exists_eq_succ_of_ne_zero (show k ≠ 0 by omega)
        rfl
      | timeout =>
        refine ⟨1, (none, o.2.2), fun n k hn hk => ?_⟩
        obtain ⟨k, rfl⟩ := Nat.exists_eq_succ_of_ne_zero (show k ≠ 0 by omega)
        rfl
      | found w =>
        refine ih w ⟨M, M, hM' M (Nat.le_refl _)⟩ ⟨_, .next (t := v.sv.trials) hc (hM' M (Nat.le_refl _))⟩ _ _ _ ?_
        obtain ⟨j, hj⟩ := Option.ne_none_iff_exists'.mp c
        have := h2 j hj
        rw [hj]
        exact (toFront_perm (by simpa using this)).trans hord
    obtain ⟨N', o', h3⟩ := key
    refine ⟨max (max N M) (N' + 1), o', fun n k hn hk => ?_⟩
    obtain ⟨k, rfl⟩ := Nat.exists_eq_succ_of_ne_zero (show k ≠ 0 by omega)
    rw [Nat.succ_eq_add_one, e n k (by omega) (by omega), if_neg c, if_neg c2]
    exact h3 n k (by omega) (by omega)

theorem quick_val (R : Ready X) {m : List Nat} (hm : Str X.E m) (i : Nat) : ∃ q, quick X.E i m = .val q := by
  unfold quick
  by_cases hk : (X.E.stmt i).kind ≠ .p ∧ (X.E.stmt i).kind ≠ .a
  · rw [if_pos hk]; exact ⟨_, rfl⟩
  · rw [if_neg hk]
    have hk' : (X.E.stmt i).kind = .a ∨ (X.E.stmt i).kind = .p := by
      by_cases h1 : (X.E.stmt i).kind = .a
      · exact Or.inl h1
      · exact Or.inr (Decidable.not_not.mp fun h2 => hk ⟨h2, h1⟩)
    have hne : (X.E.stmt i).math ≠ [] := by
      obtain ⟨k, l, e, _⟩ := (R.env.ass i hk').concl
      rw [show (X.E.stmt i).math = k :: l from e]; simp
    rw [if_neg (by rintro (h | h); exact hm.1 h; exact hne h)]
    by_cases h : endsDiffer X.E m (X.E.stmt i).math = true
    · rw [if_pos h]; exact ⟨_, rfl⟩
    · rw [if_neg h]; exact ⟨_, rfl⟩

theorem tryStmt_ends (R : Ready X) {rec : Nat → List Nat → Sst → Out (List Int × Sst)} (hrec : RecEnds X rec) (depth i : Nat) {m : List Nat} (hm : Str X.E m) (s : Sst) :
    ∃ N o, ∀ n, N ≤ n → tryStmt X n (rec n) depth i m s = .val o := by
  obtain ⟨q, q1⟩ := quick_val R hm i
  by_cases hq : q = false
  · exact ⟨0, _, fun n _ => by unfold tryStmt; rw [q1, Out.bind_val, if_pos hq]⟩
  have hqt : q = true := by simpa using hq
  subst hqt
  have hk := quick_kind q1
  by_cases c1 : X.override = 0 ∧ X.disc i = true
  · exact ⟨0, _, fun n _ => by unfold tryStmt; rw [q1, Out.bind_val, if_neg hq, if_pos c1]⟩
  by_cases c2 : X.other i = true
  · exact ⟨0, _, fun n _ => by unfold tryStmt; rw [q1, Out.bind_val, if_neg hq, if_neg c1, if_pos c2]⟩
  by_cases c3 : X.noDist = true ∧ (X.E.stmt i).reqDisj ≠ []
  · exact ⟨0, _, fun n _ => by unfold tryStmt; rw [q1, Out.bind_val, if_neg hq, if_neg c1, if_neg c2, if_pos c3]⟩
  by_cases c4 : eSkip X depth i = true
  · exact ⟨0, _, fun n _ => by unfold tryStmt; rw [q1, Out.bind_val, if_neg hq, if_neg c1, if_neg c2, if_neg c3, if_pos c4]⟩
  have hP := proper R hk hm
  obtain ⟨M, r, hM⟩ := MM.Unif.C56_first_ends hP X.on 1
  have e : ∀ n, M ≤ n → tryStmt X n (rec n) depth i m s = unifLoop X n (rec n) i (dum X i (X.E.stmt i).math) m (dumHyps X i) n r
      (List.range (dumHyps X i).length) (List.replicate (dumHyps X i).length []) s := by
    intro n hn
    unfold tryStmt
    rw [q1, Out.bind_val, if_neg hq, if_neg c1, if_neg c2, if_neg c3, if_neg c4, toDummies_val (R.env.ass i hk).mathVars, Out.bind_val,
      dummyHyps_val fun h hh => (str_hyp R hk hh).2.1, Out.bind_val, hM n hn, Out.bind_val]
  cases r with
  | none =>
    refine ⟨M + 1, (none, s), fun n hn => ?_⟩
    rw [e n (by omega)]
    obtain ⟨k, hk⟩ := Nat.exists_eq_succ_of_ne_zero (show n ≠ 0 by omega)
    rw [hk]; rfl
  | timeout =>
    refine ⟨M + 1, (none, s), fun n hn => ?_⟩
    rw [e n (by omega)]
    obtain ⟨k, hk⟩ := Nat.exists_eq_succ_of_ne_zero (show n ≠ 0 by omega)
    rw [hk]; rfl
  | found v =>
    have h1 := hM M (Nat.le_refl _)
    obtain ⟨N, o, hN⟩ := unifLoop_ends R hrec hk (allIn R hk c4) c1 hm (first_acc hP h1) ⟨_, .first h1⟩ (List.range (dumHyps X i).length)
      (List.replicate (dumHyps X i).length []) s (by rw [List.length_map])
    exact ⟨max M N, o, fun n hn => by rw [e n (by omega)]; exact hN n n (by omega) (by omega)⟩

theorem stmtLoop_ends (R : Ready X) {rec : Nat → List Nat → Sst → Out (List Int × Sst)} (hrec : RecEnds X rec) (depth : Nat) {m : List Nat} (hm : Str X.E m) :
    ∀ (i : Nat) (s : Sst), ∃ N o, ∀ n, N ≤ n → stmtLoop X n (rec n) depth m i s = .val o
  | 0, s => ⟨0, _, fun _ _ => rfl⟩
  | i + 1, s => by
    obtain ⟨N, o, h1⟩ := tryStmt_ends R hrec depth (i + 1) hm s
    obtain ⟨N', o', h2⟩ := stmtLoop_ends R hrec depth hm i o.2
    by_cases c : o.1 = none
    · refine ⟨max N N', o', fun n hn => ?_⟩
      unfold stmtLoop
      rw [h1 n (by omega), Out.bind_val, if_pos c]
      exact h2 n (by omega)
    · refine ⟨N, (o.1.getD [], o.2), fun n hn => ?_⟩
      unfold stmtLoop
      rw [h1 n hn, Out.bind_val, if_neg c]

theorem search_ends (R : Ready X) {f : AF} (hr : Rep X.pip f) (hA : AF.All (Shape X.E) f) : ∀ (k : Nat) (m : List Nat) (s : Sst), Str X.E m →
    ∃ N r, ∀ n, N ≤ n → search X n k m s = .val r
  | 0, m, s, _ => by
    by_cases c : X.limit < s.trials
    · exact ⟨0, _, fun n _ => by unfold search; rw [if_pos c]⟩
    · exact ⟨0, _, fun n _ => by unfold search; rw [if_neg c]⟩
  | k + 1, m, s, hm => by
    by_cases c : X.limit < s.trials
    · exact ⟨0, _, fun n _ => by unfold search; rw [if_pos c]⟩
    by_cases c1 : s.deep = true
    · exact ⟨0, _, fun n _ => by unfold search; rw [if_neg c, if_pos c1]⟩
    by_cases c2 : (hypMatch X m).isSome = true
    · exact ⟨0, _, fun n _ => by unfold search; rw [if_neg c, if_neg c1, if_pos c2]⟩
    have hl : X.pip.proof.length = f.flat.length := by rw [hr.proof, List.length_map]
    obtain ⟨o, h1, _⟩ := scan_val hr hA m (k := X.pip.proof.length) (by omega)
    by_cases c3 : o.isSome = true
    · exact ⟨0, _, fun n _ => by unfold search; rw [if_neg c, if_neg c1, if_neg c2, h1, Out.bind_val, if_pos c3]⟩
    obtain ⟨N, r, hN⟩ := stmtLoop_ends R (rec := fun n m s => search X n k m { s with trials := s.trials + 1 }) (fun m' s' hm' => search_ends R hr hA k m' _ hm') (40 - k) hm (X.prove - 1) s
    refine ⟨N, r, fun n hn => ?_⟩
    unfold search
    rw [if_neg c, if_neg c1, if_neg c2, h1, Out.bind_val, if_neg c3]
    exact hN n hn

end MM.Impr
