import Verif.Count.Rec

/-!
# Property C67: SHOW TRACE_BACK / COUNT_STEPS
-/
namespace MM.Count
open MM.Veri MM.Proof MM.Trace

variable {D : CDb} {ess : Bool} {s : Nat} {S F : Nat → List Int}

theorem inv_init : Inv D S F initState := ⟨fun _ hq => absurd rfl hq, fun _ _ => rfl⟩

theorem leads_done {st : CState} (hP : Proofs D ess s S F) (hI : Inv D S F st) (hs : st.cnt s ≠ 0) {q : Nat} (h : Leads D ess s q) : st.cnt q ≠ 0 := by
  induction h with
  | self => exact hs
  | @step q r hl hu ih =>
    obtain ⟨hk, l, hl1, hm⟩ := hu
    have e := stepsOf_unique hl1 (hP.steps q hl hk)
    subst e
    have := ((hI.done q ih).below hk r hm (by omega)).1
    simpa using this

/-- The final state of the arrays. -/
theorem final_state (hS : Sane D ess) (h1 : 1 ≤ s) (h2 : s ≤ D.n) (hP : Proofs D ess s S F) (hO : Once D ess s S) :
    ∃ st new, countRec D ess (s + 1) s initState = .val ((size D F s : Int), st) ∧ Inv D S F st ∧ new.Nodup ∧ (∀ q, q ∈ new ↔ Leads D ess s q) ∧ (∀ q, st.cnt q ≠ 0 ↔ q ∈ new) ∧
      ∀ i, st.usage i = usesIn D S new i := by
  obtain ⟨st, new, e, p⟩ := countRec_ok hS h1 h2 hP hO (s + 1) s (by omega) .self initState inv_init rfl
  have hc : ∀ q, st.cnt q ≠ 0 ↔ q ∈ new := fun q => by
    rw [p.cnt]
    exact ⟨fun h => h.elim (fun h => absurd rfl h) id, Or.inr⟩
  refine ⟨st, new, e, p.inv, p.nodup, fun q => ⟨p.leads q, fun hl => (hc q).1 (leads_done hP p.inv ((hc s).2 p.mem) hl)⟩, hc, fun i => ?_⟩
  rw [p.usage]
  exact Nat.zero_add _

/-- The statements counted by the loop of the totals. -/
def counted (D : CDb) (st : CState) (count i : Nat) : List Nat := (List.range' i count).filter (fun j => decide (D.kind j = .p) && decide (st.cnt j ≠ 0))

theorem totals_eq {st : CState} (hI : Inv D S F st) : ∀ (count i : Nat) (r : Report), ∃ r', totals D ess st count i r = .val r' ∧
    r'.len = r.len ∧ r'.big = r.big ∧ r'.dist = r.dist ∧ r'.path = r.path ∧
    r'.subs = r.subs + (counted D st count i).length ∧
    r'.steps = r.steps + ((counted D st count i).map (fun j => ((S j).length : Int))).sum ∧
    r'.subs2 = r.subs2 + ((counted D st count i).filter (fun j => decide (1 < st.usage j))).length ∧
    r'.steps2 = r.steps2 + ((counted D st count i).map (fun j => if 1 < st.usage j then ((S j).length : Int) else (S j).length - 1 - hypCount D ess j)).sum
  | 0, i, r => ⟨r, rfl, rfl, rfl, rfl, rfl, by simp [counted], by simp [counted], by simp [counted], by simp [counted]⟩
  | count + 1, i, r => by
    rw [totals]
    by_cases h : D.kind i = .p ∧ st.cnt i ≠ 0
    · rw [if_pos h]
      have hp := (hI.done i h.2).plen h.1
      unfold plenOf
      rw [hp]
      have ec : counted D st (count + 1) i = i :: counted D st count (i + 1) := by
        unfold counted
        rw [List.range'_succ, List.filter_cons_of_pos (by simpa using h)]
      rw [ec]
      by_cases hu : st.usage i > 1
      · obtain ⟨r', e, a1, a2, a3, a4, a5, a6, a7, a8⟩ := totals_eq hI count (i + 1) { r with steps := r.steps + (S i).length, subs := r.subs + 1, subs2 := r.subs2 + 1, steps2 := r.steps2 + (S i).length }
        refine ⟨r', ?_, a1, a2, a3, a4, ?_, ?_, ?_, ?_⟩
        · show (if st.usage i > 1 then _ else _) = _
          rw [if_pos hu]
          exact e
        · rw [a5, List.length_cons]; dsimp only; omega
        · rw [a6, List.map_cons, List.sum_cons]; dsimp only; omega
        · rw [a7, List.filter_cons_of_pos (by simpa using hu), List.length_cons]; dsimp only; omega
        · rw [a8, List.map_cons, List.sum_cons, if_pos hu]; dsimp only; omega
      · obtain ⟨r', e, a1, a2, a3, a4, a5, a6, a7, a8⟩ := totals_eq hI count (i + 1) { r with steps := r.steps + (S i).length, subs := r.subs + 1, steps2 := r.steps2 + (S i).length - 1 - hypCount D ess i }
        refine ⟨r', ?_, a1, a2, a3, a4, ?_, ?_, ?_, ?_⟩
        · show (if st.usage i > 1 then _ else _) = _
          rw [if_neg hu]
          exact e
        · rw [a5, List.length_cons]; dsimp only; omega
        · rw [a6, List.map_cons, List.sum_cons]; dsimp only; omega
        · rw [a7, List.filter_cons_of_neg (by simpa using hu)]
        · rw [a8, List.map_cons, List.sum_cons, if_neg hu]; dsimp only; omega
    · rw [if_neg h]
      have ec : counted D st (count + 1) i = counted D st count (i + 1) := by
        unfold counted
        rw [List.range'_succ, List.filter_cons_of_neg (by simpa using h)]
      rw [ec]
      exact totals_eq hI count (i + 1) r

theorem hypCount_eq {i : Nat} (h : D.kind i = .p) : hypCount D ess i = (hyps D ess i).length := by
  rw [← hypN_hyps h]
  unfold hypCount hypN
  congr 2
  funext k
  cases ess with
  | false => simp
  | true =>
    cases hk : D.kind k <;> decide

/-! ### The longest path -/

/-- The proofs of `s` and of the theorems it uses have no unknown step. -/
def Complete (D : CDb) (ess : Bool) (s : Nat) (S : Nat → List Int) : Prop := ∀ p, Leads D ess s p → D.kind p = .p → ∀ x ∈ S p, 0 ≤ x

theorem steps_ne (hP : Proofs D ess s S F) {p : Nat} (hl : Leads D ess s p) (hk : D.kind p = .p) : S p ≠ [] := by
  intro e
  have := hP.full p hl hk
  unfold Expanded at this
  rw [e] at this
  cases this

theorem dist_nonneg {st : CState} (hS : Sane D ess) (h1 : 1 ≤ s) (h2 : s ≤ D.n) (hP : Proofs D ess s S F) (hC : Complete D ess s S) (hI : Inv D S F st) (hd : ∀ q, Leads D ess s q → st.cnt q ≠ 0) :
    ∀ (n q : Nat), q < n → Leads D ess s q → 0 ≤ st.dist q
  | 0, q, h, _ => by omega
  | n + 1, q, h, hl => by
    have hq := hI.done q (hd q hl)
    by_cases hk : D.kind q = .p
    · rcases hq.path hk with ⟨a, _⟩ | ⟨x, hx, h0, a, _⟩
      · cases e : S q with
        | nil => exact absurd e (steps_ne hP hl hk)
        | cons y t =>
          have hy : y ∈ S q := by rw [e]; exact List.mem_cons_self
          have := a y hy
          have := hC q hl hk y hy
          omega
      · obtain ⟨_, b, c⟩ := step_range hS h1 h2 hP hl hk hx h0
        have := dist_nonneg hS h1 h2 hP hC hI hd n x.toNat (by omega) c
        omega
    · rw [hq.leaf hk]

theorem path_ok {st : CState} (hS : Sane D ess) (h1 : 1 ≤ s) (h2 : s ≤ D.n) (hP : Proofs D ess s S F) (hC : Complete D ess s S) (hI : Inv D S F st) (hd : ∀ q, Leads D ess s q → st.cnt q ≠ 0) :
    ∀ (i q : Nat), Leads D ess s q → st.dist q = i → ∃ l, pathLoop st (i + 1) (some q) = .val l ∧ Chain D ess q l ∧ l.length = i + 1
  | 0, q, hl, he => by
    refine ⟨[q], ?_, .one q, rfl⟩
    rw [pathLoop, if_neg (by rw [he]; simp)]
    rfl
  | i + 1, q, hl, he => by
    have hq := hI.done q (hd q hl)
    by_cases hk : D.kind q = .p
    · rcases hq.path hk with ⟨_, a⟩ | ⟨x, hx, h0, a, b⟩
      · omega
      · obtain ⟨_, _, c⟩ := step_range hS h1 h2 hP hl hk hx h0
        obtain ⟨l, e1, e2, e3⟩ := path_ok hS h1 h2 hP hC hI hd i x.toNat c (by omega)
        refine ⟨q :: l, ?_, .cons ⟨hk, S q, hP.steps q hl hk, by rw [Int.toNat_of_nonneg h0]; exact hx⟩ e2, by rw [List.length_cons, e3]⟩
        rw [pathLoop, if_neg (by rw [he]; simp), b, e1]
        rfl
    · have := hq.leaf hk
      omega

theorem chain_le {st : CState} (hS : Sane D ess) (h1 : 1 ≤ s) (h2 : s ≤ D.n) (hP : Proofs D ess s S F) (hC : Complete D ess s S) (hI : Inv D S F st) (hd : ∀ q, Leads D ess s q → st.cnt q ≠ 0)
    {q : Nat} {l : List Nat} (h : Chain D ess q l) : Leads D ess s q → (l.length : Int) ≤ st.dist q + 1 := by
  induction h with
  | one p =>
    intro hl
    have := dist_nonneg hS h1 h2 hP hC hI hd (p + 1) p (by omega) hl
    simp only [List.length_singleton]
    omega
  | @cons p q l hu hc ih =>
    intro hl
    have hlq : Leads D ess s q := .step hl hu
    have h3 := ih hlq
    obtain ⟨hk, m, hm1, hm⟩ := hu
    have e := stepsOf_unique hm1 (hP.steps p hl hk)
    subst e
    have h4 := ((hI.done p (hd p hl)).below hk q hm (by omega)).2
    rw [Int.toNat_natCast] at h4
    rw [List.length_cons]
    push_cast
    omega

/-! ### The report -/

/-- How often the statement `i` occurs in the proofs of the theorem `s` and of the theorems `L`. -/
def occurs (S : Nat → List Int) (s : Nat) (L : List Nat) (i : Nat) : Nat := ((s :: L).map (fun r => (S r).count (i : Int))).sum

theorem perm_sum {a b : List Nat} (h : a.Perm b) : a.sum = b.sum := by
  induction h with
  | nil => rfl
  | cons x _ ih => rw [List.sum_cons, List.sum_cons, ih]
  | swap x y l => simp only [List.sum_cons]; omega
  | trans _ _ ih1 ih2 => exact ih1.trans ih2

theorem usesIn_filter (new : List Nat) (i : Nat) : usesIn D S new i = ((new.filter (fun r => decide (D.kind r = .p))).map (fun r => (S r).count (i : Int))).sum := by
  unfold usesIn
  induction new with
  | nil => rfl
  | cons a t ih =>
    rw [List.map_cons, List.sum_cons, ih]
    by_cases h : D.kind a = .p
    · rw [if_pos h, List.filter_cons_of_pos (by simpa using h), List.map_cons, List.sum_cons]
    · rw [if_neg h, List.filter_cons_of_neg (by simpa using h)]; omega

/-- **C67 (partial).**  SHOW TRACE_BACK / COUNT_STEPS for a theorem `s`.  Missing: proofs saved in compressed format (`Expanded` has no local labels), and theorems that use one of their
hypotheses twice or not at all; for both the reported number of expanded steps is wrong (`C67_hypothesis_twice`, `C67_compressed`).

The command ends normally and reports: the number of steps of the proof; the number of theorems used directly or indirectly and the total number of their steps; the number of steps of the fully
expanded proof. -/
theorem C67_count_partial (hS : Sane D ess) (h1 : 1 ≤ s) (h2 : s ≤ D.n) (hk : D.kind s = .p) (hP : Proofs D ess s S F) (hO : Once D ess s S) (hC : Complete D ess s S) :
    ∃ rep, countSteps D ess s = .val rep ∧
      rep.len = (S s).length ∧
      IsNum rep.big ∧ value rep.big = (F s).length ∧
      (Chain D ess s rep.path ∧ (rep.path.length : Int) = rep.dist + 1 ∧ ∀ l, Chain D ess s l → l.length ≤ rep.path.length) ∧
      ∃ L : List Nat, L.Nodup ∧ (∀ q, q ∈ L ↔ Leads D ess s q ∧ q ≠ s ∧ D.kind q = .p) ∧
        rep.subs = L.length ∧
        rep.steps = (S s).length + (L.map (fun j => ((S j).length : Int))).sum ∧
        rep.subs2 = (L.filter (fun j => decide (1 < occurs S s L j))).length ∧
        rep.steps2 = (S s).length + (L.map (fun j => if 1 < occurs S s L j then ((S j).length : Int) else (S j).length - 1 - (hyps D ess j).length)).sum := by
  obtain ⟨st, new, e1, hI, hn, hl, hc, hu⟩ := final_state hS h1 h2 hP hO
  have hd : ∀ q, Leads D ess s q → st.cnt q ≠ 0 := fun q hq => (hc q).2 ((hl q).2 hq)
  have hs := hI.done s (hd s .self)
  unfold countSteps
  rw [e1, Out.bind_val]
  have hplen : plenOf st s = .val (S s).length := by unfold plenOf; rw [hs.plen hk]; rfl
  dsimp only
  rw [hplen, Out.bind_val]
  obtain ⟨r', e2, a1, a2, a3, a4, a5, a6, a7, a8⟩ := totals_eq (ess := ess) hI (s - 1) 1 { len := (S s).length, subs := 0, steps := (S s).length, subs2 := 0, steps2 := (S s).length, big := st.big s, dist := st.dist s, path := [] }
  rw [e2, Out.bind_val]
  have hnn := dist_nonneg hS h1 h2 hP hC hI hd (s + 1) s (by omega) .self
  obtain ⟨l, b1, b2, b3⟩ := path_ok hS h1 h2 hP hC hI hd (st.dist s).toNat s .self (by omega)
  have hN : (r'.dist + 1).toNat = (st.dist s).toNat + 1 := by rw [a3]; dsimp only; omega
  rw [hN, b1, Out.bind_val]
  have hL : ∀ q, q ∈ counted D st (s - 1) 1 ↔ Leads D ess s q ∧ q ≠ s ∧ D.kind q = .p := by
    intro q
    unfold counted
    rw [List.mem_filter, List.mem_range'_1]
    simp only [Bool.and_eq_true, decide_eq_true_eq]
    constructor
    · rintro ⟨⟨_, h⟩, h3, h4⟩
      exact ⟨(hl q).1 ((hc q).1 h4), by omega, h3⟩
    · rintro ⟨h3, h4, h5⟩
      have := leads_range hS h1 h2 h3
      exact ⟨by omega, h5, hd q h3⟩
  have hLn : (counted D st (s - 1) 1).Nodup := List.Nodup.filter _ List.nodup_range'
  have hocc : ∀ i, st.usage i = occurs S s (counted D st (s - 1) 1) i := by
    intro i
    rw [hu, usesIn_filter]
    unfold occurs
    have hperm : (new.filter (fun r => decide (D.kind r = .p))).Perm (s :: counted D st (s - 1) 1) := by
      rw [List.perm_ext_iff_of_nodup (hn.filter _) (List.nodup_cons.2 ⟨fun hm => ((hL s).1 hm).2.1 rfl, hLn⟩)]
      intro q
      rw [List.mem_filter, List.mem_cons, hL, hl]
      simp only [decide_eq_true_eq]
      constructor
      · rintro ⟨h3, h4⟩
        by_cases e : q = s
        · exact Or.inl e
        · exact Or.inr ⟨h3, e, h4⟩
      · rintro (rfl | ⟨h3, _, h4⟩)
        · exact ⟨.self, hk⟩
        · exact ⟨h3, h4⟩
    exact perm_sum (hperm.map _)
  refine ⟨_, rfl, a1, ?_, ?_, ⟨b2, ?_, ?_⟩, counted D st (s - 1) 1, hLn, hL, ?_, a6, ?_, ?_⟩
  · show IsNum r'.big; rw [a2]; exact hs.num
  · show value r'.big = _; rw [a2]; show value (st.big s) = _; rw [hs.big]; unfold size; rw [if_pos hk]
  · show (l.length : Int) = r'.dist + 1; rw [b3, a3]; dsimp only; omega
  · intro c hc
    have := chain_le hS h1 h2 hP hC hI hd hc .self
    show c.length ≤ l.length
    omega
  · show r'.subs = _; rw [a5]; exact Nat.zero_add _
  · show r'.subs2 = _
    rw [a7]
    show 0 + _ = _
    rw [Nat.zero_add]
    congr 2
    funext j
    rw [hocc]
  · show r'.steps2 = _
    rw [a8]
    congr 2
    apply List.map_congr_left
    intro j hj
    rw [hocc, hypCount_eq ((hL j).1 hj).2.2]

end MM.Count
