import Verif.Unif.Back
/-!
# The search of `unify` ends
-/
namespace MM.Unif

variable {C : Cfg} {A0 B0 : List Nat}

/-- The state with which a further call of `unify` starts (mmunif.c 521–548); `n` is the count of trials at that time. -/
def again (C : Cfg) (A0 B0 : List Nat) (s : St) (n : Nat) : St :=
  ⟨A0 ++ [C.mt], B0 ++ [C.mt], 0, s.stk, s.seg, fun y => decide (y ∈ s.stk.map Frame.var), n⟩

/-- The search from a configuration, over all further calls: it ends in `E`; all answers found meet `R`. -/
inductive Tree (C : Cfg) (A0 B0 : List Nat) (R : St → Prop) (E : Lbl × St → Prop) : Lbl × St → Prop
  | leaf {x} : E x → Tree C A0 B0 R E x
  | step {x y} : Goes C (unkVars C A0 B0).length x y → Tree C A0 B0 R E y → Tree C A0 B0 R E x
  | done {s} : R s → (∀ n, Tree C A0 B0 R E (.back, again C A0 B0 s n)) → Tree C A0 B0 R E (.done, s)

theorem Tree.bind {R : St → Prop} {E E' : Lbl × St → Prop} {x} (h : Tree C A0 B0 R E x) (hE : ∀ y, E y → Tree C A0 B0 R E' y) : Tree C A0 B0 R E' x := by
  induction h with
  | leaf h => exact hE _ h
  | step h _ ih => exact .step h ih
  | done h _ ih => exact .done h ih

theorem Tree.steps {R : St → Prop} {E : Lbl × St → Prop} {x y} (h : Steps C (unkVars C A0 B0).length x y) (hy : Tree C A0 B0 R E y) : Tree C A0 B0 R E x := by
  induction h with
  | refl => exact hy
  | head h _ ih => exact .step h (ih hy)

/-- An answer: the schemes have become equal. -/
def Ans (C : Cfg) (A0 B0 : List Nat) (s : St) : Prop := s.A = s.B ∧ (∃ p, Core C A0 B0 (vars s.stk) s.seg s.A s.B p) ∧ StkOk C A0 B0 s.stk

/-- The end of a search above the stack `fs`. -/
def Ended (fs : List Frame) (x : Lbl × St) : Prop := (x.1 = .timeout) ∨ (x.1 = .back ∧ x.2.stk = fs ∧ OnOk x.2)

theorem again_on (s : St) (n : Nat) : OnOk (again C A0 B0 s n) := by
  intro y; simp [again, vars]

/-- The search for the stack entries with all the lengths that remain. -/
theorem tree_back (hP : Proper C A0 B0) {fs : List Frame}
    (ih : ∀ s, Fresh C A0 B0 s → s.stk.length = fs.length + 1 → Tree C A0 B0 (Ans C A0 B0) (Ended s.stk) (.scan, s)) (hfs : StkOk C A0 B0 fs) :
    ∀ (m : Nat) {s f a ta tb ca cb len segs}, left f ca len ta tb ≤ m → Act C A0 B0 f fs a ta tb ca cb len segs → s.stk = f :: fs → OnOk s →
      Tree C A0 B0 (Ans C A0 B0) (Ended fs) (.back, s) := by
  intro m
  induction m with
  | zero =>
    intro s f a ta tb ca cb len segs hm h hstk hon
    rcases back_ok hP h hstk hon (unkVars C A0 B0).length with ⟨s', h1, _⟩ | ⟨s', h1, h2, h3, _⟩ | ⟨s', f', len', h1, h2, h3, h4, _⟩
    · exact .steps h1 (.leaf (Or.inl rfl))
    · exact .steps h1 (.leaf (Or.inr ⟨rfl, h2, h3⟩))
    · omega
  | succ m ihm =>
    intro s f a ta tb ca cb len segs hm h hstk hon
    rcases back_ok hP h hstk hon (unkVars C A0 B0).length with ⟨s', h1, _⟩ | ⟨s', h1, h2, h3, _⟩ | ⟨s', f', len', h1, h2, h3, h4, _⟩
    · exact .steps h1 (.leaf (Or.inl rfl))
    · exact .steps h1 (.leaf (Or.inr ⟨rfl, h2, h3⟩))
    · refine .steps h1 ?_
      have e := active_ok h2 h3 (unkVars C A0 B0).length
      rcases choose_ok hP h2 h3 with ⟨g1, _⟩ | ⟨s2, g1, g2, g3, _, g5, _⟩
      · exact .step (goes_scan (by rw [step_scan, e, g1])) (ihm (by omega) h2 h3.stk h3.on)
      · refine .step (goes_scan (by rw [step_scan, e, g1])) ?_
        have hst : s2.stk = f' :: fs := by rw [g2, h3.stk]
        refine (ih s2 ⟨g5, by rw [hst]; exact ⟨⟨a, ta, tb, ca, cb, len', segs, h2⟩, hfs⟩, g3⟩ (by rw [hst]; rfl)).bind ?_
        rintro ⟨l, y⟩ (hy | ⟨hy1, hy2, hy3⟩)
        · exact .leaf (Or.inl hy)
        · dsimp only at hy1 hy2 hy3
          subst hy1
          exact ihm (by omega) h2 (by rw [hy2, hst]) hy3

/-- The search from a position ends. -/
theorem tree_scan (hP : Proper C A0 B0) : ∀ (k : Nat) (s : St), Fresh C A0 B0 s → (unkVars C A0 B0).length ≤ s.stk.length + k →
    Tree C A0 B0 (Ans C A0 B0) (Ended s.stk) (.scan, s) := by
  intro k
  induction k with
  | zero =>
    intro s hs hk
    rcases fresh_ok hP hs with ⟨q, h1, h2⟩ | ⟨s', h1, h2, h3, _⟩ | ⟨s', f, a, ta, tb, ca, cb, h1, h2, h3, _⟩
    · exact .step (goes_scan h1) (.done ⟨h2, ⟨s.p, hs.core⟩, hs.ok⟩ fun n => .leaf (Or.inr ⟨rfl, rfl, again_on _ n⟩))
    · exact .step (goes_scan h1) (.leaf (Or.inr ⟨rfl, h2, h3⟩))
    · exfalso
      have hmem : ∀ y, (y = ca ∨ y = cb) → y ∈ f.A ∨ y ∈ f.B := by
        rintro y (rfl | rfl)
        · exact Or.inl h2.mem.1
        · exact Or.inr h2.mem.2
      have := room_ok (C := C) (A0 := A0) (B0 := B0) (l := f.var :: vars s.stk) (List.nodup_cons.2 ⟨h2.notVar, hs.core.nodup⟩) (by
          intro z hz
          rcases List.mem_cons.1 hz with rfl | hz
          · exact ⟨h2.unk, h2.core.toks _ h2.unk (hmem _ (by rcases h2.side with h | h; exact Or.inl h.1; exact Or.inr h.1))⟩
          · exact hs.core.unk z hz)
      simp [vars] at this
      omega
  | succ k ih =>
    intro s hs hk
    rcases fresh_ok hP hs with ⟨q, h1, h2⟩ | ⟨s', h1, h2, h3, _⟩ | ⟨s', f, a, ta, tb, ca, cb, h1, h2, h3, _⟩
    · exact .step (goes_scan h1) (.done ⟨h2, ⟨s.p, hs.core⟩, hs.ok⟩ fun n => .leaf (Or.inr ⟨rfl, rfl, again_on _ n⟩))
    · exact .step (goes_scan h1) (.leaf (Or.inr ⟨rfl, h2, h3⟩))
    · have ih' : ∀ s', Fresh C A0 B0 s' → s'.stk.length = s.stk.length + 1 → Tree C A0 B0 (Ans C A0 B0) (Ended s'.stk) (.scan, s') := by
        intro s' hs' hl; exact ih s' hs' (by omega)
      rcases choose_ok hP h2 h3 with ⟨g1, _⟩ | ⟨s2, g1, g2, g3, _, g5, _⟩
      · exact .step (goes_scan (by rw [step_scan, h1, g1])) (tree_back hP ih' hs.ok _ (Nat.le_refl _) h2 h3.stk h3.on)
      · refine .step (goes_scan (by rw [step_scan, h1, g1])) ?_
        have hst : s2.stk = f :: s.stk := by rw [g2, h3.stk]
        refine (ih' s2 ⟨g5, by rw [hst]; exact ⟨⟨a, ta, tb, ca, cb, _, _, h2⟩, hs.ok⟩, g3⟩ (by rw [hst]; rfl)).bind ?_
        rintro ⟨l, y⟩ (hy | ⟨hy1, hy2, hy3⟩)
        · exact .leaf (Or.inl hy)
        · dsimp only at hy1 hy2 hy3
          subst hy1
          exact tree_back hP ih' hs.ok _ (Nat.le_refl _) h2 (by rw [hy2, hst]) hy3

/-- The two ends of all searches. -/
def Over (x : Lbl × St) : Prop := x.1 = .timeout ∨ x.1 = .abort

theorem fresh_start (C : Cfg) (A0 B0 : List Nat) (n : Nat) : Fresh C A0 B0 (start C A0 B0 n) :=
  ⟨core_start C A0 B0, trivial, by intro y; simp [start, vars]⟩

theorem tree_start (hP : Proper C A0 B0) (n : Nat) : Tree C A0 B0 (Ans C A0 B0) Over (.scan, start C A0 B0 n) := by
  refine (tree_scan hP (unkVars C A0 B0).length _ (fresh_start C A0 B0 n) (by omega)).bind ?_
  rintro ⟨l, y⟩ (hy | ⟨hy1, hy2, hy3⟩)
  · exact .leaf (Or.inl hy)
  · dsimp only at hy1 hy2 hy3
    subst hy1
    refine .step (goes_back (y := (.abort, y)) ?_) (.leaf (Or.inr rfl))
    rw [step_back]
    unfold doBack
    rw [hy2]
    rfl

/-! ## Runs -/

theorem run_end {room n : Nat} {l : Lbl} {s : St} (h : l = .done ∨ l = .abort ∨ l = .timeout) : run C room (n + 1) (l, s) = .val (l, s) := by
  unfold run; rw [if_pos h]

theorem run_goes {room n : Nat} {x y : Lbl × St} (h : Goes C room x y) : run C room (n + 1) x = run C room n y := by
  obtain ⟨l, s⟩ := x
  obtain ⟨h1, h2, h3, h4⟩ := h
  conv => lhs; unfold run
  rw [if_neg (by rintro (h | h | h); exact h1 h; exact h2 h; exact h3 h), h4, Out.bind_val]

/-- A run from a configuration with a search tree. -/
theorem Tree.run {R : St → Prop} {x} (h : Tree C A0 B0 R Over x) :
    ∃ N r, (∀ n, N ≤ n → MM.Unif.run C (unkVars C A0 B0).length n x = .val r) ∧
      (∀ n, n < N → MM.Unif.run C (unkVars C A0 B0).length n x = .fuel) ∧
      (Over r ∨ (r.1 = .done ∧ R r.2 ∧ ∀ n, Tree C A0 B0 R Over (.back, again C A0 B0 r.2 n))) := by
  induction h with
  | @leaf x h =>
    obtain ⟨l, s⟩ := x
    refine ⟨1, (l, s), ?_, ?_, Or.inl h⟩
    · intro n hn
      obtain ⟨n, rfl⟩ := Nat.exists_eq_succ_of_ne_zero (show n ≠ 0 by omega)
      exact run_end (by rcases h with h | h; exact Or.inr (Or.inr h); exact Or.inr (Or.inl h))
    · intro n hn
      obtain rfl : n = 0 := by omega
      rfl
  | step h _ ih =>
    obtain ⟨N, r, h1, h2, h3⟩ := ih
    refine ⟨N + 1, r, ?_, ?_, h3⟩
    · intro n hn
      obtain ⟨n, rfl⟩ := Nat.exists_eq_succ_of_ne_zero (show n ≠ 0 by omega)
      rw [Nat.succ_eq_add_one, run_goes h]; exact h1 n (by omega)
    · intro n hn
      cases n with
      | zero => rfl
      | succ n => rw [run_goes h]; exact h2 n (by omega)
  | @done s h hall _ =>
    refine ⟨1, (.done, s), ?_, ?_, Or.inr ⟨rfl, h, hall⟩⟩
    · intro n hn
      obtain ⟨n, rfl⟩ := Nat.exists_eq_succ_of_ne_zero (show n ≠ 0 by omega)
      exact run_end (Or.inl rfl)
    · intro n hn
      obtain rfl : n = 0 := by omega
      rfl

end MM.Unif
