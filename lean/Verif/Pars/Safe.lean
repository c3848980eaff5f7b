import Verif.Pars.Props
/-!
# READ and internal errors (C38)
-/
namespace MM.Pars
open MM.Veri MM.Spec

variable {toks : List (Name × Bool)} {s s' : PState} {x : Src}

@[simp] theorem errIf_undecl {b : Bool} {e : PErr} : (s.errIf b e).undecl = s.undecl := by
  unfold PState.errIf PState.err; split <;> rfl

theorem declOne_undecl {isV : Bool} {t : Nat} : (declOne toks isV s t).undecl = s.undecl := by
  unfold declOne
  dsimp only
  split <;> simp

theorem declFold_undecl {isV : Bool} : ∀ {ts : List Nat} {s : PState}, (ts.foldl (declOne toks isV) s).undecl = s.undecl
  | [], _ => rfl
  | t :: ts, s => by rw [List.foldl_cons, declFold_undecl, declOne_undecl]

theorem dInner_undecl {p : Nat} : ∀ {l : List Nat} {s : PState}, (dInner p l s).undecl = s.undecl
  | [], _ => rfl
  | q :: l, s => by
    unfold dInner
    dsimp only
    split
    · rfl
    · split <;> exact dInner_undecl

theorem dPairs_undecl : ∀ {l : List Nat} {s : PState}, (dPairs l s).undecl = s.undecl
  | [], _ => rfl
  | p :: l, s => by unfold dPairs; rw [dPairs_undecl, dInner_undecl]

theorem scan_same {k : Kind} {syms : List Name} {m : List Nat} {s1 : PState} (h1 : mathScan toks k syms [] s = .val (m, s1))
    (h2 : (lenChecks k m s1).errs = []) : lenChecks k m s1 = s := by
  have := (lenChecks_ok h2).1
  rw [this] at h2 ⊢
  exact (mathScan_scanOk h1 h2).1

theorem doStmt_undecl (h : doStmt toks s x = .val s') (he : s'.errs = []) : s'.undecl = s.undecl := by
  unfold doStmt at h
  cases hk : x.kind <;> rw [hk] at h <;> dsimp only at h
  case c | v =>
    simp only [Out.val.injEq] at h
    rw [← h]
    unfold doDecl
    dsimp only
    rw [declFold_undecl]; simp
  case lb => simp only [Out.val.injEq] at h; rw [← h]; rfl
  case rb =>
    simp only [Out.val.injEq] at h
    rw [← h]
    unfold doRb
    simp
  case none => cases h
  case d =>
    cases hm : mathScan toks .d x.syms [] s with
    | val r =>
      rw [hm] at h
      simp only [Out.bind_val, Out.val.injEq] at h
      rw [← h] at he ⊢
      dsimp only
      rw [dPairs_undecl, scan_same hm (dPairs_errs he)]
    | ub => rw [hm] at h; cases h
    | bug n => rw [hm] at h; cases h
    | fuel => rw [hm] at h; cases h
  case e =>
    cases hm : mathScan toks .e x.syms [] s with
    | val r =>
      rw [hm] at h
      simp only [Out.bind_val, Out.val.injEq] at h
      rw [← h] at he ⊢
      rw [scan_same hm he]; rfl
    | ub => rw [hm] at h; cases h
    | bug n => rw [hm] at h; cases h
    | fuel => rw [hm] at h; cases h
  case f =>
    cases hm : mathScan toks .f x.syms [] s with
    | val r =>
      rw [hm] at h
      simp only [Out.bind_val, Out.val.injEq] at h
      rw [← h] at he ⊢
      rw [scan_same hm he]; rfl
    | ub => rw [hm] at h; cases h
    | bug n => rw [hm] at h; cases h
    | fuel => rw [hm] at h; cases h
  case a =>
    cases hm : mathScan toks .a x.syms [] s with
    | val r =>
      rw [hm] at h
      simp only [Out.bind_val] at h
      rw [scan_same hm (doAssert_errs h he)] at h
      unfold doAssert at h
      dsimp only at h
      split at h
      · cases h
      · simp only [Out.val.injEq] at h; rw [← h]
    | ub => rw [hm] at h; cases h
    | bug n => rw [hm] at h; cases h
    | fuel => rw [hm] at h; cases h
  case p =>
    cases hm : mathScan toks .p x.syms [] s with
    | val r =>
      rw [hm] at h
      simp only [Out.bind_val] at h
      rw [scan_same hm (doAssert_errs h he)] at h
      unfold doAssert at h
      dsimp only at h
      split at h
      · cases h
      · simp only [Out.val.injEq] at h; rw [← h]
    | ub => rw [hm] at h; cases h
    | bug n => rw [hm] at h; cases h
    | fuel => rw [hm] at h; cases h

theorem errIf_ne_nil {b : Bool} {e : PErr} (h : s.errs ≠ []) : (s.errIf b e).errs ≠ [] :=
  fun h2 => h (errIf_errs_nil h2)

theorem symChecks_ne_nil {k : Kind} {pos t : Nat} (h : s.errs ≠ []) : (symChecks toks k pos t s).errs ≠ [] := by
  unfold symChecks
  repeat' split
  all_goals first | exact errIf_ne_nil h | exact h

theorem symChecks_undecl {k : Kind} {pos t : Nat} : (symChecks toks k pos t s).undecl = s.undecl := by
  unfold symChecks
  repeat' split
  all_goals simp

/-- Outcomes of one look-up. -/
theorem resolve_cases {nm : Name} :
    (resolve toks s nm = .ub ∧ ∀ p ∈ toks, p.1.length < nm.length) ∨ (resolve toks s nm = .bug 33 ∧ s.undecl ≠ 0) ∨
    ∃ t s1, resolve toks s nm = .val (t, s1) ∧ (s.errs ≠ [] → s1.errs ≠ []) ∧ (s1.undecl ≠ s.undecl → s1.errs ≠ []) := by
  unfold resolve
  split
  · rename_i h; exact Or.inl ⟨rfl, h⟩
  · right
    split
    · dsimp only
      split
      · rename_i h; exact Or.inl ⟨rfl, by omega⟩
      · exact Or.inr ⟨_, _, rfl, by intro _; simp [strayFix, PState.err], by intro _; simp [strayFix, PState.err]⟩
    · right
      split
      · exact ⟨_, _, rfl, id, fun h => absurd rfl h⟩
      · exact ⟨_, _, rfl, by intro _; simp [strayFix, PState.err], by intro _; simp [strayFix, PState.err]⟩
    · right
      split
      · exact ⟨_, _, rfl, id, fun h => absurd rfl h⟩
      · exact ⟨_, _, rfl, by intro _; simp [strayFix, PState.err], by intro _; simp [strayFix, PState.err]⟩

/-- A scan of a math section that does not end normally. -/
theorem mathScan_cases {k : Kind} : ∀ {nms : List Name} {acc : List Nat} {s : PState}, (s.errs = [] → s.undecl = 0) →
    (∃ r, mathScan toks k nms acc s = .val r) ∨
    (mathScan toks k nms acc s = .ub ∧ ∃ nm ∈ nms, ∀ p ∈ toks, p.1.length < nm.length) ∨
    (mathScan toks k nms acc s = .bug 33 ∧ (s.errs ≠ [] ∨ ∃ n1 n2 m s1, nms = n1 ++ n2 ∧ mathScan toks k n1 acc s = .val (m, s1) ∧ s1.errs ≠ []))
  | [], acc, s, _ => Or.inl ⟨_, rfl⟩
  | nm :: nms, acc, s, hu => by
    rcases resolve_cases (toks := toks) (s := s) (nm := nm) with ⟨h1, h2⟩ | ⟨h1, h2⟩ | ⟨t, s1, h1, h2, h3⟩
    · right; left
      unfold mathScan; rw [h1]
      exact ⟨rfl, nm, by simp, h2⟩
    · right; right
      unfold mathScan; rw [h1]
      refine ⟨rfl, Or.inl fun he => h2 (hu he)⟩
    · by_cases hs : s.errs = []
      · have hu1 : (symChecks toks k acc.length t s1).errs = [] → (symChecks toks k acc.length t s1).undecl = 0 := by
          intro he
          have he1 : s1.errs = [] := by
            by_contra hc; exact symChecks_ne_nil hc he
          rw [symChecks_undecl]
          by_contra hc
          exact h3 (by rw [hu hs]; exact hc) he1
        rcases mathScan_cases (nms := nms) (acc := acc ++ [t]) hu1 with ⟨r, h4⟩ | ⟨h4, n, hn, h5⟩ | ⟨h4, h5⟩
        · left; refine ⟨r, ?_⟩; rw [mathScan, h1]; exact h4
        · right; left
          exact ⟨by rw [mathScan, h1]; exact h4, n, by simp [hn], h5⟩
        · right; right
          refine ⟨by rw [mathScan, h1]; exact h4, Or.inr ?_⟩
          rcases h5 with h5 | ⟨n1, n2, m, s2, rfl, h6, h7⟩
          · exact ⟨[nm], nms, _, _, rfl, by rw [mathScan, h1]; rfl, h5⟩
          · exact ⟨nm :: n1, n2, m, s2, rfl, by rw [mathScan, h1]; exact h6, h7⟩
      · have hne := h2 hs
        have hne2 := symChecks_ne_nil (toks := toks) (k := k) (pos := acc.length) (t := t) hne
        rcases mathScan_cases (nms := nms) (acc := acc ++ [t]) (s := symChecks toks k acc.length t s1) (fun h => absurd h hne2)
          with ⟨r, h4⟩ | ⟨h4, n, hn, h5⟩ | ⟨h4, h5⟩
        · left; refine ⟨r, ?_⟩; rw [mathScan, h1]; exact h4
        · right; left
          exact ⟨by rw [mathScan, h1]; exact h4, n, by simp [hn], h5⟩
        · right; right
          exact ⟨by rw [mathScan, h1]; exact h4, Or.inl hs⟩

/-- While reading statement `x`, starting from `s`, an error message is printed before any other check of `x`. -/
def ErrIn (toks : List (Name × Bool)) (s : PState) (x : Src) : Prop :=
  ∃ n1 n2 m s1, x.syms = n1 ++ n2 ∧ mathScan toks x.kind n1 [] s = .val (m, s1) ∧
    (s1.errs ≠ [] ∨ (n2 = [] ∧ (lenChecks x.kind m s1).errs ≠ []))

theorem doStmt_cases {done : List Src} (h : s.errs = [] → PInv toks done s) (hu : s.errs = [] → s.undecl = 0)
    (hk : x.kind ≠ .none) :
    (∃ s', doStmt toks s x = .val s') ∨
    (doStmt toks s x = .ub ∧ ∃ nm ∈ x.syms, ∀ p ∈ toks, p.1.length < nm.length) ∨
    (∃ n, doStmt toks s x = .bug n ∧ (s.errs ≠ [] ∨ ErrIn toks s x)) := by
  have key : ∀ (k : Kind) (g : List Nat → PState → Out PState), x.kind = k →
      doStmt toks s x = (mathScan toks k x.syms [] s >>= fun r => g r.1 (lenChecks k r.1 r.2)) →
      (∀ m, (∃ s', g m s = .val s') ∨ s.errs ≠ [] ∨ ¬ ScanOk toks s k x.syms m) →
      (∀ m s1, (∃ s', g m s1 = .val s') ∨ ∃ n, g m s1 = .bug n) → (∃ s', doStmt toks s x = .val s') ∨
        (doStmt toks s x = .ub ∧ ∃ nm ∈ x.syms, ∀ p ∈ toks, p.1.length < nm.length) ∨
        (∃ n, doStmt toks s x = .bug n ∧ (s.errs ≠ [] ∨ ErrIn toks s x)) := by
    intro k g hxk he hgood hg
    rw [he]
    rcases mathScan_cases (toks := toks) (k := k) (nms := x.syms) (acc := []) hu with ⟨⟨m, s1⟩, h4⟩ | ⟨h4, n, hn, h5⟩ | ⟨h4, h5⟩
    · rw [h4, Out.bind_val]
      rcases hg m (lenChecks k m s1) with h6 | ⟨n, h6⟩
      · exact Or.inl h6
      · by_cases he2 : (lenChecks k m s1).errs = []
        · have hsame := scan_same h4 he2
          have he3 : s1.errs = [] := by rw [← (lenChecks_ok he2).1]; exact he2
          dsimp only
          rw [hsame] at h6 ⊢
          rcases hgood m with h7 | h7 | h7
          · exact Or.inl h7
          · exact Or.inr (Or.inr ⟨n, h6, Or.inl h7⟩)
          · exact absurd (mathScan_scanOk h4 he3).2 h7
        · refine Or.inr (Or.inr ⟨n, h6, Or.inr ⟨x.syms, [], m, s1, by simp, by rw [hxk]; exact h4, Or.inr ⟨rfl, ?_⟩⟩⟩)
          rw [hxk]; exact he2
    · rw [h4]; exact Or.inr (Or.inl ⟨rfl, n, hn, h5⟩)
    · rw [h4]
      refine Or.inr (Or.inr ⟨33, rfl, ?_⟩)
      rcases h5 with h5 | ⟨n1, n2, m, s1, h6, h7, h8⟩
      · exact Or.inl h5
      · exact Or.inr ⟨n1, n2, m, s1, h6, by rw [hxk]; exact h7, Or.inl h8⟩
  cases hx : x.kind with
  | lb => left; unfold doStmt; rw [hx]; exact ⟨_, rfl⟩
  | rb => left; unfold doStmt; rw [hx]; exact ⟨_, rfl⟩
  | c => left; unfold doStmt; rw [hx]; exact ⟨_, rfl⟩
  | v => left; unfold doStmt; rw [hx]; exact ⟨_, rfl⟩
  | none => exact absurd hx hk
  | d =>
    refine key .d (fun m q => .val { dPairs m q with out := (dPairs m q).out ++ [{ kind := .d, math := m }] }) hx ?_ (fun m => Or.inl ⟨_, rfl⟩) (fun m q => Or.inl ⟨_, rfl⟩)
    unfold doStmt; rw [hx]
  | e =>
    refine key .e (fun m q => .val (doHyp toks .e m q)) hx ?_ (fun m => Or.inl ⟨_, rfl⟩) (fun m q => Or.inl ⟨_, rfl⟩)
    unfold doStmt; rw [hx]
  | f =>
    refine key .f (fun m q => .val (doHyp toks .f m q)) hx ?_ (fun m => Or.inl ⟨_, rfl⟩) (fun m q => Or.inl ⟨_, rfl⟩)
    unfold doStmt; rw [hx]
  | a =>
    refine key .a (fun m q => doAssert toks .a m q) hx ?_ ?_ ?_
    · unfold doStmt; rw [hx]
    · intro m
      by_cases he : s.errs = []
      · by_cases hs : ScanOk toks s .a x.syms m
        · left
          have hI := h he
          exact doAssert_no_bug hI (fun t ht hv => hI.var_mem (hs.act t ht).1 hv)
        · exact Or.inr (Or.inr hs)
      · exact Or.inr (Or.inl he)
    · intro m q
      unfold doAssert
      dsimp only
      split
      · exact Or.inr ⟨_, rfl⟩
      · exact Or.inl ⟨_, rfl⟩
  | p =>
    refine key .p (fun m q => doAssert toks .p m q) hx ?_ ?_ ?_
    · unfold doStmt; rw [hx]
    · intro m
      by_cases he : s.errs = []
      · by_cases hs : ScanOk toks s .p x.syms m
        · left
          have hI := h he
          exact doAssert_no_bug hI (fun t ht hv => hI.var_mem (hs.act t ht).1 hv)
        · exact Or.inr (Or.inr hs)
      · exact Or.inr (Or.inl he)
    · intro m q
      unfold doAssert
      dsimp only
      split
      · exact Or.inr ⟨_, rfl⟩
      · exact Or.inl ⟨_, rfl⟩

theorem doStmts_cases : ∀ {xs done : List Src} {s : PState}, (s.errs = [] → PInv toks done s) → (s.errs = [] → s.undecl = 0) →
    (∀ x ∈ xs, x.kind ≠ .none) → (∃ rest, toks = declToks (done ++ xs ++ rest)) →
    (∃ s', doStmts toks xs s = .val s') ∨
    (doStmts toks xs s = .ub ∧ ∃ x ∈ xs, ∃ nm ∈ x.syms, ∀ p ∈ toks, p.1.length < nm.length) ∨
    (∃ n, doStmts toks xs s = .bug n ∧ ∃ pre x post s1, xs = pre ++ x :: post ∧ doStmts toks pre s = .val s1 ∧
      (s1.errs ≠ [] ∨ ErrIn toks s1 x))
  | [], _, _, _, _, _, _ => Or.inl ⟨_, rfl⟩
  | x :: xs, done, s, h, hu, hk, ⟨rest, hr⟩ => by
    rcases doStmt_cases (x := x) h hu (hk x (by simp)) with ⟨s1, h1⟩ | ⟨h1, h2⟩ | ⟨n, h1, h2⟩
    · have hI1 : s1.errs = [] → PInv toks (done ++ [x]) s1 := fun he =>
        (h (doStmt_errs h1 he)).stmt (rest := xs ++ rest) (by rw [hr]; simp) h1 he
      have hu1 : s1.errs = [] → s1.undecl = 0 := fun he => by
        rw [doStmt_undecl h1 he]; exact hu (doStmt_errs h1 he)
      rcases doStmts_cases (xs := xs) hI1 hu1 (fun y hy => hk y (by simp [hy])) ⟨rest, by rw [hr]; simp⟩
        with ⟨s2, h2⟩ | ⟨h2, y, hy, h3⟩ | ⟨n, h2, pre, y, post, s2, rfl, h3, h4⟩
      · left; exact ⟨s2, by rw [doStmts, h1]; exact h2⟩
      · right; left; exact ⟨by rw [doStmts, h1]; exact h2, y, by simp [hy], h3⟩
      · right; right
        exact ⟨n, by rw [doStmts, h1]; exact h2, x :: pre, y, post, s2, rfl, by rw [doStmts, h1]; exact h3, h4⟩
    · right; left; exact ⟨by rw [doStmts, h1]; rfl, x, by simp, h2⟩
    · right; right; exact ⟨n, by rw [doStmts, h1]; rfl, [], x, xs, s, rfl, rfl, h2⟩

/-- **C38** READ of a source in which no symbol is longer than every declared symbol ends normally, or stops with an internal
error only after an error message about the source has been printed (for an earlier statement, or for the statement at hand). -/
theorem C38_internal_error_needs_error_partial {src : List Src} (hk : ∀ x ∈ src, x.kind ≠ .none)
    (hlen : ∀ x ∈ src, ∀ nm ∈ x.syms, ∃ p ∈ declToks src, nm.length ≤ p.1.length) :
    (∃ s, parseStatements src = .val s) ∨
    ∃ n, parseStatements src = .bug n ∧ ∃ pre x post s, src = pre ++ x :: post ∧ doStmts (declToks src) pre {} = .val s ∧
      (s.errs ≠ [] ∨ ErrIn (declToks src) s x) := by
  unfold parseStatements
  rcases doStmts_cases (fun _ => PInv.init (declToks src)) (fun _ => rfl) hk ⟨[], by simp⟩ with ⟨s, h⟩ | ⟨h, x, hx, nm, hn, h2⟩ | ⟨n, h, h2⟩
  · rw [h]; exact Or.inl ⟨_, rfl⟩
  · obtain ⟨p, hp, hle⟩ := hlen x hx nm hn
    have := h2 p hp; omega
  · rw [h]; exact Or.inr ⟨n, rfl, h2⟩

/-- Without that proviso: a symbol longer than every declared one makes READ read outside `symbolLenExists`. -/
theorem C38_long_symbol_out_of_bounds : parseStatements
    [{ kind := .c, syms := [['T']] }, { kind := .a, label := ['a'], syms := [['T'], ['l', 'o', 'n', 'g']] }] = .ub := by
  rfl

/-- Internal error 1708 is reachable after an error message: `$c T $. $v x $. e $e T k $. ${ $v k $. $} a $a T x $.` -/
theorem C38_bug1708_reachable : parseStatements
    [{ kind := .c, syms := [['T']] }, { kind := .v, syms := [['x']] }, { kind := .e, label := ['e'], syms := [['T'], ['k']] },
     { kind := .lb }, { kind := .v, syms := [['k']] }, { kind := .rb }, { kind := .a, label := ['a'], syms := [['T'], ['x']] }] = .bug 1708 := by
  rfl

end MM.Pars
