import Verif.Pars.Assert
/-! # The whole of `parseStatements` -/
namespace MM.Pars
open MM.Veri MM.Spec

variable {toks : List (Name × Bool)} {done : List Src} {s s' : PState} {x : Src} {y : Stmt}

theorem PInv.init (toks : List (Name × Bool)) : PInv toks [] {} := by
  have hk : ∀ i, kindAt (kinds []) i = .none := by
    intro i; unfold kindAt; split <;> simp [kinds]
  have hst : ∀ i, (({} : PState).stmt i) = {} := by
    intro i; unfold PState.stmt
    cases i with
    | zero => rfl
    | succ i => rw [List.getD_eq_default]; simp
  have hA : ∀ j, ¬ Active (kinds []) j 1 := by rintro j ⟨h1, h2, _⟩; omega
  constructor
  · constructor
    · rfl
    · rfl
    · intro i; rw [hk, hst]
    · intro i x hx; simp at hx
    · intro i hi; rw [hk] at hi; simp at hi
    · intro i hi; rw [hk] at hi; simp at hi
    · intro i hi; rw [hk] at hi; simp at hi
    · intro i hi; rw [hk] at hi; simp at hi
    · intro i hi; rw [hk] at hi; simp at hi
  all_goals first
    | rfl
    | exact ⟨List.Pairwise.nil, fun x hx => by cases hx⟩
    | (intro x; constructor
       · intro hx; cases hx
       · rintro ⟨j, hj, _⟩; exact absurd hj (hA j))
    | (intro t t' h1 h2 h3; cases h1; done)
    | (intro i x hx; simp at hx; done)
    | (intro x hx; cases hx; done)
    | exact List.Pairwise.nil
    | exact Int.le_refl _
    | (intro t; simp; done)
    | (intro j hj; exact absurd hj (hA j))

theorem dPairs_errs {l : List Nat} (h : (dPairs l s).errs = []) : s.errs = [] := (dPairs_spec h).1

theorem doAssert_errs {k : Kind} {m : List Nat} (h : doAssert toks k m s = .val s') (he : s'.errs = []) : s.errs = [] := by
  unfold doAssert at h
  dsimp only at h
  split at h
  · cases h
  · simp only [Out.val.injEq] at h
    rw [← h] at he
    simp only [List.append_eq_nil_iff] at he
    exact he.1.1.1

/-- If no error has been reported after a statement, none had been before. -/
theorem doStmt_errs (h : doStmt toks s x = .val s') (he : s'.errs = []) : s.errs = [] := by
  have hsc : ∀ {k : Kind} {syms m s1}, mathScan toks k syms [] s = .val (m, s1) → (lenChecks k m s1).errs = [] → s.errs = [] := by
    intro k syms m s1 h1 h2
    have := (lenChecks_ok h2).1
    rw [this] at h2
    exact mathScan_errs h1 h2
  unfold doStmt at h
  cases hk : x.kind <;> rw [hk] at h <;> dsimp only at h
  case c | v =>
    simp only [Out.val.injEq] at h
    rw [← h] at he
    unfold doDecl at he
    dsimp only at he
    exact errIf_errs_nil (errIf_errs_nil (declFold_errs he))
  case lb => simp only [Out.val.injEq] at h; rw [← h] at he; exact he
  case rb =>
    simp only [Out.val.injEq] at h
    rw [← h] at he
    unfold doRb at he
    dsimp only at he
    have := errIf_errs_nil he
    exact this
  case none => cases h
  case d =>
    cases hm : mathScan toks .d x.syms [] s with
    | val r =>
      rw [hm] at h
      simp only [Out.bind_val, Out.val.injEq] at h
      rw [← h] at he
      exact hsc hm (dPairs_errs he)
    | ub => rw [hm] at h; cases h
    | bug n => rw [hm] at h; cases h
    | fuel => rw [hm] at h; cases h
  case e =>
    cases hm : mathScan toks .e x.syms [] s with
    | val r =>
      rw [hm] at h
      simp only [Out.bind_val, Out.val.injEq] at h
      rw [← h] at he
      exact hsc hm he
    | ub => rw [hm] at h; cases h
    | bug n => rw [hm] at h; cases h
    | fuel => rw [hm] at h; cases h
  case f =>
    cases hm : mathScan toks .f x.syms [] s with
    | val r =>
      rw [hm] at h
      simp only [Out.bind_val, Out.val.injEq] at h
      rw [← h] at he
      exact hsc hm he
    | ub => rw [hm] at h; cases h
    | bug n => rw [hm] at h; cases h
    | fuel => rw [hm] at h; cases h
  case a =>
    cases hm : mathScan toks .a x.syms [] s with
    | val r =>
      rw [hm] at h
      simp only [Out.bind_val] at h
      exact hsc hm (doAssert_errs h he)
    | ub => rw [hm] at h; cases h
    | bug n => rw [hm] at h; cases h
    | fuel => rw [hm] at h; cases h
  case p =>
    cases hm : mathScan toks .p x.syms [] s with
    | val r =>
      rw [hm] at h
      simp only [Out.bind_val] at h
      exact hsc hm (doAssert_errs h he)
    | ub => rw [hm] at h; cases h
    | bug n => rw [hm] at h; cases h
    | fuel => rw [hm] at h; cases h

theorem doStmts_errs : ∀ {xs : List Src} {s s' : PState}, doStmts toks xs s = .val s' → s'.errs = [] → s.errs = []
  | [], _, _, h, he => by simp only [doStmts, Out.val.injEq] at h; rw [h]; exact he
  | x :: xs, s, s', h, he => by
    unfold doStmts at h
    cases hx : doStmt toks s x with
    | val s1 => rw [hx, Out.bind_val] at h; exact doStmt_errs hx (doStmts_errs h he)
    | ub => rw [hx] at h; cases h
    | bug n => rw [hx] at h; cases h
    | fuel => rw [hx] at h; cases h

/-- One statement preserves the invariant. -/
theorem PInv.stmt (h : PInv toks done s) {rest : List Src} (htoks : toks = declToks (done ++ x :: rest))
    (hs : doStmt toks s x = .val s') (he : s'.errs = []) : PInv toks (done ++ [x]) s' := by
  unfold doStmt at hs
  cases hk : x.kind <;> rw [hk] at hs <;> dsimp only at hs
  case c => simp only [Out.val.injEq] at hs; rw [← hs] at he ⊢; exact h.decl (Or.inl rfl) hk htoks he
  case v => simp only [Out.val.injEq] at hs; rw [← hs] at he ⊢; exact h.decl (Or.inr rfl) hk htoks he
  case lb => simp only [Out.val.injEq] at hs; rw [← hs] at he ⊢; exact h.lb hk
  case rb => simp only [Out.val.injEq] at hs; rw [← hs] at he ⊢; exact h.rb hk he
  case none => cases hs
  case d =>
    cases hm : mathScan toks .d x.syms [] s with
    | val r =>
      rw [hm] at hs
      simp only [Out.bind_val, Out.val.injEq] at hs
      rw [← hs] at he ⊢
      exact h.d hk hm he
    | ub => rw [hm] at hs; cases hs
    | bug n => rw [hm] at hs; cases hs
    | fuel => rw [hm] at hs; cases hs
  case e =>
    cases hm : mathScan toks .e x.syms [] s with
    | val r =>
      rw [hm] at hs
      simp only [Out.bind_val, Out.val.injEq] at hs
      rw [← hs] at he ⊢
      exact h.hyp (Or.inl rfl) hk hm he
    | ub => rw [hm] at hs; cases hs
    | bug n => rw [hm] at hs; cases hs
    | fuel => rw [hm] at hs; cases hs
  case f =>
    cases hm : mathScan toks .f x.syms [] s with
    | val r =>
      rw [hm] at hs
      simp only [Out.bind_val, Out.val.injEq] at hs
      rw [← hs] at he ⊢
      exact h.hyp (Or.inr rfl) hk hm he
    | ub => rw [hm] at hs; cases hs
    | bug n => rw [hm] at hs; cases hs
    | fuel => rw [hm] at hs; cases hs
  case a =>
    cases hm : mathScan toks .a x.syms [] s with
    | val r =>
      rw [hm] at hs
      simp only [Out.bind_val] at hs
      exact h.assert (Or.inl rfl) hk hm hs he
    | ub => rw [hm] at hs; cases hs
    | bug n => rw [hm] at hs; cases hs
    | fuel => rw [hm] at hs; cases hs
  case p =>
    cases hm : mathScan toks .p x.syms [] s with
    | val r =>
      rw [hm] at hs
      simp only [Out.bind_val] at hs
      exact h.assert (Or.inr rfl) hk hm hs he
    | ub => rw [hm] at hs; cases hs
    | bug n => rw [hm] at hs; cases hs
    | fuel => rw [hm] at hs; cases hs

theorem PInv.stmts : ∀ {xs done : List Src} {s s' : PState}, PInv toks done s → ∀ {rest}, toks = declToks (done ++ xs ++ rest) →
    doStmts toks xs s = .val s' → s'.errs = [] → PInv toks (done ++ xs) s'
  | [], done, s, s', h, _, _, hs, _ => by
    simp only [doStmts, Out.val.injEq] at hs; subst hs; simpa using h
  | x :: xs, done, s, s', h, rest, ht, hs, he => by
    unfold doStmts at hs
    cases hx : doStmt toks s x with
    | val s1 =>
      rw [hx, Out.bind_val] at hs
      have h1 := h.stmt (rest := xs ++ rest) (by rw [ht]; simp) hx (doStmts_errs hs he)
      have := PInv.stmts h1 (rest := rest) (by rw [ht]; simp) hs he
      simpa using this
    | ub => rw [hx] at hs; cases hs
    | bug n => rw [hx] at hs; cases hs
    | fuel => rw [hx] at hs; cases hs

theorem doStmts_append : ∀ {xs ys : List Src} {s s' : PState}, doStmts toks (xs ++ ys) s = .val s' →
    ∃ s1, doStmts toks xs s = .val s1 ∧ doStmts toks ys s1 = .val s'
  | [], ys, s, s', h => ⟨s, rfl, h⟩
  | x :: xs, ys, s, s', h => by
    rw [List.cons_append] at h
    rw [doStmts] at h ⊢
    cases hx : doStmt toks s x with
    | val s1 =>
      rw [hx, Out.bind_val] at h
      obtain ⟨s2, h1, h2⟩ := doStmts_append h
      exact ⟨s2, by rw [Out.bind_val]; exact h1, h2⟩
    | ub => rw [hx] at h; cases h
    | bug n => rw [hx] at h; cases h
    | fuel => rw [hx] at h; cases h

/-- The invariant holds at the end of a READ without error messages. -/
theorem parse_inv {src : List Src} {s : PState} (h : parseStatements src = .val s) (he : s.errs = []) :
    PInv (declToks src) src s ∧ s.scope = 0 := by
  unfold parseStatements at h
  cases hd : doStmts (declToks src) src {} with
  | val s1 =>
    rw [hd] at h
    simp only [Out.bind_val, Out.val.injEq] at h
    rw [← h] at he
    obtain ⟨e1, e2⟩ := errIf_nil he
    rw [e1] at he h
    subst h
    have hI := (PInv.init (declToks src)).stmts (rest := []) (by simp) hd he
    rw [List.nil_append] at hI
    refine ⟨hI, ?_⟩
    have := hI.nonneg
    simp at e2
    omega
  | ub => rw [hd] at h; cases h
  | bug n => rw [hd] at h; cases h
  | fuel => rw [hd] at h; cases h

/-! ## Blocks -/

/-- A stack has grown by entries of scope at least `d`. -/
def Grown {α : Type} (sc : α → Int) (d : Int) (old new : List α) : Prop :=
  ∃ l, new = l ++ old ∧ ∀ x ∈ l, d ≤ sc x

theorem Grown.refl {α : Type} (sc : α → Int) (d : Int) (l : List α) : Grown sc d l l := ⟨[], rfl, by simp⟩

theorem Grown.trans {α : Type} {sc : α → Int} {d : Int} {a b c : List α} (h1 : Grown sc d a b) (h2 : Grown sc d b c) :
    Grown sc d a c := by
  obtain ⟨l, rfl, hl⟩ := h1
  obtain ⟨l', rfl, hl'⟩ := h2
  refine ⟨l' ++ l, by simp, ?_⟩
  intro x hx
  rcases List.mem_append.mp hx with h | h
  · exact hl' x h
  · exact hl x h

theorem popScope_grown {α : Type} {sc : α → Int} {d : Int} {old new : List α} (h : Grown sc d old new)
    (ho : ∀ x ∈ old, sc x < d) : popScope sc d new = old := by
  obtain ⟨l, rfl, hl⟩ := h
  unfold popScope
  induction l with
  | nil =>
    cases old with
    | nil => rfl
    | cons a old => rw [List.nil_append, List.dropWhile_cons_of_neg]; have := ho a (by simp); simp; omega
  | cons a l ih =>
    rw [List.cons_append, List.dropWhile_cons_of_pos (by simpa using hl a (by simp))]
    exact ih (fun x hx => hl x (by simp [hx]))

/-- All five stacks have grown by entries of scope at least `s.scope`, which is unchanged. -/
structure Ext (s s' : PState) : Prop where
  scope : s'.scope = s.scope
  c : Grown (·.2) s.scope s.cstack s'.cstack
  v : Grown (·.2) s.scope s.vstack s'.vstack
  e : Grown (·.scope) s.scope s.estack s'.estack
  f : Grown (·.scope) s.scope s.fstack s'.fstack
  d : Grown (·.scope) s.scope s.dstack s'.dstack

theorem Ext.refl (s : PState) : Ext s s := ⟨rfl, .refl _ _ _, .refl _ _ _, .refl _ _ _, .refl _ _ _, .refl _ _ _⟩

theorem Ext.trans {a b c : PState} (h1 : Ext a b) (h2 : Ext b c) : Ext a c :=
  ⟨h2.scope.trans h1.scope, h1.c.trans (h1.scope ▸ h2.c), h1.v.trans (h1.scope ▸ h2.v), h1.e.trans (h1.scope ▸ h2.e),
    h1.f.trans (h1.scope ▸ h2.f), h1.d.trans (h1.scope ▸ h2.d)⟩

theorem declOne_ext {isV : Bool} {t : Nat} (h : (declOne toks isV s t).errs = []) : Ext s (declOne toks isV s t) := by
  obtain ⟨_, _, e⟩ := declOne_errs h
  rw [e]
  cases isV
  · exact ⟨rfl, ⟨[(t, s.scope)], rfl, by simp⟩, .refl _ _ _, .refl _ _ _, .refl _ _ _, .refl _ _ _⟩
  · exact ⟨rfl, .refl _ _ _, ⟨[(t, s.scope)], rfl, by simp⟩, .refl _ _ _, .refl _ _ _, .refl _ _ _⟩

theorem declFold_ext {isV : Bool} : ∀ {ts : List Nat} {s : PState}, (ts.foldl (declOne toks isV) s).errs = [] →
    Ext s (ts.foldl (declOne toks isV) s)
  | [], s, _ => Ext.refl s
  | _ :: ts, _, h => (declOne_ext (declFold_errs (ts := ts) h)).trans (declFold_ext (ts := ts) h)

/-- A statement other than a bracket only adds entries of the current scope. -/
theorem doStmt_ext (hlb : x.kind ≠ .lb) (hrb : x.kind ≠ .rb) (h : doStmt toks s x = .val s') (he : s'.errs = []) : Ext s s' := by
  have hsc : ∀ {k : Kind} {syms m s1}, mathScan toks k syms [] s = .val (m, s1) → (lenChecks k m s1).errs = [] → lenChecks k m s1 = s := by
    intro k syms m s1 h1 h2
    have := (lenChecks_ok h2).1
    rw [this] at h2 ⊢
    exact (mathScan_scanOk h1 h2).1
  have hdecl : ∀ k, (doDecl toks k x.syms s).errs = [] → Ext s (doDecl toks k x.syms s) := by
    intro k hd
    unfold doDecl at hd ⊢
    dsimp only at hd ⊢
    have h1 := declFold_errs hd
    obtain ⟨e1, _⟩ := errIf_nil h1
    rw [e1] at h1 hd ⊢
    obtain ⟨e2, _⟩ := errIf_nil h1
    rw [e2] at hd ⊢
    have := declFold_ext hd
    exact ⟨this.scope, this.c, this.v, this.e, this.f, this.d⟩
  have hassert : ∀ k m s1, doAssert toks k m s1 = .val s' → Ext s1 s' := by
    intro k m s1 hd
    unfold doAssert at hd
    dsimp only at hd
    split at hd
    · cases hd
    · simp only [Out.val.injEq] at hd
      rw [← hd]
      exact ⟨rfl, .refl _ _ _, .refl _ _ _, .refl _ _ _, .refl _ _ _, .refl _ _ _⟩
  unfold doStmt at h
  cases hk : x.kind <;> rw [hk] at h <;> dsimp only at h
  case c => simp only [Out.val.injEq] at h; rw [← h] at he ⊢; exact hdecl _ he
  case v => simp only [Out.val.injEq] at h; rw [← h] at he ⊢; exact hdecl _ he
  case lb => exact absurd hk hlb
  case rb => exact absurd hk hrb
  case none => cases h
  case d =>
    cases hm : mathScan toks .d x.syms [] s with
    | val r =>
      rw [hm] at h
      simp only [Out.bind_val, Out.val.injEq] at h
      rw [← h] at he ⊢
      have h1 : (dPairs r.1 (lenChecks .d r.1 r.2)).errs = [] := he
      obtain ⟨a1, _, new, a3, a4, _⟩ := dPairs_spec h1
      have := hsc hm a1
      rw [a3, this]
      rw [this] at a4
      exact ⟨rfl, .refl _ _ _, .refl _ _ _, .refl _ _ _, .refl _ _ _, ⟨new, rfl, fun z hz => by dsimp only; rw [(a4 z hz).2.1]⟩⟩
    | ub => rw [hm] at h; cases h
    | bug n => rw [hm] at h; cases h
    | fuel => rw [hm] at h; cases h
  case e =>
    cases hm : mathScan toks .e x.syms [] s with
    | val r =>
      rw [hm] at h
      simp only [Out.bind_val, Out.val.injEq] at h
      rw [← h] at he ⊢
      have := hsc hm he
      rw [this]
      exact ⟨rfl, .refl _ _ _, .refl _ _ _, ⟨[_], rfl, by simp⟩, .refl _ _ _, .refl _ _ _⟩
    | ub => rw [hm] at h; cases h
    | bug n => rw [hm] at h; cases h
    | fuel => rw [hm] at h; cases h
  case f =>
    cases hm : mathScan toks .f x.syms [] s with
    | val r =>
      rw [hm] at h
      simp only [Out.bind_val, Out.val.injEq] at h
      rw [← h] at he ⊢
      have := hsc hm he
      rw [this]
      exact ⟨rfl, .refl _ _ _, .refl _ _ _, .refl _ _ _, ⟨[_], rfl, by simp⟩, .refl _ _ _⟩
    | ub => rw [hm] at h; cases h
    | bug n => rw [hm] at h; cases h
    | fuel => rw [hm] at h; cases h
  case a =>
    cases hm : mathScan toks .a x.syms [] s with
    | val r =>
      rw [hm] at h
      simp only [Out.bind_val] at h
      have := hsc hm (doAssert_errs h he)
      rw [this] at h
      exact hassert _ _ _ h
    | ub => rw [hm] at h; cases h
    | bug n => rw [hm] at h; cases h
    | fuel => rw [hm] at h; cases h
  case p =>
    cases hm : mathScan toks .p x.syms [] s with
    | val r =>
      rw [hm] at h
      simp only [Out.bind_val] at h
      have := hsc hm (doAssert_errs h he)
      rw [this] at h
      exact hassert _ _ _ h
    | ub => rw [hm] at h; cases h
    | bug n => rw [hm] at h; cases h
    | fuel => rw [hm] at h; cases h

end MM.Pars
