import Verif.Pars.Props
/-! # Only assertions have mandatory hypotheses -/
namespace MM.Pars
open MM.Veri MM.Spec

variable {toks : List (Name × Bool)} {s s' : PState}

theorem err_out {e : PErr} : (s.err e).out = s.out := rfl
theorem errIf_out {b : Bool} {e : PErr} : (s.errIf b e).out = s.out := by unfold PState.errIf; split <;> rfl

theorem resolve_out {nm : Name} {t : Nat} (h : resolve toks s nm = .val (t, s')) : s'.out = s.out := by
  unfold resolve at h
  split at h
  · cases h
  · split at h
    · dsimp only at h
      split at h
      · cases h
      · cases h; rfl
    · split at h <;> cases h <;> rfl
    · split at h <;> cases h <;> rfl

theorem symChecks_out {k : Kind} {p t : Nat} : (symChecks toks k p t s).out = s.out := by
  unfold symChecks
  repeat' split
  all_goals first | rfl | exact errIf_out

theorem mathScan_out {k : Kind} : ∀ (nms : List Name) (acc : List Nat) {m : List Nat} {s s' : PState}, mathScan toks k nms acc s = .val (m, s') → s'.out = s.out
  | [], acc, m, s, s', h => by cases h; rfl
  | nm :: nms, acc, m, s, s', h => by
    have e : mathScan toks k (nm :: nms) acc s = (resolve toks s nm >>= fun r => mathScan toks k nms (acc ++ [r.1]) (symChecks toks k acc.length r.1 r.2)) := rfl
    rw [e] at h
    cases hr : resolve toks s nm <;> rw [hr] at h
    all_goals try cases h
    rename_i r
    rw [Out.bind_val] at h
    rw [mathScan_out nms _ h, symChecks_out, resolve_out (t := r.1) (s' := r.2) hr]

theorem lenChecks_out {k : Kind} {m : List Nat} : (lenChecks k m s).out = s.out := by
  unfold lenChecks
  repeat' split
  all_goals first | exact errIf_out | rfl

theorem dInner_out (p : Nat) : ∀ (l : List Nat) (s : PState), (dInner p l s).out = s.out
  | [], _ => rfl
  | q :: l, s => by
    rw [dInner]
    split
    · rfl
    · dsimp only
      split
      · exact dInner_out p l s
      · rw [dInner_out p l]

theorem dPairs_out : ∀ (l : List Nat) (s : PState), (dPairs l s).out = s.out
  | [], _ => rfl
  | p :: l, s => by rw [dPairs, dPairs_out l, dInner_out]

/-- Each statement is recorded; a statement that is no assertion has no hypotheses. -/
theorem doStmt_new {x : Src} (h : doStmt toks s x = .val s') : ∃ st, s'.out = s.out ++ [st] ∧ (st.kind = .a ∨ st.kind = .p ∨ st.reqHyp = []) := by
  have key : ∀ {k : Kind} (_ : k = .a ∨ k = .p), (mathScan toks k x.syms [] s >>= fun r => doAssert toks k r.1 (lenChecks k r.1 r.2)) = .val s' →
      ∃ st, s'.out = s.out ++ [st] ∧ (st.kind = .a ∨ st.kind = .p ∨ st.reqHyp = []) := by
    intro k hk h
    cases hm : mathScan toks k x.syms [] s <;> rw [hm] at h
    all_goals try cases h
    rename_i r
    rw [Out.bind_val] at h
    have hl : (lenChecks k r.1 r.2).out = s.out := by rw [lenChecks_out, mathScan_out _ _ (m := r.1) (s' := r.2) hm]
    unfold doAssert at h
    dsimp only at h
    split at h
    · cases h
    · simp only [Out.val.injEq] at h
      rw [← h]
      refine ⟨_, by rw [hl], ?_⟩
      rcases hk with rfl | rfl
      · exact Or.inl rfl
      · exact Or.inr (Or.inl rfl)
  have keyH : ∀ {k : Kind}, (mathScan toks k x.syms [] s >>= fun r => .val (doHyp toks k r.1 (lenChecks k r.1 r.2))) = .val s' →
      ∃ st, s'.out = s.out ++ [st] ∧ (st.kind = .a ∨ st.kind = .p ∨ st.reqHyp = []) := by
    intro k h
    cases hm : mathScan toks k x.syms [] s <;> rw [hm] at h
    all_goals try cases h
    rename_i r
    refine ⟨{ kind := k, math := r.1 }, ?_, Or.inr (Or.inr rfl)⟩
    unfold doHyp
    dsimp only
    rw [lenChecks_out, mathScan_out _ _ (m := r.1) (s' := r.2) hm]
  unfold doStmt at h
  split at h
  · cases h; exact ⟨_, rfl, Or.inr (Or.inr rfl)⟩
  · cases h; exact ⟨_, rfl, Or.inr (Or.inr rfl)⟩
  · cases h; exact ⟨_, rfl, Or.inr (Or.inr rfl)⟩
  · cases h; exact ⟨_, rfl, Or.inr (Or.inr rfl)⟩
  · cases hm : mathScan toks .d x.syms [] s <;> rw [hm] at h
    all_goals try cases h
    rename_i r
    refine ⟨{ kind := .d, math := r.1 }, ?_, Or.inr (Or.inr rfl)⟩
    dsimp only
    rw [dPairs_out, lenChecks_out, mathScan_out _ _ (m := r.1) (s' := r.2) hm]
  · exact keyH h
  · exact keyH h
  · exact key (Or.inl rfl) h
  · exact key (Or.inr rfl) h
  · cases h

theorem doStmts_out : ∀ (xs : List Src) {s s' : PState}, doStmts toks xs s = .val s' → (∀ st ∈ s.out, st.kind = .a ∨ st.kind = .p ∨ st.reqHyp = []) →
    ∀ st ∈ s'.out, st.kind = .a ∨ st.kind = .p ∨ st.reqHyp = []
  | [], s, s', h, hs => by cases h; exact hs
  | x :: xs, s, s', h, hs => by
    have e : doStmts toks (x :: xs) s = (doStmt toks s x >>= doStmts toks xs) := rfl
    rw [e] at h
    cases hr : doStmt toks s x <;> rw [hr] at h
    all_goals try cases h
    rename_i s1
    rw [Out.bind_val] at h
    obtain ⟨st, h1, h2⟩ := doStmt_new hr
    refine doStmts_out xs h ?_
    rw [h1]
    intro y hy
    rcases List.mem_append.mp hy with hy | hy
    · exact hs y hy
    · rw [List.mem_singleton] at hy; rw [hy]; exact h2

/-- Only assertions have mandatory hypotheses. -/
theorem reqHyp_nil {src : List Src} (h : parseStatements src = .val s) (i : Nat) (hk : (s.stmt i).kind ≠ .a) (hk' : (s.stmt i).kind ≠ .p) : (s.stmt i).reqHyp = [] := by
  unfold parseStatements at h
  cases hd : doStmts (declToks src) src {} <;> rw [hd] at h
  all_goals try (cases h; done)
  rename_i s1
  rw [Out.bind_val] at h
  simp only [Out.val.injEq] at h
  have h0 : ∀ st ∈ ({} : PState).out, st.kind = .a ∨ st.kind = .p ∨ st.reqHyp = [] := by
    intro st hst
    have : st = {} := by simpa using hst
    rw [this]
    exact Or.inr (Or.inr rfl)
  have hall := doStmts_out src hd h0
  have ho : s.out = s1.out := by rw [← h]; exact errIf_out
  unfold PState.stmt at *
  rw [ho] at hk hk' ⊢
  by_cases hi : i < s1.out.length
  · have := hall (s1.out.getD i {}) (by simp [List.getD_eq_getElem?_getD, hi])
    rcases this with h1 | h1 | h1
    · exact absurd h1 hk
    · exact absurd h1 hk'
    · exact h1
  · rw [List.getD_eq_getElem?_getD, List.getElem?_eq_none (by omega)]
    rfl

end MM.Pars
