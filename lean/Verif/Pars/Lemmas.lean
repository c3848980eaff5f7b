import Verif.Pars.Stmts
import Verif.Spec.Scope
import Verif.Veri.Lemmas
/-! # Lemmas on the building blocks of `parseStatements` -/
namespace MM.Pars
open MM.Veri MM.Spec

/-! ## Stacks with scopes -/

/-- Scopes do not increase from the top of the stack down and are at most the current one. -/
structure ScopeSorted {α : Type} (sc : α → Int) (cur : Int) (l : List α) : Prop where
  sorted : l.Pairwise fun x y => sc y ≤ sc x
  bound : ∀ x ∈ l, sc x ≤ cur

theorem mem_popScope {α : Type} {sc : α → Int} {cur : Int} {l : List α}
    (h : l.Pairwise fun x y => sc y ≤ sc x) {x : α} :
    x ∈ popScope sc cur l ↔ x ∈ l ∧ sc x < cur := by
  unfold popScope
  induction l with
  | nil => simp
  | cons a l ih =>
    rw [List.pairwise_cons] at h
    by_cases ha : cur ≤ sc a
    · rw [List.dropWhile_cons_of_pos (by simpa using ha), ih h.2]
      simp only [List.mem_cons]
      constructor
      · rintro ⟨h1, h2⟩; exact ⟨Or.inr h1, h2⟩
      · rintro ⟨rfl | h1, h2⟩
        · omega
        · exact ⟨h1, h2⟩
    · rw [List.dropWhile_cons_of_neg (by simpa using ha)]
      simp only [List.mem_cons]
      constructor
      · rintro (rfl | h1)
        · exact ⟨Or.inl rfl, by omega⟩
        · exact ⟨Or.inr h1, by have := h.1 x h1; omega⟩
      · rintro ⟨h1, _⟩; exact h1

theorem mem_popped {α : Type} {sc : α → Int} {cur : Int} {l : List α}
    (h : l.Pairwise fun x y => sc y ≤ sc x) {x : α} :
    x ∈ popped sc cur l ↔ x ∈ l ∧ cur ≤ sc x := by
  unfold popped
  induction l with
  | nil => simp
  | cons a l ih =>
    rw [List.pairwise_cons] at h
    by_cases ha : cur ≤ sc a
    · rw [List.takeWhile_cons_of_pos (by simpa using ha), List.mem_cons, ih h.2]
      simp only [List.mem_cons]
      constructor
      · rintro (rfl | ⟨h1, h2⟩)
        · exact ⟨Or.inl rfl, ha⟩
        · exact ⟨Or.inr h1, h2⟩
      · rintro ⟨rfl | h1, h2⟩
        · exact Or.inl rfl
        · exact Or.inr ⟨h1, h2⟩
    · rw [List.takeWhile_cons_of_neg (by simpa using ha)]
      simp only [List.not_mem_nil, List.mem_cons, false_iff, not_and, Int.not_le]
      rintro (rfl | h1)
      · omega
      · have := h.1 x h1; omega

theorem popScope_sublist {α : Type} (sc : α → Int) (cur : Int) (l : List α) : (popScope sc cur l).Sublist l :=
  List.dropWhile_sublist _

theorem popScope_suffix {α : Type} (sc : α → Int) (cur : Int) (l : List α) : popScope sc cur l <:+ l :=
  List.dropWhile_suffix _

theorem ScopeSorted.push {α : Type} {sc : α → Int} {cur : Int} {l : List α} (h : ScopeSorted sc cur l) {x : α}
    (hx : sc x = cur) : ScopeSorted sc cur (x :: l) where
  sorted := List.pairwise_cons.mpr ⟨fun y hy => by rw [hx]; exact h.bound y hy, h.sorted⟩
  bound := by
    intro y hy
    rcases List.mem_cons.mp hy with rfl | hy
    · omega
    · exact h.bound y hy

theorem ScopeSorted.up {α : Type} {sc : α → Int} {cur : Int} {l : List α} (h : ScopeSorted sc cur l) :
    ScopeSorted sc (cur + 1) l := ⟨h.sorted, fun x hx => by have := h.bound x hx; omega⟩

theorem ScopeSorted.pop {α : Type} {sc : α → Int} {cur : Int} {l : List α} (h : ScopeSorted sc cur l) :
    ScopeSorted sc (cur - 1) (popScope sc cur l) where
  sorted := h.sorted.sublist (popScope_sublist _ _ _)
  bound := by
    intro x hx
    have := (mem_popScope h.sorted).mp hx
    omega

/-! ## Errors -/

@[simp] theorem err_errs (s : PState) (e : PErr) : (s.err e).errs = s.errs ++ [e] := rfl

theorem errIf_nil {s : PState} {b : Bool} {e : PErr} (h : (s.errIf b e).errs = []) :
    s.errIf b e = s ∧ b = false := by
  unfold PState.errIf at h ⊢
  cases b with
  | true => simp at h
  | false => simp

theorem errIf_errs_nil {s : PState} {b : Bool} {e : PErr} (h : (s.errIf b e).errs = []) : s.errs = [] := by
  rw [(errIf_nil h).1] at h; exact h

theorem errIf_false {s : PState} {e : PErr} : s.errIf false e = s := rfl

/-! ## Symbols -/

/-- The name of a declared token. -/
def tokName (toks : List (Name × Bool)) (t : Nat) : Option Name := toks[t]?.map (·.1)

theorem mem_sameName {toks : List (Name × Bool)} {nm : Name} {j : Nat} :
    j ∈ sameName toks nm ↔ j < toks.length ∧ tokName toks j = some nm := by
  simp [sameName, tokName]

theorem bestActive_spec {s : PState} : ∀ {l : List Nat} {b : Option Nat × Int} {j sc},
    bestActive s l b = (some j, sc) → b.1 = some j ∨ (j ∈ l ∧ s.active j = true)
  | [], b, j, sc, h => by simp [bestActive] at h; left; rw [h]
  | a :: l, b, j, sc, h => by
    unfold bestActive at h
    rcases bestActive_spec h with h1 | ⟨h1, h2⟩
    · split at h1
      · rename_i hc
        simp at h1 hc
        subst h1
        exact Or.inr ⟨by simp, hc.1⟩
      · exact Or.inl h1
    · exact Or.inr ⟨by simp [h1], h2⟩

/-- A symbol resolved without error is an active token of that name, and nothing changes. -/
theorem resolve_ok {toks : List (Name × Bool)} {s s' : PState} {nm : Name} {t : Nat}
    (h : resolve toks s nm = .val (t, s')) (he : s'.errs = []) :
    s' = s ∧ s.active t = true ∧ t < toks.length ∧ tokName toks t = some nm := by
  unfold resolve at h
  split at h
  · cases h
  · split at h
    · dsimp only at h
      split at h
      · cases h
      · simp only [Out.val.injEq, Prod.mk.injEq] at h
        rw [← h.2] at he
        simp [strayFix] at he
    · rename_i t0 hs
      have hm : t0 ∈ sameName toks nm := by rw [hs]; simp
      rw [mem_sameName] at hm
      split at h
      · rename_i ha
        simp only [Out.val.injEq, Prod.mk.injEq] at h
        obtain ⟨rfl, rfl⟩ := h
        exact ⟨rfl, ha, hm.1, hm.2⟩
      · simp only [Out.val.injEq, Prod.mk.injEq] at h
        rw [← h.2] at he
        simp [strayFix] at he
    · rename_i t0 ts _ hs
      split at h
      · rename_i j sc hb
        simp only [Out.val.injEq, Prod.mk.injEq] at h
        obtain ⟨rfl, rfl⟩ := h
        rcases bestActive_spec hb with h1 | ⟨h1, h2⟩
        · cases h1
        · have hm : j ∈ sameName toks nm := by rw [hs]; exact h1
          rw [mem_sameName] at hm
          exact ⟨rfl, h2, hm.1, hm.2⟩
      · simp only [Out.val.injEq, Prod.mk.injEq] at h
        rw [← h.2] at he
        simp [strayFix] at he

/-- The per-symbol checks, as a predicate. -/
def SymOk (toks : List (Name × Bool)) (k : Kind) (pos t : Nat) : Prop :=
  if k = .d then tokIsVar toks t = true
  else if pos = 0 then tokIsVar toks t = false
  else if k = .f then if pos = 1 then tokIsVar toks t = true else pos ≠ 2
  else True

theorem symChecks_ok {toks : List (Name × Bool)} {k : Kind} {pos t : Nat} {s : PState}
    (h : (symChecks toks k pos t s).errs = []) :
    symChecks toks k pos t s = s ∧ SymOk toks k pos t := by
  unfold symChecks at h ⊢
  unfold SymOk
  by_cases h1 : k = .d
  · rw [if_pos h1] at h ⊢; rw [if_pos h1]
    have := errIf_nil h; exact ⟨this.1, by simpa using this.2⟩
  · rw [if_neg h1] at h ⊢; rw [if_neg h1]
    by_cases h2 : pos = 0
    · rw [if_pos h2] at h ⊢; rw [if_pos h2]
      have := errIf_nil h; exact ⟨this.1, by simpa using this.2⟩
    · rw [if_neg h2] at h ⊢; rw [if_neg h2]
      by_cases h3 : k = .f
      · rw [if_pos h3] at h ⊢; rw [if_pos h3]
        by_cases h4 : pos = 1
        · rw [if_pos h4] at h ⊢; rw [if_pos h4]
          have := errIf_nil h; exact ⟨this.1, by simpa using this.2⟩
        · rw [if_neg h4] at h ⊢; rw [if_neg h4]
          have := errIf_nil h; exact ⟨this.1, by simpa using this.2⟩
      · rw [if_neg h3, if_neg h3]; exact ⟨rfl, trivial⟩

/-- What is known of a math string scanned without error, in state `s`. -/
structure ScanOk (toks : List (Name × Bool)) (s : PState) (k : Kind) (syms : List Name) (m : List Nat) : Prop where
  len : m.length = syms.length
  act : ∀ t ∈ m, s.active t = true ∧ t < toks.length
  names : m.map (tokName toks) = syms.map some
  checks : ∀ p t, m[p]? = some t → SymOk toks k p t

theorem mathScan_errs {toks : List (Name × Bool)} {k : Kind} : ∀ {nms : List Name} {acc m : List Nat} {s s' : PState},
    mathScan toks k nms acc s = .val (m, s') → s'.errs = [] → s.errs = []
  | [], _, _, _, _, h, he => by simp [mathScan] at h; rw [h.2]; exact he
  | nm :: nms, acc, m, s, s', h, he => by
    unfold mathScan at h
    cases hr : resolve toks s nm with
    | val r =>
      rw [hr] at h
      dsimp only [Out.bind_val] at h
      have h1 := mathScan_errs h he
      have h2 := symChecks_ok h1
      rw [h2.1] at h1
      have h3 := resolve_ok (t := r.1) (s' := r.2) hr h1
      rw [← h3.1]; exact h1
    | ub => rw [hr] at h; cases h
    | bug n => rw [hr] at h; cases h
    | fuel => rw [hr] at h; cases h

theorem mathScan_ok {toks : List (Name × Bool)} {k : Kind} : ∀ {nms : List Name} {acc m : List Nat} {s s' : PState},
    mathScan toks k nms acc s = .val (m, s') → s'.errs = [] →
    s' = s ∧ ∃ ts, m = acc ++ ts ∧ ts.map (tokName toks) = nms.map some ∧
      (∀ t ∈ ts, s.active t = true ∧ t < toks.length) ∧
      ∀ p t, ts[p]? = some t → SymOk toks k (acc.length + p) t
  | [], acc, m, s, s', h, he => by
    simp [mathScan] at h
    exact ⟨h.2.symm, [], by simp [h.1], rfl, by simp, by simp⟩
  | nm :: nms, acc, m, s, s', h, he => by
    unfold mathScan at h
    cases hr : resolve toks s nm with
    | val r =>
      rw [hr] at h
      dsimp only [Out.bind_val] at h
      have h1 := mathScan_errs h he
      have h2 := symChecks_ok h1
      rw [h2.1] at h1 h
      have h3 := resolve_ok (t := r.1) (s' := r.2) hr h1
      rw [h3.1] at h
      obtain ⟨e1, ts, e2, e3, e4, e5⟩ := mathScan_ok h he
      refine ⟨e1, r.1 :: ts, by rw [e2]; simp, by simp [e3, h3.2.2.2], ?_, ?_⟩
      · intro t ht
        rcases List.mem_cons.mp ht with rfl | ht
        · exact ⟨h3.2.1, h3.2.2.1⟩
        · exact e4 t ht
      · intro p t hp
        cases p with
        | zero => simp at hp; subst hp; exact h2.2
        | succ p =>
          have := e5 p t (by simpa using hp)
          simpa [Nat.add_assoc, Nat.add_comm 1 p] using this
    | ub => rw [hr] at h; cases h
    | bug n => rw [hr] at h; cases h
    | fuel => rw [hr] at h; cases h

theorem mathScan_scanOk {toks : List (Name × Bool)} {k : Kind} {nms : List Name} {m : List Nat} {s s' : PState}
    (h : mathScan toks k nms [] s = .val (m, s')) (he : s'.errs = []) : s' = s ∧ ScanOk toks s k nms m := by
  obtain ⟨h1, ts, h2, h3, h4, h5⟩ := mathScan_ok h he
  simp at h2
  subst h2
  refine ⟨h1, ⟨?_, h4, h3, fun p t hp => by simpa using h5 p t hp⟩⟩
  simpa using congrArg List.length h3

theorem lenChecks_ok {k : Kind} {m : List Nat} {s : PState} (h : (lenChecks k m s).errs = []) :
    lenChecks k m s = s ∧ (if k = .d then 2 ≤ m.length else m ≠ [] ∧ (k = .f → 2 ≤ m.length)) := by
  unfold lenChecks at h ⊢
  split at h
  · rename_i hd
    rw [if_pos hd, if_pos hd]
    have := errIf_nil h
    exact ⟨this.1, by simpa using this.2⟩
  · rename_i hd
    rw [if_neg hd, if_neg hd]
    split at h
    · simp at h
    · rename_i hm
      rw [if_neg hm]
      have := errIf_nil h
      refine ⟨this.1, by simpa using hm, ?_⟩
      rintro rfl
      simpa using this.2

/-! ## Variables and flags -/

theorem extractVars_cons_mem {T : Toks} {vs : List Nat} {k : Nat} {m : List Nat} :
    (k :: m).foldl (fun v t => if T.isVar t then (if t ∈ v then v else v ++ [t]) else v) vs =
      m.foldl (fun v t => if T.isVar t then (if t ∈ v then v else v ++ [t]) else v)
        (if T.isVar k then (if k ∈ vs then vs else vs ++ [k]) else vs) := rfl

/-- The flags say which variables have been seen. -/
def FlagOk (tmp : Nat → Nat) (dom vs : List Nat) (fl : Nat → Nat) : Prop :=
  ∀ k ∈ dom, fl (tmp k) ≠ 0 ↔ k ∈ vs

/-- Different active variables have different flag positions. -/
def TmpInj (tmp : Nat → Nat) (dom : List Nat) : Prop := ∀ k ∈ dom, ∀ k' ∈ dom, tmp k = tmp k' → k = k'

theorem flagOk_upd {tmp : Nat → Nat} {dom vs : List Nat} {fl : Nat → Nat} (hi : TmpInj tmp dom)
    (h : FlagOk tmp dom vs fl) {k x : Nat} (hk : k ∈ dom) (hx : x ≠ 0) :
    FlagOk tmp dom (vs ++ [k]) (upd fl (tmp k) x) := by
  intro j hj
  by_cases e : tmp j = tmp k
  · have := hi j hj k hk e; subst this
    simp [hx]
  · rw [upd_other _ _ e, h j hj]
    have : j ≠ k := by rintro rfl; exact e rfl
    simp [this]

theorem flagOk_reupd {tmp : Nat → Nat} {dom vs : List Nat} {fl : Nat → Nat} (hi : TmpInj tmp dom)
    (h : FlagOk tmp dom vs fl) {k x : Nat} (hk : k ∈ dom) (hv : k ∈ vs) (hx : x ≠ 0) :
    FlagOk tmp dom vs (upd fl (tmp k) x) := by
  intro j hj
  by_cases e : tmp j = tmp k
  · have := hi j hj k hk e; subst this
    simp [hx, hv]
  · rw [upd_other _ _ e, h j hj]

theorem markVars_spec {toks : List (Name × Bool)} {T : Toks} (hT : T.isVar = tokIsVar toks) {tmp : Nat → Nat}
    {mark : Nat} (hm : mark ≠ 0) {dom : List Nat} (hi : TmpInj tmp dom) : ∀ {m vs : List Nat} {fl : Nat → Nat},
    (∀ k ∈ m, tokIsVar toks k = true → k ∈ dom) → FlagOk tmp dom vs fl →
    (markVars toks tmp mark m (vs, fl)).1 =
      m.foldl (fun v t => if T.isVar t then (if t ∈ v then v else v ++ [t]) else v) vs ∧
    FlagOk tmp dom (markVars toks tmp mark m (vs, fl)).1 (markVars toks tmp mark m (vs, fl)).2
  | [], vs, fl, _, h => ⟨rfl, h⟩
  | k :: m, vs, fl, hd, h => by
    have hd' : ∀ k ∈ m, tokIsVar toks k = true → k ∈ dom := fun k hk => hd k (by simp [hk])
    unfold markVars
    rw [extractVars_cons_mem, hT]
    by_cases hv : tokIsVar toks k = true
    · have hk := hd k (by simp) hv
      have hf := h k hk
      by_cases h0 : fl (tmp k) = 0
      · have hnm : k ∉ vs := by rw [← hf]; simp [h0]
        rw [if_pos (by simp [hv, h0]), if_pos hv, if_neg hnm, ← hT]
        exact markVars_spec hT hm hi hd' (flagOk_upd hi h hk hm)
      · have hnm : k ∈ vs := hf.mp h0
        rw [if_neg (by simp [h0]), if_pos hv, if_pos hnm, ← hT]
        exact markVars_spec hT hm hi hd' h
    · rw [if_neg (by simp [hv]), if_neg hv, ← hT]
      exact markVars_spec hT hm hi hd' h

theorem markE_spec {tmp : Nat → Nat} {dom : List Nat} (hi : TmpInj tmp dom) : ∀ {m vs : List Nat} {fl : Nat → Nat},
    (∀ k ∈ m, k ∈ dom) → FlagOk tmp dom vs fl →
    (markE tmp m (vs, fl)).1 = m.foldl (fun v t => if t ∈ v then v else v ++ [t]) vs ∧
    FlagOk tmp dom (markE tmp m (vs, fl)).1 (markE tmp m (vs, fl)).2
  | [], vs, fl, _, h => ⟨rfl, h⟩
  | k :: m, vs, fl, hd, h => by
    have hd' : ∀ k ∈ m, k ∈ dom := fun k hk => hd k (by simp [hk])
    have hk := hd k (by simp)
    have hf := h k hk
    unfold markE
    rw [List.foldl_cons]
    by_cases h0 : fl (tmp k) = 0
    · have hnm : k ∉ vs := by rw [← hf]; simp [h0]
      rw [if_pos h0, if_neg hnm]
      exact markE_spec hi hd' (flagOk_upd hi h hk (by simp))
    · have hnm : k ∈ vs := hf.mp h0
      rw [if_neg h0, if_pos hnm]
      exact markE_spec hi hd' (flagOk_reupd hi h hk hnm (by simp))

theorem foldl_insert_mem {m vs : List Nat} {x : Nat} :
    x ∈ m.foldl (fun v t => if t ∈ v then v else v ++ [t]) vs ↔ x ∈ vs ∨ x ∈ m := by
  induction m generalizing vs with
  | nil => simp
  | cons a m ih =>
    rw [List.foldl_cons, ih]
    split
    · rename_i h
      simp only [List.mem_cons]
      constructor
      · rintro (h1 | h1)
        · exact Or.inl h1
        · exact Or.inr (Or.inr h1)
      · rintro (h1 | rfl | h1)
        · exact Or.inl h1
        · exact Or.inl h
        · exact Or.inr h1
    · simp only [List.mem_append, List.mem_cons, List.not_mem_nil, or_false, or_assoc]

theorem foldl_insert_nodup {m vs : List Nat} (h : vs.Nodup) :
    (m.foldl (fun v t => if t ∈ v then v else v ++ [t]) vs).Nodup := by
  induction m generalizing vs with
  | nil => exact h
  | cons a m ih =>
    rw [List.foldl_cons]
    apply ih
    split
    · exact h
    · rename_i hn
      rw [List.nodup_append]
      exact ⟨h, by simp, by intro x hx y hy; simp at hy; subst hy; rintro rfl; exact hn hx⟩

/-- The scan of the `$e` stack. -/
theorem markEs_spec {tmp : Nat → Nat} {dom : List Nat} (hi : TmpInj tmp dom) : ∀ {es : List HypEnt} {r : List Nat × (Nat → Nat)},
    (∀ h ∈ es, ∀ k ∈ h.vars, k ∈ dom) → FlagOk tmp dom r.1 r.2 → r.1.Nodup →
    let r' := es.foldl (fun r h => markE tmp h.vars r) r
    FlagOk tmp dom r'.1 r'.2 ∧ r'.1.Nodup ∧ ∀ x, x ∈ r'.1 ↔ x ∈ r.1 ∨ ∃ h ∈ es, x ∈ h.vars
  | [], r, _, h, hn => ⟨h, hn, by simp⟩
  | e :: es, r, hd, h, hn => by
    obtain ⟨vs, fl⟩ := r
    have h1 := markE_spec hi (m := e.vars) (fun k hk => hd e (by simp) k hk) h
    rw [List.foldl_cons]
    have hn' : (markE tmp e.vars (vs, fl)).1.Nodup := by rw [h1.1]; exact foldl_insert_nodup hn
    obtain ⟨a, b, c⟩ := markEs_spec hi (es := es) (fun g hg => hd g (by simp [hg])) h1.2 hn'
    refine ⟨a, b, fun x => ?_⟩
    rw [c x, h1.1, foldl_insert_mem]
    simp [or_assoc]

/-- The scan of the `$f` stack when every `$f` has exactly one variable. -/
theorem fScan_spec {tmp : Nat → Nat} {dom vs : List Nat} (hi : TmpInj tmp dom) : ∀ {fs : List HypEnt} {r : FScan},
    (∀ h ∈ fs, ∃ k ∈ dom, h.vars = [k]) → FlagOk tmp dom vs r.fl →
    (fScan tmp fs r).req = r.req ++ (fs.filter fun h => h.vars.any (· ∈ vs)).map (·.stmt) ∧
    (fScan tmp fs r).opt = r.opt ++ (fs.filter fun h => !h.vars.any (· ∈ vs)).map (·.stmt) ∧
    FlagOk tmp dom vs (fScan tmp fs r).fl ∧ (fScan tmp fs r).errs = r.errs
  | [], r, _, h => by simp [fScan, h]
  | f :: fs, r, hd, h => by
    obtain ⟨k, hk, hkv⟩ := hd f (by simp)
    have hd' : ∀ h ∈ fs, ∃ k ∈ dom, h.vars = [k] := fun g hg => hd g (by simp [hg])
    unfold fScan
    rw [hkv]
    simp only [fOthers, Bool.false_eq_true, if_false, List.append_nil]
    by_cases h0 : r.fl (tmp k) = 0
    · have hnm : k ∉ vs := by rw [← h k hk]; simp [h0]
      rw [if_neg (by simp [h0])]
      obtain ⟨a, b, c, d⟩ := fScan_spec hi (fs := fs)
        (r := ⟨r.req, r.opt ++ [f.stmt], r.fl, r.errs⟩) hd' h
      refine ⟨?_, ?_, c, by rw [d]⟩
      · rw [a]; simp [hkv, hnm]
      · rw [b]; simp [hkv, hnm]
    · have hnm : k ∈ vs := (h k hk).mp h0
      rw [if_pos h0]
      obtain ⟨a, b, c, d⟩ := fScan_spec hi (fs := fs)
        (r := ⟨r.req ++ [f.stmt], r.opt, upd r.fl (tmp k) 1, r.errs⟩)
        hd' (flagOk_reupd hi h hk hnm (by simp))
      refine ⟨?_, ?_, c, by rw [d]⟩
      · rw [a]; simp [hkv, hnm]
      · rw [b]; simp [hkv, hnm]

theorem leftOver_errs {toks : List (Name × Bool)} {tmp : Nat → Nat} {n : Nat} : ∀ {m : List Nat}
    {fl : Nat → Nat} {er : List PErr}, (leftOver toks tmp n m (fl, er)).2 = [] →
    (leftOver toks tmp n m (fl, er)).1 = fl ∧ er = []
  | [], _, _, h => ⟨rfl, h⟩
  | k :: m, fl, er, h => by
    unfold leftOver at h ⊢
    split at h
    · have := (leftOver_errs h).2; simp at this
    · rename_i hc
      rw [if_neg hc]
      exact leftOver_errs h

/-! ## The merge of `$e` and `$f` numbers -/

theorem mergeHyps_mem' : ∀ (es fs : List Nat) {x : Nat}, x ∈ mergeHyps es fs ↔ x ∈ es ∨ x ∈ fs
  | [], fs, x => by simp [mergeHyps]
  | e :: es, [], x => by simp [mergeHyps, mergeGo]
  | e :: es, f :: fs, x => by
    rw [mergeHyps_cons]
    split
    · simp only [List.mem_cons, mergeHyps_mem' (e :: es) fs]
      constructor
      · rintro (h | h | h) <;> simp [h]
      · rintro ((h | h) | h | h) <;> simp [h]
    · simp only [List.mem_cons, mergeHyps_mem' es (f :: fs)]
      constructor
      · rintro (h | h | h) <;> simp [h]
      · rintro ((h | h) | h | h) <;> simp [h]
  termination_by es fs => es.length + fs.length

theorem mergeHyps_mem {es fs : List Nat} {x : Nat} : x ∈ mergeHyps es fs ↔ x ∈ es ∨ x ∈ fs := mergeHyps_mem' es fs

theorem mergeHyps_sorted' : ∀ (es fs : List Nat), es.Pairwise (· < ·) → fs.Pairwise (· < ·) →
    (∀ e ∈ es, ∀ f ∈ fs, e ≠ f) → (mergeHyps es fs).Pairwise (· < ·)
  | [], fs, _, h, _ => by simpa [mergeHyps] using h
  | e :: es, [], h, _, _ => by simpa [mergeHyps, mergeGo] using h
  | e :: es, f :: fs, h1, h2, hd => by
    rw [mergeHyps_cons]
    have g1 := List.pairwise_cons.mp h1
    have g2 := List.pairwise_cons.mp h2
    have hne := hd e (by simp) f (by simp)
    split
    · rename_i hgt
      rw [List.pairwise_cons]
      refine ⟨fun x hx => ?_, mergeHyps_sorted' (e :: es) fs h1 g2.2 (fun a ha b hb => hd a ha b (by simp [hb]))⟩
      rcases mergeHyps_mem.mp hx with hx | hx
      · rcases List.mem_cons.mp hx with rfl | hx
        · omega
        · have := g1.1 x hx; omega
      · exact g2.1 x hx
    · rename_i hgt
      rw [List.pairwise_cons]
      refine ⟨fun x hx => ?_, mergeHyps_sorted' es (f :: fs) g1.2 h2 (fun a ha b hb => hd a (by simp [ha]) b hb)⟩
      rcases mergeHyps_mem.mp hx with hx | hx
      · exact g1.1 x hx
      · rcases List.mem_cons.mp hx with rfl | hx
        · omega
        · have := g2.1 x hx; omega
  termination_by es fs => es.length + fs.length

theorem mergeHyps_sorted {es fs : List Nat} (h1 : es.Pairwise (· < ·)) (h2 : fs.Pairwise (· < ·))
    (h3 : ∀ e ∈ es, ∀ f ∈ fs, e ≠ f) : (mergeHyps es fs).Pairwise (· < ·) := mergeHyps_sorted' es fs h1 h2 h3

/-! ## `$d` -/

theorem dInner_errs {p : Nat} : ∀ {l : List Nat} {s : PState}, (dInner p l s).errs = [] →
    s.errs = [] ∧ p ∉ l
  | [], s, h => ⟨h, by simp⟩
  | q :: rest, s, h => by
    unfold dInner at h
    split at h
    · simp at h
    · rename_i hpq
      dsimp only at h
      split at h
      · have := dInner_errs h; exact ⟨this.1, by simp [hpq, this.2]⟩
      · have := dInner_errs h; exact ⟨this.1, by simp [hpq, this.2]⟩

/-- `dInner` changes only the `$d` stack (when no error is reported). -/
theorem dInner_spec {p : Nat} : ∀ {l : List Nat} {s : PState}, (dInner p l s).errs = [] →
    ∃ new : List DisjEnt, dInner p l s = { s with dstack := new ++ s.dstack } ∧
      (∀ e ∈ new, e.stmt = s.n ∧ e.scope = s.scope ∧ ∃ q ∈ l, p ≠ q ∧ e.a = min p q ∧ e.b = max p q) ∧
      (∀ q ∈ l, ∃ e ∈ new ++ s.dstack, e.a = min p q ∧ e.b = max p q) ∧
      ((s.dstack.map fun e => (e.a, e.b)).Nodup → ((new ++ s.dstack).map fun e => (e.a, e.b)).Nodup)
  | [], s, _ => ⟨[], rfl, by simp, by simp, fun h => h⟩
  | q :: rest, s, h => by
    have hn := (dInner_errs h).2
    have hpq : p ≠ q := fun e => hn (by simp [e])
    unfold dInner at h ⊢
    rw [if_neg hpq] at h ⊢
    dsimp only at h ⊢
    by_cases hc : s.dstack.any (fun e => e.a == min p q && e.b == max p q) = true
    · rw [if_pos hc] at h ⊢
      obtain ⟨new, e1, e2, e3, e4⟩ := dInner_spec h
      refine ⟨new, e1, ?_, ?_, e4⟩
      · intro e he
        obtain ⟨a, b, x, hx, c⟩ := e2 e he
        exact ⟨a, b, x, by simp [hx], c⟩
      · intro x hx
        rcases List.mem_cons.mp hx with rfl | hx
        · obtain ⟨e, he, hh⟩ := List.any_eq_true.mp hc
          simp at hh
          exact ⟨e, by simp [he], hh⟩
        · exact e3 x hx
    · rw [if_neg hc] at h ⊢
      obtain ⟨new, e1, e2, e3, e4⟩ := dInner_spec h
      refine ⟨new ++ [⟨min p q, max p q, s.n, s.scope⟩], by rw [e1]; simp, ?_, ?_, ?_⟩
      · intro e he
        rcases List.mem_append.mp he with he | he
        · obtain ⟨a, b, x, hx, c⟩ := e2 e he
          exact ⟨a, b, x, by simp [hx], c⟩
        · simp at he; subst he
          exact ⟨rfl, rfl, q, by simp, hpq, rfl, rfl⟩
      · intro x hx
        rcases List.mem_cons.mp hx with rfl | hx
        · exact ⟨⟨min p x, max p x, s.n, s.scope⟩, by simp, rfl, rfl⟩
        · obtain ⟨e, he, hh⟩ := e3 x hx
          exact ⟨e, by simpa using he, hh⟩
      · intro hnd
        have := e4 (by
          simp only [List.map_cons, List.nodup_cons]
          refine ⟨?_, hnd⟩
          intro hmem
          apply hc
          rw [List.mem_map] at hmem
          obtain ⟨e, he, hh⟩ := hmem
          simp only [Prod.mk.injEq] at hh
          exact List.any_eq_true.mpr ⟨e, he, by simp [hh]⟩)
        simpa using this

theorem dPairs_spec : ∀ {l : List Nat} {s : PState}, (dPairs l s).errs = [] →
    s.errs = [] ∧ l.Nodup ∧
    ∃ new : List DisjEnt, dPairs l s = { s with dstack := new ++ s.dstack } ∧
      (∀ e ∈ new, e.stmt = s.n ∧ e.scope = s.scope ∧ e.a < e.b ∧ e.a ∈ l ∧ e.b ∈ l) ∧
      (∀ a ∈ l, ∀ b ∈ l, a < b → ∃ e ∈ new ++ s.dstack, e.a = a ∧ e.b = b) ∧
      ((s.dstack.map fun e => (e.a, e.b)).Nodup → ((new ++ s.dstack).map fun e => (e.a, e.b)).Nodup)
  | [], s, h => ⟨h, by simp, [], rfl, by simp, by simp, fun h => h⟩
  | p :: rest, s, h => by
    unfold dPairs at h ⊢
    obtain ⟨h1, h2, new2, e1, e2, e3, e4⟩ := dPairs_spec h
    obtain ⟨g1, g2⟩ := dInner_errs h1
    obtain ⟨new1, f1, f2, f3, f4⟩ := dInner_spec h1
    rw [f1] at e1 e2 e3 e4 ⊢
    refine ⟨g1, by simp [g2, h2], new2 ++ new1, by rw [e1]; simp, ?_, ?_, ?_⟩
    · intro e he
      rcases List.mem_append.mp he with he | he
      · obtain ⟨a, b, c, d, f⟩ := e2 e he
        exact ⟨a, b, c, by simp [d], by simp [f]⟩
      · obtain ⟨a, b, q, hq, hpq, c, d⟩ := f2 e he
        refine ⟨a, b, by omega, ?_, ?_⟩
        · rw [c]; rcases Nat.le_total p q with h | h
          · rw [Nat.min_eq_left h]; simp
          · rw [Nat.min_eq_right h]; simp [hq]
        · rw [d]; rcases Nat.le_total p q with h | h
          · rw [Nat.max_eq_right h]; simp [hq]
          · rw [Nat.max_eq_left h]; simp
    · intro a ha b hb hab
      rcases List.mem_cons.mp ha with ea | ha' <;> rcases List.mem_cons.mp hb with eb | hb'
      · omega
      · subst ea
        obtain ⟨e, he, hh⟩ := f3 b hb'
        rw [Nat.min_eq_left (by omega), Nat.max_eq_right (by omega)] at hh
        exact ⟨e, by simp at he ⊢; tauto, hh⟩
      · subst eb
        obtain ⟨e, he, hh⟩ := f3 a ha'
        rw [Nat.min_eq_right (by omega), Nat.max_eq_left (by omega)] at hh
        exact ⟨e, by simp at he ⊢; tauto, hh⟩
      · obtain ⟨e, he, hh⟩ := e3 a ha' b hb' hab
        exact ⟨e, by simp at he ⊢; tauto, hh⟩
    · intro hnd
      have := e4 (f4 hnd)
      simpa using this

end MM.Pars
