import Verif.Extr.Model
import Verif.Pars.ReadProps
/-!
# Which statement declares a token
-/
namespace MM.Extr
open MM.Veri MM.Pars MM.Spec

theorem declFold_out {toks : List (Name × Bool)} {isV : Bool} : ∀ {ts : List Nat} {s : PState}, (ts.foldl (declOne toks isV) s).out = s.out
  | [], _ => rfl
  | t :: ts, s => by
    rw [List.foldl_cons, declFold_out]
    unfold declOne
    dsimp only
    have : ∀ (s : PState) (b : Bool) (e : PErr), (s.errIf b e).out = s.out := by intro s b e; cases b <;> rfl
    split <;> exact this _ _ _

theorem doStmt_out {toks : List (Name × Bool)} {s s' : PState} {x : Src} (h : doStmt toks s x = .val s') (he : s'.errs = []) :
    ∃ y : Stmt, s'.out = s.out ++ [y] ∧ (x.kind = .c ∨ x.kind = .v → y.math = (List.range x.syms.length).map (· + s.next)) := by
  unfold doStmt at h
  cases hk : x.kind <;> rw [hk] at h <;> dsimp only at h
  case c | v =>
    simp only [Out.val.injEq] at h
    rw [← h]
    unfold doDecl
    exact ⟨_, rfl, fun _ => rfl⟩
  case lb => simp only [Out.val.injEq] at h; rw [← h]; exact ⟨_, rfl, fun h => by simp at h⟩
  case rb => simp only [Out.val.injEq] at h; rw [← h]; exact ⟨_, rfl, fun h => by simp at h⟩
  case none => cases h
  case d =>
    cases hm : mathScan toks .d x.syms [] s with
    | val r =>
      rw [hm] at h
      simp only [Out.bind_val, Out.val.injEq] at h
      rw [← h] at he ⊢
      dsimp only
      obtain ⟨_, _, new, e, _⟩ := dPairs_spec (l := r.1) (s := lenChecks .d r.1 r.2) he
      rw [e, scan_same hm (dPairs_errs he)]
      exact ⟨_, rfl, fun h => by simp at h⟩
    | ub => rw [hm] at h; cases h
    | bug n => rw [hm] at h; cases h
    | fuel => rw [hm] at h; cases h
  case e =>
    cases hm : mathScan toks .e x.syms [] s with
    | val r =>
      rw [hm] at h
      simp only [Out.bind_val, Out.val.injEq] at h
      rw [← h] at he ⊢
      rw [scan_same hm he]; exact ⟨_, rfl, fun h => by simp at h⟩
    | ub => rw [hm] at h; cases h
    | bug n => rw [hm] at h; cases h
    | fuel => rw [hm] at h; cases h
  case f =>
    cases hm : mathScan toks .f x.syms [] s with
    | val r =>
      rw [hm] at h
      simp only [Out.bind_val, Out.val.injEq] at h
      rw [← h] at he ⊢
      rw [scan_same hm he]; exact ⟨_, rfl, fun h => by simp at h⟩
    | ub => rw [hm] at h; cases h
    | bug n => rw [hm] at h; cases h
    | fuel => rw [hm] at h; cases h
  case a =>
    cases hm : mathScan toks .a x.syms [] s with
    | val r =>
      rw [hm] at h
      simp only [Out.bind_val] at h
      rw [scan_same hm (doAssert_errs h he)] at h
      unfold doAssert at h
      dsimp only at h
      split at h
      · cases h
      · simp only [Out.val.injEq] at h; rw [← h]; exact ⟨_, rfl, fun h => by simp at h⟩
    | ub => rw [hm] at h; cases h
    | bug n => rw [hm] at h; cases h
    | fuel => rw [hm] at h; cases h
  case p =>
    cases hm : mathScan toks .p x.syms [] s with
    | val r =>
      rw [hm] at h
      simp only [Out.bind_val] at h
      rw [scan_same hm (doAssert_errs h he)] at h
      unfold doAssert at h
      dsimp only at h
      split at h
      · cases h
      · simp only [Out.val.injEq] at h; rw [← h]; exact ⟨_, rfl, fun h => by simp at h⟩
    | ub => rw [hm] at h; cases h
    | bug n => rw [hm] at h; cases h
    | fuel => rw [hm] at h; cases h

/-- The tokens of the `$c` and `$v` statements are numbered in the order of the source. -/
def Numbered (done : List Src) (s : PState) : Prop := ∀ a x b, done = a ++ x :: b → x.kind = .c ∨ x.kind = .v →
  s.math (a.length + 1) = (List.range x.syms.length).map (· + (declToks a).length)

theorem numbered_stmts {toks : List (Name × Bool)} : ∀ {xs done : List Src} {s s' : PState}, PInv toks done s → toks = declToks (done ++ xs) →
    Numbered done s → doStmts toks xs s = .val s' → s'.errs = [] → Numbered (done ++ xs) s'
  | [], done, s, s', h, _, hn, hs, _ => by
    simp only [doStmts, Out.val.injEq] at hs; subst hs; simpa using hn
  | x :: xs, done, s, s', h, ht, hn, hs, he => by
    unfold doStmts at hs
    cases hx : doStmt toks s x with
    | val s1 =>
      rw [hx, Out.bind_val] at hs
      have he1 := doStmts_errs hs he
      have h1 := h.stmt (rest := xs) ht hx he1
      obtain ⟨y, ho, hy⟩ := doStmt_out hx he1
      have hn1 : Numbered (done ++ [x]) s1 := by
        intro a z b hab hz
        rcases List.append_eq_append_iff.mp hab with ⟨c, c1, c2⟩ | ⟨c, c1, c2⟩
        · cases c with
          | nil =>
            rw [List.nil_append] at c2
            obtain ⟨rfl, -⟩ := List.cons.inj c2
            rw [List.append_nil] at c1
            subst c1
            have : a.length + 1 = s.n := h.len.symm
            show (s1.stmt (a.length + 1)).math = _
            rw [this, stmt_new ho, hy hz, h.next]
          | cons w c =>
            have := (List.cons.inj c2).2
            simp at this
        · cases c with
          | nil =>
            rw [List.nil_append] at c2
            obtain ⟨rfl, -⟩ := List.cons.inj c2
            rw [List.append_nil] at c1
            subst c1
            have : done.length + 1 = s.n := h.len.symm
            show (s1.stmt (done.length + 1)).math = _
            rw [this, stmt_new ho, hy hz, h.next]
          | cons w c =>
            obtain ⟨rfl, -⟩ := List.cons.inj c2
            have := hn a _ c c1 hz
            have hlt : a.length + 1 < s.n := by
              have e := congrArg List.length c1
              rw [h.len]; simp at e; omega
            show (s1.stmt (a.length + 1)).math = _
            rw [stmt_append rfl ho hlt]; exact this
      have := numbered_stmts h1 (by rw [ht]; simp) hn1 hs he
      simpa using this
    | ub => rw [hx] at hs; cases hs
    | bug n => rw [hx] at hs; cases hs
    | fuel => rw [hx] at hs; cases hs

theorem numbered {src : List Src} {s : PState} (h : Accepted src s) : Numbered src s := by
  obtain ⟨h, he⟩ := h
  unfold parseStatements at h
  cases hd : doStmts (declToks src) src {} with
  | val s1 =>
    rw [hd] at h
    simp only [Out.bind_val, Out.val.injEq] at h
    rw [← h] at he
    obtain ⟨e1, e2⟩ := errIf_nil he
    rw [e1] at he h
    subst h
    exact numbered_stmts (PInv.init (declToks src)) (by simp) (fun a x b e => by simp at e) hd he
  | ub => rw [hd] at h; cases h
  | bug n => rw [hd] at h; cases h
  | fuel => rw [hd] at h; cases h

theorem declStmts_append : ∀ (a b : List Src) (n : Nat), declStmts n (a ++ b) = declStmts n a ++ declStmts (n + a.length) b
  | [], b, n => by simp [declStmts]
  | x :: a, b, n => by
    simp only [List.cons_append, declStmts, declStmts_append a b (n + 1), List.length_cons, List.append_assoc]
    rw [show n + 1 + a.length = n + (a.length + 1) by omega]

theorem declStmts_length : ∀ (a : List Src) (n : Nat), (declStmts n a).length = (declToks a).length
  | [], _ => rfl
  | x :: a, n => by
    simp only [declStmts, declToks, List.length_append, declStmts_length a (n + 1)]
    cases hk : x.kind <;> simp

theorem declStmts_inv : ∀ {l : List Src} {n t i : Nat}, (declStmts n l)[t]? = some i → ∃ a x b, l = a ++ x :: b ∧ i = n + a.length ∧
    (x.kind = .c ∨ x.kind = .v) ∧ (declToks a).length ≤ t ∧ t < (declToks a).length + x.syms.length
  | [], n, t, i, h => by simp [declStmts] at h
  | y :: l, n, t, i, h => by
    unfold declStmts at h
    generalize hw : (if y.kind = .c ∨ y.kind = .v then List.replicate y.syms.length n else []) = w at h
    rcases Nat.lt_or_ge t w.length with c | c
    · rw [List.getElem?_append_left c] at h
      by_cases hk : y.kind = .c ∨ y.kind = .v
      · rw [if_pos hk] at hw
        subst hw
        rw [List.length_replicate] at c
        rw [List.getElem?_replicate, if_pos c] at h
        cases h
        exact ⟨[], y, l, rfl, by simp, hk, by simp [declToks], by simpa [declToks] using c⟩
      · rw [if_neg hk] at hw; subst hw; simp at c
    · rw [List.getElem?_append_right c] at h
      obtain ⟨a, x, b, h1, h2, h3, h4, h5⟩ := declStmts_inv h
      have hlen : (declToks (y :: a)).length = w.length + (declToks a).length := by
        rw [← hw]
        simp only [declToks, List.length_append]
        cases hk : y.kind <;> simp
      exact ⟨y :: a, x, b, by rw [h1]; rfl, by rw [h2]; simp; omega, h3, by omega, by omega⟩

section
variable {src : List Src} {s : PState}

theorem split_at {i : Nat} (h1 : 1 ≤ i) (h2 : i ≤ src.length) : ∃ a x b, src = a ++ x :: b ∧ i = a.length + 1 ∧ kindAt (kinds src) i = x.kind := by
  have h : i - 1 < src.length := by omega
  refine ⟨src.take (i - 1), src[i - 1], src.drop i, ?_, ?_, ?_⟩
  · have := List.take_append_drop (i - 1) src
    rw [List.drop_eq_getElem_cons h, show i - 1 + 1 = i by omega] at this
    exact this.symm
  · rw [List.length_take, Nat.min_eq_left (by omega)]; omega
  · unfold kindAt
    rw [if_neg (by omega), List.getD_eq_getElem?_getD, List.getElem?_map, List.getElem?_eq_getElem h]; rfl

/-- The statement a token is declared by -/
theorem decl_of_mem (h : Accepted src s) {i t : Nat} (hi : kindAt (kinds src) i = .c ∨ kindAt (kinds src) i = .v) (ht : t ∈ s.math i) :
    (declStmts 1 src)[t]? = some i := by
  have hr : 1 ≤ i ∧ i ≤ src.length := by
    have : kindAt (kinds src) i ≠ .none := by rcases hi with e | e <;> rw [e] <;> simp
    unfold kindAt at this
    by_cases h0 : i = 0
    · rw [if_pos h0] at this; exact absurd rfl this
    · refine ⟨by omega, ?_⟩
      rcases Nat.lt_or_ge src.length i with c | c
      · rw [if_neg h0, List.getD_eq_default _ _ (by rw [kinds_length]; omega)] at this
        exact absurd rfl this
      · exact c
  obtain ⟨a, x, b, h1, h2, h3⟩ := split_at hr.1 hr.2
  rw [h3] at hi
  rw [h2, numbered h a x b h1 hi] at ht
  obtain ⟨k, hk, rfl⟩ := List.mem_map.mp ht
  rw [List.mem_range] at hk
  rw [h1, declStmts_append, List.getElem?_append_right (by rw [declStmts_length]; omega), declStmts_length]
  simp only [declStmts]
  rw [if_pos hi, List.getElem?_append_left (by simp; omega), List.getElem?_replicate, if_pos (by omega), h2, Nat.add_comm 1]

theorem decl_mem (h : Accepted src s) {t : Nat} (ht : t < (declToks src).length) : ∃ i, (declStmts 1 src)[t]? = some i ∧ 1 ≤ i ∧ i ≤ src.length ∧
    (kindAt (kinds src) i = .c ∨ kindAt (kinds src) i = .v) ∧ t ∈ s.math i := by
  rw [← declStmts_length src 1] at ht
  refine ⟨_, List.getElem?_eq_getElem ht, ?_⟩
  obtain ⟨a, x, b, h1, h2, h3, h4, h5⟩ := declStmts_inv (List.getElem?_eq_getElem ht)
  have hk : kindAt (kinds src) (a.length + 1) = x.kind := kindAt_cur h1
  rw [h2, Nat.add_comm 1 a.length]
  have hl : src.length = a.length + (b.length + 1) := by rw [h1]; simp
  refine ⟨by omega, by omega, by rw [hk]; exact h3, ?_⟩
  rw [numbered h a x b h1 h3]
  exact List.mem_map.mpr ⟨t - (declToks a).length, List.mem_range.mpr (by omega), by omega⟩

theorem decl_getD (h : Accepted src s) {i t : Nat} (hi : kindAt (kinds src) i = .c ∨ kindAt (kinds src) i = .v) (ht : t ∈ s.math i) :
    (declStmts 1 src).getD t 0 = i := by
  rw [List.getD_eq_getElem?_getD, decl_of_mem h hi ht]; rfl
end

end MM.Extr
