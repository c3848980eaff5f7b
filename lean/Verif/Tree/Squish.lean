import Verif.Tree.Expand
/-!
# `nmbrSquishProof` keeps the meaning of a proof
-/
namespace MM.Tree
open MM.Veri MM.Proof MM.Data Forest

variable {E : Env}

theorem instrFrom_spec (sub : List Int) (hs : sub ≠ []) : ∀ (l : List Int) (i : Nat), instrFrom sub l i = 0 ∨ ∃ A C, l = A ++ sub ++ C ∧ instrFrom sub l i = i + A.length + 1
  | [], i => by
    left; unfold instrFrom
    cases sub with
    | nil => exact absurd rfl hs
    | cons _ _ => rfl
  | x :: xs, i => by
    unfold instrFrom
    by_cases h : sub.isPrefixOf (x :: xs) = true
    · rw [if_pos h]
      obtain ⟨C, hC⟩ := List.isPrefixOf_iff_prefix.1 h
      exact Or.inr ⟨[], C, by simpa using hC.symm, by simp⟩
    · rw [if_neg h]
      rcases instrFrom_spec sub hs xs (i + 1) with h1 | ⟨A, C, h1, h2⟩
      · exact Or.inl h1
      · exact Or.inr ⟨x :: A, C, by simp [h1], by rw [h2]; simp; omega⟩

theorem nmbrInstr_spec {sub : List Int} (hs : sub ≠ []) (start : Int) (l : List Int) : nmbrInstr start l sub = 0 ∨
    ∃ A C, l = A ++ sub ++ C ∧ nmbrInstr start l sub = A.length + 1 ∧ max start 1 - 1 ≤ A.length := by
  unfold nmbrInstr
  dsimp only
  by_cases h : (max start 1 - 1).toNat > l.length
  · rw [if_pos h]; exact Or.inl rfl
  · rw [if_neg h]
    rcases instrFrom_spec sub hs (l.drop (max start 1 - 1).toNat) (max start 1 - 1).toNat with h1 | ⟨A, C, h1, h2⟩
    · exact Or.inl h1
    · refine Or.inr ⟨l.take (max start 1 - 1).toNat ++ A, C, ?_, ?_, ?_⟩
      · rw [List.append_assoc, List.append_assoc, ← List.append_assoc A, ← h1, List.take_append_drop]
      · rw [h2]; simp only [List.length_append, List.length_take]; omega
      · simp only [List.length_append, List.length_take]; omega

theorem instrFrom_first (sub : List Int) (hs : sub ≠ []) : ∀ (A C : List Int) (i : Nat), instrFrom sub (A ++ sub ++ C) i ≠ 0 ∧ instrFrom sub (A ++ sub ++ C) i ≤ i + A.length + 1
  | [], C, i => by
    cases hsub : sub with
    | nil => exact absurd hsub hs
    | cons y t =>
      have : instrFrom (y :: t) ([] ++ (y :: t) ++ C) i = i + 1 := by
        show instrFrom (y :: t) (y :: (t ++ C)) i = i + 1
        unfold instrFrom
        rw [if_pos (List.isPrefixOf_iff_prefix.2 ⟨C, by simp⟩)]
      rw [this]; simp
  | x :: A, C, i => by
    rw [List.cons_append, List.cons_append]
    unfold instrFrom
    by_cases h : sub.isPrefixOf (x :: (A ++ sub ++ C)) = true
    · rw [if_pos h]; omega
    · rw [if_neg h]
      have := instrFrom_first sub hs A C (i + 1)
      simp only [List.length_cons]
      exact ⟨this.1, by omega⟩

theorem nmbrInstr_first {sub : List Int} (hs : sub ≠ []) {start : Int} {l A C : List Int} (h : l = A ++ sub ++ C) (hst : max start 1 - 1 ≤ A.length) :
    nmbrInstr start l sub ≠ 0 ∧ nmbrInstr start l sub ≤ A.length + 1 := by
  unfold nmbrInstr
  dsimp only
  rw [if_neg (by rw [h]; simp only [List.length_append]; omega)]
  have e : l.drop (max start 1 - 1).toNat = A.drop (max start 1 - 1).toNat ++ sub ++ C := by
    rw [h, List.append_assoc, List.drop_append_of_le_length (by omega)]; simp
  rw [e]
  have := instrFrom_first sub hs (A.drop (max start 1 - 1).toNat) C (max start 1 - 1).toNat
  rw [List.length_drop] at this
  exact ⟨this.1, by omega⟩

/-- What holds of `newProof` while the repetitions of the subproof of the last step of `T` are replaced. -/
structure PInv (E : Env) (p T np : List Int) : Prop where
  ok : ∀ x ∈ np, StepOk E x
  exp : ∃ rec, expandRun E np ([], []) = some ([p], rec)
  refs : RefsLt T.length np
  tgt : ∀ x ∈ np, x ≤ -1000 → ∃ y, np[(-1000 - x).toNat]? = some y ∧ 1 ≤ arity E y
  pre : T <+: np

theorem prefix_of_append {T A B : List Int} (h : T <+: A ++ B) (hl : T.length ≤ A.length) : T <+: A :=
  List.prefix_of_prefix_length_le h (List.prefix_append A B) hl

theorem prefix_get {T l : List Int} (h : T <+: l) {i : Nat} (hi : i < T.length) : T[i]? = l[i]? := by
  obtain ⟨t, rfl⟩ := h; rw [List.getElem?_append_left hi]

theorem arity_pos_gt {x : Int} (h : 1 ≤ arity E x) : 1 ≤ x := by
  unfold arity at h
  by_contra hc
  rw [if_neg (by omega)] at h
  omega

variable {p T : List Int} {s : Nat} {b : List Int} {st1 ρ : List (List Int)} {x : Int} {ch : Forest}

/-- The situation at step `s`: `T` are the steps up to `s`, `ρ` the proofs of the steps before `s`, `b` the proof of step `s`; the subproof looked for is `tree x ch`. -/
structure At (E : Env) (T : List Int) (s : Nat) (b : List Int) (st1 ρ : List (List Int)) (x : Int) (ch : Forest) : Prop where
  len : T.length = s + 1
  run : expandRun E T ([], []) = some (b :: st1, ρ ++ [b])
  rlen : ρ.length = s
  wf : (tree x ch).Wf E
  refs : RefsLt s (tree x ch).flat
  val : expL (ρ ++ [b]) (tree x ch).flat = b
  ar : 1 ≤ arity E x
  last : T[s]? = some x

theorem At.get (h : At E T s b st1 ρ x ch) : (ρ ++ [b]).getD s [] = b := by
  have := h.rlen; subst this; simp [List.getD]

/-- The steps looked for do not occur across step `s`. -/
theorem At.no_overlap' (hA : At E T s b st1 ρ x ch) {np A C : List Int} (h : PInv E p T np) {ch' : Forest} (hwf : (tree x ch').Wf E)
    (hval : expL (ρ ++ [b]) (tree x ch').flat = b) (hm : np = A ++ (tree x ch').flat ++ C)
    (h2 : s + 2 ≤ A.length + (tree x ch').flat.length) : s < A.length := by
  by_contra hle
  have hle : A.length ≤ s := by omega
  -- T = A ++ U, tree = U ++ V
  obtain ⟨R, hR⟩ := h.pre
  have h1 : T ++ R = A ++ ((tree x ch').flat ++ C) := by rw [hR, hm]; simp
  rcases List.append_eq_append_iff.1 h1 with ⟨c, hc1, hc2⟩ | ⟨U, hU1, hU2⟩
  · have := congrArg List.length hc1
    simp only [List.length_append, hA.len] at this
    omega
  · have hlenU : U.length = s + 1 - A.length := by
      have := congrArg List.length hU1
      simp only [List.length_append, hA.len] at this
      omega
    have h3 : (tree x ch').flat ++ C = U ++ R := hU2
    have hUV : U <+: (tree x ch').flat := prefix_of_append (by rw [h3]; exact List.prefix_append _ _) (by omega)
    obtain ⟨V, hV⟩ := hUV
    have hVlen : 1 ≤ V.length := by
      have := congrArg List.length hV
      simp only [List.length_append] at this
      omega
    obtain ⟨g, hg1, hg2⟩ := prefix_flat hwf (u := U) (v := V) hV.symm
    have hrun := hA.run
    rw [hU1] at hrun
    obtain ⟨⟨st, sv⟩, r1, r2⟩ := run_split hrun
    rw [← hg2] at r2
    have he := run_entries hg1 r2 (List.prefix_refl _)
    cases g with
    | nil =>
      have := congrArg List.length hg2
      simp [flat] at this; omega
    | snoc l y c =>
      rw [entries, List.cons_append, List.cons.injEq] at he
      -- V ends with x
      have hVx : ∃ V', V = V' ++ [x] := by
        rcases List.eq_nil_or_concat V with rfl | ⟨V', z, rfl⟩
        · simp at hVlen
        · refine ⟨V', ?_⟩
          have := hV
          simp only [tree, flat, List.nil_append, List.concat_eq_append] at this ⊢
          rw [← List.append_assoc] at this
          have := List.append_inj' this rfl
          rw [this.2]
      obtain ⟨V', rfl⟩ := hVx
      have hx1 := arity_pos_gt hA.ar
      rw [← hV, expL_append, expL_append, expL_single, ← hg2, flat, List.append_assoc, expL_append, ← he.1] at hval
      have := congrArg List.length hval
      have hxx : (exp1 (ρ ++ [b]) x).length = 1 := by unfold exp1; rw [if_neg (by omega)]; rfl
      simp only [List.length_append, hxx] at this
      omega

theorem At.no_overlap (hA : At E T s b st1 ρ x ch) {np A C : List Int} (h : PInv E p T np) (hm : np = A ++ (tree x ch).flat ++ C)
    (h2 : s + 2 ≤ A.length + (tree x ch).flat.length) : s < A.length := hA.no_overlap' h hA.wf hA.val hm h2

/-- The records before and after replacing one occurrence. -/
theorem At.records (hA : At E T s b st1 ρ x ch) {np A C : List Int} (h : PInv E p T np) (hm : np = A ++ (tree x ch).flat ++ C) (hs : s < A.length) :
    ∃ sv mm m, sv.length = A.length ∧ mm.length = (tree x ch).flat.length ∧ expandRun E np ([], []) = some ([p], sv ++ mm ++ m) ∧
      expandRun E (A ++ [-1000 - (s : Int)] ++ C) ([], []) = some ([p], sv ++ [b] ++ m) := by
  have hTA : T <+: A := by
    have := h.pre
    rw [hm, List.append_assoc] at this
    exact prefix_of_append this (by rw [hA.len]; omega)
  have hreft : (-1000 - (-1000 - (s : Int))).toNat = s := by omega
  obtain ⟨rec, hr⟩ := h.exp
  have hr0 := hr
  rw [hm] at hr
  obtain ⟨⟨st3, sv3⟩, r12, r3⟩ := run_split hr
  obtain ⟨⟨st, sv⟩, r1, r2⟩ := run_split r12
  have hpre : ρ ++ [b] <+: sv := by
    obtain ⟨Q, rfl⟩ := hTA
    obtain ⟨mid, q1, q2⟩ := run_split r1
    rw [hA.run] at q1
    cases q1
    exact run_prefix q2
  have hrl : (ρ ++ [b]).length = s + 1 := by simp [hA.rlen]
  obtain ⟨m, r2'⟩ := run_ok (E := E) (f := tree x ch) (st := st) (sv := sv) hA.wf (hA.refs.mono (by have := hpre.length_le; omega))
  obtain ⟨mm, hmm, hmml⟩ := run_record r2
  rw [r2] at r2'
  have e1 : entries sv (tree x ch) = [b] := by
    rw [← entries_congr hpre (hA.refs.mono (by omega)), tree, entries, entries]
    have := hA.val
    simp only [tree, flat, List.nil_append] at this
    rw [this]
  rw [e1] at r2'
  cases r2'
  have hmm' : mm = m := by simpa using hmm.symm
  subst hmm'
  have hlt : (-1000 - (-1000 - (s : Int))).toNat < (st, sv).2.length := by rw [hreft]; have := hpre.length_le; simp only; omega
  have hsvs : sv.getD s [] = b := by
    obtain ⟨t, rfl⟩ := hpre
    rw [List.getD_append _ _ _ _ (by omega)]
    exact hA.get
  have r2n : expandRun E [-1000 - (s : Int)] (st, sv) = some (b :: st, sv ++ [b]) := by
    rw [run_one, step_ref_ok (by omega) hlt]
    simp only [hreft, hsvs]
  obtain ⟨m', hm', r3'⟩ := run_congr (ρ := ρ ++ [b]) (sv' := sv ++ [b])
    (by rw [hrl, ← hA.len]; intro y hy; exact h.refs y (by rw [hm]; simp [hy])) (hpre.trans (List.prefix_append _ _)) (hpre.trans (List.prefix_append _ _)) r3
  simp only at hm'
  exact ⟨sv, mm, m', run_len r1, hmml, by rw [hr0, hm'], run_join (run_join r1 r2n) r3'⟩

/-- Replacing one occurrence. -/
theorem At.replace (hA : At E T s b st1 ρ x ch) {np A C : List Int} (h : PInv E p T np) (hm : np = A ++ (tree x ch).flat ++ C) (hs : s < A.length) :
    PInv E p T (A ++ [-1000 - (s : Int)] ++ C) := by
  have hTA : T <+: A := by
    have := h.pre
    rw [hm, List.append_assoc] at this
    exact prefix_of_append this (by rw [hA.len]; omega)
  have hTA' : T <+: A ++ [-1000 - (s : Int)] ++ C := (hTA.trans (List.prefix_append _ _)).trans (List.prefix_append _ _)
  have hreft : (-1000 - (-1000 - (s : Int))).toNat = s := by omega
  constructor
  · intro y hy
    simp only [List.mem_append, List.mem_singleton] at hy
    rcases hy with (hy | hy) | hy
    · exact h.ok y (by rw [hm]; simp [hy])
    · right; left; omega
    · exact h.ok y (by rw [hm]; simp [hy])
  · obtain ⟨sv, mm, m, _, _, _, h4⟩ := hA.records h hm hs
    exact ⟨_, h4⟩
  · intro y hy hr
    simp only [List.mem_append, List.mem_singleton] at hy
    rcases hy with (hy | hy) | hy
    · exact h.refs y (by rw [hm]; simp [hy]) hr
    · rw [hy, hreft, hA.len]; omega
    · exact h.refs y (by rw [hm]; simp [hy]) hr
  · have key : ∀ i, i < s + 1 → (A ++ [-1000 - (s : Int)] ++ C)[i]? = np[i]? := by
      intro i hi
      have e1 := prefix_get hTA' (i := i) (by rw [hA.len]; exact hi)
      have e2 := prefix_get h.pre (i := i) (by rw [hA.len]; exact hi)
      rw [← e1, e2]
    intro y hy hr
    simp only [List.mem_append, List.mem_singleton] at hy
    have old : ∀ y ∈ np, y ≤ -1000 → ∃ z, (A ++ [-1000 - (s : Int)] ++ C)[(-1000 - y).toNat]? = some z ∧ 1 ≤ arity E z := by
      intro y hy hr
      rw [key _ (by have := h.refs y hy hr; rw [hA.len] at this; exact this)]
      exact h.tgt y hy hr
    rcases hy with (hy | hy) | hy
    · exact old y (by rw [hm]; simp [hy]) hr
    · refine ⟨x, ?_, hA.ar⟩
      rw [hy, hreft]
      have e1 := prefix_get hTA' (i := s) (by rw [hA.len]; omega)
      rw [← e1]; exact hA.last
    · exact old y (by rw [hm]; simp [hy]) hr
  · exact hTA'

theorem left_append (A B : List Int) {n : Int} (h : n = A.length) : nmbrLeft (A ++ B) n = .val A := by
  subst h; unfold nmbrLeft
  rw [if_pos (by simp)]; simp

theorem right_append (A B : List Int) {n : Int} (h : n = A.length + 1) : nmbrRight (A ++ B) n = B := by
  subst h; unfold nmbrRight
  rw [show (max ((A.length : Int) + 1) 1 - 1).toNat = A.length by omega]; simp

/-- The replacement loop. -/
theorem At.loop (hA : At E T s b st1 ρ x ch) {Q : List Int → Prop}
    (hQ : ∀ np A C, PInv E p T np → np = A ++ (tree x ch).flat ++ C → s < A.length → Q np → Q (A ++ [-1000 - (s : Int)] ++ C)) :
    ∀ (n : Nat) (np : List Int) (m : Int) (found : Bool), PInv E p T np → np.length < n → (s : Int) + 2 ≤ m + (tree x ch).flat.length →
    (∀ A C, np = A ++ (tree x ch).flat ++ C → s < A.length → m ≤ A.length) → Q np →
    ∃ np' found', replLoop (tree x ch).flat s (tree x ch).flat.length n np m found = .val (np', found') ∧
      PInv E p T np' ∧ np'.length ≤ np.length ∧ (found' = false → np' = np) ∧ Q np' ∧ ∀ A C, np' = A ++ (tree x ch).flat ++ C → ¬ s < A.length
  | 0, _, _, _, _, h, _, _, _ => absurd h (Nat.not_lt_zero _)
  | n + 1, np, m, found, h, hn, hm, hN, hq => by
    unfold replLoop
    dsimp only
    have hne : (tree x ch).flat ≠ [] := by simp [tree, flat]
    have hlen2 : 2 ≤ (tree x ch).flat.length := by
      rw [tree_flat_length]
      have := hA.wf.2.2.2
      have har := hA.ar
      cases ch with
      | nil => simp [count] at this; omega
      | snoc l y c => rw [flat_snoc_length]; omega
    rcases nmbrInstr_spec hne (m + 1) np with h0 | ⟨A, C, h1, h2, h3⟩
    · rw [if_pos h0]
      refine ⟨np, found, rfl, h, le_refl _, fun _ => rfl, hq, ?_⟩
      intro A C h1 hs
      exact (nmbrInstr_first hne h1 (by have := hN A C h1 hs; omega)).1 h0
    · rw [if_neg (by omega), h2]
      have hs : s < A.length := hA.no_overlap h h1 (by omega)
      have hl : nmbrLeft np (((A.length + 1 : Nat) : Int) - 1) = .val A := by
        rw [h1, List.append_assoc]; exact left_append _ _ (by omega)
      have hr : nmbrRight np (((A.length + 1 : Nat) : Int) + (tree x ch).flat.length) = C := by
        rw [h1]; exact right_append _ _ (by rw [List.length_append]; omega)
      rw [hl, Out.bind_val, hr]
      have hI := hA.replace h h1 hs
      have hlen : (A ++ [-1000 - (s : Int)] ++ C).length < np.length := by
        rw [h1]; simp only [List.length_append, List.length_singleton]; omega
      have hN' : ∀ A' C', A ++ [-1000 - (s : Int)] ++ C = A' ++ (tree x ch).flat ++ C' → s < A'.length → ((A.length + 1 : Nat) : Int) - (tree x ch).flat.length + 1 ≤ A'.length := by
        intro A' C' he hs'
        by_contra hlt
        have hx1 := arity_pos_gt hA.ar
        have hfl : (tree x ch).flat = ch.flat ++ [x] := by simp [tree, flat]
        by_cases hcase : A'.length + (tree x ch).flat.length = A.length + 1
        · have := (List.append_inj he (by simp only [List.length_append, List.length_singleton]; omega)).1
          rw [hfl, ← List.append_assoc] at this
          have := (List.append_inj' this rfl).2
          simp at this; omega
        · have hpre : A' ++ (tree x ch).flat <+: A := by
            refine prefix_of_append (B := [-1000 - (s : Int)] ++ C) ?_ (by simp only [List.length_append]; omega)
            rw [← List.append_assoc, he]; exact List.prefix_append _ _
          obtain ⟨X, hX⟩ := hpre
          have hold : np = A' ++ (tree x ch).flat ++ (X ++ (tree x ch).flat ++ C) := by rw [h1, ← hX]; simp
          have := (nmbrInstr_first hne hold (start := m + 1) (by have := hN A' _ hold hs'; omega)).2
          omega
      obtain ⟨np', found', e, hI', hl', hf', hq', hN''⟩ := hA.loop hQ n _ (((A.length + 1 : Nat) : Int) - (tree x ch).flat.length + 1) true hI (by omega) (by omega) hN' (hQ np A C h h1 hs hq)
      refine ⟨np', found', e, hI', by omega, ?_, hq', hN''⟩
      intro hff
      exfalso
      -- `found` is never reset
      have key : ∀ (n : Nat) (np : List Int) (m : Int) r, replLoop (tree x ch).flat s (tree x ch).flat.length n np m true = .val r → r.2 = true := by
        intro n
        induction n with
        | zero => intro np m r hr; cases hr
        | succ n ih =>
          intro np m r hr
          unfold replLoop at hr
          dsimp only at hr
          by_cases hz : nmbrInstr (m + 1) np (tree x ch).flat = 0
          · rw [if_pos hz] at hr; cases hr; rfl
          · rw [if_neg hz] at hr
            cases hlf : nmbrLeft np ((nmbrInstr (m + 1) np (tree x ch).flat : Int) - 1) <;> rw [hlf] at hr
            · exact ih _ _ _ hr
            all_goals cases hr
      have := key _ _ _ _ e
      rw [hff] at this; cases this

/-! ### No subproof is left twice -/

/-- Before step `s`, no assertion step has the same proof as a later assertion step (assertions with hypotheses). -/
def Uniq (E : Env) (s : Nat) (np : List Int) : Prop := ∀ R st, expandRun E np ([], []) = some (st, R) → ∀ (i j : Nat) (y z : Int), i < s → i < j →
  np[i]? = some y → np[j]? = some z → 1 ≤ arity E y → 1 ≤ arity E z → R[i]? ≠ R[j]?

/-- The trees of `dummyProof` that have not been replaced are not referred to. -/
def TopOk (E : Env) (ρ : List (List Int)) (np : List Int) : Forest → Prop
  | nil => True
  | snoc l x ch => TopOk E ρ np l ∧ (1 ≤ arity E x → ∃ (i : Nat) (y : Int), ρ[i]? = some (expL ρ (ch.flat ++ [x])) ∧ np[i]? = some y ∧ 1 ≤ arity E y ∧ -1000 - (i : Int) ∉ np)

theorem TopOk.last {np : List Int} {l : Forest} : ∀ {f : Forest}, TopOk E ρ np (app l f) → TopOk E ρ np f
  | nil, _ => trivial
  | snoc _ _ _, ⟨h1, h2⟩ => ⟨TopOk.last h1, h2⟩

theorem TopOk.first {np : List Int} {l : Forest} : ∀ {f : Forest}, TopOk E ρ np (app l f) → TopOk E ρ np l
  | nil, h => h
  | snoc _ _ _, ⟨h1, _⟩ => TopOk.first h1

theorem TopOk.mono {np np' : List Int} {σ : List (List Int)} (hp : ρ <+: σ) (hg : ∀ i, i < ρ.length → np'[i]? = np[i]?)
    (hr : ∀ i, i < ρ.length → -1000 - (i : Int) ∈ np' → -1000 - (i : Int) ∈ np) : ∀ {f : Forest}, RefsLt ρ.length f.flat → TopOk E ρ np f → TopOk E σ np' f
  | nil, _, _ => trivial
  | snoc l x ch, hf, ⟨h1, h2⟩ => by
    rw [flat, List.append_assoc] at hf
    refine ⟨TopOk.mono hp hg hr hf.left h1, ?_⟩
    intro ha
    obtain ⟨i, y, a1, a2, a3, a4⟩ := h2 ha
    have hi : i < ρ.length := (List.getElem?_eq_some_iff.1 a1).1
    refine ⟨i, y, ?_, by rw [hg i hi]; exact a2, a3, fun hm => a4 (hr i hi hm)⟩
    rw [← expL_congr hp hf.right, ← a1]
    obtain ⟨t, rfl⟩ := hp
    rw [List.getElem?_append_left hi]

/-- Replacing an occurrence keeps the proofs of different steps different. -/
theorem At.uniq_replace (hA : At E T s b st1 ρ x ch) {np A C : List Int} (h : PInv E p T np) (hm : np = A ++ (tree x ch).flat ++ C) (hs : s < A.length) {s' : Nat} (hs' : s' ≤ s + 1)
    (hu : Uniq E s' np) : Uniq E s' (A ++ [-1000 - (s : Int)] ++ C) := by
  obtain ⟨sv, mm, m, e1, e2, e3, e4⟩ := hA.records h hm hs
  intro R st hR i j y z hi hij hy hz ay az
  rw [e4] at hR
  cases hR
  have hiA : i < A.length := by omega
  rw [List.append_assoc, List.getElem?_append_left hiA] at hy
  have hy' : np[i]? = some y := by rw [hm, List.append_assoc, List.getElem?_append_left hiA]; exact hy
  have hRi : (sv ++ [b] ++ m)[i]? = (sv ++ mm ++ m)[i]? := by
    rw [List.append_assoc, List.append_assoc, List.getElem?_append_left (by omega), List.getElem?_append_left (by omega)]
  rw [hRi]
  rcases Nat.lt_trichotomy j A.length with hj | hj | hj
  · rw [List.append_assoc, List.getElem?_append_left hj] at hz
    have hRj : (sv ++ [b] ++ m)[j]? = (sv ++ mm ++ m)[j]? := by
      rw [List.append_assoc, List.append_assoc, List.getElem?_append_left (by omega), List.getElem?_append_left (by omega)]
    rw [hRj]
    exact hu _ _ e3 i j y z hi hij hy' (by rw [hm, List.append_assoc, List.getElem?_append_left hj]; exact hz) ay az
  · subst hj
    exfalso
    have : z = -1000 - (s : Int) := by
      rw [List.append_assoc, List.getElem?_append_right (le_refl _)] at hz
      simpa using hz.symm
    have := arity_pos_gt az
    omega
  · have hz' : np[j + (tree x ch).flat.length - 1]? = some z := by
      rw [hm, List.getElem?_append_right (by simp only [List.length_append]; omega)]
      rw [List.getElem?_append_right (by simp only [List.length_append, List.length_singleton]; omega)] at hz
      rw [← hz]; congr 1; simp only [List.length_append, List.length_singleton]; omega
    have hRj : (sv ++ [b] ++ m)[j]? = (sv ++ mm ++ m)[j + (tree x ch).flat.length - 1]? := by
      rw [List.getElem?_append_right (by simp only [List.length_append, List.length_singleton]; omega),
        List.getElem?_append_right (by simp only [List.length_append]; omega)]
      congr 1; simp only [List.length_append, List.length_singleton]; omega
    rw [hRj]
    have htl : 1 ≤ (tree x ch).flat.length := by rw [tree_flat_length]; omega
    exact hu _ _ e3 i _ y z hi (by omega) hy' hz' ay az

/-- A tree of `newProof`: its root is a step and its proof is the one recorded. -/
theorem tree_record {np A C : List Int} {st R : List (List Int)} {y : Int} {c : Forest} (hok : ∀ x ∈ np, StepOk E x) (hrun : expandRun E np ([], []) = some (st, R))
    (hw : (tree y c).Wf E) (hm : np = A ++ c.flat ++ y :: C) (hy : -1000 < y) :
    np[A.length + c.flat.length]? = some y ∧ R[A.length + c.flat.length]? = some (expL R (c.flat ++ [y])) := by
  have h1 : np[A.length + c.flat.length]? = some y := by rw [hm, ← List.length_append]; simp
  refine ⟨h1, ?_⟩
  have hlen := run_len hrun
  rw [hm] at hrun hok
  obtain ⟨l, c', hw', hQ, hv⟩ := block_at (Q := A ++ c.flat) hok hy hrun
  obtain ⟨_, e, _⟩ := tree_suffix (r := C) hw hw' (by rw [hQ])
  rw [← e] at hv
  have hlt : A.length + c.flat.length < R.length := by rw [hlen, hm]; simp
  rw [List.length_append, List.getD_eq_getElem?_getD, List.getElem?_eq_getElem hlt] at hv
  rw [List.getElem?_eq_getElem hlt, expL_append, expL_single]
  have : exp1 R y = [y] := by unfold exp1; rw [if_neg (by omega)]
  rw [this, ← hv]; rfl

theorem normal_len {e : List Int} (h : NormalProof E e) : 1 ≤ e.length := by
  obtain ⟨x, c, _, rfl, _⟩ := h; rw [tree_flat_length]; omega

theorem getD_of_get {R : List (List Int)} {i : Nat} {e : List Int} (h : R[i]? = some e) : R.getD i [] = e := by rw [List.getD_eq_getElem?_getD, h]; rfl

/-- An assertion step with hypotheses has a proof of at least two steps. -/
theorem record_two {np : List Int} {st R : List (List Int)} {i : Nat} {y : Int} (hok : ∀ x ∈ np, StepOk E x) (hrun : expandRun E np ([], []) = some (st, R))
    (hi : np[i]? = some y) (ha : 1 ≤ arity E y) : ∃ e, R[i]? = some e ∧ 2 ≤ e.length := by
  have hlt : i < np.length := (List.getElem?_eq_some_iff.1 hi).1
  have hsp : np = np.take i ++ y :: np.drop (i + 1) := by
    conv_lhs => rw [← List.take_append_drop i np]
    rw [List.drop_eq_getElem_cons hlt]
    rw [List.getElem?_eq_getElem hlt] at hi; cases hi; rfl
  have hRl := run_len hrun
  have hnorm := (run_normal hok (by simp) (by simp) hrun).2
  have hrefs := run_refs' hrun
  have hrun' := hrun
  have hok' := hok
  rw [hsp] at hrun' hok'
  obtain ⟨l, c, hw, hQ, hv⟩ := block_at hok' (by have := arity_pos_gt ha; omega) hrun'
  have hil : (np.take i).length = i := by rw [List.length_take]; omega
  rw [hil, List.getD_eq_getElem?_getD, List.getElem?_eq_getElem (by omega)] at hv
  refine ⟨R[i], List.getElem?_eq_getElem (by omega), ?_⟩
  have hv : R[i] = expL R c.flat ++ [y] := hv
  rw [hv, List.length_append, List.length_singleton]
  have hc : c.count = arity E y := hw.2.2.2.symm
  cases c with
  | nil => simp [count] at hc; omega
  | snoc l' z d =>
    have hen := entries_normal (f := snoc l' z d) (ρ := R) hw.2.1 (by
      intro x hx hr
      rw [hRl]
      exact hrefs x (by rw [hsp, hQ]; simp [hx]) hr) hnorm
    have h1 := normal_len (hen _ (by rw [entries]; exact List.mem_cons_self))
    rw [flat, List.append_assoc, expL_append, List.length_append]
    omega

/-- Two lists of trees with the same proofs, the first in `dummyProof`, the second in `newProof` after step `s`, are the same. -/
theorem same_trees {np : List Int} {st R : List (List Int)} (hok : ∀ x ∈ np, StepOk E x) (hrun : expandRun E np ([], []) = some (st, R)) (hu : Uniq E s np)
    (htgt : ∀ x ∈ np, x ≤ -1000 → ∃ y, np[(-1000 - x).toNat]? = some y ∧ 1 ≤ arity E y) (hpre : ρ <+: R) (hρ : ρ.length = s) :
    ∀ (F1 F2 : Forest) (A C : List Int), F1.Wf E → F2.Wf E → F1.count = F2.count → np = A ++ F2.flat ++ C → s < A.length → expL R F1.flat = expL R F2.flat →
      RefsLt s F1.flat → (∀ x ∈ F1.flat, x ≤ -1000 → ∃ y, np[(-1000 - x).toNat]? = some y ∧ 1 ≤ arity E y) → TopOk E ρ np F1 → F1.flat = F2.flat
  | nil, nil, _, _, _, _, _, _, _, _, _, _, _ => rfl
  | nil, snoc _ _ _, _, _, _, _, hc, _, _, _, _, _, _ => by simp [count] at hc
  | snoc _ _ _, nil, _, _, _, _, hc, _, _, _, _, _, _ => by simp [count] at hc
  | snoc l1 x1 c1, snoc l2 x2 c2, A, C, hw1, hw2, hc, hm, hA, he, hr1, ht1, hT => by
    have hRl := run_len hrun
    have hrl := run_refs' hrun
    have hnorm : ∀ b ∈ R, NormalProof E b := (run_normal hok (by simp) (by simp) hrun).2
    have hpl := hpre.length_le
    have hr2 : RefsLt R.length (snoc l2 x2 c2).flat := by
      intro x hx hr; rw [hRl]; exact hrl x (by rw [hm]; simp [hx]) hr
    have n1 := entries_normal hw1 (hr1.mono (by omega)) hnorm _ List.mem_cons_self
    have n2 := entries_normal hw2 hr2 hnorm _ List.mem_cons_self
    rw [flat, flat, List.append_assoc, List.append_assoc, expL_append R l1.flat, expL_append R l2.flat] at he
    obtain ⟨he1, he2⟩ := normal_suffix n1 n2 he
    have hr1' := hr1
    rw [flat, List.append_assoc] at hr1'
    have ih := same_trees hok hrun hu htgt hpre hρ l1 l2 A (c2.flat ++ x2 :: C) hw1.1 hw2.1 (by simpa [count] using hc) (by rw [hm]; simp [flat]) hA he1 hr1'.left
      (fun x hx hr => ht1 x (by simp [flat, hx]) hr) hT.1
    -- the last trees
    have info1 : (∃ (i : Nat) (y : Int), i < s ∧ np[i]? = some y ∧ 1 ≤ arity E y ∧ R[i]? = some (expL R (c1.flat ++ [x1])) ∧ ((x1 = -1000 - (i : Int) ∧ c1 = nil) ∨ -1000 - (i : Int) ∉ np)) ∨
        (c1 = nil ∧ -1000 < x1) := by
      by_cases hx : x1 ≤ -1000
      · left
        have hcn := count_zero (hw1.2.2.2.symm.trans (arity_ref hx))
        subst hcn
        obtain ⟨y, h1, h2⟩ := ht1 x1 (by simp [flat]) hx
        have hlt := hr1 x1 (by simp [flat]) hx
        refine ⟨(-1000 - x1).toNat, y, hlt, h1, h2, ?_, Or.inl ⟨by omega, rfl⟩⟩
        rw [show (nil : Forest).flat ++ [x1] = [x1] from rfl, expL_single]
        unfold exp1
        rw [if_pos hx, List.getD_eq_getElem?_getD, List.getElem?_eq_getElem (by omega)]; rfl
      · by_cases ha : 1 ≤ arity E x1
        · left
          obtain ⟨i, y, h1, h2, h3, h4⟩ := hT.2 ha
          have hi : i < ρ.length := (List.getElem?_eq_some_iff.1 h1).1
          refine ⟨i, y, by omega, h2, h3, ?_, Or.inr h4⟩
          rw [← expL_congr hpre (by rw [hρ]; exact hr1'.right), ← h1]
          obtain ⟨t, rfl⟩ := hpre
          rw [List.getElem?_append_left hi]
        · right
          exact ⟨count_zero (by rw [← hw1.2.2.2]; omega), by omega⟩
    have info2 : (∃ (i : Nat) (y : Int), np[i]? = some y ∧ 1 ≤ arity E y ∧ R[i]? = some (expL R (c2.flat ++ [x2])) ∧ (x2 = -1000 - (i : Int) ∧ c2 = nil) ∧ x2 ∈ np) ∨
        (∃ j, s < j ∧ np[j]? = some x2 ∧ 1 ≤ arity E x2 ∧ R[j]? = some (expL R (c2.flat ++ [x2]))) ∨ (c2 = nil ∧ -1000 < x2) := by
      have hx2 : x2 ∈ np := by rw [hm]; simp [flat]
      by_cases hx : x2 ≤ -1000
      · left
        have hcn := count_zero (hw2.2.2.2.symm.trans (arity_ref hx))
        subst hcn
        obtain ⟨y, h1, h2⟩ := htgt x2 hx2 hx
        have hlt := hr2 x2 (by simp [flat]) hx
        refine ⟨(-1000 - x2).toNat, y, h1, h2, ?_, ⟨by omega, rfl⟩, hx2⟩
        rw [show (nil : Forest).flat ++ [x2] = [x2] from rfl, expL_single]
        unfold exp1
        rw [if_pos hx, List.getD_eq_getElem?_getD, List.getElem?_eq_getElem (by omega)]; rfl
      · right
        by_cases ha : 1 ≤ arity E x2
        · left
          obtain ⟨h1, h2⟩ := tree_record (A := A ++ l2.flat) (C := C) hok hrun ⟨trivial, hw2.2⟩ (by rw [hm]; simp [flat]) (by omega)
          exact ⟨_, by rw [List.length_append]; omega, h1, ha, h2⟩
        · right
          exact ⟨count_zero (by rw [← hw2.2.2.2]; omega), by omega⟩
    have hone : ∀ {z : Int} {i : Nat} {y : Int}, -1000 < z → np[i]? = some y → 1 ≤ arity E y → R[i]? = some (expL R ((nil : Forest).flat ++ [z])) → False := by
      intro z i y hz h1 h2 h3
      obtain ⟨e, g1, g2⟩ := record_two hok hrun h1 h2
      rw [h3] at g1
      have : expL R ((nil : Forest).flat ++ [z]) = [z] := by
        rw [show (nil : Forest).flat ++ [z] = [z] from rfl, expL_single]; unfold exp1; rw [if_neg (by omega)]
      rw [this] at g1
      cases g1
      simp at g2
    have hlast : c1.flat ++ [x1] = c2.flat ++ [x2] := by
      rcases info1 with ⟨i, y, a1, a2, a3, a4, a5⟩ | ⟨rfl, a2⟩
      · rcases info2 with ⟨i', y', b2, b3, b4, ⟨b5, b6⟩, b7⟩ | ⟨j, b1, b2, b3, b4⟩ | ⟨rfl, b2⟩
        · have hii : i = i' := by
            by_contra hne
            rcases Nat.lt_or_gt_of_ne hne with hlt | hlt
            · exact hu R st hrun i i' y y' a1 hlt a2 b2 a3 b3 (by rw [a4, b4, he2])
            · exact hu R st hrun i' i y' y (by omega) hlt b2 a2 b3 a3 (by rw [a4, b4, he2])
          subst hii
          rcases a5 with ⟨c1e, rfl⟩ | a5
          · rw [b6, c1e, b5]
          · exact absurd (b5 ▸ b7) a5
        · exact absurd (by rw [a4, b4, he2]) (hu R st hrun i j y x2 a1 (by omega) a2 b2 a3 b3)
        · exact (hone b2 a2 a3 (by rw [a4, he2])).elim
      · rcases info2 with ⟨i', y', b2, b3, b4, _, b7⟩ | ⟨j, b1, b2, b3, b4⟩ | ⟨rfl, b2⟩
        · exact (hone a2 b2 b3 (by rw [b4, ← he2])).elim
        · exact (hone a2 b2 b3 (by rw [b4, ← he2])).elim
        · have e1 : ∀ z : Int, -1000 < z → expL R ((nil : Forest).flat ++ [z]) = [z] := by
            intro z hz
            rw [show (nil : Forest).flat ++ [z] = [z] from rfl, expL_single]; unfold exp1; rw [if_neg (by omega)]
          rw [e1 x1 a2, e1 x2 b2] at he2
          rw [he2]
    rw [flat, flat, List.append_assoc, List.append_assoc, ih, hlast]

/-- When no occurrence is left, no later step has the proof of step `s`. -/
theorem At.uniq_step (hA : At E T s b st1 ρ x ch) {np : List Int} (h : PInv E p T np) (hno : ∀ A C, np = A ++ (tree x ch).flat ++ C → ¬ s < A.length) (hu : Uniq E s np)
    (ht1 : ∀ y ∈ ch.flat, y ≤ -1000 → ∃ z, np[(-1000 - y).toNat]? = some z ∧ 1 ≤ arity E z) (hT : TopOk E ρ np ch) : Uniq E (s + 1) np := by
  intro R st hR i j y z hi hij hy hz ay az heq
  by_cases his : i < s
  · exact hu R st hR i j y z his hij hy hz ay az heq
  have hi' : i = s := by omega
  subst hi'
  have hpre : ρ ++ [b] <+: R := by
    obtain ⟨Q, hQ⟩ := h.pre
    have hr := hR
    rw [← hQ] at hr
    obtain ⟨mid, q1, q2⟩ := run_split hr
    rw [hA.run] at q1
    cases q1
    exact run_prefix q2
  have hRi : R[i]? = some b := by
    obtain ⟨t, rfl⟩ := hpre
    rw [List.append_assoc, List.getElem?_append_right (by rw [hA.rlen])]
    simp [hA.rlen]
  have hzp := arity_pos_gt az
  have hjlt : j < np.length := (List.getElem?_eq_some_iff.1 hz).1
  have hsp : np = np.take j ++ z :: np.drop (j + 1) := by
    conv_lhs => rw [← List.take_append_drop j np]
    rw [List.drop_eq_getElem_cons hjlt]
    rw [List.getElem?_eq_getElem hjlt] at hz; cases hz; rfl
  have hRl := run_len hR
  have hok' := h.ok
  have hR' := hR
  rw [hsp] at hok' hR'
  obtain ⟨l, c, hw, hQ, hv⟩ := block_at hok' (by omega) hR'
  have hjl : (np.take j).length = j := by rw [List.length_take]; omega
  rw [hjl, getD_of_get (heq ▸ hRi)] at hv
  have hrefs1 : RefsLt i (ch.flat ++ [x]) := by have := hA.refs; simpa [tree, flat] using this
  have hrho : (ρ ++ [b]).length = i + 1 := by simp [hA.rlen]
  have hval : expL R ch.flat ++ [x] = b := by
    have hv2 := hA.val
    rw [show (tree x ch).flat = ch.flat ++ [x] by simp [tree, flat]] at hv2
    rw [expL_congr hpre (hrefs1.mono (by omega)), expL_append, expL_single] at hv2
    have : exp1 R x = [x] := by unfold exp1; rw [if_neg (by have := arity_pos_gt hA.ar; omega)]
    rw [this] at hv2
    exact hv2
  have hvv : expL R ch.flat ++ [x] = expL R c.flat ++ [z] := by rw [hval]; exact hv
  obtain ⟨hcc, hxz⟩ := List.append_inj' hvv rfl
  have hxz : x = z := by simpa using hxz
  subst hxz
  have hnp : np = l ++ (tree x c).flat ++ np.drop (j + 1) := by
    conv_lhs => rw [hsp, hQ]
    simp [tree, flat]
  have hjj : j = l.length + c.flat.length := by rw [← hjl, hQ, List.length_append]
  have hcrefs : RefsLt (i + 1) (tree x c).flat := by
    intro w hw hr
    have := h.refs w (by rw [hnp]; simp [hw]) hr
    rw [hA.len] at this; exact this
  have hsl : i < l.length := hA.no_overlap' h hw (by
    rw [expL_congr hpre (by rw [hrho]; exact hcrefs), show (tree x c).flat = c.flat ++ [x] by simp [tree, flat], expL_append, expL_single]
    have : exp1 R x = [x] := by unfold exp1; rw [if_neg (by omega)]
    rw [this]; exact hv.symm) hnp (by rw [tree_flat_length]; omega)
  have hsame := same_trees (ρ := ρ) h.ok hR hu h.tgt ((List.prefix_append _ _).trans hpre) hA.rlen ch c l (x :: np.drop (j + 1)) hA.wf.2.1 hw.2.1
    (by rw [← hA.wf.2.2.2, ← hw.2.2.2]) (by conv_lhs => rw [hnp]
                                            simp [tree, flat]) hsl hcc hrefs1.left ht1 hT
  refine hno l (np.drop (j + 1)) ?_ hsl
  conv_lhs => rw [hnp]
  simp [tree, flat, hsame]

/-- What holds before step `s` of the main loop: `FD` are the trees of the beginning of `dummyProof`, `ρ` the proofs of the steps before `s`. -/
structure LInv (E : Env) (p : List Int) (s : Nat) (np : List Int) (FD : Forest) (ρ : List (List Int)) : Prop where
  le : s ≤ np.length
  pinv : PInv E p (np.take s) np
  wf : FD.Wf E
  refs : RefsLt s FD.flat
  run : expandRun E (np.take s) ([], []) = some (entries ρ FD, ρ)
  rlen : ρ.length = s
  uniq : Uniq E s np
  top : TopOk E ρ np FD
  tgt : ∀ x ∈ FD.flat, x ≤ -1000 → ∃ y, np[(-1000 - x).toNat]? = some y ∧ 1 ≤ arity E y

theorem uniq_small {np : List Int} {x : Int} (h : Uniq E s np) (hx : np[s]? = some x) (ha : arity E x = 0) : Uniq E (s + 1) np := by
  intro R st hR i j y z hi hij hy hz ay az
  by_cases his : i < s
  · exact h R st hR i j y z his hij hy hz ay az
  · have : i = s := by omega
    subst this
    rw [hx] at hy; cases hy; omega

theorem squishLoop_ok : ∀ (n s : Nat) (np : List Int) (FD : Forest) (ρ : List (List Int)), LInv E p s np FD ρ → np.length < n + s →
    ∃ q, squishLoop E n s np.length np (FD.flat ++ np.drop s) FD.flat.length = .val q ∧ PInv E p q q ∧ q.length ≤ np.length ∧ Uniq E q.length q
  | 0, s, np, FD, ρ, h, hn => by have := h.le; omega
  | n + 1, s, np, FD, ρ, h, hn => by
    unfold squishLoop
    by_cases hs : s < np.length
    swap
    · rw [if_neg hs]
      have : s = np.length := by have := h.le; omega
      subst this
      refine ⟨np, rfl, ?_, le_refl _, h.uniq⟩
      have := h.pinv
      rwa [List.take_length] at this
    rw [if_pos hs]
    obtain ⟨x, hx⟩ : ∃ x, np[s]? = some x := ⟨np[s], List.getElem?_eq_getElem hs⟩
    have hd : np.drop s = x :: np.drop (s + 1) := by
      rw [List.drop_eq_getElem_cons hs]
      rw [List.getElem?_eq_getElem hs] at hx; cases hx; rfl
    have hT : np.take (s + 1) = np.take s ++ [x] := by rw [List.take_add_one, hx]; rfl
    have hTl : (np.take s).length = s := by rw [List.length_take]; omega
    have hmem : x ∈ np := List.mem_of_getElem? hx
    have hxok := h.pinv.ok x hmem
    obtain ⟨rec, hrun⟩ := h.pinv.exp
    have hrun2 := hrun
    rw [← List.take_append_drop s np, hd] at hrun2
    obtain ⟨mid, r1, r2⟩ := run_split hrun2
    rw [h.run] at r1
    cases r1
    rw [expandRun] at r2
    cases hst : expandStep E (entries ρ FD, ρ) x with
    | none => rw [hst] at r2; cases r2
    | some st' =>
    have runT : expandRun E (np.take (s + 1)) ([], []) = some st' := by rw [hT]; exact run_join h.run (run_one.trans hst)
    have hI' : PInv E p (np.take (s + 1)) np := by
      refine ⟨h.pinv.ok, h.pinv.exp, ?_, h.pinv.tgt, List.take_prefix _ _⟩
      have := h.pinv.refs
      rw [hTl] at this
      exact this.mono (by rw [List.length_take]; omega)
    by_cases hxr : x ≤ -1000
    · -- a reference
      obtain ⟨hlt, rfl⟩ := step_ref hxr hst
      have hW : (tree x nil).Wf E := ⟨trivial, trivial, hxok, arity_ref hxr⟩
      have hsl := subLen_tree (A := FD.flat ++ np.drop s) (q := FD.flat) (r := np.drop (s + 1)) hW (by rw [hd]; simp [flat])
      rw [show ((nil : Forest).flat.length : Int) = 0 from rfl, Int.add_zero] at hsl
      rw [hsl, Out.bind_val, if_pos (by simp)]
      have hI : LInv E p (s + 1) np (snoc FD x nil) (ρ ++ [ρ.getD (-1000 - x).toNat []]) := by
        refine ⟨hs, hI', ⟨h.wf, hW.2⟩, ?_, ?_, by simp [h.rlen], uniq_small h.uniq hx (arity_ref hxr),
          ⟨h.top.mono (List.prefix_append _ _) (fun _ _ => rfl) (fun _ _ h => h) (by rw [h.rlen]; exact h.refs), by rw [arity_ref hxr]; omega⟩, ?_⟩
        · have : (snoc FD x nil).flat = FD.flat ++ [x] := by simp [flat]
          rw [this]
          refine (h.refs.mono (by omega)).app ?_
          intro y hy hr
          rw [List.mem_singleton] at hy; subst hy
          have := h.rlen
          simp only at hlt
          omega
        · rw [runT, entries]
          rw [← entries_congr (ρ := ρ) (List.prefix_append _ _) (by rw [h.rlen]; exact h.refs)]
          rw [show (nil : Forest).flat ++ [x] = [x] from rfl, expL_single, ← exp1_congr (ρ := ρ) (List.prefix_append _ _) (fun _ => hlt)]
          unfold exp1; rw [if_pos hxr]
        · intro y hy hr
          simp only [flat, List.append_nil, List.mem_append, List.mem_singleton] at hy
          rcases hy with hy | rfl
          · exact h.tgt y hy hr
          · exact h.pinv.tgt y hmem hr
      have := squishLoop_ok n (s + 1) np _ _ hI (by omega)
      have e1 : (snoc FD x nil).flat ++ np.drop (s + 1) = FD.flat ++ np.drop s := by rw [hd]; simp [flat]
      have e2 : ((snoc FD x nil).flat.length : Int) = FD.flat.length + 1 := by rw [flat_snoc_length]; simp [flat]
      rw [e1, e2] at this
      exact this
    · -- a statement
      obtain ⟨hlt, rfl⟩ := step_stmt (by omega) hst
      obtain ⟨l, ch, rfl, hl, hch, hcc⟩ := split_last h.wf (k := arity E x) (by rw [← entries_length ρ]; exact hlt)
      have hW : (tree x ch).Wf E := ⟨trivial, hch, hxok, hcc.symm⟩
      have hsl := subLen_tree (A := (app l ch).flat ++ np.drop s) (q := l.flat) (r := np.drop (s + 1)) hW (by rw [hd, app_flat])
      have eD : ((app l ch).flat.length : Int) = (l.flat.length : Int) + ch.flat.length := by rw [app_flat, List.length_append]; omega
      rw [eD, hsl, Out.bind_val]
      simp only at runT
      have hrefs := h.refs
      rw [app_flat] at hrefs
      have hxrefs : RefsLt s [x] := by
        intro y hy hr
        rw [List.mem_singleton] at hy; omega
      have hbx : (List.take (arity E x) (entries ρ (app l ch))).reverse.flatten ++ [x] = expL ρ (ch.flat ++ [x]) := by
        rw [app_entries, ← hcc, (take_entries _ _ _).1, entries_flatten, expL_append, expL_single]
        congr 1
        unfold exp1; rw [if_neg hxr]
      have hdr : List.drop (arity E x) (entries ρ (app l ch)) = entries ρ l := by
        rw [app_entries, ← hcc, (take_entries _ _ _).2]
      rw [hbx, hdr] at runT
      have hb : ∀ σ, ρ <+: σ → expL σ (ch.flat ++ [x]) = expL ρ (ch.flat ++ [x]) := fun σ hp =>
        (expL_congr hp (by rw [h.rlen]; exact hrefs.right.app hxrefs)).symm
      have hle1 : ∀ σ, ρ <+: σ → entries σ l = entries ρ l := fun σ hp => (entries_congr hp (by rw [h.rlen]; exact hrefs.left)).symm
      -- the state after a step without replacement
      have htgtD : ∀ y ∈ l.flat ++ ch.flat, y ≤ -1000 → ∃ z, np[(-1000 - y).toNat]? = some z ∧ 1 ≤ arity E z := by
        intro y hy; exact h.tgt y (by rw [app_flat]; exact hy)
      have htopL := h.top.first
      have hget : ∀ np', np.take (s + 1) <+: np' → ∀ i, i < s + 1 → np'[i]? = np[i]? := by
        intro np' hp i hi
        have h1 := prefix_get hp (i := i) (by rw [List.length_take]; omega)
        rw [← h1, List.getElem?_take_of_lt hi]
      have hkeep : ∀ np', np.take (s + 1) <+: np' → ∀ y ∈ l.flat ++ ch.flat, y ≤ -1000 → ∃ z, np'[(-1000 - y).toNat]? = some z ∧ 1 ≤ arity E z := by
        intro np' hp y hy hr
        rw [hget np' hp _ (by have := hrefs y hy hr; omega)]
        exact htgtD y hy hr
      have hI : ∀ np', PInv E p (np.take (s + 1)) np' → s + 1 ≤ np'.length → Uniq E (s + 1) np' → (∀ (i : Nat), i < s → -1000 - (i : Int) ∈ np' → -1000 - (i : Int) ∈ np) →
          (1 ≤ arity E x → -1000 - (s : Int) ∉ np') → LInv E p (s + 1) np' (snoc l x ch) (ρ ++ [expL ρ (ch.flat ++ [x])]) := by
        intro np' hp hl' hu' hrf' hns
        have et : np'.take (s + 1) = np.take (s + 1) := by
          obtain ⟨t, ht⟩ := hp.pre
          have : (np.take (s + 1)).length = s + 1 := by rw [List.length_take]; omega
          rw [← ht]; rw [List.take_left' this]
        refine ⟨hl', by rw [et]; exact hp, ⟨hl, hW.2⟩, ?_, ?_, by simp [h.rlen], hu',
          ⟨htopL.mono (List.prefix_append _ _) (fun i hi => hget np' hp.pre i (by rw [h.rlen] at hi; omega)) (fun i hi => hrf' i (by rw [h.rlen] at hi; exact hi)) (by rw [h.rlen]; exact hrefs.left), ?_⟩, ?_⟩
        · have : (snoc l x ch).flat = (l.flat ++ ch.flat) ++ [x] := by simp [flat]
          rw [this]
          exact (hrefs.app hxrefs).mono (by omega)
        · rw [et, runT, entries, hle1 _ (List.prefix_append _ _), hb _ (List.prefix_append _ _)]
        · intro ha
          refine ⟨s, x, ?_, by rw [hget np' hp.pre s (by omega)]; exact hx, ha, hns ha⟩
          rw [hb _ (List.prefix_append _ _), List.getElem?_append_right (by rw [h.rlen])]
          simp [h.rlen]
        · intro y hy hr
          simp only [flat, List.mem_append, List.mem_singleton] at hy
          rcases hy with hy | rfl
          · exact hkeep np' hp.pre y (by simpa using hy) hr
          · omega
      have e1 : (snoc l x ch).flat ++ np.drop (s + 1) = (app l ch).flat ++ np.drop s := by rw [hd, app_flat]; simp [flat]
      have e2 : ((snoc l x ch).flat.length : Int) = (l.flat.length : Int) + ch.flat.length + 1 := by rw [flat_snoc_length]; omega
      by_cases hlen : (ch.flat.length : Int) + 1 ≤ 1
      · rw [if_pos hlen]
        have ha0 : arity E x = 0 := by
          rw [← hcc]
          cases ch with
          | nil => rfl
          | snoc _ _ _ => rw [flat_snoc_length] at hlen; omega
        have := squishLoop_ok n (s + 1) np _ _ (hI np hI' hs (uniq_small h.uniq hx ha0) (fun _ _ h => h) (by rw [ha0]; omega)) (by omega)
        rw [e1, e2] at this
        exact this
      · rw [if_neg hlen]
        have hseg := seg_tree (A := (app l ch).flat ++ np.drop s) (q := l.flat) (r := np.drop (s + 1)) (x := x) (ch := ch)
          (a := (l.flat.length : Int) + ch.flat.length - (ch.flat.length + 1) + 2) (b := (l.flat.length : Int) + ch.flat.length + 1) (by rw [hd, app_flat]) (by omega) rfl
        rw [hseg, Out.bind_val]
        have hAt : At E (np.take (s + 1)) s (expL ρ (ch.flat ++ [x])) (entries ρ l) ρ x ch := by
          refine ⟨by rw [List.length_take]; omega, runT, h.rlen, hW, ?_, ?_, ?_, ?_⟩
          · simp only [tree, flat, List.nil_append]; exact hrefs.right.app hxrefs
          · simp only [tree, flat, List.nil_append]; exact hb _ (List.prefix_append _ _)
          · rw [← hcc]
            cases ch with
            | nil => simp [flat] at hlen
            | snoc _ _ _ => simp [count]
          · rw [List.getElem?_take_of_lt (by omega)]; exact hx
        have etl : ((ch.flat.length : Int) + 1) = ((tree x ch).flat.length : Int) := by rw [tree_flat_length]; omega
        have hQ : ∀ np1 A C, PInv E p (np.take (s + 1)) np1 → np1 = A ++ (tree x ch).flat ++ C → s < A.length →
            (Uniq E s np1 ∧ ∀ (i : Nat), i < s → -1000 - (i : Int) ∈ np1 → -1000 - (i : Int) ∈ np) →
            (Uniq E s (A ++ [-1000 - (s : Int)] ++ C) ∧ ∀ (i : Nat), i < s → -1000 - (i : Int) ∈ A ++ [-1000 - (s : Int)] ++ C → -1000 - (i : Int) ∈ np) := by
          intro np1 A C h1 h2 h3 ⟨h4, h5⟩
          refine ⟨hAt.uniq_replace h1 h2 h3 (by omega) h4, ?_⟩
          intro i hi hmem'
          simp only [List.mem_append, List.mem_singleton] at hmem'
          rcases hmem' with (hmem' | hmem') | hmem'
          · exact h5 i hi (by rw [h2]; simp [hmem'])
          · omega
          · exact h5 i hi (by rw [h2]; simp [hmem'])
        obtain ⟨np', found', e, hP, hl', hf, ⟨hu', hrf'⟩, hno⟩ := hAt.loop (p := p) hQ (np.length + 1) np ((s : Int) + 1) false hI' (by omega)
          (by rw [← etl]; omega) (fun A C _ h => by omega) ⟨h.uniq, fun _ _ h => h⟩
        have htop' : TopOk E ρ np' ch := h.top.last.mono (List.prefix_refl _) (fun i hi => hget np' hP.pre i (by rw [h.rlen] at hi; omega))
          (fun i hi => hrf' i (by rw [h.rlen] at hi; exact hi)) (by rw [h.rlen]; exact hrefs.right)
        have hu1 := hAt.uniq_step hP hno hu' (fun y hy hr => hkeep np' hP.pre y (by simp [hy]) hr) htop'
        rw [etl, e, Out.bind_val]
        have hs' : s + 1 ≤ np'.length := by
          have := hP.pre.length_le
          rw [List.length_take] at this; omega
        cases found' with
        | false =>
          have := hf rfl
          subst this
          simp only [Bool.false_eq_true, if_false]
          have hns : -1000 - (s : Int) ∉ np' := by
            intro hm'
            have hr0 := h.pinv.refs _ hm' (by omega)
            rw [hTl] at hr0; omega
          have := squishLoop_ok n (s + 1) np' _ _ (hI np' hP hs' hu1 hrf' (fun _ => hns)) (by omega)
          rw [e1, e2] at this
          exact this
        | true =>
          simp only [if_true]
          have hlf : nmbrLeft ((app l ch).flat ++ np.drop s) ((l.flat.length : Int) + ch.flat.length + 1 - (tree x ch).flat.length) = .val l.flat := by
            rw [app_flat, List.append_assoc]; exact left_append _ _ (by rw [← etl]; omega)
          rw [hlf, Out.bind_val]
          have hrt : nmbrRight np' ((s : Int) + 2) = np'.drop (s + 1) := by
            unfold nmbrRight; congr 1; omega
          rw [hrt]
          have hI2 : LInv E p (s + 1) np' (snoc l (-1000 - (s : Int)) nil) (ρ ++ [expL ρ (ch.flat ++ [x])]) := by
            have et : np'.take (s + 1) = np.take (s + 1) := by
              obtain ⟨t, ht⟩ := hP.pre
              have : (np.take (s + 1)).length = s + 1 := by rw [List.length_take]; omega
              rw [← ht]; rw [List.take_left' this]
            have hrf : (-1000 - (-1000 - (s : Int))).toNat = s := by omega
            refine ⟨hs', by rw [et]; exact hP, ⟨hl, trivial, Or.inr (Or.inl (by omega)), arity_ref (by omega)⟩, ?_, ?_, by simp [h.rlen], hu1,
              ⟨htopL.mono (List.prefix_append _ _) (fun i hi => hget np' hP.pre i (by rw [h.rlen] at hi; omega)) (fun i hi => hrf' i (by rw [h.rlen] at hi; exact hi))
                (by rw [h.rlen]; exact hrefs.left), by rw [arity_ref (by omega)]; omega⟩, ?_⟩
            · have : (snoc l (-1000 - (s : Int)) nil).flat = l.flat ++ [-1000 - (s : Int)] := by simp [flat]
              rw [this]
              refine (hrefs.left.mono (by omega)).app ?_
              intro y hy hr
              rw [List.mem_singleton] at hy; subst hy; omega
            · rw [et, runT, entries, hle1 _ (List.prefix_append _ _)]
              rw [show (nil : Forest).flat ++ [-1000 - (s : Int)] = [-1000 - (s : Int)] from rfl, expL_single]
              have : exp1 (ρ ++ [expL ρ (ch.flat ++ [x])]) (-1000 - (s : Int)) = expL ρ (ch.flat ++ [x]) := by
                unfold exp1; rw [if_pos (by omega), hrf]; exact hAt.get
              rw [this]
            · intro y hy hr
              simp only [flat, List.append_nil, List.mem_append, List.mem_singleton] at hy
              rcases hy with hy | rfl
              · exact hkeep np' hP.pre y (by simp [hy]) hr
              · rw [hrf]
                exact ⟨x, by rw [hget np' hP.pre s (by omega)]; exact hx, hAt.ar⟩
          have := squishLoop_ok n (s + 1) np' _ _ hI2 (by omega)
          have e3 : (snoc l (-1000 - (s : Int)) nil).flat ++ np'.drop (s + 1) = nmbrAddElement l.flat (-1000 - (s : Int)) ++ np'.drop (s + 1) := by simp [flat, nmbrAddElement]
          have e4 : ((snoc l (-1000 - (s : Int)) nil).flat.length : Int) = (l.flat.length : Int) + ch.flat.length + 1 - (tree x ch).flat.length + 1 := by
            rw [flat_snoc_length, ← etl]; simp only [flat, List.length_nil]; omega
          rw [e3, e4] at this
          obtain ⟨q, h1, h2, h3, h4⟩ := this
          exact ⟨q, h1, h2, by omega, h4⟩

theorem expL_none (ρ : List (List Int)) : ∀ {l : List Int}, (∀ y ∈ l, -1000 < y) → expL ρ l = l
  | [], _ => rfl
  | x :: l, h => by
    have : exp1 ρ x = [x] := by unfold exp1; rw [if_neg (by have := h x (by simp); omega)]
    rw [expL, List.flatMap_cons, this]
    have ih := expL_none ρ (l := l) (fun y hy => h y (by simp [hy]))
    rw [expL] at ih; rw [ih]; rfl

/-- A normal proof stands for itself. -/
theorem normal_expands {p : List Int} (h : NormalProof E p) : Expands E p p := by
  obtain ⟨x, ch, hw, rfl, hn⟩ := h
  obtain ⟨m, hm⟩ := run_ok (E := E) (st := []) (sv := []) hw (by intro y hy hr; have := hn y hy; omega)
  refine ⟨[] ++ m, ?_⟩
  rw [hm]
  have : entries [] (tree x ch) = [(tree x ch).flat] := by
    rw [tree, entries, entries, expL_none]
    · simp [flat]
    · intro y hy; exact hn y (by simpa [tree, flat] using hy)
  rw [this]; rfl

theorem squish_ok {p : List Int} (h : NormalProof E p) : ∃ q, squish E p = .val q ∧ PInv E p q q ∧ q.length ≤ p.length ∧ Uniq E q.length q := by
  have hex := normal_expands h
  obtain ⟨x, ch, hw, hp, hn⟩ := h
  have hI : LInv E p 0 p nil [] := by
    refine ⟨by omega, ⟨by rw [← hp]; exact wf_ok hw, hex, ?_, ?_, by simp⟩, trivial, ?_, by simp [expandRun, entries], rfl, ?_, trivial, ?_⟩
    · intro y hy hr; have := hn y hy; omega
    · intro y hy hr; have := hn y hy; omega
    · intro y hy; simp [flat] at hy
    · intro R st _ i j y z hi; omega
    · intro y hy; simp [flat] at hy
  obtain ⟨q, h1, h2⟩ := squishLoop_ok (p.length + 1) 0 p nil [] hI (by omega)
  exact ⟨q, by simpa [squish, flat] using h1, h2⟩

/-- **C21** (packing).  Packing a normal proof succeeds; the result is not longer, it stands for the same proof, and its references are to earlier steps that use an
assertion with hypotheses. -/
theorem C21_pack_keeps_meaning {p : List Int} (h : NormalProof E p) :
    ∃ q, squish E p = .val q ∧ q.length ≤ p.length ∧ Expands E q p ∧ RefsOk E q ∧ ∀ x ∈ q, StepOk E x := by
  obtain ⟨q, h1, h2, h3, _⟩ := squish_ok h
  refine ⟨q, h1, h3, h2.exp, ?_, h2.ok⟩
  intro k y hk hr
  have hm := List.mem_of_getElem? hk
  obtain ⟨z, hz, haz⟩ := h2.tgt y hm hr
  refine ⟨(-1000 - y).toNat, z, by omega, ?_, hz, haz⟩
  -- the machine has recorded the target before step `k`
  obtain ⟨rec, hrun⟩ := h2.exp
  have hklt : k < q.length := (List.getElem?_eq_some_iff.1 hk).1
  have hsp : q = q.take k ++ y :: q.drop (k + 1) := by
    conv_lhs => rw [← List.take_append_drop k q]
    rw [List.drop_eq_getElem_cons hklt]
    rw [List.getElem?_eq_getElem hklt] at hk; cases hk; rfl
  rw [hsp] at hrun
  obtain ⟨mid, r1, r2⟩ := run_split hrun
  rw [expandRun] at r2
  cases hst : expandStep E mid y with
  | none => rw [hst] at r2; cases r2
  | some st' =>
    obtain ⟨m, hm2, hml⟩ := run_record r1
    have hlt := (step_ref hr hst).1
    rw [hm2] at hlt
    simp only [List.nil_append, List.length_take] at hlt hml
    omega

/-- **C21** (full packing).  After packing, no two steps that use an assertion with hypotheses have the same proof: every repeated subproof has been replaced by a
reference. -/
theorem C21_no_repeated_subproof {p : List Int} (h : NormalProof E p) :
    ∃ q rec, squish E p = .val q ∧ expandRun E q ([], []) = some ([p], rec) ∧
      ∀ (i j : Nat) (y z : Int), i < j → q[i]? = some y → q[j]? = some z → 1 ≤ arity E y → 1 ≤ arity E z → rec[i]? ≠ rec[j]? := by
  obtain ⟨q, h1, h2, _, h4⟩ := squish_ok h
  obtain ⟨rec, hr⟩ := h2.exp
  exact ⟨q, rec, h1, hr, fun i j y z hij hy hz => h4 rec [p] hr i j y z (List.getElem?_eq_some_iff.1 hy).1 hij hy hz⟩

end MM.Tree
