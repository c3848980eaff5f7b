import Verif.Proof.Model
import Verif.Veri.Props
/-!
# Invariants of `parseProof`
-/
namespace MM.Proof
open MM.Veri MM.Pars MM.Spec

variable {E : Env} {p : Nat}

/-! ## The scan for local labels -/

theorem le_ite_max {c : Prop} [Decidable c] {a b : Nat} : a ≤ if c then max a b else a := by split <;> omega

theorem of_ite_max_lt {c : Prop} [Decidable c] {a : Nat} (h : (if c then max a 2 else a) < 2) : ¬ c ∧ a < 2 := by
  split at h
  · omega
  · exact ⟨by assumption, h⟩

theorem lscanTok_ret {prev tok : Name} {s s' : LScan} (h : lscanTok E p prev tok s = .val s') : s.ret ≤ s'.ret := by
  unfold lscanTok at h
  split at h
  · cases h
  · dsimp only at h
    split at h
    · cases h; exact Nat.le_refl _
    · cases h
      dsimp only
      exact le_ite_max

theorem lscan_ret : ∀ {toks : List Name} {prev : Name} {s s' : LScan}, lscan E p prev toks s = .val s' → s.ret ≤ s'.ret
  | [], _, _, _, h => by cases h; exact Nat.le_refl _
  | t :: ts, prev, s, s', h => by
    unfold lscan at h
    cases h1 : lscanTok E p prev t s with
    | val s1 =>
      rw [h1, Out.bind_val] at h
      exact Nat.le_trans (lscanTok_ret h1) (lscan_ret h)
    | ub => rw [h1] at h; cases h
    | bug n => rw [h1] at h; cases h
    | fuel => rw [h1] at h; cases h

/-- State of the scan when no error of class 2 or more has been found. -/
structure LInv (E : Env) (p : Nat) (prev : Name) (s : LScan) : Prop where
  num : s.num = s.steps.length
  lf : s.lflag = true → prev.head? = some ':'
  last : s.lflag = false → s.steps = [] ∨ ∃ st fl, s.steps = st ++ [(prev, fl)]
  tbl : ∃ locs, s.tbl = hypTable E p ++ locs ∧ ∀ e ∈ locs, ∃ k : Nat, e.2 = -1000 - (k : Int) ∧
    ((∃ t, s.steps[k]? = some (t, true)) ∨ (k = s.steps.length ∧ s.lflag = true))
  toks : ∀ x ∈ s.steps, x.1.head? ≠ some ':'

theorem LInv.init {r e : Nat} : LInv E p [] { tbl := hypTable E p, ret := r, ec := e } where
  num := rfl
  lf := by simp
  last := by simp
  tbl := ⟨[], by simp, by simp⟩
  toks := by simp

theorem LInv.step {prev tok : Name} {s s' : LScan} (hI : LInv E p prev s) (h : lscanTok E p prev tok s = .val s') (hr : s'.ret < 2)
    (hfirst : s.steps = [] → s.lflag = false → tok.head? ≠ some ':') : LInv E p tok s' ∧ (s'.steps ≠ [] ∨ s'.lflag = true) := by
  unfold lscanTok at h
  split at h
  · cases h
  · dsimp only at h
    split at h
    · rename_i htok
      cases h
      obtain ⟨locs, h1, h2⟩ := hI.tbl
      refine ⟨⟨?_, by simp, ?_, ⟨locs, h1, ?_⟩, ?_⟩, Or.inl (by simp)⟩
      · dsimp only; rw [hI.num]; simp
      · intro _; exact Or.inr ⟨s.steps, s.lflag, rfl⟩
      · intro e he
        obtain ⟨k, hk, h3⟩ := h2 e he
        refine ⟨k, hk, Or.inl ?_⟩
        dsimp only
        rcases h3 with ⟨t, h3⟩ | ⟨h3, h4⟩
        · refine ⟨t, ?_⟩
          rw [List.getElem?_append_left]
          · exact h3
          · by_contra hc
            rw [List.getElem?_eq_none (by omega)] at h3; cases h3
        · exact ⟨tok, by rw [h3, h4]; simp⟩
      · intro x hx
        simp only [List.mem_append, List.mem_singleton] at hx
        rcases hx with hx | rfl
        · exact hI.toks x hx
        · exact htok
    · rename_i htok
      simp only [ne_eq, Decidable.not_not] at htok
      simp only [Out.val.injEq] at h
      generalize hbad : (prev.filter fun c => !legalLabelChar c).length = bad at h
      generalize (E.look (hypTable E p) prev).isSome = c2 at h
      rw [← h] at hr ⊢
      dsimp only at hr
      have hc := (of_ite_max_lt hr).1
      rw [not_or, not_or] at hc
      obtain ⟨hb0, _, hc2⟩ := hc
      rw [Bool.not_eq_true] at hc2
      subst hc2
      -- the previous token is a legal label
      have hlegal : prev.head? ≠ some ':' := by
        intro hp
        cases prev with
        | nil => simp at hp
        | cons c cs =>
          simp at hp; subst hp
          have : legalLabelChar ':' = false := by decide
          simp [List.filter, this] at hbad
          omega
      have hlf : s.lflag = false := by
        cases hx : s.lflag with
        | false => rfl
        | true => exact absurd (hI.lf hx) hlegal
      rcases hI.last hlf with hnil | ⟨st, fl, hst⟩
      · exact absurd htok (hfirst hnil hlf)
      · have hn : s.num = st.length + 1 := by rw [hI.num, hst]; simp
        have hn2 : s.num + 1 - 2 = st.length := by omega
        have htake : (s.steps ++ [(tok, s.lflag)]).take (s.num + 1 - 2).toNat = st := by
          rw [hn2, hst, List.append_assoc]; simp
        dsimp only
        rw [htake]
        obtain ⟨locs, h1, h2⟩ := hI.tbl
        refine ⟨⟨hn2, fun _ => htok, by simp, ⟨locs ++ [(prev, -(s.num + 1 - 2) - 1000)], by simp [h1], ?_⟩, ?_⟩, Or.inr rfl⟩
        · intro e he
          simp only [List.mem_append, List.mem_singleton] at he
          rcases he with he | rfl
          · obtain ⟨k, hk, h3⟩ := h2 e he
            refine ⟨k, hk, ?_⟩
            rcases h3 with ⟨t, h3⟩ | ⟨_, h4⟩
            · have hkl : k < s.steps.length := by
                by_contra hc
                rw [List.getElem?_eq_none (by omega)] at h3; cases h3
              rw [hst] at hkl h3
              simp at hkl
              rcases Nat.lt_or_ge k st.length with hlt | hge
              · left; refine ⟨t, ?_⟩
                rw [List.getElem?_append_left hlt] at h3; exact h3
              · right; exact ⟨by dsimp only; omega, rfl⟩
            · rw [hlf] at h4; cases h4
          · refine ⟨st.length, by dsimp only; omega, Or.inr ⟨rfl, rfl⟩⟩
        · intro x hx
          exact hI.toks x (by rw [hst]; simp [hx])

theorem LInv.run : ∀ {toks : List Name} {prev : Name} {s s' : LScan}, LInv E p prev s → lscan E p prev toks s = .val s' → s'.ret < 2 →
    (s.steps ≠ [] ∨ s.lflag = true ∨ ∀ t, toks.head? = some t → t.head? ≠ some ':') → ∃ prev', LInv E p prev' s'
  | [], prev, s, s', hI, h, _, _ => by cases h; exact ⟨prev, hI⟩
  | t :: ts, prev, s, s', hI, h, hr, hf => by
    unfold lscan at h
    cases h1 : lscanTok E p prev t s with
    | val s1 =>
      rw [h1, Out.bind_val] at h
      have hr1 : s1.ret < 2 := Nat.lt_of_le_of_lt (lscan_ret h) hr
      obtain ⟨hI1, hne⟩ := hI.step h1 hr1 (by
        intro e1 e2
        rcases hf with hf | hf | hf
        · exact absurd e1 hf
        · rw [hf] at e2; cases e2
        · exact hf t rfl)
      exact LInv.run hI1 h hr (by tauto)
    | ub => rw [h1] at h; cases h
    | bug n => rw [h1] at h; cases h
    | fuel => rw [h1] at h; cases h

theorem fixTokens_head {toks : List Name} (hr : (fixTokens toks).2.1 < 2) :
    ∀ t, (fixTokens toks).1.head? = some t → t.head? ≠ some ':' := by
  unfold fixTokens at hr ⊢
  dsimp only at hr ⊢
  cases toks with
  | nil => decide
  | cons t ts =>
    by_cases ht : t.head? = some ':'
    · exfalso
      simp [ht] at hr
      cases hl : (['?'] :: ts).getLast? with
      | none => simp [hl] at hr
      | some l =>
        rw [hl] at hr
        dsimp only at hr
        split at hr <;> simp at hr
    · simp only [List.isEmpty_cons, Bool.false_eq_true, if_false, ht] at hr ⊢
      cases hl : (t :: ts).getLast? with
      | none => simp at hl
      | some l =>
        rw [hl] at hr
        dsimp only at hr ⊢
        split at hr
        · simp at hr
        · rename_i hc
          rw [if_neg hc]
          simp [ht]

/-! ## The loop over the steps -/

theorem walkTok_ret {tbl} {x : Name × Bool} {w w' : Walk} (h : walkTok E p tbl x w = .val w') : w.ret ≤ w'.ret := by
  unfold walkTok at h
  split at h
  · cases h; dsimp only; omega
  cases hl : E.look tbl x.1 with
  | some j =>
    rw [hl] at h; dsimp only at h
    by_cases hj : j < 0
    · rw [if_pos hj] at h
      by_cases hi : -1000 - j < 0
      · rw [if_pos hi] at h; cases h
      · rw [if_neg hi] at h; cases h; exact le_ite_max
    · rw [if_neg hj] at h
      by_cases hi : j = 0
      · rw [if_pos hi] at h; cases h
      · rw [if_neg hi] at h; cases h; exact le_ite_max
  | none =>
    rw [hl] at h; dsimp only at h
    cases hl2 : E.look (labelKeys E) x.1 with
    | none => rw [hl2] at h; cases h; dsimp only; omega
    | some j =>
      rw [hl2] at h; dsimp only at h
      generalize decide (j ≥ (p : Int)) = fut at h
      have := le_ite_max (c := fut = true) (a := w.ret) (b := 2)
      split at h
      · cases h
      split at h
      · cases h; dsimp only; omega
      · cases h; exact this

theorem walk_ret {tbl} : ∀ {xs : List (Name × Bool)} {w w' : Walk}, walk E p tbl xs w = .val w' → w.ret ≤ w'.ret
  | [], _, _, h => by cases h; exact Nat.le_refl _
  | x :: xs, w, w', h => by
    unfold walk at h
    cases h1 : walkTok E p tbl x w with
    | val s1 =>
      rw [h1, Out.bind_val] at h
      exact Nat.le_trans (walkTok_ret h1) (walk_ret h)
    | ub => rw [h1] at h; cases h
    | bug n => rw [h1] at h; cases h
    | fuel => rw [h1] at h; cases h

theorem backOk_append {a : Int} : ∀ {l : List Int} {off : Nat}, BackOk off l → (a ≤ -1000 → (-1000 - a).toNat < off + l.length) →
    BackOk off (l ++ [a])
  | [], off, _, h => ⟨by simpa using h, trivial⟩
  | b :: l, off, h, ha => ⟨h.1, backOk_append h.2 (fun h1 => by have := ha h1; simp at this; omega)⟩

/-- The proof string keeps the stack correctly: `Depth db proof n` says that processing `proof` from an empty stack never takes more
entries than there are and leaves `n`. -/
inductive Depth (db : Db) : List Int → Nat → Prop
  | nil : Depth db [] 0
  | push {l n a} : Depth db l n → (a = unk ∨ a ≤ -1000 ∨ (0 ≤ a ∧ ((db.stmt a.toNat).kind = .e ∨ (db.stmt a.toNat).kind = .f))) →
      Depth db (l ++ [a]) (n + 1)
  | use {l n a} : Depth db l n → 0 ≤ a → ((db.stmt a.toNat).kind = .a ∨ (db.stmt a.toNat).kind = .p) →
      (db.stmt a.toNat).reqHyp.length ≤ n → Depth db (l ++ [a]) (n - (db.stmt a.toNat).reqHyp.length + 1)

/-- What holds of the part of the proof string already written. -/
structure WInv (E : Env) (p : Nat) (w : Walk) : Prop where
  legal : LegalRefs E.toDb p w.proof
  back : BackOk 0 w.proof
  depth : Depth E.toDb w.proof w.sp
  unkRet : unk ∈ w.proof → 1 ≤ w.ret

/-- The hypotheses of statement `p` are `$e`/`$f` statements. -/
def HypKinds (db : Db) (p : Nat) : Prop :=
  ∀ j ∈ (db.stmt p).reqHyp ++ (db.stmt p).optHyp, 0 < j ∧ ((db.stmt j).kind = .e ∨ (db.stmt j).kind = .f)

theorem mem_labelKeys {nm : Name} {j : Int} (h : (nm, j) ∈ labelKeys E) : ∃ i : Nat, j = i ∧ 1 ≤ i ∧ i ≤ E.n ∧ E.lab i = nm := by
  unfold labelKeys at h
  simp only [List.mem_map, List.mem_filter, List.mem_range', Prod.mk.injEq] at h
  obtain ⟨i, ⟨⟨k, hk, rfl⟩, _⟩, h1, h2⟩ := h
  exact ⟨_, h2.symm, by omega, by omega, h1⟩

theorem legal_append {db : Db} {l : List Int} {a : Int} (h : LegalRefs db p l)
    (ha : 0 ≤ a → (a.toNat ∈ (db.stmt p).reqHyp ++ (db.stmt p).optHyp ∧ ((db.stmt a.toNat).kind = .e ∨ (db.stmt a.toNat).kind = .f)) ∨
      (a.toNat < p ∧ ((db.stmt a.toNat).kind = .a ∨ (db.stmt a.toNat).kind = .p))) : LegalRefs db p (l ++ [a]) := by
  intro ps hps h0
  rcases List.mem_append.mp hps with h1 | h1
  · exact h ps h1 h0
  · rw [List.mem_singleton] at h1; subst h1; exact ha h0

/-- An unknown step. -/
theorem WInv.unk {w : Walk} (hI : WInv E p w) {r e : Nat} (hr : 1 ≤ r) : WInv E p ⟨w.proof ++ [MM.Proof.unk], w.sp + 1, r, e⟩ where
  legal := legal_append hI.legal (by intro h; simp [MM.Proof.unk] at h)
  back := backOk_append hI.back (by intro h; simp [MM.Proof.unk] at h)
  depth := .push hI.depth (Or.inl rfl)
  unkRet := fun _ => hr

theorem WInv.step {locs : List (Name × Int)} {x : Name × Bool} {w w' : Walk} (hlook : LookOk E.look) (hk : HypKinds E.toDb p)
    (hI : WInv E p w) (hloc : ∀ e ∈ locs, ∃ k : Nat, e.2 = -1000 - (k : Int) ∧ (k = w.proof.length → x.2 = true))
    (h : walkTok E p (hypTable E p ++ locs) x w = .val w') (hr : w'.ret < 2) : WInv E p w' := by
  unfold walkTok at h
  split at h
  · cases h; exact hI.unk (by omega)
  · cases hl : E.look (hypTable E p ++ locs) x.1 with
    | some j =>
      rw [hl] at h
      dsimp only at h
      have hm := (hlook _ _).1 j hl
      by_cases hj : j < 0
      · rw [if_pos hj] at h
        have hml : (x.1, j) ∈ locs := by
          rcases List.mem_append.mp hm with h1 | h1
          · simp only [hypTable, List.mem_map, Prod.mk.injEq] at h1
            obtain ⟨i, _, _, h2⟩ := h1
            omega
          · exact h1
        obtain ⟨k, hk1, hk2⟩ := hloc _ hml
        dsimp only at hk1
        rw [if_neg (by omega)] at h
        simp only [Out.val.injEq] at h
        rw [← h] at hr ⊢
        dsimp only at hr
        have hc := (of_ite_max_lt hr).1
        simp only [Bool.or_eq_true, decide_eq_true_eq, not_or, not_lt] at hc
        have hd : decide (-1000 - j > (w.proof.length : Int)) = false := by simp; omega
        rw [hd]
        simp only [Bool.false_eq_true, if_false]
        have hne : k ≠ w.proof.length := fun h0 => hc.2 (hk2 h0)
        refine ⟨legal_append hI.legal (by omega), backOk_append hI.back (by omega), .push hI.depth (Or.inr (Or.inl (by omega))), ?_⟩
        intro hu
        rcases List.mem_append.mp hu with h1 | h1
        · exact Nat.le_trans (hI.unkRet h1) le_ite_max
        · simp only [List.mem_singleton, MM.Proof.unk] at h1; omega
      · rw [if_neg hj] at h
        split at h
        · cases h
        rename_i hj0
        simp only [Out.val.injEq] at h
        rw [← h] at hr ⊢
        have hmh : (x.1, j) ∈ hypTable E p := by
          rcases List.mem_append.mp hm with h1 | h1
          · exact h1
          · obtain ⟨k, hk1, _⟩ := hloc _ h1
            dsimp only at hk1; omega
        simp only [hypTable, List.mem_map, Prod.mk.injEq] at hmh
        obtain ⟨i, h1, h2, h3⟩ := hmh
        have hi : i ∈ (E.stmt p).reqHyp ++ (E.stmt p).optHyp := by
          simp only [List.mem_append] at h1 ⊢; tauto
        have hik := (hk i hi).2
        subst h3
        refine ⟨legal_append hI.legal (fun _ => Or.inl ⟨hi, hik⟩), backOk_append hI.back (by omega),
          .push hI.depth (Or.inr (Or.inr ⟨by omega, hik⟩)), ?_⟩
        intro hu
        dsimp only
        rcases List.mem_append.mp hu with h1 | h1
        · split <;> have := hI.unkRet h1 <;> omega
        · simp only [List.mem_singleton, MM.Proof.unk] at h1; omega
    | none =>
      rw [hl] at h
      dsimp only at h
      cases hl2 : E.look (labelKeys E) x.1 with
      | none => rw [hl2] at h; cases h; exact hI.unk (by omega)
      | some j =>
        rw [hl2] at h
        dsimp only at h
        obtain ⟨i, hji, hi1, _, _⟩ := mem_labelKeys ((hlook _ _).1 j hl2)
        split at h
        · cases h
        rename_i hkind
        split at h
        · cases h; exact hI.unk (by omega)
        · rename_i hsp
          cases h
          dsimp only at hr
          split at hr
          · omega
          rename_i hfut
          simp only [decide_eq_true_eq, not_le] at hfut
          have hk2 : (E.stmt j.toNat).kind = .a ∨ (E.stmt j.toNat).kind = .p := by tauto
          refine ⟨legal_append hI.legal (fun _ => Or.inr ⟨by omega, hk2⟩), backOk_append hI.back (by omega),
            .use hI.depth (by omega) hk2 (by omega), ?_⟩
          intro hu
          dsimp only
          rcases List.mem_append.mp hu with h1 | h1
          · split <;> have := hI.unkRet h1 <;> omega
          · simp only [List.mem_singleton, MM.Proof.unk] at h1; omega

theorem walkTok_len {tbl} {x : Name × Bool} {w w' : Walk} (h : walkTok E p tbl x w = .val w') : w'.proof.length = w.proof.length + 1 := by
  unfold walkTok at h
  split at h
  · cases h; simp
  cases hl : E.look tbl x.1 with
  | some j =>
    rw [hl] at h; dsimp only at h
    by_cases hj : j < 0
    · rw [if_pos hj] at h
      by_cases hi : -1000 - j < 0
      · rw [if_pos hi] at h; cases h
      · rw [if_neg hi] at h; cases h; simp
    · rw [if_neg hj] at h
      by_cases hi : j = 0
      · rw [if_pos hi] at h; cases h
      · rw [if_neg hi] at h; cases h; simp
  | none =>
    rw [hl] at h; dsimp only at h
    cases hl2 : E.look (labelKeys E) x.1 with
    | none => rw [hl2] at h; cases h; simp
    | some j =>
      rw [hl2] at h; dsimp only at h
      split at h
      · cases h
      split at h
      · cases h; simp
      · cases h; simp

theorem WInv.run {locs : List (Name × Int)} (hlook : LookOk E.look) (hk : HypKinds E.toDb p) :
    ∀ {xs : List (Name × Bool)} {w w' : Walk}, WInv E p w →
    (∀ e ∈ locs, ∃ k : Nat, e.2 = -1000 - (k : Int) ∧ ∀ q, k = w.proof.length + q → ∀ y, xs[q]? = some y → y.2 = true) →
    walk E p (hypTable E p ++ locs) xs w = .val w' → w'.ret < 2 → WInv E p w'
  | [], w, w', hI, _, h, _ => by cases h; exact hI
  | x :: xs, w, w', hI, hloc, h, hr => by
    unfold walk at h
    cases h1 : walkTok E p (hypTable E p ++ locs) x w with
    | val w1 =>
      rw [h1, Out.bind_val] at h
      have hr1 : w1.ret < 2 := Nat.lt_of_le_of_lt (walk_ret h) hr
      refine WInv.run hlook hk (hI.step hlook hk ?_ h1 hr1) ?_ h hr
      · intro e he
        obtain ⟨k, h2, h3⟩ := hloc e he
        exact ⟨k, h2, fun h4 => h3 0 (by omega) x rfl⟩
      · intro e he
        obtain ⟨k, h2, h3⟩ := hloc e he
        refine ⟨k, h2, fun q hq y hy => h3 (q + 1) ?_ y (by simpa using hy)⟩
        rw [hq, walkTok_len h1]; omega
    | ub => rw [h1] at h; cases h
    | bug n => rw [h1] at h; cases h
    | fuel => rw [h1] at h; cases h

/-- **C11/C10**, core: what `parseProof` guarantees when it returns 0 or 1. -/
theorem parseProof_ok {toks : List Name} {r : Parsed} (hlook : LookOk E.look) (hk : HypKinds E.toDb p)
    (h : parseProof E p toks = .val r) (hr : r.ret < 2) :
    LegalRefs E.toDb p r.proof ∧ BackOk 0 r.proof ∧ Depth E.toDb r.proof 1 ∧ (unk ∈ r.proof → r.ret = 1) := by
  unfold parseProof at h
  dsimp only at h
  cases hs : lscan E p [] (fixTokens toks).1 { tbl := hypTable E p, ret := (fixTokens toks).2.1, ec := (fixTokens toks).2.2 } with
  | val s =>
    rw [hs, Out.bind_val] at h
    split at h
    · cases h
    split at h
    · cases h
    generalize (if decide (s.tbl.length > (hypTable E p).length) = true then dupCount s.tbl else 0) = d at h
    cases hw : walk E p s.tbl s.steps ⟨[], 0, if d > 0 then max s.ret 2 else s.ret, s.ec + d⟩ with
    | val w =>
      rw [hw, Out.bind_val] at h
      split at h
      · split at h
        · cases h
        · cases h; dsimp only at hr; omega
      · rename_i hsp
        simp only [Decidable.not_not, ne_eq] at hsp
        cases h
        dsimp only at hr ⊢
        have hr0 := walk_ret hw
        dsimp only at hr0
        have hs2 : s.ret < 2 := by split at hr0 <;> omega
        obtain ⟨prev, hI⟩ := LInv.init.run hs hs2 (Or.inr (Or.inr (fixTokens_head (Nat.lt_of_le_of_lt (lscan_ret hs) hs2))))
        obtain ⟨locs, h1, h2⟩ := hI.tbl
        rw [h1] at hw
        have hW : WInv E p ⟨[], 0, if d > 0 then max s.ret 2 else s.ret, s.ec + d⟩ :=
          ⟨by intro ps hps; simp at hps, trivial, .nil, by simp⟩
        have := hW.run hlook hk (locs := locs) (by
          intro e he
          obtain ⟨k, hk1, hk2⟩ := h2 e he
          refine ⟨k, hk1, fun q hq y hy => ?_⟩
          simp only [List.length_nil, Nat.zero_add] at hq
          subst hq
          rcases hk2 with ⟨t, hk2⟩ | ⟨hk2, _⟩
          · rw [hk2] at hy; cases hy; rfl
          · rw [List.getElem?_eq_none (by omega)] at hy; cases hy) hw hr
        refine ⟨this.legal, this.back, by rw [← hsp]; exact this.depth, fun hu => ?_⟩
        have := this.unkRet hu; omega
    | ub => rw [hw] at h; cases h
    | bug n => rw [hw] at h; cases h
    | fuel => rw [hw] at h; cases h
  | ub => rw [hs] at h; cases h
  | bug n => rw [hs] at h; cases h
  | fuel => rw [hs] at h; cases h

end MM.Proof
