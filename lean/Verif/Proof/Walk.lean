import Verif.Proof.Items
/-!
# The loop over the steps of a proof: what the tokens refer to
-/
namespace MM.Proof
open MM.Veri MM.Pars MM.Spec

/-- The token `tok` of step `k` refers to the statement or earlier step encoded by the number: an active hypothesis, an earlier step
with the local label `tok`, or an earlier assertion. -/
inductive Refers (E : Env) (p : Nat) (items : List Item) (k : Nat) (tok : Name) : Int → Prop
  | hyp (j : Nat) : j ∈ (E.stmt p).reqHyp ++ (E.stmt p).optHyp → E.lab j = tok → Refers E p items k tok j
  | back (i : Nat) (x : Item) : i < k → items[i]? = some x → tok ∈ x.labels → Refers E p items k tok (-1000 - i)
  | use (j : Nat) : 1 ≤ j → j < p → (E.stmt j).kind = .a ∨ (E.stmt j).kind = .p → E.lab j = tok → tok ≠ [] → Refers E p items k tok j

variable {E : Env} {p : Nat}

/-- One step without error and without `?`. -/
theorem walkTok_refers {items : List Item} {x : Item} {w w' : Walk} (hlook : LookOk E.look)
    (hx : items[w.proof.length]? = some x)
    (h : walkTok E p (hypTable E p ++ locTable 0 items) (x.tok, !x.labels.isEmpty) w = .val w') (hr : w'.ret = 0) :
    ∃ ps, w'.proof = w.proof ++ [ps] ∧ Refers E p items w.proof.length x.tok ps ∧
      (x.labels ≠ [] → 0 ≤ ps ∧ ((E.stmt ps.toNat).kind = .a ∨ (E.stmt ps.toNat).kind = .p)) ∧ x.tok.head? ≠ some '?' := by
  unfold walkTok at h
  by_cases hq : x.tok.head? = some '?'
  · rw [if_pos hq] at h
    cases h; dsimp only at hr; omega
  rw [if_neg hq] at h
  dsimp only at h
  cases hl : E.look (hypTable E p ++ locTable 0 items) x.tok with
  | some j =>
    rw [hl] at h; dsimp only at h
    have hm := (hlook _ _).1 j hl
    by_cases hj : j < 0
    · rw [if_pos hj] at h
      by_cases hi : -1000 - j < 0
      · rw [if_pos hi] at h; cases h
      · rw [if_neg hi] at h
        cases h
        dsimp only at hr ⊢
        have hc := (of_ite_max_lt (a := w.ret) (by rw [hr]; omega)).1
        simp only [Bool.or_eq_true, decide_eq_true_eq, not_or, not_lt, Bool.not_eq_true', Bool.not_eq_false] at hc
        obtain ⟨hc1, hc2⟩ := hc
        rw [decide_eq_false (by omega)]
        have hlab : x.labels = [] := by simpa using hc2
        refine ⟨j, by simp, ?_, fun hn => absurd hlab hn, hq⟩
        rcases List.mem_append.mp hm with h1 | h1
        · simp only [hypTable, List.mem_map, Prod.mk.injEq] at h1
          obtain ⟨i, _, _, h2⟩ := h1
          omega
        · obtain ⟨i, y, h2, h3, h4⟩ := mem_locTable.mp h1
          dsimp only at h3 h4
          have : j = -1000 - (i : Int) := by rw [h4]; push_cast; omega
          rw [this]
          refine .back i y ?_ h2 h3
          have hne : i ≠ w.proof.length := by
            rintro rfl
            rw [hx] at h2; cases h2
            rw [hlab] at h3; cases h3
          omega
    · rw [if_neg hj] at h
      by_cases hi : j = 0
      · rw [if_pos hi] at h; cases h
      · rw [if_neg hi] at h
        cases h
        dsimp only at hr ⊢
        have hc := (of_ite_max_lt (a := w.ret) (by rw [hr]; omega)).1
        have hlab : x.labels = [] := by simpa using hc
        refine ⟨j, by simp, ?_, fun hn => absurd hlab hn, hq⟩
        rcases List.mem_append.mp hm with h1 | h1
        · simp only [hypTable, List.mem_map, Prod.mk.injEq] at h1
          obtain ⟨i, h2, h3, rfl⟩ := h1
          exact .hyp i (by simp only [List.mem_append] at h2 ⊢; tauto) h3
        · obtain ⟨i, y, h2, h3, h4⟩ := mem_locTable.mp h1
          dsimp only at h4
          omega
  | none =>
    rw [hl] at h; dsimp only at h
    cases hl2 : E.look (labelKeys E) x.tok with
    | none => rw [hl2] at h; cases h; dsimp only at hr; omega
    | some j =>
      rw [hl2] at h; dsimp only at h
      have hm := (hlook _ _).1 j hl2
      simp only [labelKeys, List.mem_map, List.mem_filter, List.mem_range', Prod.mk.injEq, decide_eq_true_eq] at hm
      obtain ⟨i, ⟨⟨q, hqn, hiq⟩, hne, _⟩, h1, rfl⟩ := hm
      split at h
      · cases h
      rename_i hkind
      have hk : (E.stmt i).kind = .a ∨ (E.stmt i).kind = .p := by
        simp only [Int.toNat_natCast] at hkind
        tauto
      split at h
      · cases h; dsimp only at hr; omega
      · cases h
        dsimp only at hr ⊢
        have hc := (of_ite_max_lt (a := w.ret) (by rw [hr]; omega)).1
        simp only [decide_eq_true_eq, not_le] at hc
        exact ⟨i, rfl, .use i (by omega) (by omega) hk h1 (by rw [← h1]; exact hne), fun _ => ⟨by omega, by simpa using hk⟩, hq⟩

theorem walk_refers {items : List Item} (hlook : LookOk E.look) : ∀ {xs ys : List Item} {w w' : Walk}, items = ys ++ xs → w.proof.length = ys.length →
    walk E p (hypTable E p ++ locTable 0 items) (xs.map fun x => (x.tok, !x.labels.isEmpty)) w = .val w' → w'.ret = 0 →
    (∃ l, w'.proof = w.proof ++ l ∧ l.length = xs.length) ∧ ∀ (k : Nat) x ps, ys.length ≤ k → items[k]? = some x → w'.proof[k]? = some ps →
      Refers E p items k x.tok ps ∧ (x.labels ≠ [] → 0 ≤ ps ∧ ((E.stmt ps.toNat).kind = .a ∨ (E.stmt ps.toNat).kind = .p)) ∧ x.tok.head? ≠ some '?'
  | [], ys, w, w', hi, _, h, _ => by
    simp only [List.map_nil, walk, Out.val.injEq] at h
    subst h
    refine ⟨⟨[], by simp⟩, fun k x ps hk hx _ => ?_⟩
    rw [List.append_nil] at hi
    subst hi
    rw [List.getElem?_eq_none hk] at hx; cases hx
  | x :: xs, ys, w, w', hi, hlen, h, hr => by
    rw [List.map_cons, walk] at h
    cases h1 : walkTok E p (hypTable E p ++ locTable 0 items) (x.tok, !x.labels.isEmpty) w with
    | val w1 =>
      rw [h1, Out.bind_val] at h
      have hr1 : w1.ret = 0 := by have := walk_ret h; omega
      have hx : items[w.proof.length]? = some x := by rw [hi, hlen]; simp
      obtain ⟨ps, hps, href, hlab⟩ := walkTok_refers hlook hx h1 hr1
      have hlen1 : w1.proof.length = (ys ++ [x]).length := by rw [hps]; simp [hlen]
      obtain ⟨⟨l, hl, hll⟩, hrest⟩ := walk_refers hlook (xs := xs) (ys := ys ++ [x]) (by rw [hi]; simp) hlen1 h hr
      refine ⟨⟨ps :: l, by rw [hl, hps]; simp, by simp [hll]⟩, fun k y qs hk hy hqs => ?_⟩
      rcases Nat.eq_or_lt_of_le hk with hk | hk
      · have hkw : k = w.proof.length := by omega
        rw [hkw, hx] at hy; cases hy
        have : w'.proof[k]? = some ps := by rw [hl, hps, hkw]; simp
        rw [this] at hqs; cases hqs
        rw [hkw]; exact ⟨href, hlab⟩
      · exact hrest k y qs (by simp; omega) hy hqs
    | ub => rw [h1] at h; cases h
    | bug n => rw [h1] at h; cases h
    | fuel => rw [h1] at h; cases h

/-! ## Messages and return code -/

theorem walkTok_ec {tbl} {x : Name × Bool} {w w' : Walk} (h : walkTok E p tbl x w = .val w') :
    w.ec ≤ w'.ec ∧ (w'.ec = 0 → w'.ret ≤ max w.ret 1) := by
  unfold walkTok at h
  split at h
  · cases h; dsimp only; omega
  cases hl : E.look tbl x.1 with
  | some j =>
    rw [hl] at h; dsimp only at h
    by_cases hj : j < 0
    · rw [if_pos hj] at h
      by_cases hi : -1000 - j < 0
      · rw [if_pos hi] at h; cases h
      · rw [if_neg hi] at h; cases h
        dsimp only
        refine ⟨by omega, fun h0 => ?_⟩
        have h1 : decide (-1000 - j > (w.proof.length : Int)) = false := by
          cases hd : decide (-1000 - j > (w.proof.length : Int)) with
          | false => rfl
          | true => rw [hd] at h0; simp at h0
        have h2 : x.2 = false := by
          cases hd : x.2 with
          | false => rfl
          | true => rw [hd] at h0; simp at h0
        rw [h1, h2]; simp
    · rw [if_neg hj] at h
      by_cases hi : j = 0
      · rw [if_pos hi] at h; cases h
      · rw [if_neg hi] at h; cases h
        dsimp only
        refine ⟨by omega, fun h0 => ?_⟩
        have h2 : x.2 = false := by
          cases hd : x.2 with
          | false => rfl
          | true => rw [hd] at h0; simp at h0
        rw [h2]; simp
  | none =>
    rw [hl] at h; dsimp only at h
    cases hl2 : E.look (labelKeys E) x.1 with
    | none => rw [hl2] at h; cases h; exact ⟨by dsimp only; omega, fun h0 => by simp at h0⟩
    | some j =>
      rw [hl2] at h; dsimp only at h
      split at h
      · cases h
      split at h
      · cases h; exact ⟨by dsimp only; omega, fun h0 => by simp at h0⟩
      · cases h
        dsimp only
        refine ⟨by omega, fun h0 => ?_⟩
        cases hd : decide (j ≥ (p : Int)) with
        | false => simp
        | true => rw [hd] at h0; simp at h0

theorem walk_ec {tbl} : ∀ {xs : List (Name × Bool)} {w w' : Walk}, walk E p tbl xs w = .val w' →
    w.ec ≤ w'.ec ∧ (w'.ec = 0 → w'.ret ≤ max w.ret 1)
  | [], _, _, h => by cases h; omega
  | x :: xs, w, w', h => by
    unfold walk at h
    cases h1 : walkTok E p tbl x w with
    | val s1 =>
      rw [h1, Out.bind_val] at h
      have a := walkTok_ec h1
      have b := walk_ec h
      exact ⟨by omega, fun h0 => by have := a.2 (by omega); have := b.2 h0; omega⟩
    | ub => rw [h1] at h; cases h
    | bug n => rw [h1] at h; cases h
    | fuel => rw [h1] at h; cases h

theorem lscanTok_ec2 {prev tok : Name} {s s' : LScan} (h : lscanTok E p prev tok s = .val s') (h0 : s'.ec = 0) : s'.ret = s.ret := by
  unfold lscanTok at h
  split at h
  · cases h
  · dsimp only at h
    split at h
    · cases h; rfl
    · generalize (E.look (labelKeys E) prev).any (fun j => decide (j ≤ (p : Int))) = c1 at h
      generalize (E.look (hypTable E p) prev).isSome = c2 at h
      cases h
      dsimp only at h0 ⊢
      rw [if_neg]
      rintro (h1 | h1 | h1)
      · omega
      · rw [h1] at h0; simp at h0
      · rw [h1] at h0; simp at h0

theorem lscan_ec2 : ∀ {toks : List Name} {prev : Name} {s s' : LScan}, lscan E p prev toks s = .val s' → s'.ec = 0 → s'.ret = s.ret
  | [], _, _, _, h, _ => by cases h; rfl
  | t :: ts, prev, s, s', h, h0 => by
    unfold lscan at h
    cases h1 : lscanTok E p prev t s with
    | val s1 =>
      rw [h1, Out.bind_val] at h
      have := lscan_ec h
      rw [lscan_ec2 h h0, lscanTok_ec2 h1 (by omega)]
    | ub => rw [h1] at h; cases h
    | bug n => rw [h1] at h; cases h
    | fuel => rw [h1] at h; cases h

theorem fixTokens_ec {toks : List Name} (h : (fixTokens toks).2.2 = 0) : (fixTokens toks).2.1 = 0 ∧ (fixTokens toks).1 = toks ∧ toks ≠ [] := by
  unfold fixTokens at h ⊢
  dsimp only at h ⊢
  cases toks with
  | nil => exact absurd h (by decide)
  | cons t ts =>
    by_cases ht : t.head? = some ':'
    · exfalso
      simp [ht] at h
      cases hl : (['?'] :: ts).getLast? with
      | none => simp at hl
      | some l =>
        rw [hl] at h
        dsimp only at h
        split at h <;> simp at h
    · simp only [List.isEmpty_cons, Bool.false_eq_true, if_false, ht] at h ⊢
      cases hl : (t :: ts).getLast? with
      | none => simp at hl
      | some l =>
        rw [hl] at h
        dsimp only at h ⊢
        split at h
        · simp at h
        · rename_i hc
          rw [if_neg hc]
          simp

/-- `parseProof` returns 2 or more only after printing a message. -/
theorem parseProof_quiet {toks : List Name} {r : Parsed} (h : parseProof E p toks = .val r) (h0 : r.ec = 0) : r.ret ≤ 1 := by
  unfold parseProof at h
  dsimp only at h
  cases hs : lscan E p [] (fixTokens toks).1 { tbl := hypTable E p, ret := (fixTokens toks).2.1, ec := (fixTokens toks).2.2 } with
  | val s =>
    rw [hs, Out.bind_val] at h
    split at h
    · cases h
    split at h
    · cases h
    generalize (if decide (s.tbl.length > (hypTable E p).length) = true then dupCount s.tbl else 0) = d at h
    cases hw : walk E p s.tbl s.steps ⟨[], 0, if d > 0 then max s.ret 2 else s.ret, s.ec + d⟩ with
    | val w =>
      rw [hw, Out.bind_val] at h
      split at h
      · split at h
        · cases h
        · cases h; simp at h0
      · cases h
        dsimp only at h0 ⊢
        obtain ⟨a1, a2⟩ := walk_ec hw
        dsimp only at a1 a2
        have hd : d = 0 := by omega
        have hse := lscan_ec hs
        dsimp only at hse
        have := lscan_ec2 hs (by omega)
        dsimp only at this
        have := (fixTokens_ec (toks := toks) (by omega)).1
        have := a2 h0
        rw [hd] at this
        simp at this
        omega
    | ub => rw [hw] at h; cases h
    | bug n => rw [hw] at h; cases h
    | fuel => rw [hw] at h; cases h
  | ub => rw [hs] at h; cases h
  | bug n => rw [hs] at h; cases h
  | fuel => rw [hs] at h; cases h

end MM.Proof
