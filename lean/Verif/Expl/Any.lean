import Verif.Expl.Main
/-!
# Explicit proofs: any text
-/
namespace MM.Expl
open MM.Veri MM.Pars MM.Proof MM.Data MM.Tree MM.Pfas MM.Spec

variable {E : Env} {p : Nat}

theorem isEq_iff {t : Name} : isEq t = true ↔ t.head? = some '=' := by unfold isEq; simp

theorem xscan_ret : ∀ {toks : List Name} {prev : Name} {i : Nat} {S S' : XScan}, xscan E p prev toks i S = .val S' → S.s.ret ≤ S'.s.ret
  | [], _, _, _, _, h => by cases h; exact Nat.le_refl _
  | t :: ts, prev, i, S, S', h => by
    rw [xscan.eq_2] at h
    split at h
    · exact xscan_ret (S := { S with expl := true }) h
    split at h
    · exact xscan_ret (S := S) h
    · obtain ⟨s', h1, h⟩ := bind_val_inv h
      exact Nat.le_trans (lscanTok_ret h1) (xscan_ret h)

theorem lscanTok_prev {t q q' : Name} (h : t.head? ≠ some ':') {s : LScan} : lscanTok E p q t s = lscanTok E p q' t s := by
  unfold lscanTok
  dsimp only
  split
  · rfl
  · rfl

/-- A colon after a token that starts with `=` is an error. -/
theorem lscanTok_eqColon {t q : Name} (hq : isEq q = true) (ht : t.head? = some ':') {s s' : LScan} (h : lscanTok E p q t s = .val s') : 2 ≤ s'.ret := by
  unfold lscanTok at h
  dsimp only at h
  split at h
  · cases h
  · split at h
    · rename_i _ h2; exact absurd ht h2
    · cases h
      dsimp only
      rw [if_pos]
      · exact Nat.le_max_right ..
      · left
        rw [isEq_iff] at hq
        cases q with
        | nil => cases hq
        | cons c q =>
          cases hq
          have : (!legalLabelChar '=') = true := by decide
          rw [List.filter_cons_of_pos (p := fun c => !legalLabelChar c) this]
          simp

/-- After a scan without errors the table and the steps are as after the scan of a normal proof. -/
theorem xscan_linv : ∀ {toks : List Name} {prev q : Name} {i : Nat} {S S' : XScan}, LInv E p q S.s → (q = prev ∨ isEq prev = true ∨ isEq (toks.headD []) = true) →
    (S.s.steps ≠ [] ∨ S.s.lflag = true ∨ isEq prev = true ∨ isEq (toks.headD []) = true ∨ ∀ t, toks.head? = some t → t.head? ≠ some ':') →
    xscan E p prev toks i S = .val S' → S'.s.ret < 2 → ∃ q', LInv E p q' S'.s
  | [], prev, q, _, S, _, hI, _, _, h, _ => by cases h; exact ⟨q, hI⟩
  | t :: ts, prev, q, i, S, S', hI, h1, h2, h, hr => by
    rw [xscan.eq_2] at h
    by_cases hc : 2 ≤ ts.length ∧ isEq (ts.headD []) = true
    · rw [if_pos hc] at h
      exact xscan_linv (S := { S with expl := true }) hI (Or.inr (Or.inr hc.2)) (Or.inr (Or.inr (Or.inr (Or.inl hc.2)))) h hr
    · rw [if_neg hc] at h
      by_cases ht : isEq t = true
      · rw [if_pos ht] at h
        exact xscan_linv hI (Or.inr (Or.inl ht)) (Or.inr (Or.inr (Or.inl ht))) h hr
      · rw [if_neg ht] at h
        obtain ⟨s', h3, h⟩ := bind_val_inv h
        have hr' : s'.ret < 2 := Nat.lt_of_le_of_lt (xscan_ret h) hr
        rw [List.headD_cons] at h1 h2
        have hcol : t.head? = some ':' → isEq prev = false := by
          intro h4
          cases h5 : isEq prev with
          | false => rfl
          | true => have := lscanTok_eqColon h5 h4 h3; omega
        have hq : lscanTok E p q t S.s = .val s' := by
          by_cases h4 : t.head? = some ':'
          · rcases h1 with h5 | h5 | h5
            · rw [h5]; exact h3
            · rw [hcol h4] at h5; cases h5
            · exact absurd h5 ht
          · rw [lscanTok_prev (q' := prev) h4]; exact h3
        obtain ⟨hI', hne⟩ := hI.step hq hr' (by
          intro h4 h5 h6
          rcases h2 with h7 | h7 | h7 | h7 | h7
          · exact h7 h4
          · rw [h5] at h7; cases h7
          · rw [hcol h6] at h7; cases h7
          · exact ht h7
          · exact h7 t rfl h6)
        refine xscan_linv (S := { s := s', idx := (S.idx ++ [i]).take s'.num.toNat, expl := S.expl }) hI' (Or.inl rfl) ?_ h hr
        rcases hne with hne | hne
        · exact Or.inl hne
        · exact Or.inr (Or.inl hne)

theorem collect_some {num : Nat} {idx : List Nat} : ∀ {toks : List Name} {i : Nat} {tg : List (Option Name)} {r e : Nat}, (∀ t ∈ tg, t ≠ none) →
    (∀ t ∈ (collect false num idx toks i tg r e).1, t ≠ none) ∧ r ≤ (collect false num idx toks i tg r e).2.1
  | [], _, _, _, _, h => ⟨h, Nat.le_refl _⟩
  | [_], _, _, _, _, h => ⟨h, Nat.le_refl _⟩
  | [_, _], _, _, _, _, h => ⟨h, Nat.le_refl _⟩
  | a :: b :: c :: rest, i, tg, r, e, h => by
    rw [collect.eq_1]
    split
    · split
      · exact ⟨h, Nat.le_max_left ..⟩
      · dsimp only
        have h' : ∀ t ∈ tg ++ [if i = 0 ∧ false = true then none else some a], t ≠ none := by
          intro t ht
          rcases List.mem_append.1 ht with ht | ht
          · exact h t ht
          · rw [List.mem_singleton.1 ht, if_neg (by simp)]; simp
        split
        · have := collect_some (num := num) (idx := idx) (toks := b :: c :: rest) (i := i + 1) (r := max r 2) (e := e + 1) h'
          exact ⟨this.1, Nat.le_trans (Nat.le_max_left ..) this.2⟩
        · exact collect_some (num := num) (idx := idx) (toks := b :: c :: rest) (i := i + 1) (r := r) (e := e) h'
    · exact collect_some (num := num) (idx := idx) (toks := b :: c :: rest) (i := i + 1) (r := r) (e := e) h

theorem targets_ok {num : Nat} {idx : List Nat} {toks : List Name} {r e : Nat} (h : (targets false num idx toks r e).2.1 < 2) :
    ∃ T : List Name, (targets false num idx toks r e).1 = T.map some ∧ T.length = num ∧ r ≤ (targets false num idx toks r e).2.1 := by
  unfold targets at h ⊢
  obtain ⟨h1, h2⟩ := collect_some (num := num) (idx := idx) (toks := toks) (i := 0) (tg := []) (r := r) (e := e) (by simp)
  generalize collect false num idx toks 0 [] r e = c at h h1 h2 ⊢
  dsimp only at h ⊢
  by_cases hc : c.1.length ≠ num
  · rw [if_pos hc] at h
    dsimp only at h
    omega
  · rw [if_neg hc] at h ⊢
    refine ⟨c.1.map fun t => t.getD [], ?_, by rw [List.length_map]; exact Decidable.not_not.1 hc, h2⟩
    rw [List.map_map]
    conv_lhs => rw [← List.map_id c.1]
    apply List.map_congr_left
    intro t ht
    cases t with
    | none => exact absurd rfl (h1 _ ht)
    | some n => rfl

/-- Without targets, the loop over the steps is that for normal proofs. -/
theorem walkX_false {α : Type} {tbl : List (Name × Int)} {tg : List (Option Name)} {k : Walk → Out α} : ∀ {xs : List (Name × Bool)} {w : XWalk},
    (walkX E p tbl false tg xs w >>= fun v => k v.toWalk) = walk E p tbl xs w.toWalk >>= k
  | [], w => rfl
  | x :: xs, w => by
    unfold walkX walk walkTokX
    cases h1 : walkTok E p tbl x w.toWalk with
    | val u =>
      rw [Out.bind_val, Out.bind_val]
      cases hu : useOf E tbl x.1 w.sp with
      | none =>
        dsimp only
        rw [Out.bind_val]
        exact walkX_false (xs := xs)
      | some j =>
        dsimp only
        rw [if_neg (by decide), Out.bind_val, Out.bind_val]
        exact walkX_false (xs := xs)
    | ub => rfl
    | bug n => rfl
    | fuel => rfl

/-- What `parseProof` guarantees when it returns 0 or 1, for any text of a proof in a normal format. -/
theorem parseProofX_ok {fuel : Nat} {toks : List Name} {r : Parsed} (hlook : LookOk E.look) (hL : HypLabels E) (hH : HypsOk E p) (h : parseProofX E p fuel toks = .val r) (hr : r.ret < 2) :
    LegalRefs E.toDb p r.proof ∧ BackOk 0 r.proof ∧ Depth E.toDb r.proof 1 ∧ (unk ∈ r.proof → r.ret = 1) := by
  unfold parseProofX at h
  dsimp only at h
  obtain ⟨S, hS, h⟩ := bind_val_inv h
  by_cases hneg : S.s.num < 0
  · rw [if_pos hneg] at h; cases h
  rw [if_neg hneg] at h
  split at h
  · cases h
  rename_i hdup
  generalize hc : (if S.expl = true then targets ((toks.headD []).head? == some ':') S.s.num.toNat S.idx (fixTokens toks).1 S.s.ret S.s.ec else ([], S.s.ret, S.s.ec)) = c at h
  generalize (if decide (S.s.tbl.length > (hypTable E p).length) = true then dupCount S.s.tbl else 0) = d at h
  obtain ⟨X', hX, h⟩ := bind_val_inv h
  have hsp : X'.sp = 1 ∧ finish E fuel S.expl S.s.num.toNat X' X'.ret X'.ec = .val r := by
    by_cases hsp : X'.sp = 1
    · rw [if_neg (by rw [hsp]; simp)] at h
      exact ⟨hsp, h⟩
    · rw [if_pos hsp] at h
      split at h
      · cases h
      · have := (finish_flags h).1
        omega
  obtain ⟨hsp, h⟩ := hsp
  obtain ⟨he1, he2⟩ := finish_flags h
  have hXr : X'.ret < 2 := by omega
  have hr0 := walkX_ret hX
  dsimp only at hr0
  have hc2 : c.2.1 < 2 := by split at hr0 <;> omega
  have hfirst : S.s.ret < 2 → ∃ q, LInv E p q S.s := by
    intro hs
    exact xscan_linv (q := []) LInv.init (Or.inl rfl) (Or.inr (Or.inr (Or.inr (Or.inr (fixTokens_head (Nat.lt_of_le_of_lt (xscan_ret hS) hs)))))) hS hs
  cases hex : S.expl with
  | false =>
    rw [hex] at hX h hc
    rw [if_neg (by decide)] at hc
    have hs2 : S.s.ret < 2 := by rw [← hc] at hc2; exact hc2
    obtain ⟨q, hI⟩ := hfirst hs2
    obtain ⟨locs, e1, e2⟩ := hI.tbl
    have hw := walkX_false (E := E) (p := p) (tbl := S.s.tbl) (tg := c.1) (k := fun w => Out.val w) (xs := S.s.steps)
      (w := ⟨⟨[], 0, if d > 0 then max c.2.1 2 else c.2.1, c.2.2 + d⟩, [], (List.range S.s.num.toNat).map Int.ofNat⟩)
    rw [hX, Out.bind_val] at hw
    have hw' : walk E p S.s.tbl S.s.steps ⟨[], 0, if d > 0 then max c.2.1 2 else c.2.1, c.2.2 + d⟩ = .val X'.toWalk := by
      obtain ⟨u, h3, h4⟩ := bind_val_inv hw.symm
      dsimp only at h3
      rw [h3]; exact h4
    rw [e1] at hw'
    have hW : WInv E p ⟨[], 0, if d > 0 then max c.2.1 2 else c.2.1, c.2.2 + d⟩ := ⟨by intro ps hps; simp at hps, trivial, .nil, by simp⟩
    have hfin := hW.run hlook (hypKinds_of hH) (locs := locs) (by
      intro e he
      obtain ⟨k, hk1, hk2⟩ := e2 e he
      refine ⟨k, hk1, fun q hq y hy => ?_⟩
      simp only [List.length_nil, Nat.zero_add] at hq
      subst hq
      rcases hk2 with ⟨t, hk2⟩ | ⟨hk2, _⟩
      · rw [hk2] at hy; cases hy; rfl
      · rw [List.getElem?_eq_none (by omega)] at hy; cases hy) hw' hXr
    unfold finish at h
    rw [if_neg (by decide)] at h
    cases h
    refine ⟨hfin.legal, hfin.back, ?_, fun hu => ?_⟩
    · have := hfin.depth; rw [hsp] at this; exact this
    · have := hfin.unkRet hu
      dsimp only
      omega
  | true =>
    rw [hex] at hX h hc
    rw [if_pos rfl] at hc
    have hlit : ((toks.headD []).head? == some ':') = false ∨ 2 ≤ S.s.ret := by
      cases hh : ((toks.headD []).head? == some ':') with
      | false => exact Or.inl rfl
      | true =>
        right
        refine Nat.le_trans ?_ (xscan_ret hS)
        dsimp only
        cases toks with
        | nil => cases hh
        | cons t ts =>
          rw [List.headD_cons] at hh
          have hh' : t.head? = some ':' := by simpa using hh
          unfold fixTokens
          dsimp only
          rw [if_neg (by simp)]
          dsimp only
          rw [if_pos hh']
          dsimp only
          split
          · split
            · exact Nat.le_max_right ..
            · exact Nat.le_max_right ..
          · exact Nat.le_max_right ..
    have htg : ∃ T : List Name, c.1 = T.map some ∧ T.length = S.s.num.toNat ∧ S.s.ret < 2 := by
      rcases hlit with hl | hl
      · rw [hl] at hc
        rw [← hc] at hc2
        obtain ⟨T, t1, t2, t3⟩ := targets_ok hc2
        exact ⟨T, by rw [← hc]; exact t1, t2, by omega⟩
      · exfalso
        have : S.s.ret ≤ c.2.1 := by
          rw [← hc]
          unfold targets
          dsimp only
          have key : ∀ (l : Bool) (num : Nat) (idx : List Nat) (toks : List Name) (i : Nat) (tg : List (Option Name)) (r e : Nat), r ≤ (collect l num idx toks i tg r e).2.1 := by
            intro l num idx toks
            induction toks with
            | nil => intro i tg r e; exact Nat.le_refl _
            | cons a toks ih =>
              intro i tg r e
              match toks, ih with
              | [], _ => exact Nat.le_refl _
              | [_], _ => exact Nat.le_refl _
              | b :: c :: rest, ih =>
                rw [collect.eq_1]
                split
                · split
                  · exact Nat.le_max_left ..
                  · dsimp only
                    split
                    · exact Nat.le_trans (Nat.le_max_left ..) (ih ..)
                    · exact ih ..
                · exact ih ..
          split
          · exact Nat.le_trans (key ..) (Nat.le_max_left ..)
          · exact key ..
        omega
    obtain ⟨T, t1, t2, hs2⟩ := htg
    obtain ⟨q, hI⟩ := hfirst hs2
    have hTl : T.length = S.s.steps.length := by have := hI.num; omega
    rw [t1, ← t2] at hX
    rw [← t2] at h
    obtain ⟨w, l, k1, k2, k3, k6, F, P, k4, k5⟩ := (core_ok hlook hL hH hI hTl).1 X' hX hXr hsp
    have h4 := k5 (max F fuel) X'.ret X'.ec (Nat.le_max_left ..)
    rw [finish_mono h (Nat.le_max_right ..)] at h4
    cases h4
    refine ⟨k4.legal, k4.back, k4.depth, fun hu => ?_⟩
    have := k6 (k4.unk hu)
    dsimp only
    omega

theorem xscan_ec : ∀ {toks : List Name} {prev : Name} {i : Nat} {S S' : XScan}, xscan E p prev toks i S = .val S' → S.s.ec ≤ S'.s.ec ∧ (S'.s.ec = 0 → S'.s.ret = S.s.ret)
  | [], _, _, _, _, h => by cases h; exact ⟨Nat.le_refl _, fun _ => rfl⟩
  | t :: ts, prev, i, S, S', h => by
    rw [xscan.eq_2] at h
    split at h
    · exact xscan_ec (S := { S with expl := true }) h
    split at h
    · exact xscan_ec (S := S) h
    · obtain ⟨s', h1, h⟩ := bind_val_inv h
      obtain ⟨h2, h3⟩ := xscan_ec h
      dsimp only at h2 h3
      have h4 := lscanTok_ec h1
      exact ⟨by omega, fun h0 => by rw [h3 h0, lscanTok_ec2 h1 (by omega)]⟩

theorem collect_ec {l : Bool} {num : Nat} {idx : List Nat} : ∀ {toks : List Name} {i : Nat} {tg : List (Option Name)} {r e : Nat},
    e ≤ (collect l num idx toks i tg r e).2.2 ∧ ((collect l num idx toks i tg r e).2.2 = 0 → (collect l num idx toks i tg r e).2.1 = r)
  | [], _, _, _, _ => ⟨Nat.le_refl _, fun _ => rfl⟩
  | [_], _, _, _, _ => ⟨Nat.le_refl _, fun _ => rfl⟩
  | [_, _], _, _, _, _ => ⟨Nat.le_refl _, fun _ => rfl⟩
  | a :: b :: c :: rest, i, tg, r, e => by
    rw [collect.eq_1]
    split
    · split
      · exact ⟨by dsimp only; omega, fun h => by dsimp only at h; omega⟩
      · dsimp only
        split
        · have := collect_ec (l := l) (num := num) (idx := idx) (toks := b :: c :: rest) (i := i + 1) (tg := tg ++ [if i = 0 ∧ l = true then none else some a]) (r := max r 2) (e := e + 1)
          exact ⟨by omega, fun h => by omega⟩
        · exact collect_ec (toks := b :: c :: rest)
    · exact collect_ec (toks := b :: c :: rest)

theorem rearrange_ec {tg : List (Option Name)} {j : Nat} {w v : XWalk} (h : rearrange E tg j w = .val v) : w.ec ≤ v.ec ∧ (v.ec = 0 → v.ret = w.ret) := by
  unfold rearrange at h
  dsimp only at h
  obtain ⟨a, _, h⟩ := bind_val_inv h
  obtain ⟨b, _, h⟩ := bind_val_inv h
  split at h
  · cases h
  split at h
  · cases h; exact ⟨Nat.le_refl _, fun _ => rfl⟩
  obtain ⟨r, _, h⟩ := bind_val_inv h
  cases r with
  | none => cases h; exact ⟨by dsimp only; omega, fun h => by dsimp only at h; omega⟩
  | some q =>
    dsimp only at h
    split at h
    · cases h
    obtain ⟨c, _, h⟩ := bind_val_inv h
    obtain ⟨d, _, h⟩ := bind_val_inv h
    split at h
    · cases h
    · cases h; exact ⟨Nat.le_refl _, fun _ => rfl⟩

theorem walkX_ec {tbl : List (Name × Int)} {b : Bool} {tg : List (Option Name)} : ∀ {xs : List (Name × Bool)} {w v : XWalk}, walkX E p tbl b tg xs w = .val v →
    w.ec ≤ v.ec ∧ (v.ec = 0 → v.ret ≤ max w.ret 1)
  | [], _, _, h => by cases h; exact ⟨Nat.le_refl _, fun _ => Nat.le_max_left ..⟩
  | x :: xs, w, v, h => by
    unfold walkX at h
    obtain ⟨u, h1, h⟩ := bind_val_inv h
    obtain ⟨g1, g2⟩ := walkX_ec h
    have hu : w.ec ≤ u.ec ∧ (u.ec = 0 → u.ret ≤ max w.ret 1) := by
      unfold walkTokX at h1
      obtain ⟨w1, h2, h1⟩ := bind_val_inv h1
      obtain ⟨k1, k2⟩ := walkTok_ec h2
      cases hu : useOf E tbl x.1 w.sp with
      | none => rw [hu] at h1; cases h1; exact ⟨k1, k2⟩
      | some j =>
        rw [hu] at h1
        dsimp only at h1
        obtain ⟨z, h3, h1⟩ := bind_val_inv h1
        cases h1
        cases b with
        | true =>
          rw [if_pos rfl] at h3
          obtain ⟨m1, m2⟩ := rearrange_ec h3
          dsimp only at m1 m2 ⊢
          exact ⟨by omega, fun h0 => by rw [m2 h0]; exact k2 (by omega)⟩
        | false => rw [if_neg (by decide)] at h3; cases h3; exact ⟨k1, k2⟩
    refine ⟨by omega, fun h0 => ?_⟩
    have a1 := g2 h0
    have a2 := hu.2 (by omega)
    omega

/-- The parser returns 2 or more only after printing a message. -/
theorem parseProofX_quiet {fuel : Nat} {toks : List Name} {r : Parsed} (h : parseProofX E p fuel toks = .val r) (h0 : r.ec = 0) : r.ret ≤ 1 := by
  unfold parseProofX at h
  dsimp only at h
  obtain ⟨S, hS, h⟩ := bind_val_inv h
  split at h
  · cases h
  split at h
  · cases h
  generalize hc : (if S.expl = true then targets ((toks.headD []).head? == some ':') S.s.num.toNat S.idx (fixTokens toks).1 S.s.ret S.s.ec else ([], S.s.ret, S.s.ec)) = c at h
  generalize (if decide (S.s.tbl.length > (hypTable E p).length) = true then dupCount S.s.tbl else 0) = d at h
  obtain ⟨X', hX, h⟩ := bind_val_inv h
  have hf : r.ret = X'.ret ∧ r.ec = X'.ec := by
    split at h
    · split at h
      · cases h
      · have := finish_flags h; omega
    · exact finish_flags h
  obtain ⟨x1, x2⟩ := walkX_ec hX
  dsimp only at x1 x2
  have hd : d = 0 := by omega
  have hcc : S.s.ec ≤ c.2.2 ∧ (c.2.2 = 0 → c.2.1 = S.s.ret) := by
    rw [← hc]
    split
    · unfold targets
      obtain ⟨c1, c2⟩ := collect_ec (l := ((toks.headD []).head? == some ':')) (num := S.s.num.toNat) (idx := S.idx) (toks := (fixTokens toks).1) (i := 0) (tg := []) (r := S.s.ret) (e := S.s.ec)
      dsimp only
      split
      · exact ⟨by dsimp only; omega, fun h => by dsimp only at h; omega⟩
      · exact ⟨c1, c2⟩
    · exact ⟨Nat.le_refl _, fun _ => rfl⟩
  have hc0 := hcc.2 (by omega)
  obtain ⟨s1, s2⟩ := xscan_ec hS
  dsimp only at s1 s2
  have h3 := s2 (by omega)
  have h4 := (fixTokens_ec (toks := toks) (by omega)).1
  have h5 := x2 (by omega)
  rw [hd] at h5
  simp at h5
  omega

/-- A text without `=` is parsed as a normal proof. -/
theorem parseProofX_plain {fuel : Nat} {toks : List Name} (h : ∀ t ∈ toks, isEq t = false) : parseProofX E p fuel toks = parseProof E p toks := by
  have hf : ∀ t ∈ (fixTokens toks).1, isEq t = false := by
    unfold fixTokens
    dsimp only
    cases toks with
    | nil => decide
    | cons t ts =>
      rw [if_neg (by simp)]
      dsimp only
      have h2 : ∀ u ∈ (['?'] :: ts), isEq u = false := by
        intro u hu
        rcases List.mem_cons.1 hu with rfl | hu
        · rfl
        · exact h u (List.mem_cons_of_mem _ hu)
      have h3 : ∀ (c : Prop) [Decidable c], ∀ u ∈ (if c then ((['?'] :: ts : List Name), max 0 2, 0 + 1) else (t :: ts, 0, 0)).1, isEq u = false := by
        intro c _
        split
        · exact h2
        · exact h
      have h4 := h3 (t.head? = some ':')
      generalize (if t.head? = some ':' then ((['?'] :: ts : List Name), max 0 2, 0 + 1) else (t :: ts, 0, 0)) = z at h4 ⊢
      split
      · split
        · intro u hu; exact h4 u (List.dropLast_subset _ hu)
        · exact h4
      · exact h4
  have hscan : ∀ (ts : List Name) (prev : Name) (i : Nat) (S : XScan), (∀ t ∈ ts, isEq t = false) → S.expl = false → ∀ {α : Type} (k : LScan → Out α),
      (xscan E p prev ts i S >>= fun S' => if S'.expl = false then k S'.s else .fuel) = lscan E p prev ts S.s >>= k := by
    intro ts
    induction ts with
    | nil =>
      intro prev i S _ hS α k
      show (if S.expl = false then k S.s else .fuel) = k S.s
      rw [if_pos hS]
    | cons t ts ih =>
      intro prev i S ht hS α k
      have h1 : isEq (ts.headD []) = false := by
        cases ts with
        | nil => rfl
        | cons u us => exact ht u (by simp)
      rw [xscan_skip h1 (ht t (by simp))]
      unfold lscan
      cases hh : lscanTok E p prev t S.s with
      | val s' =>
        rw [Out.bind_val, Out.bind_val]
        exact ih t (i + 1) { s := s', idx := (S.idx ++ [i]).take s'.num.toNat, expl := S.expl } (fun u hu => ht u (List.mem_cons_of_mem _ hu)) hS k
      | ub => rfl
      | bug n => rfl
      | fuel => rfl
  have hexpl : ∀ (ts : List Name) (prev : Name) (i : Nat) (S S' : XScan), (∀ t ∈ ts, isEq t = false) → S.expl = false → xscan E p prev ts i S = .val S' → S'.expl = false := by
    intro ts prev i S S' ht hS hx
    have := hscan ts prev i S ht hS (fun s => Out.val s)
    rw [hx, Out.bind_val] at this
    cases he : S'.expl with
    | false => rfl
    | true =>
      rw [he, if_neg (by decide)] at this
      exfalso
      have h3 : ∀ (ts : List Name) (prev : Name) (i : Nat) (S S' : XScan), xscan E p prev ts i S = .val S' → (∀ t ∈ ts, isEq t = false) → S'.expl = S.expl := by
        intro ts
        induction ts with
        | nil => intro _ _ _ _ hx _; cases hx; rfl
        | cons t ts ih =>
          intro prev i S S' hx ht
          have h1 : isEq (ts.headD []) = false := by
            cases ts with
            | nil => rfl
            | cons u us => exact ht u (by simp)
          rw [xscan_skip h1 (ht t (by simp))] at hx
          obtain ⟨s', _, hx⟩ := bind_val_inv hx
          have := ih _ _ _ _ hx (fun u hu => ht u (List.mem_cons_of_mem _ hu))
          exact this
      have := h3 _ _ _ _ _ hx ht
      rw [hS, he] at this
      cases this
  unfold parseProofX parseProof
  dsimp only
  have key := hscan (fixTokens toks).1 [] 0 { s := { tbl := hypTable E p, ret := (fixTokens toks).2.1, ec := (fixTokens toks).2.2 }, idx := [], expl := false } hf rfl
    (fun s => if s.num < 0 then .ub else if (decide (s.tbl.length > (hypTable E p).length) && dupUb s.tbl) = true then .ub else
      walk E p s.tbl s.steps ⟨[], 0, if (if decide (s.tbl.length > (hypTable E p).length) = true then dupCount s.tbl else 0) > 0 then max s.ret 2 else s.ret,
          s.ec + if decide (s.tbl.length > (hypTable E p).length) = true then dupCount s.tbl else 0⟩ >>= fun w =>
        if w.sp ≠ 1 then if s.steps.isEmpty then .ub else .val (⟨w.proof, max w.ret 3, w.ec + 1⟩ : Parsed) else .val ⟨w.proof, w.ret, w.ec⟩)
  refine Eq.trans ?_ key
  cases hx : xscan E p [] (fixTokens toks).1 0 { s := { tbl := hypTable E p, ret := (fixTokens toks).2.1, ec := (fixTokens toks).2.2 }, idx := [], expl := false } with
  | val S =>
    rw [Out.bind_val, Out.bind_val]
    have he := hexpl _ _ _ _ _ hf rfl hx
    rw [if_pos he, he]
    split
    · rfl
    · rw [if_neg (c := false = true) (by decide)]
      split
      · rfl
      · rw [← walkX_false (tg := [])
          (w := ⟨⟨[], 0, if (if decide (S.s.tbl.length > (hypTable E p).length) = true then dupCount S.s.tbl else 0) > 0 then max S.s.ret 2 else S.s.ret,
            S.s.ec + if decide (S.s.tbl.length > (hypTable E p).length) = true then dupCount S.s.tbl else 0⟩, [], (List.range S.s.num.toNat).map Int.ofNat⟩)]
        rfl
  | ub => rfl
  | bug n => rfl
  | fuel => rfl

end MM.Expl
