import Verif.Long.Loop
/-!
# `printLongLine` on a text of several lines
-/
namespace MM.Long
open MM.Vstr

theorem doLine_eq {c : Cfg} (hm : c.margin ≤ 1) (htt : ¬ (c.tilde = true ∧ c.tree = true)) {W0 : Int} {next0 : Str} (hW : 4 + c.margin ≤ W0) {next line : Str}
    (hs : SetOk c line) (hk : ∃ k : Nat, W0 - 4 ≤ k ∧ next = next0.take k) (out : List Str) :
    ∃ next' ls w, doLine c W0 next line out = .val (next', out ++ ls.map unquote) ∧ Wrapped c W0 next0 true line ls ∧ (∃ k : Nat, W0 - 4 ≤ k ∧ next' = next0.take k) ∧
      (∀ l ∈ ls, (l.length : Int) ≤ w) ∧ (Short c (W0 - c.margin + 1 - cut W0 next0).toNat line → w = W0) := by
  obtain ⟨m0, m1⟩ := margin_nonneg c
  obtain ⟨k, hk1, hk2⟩ := hk
  have hr : restart ⟨line, true, W0, next, 0, out⟩ = .val ⟨line, true, W0, next0.take (if (next.length : Int) > W0 - 4 then (W0 - 4).toNat else k),
      (next0.take (if (next.length : Int) > W0 - 4 then (W0 - 4).toNat else k)).length, out⟩ := by
    unfold restart
    by_cases h : (next.length : Int) > W0 - 4
    · dsimp only
      rw [if_pos h, left_eq, Out.bind_val, if_pos h, hk2, List.take_take]
      rw [hk2, List.length_take] at h
      have e : min (W0 - 4).toNat k = (W0 - 4).toNat := by omega
      have e2 : (List.take (W0 - 4).toNat next0).length = (W0 - 4).toNat := by rw [List.length_take]; omega
      rw [e, e2, show (((W0 - 4).toNat : Nat) : Int) = W0 - 4 by omega]
    · dsimp only
      rw [if_neg h, if_neg h, hk2]
  have hlen : (next0.take (if (next.length : Int) > W0 - 4 then (W0 - 4).toNat else k)).length = cut W0 next0 := by
    rw [hk2, List.length_take, List.length_take]
    unfold cut
    split <;> omega
  have hcut : cut W0 next0 ≤ W0 - 4 := by unfold cut; omega
  obtain ⟨s', ls, i1, i2, i3, i4, i5, i6, i7⟩ := lineLoop_eq hm htt hW (L := line.length) (3 * line.length + 5) ⟨line, true, W0,
    next0.take (if (next.length : Int) > W0 - 4 then (W0 - 4).toNat else k), (next0.take (if (next.length : Int) > W0 - 4 then (W0 - 4).toNat else k)).length, out⟩
    (Nat.le_refl _) (by dsimp only; rw [if_pos rfl]; omega) hs (Int.le_refl _) rfl (by dsimp only; omega) ⟨_, by split <;> omega, rfl⟩
  dsimp only at i2 i3 i7
  unfold doLine
  rw [hr, Out.bind_val, i1, Out.bind_val, i2]
  rw [hlen] at i7
  exact ⟨_, ls, s'.width, rfl, i3, i4, i6, i7⟩

theorem linesOf_cons (l rest : Str) (h : '\n' ∉ l) : linesOf (l ++ '\n' :: rest) = l :: linesOf rest := by
  induction l with
  | nil => simp [linesOf]
  | cons d t ih =>
    have h1 : d ≠ '\n' := fun e => h (by simp [e])
    have h2 : '\n' ∉ t := fun e => h (by simp [e])
    rw [List.cons_append, linesOf, if_neg h1, ih h2]

theorem linesOf_last (l : Str) (h : '\n' ∉ l) (hne : l ≠ []) : linesOf l = [l] := by
  induction l with
  | nil => exact absurd rfl hne
  | cons d t ih =>
    have h1 : d ≠ '\n' := fun e => h (by simp [e])
    have h2 : '\n' ∉ t := fun e => h (by simp [e])
    rw [linesOf, if_neg h1]
    cases t with
    | nil => rfl
    | cons e u => rw [ih h2 (by simp)]

/-- Every line of a text is part of it. -/
theorem linesOf_mem : ∀ {m l : Str}, l ∈ linesOf m → ∀ d ∈ l, d ∈ m
  | [], _, h, _, _ => by cases h
  | e :: t, l, h, d, hd => by
    rw [linesOf] at h
    by_cases he : e = '\n'
    · rw [if_pos he] at h
      rcases List.mem_cons.1 h with rfl | h
      · cases hd
      · exact List.mem_cons_of_mem _ (linesOf_mem h d hd)
    · rw [if_neg he] at h
      cases hl : linesOf t with
      | nil =>
        rw [hl] at h
        simp at h
        subst h
        simp at hd
        simp [hd]
      | cons a ls =>
        rw [hl] at h
        rcases List.mem_cons.1 h with rfl | h
        · rcases List.mem_cons.1 hd with rfl | hd
          · simp
          · exact List.mem_cons_of_mem _ (linesOf_mem (by rw [hl]; simp) d hd)
        · exact List.mem_cons_of_mem _ (linesOf_mem (m := t) (by rw [hl]; simp [h]) d hd)

theorem instr_nl (m : Str) : (instr 1 m ['\n'] = 0 ∧ '\n' ∉ m) ∨
    ∃ a b, m = a ++ '\n' :: b ∧ '\n' ∉ a ∧ instr 1 m ['\n'] = a.length + 1 := by
  rcases C26_instr 1 m ['\n'] (by simp) with ⟨h1, h2⟩ | ⟨h3, ⟨a, b, h4, h5⟩, h6⟩
  · refine Or.inl ⟨h1, ?_⟩
    intro h
    obtain ⟨a, b, rfl⟩ := List.append_of_mem h
    exact h2 (a.length + 1) (by omega) ⟨a, b, by simp, by omega⟩
  · refine Or.inr ⟨a, b, by rw [h4]; simp, ?_, by omega⟩
    intro h
    obtain ⟨x, y, rfl⟩ := List.append_of_mem h
    rw [List.length_append, List.length_cons] at h5
    exact h6 (x.length + 1) (by omega) (by omega) ⟨x, y ++ '\n' :: b, by rw [h4]; simp, by omega⟩

theorem multiLoop_eq {c : Cfg} (hm : c.margin ≤ 1) (htt : ¬ (c.tilde = true ∧ c.tree = true)) {W0 : Int} {next0 : Str} (hW : 4 + c.margin ≤ W0) :
    ∀ (fuel : Nat) (multi next : Str) (out : List Str), multi.length < fuel → SetOk c multi → (∃ k : Nat, W0 - 4 ≤ k ∧ next = next0.take k) →
      ∃ lss : List (List Str), multiLoop c W0 fuel multi next out = .val (out ++ lss.flatten.map unquote) ∧
        List.Forall₂ (fun l ls => Wrapped c W0 next0 true l ls ∧
          (Short c (W0 - c.margin + 1 - cut W0 next0).toNat l → ∀ x ∈ ls, (x.length : Int) ≤ W0)) (linesOf multi) lss
  | 0, _, _, _, h, _, _ => by omega
  | fuel + 1, multi, next, out, h, hs, hk => by
    unfold multiLoop
    by_cases he : multi = []
    · subst he
      rw [if_pos rfl]
      exact ⟨[], by simp, by simp [linesOf]⟩
    · rw [if_neg he]
      rcases instr_nl multi with ⟨h1, h2⟩ | ⟨a, b, h1, h2, h3⟩
      · rw [if_neg (by rw [h1]; simp)]
        obtain ⟨n', ls, w, i1, i2, i3, i4, i5⟩ := doLine_eq hm htt hW hs hk out
        rw [i1, Out.bind_val]
        have hfin : ∀ n o, multiLoop c W0 fuel [] n o = .val o := by
          intro n o
          cases fuel with
          | zero => exact absurd (List.length_pos_iff.2 he) (by omega)
          | succ f => unfold multiLoop; rw [if_pos rfl]
        rw [hfin]
        refine ⟨[ls], by simp, ?_⟩
        rw [linesOf_last multi h2 he]
        refine .cons ⟨i2, fun hsh x hx => ?_⟩ .nil
        rw [← i5 hsh]; exact i4 x hx
      · rw [if_pos (by omega), h3, left_eq, Out.bind_val, show (((a.length + 1 : Nat) : Int) + 1) = ((a.length + 2 : Nat) : Int) by omega,
          right_eq (by omega), Out.bind_val, show (((a.length + 1 : Nat) : Int) - 1).toNat = a.length by omega]
        have e1 : multi.take a.length = a := by rw [h1]; exact List.take_left' rfl
        have e2 : multi.drop (a.length + 2 - 1) = b := by
          rw [h1, show a.length + 2 - 1 = a.length + 1 by omega, ← List.drop_drop, List.drop_left' rfl]; rfl
        rw [e1, e2]
        obtain ⟨n', ls, w, i1, i2, i3, i4, i5⟩ := doLine_eq hm htt hW (gap_sub hs (b := a) fun d hd => by rw [h1]; simp [hd]) hk out
        rw [i1, Out.bind_val]
        obtain ⟨lss, j1, j2⟩ := multiLoop_eq hm htt hW fuel b n' (out ++ ls.map unquote) (by rw [h1] at h; simp at h; omega)
          (gap_sub hs (b := b) fun d hd => by rw [h1]; simp [hd]) i3
        refine ⟨ls :: lss, by rw [j1]; simp, ?_⟩
        rw [h1, linesOf_cons a b h2]
        refine .cons ⟨i2, fun hsh x hx => ?_⟩ j2
        rw [← i5 hsh]; exact i4 x hx

end MM.Long
