import Verif.Incl.Ptr
/-!
# Termination of file inclusion
-/
namespace MM.Incl
open MM.Veri MM.Pars MM.Lex

variable {fs : Name → Out (Option (List Char))} {main : Name}

/-- Inclusion of a file that has not been met. -/
def inclNew (fs : Name → Out (Option (List Char))) (k : St → List Char → Out (List Char × St)) (s : St) (p c1 : List Char) (nm : Name) (c2 : List Char) :
    Out (List Char × St) :=
  fs nm >>= fun t => k (content { s with seen := nm :: s.seen } t).2 (content s t).1 >>= fun x => k x.2 c2 >>= fun y =>
    .val (upTo p c1 ++ (beginText nm ++ (x.1 ++ (endText nm ++ y.1))), y.2)

/-- One iteration of the loop of `readInclude`; `k`: the rest of the loop, and the recursive call. -/
def expandStep (fs : Name → Out (Option (List Char))) (main : Name) (k : St → List Char → Out (List Char × St)) (s : St) (p : List Char) : Cmd → Out (List Char × St)
    | .none => .val (p, s)
    | .noEnd c2 =>
      if c2.length < 2 then .ub
      else k { s with err := true } (c2.drop 2) >>= fun x => .val (upTo p (c2.drop 2) ++ x.1, x.2)
    | .incl c1 nm c2 =>
      if nm = main then .bug 1765
      else if nm ∈ s.seen then k s c2 >>= fun x => .val (upTo p c1 ++ (skipText nm ++ x.1), x.2)
      else inclNew fs k s p c1 nm c2
    | .skip c1 nm c2 =>
      if nm = main then .bug 1765
      else if nm ∈ s.seen then k s c2 >>= fun x => .val (upTo p c2 ++ x.1, x.2)
      else inclNew fs k s p c1 nm c2
    | .block c1 nm c2 e1 e2 =>
      if nm = main then .bug 1765
      else if nm ∈ s.seen then k s e2 >>= fun x => .val (upTo p c1 ++ (skipText nm ++ x.1), x.2)
      else k { s with seen := nm :: s.seen } (upTo c2.tail e1) >>= fun x =>
        if c1.length < (c1.length - c2.tail.length) + x.1.length + (e1.length - e2.length) then .ub
        else k x.2 (c1.drop ((c1.length - c2.tail.length) + x.1.length + (e1.length - e2.length))) >>= fun y =>
          .val (upTo p c1 ++ (c1.take ((c1.length - c2.tail.length) + x.1.length + (e1.length - e2.length)) ++ y.1), y.2)

theorem expand_succ (n : Nat) (s : St) (p : List Char) : expand fs main (n + 1) s p = scan none p >>= expandStep fs main (expand fs main n) s p := by
  show (nextIncl (p.length + 1) none p >>= fun cmd => _) = _
  unfold scan
  cases nextIncl (p.length + 1) none p with
  | val cmd =>
    simp only [Out.bind_val]
    cases cmd with
    | none => rfl
    | noEnd c2 => rfl
    | incl c1 nm c2 => rfl
    | skip c1 nm c2 => rfl
    | block c1 nm c2 e1 e2 => rfl
  | ub => rfl
  | bug k => rfl
  | fuel => rfl

theorem bind_mono {α β : Type} {x x' : Out α} {f f' : α → Out β} (hx : x ≠ .fuel → x' = x) (hf : ∀ a, f a ≠ .fuel → f' a = f a) (h : (x >>= f) ≠ .fuel) :
    (x' >>= f') = (x >>= f) := by
  have h0 : x ≠ .fuel := by rintro rfl; exact h rfl
  rw [hx h0]
  cases x with
  | val a => exact hf a h
  | ub => rfl
  | bug n => rfl
  | fuel => exact absurd rfl h0

theorem step_mono {k k' : St → List Char → Out (List Char × St)} (hk : ∀ s p, k s p ≠ .fuel → k' s p = k s p) (s : St) (p : List Char) (cmd : Cmd)
    (h : expandStep fs main k s p cmd ≠ .fuel) : expandStep fs main k' s p cmd = expandStep fs main k s p cmd := by
  have hnew : ∀ c1 nm c2, inclNew fs k s p c1 nm c2 ≠ .fuel → inclNew fs k' s p c1 nm c2 = inclNew fs k s p c1 nm c2 := by
    intro c1 nm c2 h
    refine bind_mono (fun _ => rfl) ?_ h
    intro t h
    refine bind_mono (hk _ _) ?_ h
    intro x h
    exact bind_mono (hk _ _) (fun _ _ => rfl) h
  cases cmd with
  | none => rfl
  | noEnd c2 =>
    unfold expandStep at h ⊢
    dsimp only at h ⊢
    by_cases h1 : c2.length < 2
    · rw [if_pos h1, if_pos h1]
    · rw [if_neg h1] at h ⊢
      rw [if_neg h1]
      exact bind_mono (hk _ _) (fun _ _ => rfl) h
  | incl c1 nm c2 =>
    unfold expandStep at h ⊢
    dsimp only at h ⊢
    by_cases h1 : nm = main
    · rw [if_pos h1, if_pos h1]
    · rw [if_neg h1] at h ⊢
      rw [if_neg h1]
      by_cases h2 : nm ∈ s.seen
      · rw [if_pos h2] at h ⊢
        rw [if_pos h2]
        exact bind_mono (hk _ _) (fun _ _ => rfl) h
      · rw [if_neg h2] at h ⊢
        rw [if_neg h2]
        exact hnew _ _ _ h
  | skip c1 nm c2 =>
    unfold expandStep at h ⊢
    dsimp only at h ⊢
    by_cases h1 : nm = main
    · rw [if_pos h1, if_pos h1]
    · rw [if_neg h1] at h ⊢
      rw [if_neg h1]
      by_cases h2 : nm ∈ s.seen
      · rw [if_pos h2] at h ⊢
        rw [if_pos h2]
        exact bind_mono (hk _ _) (fun _ _ => rfl) h
      · rw [if_neg h2] at h ⊢
        rw [if_neg h2]
        exact hnew _ _ _ h
  | block c1 nm c2 e1 e2 =>
    unfold expandStep at h ⊢
    dsimp only at h ⊢
    by_cases h1 : nm = main
    · rw [if_pos h1, if_pos h1]
    · rw [if_neg h1] at h ⊢
      rw [if_neg h1]
      by_cases h2 : nm ∈ s.seen
      · rw [if_pos h2] at h ⊢
        rw [if_pos h2]
        exact bind_mono (hk _ _) (fun _ _ => rfl) h
      · rw [if_neg h2] at h ⊢
        rw [if_neg h2]
        refine bind_mono (hk _ _) ?_ h
        intro x h
        by_cases h3 : c1.length < (c1.length - c2.tail.length) + x.1.length + (e1.length - e2.length)
        · rw [if_pos h3, if_pos h3]
        · rw [if_neg h3] at h ⊢
          rw [if_neg h3]
          exact bind_mono (hk _ _) (fun _ _ => rfl) h

theorem expand_succ_mono : ∀ (n : Nat) (s : St) (p : List Char), expand fs main n s p ≠ .fuel → expand fs main (n + 1) s p = expand fs main n s p
  | 0, _, _, h => absurd rfl h
  | n + 1, s, p, h => by
    rw [expand_succ] at h ⊢
    rw [expand_succ]
    refine bind_mono (fun _ => rfl) ?_ h
    intro cmd h
    exact step_mono (expand_succ_mono n) s p cmd h

/-- More iterations do not change a result. -/
theorem expand_mono {n m : Nat} (hnm : n ≤ m) {s : St} {p : List Char} (h : expand fs main n s p ≠ .fuel) : expand fs main m s p = expand fs main n s p := by
  induction hnm with
  | refl => rfl
  | step hm ih => rw [expand_succ_mono _ _ _ (by rw [ih]; exact h), ih]

/-- The files met stay met. -/
theorem expand_seen : ∀ (n : Nat) (s : St) (p o : List Char) (s' : St), expand fs main n s p = .val (o, s') → s.seen <:+ s'.seen
  | 0, _, _, _, _, h => by cases h
  | n + 1, s, p, o, s', h => by
    have ih := expand_seen n
    rw [expand_succ] at h
    have one : ∀ (s1 : St) (q : List Char) (f : List Char → List Char), (expand fs main n s1 q >>= fun x => .val (f x.1, x.2)) = .val (o, s') → s1.seen <:+ s'.seen := by
      intro s1 q f h
      cases hx : expand fs main n s1 q <;> rw [hx] at h
      · cases h; exact ih _ _ _ _ hx
      all_goals cases h
    have hcs : ∀ (s1 : St) (t : Option (List Char)), (content s1 t).2.seen = s1.seen := by intro s1 t; cases t <;> rfl
    have hnew : ∀ c1 nm c2, inclNew fs (expand fs main n) s p c1 nm c2 = .val (o, s') → s.seen <:+ s'.seen := by
      intro c1 nm c2 h
      unfold inclNew at h
      cases ht : fs nm with
      | val t =>
        rw [ht] at h
        simp only [Out.bind_val] at h
        cases hx : expand fs main n (content { s with seen := nm :: s.seen } t).2 (content s t).1 with
        | val x =>
          rw [hx] at h
          simp only [Out.bind_val] at h
          have e1 := ih _ _ _ _ hx
          rw [hcs] at e1
          have e2 := one x.2 c2 (fun y => upTo p c1 ++ (beginText nm ++ (x.1 ++ (endText nm ++ y)))) h
          exact (List.suffix_cons nm s.seen).trans (e1.trans e2)
        | ub => rw [hx] at h; cases h
        | bug k => rw [hx] at h; cases h
        | fuel => rw [hx] at h; cases h
      | ub => rw [ht] at h; cases h
      | bug k => rw [ht] at h; cases h
      | fuel => rw [ht] at h; cases h
    cases hcmd : scan none p with
    | val cmd =>
      rw [hcmd] at h
      simp only [Out.bind_val] at h
      unfold expandStep at h
      cases cmd with
      | none => cases h; exact List.suffix_refl _
      | noEnd c2 =>
        dsimp only at h
        by_cases h1 : c2.length < 2
        · rw [if_pos h1] at h; cases h
        · rw [if_neg h1] at h
          exact one { s with err := true } _ (fun y => upTo p (c2.drop 2) ++ y) h
      | incl c1 nm c2 =>
        dsimp only at h
        by_cases h1 : nm = main
        · rw [if_pos h1] at h; cases h
        · rw [if_neg h1] at h
          by_cases h2 : nm ∈ s.seen
          · rw [if_pos h2] at h
            exact one s _ (fun y => upTo p c1 ++ (skipText nm ++ y)) h
          · rw [if_neg h2] at h
            exact hnew _ _ _ h
      | skip c1 nm c2 =>
        dsimp only at h
        by_cases h1 : nm = main
        · rw [if_pos h1] at h; cases h
        · rw [if_neg h1] at h
          by_cases h2 : nm ∈ s.seen
          · rw [if_pos h2] at h
            exact one s _ (fun y => upTo p c2 ++ y) h
          · rw [if_neg h2] at h
            exact hnew _ _ _ h
      | block c1 nm c2 e1 e2 =>
        dsimp only at h
        by_cases h1 : nm = main
        · rw [if_pos h1] at h; cases h
        · rw [if_neg h1] at h
          by_cases h2 : nm ∈ s.seen
          · rw [if_pos h2] at h
            exact one s _ (fun y => upTo p c1 ++ (skipText nm ++ y)) h
          · rw [if_neg h2] at h
            cases hx : expand fs main n { s with seen := nm :: s.seen } (upTo c2.tail e1) with
            | val x =>
              rw [hx] at h
              simp only [Out.bind_val] at h
              by_cases h3 : c1.length < (c1.length - c2.tail.length) + x.1.length + (e1.length - e2.length)
              · rw [if_pos h3] at h; cases h
              · rw [if_neg h3] at h
                have q1 := ih _ _ _ _ hx
                have q2 := one x.2 _ (fun y => upTo p c1 ++ (c1.take ((c1.length - c2.tail.length) + x.1.length + (e1.length - e2.length)) ++ y)) h
                exact (List.suffix_cons nm s.seen).trans (q1.trans q2)
            | ub => rw [hx] at h; cases h
            | bug k => rw [hx] at h; cases h
            | fuel => rw [hx] at h; cases h
    | ub => rw [hcmd] at h; cases h
    | bug k => rw [hcmd] at h; cases h
    | fuel => rw [hcmd] at h; cases h

/-- The number of files of the list not met yet. -/
def unseen (F : List Name) (s : St) : Nat := (F.filter fun f => decide (f ∉ s.seen)).length

theorem unseen_mono {F : List Name} {s s' : St} (h : s.seen <:+ s'.seen) : unseen F s' ≤ unseen F s := by
  unfold unseen
  apply List.Sublist.length_le
  apply List.monotone_filter_right
  intro f hf
  simp only [decide_eq_true_eq] at hf ⊢
  exact fun hm => hf (h.subset hm)

theorem unseen_lt {F : List Name} {s : St} {nm : Name} {e : Bool} (hF : nm ∈ F) (hs : nm ∉ s.seen) : unseen F ⟨nm :: s.seen, e⟩ < unseen F s := by
  unfold unseen
  induction F with
  | nil => cases hF
  | cons f F ih =>
    have hle : ∀ (F : List Name), (F.filter fun f => decide (f ∉ nm :: s.seen)).length ≤ (F.filter fun f => decide (f ∉ s.seen)).length := by
      intro F
      exact unseen_mono (F := F) (s := s) (s' := ⟨nm :: s.seen, e⟩) (List.suffix_cons nm s.seen)
    rw [List.filter_cons, List.filter_cons]
    by_cases hf : f = nm
    · subst hf
      rw [if_neg (by simp), if_pos (by simpa using hs), List.length_cons]
      exact Nat.lt_succ_of_le (hle F)
    · have hF' : nm ∈ F := by
        rcases List.mem_cons.1 hF with h | h
        · exact absurd h.symm hf
        · exact h
      have := ih hF'
      by_cases hfs : f ∈ s.seen
      · rw [if_neg (by simp [hfs]), if_neg (by simp [hfs])]
        exact this
      · rw [if_pos (by simp [hf, hfs]), if_pos (by simp [hfs]), List.length_cons, List.length_cons]
        exact Nat.succ_lt_succ this

theorem expand_nil (n : Nat) (s : St) : expand fs main (n + 1) s [] = .val ([], s) := rfl

theorem upTo_length (p q : List Char) : (upTo p q).length ≤ p.length := by
  unfold upTo
  rw [List.length_take]
  exact Nat.min_le_right _ _

/-- Whatever the text is, the expansion comes to an end, if there are finitely many files. -/
theorem expand_ends {F : List Name} (hF : ∀ f, f ∉ F → fs f = .val none) (hfs : ∀ f, fs f ≠ .fuel) :
    ∀ (u L : Nat) (s : St) (p : List Char), unseen F s ≤ u → p.length ≤ L → ∃ n, expand fs main n s p ≠ .fuel := by
  intro u
  induction u using Nat.strongRecOn with
  | ind u ihu =>
  intro L
  induction L with
  | zero =>
    intro s p _ hp
    have : p = [] := List.length_eq_zero_iff.1 (Nat.le_zero.1 hp)
    subst this
    exact ⟨1, by rw [expand_nil]; intro h; cases h⟩
  | succ L ihL =>
    intro s p hu hp
    have hend : ∀ (cmd : Cmd), scan none p = .val cmd → ∃ n, expandStep fs main (expand fs main n) s p cmd ≠ .fuel := by
      intro cmd hcmd
      have hok := scan_ok' hcmd
      -- one recursive call
      have one : ∀ (s1 : St) (q : List Char) (g : List Char × St → Out (List Char × St)), (∀ x, g x ≠ .fuel) → s.seen <:+ s1.seen → q.length ≤ L →
          ∃ n, ∀ m ≥ n, (expand fs main m s1 q >>= g) ≠ .fuel := by
        intro s1 q g hg hs hq
        obtain ⟨n, hn⟩ := ihL s1 q (Nat.le_trans (unseen_mono hs) hu) hq
        refine ⟨n, fun m hm => ?_⟩
        rw [expand_mono hm hn]
        cases hx : expand fs main n s1 q with
        | val x => exact hg x
        | ub => intro h; cases h
        | bug k => intro h; cases h
        | fuel => exact absurd hx hn
      have hnew : ∀ c1 nm c2, nm ∉ s.seen → c2.length ≤ L → ∃ n, inclNew fs (expand fs main n) s p c1 nm c2 ≠ .fuel := by
        intro c1 nm c2 hns hc2
        unfold inclNew
        cases ht : fs nm with
        | val t =>
          simp only [Out.bind_val]
          have hin : ∃ n, expand fs main n (content { s with seen := nm :: s.seen } t).2 (content s t).1 ≠ .fuel := by
            cases t with
            | none => exact ⟨1, by show expand fs main 1 _ [] ≠ _; rw [expand_nil]; intro h; cases h⟩
            | some t =>
              have hmem : nm ∈ F := by
                by_cases hm : nm ∈ F
                · exact hm
                · rw [hF nm hm] at ht; cases ht
              have hlt := unseen_lt (e := s.err) hmem hns
              exact ihu _ (Nat.lt_of_lt_of_le hlt hu) t.length _ t (Nat.le_refl _) (Nat.le_refl _)
          obtain ⟨n, hn⟩ := hin
          cases hx : expand fs main n (content { s with seen := nm :: s.seen } t).2 (content s t).1 with
          | val x =>
            have hcs : ∀ (s1 : St) (t : Option (List Char)), (content s1 t).2.seen = s1.seen := by intro s1 t; cases t <;> rfl
            have hs1 := expand_seen _ _ _ _ _ hx
            rw [hcs] at hs1
            obtain ⟨m, hm⟩ := one x.2 c2 (fun y => .val (upTo p c1 ++ (beginText nm ++ (x.1 ++ (endText nm ++ y.1))), y.2)) (fun x h => by cases h)
              ((List.suffix_cons nm s.seen).trans hs1) hc2
            refine ⟨max n m, ?_⟩
            rw [expand_mono (Nat.le_max_left n m) hn, hx]
            exact hm _ (Nat.le_max_right n m)
          | ub => exact ⟨n, by rw [hx]; intro h; cases h⟩
          | bug k => exact ⟨n, by rw [hx]; intro h; cases h⟩
          | fuel => exact absurd hx hn
        | ub => exact ⟨0, by intro h; cases h⟩
        | bug k => exact ⟨0, by intro h; cases h⟩
        | fuel => exact absurd ht (hfs nm)
      unfold expandStep
      cases cmd with
      | none => exact ⟨0, by intro h; cases h⟩
      | noEnd c2 =>
        dsimp only
        by_cases h1 : c2.length < 2
        · exact ⟨0, by rw [if_pos h1]; intro h; cases h⟩
        · obtain ⟨n, hn⟩ := one { s with err := true } (c2.drop 2) (fun x => .val (upTo p (c2.drop 2) ++ x.1, x.2)) (fun x h => by cases h) (List.suffix_refl _) (by
            have := hok.2
            rw [List.length_drop]
            omega)
          exact ⟨n, by rw [if_neg h1]; exact hn n (Nat.le_refl _)⟩
      | incl c1 nm c2 =>
        have hc2 : c2.length ≤ L := by
          have := hok.1.length_le
          have := hok.2.2
          omega
        dsimp only
        by_cases h1 : nm = main
        · exact ⟨0, by rw [if_pos h1]; intro h; cases h⟩
        · by_cases h2 : nm ∈ s.seen
          · obtain ⟨n, hn⟩ := one s c2 (fun x => .val (upTo p c1 ++ (skipText nm ++ x.1), x.2)) (fun x h => by cases h) (List.suffix_refl _) hc2
            exact ⟨n, by rw [if_neg h1, if_pos h2]; exact hn n (Nat.le_refl _)⟩
          · obtain ⟨n, hn⟩ := hnew c1 nm c2 h2 hc2
            exact ⟨n, by rw [if_neg h1, if_neg h2]; exact hn⟩
      | skip c1 nm c2 =>
        have hc2 : c2.length ≤ L := by
          have := hok.1.length_le
          have := hok.2.2
          omega
        dsimp only
        by_cases h1 : nm = main
        · exact ⟨0, by rw [if_pos h1]; intro h; cases h⟩
        · by_cases h2 : nm ∈ s.seen
          · obtain ⟨n, hn⟩ := one s c2 (fun x => .val (upTo p c2 ++ x.1, x.2)) (fun x h => by cases h) (List.suffix_refl _) hc2
            exact ⟨n, by rw [if_neg h1, if_pos h2]; exact hn n (Nat.le_refl _)⟩
          · obtain ⟨n, hn⟩ := hnew c1 nm c2 h2 hc2
            exact ⟨n, by rw [if_neg h1, if_neg h2]; exact hn⟩
      | block c1 nm c2 e1 e2 =>
        obtain ⟨k1, k2, k3, k4, k5, k6⟩ := hok
        have l1 := k1.length_le
        have l2 := k2.length_le
        have l4 := k4.length_le
        dsimp only
        by_cases h1 : nm = main
        · exact ⟨0, by rw [if_pos h1]; intro h; cases h⟩
        · by_cases h2 : nm ∈ s.seen
          · obtain ⟨n, hn⟩ := one s e2 (fun x => .val (upTo p c1 ++ (skipText nm ++ x.1), x.2)) (fun x h => by cases h) (List.suffix_refl _) (by omega)
            exact ⟨n, by rw [if_neg h1, if_pos h2]; exact hn n (Nat.le_refl _)⟩
          · have hb : (upTo c2.tail e1).length ≤ L := by
              have := upTo_length c2.tail e1
              rw [List.length_tail] at this
              omega
            obtain ⟨n, hn⟩ := ihL { s with seen := nm :: s.seen } (upTo c2.tail e1) (Nat.le_trans (unseen_mono (List.suffix_cons nm s.seen)) hu) hb
            cases hx : expand fs main n { s with seen := nm :: s.seen } (upTo c2.tail e1) with
            | val x =>
              have hs1 := expand_seen _ _ _ _ _ hx
              by_cases h3 : c1.length < (c1.length - c2.tail.length) + x.1.length + (e1.length - e2.length)
              · refine ⟨n, ?_⟩
                rw [if_neg h1, if_neg h2, hx, Out.bind_val, if_pos h3]
                intro h; cases h
              · obtain ⟨m, hm⟩ := one x.2 (c1.drop ((c1.length - c2.tail.length) + x.1.length + (e1.length - e2.length)))
                  (fun y => .val (upTo p c1 ++ (c1.take ((c1.length - c2.tail.length) + x.1.length + (e1.length - e2.length)) ++ y.1), y.2)) (fun x h => by cases h)
                  ((List.suffix_cons nm s.seen).trans hs1) (by
                    rw [List.length_drop]
                    have : 0 < c1.length - c2.tail.length := by rw [List.length_tail]; omega
                    omega)
                refine ⟨max n m, ?_⟩
                rw [if_neg h1, if_neg h2, expand_mono (Nat.le_max_left n m) hn, hx, Out.bind_val, if_neg h3]
                exact hm _ (Nat.le_max_right n m)
            | ub => exact ⟨n, by rw [if_neg h1, if_neg h2, hx]; intro h; cases h⟩
            | bug k => exact ⟨n, by rw [if_neg h1, if_neg h2, hx]; intro h; cases h⟩
            | fuel => exact absurd hx hn
    cases hcmd : scan none p with
    | val cmd =>
      obtain ⟨n, hn⟩ := hend cmd hcmd
      refine ⟨n + 1, ?_⟩
      rw [expand_succ, hcmd]
      exact hn
    | ub => exact ⟨1, by rw [expand_succ, hcmd]; intro h; cases h⟩
    | bug k => exact ⟨1, by rw [expand_succ, hcmd]; intro h; cases h⟩
    | fuel => exact absurd hcmd (scan_ne_fuel _ _ _ (Nat.le_refl _))

end MM.Incl
