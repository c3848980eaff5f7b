import Verif.File.Spec
namespace MM.File
open Vstr

theorem str_repr (k : Nat) (h : k < 11) : MM.Date.str (k : Nat) = (Nat.repr k).toList := by
  have : ∀ k < 11, MM.Date.str (k : Nat) = (Nat.repr k).toList := by decide +kernel
  exact this k h

theorem bakName_eq (fn : Str) (k : Nat) (h : k < 10) : bakName fn (k + 1) = verName fn (k + 1) := by
  unfold bakName verName cat
  rw [str_repr (k + 1) (by omega)]
  simp

theorem repr_inj : ∀ i < 11, ∀ j < 11, (Nat.repr i).toList = (Nat.repr j).toList → i = j := by decide +kernel

theorem verName_inj (fn : Str) {i j : Nat} (hi : i < 11) (hj : j < 11) (h : verName fn i = verName fn j) : i = j := by
  cases i <;> cases j
  · rfl
  · unfold verName at h
    exact absurd (congrArg List.length h) (by simp)
  · unfold verName at h
    exact absurd (congrArg List.length h) (by simp)
  · unfold verName at h
    exact repr_inj _ hi _ hj (List.append_cancel_left h)

variable {o : Os}

theorem openR_ok (ho : ∀ n, o.openR n = false) (name : Str) (w : W) : openR o name w = ((w.fs name).isSome, { w with n := w.n + 1 }) := by
  unfold openR; rw [ho]; simp

theorem rename_ok (ho : ∀ n, o.rename n = false) (a b : Str) (w : W) (h : w.fs a ≠ none) :
    rename o a b w = (true, ⟨w.fs.moved a b, w.n + 1, w.fs.moved a b :: w.seen⟩) := by
  unfold rename; rw [if_neg (by rw [ho]; simpa using h)]

theorem moved_src (fs : Fs) {a b : Str} (h : a ≠ b) : fs.moved a b a = none := by
  simp [Fs.moved, Fs.set, h]
theorem moved_dst (fs : Fs) {a b : Str} (h : a ≠ b) : fs.moved a b b = fs a := by
  simp [Fs.moved, Fs.set, h]
theorem moved_other (fs : Fs) {a b x : Str} (ha : x ≠ a) (hb : x ≠ b) : fs.moved a b x = fs x := by
  unfold Fs.moved; split <;> simp [Fs.set, ha, hb]

/-- What the scan finds: the files, the calls. -/
theorem scan_ok (ho : ∀ n, o.openR n = false) (fn : Str) : ∀ (m v : Nat) (w : W), v + m ≤ 9 →
    ∃ last n, scan o fn (List.range' (v + 1) m) v w = (last, ⟨w.fs, n, w.seen⟩) ∧ v ≤ last ∧ last ≤ v + m ∧
      (∀ j, v < j → j ≤ last → w.fs (verName fn j) ≠ none) ∧ (last < v + m → w.fs (verName fn (last + 1)) = none)
  | 0, v, w, _ => ⟨v, w.n, rfl, Nat.le_refl _, Nat.le_refl _, by intro j a b; omega, by intro a; omega⟩
  | m + 1, v, w, h => by
    rw [List.range'_succ]
    unfold scan
    rw [openR_ok ho, bakName_eq fn v (by omega)]
    by_cases he : w.fs (verName fn (v + 1)) = none
    · refine ⟨v, w.n + 1, ?_, Nat.le_refl _, by omega, by intro j a b; omega, fun _ => he⟩
      rw [if_neg (by simp [he])]
    · obtain ⟨last, n, e, h1, h2, h3, h4⟩ := scan_ok ho fn m (v + 1) { w with n := w.n + 1 } (by omega)
      refine ⟨last, n, ?_, by omega, by omega, ?_, ?_⟩
      · rw [if_pos (by simpa [Option.isSome_iff_ne_none] using he)]
        exact e
      · intro j a b
        by_cases hj : j = v + 1
        · subst hj; exact he
        · exact h3 j (by omega) b
      · intro a
        exact h4 (by omega)

/-- The state of the files while versions `v`, …, 1 are moved up. -/
structure Shifting (fn : Str) (v : Nat) (fs s : Fs) : Prop where
  kept : ∀ k, 1 ≤ k → k ≤ v → s (verName fn k) = fs (verName fn k) ∨ s (verName fn (k + 1)) = fs (verName fn k)
  others : ∀ x, (∀ k, 1 ≤ k → k ≤ v + 1 → x ≠ verName fn k) → s x = fs x

theorem shiftUp_ok (ho : o.NoRenameFails) (fn : Str) : ∀ (v : Nat) (w : W), v ≤ 8 →
    (∀ j, 1 ≤ j → j ≤ v → w.fs (verName fn j) ≠ none) →
    ∃ fs' n new, shiftUp o fn v w = ⟨fs', n, new ++ w.seen⟩ ∧ (∀ s ∈ new, Shifting fn v w.fs s) ∧
      (∀ k, 1 ≤ k → k ≤ v → fs' (verName fn (k + 1)) = w.fs (verName fn k)) ∧ (1 ≤ v → fs' (verName fn 1) = none) ∧
      (∀ x, (∀ k, 1 ≤ k → k ≤ v + 1 → x ≠ verName fn k) → fs' x = w.fs x) ∧ (v = 0 → fs' = w.fs)
  | 0, w, _, _ => ⟨w.fs, w.n, [], rfl, (by intro s a; cases a), (by intro k a b; omega), (by intro a; omega), fun _ _ => rfl, fun _ => rfl⟩
  | v + 1, w, hv, hex => by
    unfold shiftUp
    rw [openR_ok ho.openR, bakName_eq fn v (by omega), bakName_eq fn (v + 1) (by omega)]
    have hx := hex (v + 1) (by omega) (by omega)
    rw [if_pos (by simpa [Option.isSome_iff_ne_none] using hx)]
    dsimp only
    rw [rename_ok ho.rename _ _ ⟨w.fs, w.n + 1, w.seen⟩ hx]
    have hne : verName fn (v + 1) ≠ verName fn (v + 1 + 1) := by
      intro e
      have := verName_inj fn (by omega) (by omega) e
      omega
    have hlow : ∀ k, k ≤ v → w.fs.moved (verName fn (v + 1)) (verName fn (v + 1 + 1)) (verName fn k) = w.fs (verName fn k) := by
      intro k hk
      apply moved_other
      · intro e; have := verName_inj fn (by omega) (by omega) e; omega
      · intro e; have := verName_inj fn (by omega) (by omega) e; omega
    obtain ⟨fs', n, new, e, h1, h2, h3, h4, h5⟩ := shiftUp_ok ho fn v
      ⟨w.fs.moved (verName fn (v + 1)) (verName fn (v + 1 + 1)), w.n + 1 + 1, w.fs.moved (verName fn (v + 1)) (verName fn (v + 1 + 1)) :: w.seen⟩
      (by omega) (by
        intro j a b
        dsimp only
        rw [hlow j b]
        exact hex j a (by omega))
    dsimp only at h1 h2 h3 h4 h5
    have hother : ∀ x, (∀ k, 1 ≤ k → k ≤ v + 1 + 1 → x ≠ verName fn k) → w.fs.moved (verName fn (v + 1)) (verName fn (v + 1 + 1)) x = w.fs x :=
      fun x hxx => moved_other _ (hxx _ (by omega) (by omega)) (hxx _ (by omega) (by omega))
    have htop : ∀ k, 1 ≤ k → k ≤ v + 1 → verName fn (v + 1 + 1) ≠ verName fn k := by
      intro k a b e
      have := verName_inj fn (by omega) (by omega) e
      omega
    refine ⟨fs', n, new ++ [w.fs.moved (verName fn (v + 1)) (verName fn (v + 1 + 1))], ?_, ?_, ?_, ?_, ?_, ?_⟩
    · rw [e]; simp
    · intro s hs
      rcases List.mem_append.1 hs with hs | hs
      · have hsh := h1 s hs
        refine ⟨?_, ?_⟩
        · intro k a b
          by_cases hk : k = v + 1
          · subst hk
            right
            rw [hsh.others _ htop]
            exact moved_dst _ hne
          · rcases hsh.kept k a (by omega) with q | q
            · left; rw [q, hlow k (by omega)]
            · right; rw [q, hlow k (by omega)]
        · intro x hxx
          rw [hsh.others x (fun k a b => hxx k a (by omega))]
          exact hother x hxx
      · rw [List.mem_singleton] at hs
        subst hs
        refine ⟨?_, hother⟩
        intro k a b
        by_cases hk : k = v + 1
        · subst hk; right; exact moved_dst _ hne
        · left; exact hlow k (by omega)
    · intro k a b
      by_cases hk : k = v + 1
      · subst hk
        rw [h4 _ htop]
        exact moved_dst _ hne
      · rw [h2 k a (by omega), hlow k (by omega)]
    · intro _
      by_cases hv0 : v = 0
      · subst hv0
        rw [h5 rfl]
        exact moved_src _ hne
      · exact h3 (by omega)
    · intro x hxx
      rw [h4 x (fun k a b => hxx k a (by omega))]
      exact hother x hxx
    · intro a; omega

/-- The removal of version 9, whether it works or not. -/
theorem remove_cases (name : Str) (w : W) :
    ∃ r fs' , remove o name w = (r, ⟨fs', w.n + 1, fs' :: w.seen⟩) ∧ (∀ x, x ≠ name → fs' x = w.fs x) := by
  unfold remove
  split
  · exact ⟨_, _, rfl, fun _ _ => rfl⟩
  · exact ⟨_, _, rfl, fun x hx => by simp [Fs.set, hx]⟩

/-- What the loop has done to a directory in which there are the versions 1, …, `v` and perhaps a version 9 in the way. -/
theorem makeRoom_ok (ho : o.NoRenameFails) (fn : Str) (w : W) (hfn : w.fs fn ≠ none) :
    ∃ fs' n new, makeRoom o fn w = ⟨fs', n, new ++ w.seen⟩ ∧ (∀ s ∈ new, Safe fn w.fs s ∧ s fn = w.fs fn) ∧ fs' (verName fn 1) = none ∧ fs' fn = w.fs fn ∧
      (∀ k, 1 ≤ k → k < 9 → AllBefore w.fs fn (k + 1) → fs' (verName fn (k + 1)) = w.fs (verName fn k)) ∧
      (∀ k, 1 ≤ k → k ≤ 9 → ¬ AllBefore w.fs fn k → fs' (verName fn k) = w.fs (verName fn k)) ∧
      (∀ x, (∀ k, k ≤ 9 → x ≠ verName fn k) → fs' x = w.fs x) ∧ Safe fn w.fs fs' := by
  have hsafe0 : Safe fn w.fs w.fs := ⟨fun d h => Or.inl h, fun k d _ _ h => Or.inl h, fun _ _ => rfl⟩
  have hab : ∀ k, AllBefore w.fs fn k ↔ ∀ j, 1 ≤ j → j < k → w.fs (verName fn j) ≠ none := by
    intro k
    constructor
    · intro h j _ hj; exact h j hj
    · intro h j hj
      cases j with
      | zero => exact hfn
      | succ j => exact h (j + 1) (by omega) hj
  unfold makeRoom
  rw [openR_ok ho.openR, bakName_eq fn 0 (by omega)]
  by_cases h1 : w.fs (verName fn 1) = none
  · rw [if_neg (by simp [h1])]
    refine ⟨w.fs, w.n + 1, [], rfl, (by intro s a; cases a), h1, rfl, ?_, fun _ _ _ _ => rfl, fun _ _ => rfl, hsafe0⟩
    intro k a b h
    exact absurd h1 (h 1 (by omega))
  · rw [if_pos (by simpa [Option.isSome_iff_ne_none] using h1)]
    dsimp only
    obtain ⟨last, n, e, b1, b2, b3, b4⟩ := scan_ok ho.openR fn 9 0 ⟨w.fs, w.n + 1, w.seen⟩ (by omega)
    dsimp only at b3 b4
    unfold VERSIONS
    rw [Nat.zero_add] at e
    rw [e]
    dsimp only
    have hlast : 1 ≤ last := by
      cases last with
      | zero => exact absurd (b4 (by omega)) h1
      | succ l => omega
    -- the state before the renaming
    have hpre : ∃ v fs1 n1 new1, dropLast o fn last ⟨w.fs, n, w.seen⟩ = (v, ⟨fs1, n1, new1 ++ w.seen⟩) ∧ 1 ≤ v ∧ v ≤ 8 ∧
        (∀ s ∈ new1, s = fs1) ∧ (∀ x, x ≠ verName fn 9 → fs1 x = w.fs x) ∧ (v < last → v = 8 ∧ last = 9) ∧ (v = last → fs1 = w.fs) ∧ v ≤ last := by
      unfold dropLast VERSIONS
      by_cases hl : last = 9
      · subst hl
        rw [if_pos rfl, openR_ok ho.openR, bakName_eq fn 8 (by omega)]
        rw [if_pos (by simpa [Option.isSome_iff_ne_none] using b3 9 (by omega) (by omega))]
        dsimp only
        obtain ⟨r, fs1, e1, e2⟩ := remove_cases (o := o) (verName fn (8 + 1)) ⟨w.fs, n + 1, w.seen⟩
        rw [e1]
        exact ⟨8, fs1, _, [fs1], rfl, by omega, by omega, by simp, e2, fun _ => ⟨rfl, rfl⟩, by omega, by omega⟩
      · rw [if_neg hl]
        exact ⟨last, w.fs, n, [], rfl, hlast, by omega, by simp, fun _ _ => rfl, by omega, fun _ => rfl, Nat.le_refl _⟩
    obtain ⟨v, fs1, n1, new1, e1, v1, v8, p1, p2, p3, p4, p5⟩ := hpre
    rw [e1]
    dsimp only
    have hv9 : ∀ j, j ≤ 8 → verName fn j ≠ verName fn 9 := by
      intro j hj he
      have := verName_inj fn (by omega) (by omega) he
      omega
    obtain ⟨fs', n', new, e2, q1, q2, q3, q4, -⟩ := shiftUp_ok ho fn v ⟨fs1, n1, new1 ++ w.seen⟩ v8 (by
      intro j a b
      dsimp only
      rw [p2 _ (hv9 j (by omega))]
      exact b3 j (by omega) (by omega))
    dsimp only at q1 q2 q3 q4
    -- a version that is not in the way is where it was before the renaming
    have hnone : ∀ x, (∀ k, k ≤ 9 → x ≠ verName fn k) → fs1 x = w.fs x := fun x hx => p2 x (hx 9 (by omega))
    have hfull : v < last → AllBefore w.fs fn 10 := by
      intro hlt
      obtain ⟨-, h9⟩ := p3 hlt
      rw [hab]
      intro j a b
      exact b3 j (by omega) (by omega)
    have hzero : ∀ k, 1 ≤ k → k ≤ 10 → fn ≠ verName fn k := by
      intro k a b he
      have : verName fn 0 = verName fn k := he
      have := verName_inj fn (by omega) (by omega) this
      omega
    have hsafe1 : ∀ s, (∀ k, 1 ≤ k → k ≤ v → s (verName fn k) = fs1 (verName fn k) ∨ s (verName fn (k + 1)) = fs1 (verName fn k)) →
        (∀ x, (∀ k, 1 ≤ k → k ≤ v + 1 → x ≠ verName fn k) → s x = fs1 x) → Safe fn w.fs s ∧ s fn = w.fs fn := by
      intro s hk ho'
      have hsfn : s fn = w.fs fn := by
        rw [ho' fn (fun k a b => hzero k a (by omega)), p2 fn (hzero 9 (by omega) (by omega))]
      refine ⟨⟨fun d hd => Or.inl (by rw [hsfn, hd]), ?_, ?_⟩, hsfn⟩
      · intro k d a b hd
        by_cases hkv : k ≤ v
        · have hk8 := p2 _ (hv9 k (by omega))
          rcases hk k a hkv with q | q
          · left; rw [q, hk8, hd]
          · right; left; exact ⟨by omega, by rw [q, hk8, hd]⟩
        · by_cases hlt : v < last
          · right; right
            exact ⟨by have := p3 hlt; omega, hfull hlt⟩
          · have hvl : v = last := by omega
            have hk1 : k ≠ v + 1 := by
              intro he
              have := b4 (by omega)
              rw [← hvl, ← he, hd] at this
              cases this
            left
            rw [ho' _ (fun j ja jb he => by
              have := verName_inj fn (by omega) (by omega) he
              omega), p4 hvl, hd]
      · intro x hx
        rw [ho' x (fun k a b => hx k (by omega)), hnone x hx]
    refine ⟨fs', n', new ++ new1, ?_, ?_, q3 v1, ?_, ?_, ?_, ?_, ?_⟩
    · rw [e2]; simp
    · intro s hs
      rcases List.mem_append.1 hs with hs | hs
      · exact hsafe1 s (q1 s hs).kept (q1 s hs).others
      · have := p1 s hs
        subst this
        exact hsafe1 s (fun k _ _ => Or.inl rfl) (fun _ _ => rfl)
    · rw [q4 fn (fun k a b => hzero k a (by omega)), p2 fn (hzero 9 (by omega) (by omega))]
    · intro k a b h
      have hkl : k ≤ last := by
        apply Classical.byContradiction
        intro hn
        exact h (last + 1) (by omega) (b4 (by omega))
      have hkv : k ≤ v := by
        by_cases hlt : v < last
        · have := p3 hlt; omega
        · omega
      rw [q2 k a hkv, p2 _ (hv9 k (by omega))]
    · intro k a b h
      have hlt : ¬ v < last := by
        intro hlt
        exact h (fun j hj => hfull hlt j (by omega))
      have hvl : v = last := by omega
      have hkl : last + 1 < k := by
        apply Classical.byContradiction
        intro hn
        apply h
        rw [hab]
        intro j ja jb
        exact b3 j (by omega) (by omega)
      rw [q4 _ (fun j ja jb he => by
        have := verName_inj fn (by omega) (by omega) he
        omega), p4 hvl]
    · intro x hx
      rw [q4 x (fun k a b => hx k (by omega)), hnone x hx]
    · exact (hsafe1 fs' (fun k a b => Or.inr (q2 k a b)) q4).1

/-- The backup as a whole. -/
theorem backup_ok (ho : o.NoRenameFails) (fn : Str) (w : W) (hfn : w.fs fn ≠ none) :
    ∃ fs' n new, backup o fn w = ⟨fs', n, new ++ w.seen⟩ ∧ (∀ s ∈ new, Safe fn w.fs s) ∧ Safe fn w.fs fs' ∧ MovedUp fn w.fs fs' := by
  unfold backup
  rw [openR_ok ho.openR]
  rw [if_pos (by simpa [Option.isSome_iff_ne_none] using hfn)]
  dsimp only
  obtain ⟨fs1, n1, new1, e, h1, h2, h3, h4, h5, h6, h7⟩ := makeRoom_ok ho fn ⟨w.fs, w.n + 1, w.seen⟩ hfn
  dsimp only at h1 h2 h3 h4 h5 h6 h7
  have hne : fn ≠ verName fn 1 := by
    intro he
    have : verName fn 0 = verName fn 1 := he
    have := verName_inj fn (by omega) (by omega) this
    omega
  rw [e, bakName_eq fn 0 (by omega), rename_ok ho.rename _ _ ⟨fs1, n1, new1 ++ w.seen⟩ (by dsimp only; rw [h3]; exact hfn)]
  dsimp only
  have hx : ∀ k, 2 ≤ k → k ≤ 9 → fs1.moved fn (verName fn 1) (verName fn k) = fs1 (verName fn k) := by
    intro k a b
    apply moved_other
    · intro he
      have : verName fn k = verName fn 0 := he
      have := verName_inj fn (by omega) (by omega) this
      omega
    · intro he
      have := verName_inj fn (by omega) (by omega) he
      omega
  have hoth : ∀ x, (∀ k, k ≤ 9 → x ≠ verName fn k) → fs1.moved fn (verName fn 1) x = w.fs x := by
    intro x hxx
    rw [moved_other fs1 (a := fn) (hxx 0 (by omega)) (hxx 1 (by omega)), h6 x hxx]
  have hsafe : Safe fn w.fs (fs1.moved fn (verName fn 1)) := by
    refine ⟨?_, ?_, hoth⟩
    · intro d hd
      right
      rw [moved_dst _ hne, h3, hd]
    · intro k d a b hd
      rcases h7.versions k d a b hd with q | ⟨q, q'⟩ | q
      · by_cases hk : k = 1
        · subst hk; rw [h2] at q; cases q
        · left; rw [hx k (by omega) b, q]
      · right; left; exact ⟨q, by rw [hx _ (by omega) (by omega), q']⟩
      · right; right; exact q
  refine ⟨fs1.moved fn (verName fn 1), n1 + 1, fs1.moved fn (verName fn 1) :: new1, by simp, ?_, hsafe, ?_, ?_, ?_, hoth⟩
  · intro s hs
    rcases List.mem_cons.1 hs with hs | hs
    · subst hs; exact hsafe
    · exact (h1 s hs).1
  · exact moved_src _ hne
  · intro k hk hall
    by_cases hk0 : k = 0
    · subst hk0
      show _ = w.fs fn
      rw [moved_dst _ hne, h3]
    · rw [hx _ (by omega) (by omega)]
      exact h4 k (by omega) hk hall
  · intro k hk hn
    have hk2 : 2 ≤ k := by
      apply Classical.byContradiction
      intro h
      apply hn
      intro j hj
      have : j = 0 := by omega
      subst this
      exact hfn
    rw [hx k hk2 hk, h5 k (by omega) hk hn]

end MM.File
