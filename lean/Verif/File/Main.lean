import Verif.File.Props
/-!
# C59: nothing is lost when a file is overwritten
-/
namespace MM.File
open Vstr

variable {o : Os}

theorem Safe.refl (fn : Str) (fs : Fs) : Safe fn fs fs := ⟨fun _ h => Or.inl h, fun _ _ _ _ h => Or.inl h, fun _ _ => rfl⟩

theorem verName_ne (fn : Str) {k : Nat} (h1 : 1 ≤ k) (h : k ≤ 10) : verName fn k ≠ fn := by
  intro he
  have : verName fn k = verName fn 0 := he
  have := verName_inj fn (by omega) (by omega) this
  omega

theorem set_same (fs : Fs) (x : Str) (v : Option Str) : fs.set x v x = v := by simp [Fs.set]
theorem set_other (fs : Fs) {x y : Str} (v : Option Str) (h : y ≠ x) : fs.set x v y = fs y := by simp [Fs.set, h]

/-- Writing to the file after the backup leaves the backup. -/
theorem Safe.set {fn : Str} {fs s : Fs} (h : Safe fn fs s) (hno : s fn = none) (v : Option Str) : Safe fn fs (s.set fn v) := by
  refine ⟨?_, ?_, ?_⟩
  · intro d hd
    rcases h.file d hd with q | q
    · rw [hno] at q; cases q
    · right; rw [set_other _ _ (verName_ne fn (by omega) (by omega)), q]
  · intro k d a b hd
    rw [set_other _ _ (verName_ne fn a (by omega)), set_other _ _ (verName_ne fn (by omega) (by omega))]
    exact h.versions k d a b hd
  · intro x hx
    rw [set_other (x := fn) _ _ (hx 0 (by omega)), h.others x hx]

theorem openW_cases (name : Str) (w : W) :
    (openW o name w = (false, ⟨w.fs, w.n + 1, w.fs :: w.seen⟩) ∧ o.openW w.n = true) ∨
    (openW o name w = (true, ⟨w.fs.set name (some []), w.n + 1, w.fs.set name (some []) :: w.seen⟩) ∧ o.openW w.n = false) := by
  unfold openW
  cases h : o.openW w.n
  · right; exact ⟨rfl, rfl⟩
  · left; exact ⟨rfl, rfl⟩

/-- The backup, whether or not there is a file: the directory afterwards does not have the file, and nothing is lost. -/
theorem backup_any (ho : o.NoRenameFails) (fn : Str) (w : W) :
    ∃ fs' n new, backup o fn w = ⟨fs', n, new ++ w.seen⟩ ∧ (∀ s ∈ new, Safe fn w.fs s) ∧ Safe fn w.fs fs' ∧ fs' fn = none ∧
      (w.fs fn ≠ none → MovedUp fn w.fs fs') ∧ (w.fs fn = none → fs' = w.fs) := by
  by_cases hfn : w.fs fn = none
  · refine ⟨w.fs, w.n + 1, [], ?_, (by intro s a; cases a), Safe.refl _ _, hfn, fun h => absurd hfn h, fun _ => rfl⟩
    unfold backup
    rw [openR_ok ho.openR, if_neg (by simp [hfn])]
    rfl
  · obtain ⟨fs', n, new, e, h1, h2, h3⟩ := backup_ok ho fn w hfn
    exact ⟨fs', n, new, e, h1, h2, h3.gone, fun _ => h3, fun h => absurd h hfn⟩

/-- **C59 (crash safety)**: when a file is opened for writing (`"w"`) or deleted (`"d"`) with versions, and at no time a `rename` fails, then at whatever point
the program or the machine stops, and also at the end, whatever is going to be written to the file afterwards, nothing has been lost: the file is there or is
version 1, every version is there or is the next version, except version 9 of a full set, and no other file has changed.  `remove` and `fopen` for writing may
fail at will. -/
theorem C59_crash (ho : o.NoRenameFails) (fn mode : Str) (hm : mode = ['w'] ∨ mode = ['d']) (w : W) :
    ∃ opened w', fSafeOpen o fn mode false w = .val (opened, w') ∧
      ∃ new, w'.seen = new ++ w.seen ∧ (∀ s ∈ new, Safe fn w.fs s) ∧ Safe fn w.fs w'.fs ∧
        (opened = true → ∀ text, Safe fn w.fs (w'.fs.set fn text)) := by
  obtain ⟨fs', n, new, e, h1, h2, h3, -, -⟩ := backup_any ho fn w
  unfold fSafeOpen
  rcases hm with rfl | rfl
  · rw [if_neg (by decide), if_pos (Or.inl rfl), if_pos rfl]
    simp only [Bool.false_eq_true, if_false]
    rw [e]
    rcases openW_cases (o := o) fn ⟨fs', n, new ++ w.seen⟩ with ⟨q, -⟩ | ⟨q, -⟩
    · rw [q]
      refine ⟨_, _, rfl, fs' :: new, rfl, ?_, h2, by intro a; cases a⟩
      intro s hs
      rcases List.mem_cons.1 hs with hs | hs
      · subst hs; exact h2
      · exact h1 s hs
    · rw [q]
      refine ⟨_, _, rfl, fs'.set fn (some []) :: new, rfl, ?_, h2.set h3 _, ?_⟩
      · intro s hs
        rcases List.mem_cons.1 hs with hs | hs
        · subst hs; exact h2.set h3 _
        · exact h1 s hs
      · intro _ text
        have : (fs'.set fn (some [])).set fn text = fs'.set fn text := by
          funext x; simp only [Fs.set]; split <;> rfl
        dsimp only
        rw [this]
        exact h2.set h3 _
  · rw [if_neg (by decide), if_pos (Or.inr rfl), if_neg (by decide)]
    simp only [Bool.false_eq_true, if_false]
    rw [e]
    exact ⟨_, _, rfl, new, rfl, h1, h2, by intro a; cases a⟩

/-- **C59 (versions)**: if the file existed, then after opening it for writing, the file is empty (if `fopen` worked), version 1 is the old file, the versions up
to the first gap have moved up by one, only the ninth being dropped, and everything else is unchanged. -/
theorem C59_versions (ho : o.NoRenameFails) (fn : Str) (w : W) (hfn : w.fs fn ≠ none) :
    ∃ opened w', fSafeOpen o fn ['w'] false w = .val (opened, w') ∧
      (opened = true → w'.fs fn = some []) ∧ (opened = false → w'.fs fn = none) ∧ MovedUp fn w.fs (w'.fs.set fn none) := by
  obtain ⟨fs', n, new, e, -, -, h3, h4, -⟩ := backup_any ho fn w
  unfold fSafeOpen
  rw [if_neg (by decide), if_pos (Or.inl rfl), if_pos rfl]
  simp only [Bool.false_eq_true, if_false]
  rw [e]
  have hno : ∀ v, (fs'.set fn v).set fn none = fs' := by
    intro v; funext x
    simp only [Fs.set]
    split
    · next h => rw [h, h3]
    · rfl
  rcases openW_cases (o := o) fn ⟨fs', n, new ++ w.seen⟩ with ⟨q, -⟩ | ⟨q, -⟩
  · rw [q]
    refine ⟨_, _, rfl, (by intro a; cases a), fun _ => h3, ?_⟩
    have : fs'.set fn none = fs' := by
      funext x
      simp only [Fs.set]
      split
      · next h => rw [h, h3]
      · rfl
    dsimp only
    rw [this]
    exact h4 hfn
  · rw [q]
    refine ⟨_, _, rfl, fun _ => set_same _ _ _, (by intro a; cases a), ?_⟩
    dsimp only
    rw [hno]
    exact h4 hfn

/-- **C59 (new file)**: if the file did not exist, opening it for writing only creates it, whatever versions there are. -/
theorem C59_new_file (ho : o.NoRenameFails) (fn : Str) (w : W) (hfn : w.fs fn = none) :
    ∃ opened w', fSafeOpen o fn ['w'] false w = .val (opened, w') ∧
      w'.fs = if opened = true then w.fs.set fn (some []) else w.fs := by
  obtain ⟨fs', n, new, e, -, -, -, -, h5⟩ := backup_any ho fn w
  have := h5 hfn
  subst this
  unfold fSafeOpen
  rw [if_neg (by decide), if_pos (Or.inl rfl), if_pos rfl]
  simp only [Bool.false_eq_true, if_false]
  rw [e]
  rcases openW_cases (o := o) fn ⟨w.fs, n, new ++ w.seen⟩ with ⟨q, -⟩ | ⟨q, -⟩ <;> rw [q] <;> exact ⟨_, _, rfl, rfl⟩

/-- **C59 (delete)**: a "safe" delete of an existing file moves it and its versions up, and the file does not exist any more. -/
theorem C59_delete (ho : o.NoRenameFails) (fn : Str) (w : W) (hfn : w.fs fn ≠ none) :
    ∃ opened w', fSafeOpen o fn ['d'] false w = .val (opened, w') ∧ MovedUp fn w.fs w'.fs := by
  obtain ⟨fs', n, new, e, -, -, -, h4, -⟩ := backup_any ho fn w
  unfold fSafeOpen
  rw [if_neg (by decide), if_pos (Or.inr rfl), if_neg (by decide)]
  simp only [Bool.false_eq_true, if_false]
  rw [e]
  exact ⟨_, _, rfl, h4 hfn⟩

/-- **C59 (`/ NO_VERSIONING`)**: without versions, whatever fails, no file but the one written or deleted changes; and reading changes nothing. -/
theorem C59_only_the_file (fn mode : Str) (w : W) (opened : Bool) (w' : W) (h : fSafeOpen o fn mode true w = .val (opened, w')) :
    (∀ x, x ≠ fn → w'.fs x = w.fs x) ∧ (mode = ['r'] → w'.fs = w.fs) := by
  unfold fSafeOpen at h
  by_cases hr : mode = ['r']
  · rw [if_pos hr] at h
    cases h
    exact ⟨fun _ _ => rfl, fun _ => rfl⟩
  · rw [if_neg hr] at h
    refine ⟨?_, fun a => absurd a hr⟩
    simp only [if_true] at h
    by_cases hm : mode = ['w'] ∨ mode = ['d']
    · rw [if_pos hm] at h
      by_cases hw : mode = ['w']
      · rw [if_pos hw] at h
        rcases openW_cases (o := o) fn w with ⟨q, -⟩ | ⟨q, -⟩ <;> rw [q] at h <;> cases h
        · exact fun _ _ => rfl
        · exact fun x hx => set_other _ _ hx
      · rw [if_neg hw] at h
        cases h
        obtain ⟨r, fs', e, h1⟩ := remove_cases (o := o) fn w
        rw [e]
        exact h1
    · rw [if_neg hm] at h
      cases h

/-! ## The history of a file -/

/-- The directory has the texts `l`, latest first, as the file and its versions. -/
def Holds (fs : Fs) (fn : Str) (l : List Str) : Prop := ∀ k, k ≤ 9 → fs (verName fn k) = l[k]?

theorem Os.AllWork.toNo (h : o.AllWork) : o.NoRenameFails := ⟨h.openR, h.rename⟩

theorem save_holds (ho : o.AllWork) (fn t : Str) (w : W) (l : List Str) (h : Holds w.fs fn l) :
    ∃ w', save o fn t w = .val w' ∧ Holds w'.fs fn (t :: l) ∧ (∀ x, (∀ k, k ≤ 9 → x ≠ verName fn k) → w'.fs x = w.fs x) := by
  obtain ⟨fs', n, new, e, -, h2, h3, h4, h5⟩ := backup_any ho.toNo fn w
  have hopen : fSafeOpen o fn ['w'] false w = .val (true, ⟨fs'.set fn (some []), n + 1, fs'.set fn (some []) :: (new ++ w.seen)⟩) := by
    unfold fSafeOpen
    rw [if_neg (by decide), if_pos (Or.inl rfl), if_pos rfl]
    simp only [Bool.false_eq_true, if_false]
    rw [e]
    unfold openW
    rw [if_neg (by rw [ho.openW]; simp)]
  unfold save
  rw [hopen]
  simp only [Out.bind_val, if_true]
  refine ⟨_, rfl, ?_, ?_⟩
  · intro k hk
    cases k with
    | zero => exact set_same _ _ _
    | succ k =>
      dsimp only
      rw [set_other _ _ (verName_ne fn (by omega) (by omega)), set_other _ _ (verName_ne fn (by omega) (by omega))]
      show _ = l[k]?
      by_cases hl : l = []
      · subst hl
        have : w.fs fn = none := h 0 (by omega)
        rw [h5 this, h (k + 1) hk]
        simp
      · have hfn : w.fs fn ≠ none := by
          have := h 0 (by omega)
          intro hc
          have h0 : w.fs fn = l[0]? := this
          rw [hc] at h0
          cases l with
          | nil => exact hl rfl
          | cons a t => simp at h0
        have hm := h4 hfn
        by_cases hkl : k < l.length
        · rw [hm.moved k (by omega) (by
            intro j hj
            rw [h j (by omega)]
            simp
            omega), h k (by omega)]
        · rw [hm.beyondGap (k + 1) (by omega) (by
            intro hc
            have := hc l.length (by omega)
            rw [h _ (by omega)] at this
            simp at this), h (k + 1) (by omega)]
          rw [List.getElem?_eq_none (by omega), List.getElem?_eq_none (by omega)]
  · intro x hx
    dsimp only
    rw [set_other (x := fn) _ _ (hx 0 (by omega)), set_other (x := fn) _ _ (hx 0 (by omega)), h2.others x hx]

/-- **C59 (history)**: after any sequence of saves, if no library call fails, the file holds the text saved last, and version `k`, for `k` up to 9, the text saved
`k` saves before (or, if there have been fewer saves, what was there at the beginning, moved up); all other files are unchanged. -/
theorem C59_history (ho : o.AllWork) (fn : Str) : ∀ (ts : List Str) (w : W) (l : List Str), Holds w.fs fn l →
    ∃ w', saves o fn ts w = .val w' ∧ Holds w'.fs fn (ts.reverse ++ l) ∧ (∀ x, (∀ k, k ≤ 9 → x ≠ verName fn k) → w'.fs x = w.fs x)
  | [], w, l, h => ⟨w, rfl, h, fun _ _ => rfl⟩
  | t :: ts, w, l, h => by
    obtain ⟨w1, e1, a1, b1⟩ := save_holds ho fn t w l h
    obtain ⟨w2, e2, a2, b2⟩ := C59_history ho fn ts w1 (t :: l) a1
    refine ⟨w2, ?_, ?_, fun x hx => by rw [b2 x hx, b1 x hx]⟩
    · unfold saves
      rw [e1]
      exact e2
    · rw [List.reverse_cons, List.append_assoc]
      exact a2

/-! ## `fSafeRename` -/

/-- File `x` is the same before, after and at all times between. -/
def Kept (x : Str) (w w' : W) : Prop := w'.fs x = w.fs x ∧ ∃ new, w'.seen = new ++ w.seen ∧ ∀ s ∈ new, s x = w.fs x

theorem Kept.refl {x : Str} {w : W} : Kept x w w := ⟨rfl, [], rfl, by intro s a; cases a⟩
theorem Kept.trans {x : Str} {a b c : W} (h : Kept x a b) (h' : Kept x b c) : Kept x a c := by
  obtain ⟨h1, n1, e1, k1⟩ := h
  obtain ⟨h2, n2, e2, k2⟩ := h'
  refine ⟨h2.trans h1, n2 ++ n1, by rw [e2, e1, List.append_assoc], ?_⟩
  intro s hs
  rcases List.mem_append.1 hs with hs | hs
  · rw [k2 s hs, h1]
  · exact k1 s hs

theorem Kept.openR (o : Os) (name : Str) {x : Str} {w : W} : Kept x w (openR o name w).2 := ⟨rfl, [], rfl, by intro s a; cases a⟩
theorem Kept.openW {x name : Str} {w : W} (h : x ≠ name) : Kept x w (openW o name w).2 := by
  rcases openW_cases (o := o) name w with ⟨q, -⟩ | ⟨q, -⟩ <;> rw [q]
  · exact ⟨rfl, [w.fs], rfl, by simp⟩
  · exact ⟨set_other _ _ h, [w.fs.set name (some [])], rfl, by simp [set_other _ _ h]⟩
theorem Kept.remove {x name : Str} {w : W} (h : x ≠ name) : Kept x w (remove o name w).2 := by
  obtain ⟨r, fs', q, e⟩ := remove_cases (o := o) name w
  rw [q]
  exact ⟨e x h, [fs'], rfl, by simp [e x h]⟩
theorem Kept.rename {x a b : Str} {w : W} (ha : x ≠ a) (hb : x ≠ b) : Kept x w (rename o a b w).2 := by
  unfold MM.File.rename
  split
  · exact ⟨rfl, [w.fs], rfl, by simp⟩
  · exact ⟨moved_other _ ha hb, [w.fs.moved a b], rfl, by simp [moved_other _ ha hb]⟩

theorem Kept.scan {x fn : Str} : ∀ (todo : List Nat) (last : Nat) (w : W), Kept x w (scan o fn todo last w).2
  | [], _, _ => Kept.refl
  | v :: todo, last, w => by
    unfold MM.File.scan
    split
    · exact (Kept.openR o (bakName fn v)).trans (Kept.scan todo v _)
    · exact (Kept.openR o (bakName fn v))

theorem scan_mem (fn : Str) : ∀ (todo : List Nat) (last : Nat) (w : W), (scan o fn todo last w).1 = last ∨ (scan o fn todo last w).1 ∈ todo
  | [], _, _ => Or.inl rfl
  | v :: todo, last, w => by
    unfold MM.File.scan
    split
    · right
      rcases scan_mem fn todo v (MM.File.openR o (bakName fn v) w).2 with h | h
      · rw [h]; exact List.mem_cons_self
      · exact List.mem_cons_of_mem _ h
    · left; rfl

theorem Kept.dropLast {x fn : Str} (hx : ∀ k, k ≤ 9 → x ≠ verName fn k) (last : Nat) (w : W) :
    Kept x w (dropLast o fn last w).2 ∧ (last ≤ 9 → (dropLast o fn last w).1 ≤ 8) := by
  unfold MM.File.dropLast VERSIONS
  rw [bakName_eq fn 8 (by omega)]
  split
  · split
    · exact ⟨(Kept.openR o (verName fn (8 + 1))).trans (Kept.remove (hx 9 (by omega))), fun h => by dsimp only; omega⟩
    · exact ⟨(Kept.openR o (verName fn (8 + 1))), fun h => by dsimp only; omega⟩
  · exact ⟨Kept.refl, fun h => by dsimp only; omega⟩

theorem Kept.shiftUp {x fn : Str} (hx : ∀ k, k ≤ 9 → x ≠ verName fn k) : ∀ (v : Nat) (w : W), v ≤ 8 → Kept x w (shiftUp o fn v w)
  | 0, _, _ => Kept.refl
  | v + 1, w, h => by
    unfold MM.File.shiftUp
    rw [bakName_eq fn v (by omega), bakName_eq fn (v + 1) (by omega)]
    split
    · exact ((Kept.openR o (verName fn (v + 1))).trans (Kept.rename (hx _ (by omega)) (hx _ (by omega)))).trans (Kept.shiftUp hx v _ (by omega))
    · exact (Kept.openR o (verName fn (v + 1))).trans (Kept.shiftUp hx v _ (by omega))

theorem Kept.backup {x fn : Str} (hx : ∀ k, k ≤ 9 → x ≠ verName fn k) (w : W) : Kept x w (backup o fn w) := by
  unfold MM.File.backup
  split
  · rw [bakName_eq fn 0 (by omega)]
    refine Kept.trans ?_ (Kept.rename (hx 0 (by omega)) (hx 1 (by omega)))
    refine (Kept.openR o fn).trans ?_
    unfold makeRoom
    split
    · have hs := Kept.scan (o := o) (x := x) (fn := fn) (List.range' 1 VERSIONS) 0
        (MM.File.openR o (bakName fn 1) (MM.File.openR o fn w).2).2
      have hm := scan_mem (o := o) fn (List.range' 1 VERSIONS) 0 (MM.File.openR o (bakName fn 1) (MM.File.openR o fn w).2).2
      generalize MM.File.scan o fn (List.range' 1 VERSIONS) 0 (MM.File.openR o (bakName fn 1) (MM.File.openR o fn w).2).2 = sc at *
      have hl : sc.1 ≤ 9 := by
        rcases hm with hm | hm
        · omega
        · unfold VERSIONS at hm
          rw [List.mem_range'_1] at hm
          omega
      have hd := Kept.dropLast (o := o) hx sc.1 sc.2
      exact (Kept.openR o (bakName fn 1)).trans (hs.trans (hd.1.trans (Kept.shiftUp hx _ _ (hd.2 hl))))
    · exact (Kept.openR o (bakName fn 1))
  · exact (Kept.openR o fn)

theorem fSafeOpen_w (fn : Str) (w : W) : fSafeOpen o fn ['w'] false w = .val (openW o fn (backup o fn w)) := by
  unfold fSafeOpen
  rw [if_neg (by decide), if_pos (Or.inl rfl), if_pos rfl]
  simp

theorem Kept.removeRetry {x name : Str} (h : x ≠ name) : ∀ (k : Nat) (w : W), Kept x w (removeRetry o name k w).2
  | 0, _ => Kept.refl
  | k + 1, w => by
    unfold MM.File.removeRetry
    split
    · exact Kept.remove h
    · exact (Kept.remove h).trans (Kept.removeRetry h k _)

theorem Kept.removeHard {x name : Str} (h : x ≠ name) (w : W) : Kept x w (removeHard o name w).2 := by
  unfold MM.File.removeHard
  split
  · exact Kept.remove h
  · exact (Kept.remove h).trans (Kept.removeRetry h 998 _)

/-- **C59 (rename)**: a list command writes its result to a temporary file and then renames that to the output file with `fSafeRename`.  Whatever library calls
fail and wherever the program is stopped, the result is not lost: at every time it is in the temporary file or in the output file; at the end, it is in the
output file if `fSafeRename` reports success (and the temporary file is gone), and in the temporary file if it reports an error. -/
theorem C59_rename (old new : Str) (hx : ∀ k, k ≤ 9 → old ≠ verName new k) (w : W) (d : Str) (hd : w.fs old = some d) :
    ∃ done w', fSafeRename o old new w = .val (done, w') ∧
      (∃ add, w'.seen = add ++ w.seen ∧ ∀ s ∈ add, s old = some d ∨ s new = some d) ∧
      (done = true → w'.fs new = some d ∧ w'.fs old = none) ∧ (done = false → w'.fs old = some d) := by
  have hne : old ≠ new := hx 0 (by omega)
  unfold fSafeRename
  rw [fSafeOpen_w]
  simp only [Out.bind_val]
  have h1 : Kept old w (openW o new (backup o new w)).2 := (Kept.backup hx w).trans (Kept.openW hne)
  generalize openW o new (backup o new w) = r at *
  have hk : ∀ w', Kept old w w' → (∃ add, w'.seen = add ++ w.seen ∧ ∀ s ∈ add, s old = some d ∨ s new = some d) ∧ w'.fs old = some d := by
    intro w' ⟨q, add, e, k⟩
    exact ⟨⟨add, e, fun s hs => Or.inl (by rw [k s hs, hd])⟩, by rw [q, hd]⟩
  by_cases hr : r.1 = false
  · rw [if_pos hr]
    exact ⟨_, _, rfl, (hk _ h1).1, (by intro a; cases a), fun _ => (hk _ h1).2⟩
  · rw [if_neg hr]
    have h2 : Kept old w (removeHard o new r.2).2 := h1.trans (Kept.removeHard hne _)
    generalize removeHard o new r.2 = r2 at *
    by_cases hr2 : r2.1 = false
    · rw [if_pos hr2]
      exact ⟨_, _, rfl, (hk _ h2).1, (by intro a; cases a), fun _ => (hk _ h2).2⟩
    · rw [if_neg hr2]
      obtain ⟨⟨add, e, k⟩, hold⟩ := hk _ h2
      unfold rename
      split
      · refine ⟨_, _, rfl, ⟨r2.2.fs :: add, by rw [e]; rfl, ?_⟩, (by intro a; cases a), fun _ => hold⟩
        intro s hs
        rcases List.mem_cons.1 hs with hs | hs
        · subst hs; exact Or.inl hold
        · exact k s hs
      · refine ⟨_, _, rfl, ⟨r2.2.fs.moved old new :: add, by rw [e]; rfl, ?_⟩, fun _ => ⟨?_, moved_src _ hne⟩, (by intro a; cases a)⟩
        · intro s hs
          rcases List.mem_cons.1 hs with hs | hs
          · subst hs; right; rw [moved_dst _ hne, hold]
          · exact k s hs
        · dsimp only
          rw [moved_dst _ hne, hold]

/-- **C59 (rename, versions)**: if no library call fails, `fSafeRename` succeeds, and the old output file and its versions have moved up by one. -/
theorem C59_rename_versions (ho : o.AllWork) (old new : Str) (hx : ∀ k, k ≤ 9 → old ≠ verName new k) (w : W) (d : Str) (hd : w.fs old = some d)
    (hn : w.fs new ≠ none) :
    ∃ w', fSafeRename o old new w = .val (true, w') ∧ w'.fs new = some d ∧ MovedUp new (w.fs.set old none) (w'.fs.set new none) := by
  have hne : old ≠ new := hx 0 (by omega)
  obtain ⟨fs', n, nw, e, -, h2, h3, h4, -⟩ := backup_any ho.toNo new w
  have hm := h4 hn
  unfold fSafeRename
  rw [fSafeOpen_w, e]
  simp only [Out.bind_val]
  rcases openW_cases (o := o) new ⟨fs', n, nw ++ w.seen⟩ with ⟨-, q⟩ | ⟨q, -⟩
  · rw [ho.openW] at q; cases q
  rw [q]
  dsimp only
  rw [if_neg (by simp)]
  have hrm : removeHard o new ⟨fs'.set new (some []), n + 1, fs'.set new (some []) :: (nw ++ w.seen)⟩ = (true,
      ⟨(fs'.set new (some [])).set new none, n + 1 + 1, (fs'.set new (some [])).set new none :: fs'.set new (some []) :: (nw ++ w.seen)⟩) := by
    have hr : remove o new ⟨fs'.set new (some []), n + 1, fs'.set new (some []) :: (nw ++ w.seen)⟩ = (true,
        ⟨(fs'.set new (some [])).set new none, n + 1 + 1, (fs'.set new (some [])).set new none :: fs'.set new (some []) :: (nw ++ w.seen)⟩) := by
      unfold remove
      dsimp only
      rw [if_neg (by rw [ho.remove, set_same]; simp)]
    unfold removeHard
    rw [hr, if_pos rfl]
  rw [hrm]
  dsimp only
  rw [if_neg (by simp)]
  have hback : ((fs'.set new (some [])).set new none) = fs' := by
    funext x
    simp only [Fs.set]
    split
    · next h => rw [h, h3]
    · rfl
  have hold : fs' old = some d := by rw [h2.others old hx, hd]
  rw [rename_ok ho.rename _ _ _ (by dsimp only; rw [hback, hold]; simp)]
  dsimp only
  rw [hback]
  refine ⟨_, rfl, by dsimp only; rw [moved_dst _ hne, hold], ?_⟩
  have hfin : (fs'.moved old new).set new none = fs'.set old none := by
    funext x
    by_cases h1 : x = new
    · subst h1
      rw [set_same, set_other _ _ (Ne.symm hne), h3]
    · rw [set_other _ _ h1]
      by_cases h5 : x = old
      · subst h5; rw [moved_src _ hne, set_same]
      · rw [moved_other _ h5 h1, set_other _ _ h5]
  dsimp only
  rw [hfin]
  have hv : ∀ k, k ≤ 9 → ∀ f : Fs, f.set old none (verName new k) = f (verName new k) := fun k hk f => set_other _ _ (fun he => hx k hk he.symm)
  have hab : ∀ k, k ≤ 10 → (AllBefore (w.fs.set old none) new k ↔ AllBefore w.fs new k) := by
    intro k hk
    constructor
    · intro h j hj
      have := h j hj
      rwa [hv j (by omega)] at this
    · intro h j hj
      rw [hv j (by omega)]
      exact h j hj
  refine ⟨?_, ?_, ?_, ?_⟩
  · rw [set_other _ _ (Ne.symm hne), h3]
  · intro k hk h
    rw [hv _ (by omega), hv _ (by omega)]
    exact hm.moved k hk ((hab _ (by omega)).1 h)
  · intro k hk h
    rw [hv _ (by omega), hv _ (by omega)]
    exact hm.beyondGap k hk (fun hc => h ((hab _ (by omega)).2 hc))
  · intro x hxx
    by_cases h5 : x = old
    · subst h5; rw [set_same, set_same]
    · rw [set_other _ _ h5, set_other _ _ h5, hm.others x hxx]

theorem remove_ok {name : Str} {w : W} (hr : o.remove w.n = false) (he : w.fs name ≠ none) :
    remove o name w = (true, ⟨w.fs.set name none, w.n + 1, w.fs.set name none :: w.seen⟩) := by
  unfold remove; rw [if_neg (by rw [hr]; simpa using he)]
theorem remove_fail {name : Str} {w : W} (hr : o.remove w.n = true) : remove o name w = (false, ⟨w.fs, w.n + 1, w.fs :: w.seen⟩) := by
  unfold remove; rw [if_pos (Or.inl hr)]

theorem removeRetry_iff (name : Str) : ∀ (k : Nat) (w : W), w.fs name ≠ none →
    ((removeRetry o name k w).1 = true ↔ ∃ i, i < k ∧ o.remove (w.n + i) = false) ∧
    (removeRetry o name k w).2.fs = if (removeRetry o name k w).1 = true then w.fs.set name none else w.fs
  | 0, w, _ => ⟨⟨(by intro h; cases h), (by rintro ⟨i, h, -⟩; omega)⟩, rfl⟩
  | k + 1, w, he => by
    unfold removeRetry
    cases hr : o.remove w.n
    · rw [remove_ok hr he]
      exact ⟨⟨fun _ => ⟨0, by omega, hr⟩, fun _ => rfl⟩, rfl⟩
    · rw [remove_fail hr]
      rw [if_neg (by simp)]
      obtain ⟨h1, h2⟩ := removeRetry_iff name k ⟨w.fs, w.n + 1, w.fs :: w.seen⟩ he
      refine ⟨h1.trans ⟨?_, ?_⟩, h2⟩
      · rintro ⟨i, a, b⟩
        exact ⟨i + 1, by omega, by rw [← b]; congr 1; dsimp only; omega⟩
      · rintro ⟨i, a, b⟩
        cases i with
        | zero => rw [Nat.add_zero, hr] at b; cases b
        | succ i => exact ⟨i, by omega, by rw [← b]; congr 1; dsimp only; omega⟩

/-- **C59 (patience)**: the removal of the empty output file is tried 999 times: it counts as done exactly if one of the attempts works, and then that file is gone
and nothing else has changed. -/
theorem C59_remove_retries (name : Str) (w : W) (he : w.fs name ≠ none) :
    ((removeHard o name w).1 = true ↔ ∃ i, i < 999 ∧ o.remove (w.n + i) = false) ∧
    (removeHard o name w).2.fs = if (removeHard o name w).1 = true then w.fs.set name none else w.fs := by
  have hh : removeHard o name w = removeRetry o name (998 + 1) w := by
    rw [show removeRetry o name (998 + 1) w = if (remove o name w).1 = true then (true, (remove o name w).2) else removeRetry o name 998 (remove o name w).2
      from rfl]
    rfl
  rw [hh]
  exact removeRetry_iff name 999 w he

/-! ## `fGetTmpName` -/

/-- **C59 (temporary names)**: `fGetTmpName` always ends, changes no file, and the name it gives is not the name of a file, unless more than a thousand names have
been tried.  The name is the prefix, a number and `.tmp`. -/
theorem C59_tmp_name (ho : ∀ n, o.openR n = false) (pre : Str) (counter : Nat) (w : W) :
    ∃ name c w', fGetTmpName o pre counter w = .val (name, c, w') ∧ w'.fs = w.fs ∧ w'.seen = w.seen ∧ (w.fs name = none ∨ 1000 < c) ∧
      counter < c ∧ name = pre ++ MM.Date.str (c : Nat) ++ ".tmp".toList := by
  unfold fGetTmpName
  have key : ∀ (fuel counter : Nat) (w : W), 1001 < fuel + counter + 1 → 0 < fuel → ∃ name c w', tmpNameGo o pre fuel counter w = .val (name, c, w') ∧ w'.fs = w.fs ∧
      w'.seen = w.seen ∧ (w.fs name = none ∨ 1000 < c) ∧ counter < c ∧ name = pre ++ MM.Date.str (c : Nat) ++ ".tmp".toList := by
    intro fuel
    induction fuel with
    | zero => intro _ _ _ h; omega
    | succ fuel ih =>
      intro counter w hf _
      unfold tmpNameGo
      dsimp only
      rw [openR_ok ho]
      dsimp only
      have hn : cat [pre, MM.Date.str ((counter + 1 : Nat) : Int), ".tmp".toList] = pre ++ MM.Date.str ((counter + 1 : Nat) : Int) ++ ".tmp".toList := by
        simp [cat]
      rw [hn]
      by_cases he : (w.fs (pre ++ MM.Date.str ((counter + 1 : Nat) : Int) ++ ".tmp".toList)).isSome = false
      · rw [if_pos he]
        exact ⟨_, _, _, rfl, rfl, rfl, Or.inl (by simpa using he), by omega, rfl⟩
      · rw [if_neg he]
        by_cases hc : counter + 1 > 1000
        · rw [if_pos hc]
          exact ⟨_, _, _, rfl, rfl, rfl, Or.inr hc, by omega, rfl⟩
        · rw [if_neg hc]
          obtain ⟨name, c, w', a1, a2, a3, a4, a5, a6⟩ := ih (counter + 1) ⟨w.fs, w.n + 1, w.seen⟩ (by omega) (by omega)
          exact ⟨name, c, w', a1, a2, a3, a4, by omega, a6⟩
  exact key _ _ _ (by omega) (by omega)

end MM.File
