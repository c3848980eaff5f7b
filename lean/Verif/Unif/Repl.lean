import Verif.Unif.Model
import Mathlib.Data.List.Basic
/-!
# The replacement loop of `unify`
-/
namespace MM.Unif

/-- `l` with every `x` replaced by `v`. -/
def sub1 (x : Nat) (v l : List Nat) : List Nat := l.flatMap fun t => if t = x then v else [t]

@[simp] theorem sub1_nil (x : Nat) (v : List Nat) : sub1 x v [] = [] := rfl

@[simp] theorem sub1_append (x : Nat) (v a b : List Nat) : sub1 x v (a ++ b) = sub1 x v a ++ sub1 x v b := by simp [sub1]

theorem sub1_cons (x : Nat) (v : List Nat) (c : Nat) (t : List Nat) : sub1 x v (c :: t) = (if c = x then v else [c]) ++ sub1 x v t := by simp [sub1]

theorem sub1_cons_eq (x : Nat) (v : List Nat) (t : List Nat) : sub1 x v (x :: t) = v ++ sub1 x v t := by simp [sub1]

theorem sub1_cons_ne {x c : Nat} (v : List Nat) (t : List Nat) (h : c ≠ x) : sub1 x v (c :: t) = c :: sub1 x v t := by simp [sub1, h]

theorem sub1_none {x : Nat} (v : List Nat) : ∀ {l : List Nat}, x ∉ l → sub1 x v l = l
  | [], _ => rfl
  | c :: t, h => by
    have h1 : c ≠ x := by rintro rfl; simp at h
    rw [sub1_cons_ne v t h1, sub1_none v (by intro h'; exact h (by simp [h']))]

theorem mem_sub1 {x y : Nat} {v l : List Nat} : y ∈ sub1 x v l ↔ (y ∈ l ∧ y ≠ x) ∨ (y ∈ v ∧ x ∈ l) := by
  simp only [sub1, List.mem_flatMap]
  constructor
  · rintro ⟨t, ht, hy⟩
    by_cases h : t = x
    · rw [if_pos h] at hy; exact Or.inr ⟨hy, h ▸ ht⟩
    · rw [if_neg h] at hy
      simp at hy; subst hy; exact Or.inl ⟨ht, h⟩
  · rintro (⟨h1, h2⟩ | ⟨h1, h2⟩)
    · exact ⟨y, h1, by simp [h2]⟩
    · exact ⟨x, h2, by simp [h1]⟩

/-- The new place of the position `i` when the first part `w` of the scheme has been treated. -/
def newPos (x : Nat) (v w : List Nat) (i : Nat) : Nat := (sub1 x v (w.take i)).length + (i - w.length)

/-- The new start and length. -/
def cur (x : Nat) (v w : List Nat) (e : Nat × Nat) : Nat × Nat := (newPos x v w e.1, newPos x v w (e.1 + e.2) - newPos x v w e.1)

theorem newPos_snoc_ne {x c : Nat} (v w : List Nat) (i : Nat) (h : c ≠ x) : newPos x v (w ++ [c]) i = newPos x v w i := by
  unfold newPos
  by_cases hi : i ≤ w.length
  · rw [List.take_append_of_le_length hi]; simp; omega
  · have h1 : (w ++ [c]).take i = w ++ [c] := List.take_of_length_le (by simp; omega)
    have h2 : w.take i = w := List.take_of_length_le (by omega)
    rw [h1, h2, sub1_append, sub1_cons_ne v [] h]; simp; omega

theorem newPos_snoc_eq (x : Nat) (v w : List Nat) (i : Nat) :
    newPos x v (w ++ [x]) i = if i ≤ w.length then newPos x v w i else newPos x v w i + v.length - 1 := by
  unfold newPos
  by_cases hi : i ≤ w.length
  · rw [if_pos hi, List.take_append_of_le_length hi]; simp; omega
  · rw [if_neg hi]
    have h1 : (w ++ [x]).take i = w ++ [x] := List.take_of_length_le (by simp; omega)
    have h2 : w.take i = w := List.take_of_length_le (by omega)
    rw [h1, h2, sub1_append, sub1_cons_eq]; simp; omega

theorem newPos_le_of_le (x : Nat) (v w : List Nat) {i : Nat} (h : i ≤ w.length) : newPos x v w i ≤ (sub1 x v w).length := by
  unfold newPos
  have : sub1 x v w = sub1 x v (w.take i) ++ sub1 x v (w.drop i) := by rw [← sub1_append, List.take_append_drop]
  rw [this, List.length_append]; omega

theorem newPos_of_gt (x : Nat) (v w : List Nat) {i : Nat} (h : w.length < i) : newPos x v w i = (sub1 x v w).length + (i - w.length) := by
  unfold newPos
  rw [List.take_of_length_le (by omega)]

theorem newPos_mono (x : Nat) (v w : List Nat) {i j : Nat} (h : i ≤ j) : newPos x v w i ≤ newPos x v w j := by
  by_cases hj : j ≤ w.length
  · unfold newPos
    have : (w.take j).take i = w.take i := by rw [List.take_take, Nat.min_eq_left h]
    have : sub1 x v (w.take j) = sub1 x v (w.take i) ++ sub1 x v ((w.take j).drop i) := by rw [← this, ← sub1_append, List.take_append_drop]
    rw [this, List.length_append]; omega
  · by_cases hi : i ≤ w.length
    · have := newPos_le_of_le x v w hi
      rw [newPos_of_gt x v w (show w.length < j by omega)]; omega
    · rw [newPos_of_gt x v w (show w.length < j by omega), newPos_of_gt x v w (show w.length < i by omega)]; omega

theorem cur_snoc_ne {x c : Nat} (v w : List Nat) (e : Nat × Nat) (h : c ≠ x) : cur x v (w ++ [c]) e = cur x v w e := by
  unfold cur; rw [newPos_snoc_ne v w _ h, newPos_snoc_ne v w _ h]

theorem adj1_cur (x : Nat) (v w : List Nat) (e : Nat × Nat) : adj1 ((sub1 x v w).length + 1) v.length (cur x v w e) = cur x v (w ++ [x]) e := by
  have hm := newPos_mono x v w (show e.1 ≤ e.1 + e.2 by omega)
  unfold adj1 cur
  rw [newPos_snoc_eq, newPos_snoc_eq]
  dsimp only
  by_cases h1 : e.1 ≤ w.length
  · have a := newPos_le_of_le x v w h1
    rw [if_neg (by omega), if_pos h1]
    by_cases h2 : e.1 + e.2 ≤ w.length
    · have b := newPos_le_of_le x v w h2
      rw [if_neg (by omega), if_pos h2]
    · have b := newPos_of_gt x v w (show w.length < e.1 + e.2 by omega)
      rw [if_pos (by omega), if_neg h2]
      congr 1; omega
  · have a := newPos_of_gt x v w (show w.length < e.1 by omega)
    have b := newPos_of_gt x v w (show w.length < e.1 + e.2 by omega)
    rw [if_pos (by omega), if_neg h1, if_neg (by omega)]
    congr 1; omega

/-- Without adjustments the loop replaces. -/
theorem replGo_false (x : Nat) (v : List Nat) : ∀ (l pre : List Nat) (p : Int) (seg : List (Nat × Nat)), (v ≠ [] ∨ pre ≠ []) →
    replGo x v false l pre p seg = .val (pre ++ sub1 x v l, p, seg)
  | [], pre, p, seg, _ => by simp [replGo]
  | c :: t, pre, p, seg, h => by
    unfold replGo
    have hl : ¬ pre.length + v.length = 0 := by
      rcases h with h | h
      · have := List.length_pos_iff.2 h; omega
      · have := List.length_pos_iff.2 h; omega
    by_cases hc : c = x
    · rw [if_pos hc, if_neg hl]
      simp only [Bool.false_eq_true, if_false]
      rw [replGo_false x v t (pre ++ v) p seg (by rcases h with h | h <;> simp [h])]
      subst hc
      rw [sub1_cons_eq]; simp
    · rw [if_neg hc, replGo_false x v t (pre ++ [c]) p seg (Or.inr (by simp)), sub1_cons_ne v t hc]; simp

/-- Behind the scan position the loop replaces. -/
theorem replGo_tail (x : Nat) (v : List Nat) : ∀ (l pre : List Nat) (p : Int) (seg : List (Nat × Nat)), (v ≠ [] ∨ pre ≠ []) → p < pre.length →
    replGo x v true l pre p seg = .val (pre ++ sub1 x v l, p, seg)
  | [], pre, p, seg, _, _ => by simp [replGo]
  | c :: t, pre, p, seg, h, hp => by
    unfold replGo
    have hl : ¬ pre.length + v.length = 0 := by
      rcases h with h | h
      · have := List.length_pos_iff.2 h; omega
      · have := List.length_pos_iff.2 h; omega
    by_cases hc : c = x
    · rw [if_pos hc, if_neg hl]
      have : adjust (pre.length + 1) v.length p seg = (p, seg) := by
        unfold adjust; rw [if_neg (by omega)]
      simp only [if_true, this]
      rw [replGo_tail x v t (pre ++ v) p seg (by rcases h with h | h <;> simp [h]) (by simp; omega)]
      subst hc
      rw [sub1_cons_eq]; simp
    · rw [if_neg hc, replGo_tail x v t (pre ++ [c]) p seg (Or.inr (by simp)) (by simp; omega), sub1_cons_ne v t hc]; simp

/-- Up to the scan position, where `x` is, the starts and lengths follow the tokens. -/
theorem replGo_pre (x : Nat) (v t : List Nat) : ∀ (r w pre : List Nat) (p : Int) (seg : List (Nat × Nat)), (v ≠ [] ∨ pre ≠ []) → pre = sub1 x v w →
    p = pre.length + r.length →
    replGo x v true (r ++ x :: t) pre p (seg.map (cur x v w)) =
      .val (sub1 x v (w ++ r) ++ v ++ sub1 x v t, (sub1 x v (w ++ r)).length + v.length - 1, seg.map (cur x v (w ++ r)))
  | [], w, pre, p, seg, h, hpre, hp => by
    have hl : ¬ pre.length + v.length = 0 := by
      rcases h with h | h
      · have := List.length_pos_iff.2 h; omega
      · have := List.length_pos_iff.2 h; omega
    simp only [List.length_nil] at hp
    rw [List.nil_append, replGo, if_pos rfl, if_neg hl, if_pos rfl]
    have : ∀ seg, adjust (pre.length + 1) v.length p seg = (p + v.length - 1, seg) := by
      intro seg; unfold adjust; rw [if_pos (by omega), if_neg (by omega)]
    rw [this]
    rw [replGo_tail x v t (pre ++ v) _ _ (by rcases h with h | h <;> simp [h]) (by simp; omega), hp, hpre]
    simp
  | c :: r, w, pre, p, seg, h, hpre, hp => by
    have hl : ¬ pre.length + v.length = 0 := by
      rcases h with h | h
      · have := List.length_pos_iff.2 h; omega
      · have := List.length_pos_iff.2 h; omega
    simp only [List.length_cons] at hp
    have e : w ++ c :: r = (w ++ [c]) ++ r := by simp
    rw [List.cons_append, replGo]
    by_cases hc : c = x
    · subst hc
      rw [if_pos rfl, if_neg hl, if_pos rfl]
      have : ∀ seg, adjust (pre.length + 1) v.length p seg = (p + v.length - 1, seg.map (adj1 (pre.length + 1) v.length)) := by
        intro seg; unfold adjust; rw [if_pos (by omega), if_pos (by omega)]
      rw [this]
      dsimp only
      have hmap : (seg.map (cur c v w)).map (adj1 (pre.length + 1) v.length) = seg.map (cur c v (w ++ [c])) := by
        rw [List.map_map]
        apply List.map_congr_left
        intro e _
        rw [Function.comp_apply, hpre, adj1_cur]
      rw [hmap, replGo_pre c v t r (w ++ [c]) (pre ++ v) _ seg (by rcases h with h | h <;> simp [h]) (by rw [sub1_append, sub1_cons_eq, hpre]; simp)
        (by simp; omega), e]
    · rw [if_neg hc]
      have hmap : seg.map (cur x v w) = seg.map (cur x v (w ++ [c])) := by
        apply List.map_congr_left
        intro e _
        rw [cur_snoc_ne v w e hc]
      rw [hmap, replGo_pre x v t r (w ++ [c]) (pre ++ [c]) _ seg (Or.inr (by simp)) (by rw [sub1_append, sub1_cons_ne v [] hc, hpre]; simp) (by simp; omega), e]

theorem cur_nil (x : Nat) (v : List Nat) (e : Nat × Nat) : cur x v [] e = e := by
  unfold cur newPos; simp

/-- The whole loop, if `x` is at the scan position. -/
theorem repl_adj {x : Nat} {v a t : List Nat} {seg : List (Nat × Nat)} (h : v ≠ [] ∨ (a ++ x :: t).head? ≠ some x) :
    replGo x v true (a ++ x :: t) [] a.length seg =
      .val (sub1 x v (a ++ x :: t), (sub1 x v a).length + v.length - 1, seg.map (cur x v a)) := by
  have hm : seg.map (cur x v []) = seg := by
    rw [List.map_congr_left (g := id) (by intro e _; rw [cur_nil]; rfl), List.map_id]
  have hs : sub1 x v (a ++ x :: t) = sub1 x v a ++ v ++ sub1 x v t := by rw [sub1_append, sub1_cons_eq, List.append_assoc]
  rw [hs]
  rcases h with h | h
  · have := replGo_pre x v t a [] [] a.length seg (Or.inl h) (by simp) (by simp)
    rw [hm] at this
    simpa using this
  · cases a with
    | nil => simp at h
    | cons c a =>
      have hc : c ≠ x := by rintro rfl; simp at h
      rw [List.cons_append, replGo, if_neg hc]
      have := replGo_pre x v t a [c] [c] (a.length + 1 : Nat) seg (Or.inr (by simp)) (by rw [sub1_cons_ne v [] hc]; simp) (by simp; omega)
      have hm2 : seg.map (cur x v [c]) = seg := by
        have : seg.map (cur x v [c]) = seg.map (cur x v []) := List.map_congr_left (by intro e _; exact cur_snoc_ne (x := x) v [] e hc)
        rw [this, hm]
      rw [hm2] at this
      simpa using this

theorem repl_noadj {x : Nat} {v l : List Nat} {p : Int} {seg : List (Nat × Nat)} (h : v ≠ [] ∨ l.head? ≠ some x) :
    replGo x v false l [] p seg = .val (sub1 x v l, p, seg) := by
  rcases h with h | h
  · have := replGo_false x v l [] p seg (Or.inl h); simpa using this
  · cases l with
    | nil => simp [replGo]
    | cons c l =>
      have hc : c ≠ x := by rintro rfl; simp at h
      rw [replGo, if_neg hc]
      have := replGo_false x v l [c] p seg (Or.inr (by simp))
      rw [List.nil_append, this, sub1_cons_ne v l hc]; simp

theorem repl_ub {x : Nat} {l : List Nat} {adj : Bool} {p : Int} {seg : List (Nat × Nat)} (h : l.head? = some x) :
    replGo x [] adj l [] p seg = .ub := by
  cases l with
  | nil => simp at h
  | cons c l =>
    simp at h; subst h
    rw [replGo, if_pos rfl, if_pos (by simp)]

end MM.Unif
