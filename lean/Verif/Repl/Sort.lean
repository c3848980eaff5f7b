import Verif.Repl.Model
import Mathlib.Data.List.Perm.Basic
/-!
# The order of the hypotheses: `$e` hypotheses first
-/
namespace MM.Repl

theorem swapAt_length (l : List Nat) (i j : Nat) : (swapAt l i j).length = l.length := by simp [swapAt]

theorem swapAt_getD {l : List Nat} {i j : Nat} (hi : i < l.length) (hj : j < l.length) (p : Nat) :
    (swapAt l i j).getD p 0 = if p = j then l.getD i 0 else if p = i then l.getD j 0 else l.getD p 0 := by
  unfold swapAt
  simp only [List.getD_eq_getElem?_getD, List.getElem?_set, List.length_set]
  by_cases h1 : p = j
  · subst h1; simp [hj]
  · rw [if_neg (by omega), if_neg h1]
    by_cases h2 : p = i
    · subst h2; simp [hi]
    · rw [if_neg (by omega), if_neg h2]

theorem swapAt_perm {l : List Nat} {i j : Nat} (hi : i < l.length) (hj : j < l.length) : (swapAt l i j).Perm l := by
  unfold swapAt
  rw [List.getD_eq_getElem _ _ hi, List.getD_eq_getElem _ _ hj]
  exact List.set_set_perm hi hj

/-- The first `k` elements are `$e` hypotheses, the others are not. -/
def Split (isE : Nat → Bool) (l : List Nat) (k : Nat) : Prop := k ≤ l.length ∧ (∀ p < k, isE (l.getD p 0) = true) ∧ ∀ p, k ≤ p → p < l.length → isE (l.getD p 0) = false

theorem frontE_spec (isE : Nat → Bool) : ∀ (c h : Nat) (r : List Nat × Nat), c + h = r.1.length → r.2 ≤ h → (∀ p < r.2, isE (r.1.getD p 0) = true) →
    (∀ p, r.2 ≤ p → p < h → isE (r.1.getD p 0) = false) → (frontE isE c h r).1.Perm r.1 ∧ Split isE (frontE isE c h r).1 (frontE isE c h r).2
  | 0, h, r, h1, h2, h3, h4 => ⟨List.Perm.refl _, by show r.2 ≤ r.1.length; omega, h3, fun p a b => h4 p a (by have : p < r.1.length := b; omega)⟩
  | c + 1, h, r, h1, h2, h3, h4 => by
    rw [frontE]
    by_cases hc : isE (r.1.getD h 0) = true
    · rw [if_pos hc]
      have hh : h < r.1.length := by omega
      have hk : r.2 < r.1.length := by omega
      obtain ⟨a, b⟩ := frontE_spec isE c (h + 1) (swapAt r.1 h r.2, r.2 + 1) (by rw [swapAt_length]; omega) (by dsimp only; omega)
        (by
          intro p hp
          dsimp only at hp ⊢
          rw [swapAt_getD hh hk]
          by_cases e : p = r.2
          · rw [if_pos e]; exact hc
          · rw [if_neg e, if_neg (by omega)]; exact h3 p (by omega))
        (by
          intro p hp1 hp2
          dsimp only at hp1 ⊢
          rw [swapAt_getD hh hk, if_neg (by omega)]
          by_cases e : p = h
          · rw [if_pos e]; exact h4 r.2 (Nat.le_refl _) (by omega)
          · rw [if_neg e]; exact h4 p (by omega) (by omega))
      exact ⟨a.trans (swapAt_perm hh hk), b⟩
    · rw [if_neg hc]
      refine frontE_spec isE c (h + 1) r (by omega) (by omega) h3 fun p hp1 hp2 => ?_
      by_cases e : p = h
      · subst e; simpa using hc
      · exact h4 p hp1 (by omega)

theorem split_swap {isE : Nat → Bool} {l : List Nat} {k i j : Nat} (h : Split isE l k) (hi : i < k) (hj : j < k) : Split isE (swapAt l i j) k := by
  have hi' : i < l.length := by have := h.1; omega
  have hj' : j < l.length := by have := h.1; omega
  refine ⟨by rw [swapAt_length]; exact h.1, fun p hp => ?_, fun p h1 h2 => ?_⟩
  · rw [swapAt_getD hi' hj']
    by_cases e : p = j
    · rw [if_pos e]; exact h.2.1 i hi
    · rw [if_neg e]
      by_cases e : p = i
      · rw [if_pos e]; exact h.2.1 j hj
      · rw [if_neg e]; exact h.2.1 p hp
  · rw [swapAt_length] at h2
    rw [swapAt_getD hi' hj', if_neg (by omega), if_neg (by omega)]
    exact h.2.2 p h1 h2

theorem bubbleIn_spec {isE : Nat → Bool} {len : Nat → Nat} {h k : Nat} (hk : h < k) : ∀ (c i : Nat) (l : List Nat), c + i ≤ k → Split isE l k →
    (bubbleIn len h c i l).Perm l ∧ Split isE (bubbleIn len h c i l) k
  | 0, _, l, _, hs => ⟨List.Perm.refl _, hs⟩
  | c + 1, i, l, hc, hs => by
    rw [bubbleIn]
    by_cases e : len (l.getD h 0) < len (l.getD i 0)
    · rw [if_pos e]
      obtain ⟨a, b⟩ := bubbleIn_spec hk c (i + 1) _ (by omega) (split_swap hs hk (show i < k by omega))
      exact ⟨a.trans (swapAt_perm (by have := hs.1; omega) (by have := hs.1; omega)), b⟩
    · rw [if_neg e]
      exact bubbleIn_spec hk c (i + 1) l (by omega) hs

theorem bubble_spec {isE : Nat → Bool} {len : Nat → Nat} {k : Nat} : ∀ (c h : Nat) (l : List Nat), c + h ≤ k → Split isE l k →
    (bubble len k c h l).Perm l ∧ Split isE (bubble len k c h l) k
  | 0, _, l, _, hs => ⟨List.Perm.refl _, hs⟩
  | c + 1, h, l, hc, hs => by
    rw [bubble]
    obtain ⟨a, b⟩ := bubbleIn_spec (len := len) (show h < k by omega) (k - (h + 1)) (h + 1) l (by omega) hs
    obtain ⟨a', b'⟩ := bubble_spec (len := len) c (h + 1) _ (by omega) b
    exact ⟨a'.trans a, b'⟩

theorem sortMap_spec (isE : Nat → Bool) (len : Nat → Nat) (n : Nat) : (sortMap isE len n).1.Perm (List.range n) ∧ Split isE (sortMap isE len n).1 (sortMap isE len n).2 := by
  obtain ⟨a, b⟩ := frontE_spec isE n 0 (List.range n, 0) (by simp) (Nat.le_refl _) (by intro p hp; exact absurd hp (Nat.not_lt_zero _)) (by intro p _ hp; exact absurd hp (Nat.not_lt_zero _))
  obtain ⟨a', b'⟩ := bubble_spec (len := len) (frontE isE n 0 (List.range n, 0)).2 0 _ (by omega) b
  exact ⟨a'.trans a, b'⟩

end MM.Repl
