import Verif.Unif.Henty
import Mathlib.Data.List.Perm.Basic
/-!
# The heap sort of `hentyNormalize` sorts
-/
namespace MM.Unif

/-- Element `k`, from 1. -/
def el (a : List Row) (k : Nat) : Row := a.getD (k - 1) ⟨0, 0, 0⟩

theorem rowAt_ok {a : List Row} {k : Nat} (h1 : 1 ≤ k) (h2 : k ≤ a.length) : rowAt a k = .val (el a k) := by
  unfold rowAt; rw [if_pos ⟨h1, h2⟩]; rfl

theorem setRow_ok {a : List Row} {k : Nat} {r : Row} (h1 : 1 ≤ k) (h2 : k ≤ a.length) : setRow a k r = .val (a.set (k - 1) r) := by
  unfold setRow; rw [if_pos ⟨h1, h2⟩]

theorem el_set {a : List Row} {i k : Nat} {r : Row} (hi : 1 ≤ i) (hi2 : i ≤ a.length) (hk : 1 ≤ k) : el (a.set (i - 1) r) k = if k = i then r else el a k := by
  unfold el
  simp only [List.getD_eq_getElem?_getD]
  rw [List.getElem?_set]
  by_cases h : k = i
  · subst h
    rw [if_pos rfl, if_pos (by omega), if_pos rfl]; rfl
  · rw [if_neg (by omega), if_neg h]

theorem swap_perm {a : List Row} {i j : Nat} (hi : 1 ≤ i) (hi2 : i ≤ a.length) (hj : 1 ≤ j) (hj2 : j ≤ a.length) :
    ((a.set (i - 1) (el a j)).set (j - 1) (el a i)).Perm a := by
  have e1 : el a j = a[j - 1]'(by omega) := by
    unfold el
    rw [List.getD_eq_getElem?_getD, List.getElem?_eq_getElem (by omega)]; rfl
  have e2 : el a i = a[i - 1]'(by omega) := by
    unfold el
    rw [List.getD_eq_getElem?_getD, List.getElem?_eq_getElem (by omega)]; rfl
  rw [e1, e2]
  exact List.set_set_perm _ _

/-- The heap condition for the elements from `lo` to `ir`. -/
def Heap (lo ir : Nat) (a : List Row) : Prop := ∀ k c, lo ≤ k → (c = 2 * k ∨ c = 2 * k + 1) → c ≤ ir → (el a c).var ≤ (el a k).var

theorem sift_exit {ir n i j : Nat} {r : Row} {a : List Row} (hj : ir < j) (h1 : 1 ≤ i) (h2 : i ≤ a.length) : sift ir r (n + 1) i j a = .val (a.set (i - 1) r) := by
  unfold sift
  rw [if_neg (by omega), setRow_ok h1 h2]

theorem sift_ok {lo ir : Nat} {r : Row} (hlo : 1 ≤ lo) : ∀ (n i : Nat) (a : List Row), lo ≤ i → i ≤ ir → ir ≤ a.length → ir + 3 ≤ n + i →
    (∀ k c, lo ≤ k → k ≠ i → (c = 2 * k ∨ c = 2 * k + 1) → c ≤ ir → (el (a.set (i - 1) r) c).var ≤ (el (a.set (i - 1) r) k).var) →
    (∀ k c, lo ≤ k → (i = 2 * k ∨ i = 2 * k + 1) → (c = 2 * i ∨ c = 2 * i + 1) → c ≤ ir → (el a c).var ≤ (el a k).var) →
    ∃ b, sift ir r n i (i + i) a = .val b ∧ b.Perm (a.set (i - 1) r) ∧ Heap lo ir b ∧ (∀ k, ir < k → el b k = el a k) ∧
      ∀ k, 1 ≤ k → k ≤ ir → ∃ k', 1 ≤ k' ∧ k' ≤ ir ∧ el b k = el (a.set (i - 1) r) k' := by
  intro n
  induction n with
  | zero => intro i a h1 h2 h3 h4 H1 H2; omega
  | succ n ih =>
    intro i a h1 h2 h3 h4 H1 H2
    have i1 : 1 ≤ i := by omega
    have i2 : i ≤ a.length := by omega
    have hs : ∀ k, 1 ≤ k → el (a.set (i - 1) r) k = if k = i then r else el a k := fun k hk => el_set i1 i2 hk
    by_cases hj : i + i ≤ ir
    swap
    · refine ⟨_, sift_exit (by omega) i1 i2, .refl _, ?_, ?_, fun k k1 k2 => ⟨k, k1, k2, rfl⟩⟩
      · intro k c k1 k2 k3
        by_cases hk : k = i
        · omega
        · exact H1 k c k1 hk k2 k3
      · intro k hk; rw [hs k (by omega), if_neg (by omega)]
    · obtain ⟨j, hjv, hj1, hj2, hmax⟩ : ∃ j, (if i + i < ir then rowAt a (i + i) >>= fun x => rowAt a (i + i + 1) >>= fun y => Out.val (if x.var < y.var then i + i + 1 else i + i) else .val (i + i)) = .val j ∧
          (j = 2 * i ∨ j = 2 * i + 1) ∧ j ≤ ir ∧ ∀ c, (c = 2 * i ∨ c = 2 * i + 1) → c ≤ ir → (el a c).var ≤ (el a j).var := by
        by_cases hlt : i + i < ir
        · rw [if_pos hlt, rowAt_ok (by omega) (by omega), Out.bind_val, rowAt_ok (by omega) (by omega), Out.bind_val]
          by_cases hv : (el a (i + i)).var < (el a (i + i + 1)).var
          · refine ⟨i + i + 1, by rw [if_pos hv], by omega, by omega, ?_⟩
            rintro c (rfl | rfl) hc
            · rw [show 2 * i = i + i by omega]; omega
            · rw [show 2 * i + 1 = i + i + 1 by omega]; exact Nat.le_refl _
          · refine ⟨i + i, by rw [if_neg hv], by omega, by omega, ?_⟩
            rintro c (rfl | rfl) hc
            · rw [show 2 * i = i + i by omega]; exact Nat.le_refl _
            · rw [show 2 * i + 1 = i + i + 1 by omega]; omega
        · refine ⟨i + i, by rw [if_neg hlt], by omega, by omega, ?_⟩
          rintro c (rfl | rfl) hc
          · rw [show 2 * i = i + i by omega]; exact Nat.le_refl _
          · omega
      have hun : sift ir r (n + 1) i (i + i) a = if r.var < (el a j).var then sift ir r n j (j + j) (a.set (i - 1) (el a j)) else sift ir r n i (ir + 1) a := by
        conv => lhs; unfold sift
        rw [if_pos hj, hjv, Out.bind_val, rowAt_ok (by omega) (by omega), Out.bind_val]
        by_cases hv : r.var < (el a j).var
        · rw [if_pos hv, if_pos hv, setRow_ok i1 i2, Out.bind_val]
        · rw [if_neg hv, if_neg hv]
      rw [hun]
      by_cases hv : r.var < (el a j).var
      · rw [if_pos hv]
        have ha : ∀ k, 1 ≤ k → el (a.set (i - 1) (el a j)) k = if k = i then el a j else el a k := fun k hk => el_set i1 i2 hk
        have hw : ∀ k, 1 ≤ k → el ((a.set (i - 1) (el a j)).set (j - 1) r) k = if k = j then r else if k = i then el a j else el a k := by
          intro k hk
          rw [el_set (by omega) (by simp; omega) hk, ha k hk]
        obtain ⟨b, b1, b2, b3, b4, b5⟩ := ih j (a.set (i - 1) (el a j)) (by omega) hj2 (by simp; omega) (by omega) (by
          intro k c k1 k2 k3 k4
          rw [hw c (by omega), hw k (by omega), if_neg k2]
          by_cases hki : k = i
          · subst hki
            rw [if_pos rfl]
            by_cases hcj : c = j
            · rw [if_pos hcj]; omega
            · rw [if_neg hcj, if_neg (by omega)]
              exact hmax c k3 k4
          · rw [if_neg hki, if_neg (show ¬ c = j by omega)]
            by_cases hci : c = i
            · rw [if_pos hci]
              exact H2 k j k1 (by omega) hj1 hj2
            · rw [if_neg hci]
              have := H1 k c k1 hki k3 k4
              rw [hs c (by omega), hs k (by omega), if_neg hci, if_neg hki] at this
              exact this) (by
          intro k c k1 k2 k3 k4
          have hk : k = i := by omega
          subst hk
          rw [ha c (by omega), ha k (by omega), if_pos rfl, if_neg (by omega)]
          have := H1 j c (by omega) (by omega) k3 k4
          rw [hs c (by omega), hs j (by omega), if_neg (by omega), if_neg (by omega)] at this
          exact this)
        refine ⟨b, b1, ?_, b3, ?_, ?_⟩
        · refine b2.trans ?_
          have hp := swap_perm (a := a.set (i - 1) r) (i := i) (j := j) i1 (by simp; omega) (by omega) (by simp; omega)
          rw [hs j (by omega), hs i i1, if_pos rfl, if_neg (by omega), List.set_set] at hp
          exact hp
        · intro k hk
          rw [b4 k hk, ha k (by omega), if_neg (by omega)]
        · intro k k1 k2
          obtain ⟨k', e1, e2, e3⟩ := b5 k k1 k2
          rw [hw k' e1] at e3
          by_cases hkj : k' = j
          · rw [if_pos hkj] at e3
            exact ⟨i, i1, h2, by rw [e3, hs i i1, if_pos rfl]⟩
          · rw [if_neg hkj] at e3
            by_cases hki : k' = i
            · rw [if_pos hki] at e3
              exact ⟨j, by omega, hj2, by rw [e3, hs j (by omega), if_neg (by omega)]⟩
            · rw [if_neg hki] at e3
              exact ⟨k', e1, e2, by rw [e3, hs k' e1, if_neg hki]⟩
      · rw [if_neg hv]
        obtain ⟨m, rfl⟩ : ∃ m, n = m + 1 := ⟨n - 1, by omega⟩
        refine ⟨_, sift_exit (by omega) i1 i2, .refl _, ?_, ?_, fun k k1 k2 => ⟨k, k1, k2, rfl⟩⟩
        · intro k c k1 k2 k3
          by_cases hk : k = i
          · subst hk
            rw [hs c (by omega), hs k i1, if_pos rfl, if_neg (by omega)]
            have := hmax c k2 k3
            omega
          · exact H1 k c k1 hk k2 k3
        · intro k hk; rw [hs k (by omega), if_neg (by omega)]

theorem heap_top {ir : Nat} {a : List Row} (h : Heap 1 ir a) : ∀ (k : Nat), 1 ≤ k → k ≤ ir → (el a k).var ≤ (el a 1).var := by
  intro k
  induction k using Nat.strongRecOn with
  | _ k ih =>
    intro k1 k2
    by_cases hk : k = 1
    · rw [hk]; exact Nat.le_refl _
    · have h1 := ih (k / 2) (by omega) (by omega) (by omega)
      have h2 := h (k / 2) k (by omega) (by omega) k2
      omega

/-- The sorted part. -/
def SortedTo (ir : Nat) (a : List Row) : Prop := ∀ k l, 1 ≤ k → ir < l → k ≤ l → l ≤ a.length → (el a k).var ≤ (el a l).var

theorem pairwise_of_el {a : List Row} (h : SortedTo 0 a) : a.Pairwise fun x y => x.var ≤ y.var := by
  rw [List.pairwise_iff_getElem]
  intro i j hi hj hij
  have := h (i + 1) (j + 1) (by omega) (by omega) (by omega) (by omega)
  unfold el at this
  simp only [Nat.add_sub_cancel, List.getD_eq_getElem?_getD] at this
  rw [List.getElem?_eq_getElem hi, List.getElem?_eq_getElem hj] at this
  exact this

theorem heap2 : ∀ (n ir : Nat) (a : List Row), 2 ≤ ir → ir ≤ a.length → ir ≤ n + 1 → Heap 1 ir a → SortedTo ir a →
    ∃ b, heapLoop n 1 ir a = .val b ∧ b.Perm a ∧ b.Pairwise fun x y => x.var ≤ y.var := by
  intro n
  induction n with
  | zero => intro ir a h1 h2 h3; omega
  | succ n ih =>
    intro ir a h1 h2 h3 hH hS
    have hun : heapLoop (n + 1) 1 ir a = if ir - 1 = 1 then setRow (a.set (ir - 1) (el a 1)) 1 (el a ir)
        else sift (ir - 1) (el a ir) ((a.set (ir - 1) (el a 1)).length + 2) 1 (1 + 1) (a.set (ir - 1) (el a 1)) >>= fun a => heapLoop n 1 (ir - 1) a := by
      conv => lhs; unfold heapLoop
      rw [if_neg (by omega), rowAt_ok (by omega) h2, Out.bind_val, rowAt_ok (by omega) (by omega), Out.bind_val, setRow_ok (by omega) h2, Out.bind_val]
    rw [hun]
    have ha : ∀ k, 1 ≤ k → el (a.set (ir - 1) (el a 1)) k = if k = ir then el a 1 else el a k := fun k hk => el_set (by omega) h2 hk
    have hw : ∀ k, 1 ≤ k → el ((a.set (ir - 1) (el a 1)).set (1 - 1) (el a ir)) k = if k = 1 then el a ir else if k = ir then el a 1 else el a k := by
      intro k hk
      rw [el_set (by omega) (by simp; omega) hk, ha k hk]
    have hp : ((a.set (ir - 1) (el a 1)).set (1 - 1) (el a ir)).Perm a := swap_perm (by omega) h2 (by omega) (by omega)
    by_cases h : ir - 1 = 1
    · rw [if_pos h, setRow_ok (by omega) (by simp; omega)]
      refine ⟨_, rfl, hp, pairwise_of_el ?_⟩
      intro k l k1 k2 k3 k4
      have hlen : ((a.set (ir - 1) (el a 1)).set (1 - 1) (el a ir)).length = a.length := by simp
      rw [hlen] at k4
      rw [hw k k1, hw l (by omega)]
      have ir2 : ir = 2 := by omega
      subst ir2
      have h12 : (el a 2).var ≤ (el a 1).var := heap_top hH 2 (by omega) (by omega)
      by_cases hl : 2 < l
      · rw [if_neg (show ¬ l = 1 by omega), if_neg (show ¬ l = 2 by omega)]
        by_cases hk1 : k = 1
        · rw [if_pos hk1]; exact hS 2 l (by omega) hl (by omega) k4
        · rw [if_neg hk1]
          by_cases hk2 : k = 2
          · rw [if_pos hk2]; exact hS 1 l (by omega) hl (by omega) k4
          · rw [if_neg hk2]; exact hS k l k1 hl k3 k4
      · by_cases hk1 : k = 1
        · rw [if_pos hk1]
          by_cases hl1 : l = 1
          · rw [if_pos hl1]; exact Nat.le_refl _
          · rw [if_neg hl1, if_pos (by omega)]; exact h12
        · rw [if_neg hk1, if_pos (show k = 2 by omega), if_neg (by omega), if_pos (by omega)]; exact Nat.le_refl _
    · rw [if_neg h]
      obtain ⟨b, b1, b2, b3, b4, b5⟩ := sift_ok (lo := 1) (ir := ir - 1) (r := el a ir) (by omega) ((a.set (ir - 1) (el a 1)).length + 2) 1 (a.set (ir - 1) (el a 1))
        (by omega) (by omega) (by simp; omega) (by simp; omega) (by
          intro k c k1 k2 k3 k4
          rw [hw c (by omega), hw k (by omega), if_neg k2, if_neg (by omega), if_neg (by omega), if_neg (by omega)]
          exact hH k c k1 k3 (by omega)) (by intro k c k1 k2; omega)
      rw [b1, Out.bind_val]
      have hbl : b.length = a.length := (b2.trans hp).length_eq
      obtain ⟨d, d1, d2, d3⟩ := ih (ir - 1) b (by omega) (by omega) (by omega) b3 (by
        intro k l k1 k2 k3 k4
        rw [hbl] at k4
        have el_l : el b l = if l = ir then el a 1 else el a l := by rw [b4 l (by omega), ha l (by omega)]
        have hle : ∀ m, 1 ≤ m → m ≤ ir → (el a m).var ≤ (el b l).var := by
          intro m m1 m2
          rw [el_l]
          by_cases hl : l = ir
          · rw [if_pos hl]; exact heap_top hH m m1 m2
          · rw [if_neg hl]; exact hS m l m1 (by omega) (by omega) k4
        by_cases hk : k ≤ ir - 1
        · obtain ⟨k', e1, e2, e3⟩ := b5 k k1 hk
          rw [e3, hw k' e1]
          by_cases h1 : k' = 1
          · rw [if_pos h1]; exact hle ir (by omega) (by omega)
          · rw [if_neg h1, if_neg (by omega)]; exact hle k' e1 (by omega)
        · rw [b4 k (by omega), ha k k1]
          by_cases hki : k = ir
          · rw [if_pos hki]; exact hle 1 (by omega) (by omega)
          · rw [if_neg hki, el_l, if_neg (by omega)]; exact hS k l k1 (by omega) k3 k4)
      exact ⟨d, d1, d2.trans (b2.trans hp), d3⟩

theorem heap1 : ∀ (e n : Nat) (a : List Row), 2 ≤ a.length → e + 1 ≤ a.length → a.length + e ≤ n + 1 → Heap (e + 1) a.length a →
    ∃ b, heapLoop n (e + 1) a.length a = .val b ∧ b.Perm a ∧ b.Pairwise fun x y => x.var ≤ y.var := by
  intro e
  induction e with
  | zero =>
    intro n a h1 h2 h3 hH
    exact heap2 n a.length a h1 (Nat.le_refl _) (by omega) hH (by intro k l k1 k2 k3 k4; omega)
  | succ e ih =>
    intro n a h1 h2 h3 hH
    obtain ⟨m, rfl⟩ : ∃ m, n = m + 1 := ⟨n - 1, by omega⟩
    have hs : ∀ k, 1 ≤ k → el (a.set (e + 1 - 1) (el a (e + 1))) k = el a k := by
      intro k hk
      rw [el_set (by omega) (by omega) hk]
      by_cases h : k = e + 1
      · rw [if_pos h, h]
      · rw [if_neg h]
    obtain ⟨b, b1, b2, b3, b4, b5⟩ := sift_ok (lo := e + 1) (ir := a.length) (r := el a (e + 1)) (by omega) (a.length + 2) (e + 1) a
      (by omega) (by omega) (Nat.le_refl _) (by omega) (by
        intro k c k1 k2 k3 k4
        rw [hs c (by omega), hs k (by omega)]
        exact hH k c (by omega) k3 k4) (by intro k c k1 k2; omega)
    have hself : a.set (e + 1 - 1) (el a (e + 1)) = a := by
      apply List.ext_getElem?
      intro k
      rw [List.getElem?_set]
      by_cases h : e + 1 - 1 = k
      · subst h
        rw [if_pos rfl, if_pos (by omega)]
        unfold el
        rw [List.getD_eq_getElem?_getD, List.getElem?_eq_getElem (by omega)]; rfl
      · rw [if_neg h]
    rw [hself] at b2
    have hbl : b.length = a.length := b2.length_eq
    obtain ⟨d, d1, d2, d3⟩ := ih m b (by omega) (by omega) (by omega) (by rw [hbl]; exact b3)
    refine ⟨d, ?_, d2.trans b2, d3⟩
    unfold heapLoop
    rw [if_pos (by omega), show e + 1 + 1 - 1 = e + 1 by omega, rowAt_ok (by omega) (by omega), Out.bind_val, b1, Out.bind_val, ← hbl]
    exact d1

/-- The heap sort ends and sorts. -/
theorem heapSort_ok (a : List Row) : ∃ b, heapSort a = .val b ∧ b.Perm a ∧ b.Pairwise fun x y => x.var ≤ y.var := by
  unfold heapSort
  by_cases h : a.length < 2
  · rw [if_pos h]
    refine ⟨a, rfl, .refl _, ?_⟩
    cases a with
    | nil => exact List.Pairwise.nil
    | cons x l =>
      cases l with
      | nil => simp
      | cons y l => simp at h; omega
  · rw [if_neg h]
    refine heap1 (a.length / 2) (2 * a.length) a (by omega) (by omega) (by omega) ?_
    intro k c k1 k2 k3
    omega

end MM.Unif
