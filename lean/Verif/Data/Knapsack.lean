import Verif.Basic
import Mathlib.Data.List.GetD
import Mathlib.Data.List.Induction
import Mathlib.Tactic.Linarith
/-!
# Model of `knapsack01` (src/mmdata.c 2889–2947) and property C30

Sizes are natural numbers (the only caller passes string lengths plus 1); numbers are unbounded (`long` in the code).
-/
namespace MM.Data

/-- One entry of row `witem` of `maxWorth`, from the previous row (mmdata.c 2918–2929). -/
def ksCell (prev : List Int) (size : Nat) (worth : Int) (wsize : Nat) : Int :=
  if wsize ≥ size then
    if prev.getD wsize 0 > prev.getD (wsize - size) 0 + worth then prev.getD wsize 0 else prev.getD (wsize - size) 0 + worth
  else prev.getD wsize 0

/-- Row `witem` of `maxWorth` (mmdata.c 2917–2930); `n` is `maxSize`. -/
def ksRow (n : Nat) (prev : List Int) (item : Nat × Int) : List Int := (List.range (n + 1)).map (ksCell prev item.1 item.2)

/-- The rows 0 to `items` of `maxWorth` (mmdata.c 2913–2931), the last one first. -/
def ksRows (n : Nat) (items : List (Nat × Int)) : List (List Int) :=
  items.foldl (fun rows it => ksRow n (rows.headD []) it :: rows) [(List.range (n + 1)).map fun _ => 0]

/-- The loop that finds the included items (mmdata.c 2933–2943), over the items and the rows in reverse order; result: the flags of the items in reverse
order. -/
def ksPick : List (Nat × Int) → List (List Int) → Nat → List Bool
  | it :: items, row :: rows, wsize =>
    if wsize > 0 ∧ row.getD wsize 0 ≠ (rows.headD []).getD wsize 0 then true :: ksPick items rows (wsize - it.1)
    else false :: ksPick items rows wsize
  | _, _, _ => []

/-- `knapsack01` (mmdata.c 2889–2947): the maximal worth and the flags `itemIncluded`.  With a negative `maxSize`, `maxWorth[items][maxSize]` is outside the
matrix. -/
def knapsack01 (items : List (Nat × Int)) (maxSize : Int) : Out (Int × List Bool) :=
  if maxSize < 0 then .ub
  else .val (((ksRows maxSize.toNat items).headD []).getD maxSize.toNat 0, (ksPick items.reverse (ksRows maxSize.toNat items) maxSize.toNat).reverse)

/-! ### Specification -/

/-- Total size of the items chosen by `sel`. -/
def selSize : List (Nat × Int) → List Bool → Nat
  | it :: items, b :: sel => (if b then it.1 else 0) + selSize items sel
  | _, _ => 0

/-- Total worth of the items chosen by `sel`. -/
def selWorth : List (Nat × Int) → List Bool → Int
  | it :: items, b :: sel => (if b then it.2 else 0) + selWorth items sel
  | _, _ => 0

/-! ### Proof -/

theorem selSize_append : ∀ {a : List (Nat × Int)} {s : List Bool} (it : Nat × Int) (b : Bool), s.length = a.length →
    selSize (a ++ [it]) (s ++ [b]) = selSize a s + (if b then it.1 else 0)
  | [], [], it, b, _ => by simp [selSize]
  | x :: a, c :: s, it, b, h => by
    simp at h
    simp only [List.cons_append, selSize, selSize_append it b h]; omega
  | [], _ :: _, _, _, h => by simp at h
  | _ :: _, [], _, _, h => by simp at h

theorem selWorth_append : ∀ {a : List (Nat × Int)} {s : List Bool} (it : Nat × Int) (b : Bool), s.length = a.length →
    selWorth (a ++ [it]) (s ++ [b]) = selWorth a s + (if b then it.2 else 0)
  | [], [], it, b, _ => by simp [selWorth]
  | x :: a, c :: s, it, b, h => by
    simp at h
    simp only [List.cons_append, selWorth, selWorth_append it b h]; omega
  | [], _ :: _, _, _, h => by simp at h
  | _ :: _, [], _, _, h => by simp at h

theorem ksRows_snoc (n : Nat) (items : List (Nat × Int)) (it : Nat × Int) :
    ksRows n (items ++ [it]) = ksRow n ((ksRows n items).headD []) it :: ksRows n items := by
  simp [ksRows]

theorem ksRow_get {n w : Nat} {prev : List Int} {it : Nat × Int} (h : w ≤ n) : (ksRow n prev it).getD w 0 = ksCell prev it.1 it.2 w := by
  unfold ksRow
  rw [List.getD_eq_getElem?_getD, List.getElem?_map, List.getElem?_range (by omega)]
  rfl

/-- The best worth attainable with the items and the size limit `w` is the entry of the last row. -/
theorem ksRows_spec (n : Nat) (items : List (Nat × Int)) : ∀ w ≤ n,
    (∃ sel, sel.length = items.length ∧ selSize items sel ≤ w ∧ selWorth items sel = ((ksRows n items).headD []).getD w 0) ∧
    ∀ sel, sel.length = items.length → selSize items sel ≤ w → selWorth items sel ≤ ((ksRows n items).headD []).getD w 0 := by
  induction items using List.reverseRecOn with
  | nil =>
    intro w hw
    have : ((ksRows n []).headD []).getD w 0 = 0 := by
      simp only [ksRows, List.foldl_nil, List.headD_cons]
      rw [List.getD_eq_getElem?_getD, List.getElem?_map, List.getElem?_range (by omega)]
      rfl
    rw [this]
    exact ⟨⟨[], rfl, by simp [selSize], rfl⟩, fun sel _ _ => by simp [selWorth]⟩
  | append_singleton items it ih =>
    intro w hw
    rw [ksRows_snoc, List.headD_cons, ksRow_get hw]
    unfold ksCell
    obtain ⟨⟨s1, l1, z1, e1⟩, u1⟩ := ih w hw
    constructor
    · by_cases hs : w ≥ it.1
      · rw [if_pos hs]
        obtain ⟨⟨s2, l2, z2, e2⟩, u2⟩ := ih (w - it.1) (by omega)
        split
        · exact ⟨s1 ++ [false], by simp [l1], by rw [selSize_append it false l1]; simpa using z1, by rw [selWorth_append it false l1]; simpa using e1⟩
        · exact ⟨s2 ++ [true], by simp [l2], by rw [selSize_append it true l2]; simp; omega, by rw [selWorth_append it true l2]; simp [e2]⟩
      · rw [if_neg hs]
        exact ⟨s1 ++ [false], by simp [l1], by rw [selSize_append it false l1]; simpa using z1, by rw [selWorth_append it false l1]; simpa using e1⟩
    · intro sel hl hz
      rcases List.eq_nil_or_concat sel with rfl | ⟨s, b, rfl⟩
      · simp at hl
      · rw [List.concat_eq_append] at hl hz ⊢
        have hl' : s.length = items.length := by simpa using hl
        rw [selSize_append it b hl'] at hz
        rw [selWorth_append it b hl']
        cases b with
        | false =>
          simp only [Bool.false_eq_true, if_false] at hz ⊢
          have := u1 s hl' (by omega)
          split
          · split <;> omega
          · omega
        | true =>
          simp only [if_true] at hz ⊢
          rw [if_pos (by omega)]
          have := (ih (w - it.1) (by omega)).2 s hl' (by omega)
          split <;> omega

theorem ksPick_spec (n : Nat) (items : List (Nat × Int)) (hs : ∀ it ∈ items, 0 < it.1) : ∀ w ≤ n,
    ((ksPick items.reverse (ksRows n items) w).reverse).length = items.length ∧ selSize items (ksPick items.reverse (ksRows n items) w).reverse ≤ w ∧
    selWorth items (ksPick items.reverse (ksRows n items) w).reverse = ((ksRows n items).headD []).getD w 0 := by
  induction items using List.reverseRecOn with
  | nil =>
    intro w hw
    have : ((ksRows n []).headD []).getD w 0 = 0 := by
      simp only [ksRows, List.foldl_nil, List.headD_cons]
      rw [List.getD_eq_getElem?_getD, List.getElem?_map, List.getElem?_range (by omega)]
      rfl
    rw [this]
    simp [ksPick, selSize, selWorth]
  | append_singleton items it ih =>
    intro w hw
    have hs' := fun x hx => hs x (List.mem_append_left _ hx)
    have hit := hs it (by simp)
    rw [ksRows_snoc]
    simp only [List.reverse_append, List.reverse_cons, List.reverse_nil, List.nil_append, List.singleton_append, ksPick, List.headD_cons]
    rw [ksRow_get hw]
    by_cases hc : w > 0 ∧ ksCell ((ksRows n items).headD []) it.1 it.2 w ≠ ((ksRows n items).headD []).getD w 0
    · rw [if_pos hc, List.reverse_cons]
      obtain ⟨hc1, hc2⟩ := hc
      unfold ksCell at hc2 ⊢
      by_cases hz : w ≥ it.1
      · obtain ⟨l2, z2, e2⟩ := ih hs' (w - it.1) (by omega)
        rw [if_pos hz] at hc2 ⊢
        refine ⟨by simp only [List.length_append, l2]; simp, ?_, ?_⟩
        · rw [selSize_append it true l2]; simp; omega
        · rw [selWorth_append it true l2, e2, if_pos rfl]
          split
          · rename_i hgt
            rw [if_pos hgt] at hc2
            exact absurd rfl hc2
          · rfl
      · rw [if_neg hz] at hc2
        exact absurd rfl hc2
    · rw [if_neg hc, List.reverse_cons]
      obtain ⟨l2, z2, e2⟩ := ih hs' w hw
      refine ⟨by simp only [List.length_append, l2]; simp, ?_, ?_⟩
      · rw [selSize_append it false l2]; simp; omega
      · rw [selWorth_append it false l2, e2]
        simp only [Bool.false_eq_true, if_false, add_zero]
        by_cases h0 : w > 0
        · by_contra hne
          exact hc ⟨h0, fun h => hne h.symm⟩
        · unfold ksCell
          rw [if_neg (by omega)]

/-- **C30** For items of positive size and a limit that is not negative, the selection returned by `knapsack01` has a total size within the limit, its total worth
is the returned number, and no selection within the limit is worth more. -/
theorem C30_knapsack_optimal (items : List (Nat × Int)) (hs : ∀ it ∈ items, 0 < it.1) (maxSize : Nat) :
    ∃ best sel, knapsack01 items maxSize = .val (best, sel) ∧ sel.length = items.length ∧ selSize items sel ≤ maxSize ∧ selWorth items sel = best ∧
      ∀ sel', sel'.length = items.length → selSize items sel' ≤ maxSize → selWorth items sel' ≤ best := by
  unfold knapsack01
  rw [if_neg (by omega)]
  simp only [Int.toNat_natCast]
  obtain ⟨a, b, c⟩ := ksPick_spec maxSize items hs maxSize (le_refl _)
  exact ⟨_, _, rfl, a, b, c, (ksRows_spec maxSize items maxSize (le_refl _)).2⟩

/-- The returned worth is optimal for items of size 0 too. -/
theorem C30_worth_optimal (items : List (Nat × Int)) (maxSize : Nat) :
    ∃ best sel, knapsack01 items maxSize = .val (best, sel) ∧ (∃ sel', sel'.length = items.length ∧ selSize items sel' ≤ maxSize ∧ selWorth items sel' = best) ∧
      ∀ sel', sel'.length = items.length → selSize items sel' ≤ maxSize → selWorth items sel' ≤ best := by
  unfold knapsack01
  rw [if_neg (by omega)]
  simp only [Int.toNat_natCast]
  exact ⟨_, _, rfl, ksRows_spec maxSize items maxSize (le_refl _)⟩

/-- An item that is not worth anything is not selected. -/
theorem ksPick_worth (n : Nat) (items : List (Nat × Int)) : ∀ w ≤ n, ∀ (k : Nat) (it : Nat × Int), items[k]? = some it →
    (ksPick items.reverse (ksRows n items) w).reverse[k]? = some true → 0 < it.2 ∧ it.1 ≤ w := by
  induction items using List.reverseRecOn with
  | nil => intro w _ k it h; simp at h
  | append_singleton items it ih =>
    intro w hw k x hx hsel
    rw [ksRows_snoc] at hsel
    simp only [List.reverse_append, List.reverse_cons, List.reverse_nil, List.nil_append, List.singleton_append, ksPick, List.headD_cons] at hsel
    rw [ksRow_get hw] at hsel
    have hlen : ∀ w, ((ksPick items.reverse (ksRows n items) w).reverse).length = items.length := by
      clear * -
      induction items using List.reverseRecOn with
      | nil => intro w; simp [ksPick]
      | append_singleton items it ih =>
        intro w
        rw [ksRows_snoc]
        simp only [List.reverse_append, List.reverse_cons, List.reverse_nil, List.nil_append, List.singleton_append, ksPick, List.headD_cons]
        split
        · have := ih (w - it.1); simp at this ⊢; exact this
        · have := ih w; simp at this ⊢; exact this
    by_cases hc : w > 0 ∧ ksCell ((ksRows n items).headD []) it.1 it.2 w ≠ ((ksRows n items).headD []).getD w 0
    · rw [if_pos hc, List.reverse_cons] at hsel
      obtain ⟨hc1, hc2⟩ := hc
      unfold ksCell at hc2
      by_cases hz : w ≥ it.1
      · by_cases hk : k < items.length
        · rw [List.getElem?_append_left (by rw [hlen]; exact hk)] at hsel
          rw [List.getElem?_append_left hk] at hx
          have := ih (w - it.1) (by omega) k x hx hsel
          omega
        · rw [List.getElem?_append_right (by omega)] at hx
          have hk0 : k - items.length = 0 := by
            by_contra h0
            rw [List.getElem?_eq_none (by simp; omega)] at hx; cases hx
          rw [hk0] at hx
          simp at hx
          subst hx
          rw [if_pos hz] at hc2
          refine ⟨?_, hz⟩
          by_contra hw0
          -- a smaller limit is not worth more
          obtain ⟨⟨s2, l2, z2, e2⟩, _⟩ := ksRows_spec n items (w - it.1) (by omega)
          have h3 := (ksRows_spec n items w hw).2 s2 l2 (by omega)
          split at hc2
          · exact hc2 rfl
          · omega
      · rw [if_neg hz] at hc2
        exact absurd rfl hc2
    · rw [if_neg hc, List.reverse_cons] at hsel
      by_cases hk : k < items.length
      · rw [List.getElem?_append_left (by rw [hlen]; exact hk)] at hsel
        rw [List.getElem?_append_left hk] at hx
        exact ih w hw k x hx hsel
      · rw [List.getElem?_append_right (by rw [hlen]; omega)] at hsel
        rw [hlen] at hsel
        cases hkk : k - items.length with
        | zero => rw [hkk] at hsel; simp at hsel
        | succ m => rw [hkk] at hsel; simp at hsel

/-- **C30** Items of worth 0 or less are never selected (the caller marks the labels to be left out with worth -1). -/
theorem C30_worthless_excluded (items : List (Nat × Int)) (maxSize : Nat) {best : Int} {sel : List Bool} (h : knapsack01 items maxSize = .val (best, sel))
    {k : Nat} {it : Nat × Int} (hk : items[k]? = some it) (hsel : sel[k]? = some true) : 0 < it.2 := by
  unfold knapsack01 at h
  rw [if_neg (by omega)] at h
  simp only [Int.toNat_natCast, Out.val.injEq, Prod.mk.injEq] at h
  rw [← h.2] at hsel
  exact (ksPick_worth maxSize items maxSize (le_refl _) k it hk hsel).1

/-- A selection problem where the greedy choice is wrong. -/
example : knapsack01 [(5, 5), (3, 3), (4, 4), (2, -1)] 7 = .val (7, [false, true, true, false]) := by decide +kernel

/-- C30 needs positive sizes: an item of size 0 counts for the returned worth but is not selected when the knapsack is full. -/
theorem C30_size_zero_not_selected : knapsack01 [(0, 1), (1, 1)] 1 = .val (2, [false, true]) ∧ knapsack01 [(0, 1)] 0 = .val (1, [false]) := by decide +kernel

end MM.Data
