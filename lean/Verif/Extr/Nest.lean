import Verif.Spec.Scope
import Mathlib.Data.List.Basic
import Mathlib.Data.List.Infix
import Mathlib.Tactic.Linarith
/-!
# Blocks of a source, and what happens to them when statements are left out
-/
namespace MM.Extr
open MM.Veri MM.Spec

/-- One statement and the numbers of the `${` whose block is open. -/
def openStep (k : Kind) (n : Nat) (l : List Nat) : List Nat :=
  match k with
  | .lb => n :: l
  | .rb => l.tail
  | _ => l

/-- The `${` statements whose block is open after the first `i` statements, the innermost first. -/
def opens (ks : List Kind) : Nat → List Nat
  | 0 => []
  | i + 1 => openStep (kindAt ks (i + 1)) (i + 1) (opens ks i)

theorem opens_succ {ks : List Kind} {i : Nat} : opens ks (i + 1) = openStep (kindAt ks (i + 1)) (i + 1) (opens ks i) := rfl

/-- The blocks are nested and closed. -/
def Nested (ks : List Kind) : Prop := ∀ i, kindAt ks (i + 1) = .rb → opens ks i ≠ []

theorem opens_lt {ks : List Kind} : ∀ {i b : Nat}, b ∈ opens ks i → 1 ≤ b ∧ b ≤ i ∧ kindAt ks b = .lb
  | 0, _, h => by cases h
  | i + 1, b, h => by
    unfold opens openStep at h
    split at h
    · rename_i e
      rcases List.mem_cons.mp h with rfl | h
      · exact ⟨by omega, by omega, e⟩
      · obtain ⟨a, b, d⟩ := opens_lt h; exact ⟨a, by omega, d⟩
    · obtain ⟨a, b, d⟩ := opens_lt (List.mem_of_mem_tail h); exact ⟨a, by omega, d⟩
    · obtain ⟨a, b, d⟩ := opens_lt h; exact ⟨a, by omega, d⟩

theorem opens_sorted {ks : List Kind} : ∀ {i : Nat}, (opens ks i).Pairwise (· > ·)
  | 0 => by simp [opens]
  | i + 1 => by
    unfold opens openStep
    split
    · refine List.Pairwise.cons (fun b hb => ?_) opens_sorted
      have := opens_lt hb; omega
    · exact (opens_sorted (ks := ks) (i := i)).tail
    · exact opens_sorted

theorem kindAt_get {ks : List Kind} {i : Nat} (h : i < ks.length) : kindAt ks (i + 1) = ks[i] := by
  unfold kindAt; simp [h]

theorem kindAt_over {ks : List Kind} {i : Nat} (h : ks.length < i) : kindAt ks i = .none := by
  unfold kindAt
  rw [if_neg (by omega), List.getD_eq_default _ _ (by omega)]

theorem depth_succ {ks : List Kind} {i : Nat} : depth ks (i + 2) = depth ks (i + 1) + delta (kindAt ks (i + 1)) := by
  unfold depth
  simp only [Nat.add_sub_cancel, show i + 2 - 1 = i + 1 from rfl]
  by_cases h : i < ks.length
  · rw [kindAt_get h, List.take_succ_eq_append_getElem h, List.map_append, List.sum_append]
    simp
  · rw [kindAt_over (by omega), List.take_of_length_le (by omega), List.take_of_length_le (by omega)]
    simp [delta]

theorem depth_opens {ks : List Kind} (hn : Nested ks) : ∀ i, depth ks (i + 1) = ((opens ks i).length : Int)
  | 0 => by simp [depth, opens]
  | i + 1 => by
    rw [depth_succ, depth_opens hn i, opens_succ]
    have := hn i
    cases hk : kindAt ks (i + 1) <;> simp only [delta, openStep] <;> try omega
    · rw [List.length_cons]; omega
    · have h2 := List.length_pos_iff.mpr (this hk)
      rw [List.length_tail]
      omega

/-- What was said before statement `j` is active before `i` when the blocks open then are still open. -/
theorem active_opens {ks : List Kind} (hn : Nested ks) {j : Nat} : ∀ {i : Nat}, j ≤ i →
    ((∀ k, j + 1 ≤ k → k ≤ i + 1 → depth ks (j + 1) ≤ depth ks k) ↔ opens ks j <:+ opens ks i)
  | 0, h => by
    have : j = 0 := by omega
    subst this
    simp only [List.suffix_refl, iff_true]
    intro k h1 h2
    have : k = 0 + 1 := by omega
    rw [this]
  | i + 1, h => by
    rcases Nat.lt_or_ge j (i + 1) with hj | hj
    · have ih := active_opens hn (j := j) (i := i) (by omega)
      have hsplit : (∀ k, j + 1 ≤ k → k ≤ i + 1 + 1 → depth ks (j + 1) ≤ depth ks k) ↔
          (∀ k, j + 1 ≤ k → k ≤ i + 1 → depth ks (j + 1) ≤ depth ks k) ∧ depth ks (j + 1) ≤ depth ks (i + 2) := by
        constructor
        · intro hh; exact ⟨fun k a b => hh k a (by omega), hh (i + 2) (by omega) (by omega)⟩
        · rintro ⟨h1, h2⟩ k a b
          rcases Nat.lt_or_ge k (i + 2) with c | c
          · exact h1 k a (by omega)
          · have : k = i + 2 := by omega
            rw [this]; exact h2
      rw [hsplit, ih, depth_opens hn j, show i + 2 = (i + 1) + 1 from rfl, depth_opens hn (i + 1)]
      have hrb := hn i
      rw [opens_succ]
      unfold openStep
      cases hk : kindAt ks (i + 1) <;> dsimp only
      case lb =>
        constructor
        · rintro ⟨a, _⟩; exact a.trans (List.suffix_cons _ _)
        · intro a
          rcases List.suffix_cons_iff.mp a with e | e
          · exfalso
            have : i + 1 ∈ opens ks j := by rw [e]; simp
            have := opens_lt this; omega
          · exact ⟨e, by have := e.length_le; simp; omega⟩
      case rb =>
        have hne := hrb hk
        obtain ⟨b, t, ht⟩ := List.exists_cons_of_ne_nil hne
        rw [ht]
        simp only [List.tail_cons]
        constructor
        · rintro ⟨a, l⟩
          rcases List.suffix_cons_iff.mp a with e | e
          · rw [e] at l; simp at l
          · exact e
        · intro e
          exact ⟨e.trans (List.suffix_cons _ _), by have := e.length_le; omega⟩
      all_goals
        constructor
        · rintro ⟨a, _⟩; exact a
        · intro a; exact ⟨a, by have := a.length_le; omega⟩
    · have : j = i + 1 := by omega
      subst this
      simp only [List.suffix_refl, iff_true]
      intro k h1 h2
      have : k = i + 1 + 1 := by omega
      rw [this]

theorem active_iff {ks : List Kind} (hn : Nested ks) {j i : Nat} : Active ks (j + 1) (i + 1) ↔ j < i ∧ opens ks j <:+ opens ks i := by
  unfold Active
  constructor
  · rintro ⟨_, h2, h3⟩
    exact ⟨by omega, (active_opens hn (by omega)).mp h3⟩
  · rintro ⟨h1, h2⟩
    exact ⟨by omega, by omega, (active_opens hn (by omega)).mpr h2⟩

/-! ### Leaving out statements -/

/-- The elements with the numbers `n`, `n + 1`, … that are kept. -/
def pick {α : Type} (keep : Nat → Bool) : Nat → List α → List α
  | _, [] => []
  | n, x :: xs => if keep n then x :: pick keep (n + 1) xs else pick keep (n + 1) xs

/-- How many of the statements 1 to `i` are kept: the new number of statement `i` if it is kept. -/
def pos (keep : Nat → Bool) : Nat → Nat
  | 0 => 0
  | i + 1 => pos keep i + if keep (i + 1) then 1 else 0

variable {α : Type} {keep : Nat → Bool}

theorem pick_append : ∀ (l m : List α) (n : Nat), pick keep n (l ++ m) = pick keep n l ++ pick keep (n + l.length) m
  | [], m, n => by simp [pick]
  | x :: l, m, n => by
    simp only [List.cons_append, pick, pick_append l m (n + 1), List.length_cons]
    rw [show n + 1 + l.length = n + (l.length + 1) by omega]
    split <;> simp

theorem pick_map {β : Type} (g : α → β) : ∀ (l : List α) (n : Nat), (pick keep n l).map g = pick keep n (l.map g)
  | [], _ => rfl
  | x :: l, n => by
    simp only [pick, List.map_cons]
    split
    · simp [pick_map g l]
    · exact pick_map g l _

theorem pick_take_length : ∀ {l : List α} {i : Nat}, i ≤ l.length → (pick keep 1 (l.take i)).length = pos keep i
  | _, 0, _ => by simp [pick, pos]
  | l, i + 1, h => by
    have hi : i < l.length := by omega
    rw [List.take_succ_eq_append_getElem hi, pick_append, List.length_append, pick_take_length (by omega), List.length_take,
      Nat.min_eq_left (by omega)]
    simp only [pick, pos]
    rw [Nat.add_comm 1 i]
    split <;> simp

theorem pick_length {l : List α} : (pick keep 1 l).length = pos keep l.length := by
  have := pick_take_length (keep := keep) (l := l) (Nat.le_refl _)
  rwa [List.take_length] at this

/-- A kept element is found at its new place. -/
theorem pick_get {l : List α} {i : Nat} (h : i < l.length) (hk : keep (i + 1) = true) : (pick keep 1 l)[pos keep i]? = some l[i] := by
  have h1 : l = l.take i ++ l[i] :: l.drop (i + 1) := by simp
  conv_lhs => rw [h1]
  rw [pick_append, List.getElem?_append_right (by rw [pick_take_length (by omega)])]
  rw [pick_take_length (by omega), List.length_take, Nat.min_eq_left (by omega)]
  simp only [pick, Nat.sub_self]
  rw [Nat.add_comm 1 i, if_pos hk]
  rfl

theorem pos_mono : ∀ {i j : Nat}, i ≤ j → pos keep i ≤ pos keep j
  | i, 0, h => by have : i = 0 := by omega
                  rw [this]
  | i, j + 1, h => by
    rcases Nat.lt_or_ge i (j + 1) with c | c
    · have := pos_mono (i := i) (j := j) (by omega)
      simp only [pos]; omega
    · have : i = j + 1 := by omega
      rw [this]

theorem pos_kept {i : Nat} (hk : keep (i + 1) = true) : pos keep (i + 1) = pos keep i + 1 := by simp [pos, hk]

theorem pos_lt {i j : Nat} (h : i < j) (hk : keep j = true) : pos keep i < pos keep j := by
  cases j with
  | zero => omega
  | succ j =>
    rw [pos_kept hk]
    have := pos_mono (keep := keep) (i := i) (j := j) (by omega)
    omega

theorem pos_inj {i j : Nat} (hi : keep i = true) (hj : keep j = true) (h : pos keep i = pos keep j) : i = j := by
  rcases Nat.lt_trichotomy i j with c | c | c
  · have := pos_lt c hj; omega
  · exact c
  · have := pos_lt c hi; omega

theorem pos_lt_iff {i j : Nat} (hi : keep i = true) (hj : keep j = true) : pos keep i < pos keep j ↔ i < j := by
  constructor
  · intro h
    rcases Nat.lt_or_ge i j with c | c
    · exact c
    · have := pos_mono (keep := keep) c; omega
  · intro h; exact pos_lt h hj

/-- Every new number is that of a kept statement. -/
theorem pos_surj : ∀ {n p : Nat}, 1 ≤ p → p ≤ pos keep n → ∃ i, i < n ∧ keep (i + 1) = true ∧ pos keep (i + 1) = p
  | 0, p, h1, h2 => by simp [pos] at h2; omega
  | n + 1, p, h1, h2 => by
    rcases Nat.lt_or_ge (pos keep n) p with c | c
    · by_cases hk : keep (n + 1) = true
      · rw [pos_kept hk] at h2
        exact ⟨n, by omega, hk, by rw [pos_kept hk]; omega⟩
      · simp [pos, hk] at h2; omega
    · obtain ⟨i, a, b, d⟩ := pos_surj h1 c
      exact ⟨i, by omega, b, d⟩

/-- The statements left out make up whole blocks, apart from the statements inside a block that stays. -/
structure Closed (ks : List Kind) (keep : Nat → Bool) : Prop where
  brace : ∀ i, i < ks.length → kindAt ks (i + 1) = .rb → ∀ b t, opens ks i = b :: t → keep (i + 1) = keep b
  encl : ∀ i, i < ks.length → keep (i + 1) = true → ∀ b ∈ opens ks i, keep b = true

section
variable {ks : List Kind}

theorem kindAt_pick {i : Nat} (h : i < ks.length) (hk : keep (i + 1) = true) : kindAt (pick keep 1 ks) (pos keep (i + 1)) = kindAt ks (i + 1) := by
  rw [pos_kept hk, kindAt_get h]
  unfold kindAt
  rw [if_neg (by omega)]
  simp only [Nat.add_sub_cancel]
  rw [List.getD_eq_getElem?_getD, pick_get h hk]; rfl

theorem opens_pick (hn : Nested ks) (hc : Closed ks keep) : ∀ i, i ≤ ks.length →
    opens (pick keep 1 ks) (pos keep i) = ((opens ks i).filter keep).map (pos keep)
  | 0, _ => by simp [opens, pos]
  | i + 1, hi => by
    have ih := opens_pick hn hc i (by omega)
    by_cases hk : keep (i + 1) = true
    · have hkk := kindAt_pick (ks := ks) (i := i) (by omega) hk
      rw [pos_kept hk] at hkk ⊢
      rw [opens_succ, opens_succ, hkk, ih]
      cases hx : kindAt ks (i + 1) <;> simp only [openStep]
      case lb => rw [List.filter_cons_of_pos hk, List.map_cons, pos_kept hk]
      case rb =>
        obtain ⟨b, t, e⟩ := List.exists_cons_of_ne_nil (hn i hx)
        have := hc.brace i (by omega) hx b t e
        rw [e, List.filter_cons_of_pos (by rw [← this]; exact hk)]
        rfl
    · have hk' : keep (i + 1) = false := by simpa using hk
      have : pos keep (i + 1) = pos keep i := by simp [pos, hk']
      rw [this, ih]
      rw [opens_succ]
      cases hx : kindAt ks (i + 1) <;> simp only [openStep]
      case lb => rw [List.filter_cons_of_neg (by simp [hk'])]
      case rb =>
        obtain ⟨b, t, e⟩ := List.exists_cons_of_ne_nil (hn i hx)
        have := hc.brace i (by omega) hx b t e
        rw [e, List.filter_cons_of_neg (by rw [← this]; simp [hk'])]
        rfl

theorem nested_pick (hn : Nested ks) (hc : Closed ks keep) : Nested (pick keep 1 ks) := by
  intro p hp
  have hlen : p < (pick keep 1 ks).length := by
    rcases Nat.lt_or_ge p (pick keep 1 ks).length with c | c
    · exact c
    · rw [kindAt_over (by omega)] at hp; cases hp
  rw [pick_length] at hlen
  obtain ⟨i, h1, h2, h3⟩ := pos_surj (keep := keep) (n := ks.length) (p := p + 1) (by omega) (by omega)
  rw [← h3, kindAt_pick h1 h2] at hp
  have h4 := pos_kept h2
  have : p = pos keep i := by omega
  rw [this, opens_pick hn hc i (by omega)]
  obtain ⟨b, t, e⟩ := List.exists_cons_of_ne_nil (hn i hp)
  have hb := hc.brace i h1 hp b t e
  rw [e, List.filter_cons_of_pos (by rw [← hb]; exact h2)]
  simp

theorem filter_all {i : Nat} (hc : Closed ks keep) (h : i < ks.length) (hk : keep (i + 1) = true) : (opens ks i).filter keep = opens ks i :=
  List.filter_eq_self.mpr (hc.encl i h hk)

/-- The depth of a kept statement does not change. -/
theorem depth_pick (hn : Nested ks) (hc : Closed ks keep) {i : Nat} (h : i < ks.length) (hk : keep (i + 1) = true) :
    depth (pick keep 1 ks) (pos keep (i + 1)) = depth ks (i + 1) := by
  rw [pos_kept hk, depth_opens (nested_pick hn hc), depth_opens hn, opens_pick hn hc i (by omega), filter_all hc h hk, List.length_map]

theorem suffix_map_inj {f : Nat → Nat} : ∀ {a b : List Nat}, (∀ x ∈ a, ∀ y ∈ b, f x = f y → x = y) → a.map f <:+ b.map f → a <:+ b
  | a, [], _, h => by
    have : a = [] := by simpa using h
    rw [this]
  | a, y :: b, hi, h => by
    rw [List.map_cons] at h
    rcases List.suffix_cons_iff.mp h with e | e
    · have : a = y :: b := by
        rw [← List.map_cons] at e
        have hl : a.length = (y :: b).length := by simpa using congrArg List.length e
        apply List.ext_getElem hl
        intro n h1 h2
        refine hi _ (List.getElem_mem _) _ (List.getElem_mem _) ?_
        have h3 : (a.map f)[n]? = ((y :: b).map f)[n]? := by rw [e]
        rw [List.getElem?_map, List.getElem?_map, List.getElem?_eq_getElem h1, List.getElem?_eq_getElem h2] at h3
        simpa using h3
      rw [this]
    · exact (suffix_map_inj (fun x hx z hz => hi x hx z (List.mem_cons_of_mem _ hz)) e).trans (List.suffix_cons _ _)

/-- What is active at a kept statement does not change. -/
theorem active_pick (hn : Nested ks) (hc : Closed ks keep) {i j : Nat} (hi : i < ks.length) (hj : j < ks.length)
    (ki : keep (i + 1) = true) (kj : keep (j + 1) = true) :
    Active (pick keep 1 ks) (pos keep (j + 1)) (pos keep (i + 1)) ↔ Active ks (j + 1) (i + 1) := by
  rw [pos_kept ki, pos_kept kj, active_iff (nested_pick hn hc), active_iff hn, opens_pick hn hc i (by omega), opens_pick hn hc j (by omega),
    filter_all hc hi ki, filter_all hc hj kj]
  have e : pos keep j < pos keep i ↔ j < i := by
    have := pos_lt_iff kj ki
    rw [pos_kept ki, pos_kept kj] at this; omega
  rw [e]
  refine and_congr Iff.rfl ⟨fun h => ?_, fun h => h.map _⟩
  exact suffix_map_inj (fun x hx y hy he => pos_inj (hc.encl j hj kj x hx) (hc.encl i hi ki y hy) he) h

/-- The end of the source. -/
theorem end_pick (hn : Nested ks) (hc : Closed ks keep) (h0 : depth ks (ks.length + 1) = 0) :
    depth (pick keep 1 ks) ((pick keep 1 ks).length + 1) = 0 := by
  rw [depth_opens (nested_pick hn hc), pick_length, opens_pick hn hc _ (Nat.le_refl _)]
  rw [depth_opens hn] at h0
  have : opens ks ks.length = [] := List.length_eq_zero_iff.mp (by omega)
  rw [this]; rfl

end

end MM.Extr
