import Verif.Cmdl.KeySpec
import Verif.Vstr.Props
import Verif.Date.Props
/-!
# C77: the arguments of a command
-/
namespace MM.Cmdl
open MM.Vstr MM.Date

theorem editChar_32 {c : Char} (h : c.toNat ≠ 0) : editChar 32 c = some (toUp c) := by
  unfold editChar
  have h0 : on 32 0 = false := by decide
  have h1 : on 32 1 = false := by decide
  have h2 : on 32 2 = false := by decide
  have h13 : on 32 13 = false := by decide
  have h5 : on 32 5 = true := by decide
  have h6 : on 32 6 = false := by decide
  have h9 : on 32 9 = false := by decide
  have h12 : on 32 12 = false := by decide
  simp [h0, h1, h2, h13, h5, h6, h9, h12, h]

/-- There is no NUL in the string. -/
def Clean (w : Str) : Prop := ∀ c ∈ w, c.toNat ≠ 0

theorem editLoop_32 : ∀ w : Str, Clean w → editLoop 32 false w = capital w
  | [], _ => rfl
  | c :: w, h => by
    have h8 : on 32 8 = false := by decide
    rw [editLoop]
    simp only [h8, Bool.false_and]
    rw [if_neg (by decide), if_neg (by decide), editChar_32 (h c (by simp)), editLoop_32 w fun x hx => h x (List.mem_cons_of_mem _ hx)]
    rfl

theorem edit_32 {w : Str} (h : Clean w) : editBase 32 w = capital w := by
  unfold editBase
  have h3 : on 32 3 = false := by decide
  have h7 : on 32 7 = false := by decide
  have h14 : on 32 14 = false := by decide
  have h4 : on 32 4 = false := by decide
  simp [h3, h7, h14, h4, editLoop_32 w h]

theorem take_iff {w c : Str} : c.take w.length = w ↔ w <+: c := by rw [List.prefix_iff_eq_take]; exact eq_comm

theorem scan_spec (w : Str) : ∀ (cs acc : List Str), scan w cs acc = if w ∈ cs then [w] else acc ++ cs.filter fun c => decide (w <+: c)
  | [], acc => by simp [scan]
  | c :: cs, acc => by
    rw [scan]
    by_cases h : c = w
    · rw [if_pos h, if_pos (by simp [h]), h]
    · rw [if_neg h, scan_spec w cs]
      by_cases h1 : w ∈ cs
      · rw [if_pos h1, if_pos (by simp [h1])]
      · have h3 : w ∉ c :: cs := fun hx => (List.mem_cons.mp hx).elim (fun e => h e.symm) h1
        rw [if_neg h1, if_neg h3]
        by_cases h2 : w <+: c
        · rw [if_pos (take_iff.mpr h2), List.filter_cons_of_pos (by simpa using h2)]
          simp
        · rw [if_neg (fun e => h2 (take_iff.mp e)), List.filter_cons_of_neg (by simpa using h2)]

theorem filter_one (P : Str → Bool) (K : Str) : ∀ cs : List Str, cs.filter P = [K] ↔
    K ∈ cs ∧ P K = true ∧ ∀ i j : Nat, (∃ c, cs[i]? = some c ∧ P c = true) → (∃ c, cs[j]? = some c ∧ P c = true) → i = j
  | [] => by simp
  | c :: cs => by
    have ih := filter_one P K cs
    by_cases h : P c = true
    · rw [List.filter_cons_of_pos h]
      constructor
      · intro e
        obtain ⟨rfl, e'⟩ := List.cons.inj e
        refine ⟨by simp, h, ?_⟩
        have h0 : ∀ i, (∃ x, (c :: cs)[i]? = some x ∧ P x = true) → i = 0 := by
          rintro i ⟨x, h1, h2⟩
          cases i with
          | zero => rfl
          | succ i =>
            have : x ∈ cs.filter P := List.mem_filter.mpr ⟨List.mem_of_getElem? (by simpa using h1), h2⟩
            rw [e'] at this
            cases this
        intro i j hi hj
        rw [h0 i hi, h0 j hj]
      · rintro ⟨h1, h2, h3⟩
        have he : cs.filter P = [] := by
          rw [List.filter_eq_nil_iff]
          intro x hx hp
          obtain ⟨i, hi⟩ := List.mem_iff_getElem?.mp hx
          have := h3 0 (i + 1) ⟨c, rfl, h⟩ ⟨x, by simpa using hi, hp⟩
          omega
        rcases List.mem_cons.mp h1 with rfl | h1
        · rw [he]
        · have : K ∈ cs.filter P := List.mem_filter.mpr ⟨h1, h2⟩
          rw [he] at this
          cases this
    · rw [List.filter_cons_of_neg h, ih]
      constructor
      · rintro ⟨h1, h2, h3⟩
        refine ⟨by simp [h1], h2, ?_⟩
        have step : ∀ i, (∃ x, (c :: cs)[i]? = some x ∧ P x = true) → ∃ k, i = k + 1 ∧ ∃ x, cs[k]? = some x ∧ P x = true := by
          rintro i ⟨x, g1, g2⟩
          cases i with
          | zero =>
            simp at g1
            exact absurd (g1 ▸ g2) h
          | succ k => exact ⟨k, rfl, x, by simpa using g1, g2⟩
        intro i j hi hj
        obtain ⟨a, rfl, ha⟩ := step i hi
        obtain ⟨b, rfl, hb⟩ := step j hj
        rw [h3 a b ha hb]
      · rintro ⟨h1, h2, h3⟩
        refine ⟨?_, h2, ?_⟩
        · rcases List.mem_cons.mp h1 with rfl | h1
          · exact absurd h2 h
          · exact h1
        · rintro i j ⟨x, g1, g2⟩ ⟨y, g3, g4⟩
          have := h3 (i + 1) (j + 1) ⟨x, by simpa using g1, g2⟩ ⟨y, by simpa using g3, g4⟩
          omega

theorem pick_inl {w : Str} (hw : Clean w) (cs : List Str) (K : Str) : pick w cs = .inl K ↔ Stands cs w K := by
  unfold pick
  dsimp only
  rw [edit_32 hw, scan_spec]
  by_cases h : capital w ∈ cs
  · rw [if_pos h, if_neg (by simp), if_neg (by simp)]
    constructor
    · intro e
      have e : capital w = K := by simpa using e
      exact ⟨e ▸ h, Or.inl e⟩
    · rintro ⟨_, e | ⟨h1, _⟩⟩
      · rw [← e]; rfl
      · exact absurd h h1
  · rw [if_neg h, List.nil_append]
    have key : (cs.filter fun c => decide (capital w <+: c)) = [K] ↔ Stands cs w K := by
      rw [filter_one]
      simp only [decide_eq_true_eq]
      constructor
      · rintro ⟨h1, h2, h3⟩
        exact ⟨h1, Or.inr ⟨h, h2, h3⟩⟩
      · rintro ⟨h1, e | ⟨_, h2, h3⟩⟩
        · exact absurd (e ▸ h1) h
        · exact ⟨h1, h2, h3⟩
    rw [← key]
    constructor
    · intro e
      split at e
      · cases e
      · split at e
        · cases e
        · generalize (cs.filter fun c => decide (capital w <+: c)) = l at *
          match l, e with
          | [], _ => simp_all
          | [a], e => simpa using e
          | _ :: _ :: _, _ => simp_all
    · intro e
      rw [e, if_neg (by simp), if_neg (by simp)]
      rfl

theorem pick_expected {w : Str} (hw : Clean w) (cs : List Str) : pick w cs = .inr .expected ↔ ∀ c ∈ cs, ¬ capital w <+: c := by
  unfold pick
  dsimp only
  rw [edit_32 hw, scan_spec]
  by_cases h : capital w ∈ cs
  · rw [if_pos h, if_neg (by simp), if_neg (by simp)]
    constructor
    · intro e; cases e
    · intro e
      exact absurd List.prefix_rfl (e _ h)
  · rw [if_neg h, List.nil_append]
    have key : (cs.filter fun c => decide (capital w <+: c)) = [] ↔ ∀ c ∈ cs, ¬ capital w <+: c := by
      rw [List.filter_eq_nil_iff]
      simp
    rw [← key]
    generalize (cs.filter fun c => decide (capital w <+: c)) = l
    cases l with
    | nil => simp
    | cons a l =>
      rw [if_neg (by simp)]
      split <;> simp

theorem pick_ambiguous {w : Str} (hw : Clean w) (cs l : List Str) :
    pick w cs = .inr (.ambiguous l) ↔ capital w ∉ cs ∧ 2 ≤ l.length ∧ l = cs.filter fun c => decide (capital w <+: c) := by
  unfold pick
  dsimp only
  rw [edit_32 hw, scan_spec]
  by_cases h : capital w ∈ cs
  · rw [if_pos h, if_neg (by simp), if_neg (by simp)]
    simp [h]
  · rw [if_neg h, List.nil_append]
    generalize (cs.filter fun c => decide (capital w <+: c)) = m
    match m with
    | [] => simp; intro _ h1 h2; simp [h2] at h1
    | [a] => simp; intro _ h1 h2; simp [h2] at h1
    | a :: b :: m =>
      rw [if_neg (by simp), if_pos (by simp)]
      simp only [Sum.inr.injEq, Err.ambiguous.injEq]
      constructor
      · rintro rfl; exact ⟨h, by simp, rfl⟩
      · rintro ⟨_, _, e⟩; exact e.symm

/-! ### The menu -/

theorem splitBar_word : ∀ {k l : Str}, '|' ∉ k → splitBar (k ++ '|' :: l) = k :: splitBar l
  | [], l, _ => by rw [List.nil_append, splitBar, if_pos rfl]
  | c :: k, l, h => by
    rw [List.cons_append, splitBar, if_neg (fun e => h (by simp [e])), splitBar_word fun hx => h (List.mem_cons_of_mem _ hx)]
    rfl

theorem splitBar_last : ∀ {k : Str}, '|' ∉ k → splitBar k = [k]
  | [], _ => rfl
  | c :: k, h => by
    rw [splitBar, if_neg (fun e => h (by simp [e])), splitBar_last fun hx => h (List.mem_cons_of_mem _ hx)]
    rfl

theorem splitBar_menu (d : Str) (hd : '|' ∉ d) : ∀ ks : List Str, (∀ k ∈ ks, '|' ∉ k) → splitBar (menu ks d) = ks ++ ['<' :: d ++ ['>']]
  | [], _ => by
    unfold menu
    rw [List.map_nil, List.flatten_nil, List.nil_append, splitBar_last]
    · rfl
    · simp [hd]
  | k :: ks, h => by
    have e : menu (k :: ks) d = k ++ '|' :: menu ks d := by simp [menu]
    rw [e, splitBar_word (h k (by simp)), splitBar_menu d hd ks fun x hx => h x (List.mem_cons_of_mem _ hx)]
    rfl

end MM.Cmdl
