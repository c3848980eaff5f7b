import Verif.Tools.Break
import Mathlib.Data.List.Nodup
/-!
# C83: SORT, UNDUPLICATE, DUPLICATE, UNIQUE, REVERSE
-/
namespace MM.Tools
open MM.Vstr MM.Date

/-! ## The order -/

/-- `a` is not behind `b`: `a` begins `b`, or the first character where they differ has the smaller code in `a`. -/
def LexLe (a b : Str) : Prop := a <+: b ∨ ∃ p x y s t, a = p ++ x :: s ∧ b = p ++ y :: t ∧ x.toNat < y.toNat

theorem strLe_iff : ∀ (a b : Str), strLe a b = true ↔ LexLe a b
  | [], b => by simp [strLe, LexLe]
  | x :: s, [] => by simp [strLe, LexLe]
  | x :: s, y :: t => by
    rw [strLe]
    by_cases h1 : x.toNat < y.toNat
    · rw [if_pos h1]
      exact ⟨fun _ => Or.inr ⟨[], x, y, s, t, rfl, rfl, h1⟩, fun _ => rfl⟩
    · rw [if_neg h1]
      by_cases h2 : y.toNat < x.toNat
      · rw [if_pos h2]
        refine ⟨fun h => by simp at h, fun h => ?_⟩
        exfalso
        rcases h with h | ⟨p, x', y', s', t', e1, e2, h3⟩
        · rw [List.cons_prefix_cons] at h
          rw [h.1] at h2
          omega
        · cases p with
          | nil => simp at e1 e2; rw [e1.1, e2.1] at h2; omega
          | cons c p => simp at e1 e2; rw [e1.1, e2.1] at h2; omega
      · rw [if_neg h2, strLe_iff s t]
        have hxy : x = y := Char.ext (UInt32.toNat_inj.mp (show x.toNat = y.toNat by omega))
        subst hxy
        constructor
        · rintro (h | ⟨p, x', y', s', t', e1, e2, h3⟩)
          · exact Or.inl (by rw [List.cons_prefix_cons]; exact ⟨rfl, h⟩)
          · exact Or.inr ⟨x :: p, x', y', s', t', by rw [e1]; rfl, by rw [e2]; rfl, h3⟩
        · rintro (h | ⟨p, x', y', s', t', e1, e2, h3⟩)
          · rw [List.cons_prefix_cons] at h
            exact Or.inl h.2
          · cases p with
            | nil => simp at e1 e2; rw [← e1.1, ← e2.1] at h3; omega
            | cons c p => simp at e1 e2; exact Or.inr ⟨p, x', y', s', t', e1.2, e2.2, h3⟩

theorem strLe_total : ∀ (a b : Str), (strLe a b || strLe b a) = true
  | [], b => by simp [strLe]
  | x :: s, [] => by simp [strLe]
  | x :: s, y :: t => by
    have ih := strLe_total s t
    rw [strLe, strLe]
    by_cases h1 : x.toNat < y.toNat
    · simp [h1]
    · by_cases h2 : y.toNat < x.toNat
      · simp [h2]
      · simpa [h1, h2] using ih

theorem strLe_trans : ∀ (a b c : Str), strLe a b = true → strLe b c = true → strLe a c = true
  | [], b, c, _, _ => by simp [strLe]
  | x :: s, [], c, h, _ => by simp [strLe] at h
  | x :: s, y :: t, [], _, h => by simp [strLe] at h
  | x :: s, y :: t, z :: u, h1, h2 => by
    rw [strLe] at h1 h2 ⊢
    split at h1
    · split at h2
      · rw [if_pos (by omega)]
      · split at h2
        · simp at h2
        · rw [if_pos (by omega)]
    · split at h1
      · simp at h1
      · split at h2
        · rw [if_pos (by omega)]
        · split at h2
          · simp at h2
          · rw [if_neg (by omega), if_neg (by omega)]
            exact strLe_trans s t u h1 h2

theorem strLe_antisymm : ∀ (a b : Str), strLe a b = true → strLe b a = true → a = b
  | [], [], _, _ => rfl
  | [], y :: t, _, h => by simp [strLe] at h
  | x :: s, [], h, _ => by simp [strLe] at h
  | x :: s, y :: t, h1, h2 => by
    rw [strLe] at h1 h2
    by_cases h3 : x.toNat < y.toNat
    · rw [if_neg (by omega), if_pos h3] at h2
      simp at h2
    · by_cases h4 : y.toNat < x.toNat
      · rw [if_neg h3, if_pos h4] at h1
        simp at h1
      · rw [if_neg h3, if_neg h4] at h1
        rw [if_neg h4, if_neg h3] at h2
        rw [strLe_antisymm s t h1 h2, show x = y from Char.ext (UInt32.toNat_inj.mp (show x.toNat = y.toNat by omega))]

/-- The part of a line that is compared: from the first `k` on, or all of it. -/
inductive SortKey (k : Str) : Str → Str → Prop
  | whole {l} : (k = [] ∨ ∀ p, ¬ OccursAt l k p) → SortKey k l l
  | part {l x y} : k ≠ [] → FirstFrom l k 1 x y → SortKey k l (k ++ y)

theorem keyOf_spec (k l : Str) : SortKey k l (keyOf k l) := by
  unfold keyOf
  by_cases hk : k = []
  · rw [if_pos hk]; exact .whole (Or.inl hk)
  · rw [if_neg hk]
    rcases instr_cases l hk 1 with ⟨e, hn⟩ | ⟨x, y, hf, e⟩
    · have e : instr 1 l k = 0 := e
      rw [e]
      exact .whole (Or.inr fun p hp => hn p (occurs_bound hp).1 hp)
    · have e : instr 1 l k = x.length + 1 := e
      rw [e, Nat.add_sub_cancel]
      have : l.drop x.length = k ++ y := by rw [hf.eq, List.append_assoc, List.drop_left]
      rw [this]
      exact .part hk hf

theorem SortKey.unique {k l a b : Str} (h1 : SortKey k l a) (h2 : SortKey k l b) : a = b := by
  cases h1 with
  | whole h =>
    cases h2 with
    | whole => rfl
    | part hk hf =>
      rename_i x y
      rcases h with h | h
      · exact absurd h hk
      · exact absurd ⟨x, y, hf.eq, rfl⟩ (h (x.length + 1))
  | part hk hf =>
    rename_i x y
    cases h2 with
    | whole h =>
      rcases h with h | h
      · exact absurd h hk
      · exact absurd ⟨x, y, hf.eq, rfl⟩ (h (x.length + 1))
    | part hk' hg =>
      rename_i x' y'
      have hl : x.length = x'.length := by
        rcases Nat.lt_trichotomy x.length x'.length with h | h | h
        · exact absurd ⟨x, y, hf.eq, rfl⟩ (hg.first (x.length + 1) (by omega) (by omega))
        · exact h
        · exact absurd ⟨x', y', hg.eq, rfl⟩ (hf.first (x'.length + 1) (by omega) (by omega))
      have := hf.eq.symm.trans hg.eq
      rw [List.append_assoc, List.append_assoc] at this
      exact (List.append_inj this hl).2

/-- **C83, SORT.** What is written are the lines of the file, in the order of their keys. -/
theorem C83_sort {k : Str} {ls m : List Str} (h : Qsort k ls m) : (sortOut .sort m).Perm ls ∧ (sortOut .sort m).Pairwise fun a b => ∀ x y, SortKey k a x → SortKey k b y → LexLe x y := by
  have e : sortOut .sort m = m := by
    unfold sortOut
    have : (List.range m.length).filter (written .sort m) = List.range m.length := List.filter_eq_self.mpr fun _ _ => rfl
    rw [this]
    apply List.ext_getElem?
    intro i
    rw [List.getElem?_map]
    by_cases hi : i < m.length
    · rw [List.getElem?_range hi]
      simp [List.getD_eq_getElem?_getD, hi]
    · rw [List.getElem?_eq_none (by simpa using hi), List.getElem?_eq_none (by omega)]
      rfl
  rw [e]
  refine ⟨h.1, h.2.imp fun {a b} hab x y hx hy => ?_⟩
  rw [hx.unique (keyOf_spec k a), hy.unique (keyOf_spec k b)]
  exact (strLe_iff _ _).mp hab

/-- `qsort` can do what is required of it. -/
theorem qsort_exists (k : Str) (ls : List Str) : ∃ m, Qsort k ls m := by
  refine ⟨ls.mergeSort fun a b => strLe (keyOf k a) (keyOf k b), List.mergeSort_perm _ _, ?_⟩
  exact List.pairwise_mergeSort (fun a b c => strLe_trans (keyOf k a) (keyOf k b) (keyOf k c)) (fun a b => strLe_total (keyOf k a) (keyOf k b)) ls

/-- Without a key there is only one result. -/
theorem C83_sort_unique {ls m m' : List Str} (h : Qsort [] ls m) (h' : Qsort [] ls m') : m = m' := by
  refine List.Perm.eq_of_pairwise (le := fun a b => strLe a b = true) ?_ h.2 h'.2 (h.1.trans h'.1.symm)
  intro a b _ _ h1 h2
  exact strLe_antisymm a b h1 h2

/-! ## Equal lines are together -/

theorem sorted_le {m : List Str} (h : m.Pairwise fun a b => strLe a b = true) {i j : Nat} {a b : Str} (hij : i ≤ j) (ha : m[i]? = some a) (hb : m[j]? = some b) : strLe a b = true := by
  rcases Nat.eq_or_lt_of_le hij with rfl | hij
  · rw [ha] at hb
    cases hb
    have := strLe_total a a
    simpa using this
  · obtain ⟨h1, rfl⟩ := List.getElem?_eq_some_iff.mp ha
    obtain ⟨h2, rfl⟩ := List.getElem?_eq_some_iff.mp hb
    exact List.pairwise_iff_getElem.mp h i j h1 h2 hij

theorem together {m : List Str} (h : m.Pairwise fun a b => strLe a b = true) {i j k : Nat} {a : Str} (hij : i ≤ j) (hjk : j ≤ k) (h1 : m[i]? = some a) (h2 : m[k]? = some a) : m[j]? = some a := by
  have hk : j < m.length := Nat.lt_of_le_of_lt hjk (List.getElem?_eq_some_iff.mp h2).1
  have hj : m[j]? = some m[j] := List.getElem?_eq_getElem hk
  rw [hj, strLe_antisymm a m[j] (sorted_le h hij h1 hj) (sorted_le h hjk hj h2)]

/-- First of its kind -/
def First (m : List Str) (i : Nat) : Prop := ∀ j, j < i → m[j]? ≠ m[i]?
/-- Last of its kind -/
def Last (m : List Str) (i : Nat) : Prop := ∀ j, i < j → m[j]? ≠ m[i]?

theorem first_iff {m : List Str} (h : m.Pairwise fun a b => strLe a b = true) {i : Nat} (hi : i < m.length) : First m i ↔ i = 0 ∨ m[i - 1]? ≠ m[i]? := by
  constructor
  · intro hf
    by_cases h0 : i = 0
    · exact Or.inl h0
    · exact Or.inr (hf _ (by omega))
  · rintro (h0 | h0) j hj
    · omega
    · intro he
      have hi' : m[i]? = some m[i] := List.getElem?_eq_getElem hi
      rw [hi'] at he h0
      exact h0 (together h (by omega) (by omega) he hi')

theorem last_iff {m : List Str} (h : m.Pairwise fun a b => strLe a b = true) {i : Nat} (hi : i < m.length) : Last m i ↔ i = m.length - 1 ∨ m[i]? ≠ m[i + 1]? := by
  have hi' : m[i]? = some m[i] := List.getElem?_eq_getElem hi
  constructor
  · intro hf
    exact Or.inr fun e => hf (i + 1) (by omega) e.symm
  · rintro (h0 | h0) j hj
    · rw [hi', List.getElem?_eq_none (by omega)]
      simp
    · intro he
      rw [hi'] at he h0
      exact h0 (together h (by omega) (by omega) hi' he).symm

theorem written_undup {m : List Str} (h : m.Pairwise fun a b => strLe a b = true) {i : Nat} (hi : i < m.length) : written .undup m i = true ↔ First m i := by
  rw [first_iff h hi, written]
  by_cases h0 : i = 0 <;> simp [h0]

theorem written_dup {m : List Str} (h : m.Pairwise fun a b => strLe a b = true) {i : Nat} (hi : i < m.length) : written .dup m i = true ↔ ¬ First m i ∧ Last m i := by
  rw [first_iff h hi, last_iff h hi, written]
  by_cases h0 : i = 0
  · simp [h0]
  · rw [if_pos (by omega)]
    by_cases h1 : m[i - 1]? = m[i]?
    · rw [if_pos h1]
      by_cases h2 : i = m.length - 1
      · rw [if_pos h2]; simp [h0, h1, ← h2]
      · rw [if_neg h2]; simp [h0, h1, h2]
    · rw [if_neg h1]; simp [h1]

theorem written_uniq {m : List Str} (h : m.Pairwise fun a b => strLe a b = true) {i : Nat} (hi : i < m.length) : written .uniq m i = true ↔ First m i ∧ Last m i := by
  rw [first_iff h hi, last_iff h hi, written]
  by_cases h1 : i < m.length - 1
  · rw [if_pos h1]
    by_cases h2 : m[i]? ≠ m[i + 1]?
    · rw [if_pos h2]
      by_cases h0 : i = 0
      · rw [if_pos h0]; simp [h0] at h2 ⊢; exact Or.inr h2
      · rw [if_neg h0]; simp [h0, h2]
    · rw [if_neg h2]
      have : ¬ i = m.length - 1 := by omega
      simp [this] at h2 ⊢
      intro _
      exact h2
  · rw [if_neg h1]
    have : i = m.length - 1 := by omega
    by_cases h0 : i = 0
    · rw [if_pos h0]; simp [h0] at this ⊢; exact Or.inl this
    · rw [if_neg h0]; simp [h0, ← this]

theorem mem_sortOut {mode : SortMode} {m : List Str} {l : Str} : l ∈ sortOut mode m ↔ ∃ i, m[i]? = some l ∧ written mode m i = true := by
  unfold sortOut
  rw [List.mem_map]
  constructor
  · rintro ⟨i, hi, rfl⟩
    rw [List.mem_filter, List.mem_range] at hi
    exact ⟨i, by rw [List.getD_eq_getElem?_getD, List.getElem?_eq_getElem hi.1]; rfl, hi.2⟩
  · rintro ⟨i, h1, h2⟩
    have := (List.getElem?_eq_some_iff.mp h1).1
    exact ⟨i, by rw [List.mem_filter, List.mem_range]; exact ⟨this, h2⟩, by rw [List.getD_eq_getElem?_getD, h1]; rfl⟩

theorem sortOut_sorted (mode : SortMode) {m : List Str} (h : m.Pairwise fun a b => strLe a b = true) : (sortOut mode m).Pairwise LexLe := by
  unfold sortOut
  rw [List.pairwise_map]
  have h0 : ((List.range m.length).filter (written mode m)).Pairwise (fun a b => a < b ∧ b < m.length) := by
    have : (List.range m.length).Pairwise (fun a b => a < b ∧ b < m.length) := by
      rw [List.pairwise_iff_getElem]
      intro i j hi hj hij
      simp at hi hj ⊢
      omega
    exact this.filter _
  refine h0.imp fun {a b} hab => ?_
  have hb := hab.2
  have ha : a < m.length := by omega
  refine (strLe_iff _ _).mp (sorted_le h (Nat.le_of_lt hab.1) (i := a) (j := b) ?_ ?_)
  · rw [List.getD_eq_getElem?_getD, List.getElem?_eq_getElem ha]; rfl
  · rw [List.getD_eq_getElem?_getD, List.getElem?_eq_getElem hb]; rfl

theorem sortOut_nodup (mode : SortMode) {m : List Str} (h : ∀ i j, i < j → j < m.length → written mode m i = true → written mode m j = true → m[i]? ≠ m[j]?) : (sortOut mode m).Nodup := by
  unfold sortOut
  rw [List.nodup_map_iff_inj_on (List.nodup_range.filter _)]
  intro i hi j hj he
  rw [List.mem_filter, List.mem_range] at hi hj
  rw [List.getD_eq_getElem?_getD, List.getD_eq_getElem?_getD, List.getElem?_eq_getElem hi.1, List.getElem?_eq_getElem hj.1] at he
  have he : m[i]? = m[j]? := by rw [List.getElem?_eq_getElem hi.1, List.getElem?_eq_getElem hj.1]; simpa using he
  rcases Nat.lt_trichotomy i j with h1 | h1 | h1
  · exact absurd he (h i j h1 hj.1 hi.2 hj.2)
  · exact h1
  · exact absurd he.symm (h j i h1 hi.1 hj.2 hi.2)

theorem two_iff (l : Str) : ∀ (m : List Str), 2 ≤ m.count l ↔ ∃ i j : Nat, i < j ∧ m[i]? = some l ∧ m[j]? = some l
  | [] => by simp
  | x :: m => by
    have ih := two_iff l m
    constructor
    · intro h
      by_cases hx : x = l
      · subst hx
        rw [List.count_cons_self] at h
        have : x ∈ m := List.count_pos_iff.mp (by omega)
        obtain ⟨j, hj⟩ := List.mem_iff_getElem?.mp this
        exact ⟨0, j + 1, by omega, rfl, by simpa using hj⟩
      · rw [List.count_cons_of_ne hx] at h
        obtain ⟨i, j, h1, h2, h3⟩ := ih.mp h
        exact ⟨i + 1, j + 1, by omega, by simpa using h2, by simpa using h3⟩
    · rintro ⟨i, j, h1, h2, h3⟩
      cases j with
      | zero => omega
      | succ j =>
        have h3 : m[j]? = some l := by simpa using h3
        cases i with
        | zero =>
          have : x = l := by simpa using h2
          subst this
          have : 0 < m.count x := List.count_pos_iff.mpr (List.mem_iff_getElem?.mpr ⟨j, h3⟩)
          rw [List.count_cons_self]
          omega
        | succ i =>
          have := ih.mpr ⟨i, j, by omega, by simpa using h2, h3⟩
          rw [List.count_cons]
          omega

theorem exists_first {m : List Str} {l : Str} (h : l ∈ m) : ∃ i, m[i]? = some l ∧ First m i := by
  classical
  have h1 := List.mem_iff_getElem?.mp h
  refine ⟨Nat.find h1, Nat.find_spec h1, fun j hj he => ?_⟩
  rw [Nat.find_spec h1] at he
  exact Nat.find_min h1 hj he

theorem exists_last {m : List Str} {l : Str} (h : l ∈ m) : ∃ i, m[i]? = some l ∧ Last m i := by
  induction m with
  | nil => simp at h
  | cons x m ih =>
    by_cases hm : l ∈ m
    · obtain ⟨i, h1, h2⟩ := ih hm
      refine ⟨i + 1, by simpa using h1, fun j hj => ?_⟩
      cases j with
      | zero => omega
      | succ j => simpa using h2 j (by omega)
    · have : l = x := by simpa [hm] using h
      subst this
      refine ⟨0, rfl, fun j hj => ?_⟩
      cases j with
      | zero => omega
      | succ j =>
        intro he
        exact hm (List.mem_iff_getElem?.mpr ⟨j, by simpa using he⟩)

theorem lt_of_some {m : List Str} {i : Nat} {l : Str} (h : m[i]? = some l) : i < m.length := (List.getElem?_eq_some_iff.mp h).1

/-- **C83, UNDUPLICATE.** Each line that occurs in the file is written once, in order. -/
theorem C83_unduplicate {ls m : List Str} (h : Qsort [] ls m) :
    (sortOut .undup m).Nodup ∧ (∀ l, l ∈ sortOut .undup m ↔ l ∈ ls) ∧ (sortOut .undup m).Pairwise LexLe := by
  have hs : m.Pairwise fun a b => strLe a b = true := h.2
  refine ⟨sortOut_nodup _ fun i j h1 h2 h3 h4 => (written_undup hs h2).mp h4 i h1, fun l => ?_, sortOut_sorted _ hs⟩
  rw [mem_sortOut, ← h.1.mem_iff]
  constructor
  · rintro ⟨i, h1, _⟩
    exact List.mem_iff_getElem?.mpr ⟨i, h1⟩
  · intro hl
    obtain ⟨i, h1, h2⟩ := exists_first hl
    exact ⟨i, h1, (written_undup hs (lt_of_some h1)).mpr h2⟩

/-- **C83, DUPLICATE.** Each line that occurs at least twice in the file is written once, in order. -/
theorem C83_duplicate {ls m : List Str} (h : Qsort [] ls m) :
    (sortOut .dup m).Nodup ∧ (∀ l, l ∈ sortOut .dup m ↔ 2 ≤ ls.count l) ∧ (sortOut .dup m).Pairwise LexLe := by
  have hs : m.Pairwise fun a b => strLe a b = true := h.2
  refine ⟨sortOut_nodup _ fun i j h1 h2 h3 h4 e => ((written_dup hs (by omega)).mp h3).2 j h1 e.symm, fun l => ?_, sortOut_sorted _ hs⟩
  rw [mem_sortOut, ← h.1.count_eq, two_iff]
  constructor
  · rintro ⟨i, h1, h2⟩
    have h3 := ((written_dup hs (lt_of_some h1)).mp h2).1
    have : ∃ j, j < i ∧ m[j]? = m[i]? := by
      by_contra hc
      exact h3 fun j hj e => hc ⟨j, hj, e⟩
    obtain ⟨j, hj, e⟩ := this
    exact ⟨j, i, hj, e.trans h1, h1⟩
  · rintro ⟨i, j, h1, h2, h3⟩
    obtain ⟨k, h4, h5⟩ := exists_last (List.mem_iff_getElem?.mpr ⟨j, h3⟩)
    refine ⟨k, h4, (written_dup hs (lt_of_some h4)).mpr ⟨fun hf => ?_, h5⟩⟩
    have : j ≤ k := by
      by_contra hc
      exact h5 j (by omega) (h3.trans h4.symm)
    exact hf i (by omega) (h2.trans h4.symm)

/-- **C83, UNIQUE.** Each line that occurs once in the file is written, in order. -/
theorem C83_unique {ls m : List Str} (h : Qsort [] ls m) :
    (sortOut .uniq m).Nodup ∧ (∀ l, l ∈ sortOut .uniq m ↔ ls.count l = 1) ∧ (sortOut .uniq m).Pairwise LexLe := by
  have hs : m.Pairwise fun a b => strLe a b = true := h.2
  refine ⟨sortOut_nodup _ fun i j h1 h2 h3 h4 => ((written_uniq hs h2).mp h4).1 i h1, fun l => ?_, sortOut_sorted _ hs⟩
  rw [mem_sortOut, ← h.1.count_eq]
  constructor
  · rintro ⟨i, h1, h2⟩
    obtain ⟨h3, h4⟩ := (written_uniq hs (lt_of_some h1)).mp h2
    have h5 : 0 < m.count l := List.count_pos_iff.mpr (List.mem_iff_getElem?.mpr ⟨i, h1⟩)
    by_contra hc
    obtain ⟨a, b, h6, h7, h8⟩ := (two_iff l m).mp (by omega)
    rcases Nat.lt_trichotomy a i with h | h | h
    · exact h3 a h (h7.trans h1.symm)
    · exact h4 b (by omega) (h8.trans h1.symm)
    · exact h4 a h (h7.trans h1.symm)
  · intro hc
    obtain ⟨i, h1⟩ := List.mem_iff_getElem?.mp (List.count_pos_iff.mp (show 0 < m.count l by omega))
    have hno : ∀ a b : Nat, a < b → m[a]? = some l → m[b]? = some l → False := by
      intro a b h2 h3 h4
      have := (two_iff l m).mpr ⟨a, b, h2, h3, h4⟩
      omega
    exact ⟨i, h1, (written_uniq hs (lt_of_some h1)).mpr ⟨fun j hj e => hno j i hj (e.trans h1) h1, fun j hj e => hno i j hj h1 (e.trans h1)⟩⟩

/-- **C83.** The use of UNIQUE that HELP COPY recommends: after `COPY 1,1,2`, UNIQUE writes the lines of file 2 that are not in file 1 – but only those that are in file 2 once. -/
theorem C83_difference {one two m : List Str} (h : Qsort [] (one ++ one ++ two) m) (l : Str) : l ∈ sortOut .uniq m ↔ l ∉ one ∧ two.count l = 1 := by
  rw [(C83_unique h).2.1, List.count_append, List.count_append]
  constructor
  · intro hc
    have : one.count l = 0 := by omega
    exact ⟨List.count_eq_zero.mp this, by omega⟩
  · rintro ⟨h1, h2⟩
    have := List.count_eq_zero.mpr h1
    omega

/-! ## REVERSE -/

theorem revGo_spec {ls : List Str} : ∀ (k i : Nat) (m : List Str), i + k = ls.length → ls.length ≤ 2 * i + 1 → m.length = ls.length →
    (∀ j, j < ls.length → m[j]? = if j < i ∧ ls.length ≤ j + i then ls[ls.length - 1 - j]? else ls[j]?) →
    ∀ j, j < ls.length → (revGo ls.length k i m)[j]? = ls[ls.length - 1 - j]?
  | 0, i, m, h1, h2, h3, h4, j, hj => by
    rw [revGo, h4 j hj]
    by_cases hc : j < i ∧ ls.length ≤ j + i
    · rw [if_pos hc]
    · exfalso
      omega
  | k + 1, i, m, h1, h2, h3, h4, j, hj => by
    rw [revGo]
    refine revGo_spec k (i + 1) _ (by omega) (by omega) (by simp [h3]) ?_ j hj
    intro j hj
    have g : ∀ a, a < ls.length → m.getD a [] = ls.getD a [] ∨ (a < i ∧ ls.length ≤ a + i) := by
      intro a ha
      by_cases hc : a < i ∧ ls.length ≤ a + i
      · exact Or.inr hc
      · left
        rw [List.getD_eq_getElem?_getD, List.getD_eq_getElem?_getD, h4 a ha, if_neg hc]
    have gi : m.getD i [] = ls.getD i [] := (g i (by omega)).resolve_right (by omega)
    have gn : m.getD (ls.length - 1 - i) [] = ls.getD (ls.length - 1 - i) [] := (g _ (by omega)).resolve_right (by omega)
    rw [gi, gn]
    have hd : ∀ a, a < ls.length → some (ls.getD a []) = ls[a]? := by
      intro a ha
      rw [List.getD_eq_getElem?_getD, List.getElem?_eq_getElem ha]
      rfl
    rw [List.getElem?_set]
    by_cases h5 : ls.length - 1 - i = j
    · rw [if_pos h5, if_pos (by simp; omega), hd i (by omega)]
      by_cases h6 : j < i + 1 ∧ ls.length ≤ j + (i + 1)
      · rw [if_pos h6]
        congr 1
        omega
      · rw [if_neg h6]
        congr 1
        omega
    · rw [if_neg h5, List.getElem?_set]
      by_cases h6 : i = j
      · rw [if_pos h6, if_pos (by omega), hd _ (by omega), if_pos (by omega), h6]
      · rw [if_neg h6, h4 j hj]
        by_cases h7 : j < i ∧ ls.length ≤ j + i
        · rw [if_pos h7, if_pos (by omega)]
        · rw [if_neg h7, if_neg (by omega)]

theorem revGo_length {n : Nat} : ∀ (k i : Nat) (m : List Str), (revGo n k i m).length = m.length
  | 0, _, _ => rfl
  | k + 1, i, m => by rw [revGo, revGo_length]; simp

/-- **C83, REVERSE.** The lines are written in reverse order. -/
theorem C83_reverse (ls : List Str) : reverse ls = ls.reverse := by
  apply List.ext_getElem?
  intro j
  by_cases hj : j < ls.length
  · rw [List.getElem?_reverse hj]
    unfold reverse
    exact revGo_spec _ _ _ (by omega) (by omega) rfl (fun j hj => by rw [if_neg (by omega)]) j hj
  · rw [List.getElem?_eq_none (by unfold reverse; rw [revGo_length]; omega), List.getElem?_eq_none (by simp; omega)]

example : Qsort [] ["b".toList, "a".toList, "b".toList] ["a".toList, "b".toList, "b".toList] := ⟨by decide +kernel, by decide +kernel⟩
example : sortOut .dup ["a".toList, "b".toList, "b".toList] = ["b".toList] ∧ sortOut .uniq ["a".toList, "b".toList, "b".toList] = ["a".toList] ∧
    sortOut .undup ["a".toList, "b".toList, "b".toList] = ["a".toList, "b".toList] := by decide +kernel
example : Qsort "=".toList ["x=2".toList, "y=1".toList] ["y=1".toList, "x=2".toList] := ⟨by decide +kernel, by decide +kernel⟩
example : reverse ["a".toList, "b".toList, "c".toList] = ["c".toList, "b".toList, "a".toList] := by decide +kernel

end MM.Tools
