import Verif.Vstr.Model
import Mathlib.Data.List.Basic
import Mathlib.Tactic.Linarith
/-!
# C25, C26: substring and search functions of mmvstr.c
-/
namespace MM.Vstr

/-- Specification: the characters of `s` at the (1-based) positions `a .. b`. -/
def chars (s : Str) (a b : Int) : Str :=
  ((s.zipIdx 1).filter fun x => decide (a ≤ (x.2 : Int) ∧ (x.2 : Int) ≤ b)).map (·.1)

theorem chars_gen (s : Str) : ∀ (k : Nat) (a b : Int), (k : Int) ≤ a →
    ((s.zipIdx k).filter fun x => decide (a ≤ (x.2 : Int) ∧ (x.2 : Int) ≤ b)).map (·.1) =
    (s.drop (a - k).toNat).take (b - a + 1).toNat := by
  induction s with
  | nil => intro k a b _; simp
  | cons c s ih =>
    intro k a b hk
    rw [List.zipIdx_cons, List.filter_cons]
    by_cases hka : (k : Int) = a
    · have h0 : (a - k).toNat = 0 := by omega
      rw [h0, List.drop_zero]
      by_cases hb : a ≤ b
      · have h1 : (b - a + 1).toNat = (b - (a + 1) + 1).toNat + 1 := by omega
        rw [h1, List.take_succ_cons, if_pos (by simp; omega), List.map_cons]
        congr 1
        have := ih (k + 1) (a + 1) b (by push_cast; omega)
        rw [show (a + 1 - ((k + 1 : Nat) : Int)).toNat = 0 by push_cast; omega, List.drop_zero] at this
        rw [← this]
        congr 1
        apply List.filter_congr
        intro x hx
        obtain ⟨y, i⟩ := x
        have := (List.mem_zipIdx hx).1
        simp only [decide_eq_decide]
        omega
      · have h1 : (b - a + 1).toNat = 0 := by omega
        rw [h1, List.take_zero, if_neg (by simp; omega)]
        have := ih (k + 1) (a + 1) b (by push_cast; omega)
        rw [show (b - (a + 1) + 1).toNat = 0 by omega, List.take_zero] at this
        rw [← this]
        congr 1
        apply List.filter_congr
        intro x hx
        obtain ⟨y, i⟩ := x
        have := (List.mem_zipIdx hx).1
        simp only [decide_eq_decide]
        omega
    · rw [if_neg (by simp; omega)]
      have := ih (k + 1) a b (by push_cast; omega)
      rw [this, show (a - k).toNat = (a - ((k + 1 : Nat) : Int)).toNat + 1 by push_cast; omega, List.drop_succ_cons]

theorem chars_eq (s : Str) {a : Int} (b : Int) (h : 1 ≤ a) : chars s a b = (s.drop (a - 1).toNat).take (b - a + 1).toNat :=
  chars_gen s 1 a b h

theorem chars_max (s : Str) (a b : Int) : chars s a b = chars s (max a 1) b := by
  unfold chars
  congr 1
  apply List.filter_congr
  intro x hx
  obtain ⟨y, i⟩ := x
  have := (List.mem_zipIdx hx).1
  simp only [decide_eq_decide]
  omega

/-- C25: `mid(s, start, length)` returns the characters at positions `start .. start + length - 1` (a `start` below 1 counts as 1, so
does not shorten the result), except that for `length > 0` and a `start` beyond the end of `s` by more than one it reads
outside the string. -/
theorem C25_mid (s : Str) (start length : Int) :
    mid s start length =
      if 0 < length ∧ (s.length : Int) + 1 < start then .ub
      else .val (chars s (max start 1) (max start 1 + length - 1)) := by
  rw [chars_eq _ _ (le_max_right _ _)]
  unfold mid
  dsimp only
  have e1 : (if start < 1 then 1 else start) = max start 1 := by split <;> omega
  have e2 : (if length < 0 then 0 else length) = max length 0 := by split <;> omega
  rw [e1, e2]
  by_cases h : 0 < length ∧ (s.length : Int) + 1 < start
  · rw [if_pos h, if_pos (by omega)]
  · rw [if_neg h, if_neg (by omega)]
    rw [show (max start 1 + length - 1 - max start 1 + 1).toNat = (max length 0).toNat by omega]

/-- C25: `seg(s, a, b)` returns the characters at positions `a .. b`, with the same exception. -/
theorem C25_seg (s : Str) (a b : Int) :
    seg s a b = if a ≤ b ∧ (s.length : Int) + 1 < a then .ub else .val (chars s a b) := by
  unfold seg
  dsimp only
  have e1 : (if a < 1 then 1 else a) = max a 1 := by split <;> omega
  rw [e1, C25_mid, chars_max s a b, show max (max a 1) 1 = max a 1 by omega,
    show max a 1 + (b - max a 1 + 1) - 1 = b by omega]
  by_cases h : a ≤ b ∧ (s.length : Int) + 1 < a
  · rw [if_pos h, if_pos (by omega)]
  · rw [if_neg h, if_neg (by omega)]

/-- C25: `left(s, n)` returns the characters at positions `1 .. n`, for every `n`. -/
theorem C25_left (s : Str) (n : Int) : left s n = .val (chars s 1 n) := by
  unfold left
  rw [C25_mid, if_neg (by omega), show max (1 : Int) 1 = 1 by omega, show (1 : Int) + n - 1 = n by omega]

/-- C25: `right(s, n)` returns the characters from position `n` on, for every `n`. -/
theorem C25_right (s : Str) (n : Int) : right s n = .val (chars s n s.length) := by
  unfold right
  rw [C25_seg, if_neg (by omega)]

/-- C25: cutting a string anywhere loses nothing. -/
theorem C25_left_right (s : Str) (n : Int) : ∃ a b, left s n = .val a ∧ right s (n + 1) = .val b ∧ a ++ b = s := by
  refine ⟨_, _, C25_left s n, C25_right s (n + 1), ?_⟩
  rw [chars_eq s n (le_refl 1), chars_max s (n + 1), chars_eq s _ (le_max_right _ _)]
  by_cases h : 0 ≤ n
  · rw [show (n - 1 + 1).toNat = n.toNat by omega, show (max (n + 1) 1 - 1).toNat = n.toNat by omega]
    rw [List.take_of_length_le (l := s.drop n.toNat) (by rw [List.length_drop]; omega)]
    simp
  · rw [show (n - 1 + 1).toNat = 0 by omega, show (max (n + 1) 1 - 1).toNat = 0 by omega]
    rw [List.take_of_length_le (l := s.drop 0) (by rw [List.drop_zero]; omega)]
    simp

/-- C25 is false for `mid`/`seg` beyond the end of the string: `mid("abc", 6, 1)` reads outside the string. -/
theorem C25_mid_out_of_bounds : mid "abc".toList 6 1 = .ub := by decide

example : mid "abcdef".toList 2 3 = .val "bcd".toList ∧ seg "abcdef".toList (-3) 2 = .val "ab".toList ∧
    right "abcdef".toList 9 = .val [] := by decide

/-- `m` occurs in `s` at the 1-based position `p`. -/
def OccursAt (s m : Str) (p : Nat) : Prop := ∃ a b, s = a ++ m ++ b ∧ p = a.length + 1

theorem instrFrom_spec (m : Str) (hm : m ≠ []) : ∀ (t pre : Str),
    (instrFrom m t pre.length = 0 ∧ ∀ p > pre.length, ¬ OccursAt (pre ++ t) m p) ∨
    (instrFrom m t pre.length > pre.length ∧ OccursAt (pre ++ t) m (instrFrom m t pre.length) ∧
      ∀ p, pre.length < p → p < instrFrom m t pre.length → ¬ OccursAt (pre ++ t) m p) := by
  intro t
  induction t with
  | nil =>
    intro pre
    left
    refine ⟨by simp [instrFrom, hm], ?_⟩
    rintro p hp ⟨a, b, h, rfl⟩
    have : 0 < m.length := List.length_pos_iff.2 hm
    have := congrArg List.length h
    simp at this
    omega
  | cons c t ih =>
    intro pre
    rw [instrFrom]
    by_cases h : m.head? = some c ∧ m.isPrefixOf (c :: t) = true
    · rw [if_pos h]
      right
      refine ⟨by omega, ?_, fun p h1 h2 => by omega⟩
      obtain ⟨b, hb⟩ := List.isPrefixOf_iff_prefix.1 h.2
      exact ⟨pre, b, by rw [← hb]; simp, rfl⟩
    · rw [if_neg h]
      have hno : ¬ OccursAt (pre ++ c :: t) m (pre.length + 1) := by
        rintro ⟨a, b, hab, hl⟩
        have hl' : pre.length = a.length := by omega
        rw [List.append_assoc] at hab
        have := List.append_inj hab hl'
        apply h
        obtain ⟨d, m', rfl⟩ : ∃ d m', m = d :: m' := by cases m with | nil => exact absurd rfl hm | cons d m' => exact ⟨_, _, rfl⟩
        have h2 := this.2
        rw [h2]
        refine ⟨?_, List.isPrefixOf_iff_prefix.2 ⟨b, rfl⟩⟩
        simp at h2
        simp [h2.1]
      have := ih (pre ++ [c])
      rw [List.length_append, List.length_singleton, List.append_assoc, List.singleton_append] at this
      rcases this with ⟨h1, h2⟩ | ⟨h1, h2, h3⟩
      · left
        refine ⟨h1, fun p hp => ?_⟩
        by_cases hp' : p = pre.length + 1
        · rw [hp']; exact hno
        · exact h2 p (by omega)
      · right
        refine ⟨by omega, h2, fun p hp hp2 => ?_⟩
        by_cases hp' : p = pre.length + 1
        · rw [hp']; exact hno
        · exact h3 p (by omega) hp2

/-- C26: for a non-empty `m`, `instr(start, s, m)` is the least position, not before `start`, at which `m` occurs in `s`, and 0 if there
is none. -/
theorem C26_instr (start : Int) (s m : Str) (hm : m ≠ []) :
    (instr start s m = 0 ∧ ∀ p : Nat, start ≤ p → ¬ OccursAt s m p) ∨
    (start ≤ instr start s m ∧ OccursAt s m (instr start s m) ∧
      ∀ p : Nat, start ≤ p → p < instr start s m → ¬ OccursAt s m p) := by
  unfold instr
  dsimp only
  set st := (if (if start < 1 then 1 else start) > (s.length : Int) then (s.length : Int) + 1 else if start < 1 then 1 else start) with hst
  have h1 : 1 ≤ st ∧ st ≤ s.length + 1 := by rw [hst]; split <;> split <;> omega
  have hlen : (s.take (st - 1).toNat).length = (st - 1).toNat := by rw [List.length_take]; omega
  have := instrFrom_spec m hm (s.drop (st - 1).toNat) (s.take (st - 1).toNat)
  rw [hlen, List.take_append_drop] at this
  have hocc : ∀ p : Nat, OccursAt s m p → 1 ≤ p ∧ p ≤ s.length := by
    rintro p ⟨a, b, h, rfl⟩
    have : 0 < m.length := List.length_pos_iff.2 hm
    have := congrArg List.length h
    simp at this
    omega
  have hstart : ∀ p : Nat, start ≤ p → OccursAt s m p → (st - 1).toNat < p := by
    intro p hp ho
    have := hocc p ho
    have : st ≤ max start 1 := by rw [hst]; split <;> split <;> omega
    omega
  rcases this with ⟨h2, h3⟩ | ⟨h2, h3, h4⟩
  · left
    exact ⟨h2, fun p hp ho => h3 p (hstart p hp ho) ho⟩
  · right
    refine ⟨?_, h3, fun p hp hlt ho => h4 p (hstart p hp ho) hlt ho⟩
    have h5 := hocc _ h3
    by_cases hs : start ≤ s.length
    · have : start ≤ st := by rw [hst]; split <;> split <;> omega
      omega
    · have : st = s.length + 1 := by rw [hst]; split <;> split <;> omega
      omega

/-- C26: searching for the empty string finds the end of `s`, whatever `start` is. -/
theorem C26_instr_empty (start : Int) (s : Str) : instr start s [] = s.length + 1 := by
  have h : ∀ (t : Str) (p : Nat), instrFrom [] t p = p + t.length + 1 := by
    intro t
    induction t with
    | nil => intro p; simp [instrFrom]
    | cons c t ih => intro p; rw [instrFrom, if_neg (by simp), ih]; simp; omega
  unfold instr
  dsimp only
  set st := (if (if start < 1 then 1 else start) > (s.length : Int) then (s.length : Int) + 1 else if start < 1 then 1 else start) with hst
  have h1 : 1 ≤ st ∧ st ≤ s.length + 1 := by rw [hst]; split <;> split <;> omega
  rw [h, List.length_drop]
  omega

/-- C26: for a non-empty `m`, `rinstr(s, m)` ends after at most `len(s) + 1` searches and returns the greatest position at which `m` occurs
in `s`, 0 if there is none. -/
theorem C26_rinstr (s m : Str) (hm : m ≠ []) : ∃ r, (∀ fuel > s.length, rinstr fuel s m = .val r) ∧
    ((r = 0 ∧ ∀ p, ¬ OccursAt s m p) ∨ (OccursAt s m r ∧ ∀ p, OccursAt s m p → p ≤ r)) := by
  have hocc : ∀ p : Nat, OccursAt s m p → 1 ≤ p ∧ p ≤ s.length := by
    rintro p ⟨a, b, h, rfl⟩
    have : 0 < m.length := List.length_pos_iff.2 hm
    have := congrArg List.length h
    simp at this
    omega
  have key : ∀ (n pos : Nat), pos ≤ s.length → s.length - pos = n →
      ((pos = 0) ∨ OccursAt s m pos) → 
      ∃ r, (∀ fuel > n, rinstrGo s m fuel pos pos = .val r) ∧ 
        ((r = 0 ∧ ∀ p, ¬ OccursAt s m p) ∨ (OccursAt s m r ∧ ∀ p, OccursAt s m p → p ≤ r)) := by
    intro n
    induction n using Nat.strong_induction_on with
    | _ n ih =>
      intro pos hpos hn h0
      rcases C26_instr ((pos : Int) + 1) s m hm with ⟨h1, h2⟩ | ⟨h1, h2, h3⟩
      · refine ⟨pos, ?_, ?_⟩
        · intro fuel hf
          obtain ⟨f, rfl⟩ : ∃ f, fuel = f + 1 := ⟨fuel - 1, by omega⟩
          rw [rinstrGo]
          rw [h1, if_pos rfl]
        · rcases h0 with h0 | h0
          · left
            refine ⟨h0, fun p hp => h2 p ?_ hp⟩
            have := hocc p hp
            omega
          · right
            refine ⟨h0, fun p hp => ?_⟩
            by_contra hlt
            exact h2 p (by omega) hp
      · have h4 := hocc _ h2
        obtain ⟨r, hr, hr2⟩ := ih (s.length - instr ((pos : Int) + 1) s m) (by omega) _ h4.2 rfl (Or.inr h2)
        refine ⟨r, ?_, hr2⟩
        intro fuel hf
        obtain ⟨f, rfl⟩ : ∃ f, fuel = f + 1 := ⟨fuel - 1, by omega⟩
        rw [rinstrGo]
        rw [if_neg (by omega)]
        exact hr f (by omega)
  exact key s.length 0 (by omega) (by omega) (Or.inl rfl)

/-- C26 is false for an empty search string: `rinstr(s, "")` never ends. -/
theorem C26_rinstr_empty_never_ends (s : Str) (fuel : Nat) : rinstr fuel s [] = .fuel := by
  unfold rinstr
  suffices h : ∀ (fuel pos save : Nat), rinstrGo s [] fuel pos save = .fuel from h _ _ _
  intro fuel
  induction fuel with
  | zero => intro _ _; rfl
  | succ n ih =>
    intro pos save
    rw [rinstrGo]
    rw [C26_instr_empty, if_neg (by omega)]
    exact ih _ _

example : instr 3 "abcabc".toList "bc".toList = 5 ∧ rinstr 10 "abcabc".toList "bc".toList = .val 5 := by decide

end MM.Vstr
