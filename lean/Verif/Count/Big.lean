import Verif.Count.Spec
import Mathlib.Tactic.Ring
import Mathlib.Tactic.Linarith

/-!
# Property C66: arithmetic on strings of digits
-/
namespace MM.Count

theorem value_foldl (s : Str) : ∀ n, s.foldl (fun n c => 10 * n + (c.toNat - 48)) n = n * 10 ^ s.length + value s := by
  induction s with
  | nil => intro n; simp [value]
  | cons c t ih =>
    intro n
    unfold value
    rw [List.foldl_cons, List.foldl_cons, ih, ih, List.length_cons, Nat.pow_succ]
    ring

theorem value_cons (c : Char) (t : Str) : value (c :: t) = (c.toNat - 48) * 10 ^ t.length + value t := by
  have h := value_foldl t (10 * 0 + (c.toNat - 48))
  rw [show value (c :: t) = t.foldl (fun n c => 10 * n + (c.toNat - 48)) (10 * 0 + (c.toNat - 48)) from rfl, h]
  simp

theorem digit_range {c : Char} (h : '0' ≤ c ∧ c ≤ '9') : 48 ≤ c.toNat ∧ c.toNat ≤ 57 := by
  obtain ⟨h1, h2⟩ := h
  exact ⟨h1, h2⟩

theorem range_digit {c : Char} (h : 48 ≤ c.toNat ∧ c.toNat ≤ 57) : '0' ≤ c ∧ c ≤ '9' := ⟨h.1, h.2⟩

theorem toNat_digitChar {d : Int} (h0 : 0 ≤ d) (h9 : d ≤ 9) : (digitChar d).toNat = d.toNat + 48 := by
  obtain ⟨n, rfl⟩ := Int.eq_ofNat_of_zero_le h0
  have hn : n < 10 := by omega
  have : ∀ k < 10, (digitChar (k : Nat)).toNat = k + 48 := by decide
  simpa using this n hn

theorem value_lt {s : Str} (h : IsNum s) : value s < 10 ^ s.length := by
  induction s with
  | nil => simp [value]
  | cons c t ih =>
    rw [value_cons, List.length_cons, Nat.pow_succ]
    have h1 := ih (fun x hx => h x (List.mem_cons_of_mem _ hx))
    have h2 := digit_range (h c List.mem_cons_self)
    have h3 : (c.toNat - 48) * 10 ^ t.length ≤ 9 * 10 ^ t.length := Nat.mul_le_mul_right _ (by omega)
    omega

/-- The value of the last `k` digits. -/
def low (s : Str) (k : Nat) : Nat := value (s.drop (s.length - k))

theorem low_all {s : Str} {k : Nat} (h : s.length ≤ k) : low s k = value s := by
  unfold low
  rw [Nat.sub_eq_zero_of_le h, List.drop_zero]

theorem digit_nonneg {s : Str} (h : IsNum s) (p : Nat) (hp : 1 ≤ p) : 0 ≤ digit s p ∧ digit s p ≤ 9 := by
  unfold digit
  split
  · next hl =>
    have hi : s.length - p < s.length := by omega
    rw [List.getD_eq_getElem?_getD, List.getElem?_eq_getElem hi, Option.getD_some]
    have := digit_range (h _ (List.getElem_mem hi))
    omega
  · omega

theorem low_succ {s : Str} (h : IsNum s) (k : Nat) : (low s (k + 1) : Int) = digit s (k + 1) * 10 ^ k + low s k := by
  by_cases hk : k + 1 ≤ s.length
  · unfold low digit
    rw [if_pos hk]
    have hi : s.length - (k + 1) < s.length := by omega
    rw [List.getD_eq_getElem?_getD, List.getElem?_eq_getElem hi, Option.getD_some]
    have e : s.length - k = s.length - (k + 1) + 1 := by omega
    rw [e, List.drop_eq_getElem_cons hi, value_cons]
    have hl : (s.drop (s.length - (k + 1) + 1)).length = k := by rw [List.length_drop]; omega
    rw [hl]
    have := digit_range (h _ (List.getElem_mem hi))
    push_cast
    rw [Int.ofNat_sub (by omega)]
    push_cast
    ring
  · rw [low_all (by omega), low_all (by omega)]
    unfold digit
    rw [if_neg hk]
    simp

theorem addLoop_ok {a b : Str} (ha : IsNum a) (hb : IsNum b) : ∀ (count p : Nat) (carry : Int) (acc : Str), (carry = 0 ∨ carry = 1) → IsNum acc → acc.length = p →
    (value acc : Int) + carry * 10 ^ p = low a p + low b p →
    ∃ (c : Int) (r : Str), addLoop a b count (p + 1) carry acc = (c, r) ∧ (c = 0 ∨ c = 1) ∧ IsNum r ∧ r.length = p + count ∧
      (value r : Int) + c * 10 ^ (p + count) = low a (p + count) + low b (p + count)
  | 0, p, carry, acc, hc, hn, hl, hv => ⟨carry, acc, rfl, hc, hn, hl, hv⟩
  | count + 1, p, carry, acc, hc, hn, hl, hv => by
    have h1 := digit_nonneg ha (p + 1) (by omega)
    have h2 := digit_nonneg hb (p + 1) (by omega)
    have ea := low_succ ha p
    have eb := low_succ hb p
    have key : ∀ (d k : Int), 0 ≤ d → d ≤ 9 → (k = 0 ∨ k = 1) → d + k * 10 = digit a (p + 1) + digit b (p + 1) + carry →
        IsNum (digitChar d :: acc) ∧ (value (digitChar d :: acc) : Int) + k * 10 ^ (p + 1) = low a (p + 1) + low b (p + 1) := by
      intro d k h0 h9 _ he
      constructor
      · intro x hx
        rcases List.mem_cons.1 hx with rfl | hx
        · apply range_digit
          rw [toNat_digitChar h0 h9]
          omega
        · exact hn x hx
      · rw [value_cons, toNat_digitChar h0 h9, hl, ea, eb]
        have hd : (d.toNat : Int) = d := by omega
        push_cast
        rw [hd, pow_succ]
        have hd' : d = digit a (p + 1) + digit b (p + 1) + carry - k * 10 := by omega
        have : (value acc : Int) = low a p + low b p - carry * 10 ^ p := by omega
        rw [this, hd']
        ring
    rw [addLoop]
    have el : p + (count + 1) = p + 1 + count := by omega
    rw [el]
    split
    · next hg =>
      obtain ⟨k1, k2⟩ := key (digit a (p + 1) + digit b (p + 1) + carry - 10) 1 (by omega) (by omega) (Or.inr rfl) (by omega)
      exact addLoop_ok ha hb count (p + 1) 1 _ (Or.inr rfl) k1 (by rw [List.length_cons, hl]) k2
    · next hg =>
      obtain ⟨k1, k2⟩ := key (digit a (p + 1) + digit b (p + 1) + carry) 0 (by omega) (by omega) (Or.inl rfl) (by omega)
      exact addLoop_ok ha hb count (p + 1) 0 _ (Or.inl rfl) k1 (by rw [List.length_cons, hl]) k2

theorem dropZeros_num {s : Str} (h : IsNum s) : IsNum (dropZeros s) :=
  fun c hc => h c (List.IsSuffix.mem hc (List.dropWhile_suffix _))

theorem dropZeros_value (s : Str) : value (dropZeros s) = value s := by
  unfold dropZeros
  induction s with
  | nil => rfl
  | cons c t ih =>
    rw [List.dropWhile_cons]
    by_cases hc : c = '0'
    · subst hc
      rw [if_pos (by decide), ih, value_cons]
      simp
    · rw [if_neg (by simpa using hc)]

theorem dropZeros_head (s : Str) : (dropZeros s).head? ≠ some '0' := by
  unfold dropZeros
  induction s with
  | nil => simp
  | cons c t ih =>
    rw [List.dropWhile_cons]
    by_cases hc : c = '0'
    · subst hc
      rw [if_pos (by decide)]
      exact ih
    · rw [if_neg (by simpa using hc)]
      simpa using hc

/-- **C66.** The program's addition of arbitrarily long decimal numbers: the result is the sum, written without leading zeros (0 is the empty string). -/
theorem C66_add {a b : Str} (ha : IsNum a) (hb : IsNum b) :
    IsNum (bigAdd a b) ∧ value (bigAdd a b) = value a + value b ∧ (bigAdd a b).head? ≠ some '0' := by
  obtain ⟨c, r, e, hc, hn, hl, hv⟩ := addLoop_ok ha hb (max a.length b.length) 0 0 [] (Or.inl rfl) (by intro c hc; cases hc) rfl
    (by simp [low, value])
  have eB : bigAdd a b = dropZeros (digitChar c :: r) := by
    unfold bigAdd
    rw [show (1 : Nat) = 0 + 1 from rfl, e]
  have hd : 0 ≤ c ∧ c ≤ 9 := by omega
  have hnum : IsNum (digitChar c :: r) := by
    intro x hx
    rcases List.mem_cons.1 hx with rfl | hx
    · apply range_digit
      rw [toNat_digitChar hd.1 hd.2]
      omega
    · exact hn x hx
  refine ⟨?_, ?_, ?_⟩
  · rw [eB]; exact dropZeros_num hnum
  · rw [eB, dropZeros_value, value_cons, toNat_digitChar hd.1 hd.2, hl]
    rw [low_all (by omega), low_all (by omega)] at hv
    have hcc : ((c.toNat : Nat) : Int) = c := by omega
    have : ((c.toNat + 48 - 48) * 10 ^ (0 + max a.length b.length) + value r : Nat) = value a + value b := by
      zify
      rw [show ((c.toNat + 48 - 48 : Nat) : Int) = c by omega]
      linarith
    exact this
  · rw [eB]; exact dropZeros_head _

theorem nines_num {s : Str} (h : IsNum s) : IsNum (nines s) := by
  intro c hc
  obtain ⟨d, hd, rfl⟩ := List.mem_map.1 hc
  have := digit_range (h d hd)
  apply range_digit
  rw [toNat_digitChar (by omega) (by omega)]
  omega

theorem nines_length (s : Str) : (nines s).length = s.length := List.length_map _

theorem nines_value {s : Str} (h : IsNum s) : value (nines s) + value s + 1 = 10 ^ s.length := by
  induction s with
  | nil => rfl
  | cons c t ih =>
    have h1 := ih (fun x hx => h x (List.mem_cons_of_mem _ hx))
    have h2 := digit_range (h c List.mem_cons_self)
    rw [show nines (c :: t) = digitChar (9 - ((c.toNat : Int) - 48)) :: nines t from rfl, value_cons, value_cons, nines_length,
      toNat_digitChar (by omega) (by omega), List.length_cons, Nat.pow_succ, ← h1]
    obtain ⟨k, hk⟩ : ∃ k, c.toNat = 48 + k := ⟨c.toNat - 48, by omega⟩
    rw [hk]
    have e1 : (9 - (((48 + k : Nat) : Int) - 48)).toNat + 48 - 48 = 9 - k := by omega
    rw [e1, show 48 + k - 48 = k by omega]
    have : (9 - k) + k = 9 := by omega
    generalize 9 - k = m at *
    have hm : m = 9 - k := by omega
    have : m * (value (nines t) + value t + 1) + k * (value (nines t) + value t + 1) = 9 * (value (nines t) + value t + 1) := by rw [← Nat.add_mul, this]
    linarith

theorem zeros_value (k : Nat) (s : Str) : value (List.replicate k '0' ++ s) = value s := by
  induction k with
  | zero => rfl
  | succ k ih =>
    rw [List.replicate_succ, List.cons_append, value_cons, ih]
    simp

theorem canon_length {s : Str} (h : IsNum s) (h0 : s.head? ≠ some '0') {k : Nat} (hv : value s < 10 ^ k) : s.length ≤ k := by
  cases s with
  | nil => simp
  | cons c t =>
    have hc := digit_range (h c List.mem_cons_self)
    have h1 : c ≠ '0' := by intro e; exact h0 (by rw [e]; rfl)
    have h2 : c.toNat ≠ 48 := fun e => h1 (Char.ext (UInt32.toNat_inj.1 e))
    rw [value_cons] at hv
    have h3 : 1 * 10 ^ t.length ≤ (c.toNat - 48) * 10 ^ t.length := Nat.mul_le_mul_right _ (by omega)
    have h4 : 10 ^ t.length < 10 ^ k := by omega
    have := (Nat.pow_lt_pow_iff_right (a := 10) (by omega)).1 h4
    rw [List.length_cons]
    omega

/-- **C66.** The program's subtraction: if the first number is not smaller than the second, the result is the difference, written without leading zeros. -/
theorem C66_sub {a b : Str} (ha : IsNum a) (hb : IsNum b) (hle : value b ≤ value a) :
    IsNum (bigSub a b) ∧ value (bigSub a b) = value a - value b ∧ (bigSub a b).head? ≠ some '0' := by
  obtain ⟨h1, h2, h3⟩ := C66_add (nines_num ha) hb
  have hna := nines_value ha
  have hlen : (bigAdd (nines a) b).length ≤ a.length := canon_length h1 h3 (by rw [h2]; omega)
  have key : ∃ r : Str, IsNum r ∧ r.length = a.length ∧ value r = value (nines a) + value b ∧ bigSub a b = dropZeros (nines r) := by
    unfold bigSub
    dsimp only
    split
    · next hl =>
      refine ⟨_, ?_, ?_, ?_, rfl⟩
      · intro c hc
        rcases List.mem_append.1 hc with hc | hc
        · rw [List.eq_of_mem_replicate hc]; decide
        · exact h1 c hc
      · rw [List.length_append, List.length_replicate]; omega
      · rw [zeros_value, h2]
    · next hl => exact ⟨_, h1, by omega, h2, rfl⟩
  obtain ⟨r, hr, hrl, hrv, e⟩ := key
  have hnr := nines_value hr
  refine ⟨?_, ?_, ?_⟩
  · rw [e]; exact dropZeros_num (nines_num hr)
  · rw [e, dropZeros_value]
    rw [hrl] at hnr
    omega
  · rw [e]; exact dropZeros_head _

/-- A concrete case with carries and leading zeros. -/
theorem C66_add_example : bigAdd "0099".toList "901".toList = "1000".toList ∧ IsNum "0099".toList ∧ IsNum "901".toList := by
  refine ⟨by decide, ?_, ?_⟩ <;> (unfold IsNum; decide)

theorem C66_sub_example : bigSub "1000".toList "001".toList = "999".toList ∧ bigSub "7".toList "7".toList = [] ∧ value "001".toList ≤ value "1000".toList := by
  refine ⟨by decide, by decide, by decide⟩

/-- Outside that range the result is arbitrary: 0 - 1 gives 8. -/
theorem C66_sub_negative : bigSub [] ['1'] = ['8'] := by decide

end MM.Count
