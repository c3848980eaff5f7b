import Verif.Date.Model
import Verif.Date.Spec
import Verif.Vstr.Props
/-!
# C32: dates
-/
namespace MM.Date
open Vstr

theorem decimal_snoc (l : List Char) (c : Char) : decimal (l ++ [c]) = 10 * decimal l + (c.toNat - 48) := by
  simp [decimal, List.foldl_append]

theorem digit_range {c : Char} (h : c.isDigit = true) : 48 ≤ c.toNat ∧ c.toNat ≤ 57 := by
  simp only [Char.isDigit, Bool.and_eq_true, decide_eq_true_eq] at h
  exact ⟨h.1, h.2⟩

theorem digit_ne {c x : Char} (h : c.isDigit = true) (hx : x.isDigit = false) : c ≠ x := by
  rintro rfl; rw [h] at hx; cases hx

theorem valGo_digits : ∀ (l : List Char) (v : Int) (k : Nat), Digits l → l.length + k ≤ 15 →
    valGo l v (10 ^ k) false = .val (v + (decimal l.reverse : Nat) * 10 ^ k)
  | [], v, k, _, _ => by simp [valGo, decimal]
  | c :: t, v, k, hd, hk => by
    have hc := hd c (by simp)
    have hr := digit_range hc
    simp only [List.length_cons] at hk
    rw [valGo, if_neg (digit_ne hc (by decide)), if_neg (digit_ne hc (by decide)), if_pos hc]
    have hp : ¬ ((10 : Int) ^ k > 10 ^ 14) := by
      have := Nat.pow_le_pow_right (show 0 < 10 by decide) (show k ≤ 14 by omega)
      have h2 : ((10 ^ k : Nat) : Int) = (10 : Int) ^ k := by simp
      omega
    rw [if_neg hp]
    have he : (10 : Int) * 10 ^ k = 10 ^ (k + 1) := by rw [Int.pow_succ, Int.mul_comm]
    rw [he, valGo_digits t _ (k + 1) (fun x hx => hd x (by simp [hx])) (by omega), List.reverse_cons, decimal_snoc]
    congr 1
    rw [Int.pow_succ]
    generalize (10 : Int) ^ k = p
    have : ((c.toNat - 48 : Nat) : Int) = (c.toNat : Int) - 48 := by omega
    rw [Int.natCast_add, Int.natCast_mul, this]
    generalize (c.toNat : Int) - 48 = x
    generalize ((decimal t.reverse : Nat) : Int) = y
    rw [Int.add_mul, Int.add_assoc, Int.add_comm (x * p), Int.mul_comm (p) (10), ← Int.mul_assoc, Int.mul_comm y 10]
    rfl

theorem val_digits {l : List Char} (h : Digits l) (hl : l.length ≤ 15) : val l = .val (decimal l : Nat) := by
  have := valGo_digits l.reverse 0 0 (by intro c hc; exact h c (List.mem_reverse.1 hc)) (by simpa using hl)
  simpa [val] using this

theorem instrFrom_dash : ∀ (ds r : List Char) (p : Nat), '-' ∉ ds → instrFrom ['-'] (ds ++ '-' :: r) p = p + ds.length + 1
  | [], r, p, _ => by simp [instrFrom]
  | c :: ds, r, p, h => by
    have hc : ¬ '-' = c := by rintro rfl; simp at h
    rw [List.cons_append, instrFrom, if_neg (by simp [hc]), instrFrom_dash ds r (p + 1) (by intro h'; exact h (by simp [h']))]
    simp; omega

theorem instr_dash (a ds r : List Char) (h : '-' ∉ ds) : instr (a.length + 1 : Int) (a ++ (ds ++ '-' :: r)) ['-'] = a.length + ds.length + 1 := by
  unfold instr
  have h1 : ¬ ((a.length : Int) + 1 < 1) := by omega
  have h2 : ¬ ((a.length : Int) + 1 > (a ++ (ds ++ '-' :: r)).length) := by simp; omega
  simp only [if_neg h1, if_neg h2]
  have h3 : ((a.length : Int) + 1 - 1).toNat = a.length := by omega
  rw [h3, List.drop_left, instrFrom_dash _ _ _ h]

theorem digits_no_dash {l : List Char} (h : Digits l) : '-' ∉ l := by
  intro hc; have := h _ hc; revert this; decide

theorem months_all : ∀ m : Fin 12, ((monthNames.getD m.1 []).length = 3 ∧ '-' ∉ monthNames.getD m.1 [] ∧
    instr 1 months (monthNames.getD m.1 []) = 3 * m.1 + 1 ∧ mid months (((m.1 : Int) + 1) * 3 - 2) 3 = .val (monthNames.getD m.1 [])) := by decide +kernel

theorem months_ok (m : Nat) (hm : m < 12) (ms : List Char) (h : monthNames[m]? = some ms) :
    ms.length = 3 ∧ '-' ∉ ms ∧ instr 1 months ms = 3 * m + 1 ∧ mid months (((m : Int) + 1) * 3 - 2) 3 = .val ms := by
  have := months_all ⟨m, hm⟩
  have e : monthNames.getD m [] = ms := by rw [List.getD_eq_getElem?_getD, h]; rfl
  simp only [e] at this
  exact this

theorem isYear_full {ys : List Char} {y : Nat} (h : IsYear ys y) : ys.length ≤ 15 ∧ fullYear (decimal ys : Nat) = y := by
  obtain ⟨_, ⟨h1, h2, h3⟩ | ⟨h1, h2, h3, h4⟩⟩ := h
  · refine ⟨by omega, ?_⟩
    unfold fullYear
    rw [if_neg (by omega), h2]
  · refine ⟨by omega, ?_⟩
    unfold fullYear
    rw [if_pos (by omega)]
    by_cases h : decimal ys < 93
    · rw [if_pos (by omega)]; omega
    · rw [if_neg (by omega)]; omega

/-- How the parts of a text with two hyphens are used by `parseDate`. -/
theorem parse_parts {ds ms ys : List Char} {y : Nat} (hd : Digits ds) (hdl : ds.length = 1 ∨ ds.length = 2) (hml : ms.length = 3) (hmd : '-' ∉ ms)
    (hy : IsYear ys y) (mmm : Int) (hmm : mmm = Int.tdiv ((instr 1 months ms : Int) - 1) 3 + 1) :
    parseDate (ds ++ '-' :: (ms ++ '-' :: ys)) =
      .val ⟨decide ((decimal ds : Int) < 1 ∨ (decimal ds : Int) > 31 ∨ mmm < 1 ∨ mmm > 12), decimal ds, mmm, y⟩ := by
  have i1 := instr_dash [] ds (ms ++ '-' :: ys) (digits_no_dash hd)
  have i2 := instr_dash (ds ++ ['-']) ms ys hmd
  simp only [List.length_nil, List.nil_append, Nat.zero_add, Int.zero_add, Nat.cast_zero] at i1
  simp only [List.append_assoc, List.cons_append, List.nil_append, List.length_append, List.length_cons, List.length_nil] at i2
  unfold parseDate
  rw [i1]
  have l1 : left (ds ++ '-' :: (ms ++ '-' :: ys)) (((ds.length + 1 : Nat) : Int) - 1) = .val ds := by
    unfold left mid
    have : ¬ ((ds.length + 1 : Nat) : Int) - 1 < 0 := by omega
    have e : (((ds.length + 1 : Nat) : Int) - 1).toNat = ds.length := by omega
    simp only [if_neg this]
    rw [if_neg (by simp; omega), e]
    simp
  have l2 : mid (ds ++ '-' :: (ms ++ '-' :: ys)) (((ds.length + 1 : Nat) : Int) + 1) 3 = .val ms := by
    unfold mid
    have : ¬ ((ds.length + 1 : Nat) : Int) + 1 < 1 := by omega
    have e : (((ds.length + 1 : Nat) : Int) + 1 - 1).toNat = ds.length + 1 := by omega
    simp only [if_neg this]
    rw [if_neg (by simp; omega), if_neg (by decide), e]
    have : ds ++ '-' :: (ms ++ '-' :: ys) = (ds ++ ['-']) ++ (ms ++ '-' :: ys) := by simp
    rw [this, List.drop_left' (by simp)]
    have : (3 : Int).toNat = ms.length := by rw [hml]; rfl
    rw [this, List.take_left]
  have i2' : instr (((ds.length + 1 : Nat) : Int) + 1) (ds ++ '-' :: (ms ++ '-' :: ys)) ['-'] = ds.length + 5 := by
    have : (((ds.length + (0 + 1) : Nat) : Int) + 1) = (((ds.length + 1 : Nat) : Int) + 1) := by omega
    rw [this] at i2
    rw [i2, hml]
  have l3 : right (ds ++ '-' :: (ms ++ '-' :: ys)) (((ds.length + 5 : Nat) : Int) + 1) = .val ys := by
    unfold right seg mid
    have : ¬ ((ds.length + 5 : Nat) : Int) + 1 < 1 := by omega
    have e : (((ds.length + 5 : Nat) : Int) + 1 - 1).toNat = ds.length + 5 := by omega
    simp only [if_neg this]
    have hlen : (ds ++ '-' :: (ms ++ '-' :: ys)).length = ds.length + 5 + ys.length := by simp [hml]; omega
    rw [hlen, if_neg (by omega), if_neg (by omega), e]
    have : ds ++ '-' :: (ms ++ '-' :: ys) = (ds ++ '-' :: (ms ++ ['-'])) ++ ys := by simp
    rw [this, List.drop_left' (by simp [hml])]
    rw [List.take_of_length_le (by omega)]
  simp only []
  rw [l1, Out.bind_val, val_digits hd (by omega), Out.bind_val, l2, Out.bind_val, i2', l3, Out.bind_val, val_digits hy.1 (isYear_full hy).1, Out.bind_val,
    (isYear_full hy).2, ← hmm]

/-- **C32** A date is parsed into its day, month and year, without error. -/
theorem C32_parse {s : List Char} {d m y : Nat} (h : IsDate s d m y) : parseDate s = .val ⟨false, d, m, y⟩ := by
  obtain ⟨ds, ms, ys, rfl, hd, hdl, hdv, h1, h31, hm1, hms, hy⟩ := h
  have hm12 : m - 1 < 12 := by
    have := (List.getElem?_eq_some_iff.1 hms).1
    simpa [monthNames] using this
  obtain ⟨hml, hmd, hmi, _⟩ := months_ok _ hm12 _ hms
  have e : (m : Int) = Int.tdiv (((3 * (m - 1) + 1 : Nat) : Int) - 1) 3 + 1 := by
    have : ((3 * (m - 1) + 1 : Nat) : Int) - 1 = 3 * ((m - 1 : Nat) : Int) := by omega
    rw [this, Int.mul_tdiv_cancel_left _ (by decide)]
    omega
  rw [parse_parts hd hdl hml hmd hy m (by rw [hmi]; exact e), hdv]
  congr 2
  simp; omega

/-- **C32** Comparing two dates is chronological. -/
theorem C32_compare {s s' : List Char} {d m y d' m' y' : Nat} (h : IsDate s d m y) (h' : IsDate s' d' m' y') :
    ∃ r, compareDates s s' = .val r ∧ (r = -1 ↔ Before d m y d' m' y') ∧ (r = 0 ↔ d = d' ∧ m = m' ∧ y = y') ∧ (r = 1 ↔ Before d' m' y' d m y) := by
  have key : ∀ {s : List Char} {d m y : Nat}, IsDate s d m y → s ≠ [] ∧ 1 ≤ d ∧ d ≤ 31 ∧ 1 ≤ m ∧ m ≤ 12 := by
    rintro s d m y ⟨ds, ms, ys, rfl, hd, hdl, hdv, h1, h31, hm1, hms, hy⟩
    have := (List.getElem?_eq_some_iff.1 hms).1
    have : m - 1 < 12 := by simpa [monthNames] using this
    exact ⟨by simp, h1, h31, hm1, by omega⟩
  obtain ⟨n1, a1, a2, a3, a4⟩ := key h
  obtain ⟨n2, b1, b2, b3, b4⟩ := key h'
  unfold compareDates
  rw [if_neg (by simp [n1, n2]), C32_parse h, Out.bind_val, C32_parse h', Out.bind_val]
  simp only []
  have hB : ∀ {d m y d' m' y' : Nat}, 1 ≤ d → d ≤ 31 → 1 ≤ m → m ≤ 12 → 1 ≤ d' → d' ≤ 31 → 1 ≤ m' → m' ≤ 12 →
      (Before d m y d' m' y' ↔ (d : Int) + m * 32 + y * 500 < d' + m' * 32 + y' * 500) := by
    intro d m y d' m' y' _ _ _ _ _ _ _ _
    unfold Before
    rcases Nat.lt_trichotomy y y' with h | h | h
    · constructor <;> intro _ <;> omega
    · constructor <;> intro _ <;> omega
    · constructor <;> intro _ <;> omega
  have hE : (d = d' ∧ m = m' ∧ y = y') ↔ (d : Int) + m * 32 + y * 500 = d' + m' * 32 + y' * 500 := by
    rcases Nat.lt_trichotomy y y' with h | h | h
    · constructor <;> intro _ <;> omega
    · rcases Nat.lt_trichotomy m m' with h | h | h
      · constructor <;> intro _ <;> omega
      · constructor <;> intro _ <;> omega
      · constructor <;> intro _ <;> omega
    · constructor <;> intro _ <;> omega
  rw [hB a1 a2 a3 a4 b1 b2 b3 b4, hB b1 b2 b3 b4 a1 a2 a3 a4, hE]
  by_cases c1 : (d : Int) + m * 32 + y * 500 < d' + m' * 32 + y' * 500
  · rw [if_pos c1]; refine ⟨_, rfl, ?_, ?_, ?_⟩ <;> simp <;> omega
  · rw [if_neg c1]
    by_cases c2 : (d : Int) + m * 32 + y * 500 = d' + m' * 32 + y' * 500
    · rw [if_pos c2]; refine ⟨_, rfl, ?_, ?_, ?_⟩ <;> simp <;> omega
    · rw [if_neg c2]; refine ⟨_, rfl, ?_, ?_, ?_⟩ <;> simp <;> omega

/-- **C32** The empty text comes before every date. -/
theorem C32_compare_empty (s : List Char) (h : s ≠ []) : compareDates [] [] = .val 0 ∧ compareDates [] s = .val (-1) ∧ compareDates s [] = .val 1 := by
  refine ⟨rfl, ?_, ?_⟩ <;> unfold compareDates <;> simp [h]

/-! ## Building dates -/

theorem str_nat (n : Nat) : str n = Nat.toDigits 10 n := by
  unfold str
  have h1 : ¬ (n : Int) < 0 := by omega
  simp only [if_neg h1, List.nil_append, Int.natAbs_natCast]
  generalize Nat.toDigits 10 n = t
  have hl : (t ++ ".000000".toList).length - 1 = t.length + 6 := by simp
  have hg : ∀ i, (t ++ ".000000".toList)[t.length + i]? = ".000000".toList[i]? := by
    intro i; rw [List.getElem?_append_right (by omega)]; congr 1; omega
  have g : ∀ i, i < 7 → stripAt (t ++ ".000000".toList) (t.length + i) = t.length ∨ (i = 0) := by
    intro i hi
    induction i with
    | zero => exact Or.inr rfl
    | succ i ih =>
      left
      rw [← Nat.add_assoc, stripAt]
      have : (t ++ ".000000".toList)[t.length + i + 1]? = some '0' := by
        rw [Nat.add_assoc, hg]
        have : ∀ i : Fin 6, ".000000".toList[i.1 + 1]? = some '0' := by decide
        exact this ⟨i, by omega⟩
      rw [if_neg (by rw [this]; simp)]
      rcases ih (by omega) with h | h
      · exact h
      · subst h
        rw [Nat.add_zero]
        cases ht : t.length with
        | zero => rfl
        | succ k =>
          rw [stripAt, ← ht]
          have h0 := hg 0
          rw [Nat.add_zero] at h0
          rw [h0, if_pos (by decide)]
  rw [hl]
  rcases g 6 (by decide) with h | h
  · rw [h]
    have h0 := hg 0
    rw [Nat.add_zero] at h0
    rw [h0, if_pos (by decide), List.take_left]
  · cases h

theorem toDigits_digits (n : Nat) : Digits (Nat.toDigits 10 n) := by
  intro c hc
  exact Nat.isDigit_of_mem_toDigits (b := 10) (by decide) (by decide) hc

theorem decimal_toDigits (n : Nat) : decimal (Nat.toDigits 10 n) = n := by
  induction n using Nat.strong_induction_on with
  | _ n ih =>
    rw [Nat.toDigits_eq_if (by decide)]
    by_cases h : n < 10
    · rw [if_pos h]
      have := Nat.toNat_digitChar_of_lt_ten h
      simp [decimal, this]
    · rw [if_neg h, decimal_snoc, ih (n / 10) (by omega)]
      have := Nat.toNat_digitChar_of_lt_ten (show n % 10 < 10 by omega)
      rw [this]; omega

/-- **C32** A date built from its day, month and year is that date; so parsing it gives them back. -/
theorem C32_build {d m y : Nat} (h1 : 1 ≤ d) (h2 : d ≤ 31) (h3 : 1 ≤ m) (h4 : m ≤ 12) (h5 : 1000 ≤ y) (h6 : y ≤ 9999) :
    ∃ s, buildDate d m y = .val s ∧ IsDate s d m y ∧ parseDate s = .val ⟨false, d, m, y⟩ := by
  obtain ⟨ms, hms⟩ : ∃ ms, monthNames[m - 1]? = some ms := by
    exact ⟨_, List.getElem?_eq_getElem (by simp [monthNames]; omega)⟩
  obtain ⟨_, _, _, hmid⟩ := months_ok (m - 1) (by omega) ms hms
  have e : ((m - 1 : Nat) : Int) + 1 = m := by omega
  rw [e] at hmid
  have hD : IsDate (Nat.toDigits 10 d ++ '-' :: (ms ++ '-' :: Nat.toDigits 10 y)) d m y := by
    refine ⟨_, _, _, rfl, toDigits_digits d, ?_, decimal_toDigits d, h1, h2, h3, hms, toDigits_digits y, Or.inl ⟨?_, decimal_toDigits y, by omega⟩⟩
    · have a := (Nat.length_toDigits_le_iff (n := d) (b := 10) (k := 2) (by decide) (by decide)).2 (by omega)
      have b := Nat.length_toDigits_pos (n := d) (b := 10)
      omega
    · have a := (Nat.length_toDigits_le_iff (n := y) (b := 10) (k := 4) (by decide) (by decide)).2 (by omega)
      have b := (Nat.length_toDigits_le_iff (n := y) (b := 10) (k := 3) (by decide) (by decide)).not.2 (by omega)
      omega
  refine ⟨_, ?_, hD, C32_parse hD⟩
  unfold buildDate
  rw [hmid, Out.bind_val, str_nat, str_nat]
  simp [cat]

/-! ## What is not checked -/

/-- The month is not checked: any text in its place that is no part of `JanFeb…Dec` counts as January. -/
theorem C32_unknown_month_is_january {ds ms ys : List Char} {y : Nat} (hd : Digits ds) (hl : ds.length = 1 ∨ ds.length = 2)
    (hv : 1 ≤ decimal ds ∧ decimal ds ≤ 31) (hm : ms.length = 3) (hd' : '-' ∉ ms) (hn : ¬ ms <:+: months) (hy : IsYear ys y) :
    parseDate (ds ++ '-' :: (ms ++ '-' :: ys)) = .val ⟨false, decimal ds, 1, y⟩ := by
  have h0 : instr 1 months ms = 0 := by
    rcases C26_instr 1 months ms (by intro h; rw [h] at hm; cases hm) with ⟨h, _⟩ | ⟨_, h, _⟩
    · exact h
    · obtain ⟨a, b, hab, _⟩ := h
      exact absurd ⟨a, b, by simp [hab]⟩ hn
  rw [parse_parts hd hl hm hd' hy 1 (by rw [h0]; rfl)]
  congr 2
  simp; omega

example : parseDate "7-Foo-2020".toList = .val ⟨false, 7, 1, 2020⟩ := by decide +kernel

/-! ## Concrete cases -/

example : IsDate "9-Feb-2026".toList 9 2 2026 ∧ IsDate "31-Dec-99".toList 31 12 1999 := by
  refine ⟨⟨"9".toList, "Feb".toList, "2026".toList, ?_⟩, ⟨"31".toList, "Dec".toList, "99".toList, ?_⟩⟩ <;> unfold IsYear Digits <;> decide +kernel

example : compareDates "31-Dec-99".toList "9-Feb-2026".toList = .val (-1) := by decide +kernel

example : buildDate 9 2 2026 = .val "9-Feb-2026".toList := by decide +kernel

end MM.Date
