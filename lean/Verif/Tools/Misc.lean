import Verif.Tools.Sort
import Verif.Date.Props
/-!
# C84: PARALLEL, NUMBER, COUNT, COPY
-/
namespace MM.Tools
open MM.Vstr MM.Date

/-! ## PARALLEL -/

/-- **C84, PARALLEL.** Line `i` is line `i` of the one file, the string, and line `i` of the other file; the shorter file is as if it had empty lines at the end. -/
theorem C84_parallel (b : Str) : ∀ (as bs : List Str), (parallel b as bs).length = max as.length bs.length ∧
    ∀ i, i < max as.length bs.length → (parallel b as bs)[i]? = some (as.getD i [] ++ b ++ bs.getD i [])
  | [], [] => by simp [parallel]
  | x :: as, [] => by
    obtain ⟨h1, h2⟩ := C84_parallel b as []
    rw [parallel]
    refine ⟨by simp at h1 ⊢; omega, fun i hi => ?_⟩
    cases i with
    | zero => simp
    | succ i => simpa using h2 i (by simp at hi ⊢; omega)
  | [], y :: bs => by
    obtain ⟨h1, h2⟩ := C84_parallel b [] bs
    rw [parallel]
    refine ⟨by simp at h1 ⊢; omega, fun i hi => ?_⟩
    cases i with
    | zero => simp
    | succ i => simpa using h2 i (by simp at hi ⊢; omega)
  | x :: as, y :: bs => by
    obtain ⟨h1, h2⟩ := C84_parallel b as bs
    rw [parallel]
    refine ⟨by simp at h1 ⊢; omega, fun i hi => ?_⟩
    cases i with
    | zero => simp
    | succ i => simpa using h2 i (by simp at hi ⊢; omega)

example : parallel "-".toList ["a".toList, "b".toList, "c".toList] ["d".toList] = ["a-d".toList, "b-".toList, "c-".toList] := by simp [parallel]

/-! ## NUMBER -/

/-- **C84, NUMBER.** With an increment of at least 1 the numbers `first`, `first + inc`, … up to `last` are written. -/
theorem C84_number {inc : Int} (hi : 1 ≤ inc) {last : Int} : ∀ (f : Nat) (first : Int), (last - first).toNat + 2 ≤ f →
    ∃ ls, number f first last inc = .val ls ∧ ∀ k : Nat, ls[k]? = if first + k * inc ≤ last then some (str (first + k * inc)) else none
  | 0, first, h => by omega
  | f + 1, first, h => by
    rw [number]
    by_cases hc : first ≤ last
    · rw [if_pos hc]
      have hfu : (last - (first + inc)).toNat + 2 ≤ f ∨ last < first + inc := by omega
      have key : ∃ ls, number f (first + inc) last inc = .val ls ∧ ∀ k : Nat, ls[k]? = if first + inc + k * inc ≤ last then some (str (first + inc + k * inc)) else none := by
        rcases hfu with hfu | hlt
        · exact C84_number hi f (first + inc) hfu
        · obtain ⟨f', rfl⟩ : ∃ f', f = f' + 1 := ⟨f - 1, by omega⟩
          refine ⟨[], by rw [number, if_neg (by omega)], fun k => ?_⟩
          have : (0 : Int) ≤ k * inc := Int.mul_nonneg (by omega) (by omega)
          rw [if_neg (by omega)]
          rfl
      obtain ⟨ls, e, h2⟩ := key
      rw [e, Out.bind_val]
      refine ⟨_, rfl, fun k => ?_⟩
      cases k with
      | zero => simp [hc]
      | succ k =>
        rw [List.getElem?_cons_succ, h2 k]
        have : first + ((k + 1 : Nat) : Int) * inc = first + inc + k * inc := by
          rw [Int.natCast_succ, Int.add_mul]; omega
        rw [this]
    · rw [if_neg hc]
      refine ⟨[], rfl, fun k => ?_⟩
      have : (0 : Int) ≤ k * inc := Int.mul_nonneg (by omega) (by omega)
      rw [if_neg (by omega)]
      rfl

/-- The numbers are written in decimal. -/
theorem C84_number_digits (n : Nat) : Digits (str n) ∧ decimal (str n) = n := by
  rw [str_nat]
  exact ⟨toDigits_digits n, decimal_toDigits n⟩

/-- A defect: with an increment that is not positive NUMBER does not end (and goes on writing to the file). -/
theorem C84_number_endless {inc : Int} (hi : inc ≤ 0) {last : Int} : ∀ (f : Nat) (first : Int), first ≤ last → number f first last inc = .fuel
  | 0, _, _ => rfl
  | f + 1, first, h => by
    rw [number, if_pos h, C84_number_endless hi f (first + inc) (by omega)]
    rfl

example : number 10 3 10 3 = .val ["3".toList, "6".toList, "9".toList] := by decide +kernel

/-! ## COUNT -/

theorem countGo_spec {m l : Str} (hm : m ≠ []) : ∀ (f p n : Nat) (ps : List Nat), Occurrences l m p ps → p ≤ l.length → l.length + 1 < f + p →
    ∃ qs, Occurrences l m (l.length + 1) qs ∧ ps.length ≤ qs.length ∧ countGo m l f p n = .val (n + (qs.length - ps.length))
  | 0, p, n, ps, h1, h2, h3 => by omega
  | f + 1, p, n, ps, h1, h2, h3 => by
    rw [countGo]
    rcases instr_cases l hm (p + 1) with ⟨e, hn⟩ | ⟨x, y, hf, e⟩
    · have e : instr ((p : Int) + 1) l m = 0 := e
      rw [e, if_pos rfl]
      refine ⟨ps, ⟨h1.1, fun i => ?_⟩, Nat.le_refl _, by simp⟩
      rw [h1.2]
      constructor
      · rintro ⟨a, b⟩
        exact ⟨a, by omega⟩
      · rintro ⟨a, b⟩
        exact ⟨a, Classical.byContradiction fun hc => hn i (by omega) a⟩
    · have e : instr ((p : Int) + 1) l m = x.length + 1 := e
      have hx := first_len hm hf
      have hfr := hf.from_
      rw [e, if_neg (by omega)]
      obtain ⟨qs, h4, h5, h6⟩ := countGo_spec hm f (x.length + 1) (n + 1) (ps ++ [x.length + 1]) (occ_next h1 hf) (by omega) (by omega)
      rw [List.length_append, List.length_singleton] at h5 h6
      exact ⟨qs, h4, by omega, by rw [h6]; congr 1; omega⟩

theorem occ_none {l m : Str} : Occurrences l m 0 [] := ⟨by simp, fun i => ⟨fun h => by simp at h, fun h => absurd (occurs_bound h.1).1 (by omega)⟩⟩

theorem count_go {m : Str} (hm : m ≠ []) : ∀ (ls : List Str) (n p2 p1 : Nat), ∃ pss : List (List Nat), List.Forall₂ (fun l ps => Occurrences l m (l.length + 1) ps) ls pss ∧
    count m ls (n, p2, p1) = .val (n + ls.length, p2 + (pss.map List.length).sum, p1 + pss.countP fun ps => decide (ps ≠ []))
  | [], n, p2, p1 => ⟨[], .nil, rfl⟩
  | l :: ls, n, p2, p1 => by
    rw [count]
    rcases instr_cases l hm 1 with ⟨e, hn⟩ | ⟨x, y, hf, e⟩
    · have e : instr 1 l m = 0 := e
      rw [if_neg (by rw [e]; simp)]
      obtain ⟨pss, h1, h2⟩ := count_go hm ls (n + 1) p2 p1
      refine ⟨[] :: pss, .cons ⟨by simp, fun i => ⟨fun h => by simp at h, fun h => absurd h.1 (hn i (occurs_bound h.1).1)⟩⟩ h1, ?_⟩
      rw [h2]
      simp
      omega
    · have e : instr 1 l m = x.length + 1 := e
      rw [if_pos (by rw [e]; omega)]
      obtain ⟨qs, h3, _, h4⟩ := countGo_spec (l := l) hm (l.length + 2) 0 p2 [] occ_none (by omega) (by omega)
      have h4 : countGo m l (l.length + 2) 0 p2 = .val (p2 + (qs.length - 0)) := h4
      rw [h4, Out.bind_val]
      obtain ⟨pss, h1, h2⟩ := count_go hm ls (n + 1) (p2 + (qs.length - 0)) (p1 + 1)
      refine ⟨qs :: pss, .cons h3 h1, ?_⟩
      have hq : qs ≠ [] := by
        have hmem : x.length + 1 ∈ qs := (h3.2 _).mpr ⟨⟨x, y, hf.eq, rfl⟩, by have := first_len hm hf; omega⟩
        rintro rfl
        simp at hmem
      rw [h2]
      simp [hq]
      omega

/-- **C84, COUNT.** The numbers reported: of the lines, of all positions where the string occurs (occurrences may overlap), and of the lines where it occurs. -/
theorem C84_count {m : Str} (hm : m ≠ []) (ls : List Str) : ∃ pss : List (List Nat), List.Forall₂ (fun l ps => ps.Pairwise (· < ·) ∧ ∀ i, i ∈ ps ↔ OccursAt l m i) ls pss ∧
    count m ls (0, 0, 0) = .val (ls.length, (pss.map List.length).sum, pss.countP fun ps => decide (ps ≠ [])) := by
  obtain ⟨pss, h1, h2⟩ := count_go hm ls 0 0 0
  refine ⟨pss, ?_, by simpa using h2⟩
  clear h2
  induction h1 with
  | nil => exact .nil
  | @cons l ps _ _ h _ ih =>
    refine .cons ⟨h.1, fun i => ?_⟩ ih
    rw [h.2]
    exact ⟨fun h => h.1, fun h => ⟨h, by have := occurs_bound h; omega⟩⟩

/-- A defect: COUNT does not end for an empty string if the file is not empty. -/
theorem C84_count_endless (l : Str) : ∀ (f : Nat) (p : Int) (n : Nat), instr 1 l [] ≠ 0 ∧ countGo [] l f p n = .fuel
  | 0, _, _ => ⟨by rw [C26_instr_empty]; omega, rfl⟩
  | f + 1, p, n => by
    refine ⟨by rw [C26_instr_empty]; omega, ?_⟩
    rw [countGo, C26_instr_empty, if_neg (by omega)]
    exact (C84_count_endless l f _ _).2

/-- A defect: SUBSTITUTE does not end for an empty string and ALL. -/
theorem C84_substitute_endless (new : Str) : ∀ (f : Nat) (s : Str) (p1 p : Int), substGo [] new (-1) f s p1 p = .fuel
  | 0, _, _, _ => rfl
  | f + 1, s, p1, p => by
    rw [substGo, C26_instr_empty, if_neg (by omega), if_pos (Or.inr rfl), C25_left, Out.bind_val, C25_right, Out.bind_val, if_neg (by simp)]
    exact C84_substitute_endless new f _ _ _

example : count "aa".toList ["aaa".toList, "b".toList, "caa".toList] (0, 0, 0) = .val (3, 3, 2) := by decide +kernel

/-! ## COPY -/

theorem comma_first {x r : Str} (hx : ',' ∉ x) : instr 1 (x ++ [','] ++ r) [','] = x.length + 1 := by
  rcases instr_cases (x ++ [','] ++ r) (m := [',']) (by simp) 1 with ⟨e, hn⟩ | ⟨a, b, hf, e⟩
  · exact absurd ⟨x, r, rfl, rfl⟩ (hn (x.length + 1) (by omega))
  · have e : instr 1 (x ++ [','] ++ r) [','] = a.length + 1 := e
    rw [e]
    rcases Nat.lt_trichotomy a.length x.length with h | h | h
    · exfalso
      apply hx
      have h1 : a ++ [','] <+: x := by
        have h2 : a ++ [','] <+: x ++ ([','] ++ r) := ⟨b, by rw [← List.append_assoc, hf.eq]⟩
        exact List.prefix_of_prefix_length_le h2 (List.prefix_append x _) (by simp; omega)
      obtain ⟨t, rfl⟩ := h1
      simp
    · omega
    · exact absurd ⟨x, r, rfl, rfl⟩ (hf.first (x.length + 1) (by omega) (by omega))

theorem copyGo_spec (disk : Str → Option (List Str)) : ∀ (fs : List Str) (f : Nat) (acc : List Str), (∀ x ∈ fs, ',' ∉ x) → fs.length < f →
    copyGo disk f (fs.map (· ++ [','])).flatten acc = .val (if ∀ x ∈ fs, (disk x).isSome then some (acc ++ fs.flatMap fun x => (disk x).getD []) else none)
  | _, 0, _, _, h => absurd h (Nat.not_lt_zero _)
  | [], f + 1, acc, _, _ => by simp [copyGo]
  | x :: fs, f + 1, acc, hx, h => by
    rw [copyGo, List.map_cons, List.flatten_cons, if_neg (by simp)]
    have hc := comma_first (x := x) (r := (fs.map (· ++ [','])).flatten) (hx x (by simp))
    rw [hc, show ((x.length + 1 : Nat) : Int) - 1 = (x.length : Nat) by omega, left_take, Out.bind_val, right_drop, Out.bind_val]
    have e1 : (x ++ [','] ++ (fs.map (· ++ [','])).flatten).take x.length = x := by rw [List.append_assoc, List.take_left]
    have e2 : (x ++ [','] ++ (fs.map (· ++ [','])).flatten).drop (x.length + 1) = (fs.map (· ++ [','])).flatten := by
      rw [show x.length + 1 = (x ++ [',']).length by simp, List.drop_left]
    rw [e1, e2]
    cases hd : disk x with
    | none => simp [hd]
    | some ls =>
      show copyGo disk f _ (acc ++ ls) = _
      rw [copyGo_spec disk fs f (acc ++ ls) (fun y hy => hx y (by simp [hy])) (by simpa using h)]
      simp [hd]

/-- **C84, COPY.** For the list `x,y,…` of files the lines of all of them are written one after the other; if one of them cannot be opened, nothing is. -/
theorem C84_copy (disk : Str → Option (List Str)) {fs : List Str} (h0 : fs ≠ []) (hx : ∀ x ∈ fs, ',' ∉ x) :
    copy disk ([','].intercalate fs) = .val (if ∀ x ∈ fs, (disk x).isSome then some (fs.flatMap fun x => (disk x).getD []) else none) := by
  have e : ∀ gs : List Str, gs ≠ [] → [','].intercalate gs ++ [','] = (gs.map (· ++ [','])).flatten ∧ gs.length ≤ ([','].intercalate gs).length + 1 := by
    intro gs hg
    induction gs with
    | nil => exact absurd rfl hg
    | cons g gs ih =>
      cases gs with
      | nil => simp [List.intercalate]
      | cons k gs =>
        have := ih (by simp)
        have e3 : [','].intercalate (g :: k :: gs) = g ++ ',' :: [','].intercalate (k :: gs) := by simp [List.intercalate, List.intersperse]
        rw [e3]
        refine ⟨?_, ?_⟩
        · rw [List.map_cons, List.flatten_cons, ← this.1]
          simp
        · have h2 := this.2
          simp at h2 ⊢
          omega
  unfold copy
  rw [(e fs h0).1, copyGo_spec disk fs _ [] hx (by have := (e fs h0).2; omega), List.nil_append]

example : copy (fun x => if x = "a".toList then some ["1".toList] else if x = "b".toList then some ["2".toList, "3".toList] else none) "a,a,b".toList =
    .val (some ["1".toList, "1".toList, "2".toList, "3".toList]) := by decide +kernel

end MM.Tools
