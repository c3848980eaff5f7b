import Verif.Long.Spec
import Verif.Vstr.Props
/-!
# `printLongLine` breaks lines as it should
-/
namespace MM.Long
open MM.Vstr

theorem left_eq (s : Str) (n : Int) : left s n = .val (s.take n.toNat) := by
  rw [C25_left, chars_eq s n (Int.le_refl 1)]
  simp

theorem right_eq {s : Str} {n : Nat} (h : 1 ≤ n) : right s (n : Int) = .val (s.drop (n - 1)) := by
  rw [C25_right, chars_eq s _ (by omega)]
  rw [List.take_of_length_le (by simp; omega)]
  congr 2
  omega

theorem ch_lt {s : Str} {i : Nat} (h : i < s.length) : ch s i = .val s[i] := by unfold ch; rw [dif_pos h]

theorem ch_le {s : Str} {i : Nat} (h : i ≤ s.length) : ∃ d, ch s i = .val d := by
  unfold ch
  split
  · exact ⟨_, rfl⟩
  · rw [if_pos (by omega)]; exact ⟨_, rfl⟩

/-- The break characters are spaces or do not occur. -/
def SetOk (c : Cfg) (line : Str) : Prop := NUL ∉ line ∧ ∀ d ∈ c.set, d = ' ' ∨ d ∉ line

theorem backSearch_eq {c : Cfg} {line : Str} (hs : SetOk c line) : ∀ p ≤ line.length, ∃ q, backSearch c.set line p = .val q ∧ q ≤ p ∧
    ((q = 0 ∧ ∀ d ∈ line.take p, d ∉ c.set) ∨ (0 < q ∧ ∃ h : q - 1 < line.length, line[q - 1] = ' '))
  | 0, _ => ⟨0, rfl, Nat.le_refl _, Or.inl ⟨rfl, by simp⟩⟩
  | p + 1, h => by
    rw [backSearch, ch_lt (by omega), Out.bind_val]
    by_cases hd : line[p] ∈ c.set ∨ line[p] = NUL
    · rw [if_pos hd]
      refine ⟨p + 1, rfl, Nat.le_refl _, Or.inr ⟨by omega, by omega, ?_⟩⟩
      show line[p] = ' '
      rcases hd with hd | hd
      · rcases hs.2 _ hd with h | h
        · exact h
        · exact absurd (List.getElem_mem _) h
      · exact absurd (hd ▸ List.getElem_mem (l := line) (n := p) (by omega)) hs.1
    · rw [if_neg hd]
      obtain ⟨q, h1, h2, h3⟩ := backSearch_eq hs p (by omega)
      refine ⟨q, h1, by omega, ?_⟩
      rcases h3 with ⟨h3, h4⟩ | h3
      · refine Or.inl ⟨h3, ?_⟩
        intro d hd'
        rw [List.take_succ_eq_append_getElem (by omega), List.mem_append] at hd'
        rcases hd' with hd' | hd'
        · exact h4 d hd'
        · simp at hd'; subst hd'; exact fun h => hd (Or.inl h)
      · exact Or.inr h3

theorem inCode_eq {line : Str} {p : Nat} (h1 : 4 ≤ p) (h2 : p ≤ line.length) : ∃ r, inCode line p = .val r ∧
    (r = true → (' ' ∉ (line.drop (p - 1)).take ((line.drop (p - 1)).length - 3) ∧ line[p - 3]'(by omega) ≠ ' ') ∨ line[p - 4]'(by omega) = ')') ∧
    (r = false → ' ' ∈ (line.drop (p - 1)).take ((line.drop (p - 1)).length - 3) ∨ line[p - 3]'(by omega) = ' ') := by
  unfold inCode
  rw [left_eq, Out.bind_val, ch_lt (show p - 3 < line.length by omega), ch_lt (show p - 4 < line.length by omega)]
  dsimp only [Out.bind_val]
  have hT : (if instr (p : Int) (line.take ((line.length : Int) - 3).toNat) [' '] = 0 then Out.val (decide (line[p - 3]'(by omega) ≠ ' ')) else Out.val false) =
      Out.val (decide (instr (p : Int) (line.take ((line.length : Int) - 3).toNat) [' '] = 0 ∧ line[p - 3]'(by omega) ≠ ' ')) := by
    by_cases h : instr (p : Int) (line.take ((line.length : Int) - 3).toNat) [' '] = 0
    · rw [if_pos h]; simp [h]
    · rw [if_neg h]; simp [h]
  rw [hT, Out.bind_val]
  by_cases hA : instr (p : Int) (line.take ((line.length : Int) - 3).toNat) [' '] = 0 ∧ line[p - 3]'(by omega) ≠ ' '
  · rw [if_pos (by simpa using hA)]
    refine ⟨true, rfl, fun _ => Or.inl ⟨?_, hA.2⟩, (by intro h; cases h)⟩
    intro hm
    rcases C26_instr (p : Int) (line.take ((line.length : Int) - 3).toNat) [' '] (by simp) with ⟨_, h3⟩ | ⟨h3, ⟨a, b, _, h4⟩, _⟩
    · obtain ⟨k, hk, he⟩ := List.mem_iff_getElem.1 hm
      rw [List.length_take, List.length_drop] at hk
      have he' : line[p - 1 + k]'(by omega) = ' ' := by rw [← he]; simp
      refine h3 (p + k) (by omega) ⟨line.take (p - 1 + k), (line.drop (p + k)).take (line.length - 3 - (p + k)), ?_, by rw [List.length_take]; omega⟩
      have e1 : line.take (line.length - 3) = (line.take (p + k)) ++ (line.drop (p + k)).take (line.length - 3 - (p + k)) := by
        rw [← List.take_add]
        congr 1
        omega
      have e2 : line.take (p + k) = line.take (p - 1 + k) ++ [' '] := by
        rw [← he', show p + k = p - 1 + k + 1 by omega, List.take_succ_eq_append_getElem (by omega)]
      rw [show (((line.length : Int) - 3).toNat) = line.length - 3 by omega, e1, e2]
    · rw [hA.1] at h4; omega
  · rw [if_neg (by simpa using hA)]
    refine ⟨_, rfl, ?_, ?_⟩
    · intro h
      right
      simpa using h
    · intro _
      by_cases hx : line[p - 3]'(by omega) = ' '
      · exact Or.inr hx
      left
      rcases C26_instr (p : Int) (line.take ((line.length : Int) - 3).toNat) [' '] (by simp) with ⟨h3, _⟩ | ⟨h3, ⟨a, b, h4, h5⟩, _⟩
      · exact absurd ⟨h3, hx⟩ hA
      · have hl := congrArg List.length h4
        rw [List.length_take, List.length_append, List.length_append] at hl
        simp at hl
        have e : (line.take ((line.length : Int) - 3).toNat)[a.length]? = some ' ' := by rw [h4]; simp
        rw [List.getElem?_take] at e
        split at e
        swap
        · cases e
        obtain ⟨e1, e2⟩ := List.getElem?_eq_some_iff.1 e
        refine List.mem_iff_getElem.2 ⟨a.length - (p - 1), by rw [List.length_take, List.length_drop]; omega, ?_⟩
        rw [List.getElem_take, List.getElem_drop]
        rw [← e2]
        congr 1
        omega

/-- After a break at a space. -/
theorem restOf_space {c : Cfg} {line : Str} {q : Nat} (hb : c.bm ≠ []) (h1 : 0 < q) (h2 : q - 1 < line.length) (h3 : line[q - 1] = ' ') :
    ∃ g b, restOf c line q = .val b ∧ line = line.take (q - 1) ++ g ++ b ∧ Gap c (line.take (q - 1)) g b ∧ b.length < line.length := by
  have e1 : line = line.take (q - 1) ++ ' ' :: line.drop q := by
    conv_lhs => rw [← List.take_append_drop (q - 1) line, List.drop_eq_getElem_cons h2, h3, show q - 1 + 1 = q by omega]
  unfold restOf
  rw [ch_lt h2, Out.bind_val, if_pos ⟨h3, hb⟩]
  by_cases hq : q < line.length
  · rw [ch_lt hq, Out.bind_val]
    by_cases h4 : line[q] = ' '
    · rw [if_pos h4]
      have := right_eq (s := line) (n := q + 2) (by omega)
      push_cast at this
      rw [this]
      refine ⟨[' ', ' '], line.drop (q + 1), rfl, ?_, ?_, by rw [List.length_drop]; omega⟩
      · conv_lhs => rw [e1, List.drop_eq_getElem_cons hq, h4]
        simp
      · unfold Gap; rw [if_neg hb]; exact Or.inr (Or.inl rfl)
    · rw [if_neg h4]
      have := right_eq (s := line) (n := q + 1) (by omega)
      push_cast at this
      rw [this]
      refine ⟨[' '], line.drop q, rfl, ?_, ?_, by rw [List.length_drop]; omega⟩
      · conv_lhs => rw [e1]
        simp
      · unfold Gap; rw [if_neg hb]
        refine Or.inl ⟨rfl, ?_⟩
        rw [List.head?_drop, List.getElem?_eq_getElem hq]
        simpa using h4
  · have hq' : q = line.length := by omega
    obtain ⟨d, hd⟩ := ch_le (s := line) (i := q) (by omega)
    have hd' : d = NUL := by
      unfold ch at hd
      rw [dif_neg (by omega), if_pos hq'] at hd
      cases hd; rfl
    rw [hd, Out.bind_val, hd', if_neg (by decide)]
    have := right_eq (s := line) (n := q + 1) (by omega)
    push_cast at this
    rw [this]
    refine ⟨[' '], line.drop q, rfl, ?_, ?_, by rw [List.length_drop]; omega⟩
    · conv_lhs => rw [e1]
      simp
    · unfold Gap; rw [if_neg hb]
      refine Or.inl ⟨rfl, ?_⟩
      rw [List.drop_eq_nil_of_le (by omega)]
      simp

/-- Where `printLongLine` breaks the line. -/
theorem breakPos_eq {c : Cfg} {line : Str} {p : Nat} (hs : SetOk c line) (h1 : 4 ≤ p) (h2 : p ≤ line.length) :
    ∃ q, breakPos c line p = .val q ∧ q ≤ p ∧ ((q = 0 ∧ (∀ d ∈ line.take p, d ∉ c.set) ∧ c.bm ≠ [] ∧
        (c.bm.head? = some '&' → ' ' ∈ (line.drop (p - 1)).take ((line.drop (p - 1)).length - 3) ∨ line[p - 3]'(by omega) = ' ')) ∨
      (0 < q ∧ (q = 1 → line[0]'(by omega) = ' ') ∧ ∃ g b, restOf c line q = .val b ∧ line = line.take (q - 1) ++ g ++ b ∧ Gap c (line.take (q - 1)) g b ∧
        b.length < line.length)) := by
  have hcode : ∃ r, (if c.bm.head? = some '&' then inCode line p else .val false) = .val r ∧ (r = true → c.bm.head? = some '&' ∧
      ((' ' ∉ (line.drop (p - 1)).take ((line.drop (p - 1)).length - 3) ∧ line[p - 3]'(by omega) ≠ ' ') ∨ line[p - 4]'(by omega) = ')')) ∧
      (r = false → c.bm.head? = some '&' → ' ' ∈ (line.drop (p - 1)).take ((line.drop (p - 1)).length - 3) ∨ line[p - 3]'(by omega) = ' ') := by
    by_cases h : c.bm.head? = some '&'
    · rw [if_pos h]
      obtain ⟨r, e, f, g⟩ := inCode_eq h1 h2
      exact ⟨r, e, fun h' => ⟨h, f h'⟩, fun h' _ => g h'⟩
    · rw [if_neg h]
      exact ⟨false, rfl, (fun h => by cases h), fun _ h' => absurd h' h⟩
  obtain ⟨r, e, f, f0⟩ := hcode
  unfold breakPos
  rw [e, Out.bind_val]
  cases r
  · rw [if_neg (by simp)]
    by_cases hb : c.bm = []
    · rw [if_pos hb]
      refine ⟨p, rfl, Nat.le_refl _, Or.inr ⟨by omega, by omega, [], line.drop (p - 1), ?_, by simp, ?_, by rw [List.length_drop]; omega⟩⟩
      · unfold restOf
        rw [ch_lt (by omega), Out.bind_val, if_neg (fun h => h.2 hb)]
        exact right_eq (by omega)
      · unfold Gap
        rw [if_pos hb]
        exact ⟨rfl, fun h => by have := congrArg List.length h; rw [List.length_take, List.length_nil] at this; omega⟩
    · rw [if_neg hb]
      obtain ⟨q, e1, e2, e3⟩ := backSearch_eq hs p h2
      refine ⟨q, e1, e2, ?_⟩
      rcases e3 with e3 | ⟨e3, e4, e5⟩
      · exact Or.inl ⟨e3.1, e3.2, hb, f0 rfl⟩
      · exact Or.inr ⟨e3, fun h => by subst h; exact e5, restOf_space hb e3 e4 e5⟩
  · obtain ⟨f1, f2⟩ := f rfl
    have hb : c.bm ≠ [] := by intro h; rw [h] at f1; cases f1
    rw [if_pos rfl, ch_lt (show p - 2 < line.length by omega), Out.bind_val]
    by_cases hd : line[p - 2]'(by omega) = ' '
    · rw [if_pos hd]
      exact ⟨p - 1, rfl, by omega, Or.inr ⟨by omega, by omega, restOf_space hb (by omega) (by omega) hd⟩⟩
    · rw [if_neg hd]
      by_cases hd2 : line[p - 1]'(by omega) = ' '
      · exact ⟨p, rfl, Nat.le_refl _, Or.inr ⟨by omega, by omega, restOf_space hb (by omega) (by omega) hd2⟩⟩
      · refine ⟨p, rfl, Nat.le_refl _, Or.inr ⟨by omega, by omega, [], line.drop (p - 1), ?_, by simp, ?_, by rw [List.length_drop]; omega⟩⟩
        · unfold restOf
          rw [ch_lt (by omega), Out.bind_val, if_neg (fun h => hd2 h.1)]
          exact right_eq (by omega)
        · unfold Gap
          rw [if_neg hb]
          refine Or.inr (Or.inr ⟨f1, rfl, ?_, ?_, ?_⟩)
          · intro h
            have := congrArg List.length h
            rw [List.length_drop] at this
            simp at this
            omega
          · rw [List.head?_drop, List.getElem?_eq_getElem (by omega)]
            simpa using hd2
          · have t1 : line.take (p - 1) = line.take (p - 2) ++ [line[p - 2]'(by omega)] := by
              rw [show p - 1 = p - 2 + 1 by omega, List.take_succ_eq_append_getElem (by omega)]
            have t2 : line.take (p - 2) = line.take (p - 3) ++ [line[p - 3]'(by omega)] := by
              rw [show p - 2 = p - 3 + 1 by omega, List.take_succ_eq_append_getElem (by omega)]
            have t3 : line.take (p - 3) = line.take (p - 4) ++ [line[p - 4]'(by omega)] := by
              rw [show p - 3 = p - 4 + 1 by omega, List.take_succ_eq_append_getElem (by omega)]
            rcases f2 with ⟨f2, f3⟩ | f2
            · exact Or.inl ⟨f2, line.take (p - 3), line[p - 3]'(by omega), line[p - 2]'(by omega), by rw [t1, t2, List.append_assoc]; rfl, f3, hd⟩
            · exact Or.inr ⟨line.take (p - 4), line[p - 3]'(by omega), line[p - 2]'(by omega), by rw [t1, t2, t3, f2, List.append_assoc, List.append_assoc]; rfl, hd⟩

end MM.Long
