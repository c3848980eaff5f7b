import Verif.Tools.Lines
import Verif.Vstr.Props
/-!
# C80: what the text tools do with a line
-/
namespace MM.Tools
open MM.Vstr MM.Date

theorem left_take (s : Str) (n : Nat) : left s n = .val (s.take n) := by
  rw [C25_left, chars_eq s _ (by omega)]
  simp

theorem right_drop (s : Str) (n : Nat) : right s ((n : Int) + 1) = .val (s.drop n) := by
  rw [C25_right, chars_eq s _ (by omega)]
  have e1 : ((n : Int) + 1 - 1).toNat = n := by omega
  rw [e1, List.take_of_length_le (by rw [List.length_drop]; omega)]

/-- The occurrence of `m` in `s` that is found from position `st` on: `s` is `x ++ m ++ y`. -/
structure FirstFrom (s m : Str) (st : Nat) (x y : Str) : Prop where
  eq : s = x ++ m ++ y
  from_ : st ≤ x.length + 1
  first : ∀ p, st ≤ p → p < x.length + 1 → ¬ OccursAt s m p

theorem instr_cases (s : Str) {m : Str} (hm : m ≠ []) (st : Nat) :
    (instr st s m = 0 ∧ ∀ p : Nat, st ≤ p → ¬ OccursAt s m p) ∨ ∃ x y, FirstFrom s m st x y ∧ instr st s m = x.length + 1 := by
  rcases C26_instr st s m hm with ⟨e, h⟩ | ⟨h1, ⟨x, y, e1, e2⟩, h3⟩
  · exact Or.inl ⟨e, fun p hp => h p (by omega)⟩
  · exact Or.inr ⟨x, y, ⟨e1, by omega, fun p hp hq => h3 p (by omega) (by omega)⟩, e2⟩

theorem occurs_bound {s m : Str} {p : Nat} (h : OccursAt s m p) : 1 ≤ p ∧ p + m.length ≤ s.length + 1 := by
  obtain ⟨a, b, rfl, rfl⟩ := h
  simp
  omega

/-- **C80.** A command that changes single lines changes each of them. -/
theorem C80_each {f : Str → Out Str} : ∀ (ls ms : List Str), mapLines f ls = .val ms ↔ List.Forall₂ (fun l m => f l = .val m) ls ms
  | [], ms => by
    rw [mapLines]
    constructor
    · intro h; rw [← Out.val.inj h]; exact .nil
    · intro h; cases h; rfl
  | l :: ls, ms => by
    rw [mapLines]
    constructor
    · intro h
      obtain ⟨x, h1, h⟩ := bind_inv h
      obtain ⟨xs, h2, h⟩ := bind_inv h
      rw [← Out.val.inj h]
      exact .cons h1 ((C80_each ls xs).mp h2)
    · intro h
      cases h with
      | cons h1 h2 => rw [h1, Out.bind_val, (C80_each ls _).mpr h2, Out.bind_val]

/-! ## DELETE -/

/-- The part of `l` from the first `a` (or the beginning, if `a` is empty) to the end of the next `b` (or the end of the line, if `b` is empty) is between `x` and `z`. -/
structure Part (a b l x z : Str) : Prop where
  start : if a = [] then x = [] else ∃ y, FirstFrom l a 1 x y
  stop : if b = [] then z = [] else ∃ w, FirstFrom l b (x.length + 1) w z

/-- **C80, DELETE.** The part is deleted; if there is none the line is not changed. -/
theorem C80_delete (a b l : Str) : ∃ r, delete a b l = .val r ∧ ((∃ x z, Part a b l x z ∧ r = x ++ z) ∨ ((¬ ∃ x z, Part a b l x z) ∧ r = l)) := by
  have key : ∀ (p1 : Nat) (x : Str), p1 = x.length + 1 → x <+: l → (if a = [] then x = [] else ∃ y, FirstFrom l a 1 x y) →
      (∀ x', (if a = [] then x' = [] else ∃ y, FirstFrom l a 1 x' y) → x' = x) →
      ∃ r, (let p2 : Nat := if b = [] then l.length + 1 else instr p1 l b
        if p1 ≠ 0 ∧ p2 ≠ 0 then left l ((p1 : Int) - 1) >>= fun x => right l ((p2 : Int) + b.length) >>= fun y => .val (x ++ y) else .val l) = Out.val r ∧
        ((∃ x z, Part a b l x z ∧ r = x ++ z) ∨ ((¬ ∃ x z, Part a b l x z) ∧ r = l)) := by
    intro p1 x hp hx hs hu
    have hL : left l ((p1 : Int) - 1) = .val x := by
      rw [show (p1 : Int) - 1 = (x.length : Nat) by omega, left_take]
      obtain ⟨t, rfl⟩ := hx
      rw [List.take_left]
    dsimp only
    by_cases hb : b = []
    · subst hb
      rw [if_pos rfl, if_pos ⟨by omega, by omega⟩, hL, Out.bind_val, show ((l.length + 1 : Nat) : Int) + ([] : Str).length = (l.length : Int) + 1 by simp, right_drop, Out.bind_val]
      exact ⟨_, rfl, Or.inl ⟨x, l.drop l.length, ⟨hs, by rw [if_pos rfl]; simp⟩, rfl⟩⟩
    · rw [if_neg hb]
      rcases instr_cases l hb p1 with ⟨e, hn⟩ | ⟨w, z, hf, e⟩
      · rw [e, if_neg (by simp)]
        refine ⟨_, rfl, Or.inr ⟨?_, rfl⟩⟩
        rintro ⟨x', z, h1, h2⟩
        rw [if_neg hb] at h2
        obtain ⟨w, hw⟩ := h2
        obtain rfl := hu x' h1
        exact hn (w.length + 1) (by have := hw.from_; omega) ⟨w, z, hw.eq, rfl⟩
      · rw [e, if_pos ⟨by omega, by omega⟩, hL, Out.bind_val, show ((w.length + 1 : Nat) : Int) + b.length = ((w.length + b.length : Nat) : Int) + 1 by omega, right_drop, Out.bind_val]
        have hd : l.drop (w.length + b.length) = z := by
          rw [hf.eq, ← List.length_append, List.drop_left]
        rw [hd]
        exact ⟨_, rfl, Or.inl ⟨x, z, ⟨hs, by rw [if_neg hb]; exact ⟨w, hf.eq, by have := hf.from_; omega, fun p h1 h2 => hf.first p (by omega) h2⟩⟩, rfl⟩⟩
  unfold delete
  by_cases ha : a = []
  · subst ha
    have := key 1 [] rfl (by simp) (by rw [if_pos rfl]) (by intro x' h; rw [if_pos rfl] at h; exact h)
    rw [if_pos rfl]
    exact this
  · rw [if_neg ha]
    rcases instr_cases l ha 1 with ⟨e, hn⟩ | ⟨x, y, hf, e⟩
    · have e : instr 1 l a = 0 := e
      rw [e]
      dsimp only
      rw [if_neg (by simp)]
      refine ⟨_, rfl, Or.inr ⟨?_, rfl⟩⟩
      rintro ⟨x', z, h1, h2⟩
      rw [if_neg ha] at h1
      obtain ⟨w, hw⟩ := h1
      exact hn (x'.length + 1) (by omega) ⟨x', w, hw.eq, rfl⟩
    · have e : instr 1 l a = x.length + 1 := e
      rw [e]
      refine key (x.length + 1) x rfl ⟨a ++ y, by rw [hf.eq]; simp⟩ (by rw [if_neg ha]; exact ⟨y, hf⟩) ?_
      intro x' h
      rw [if_neg ha] at h
      obtain ⟨y', hf'⟩ := h
      have h1 : x'.length = x.length := by
        rcases Nat.lt_trichotomy x'.length x.length with h | h | h
        · exact absurd ⟨x', y', hf'.eq, rfl⟩ (hf.first (x'.length + 1) (by omega) (by omega))
        · exact h
        · exact absurd ⟨x, y, hf.eq, rfl⟩ (hf'.first (x.length + 1) (by omega) (by omega))
      have h2 := hf.eq.symm.trans hf'.eq
      rw [List.append_assoc, List.append_assoc] at h2
      exact (List.append_inj h2 h1.symm).1.symm

example : delete "(".toList ")".toList "a (b) c (d)".toList = .val "a  c (d)".toList := by decide +kernel
/-- A defect: `/*/` is deleted, not the comment: the string that ends the part may begin inside the one that starts it. -/
theorem C80_delete_overlap : delete "/*".toList "*/".toList "a /*/ b */ c".toList = .val "a  b */ c".toList := by decide +kernel

/-! ## SWAP -/

/-- **C80, SWAP.** The parts before and after the first `m` change places. -/
theorem C80_swap {m : Str} (hm : m ≠ []) (l : Str) : (∃ x y, FirstFrom l m 1 x y ∧ swap m l = .val (y ++ m ++ x)) ∨ ((∀ p, ¬ OccursAt l m p) ∧ swap m l = .val l) := by
  unfold swap
  dsimp only
  rcases instr_cases l hm 1 with ⟨e, hn⟩ | ⟨x, y, hf, e⟩
  · have e : instr 1 l m = 0 := e
    rw [e, if_neg (by simp)]
    exact Or.inr ⟨fun p hp => hn p (occurs_bound hp).1 hp, rfl⟩
  · have e : instr 1 l m = x.length + 1 := e
    rw [e, if_pos (by omega), show ((x.length + 1 : Nat) : Int) = (x.length : Int) + 1 by omega, right_drop, Out.bind_val, show (x.length : Int) + 1 - 1 = (x.length : Nat) by omega, left_take, Out.bind_val]
    refine Or.inl ⟨x, y, hf, ?_⟩
    rw [hf.eq]
    simp

example : swap "=".toList "x = y = z".toList = .val " y = z=x ".toList := by decide +kernel

/-! ## INSERT -/

/-- **C80, INSERT.** The string begins in column `p`; before and after it are the characters of the line, which is filled with spaces if it is too short. -/
theorem C80_insert (s l : Str) {p : Nat} (hp : 1 ≤ p) : ∃ x y k, insert s p l = .val (x ++ s ++ y) ∧ x.length = p - 1 ∧ x ++ y = l ++ List.replicate k ' ' ∧ (y ≠ [] → k = 0) := by
  unfold insert
  dsimp only
  by_cases h : (l.length : Int) < (p : Int) - 1
  · rw [if_pos h, show (p : Int) - 1 = ((p - 1 : Nat) : Int) by omega, left_take, Out.bind_val, show (p : Int) = ((p - 1 : Nat) : Int) + 1 by omega, right_drop, Out.bind_val]
    have hl : (l ++ string (((p - 1 : Nat) : Int) - l.length) ' ').length = p - 1 := by unfold string; simp; omega
    have e1 : (l ++ string (((p - 1 : Nat) : Int) - l.length) ' ').take (p - 1) = l ++ string (((p - 1 : Nat) : Int) - l.length) ' ' := List.take_of_length_le (by omega)
    have e2 : (l ++ string (((p - 1 : Nat) : Int) - l.length) ' ').drop (p - 1) = [] := List.drop_of_length_le (by omega)
    rw [e1, e2]
    exact ⟨_, [], (((p - 1 : Nat) : Int) - l.length).toNat, rfl, hl, by unfold string; simp, fun h => absurd rfl h⟩
  · rw [if_neg h, show (p : Int) - 1 = ((p - 1 : Nat) : Int) by omega, left_take, Out.bind_val, show (p : Int) = ((p - 1 : Nat) : Int) + 1 by omega, right_drop, Out.bind_val]
    exact ⟨_, _, 0, rfl, by rw [List.length_take]; omega, by simp, fun _ => rfl⟩

example : insert "!".toList 5 "ab".toList = .val "ab  !".toList := by decide +kernel

/-! ## MATCH and RIGHT -/

/-- **C80, MATCH.** With Y the lines are kept, in their order, that have the string in them (the lines that are not empty if the string is empty); with N the others. -/
theorem C80_match (m : Str) (ls : List Str) : ∃ P : Str → Bool, (∀ l, P l = true ↔ if m = [] then l ≠ [] else ∃ p, OccursAt l m p) ∧
    (∀ yn : Str, yn.head? ≠ some 'n' → yn.head? ≠ some 'N' → match_ m yn ls = .val (ls.filter P)) ∧
    (∀ yn : Str, yn.head? = some 'n' ∨ yn.head? = some 'N' → match_ m yn ls = .val (ls.filter fun l => !P l)) := by
  refine ⟨keeps m [], fun l => ?_, fun yn h1 h2 => ?_, fun yn h => ?_⟩
  · unfold keeps
    dsimp only
    rw [if_neg (by simp)]
    by_cases hm : m = []
    · rw [if_pos hm, if_pos hm, decide_eq_true_iff]
    · rw [if_neg hm, if_neg hm, decide_eq_true_iff]
      rcases instr_cases l hm 1 with ⟨e, hn⟩ | ⟨x, y, hf, e⟩
      · have e : instr 1 l m = 0 := e
        rw [e]
        exact ⟨fun h => absurd rfl h, fun ⟨p, hp⟩ => absurd hp (hn p (occurs_bound hp).1)⟩
      · have e : instr 1 l m = x.length + 1 := e
        rw [e]
        exact ⟨fun _ => ⟨x.length + 1, x, y, hf.eq, rfl⟩, fun _ => by omega⟩
  · unfold match_
    have : keeps m yn = keeps m [] := by
      funext l
      unfold keeps
      dsimp only
      rw [if_neg (fun h => h.elim h1 h2), if_neg (c := ([] : Str).head? = some 'n' ∨ ([] : Str).head? = some 'N') (by decide)]
    rw [this]
  · unfold match_
    have : keeps m yn = fun l => !keeps m [] l := by
      funext l
      unfold keeps
      dsimp only
      rw [if_pos h, if_neg (c := ([] : Str).head? = some 'n' ∨ ([] : Str).head? = some 'N') (by decide)]
    rw [this]

example : match_ "ab".toList "Y".toList ["xaby".toList, "ba".toList] = .val ["xaby".toList] ∧ match_ "ab".toList "n".toList ["xaby".toList, "ba".toList] = .val ["ba".toList] := by decide +kernel

theorem longest_spec : ∀ (ls : List Str) (p : Nat), p ≤ longest ls p ∧ (∀ l ∈ ls, l.length ≤ longest ls p) ∧ (longest ls p = p ∨ ∃ l ∈ ls, l.length = longest ls p)
  | [], p => ⟨Nat.le_refl _, by simp, Or.inl rfl⟩
  | l :: ls, p => by
    rw [longest]
    obtain ⟨h1, h2, h3⟩ := longest_spec ls (if p < l.length then l.length else p)
    have h0 : p ≤ (if p < l.length then l.length else p) ∧ l.length ≤ (if p < l.length then l.length else p) := by split <;> omega
    refine ⟨Nat.le_trans h0.1 h1, ?_, ?_⟩
    · intro x hx
      rcases List.mem_cons.mp hx with rfl | hx
      · exact Nat.le_trans h0.2 h1
      · exact h2 x hx
    · rcases h3 with h3 | ⟨x, hx, h3⟩
      · by_cases h : p < l.length
        · rw [if_pos h] at h3 ⊢
          exact Or.inr ⟨l, by simp, h3.symm⟩
        · rw [if_neg h] at h3 ⊢
          exact Or.inl h3
      · exact Or.inr ⟨x, List.mem_cons_of_mem _ hx, h3⟩

/-- **C80, RIGHT.** Spaces are put before the lines so that all become as long as the longest one. -/
theorem C80_right (ls : List Str) : ∃ ms N, right_ ls = .val ms ∧ List.Forall₂ (fun l m => ∃ k, m = List.replicate k ' ' ++ l ∧ m.length = N) ls ms ∧ (ls ≠ [] → ∃ l ∈ ls, l.length = N) := by
  obtain ⟨_, h2, h3⟩ := longest_spec ls 0
  refine ⟨_, longest ls 0, rfl, ?_, ?_⟩
  · rw [List.forall₂_map_right_iff, List.forall₂_same]
    intro l hl
    refine ⟨((longest ls 0 : Int) - l.length).toNat, rfl, ?_⟩
    have := h2 l hl
    unfold string
    rw [List.length_append, List.length_replicate]
    omega
  · intro hne
    rcases h3 with h3 | ⟨l, hl, h3⟩
    · obtain ⟨l, hl⟩ := List.exists_mem_of_ne_nil ls hne
      have := h2 l hl
      exact ⟨l, hl, by omega⟩
    · exact ⟨l, hl, h3⟩

example : right_ ["a".toList, "bcd".toList, []] = .val ["  a".toList, "bcd".toList, "   ".toList] := by decide +kernel

end MM.Tools
