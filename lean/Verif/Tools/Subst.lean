import Verif.Tools.Cmds
/-!
# C81: SUBSTITUTE and TAG
-/
namespace MM.Tools
open MM.Vstr MM.Date

/-! ## SUBSTITUTE in a line -/

/-- The positions, up to `p`, where `m` occurs in `s`. -/
def Occurrences (s m : Str) (p : Nat) (ps : List Nat) : Prop := ps.Pairwise (· < ·) ∧ ∀ i, i ∈ ps ↔ OccursAt s m i ∧ i ≤ p

theorem occ_next {s m x y : Str} {p : Nat} {ps : List Nat} (h : Occurrences s m p ps) (hf : FirstFrom s m (p + 1) x y) : Occurrences s m (x.length + 1) (ps ++ [x.length + 1]) := by
  have hfr := hf.from_
  refine ⟨?_, fun i => ?_⟩
  · rw [List.pairwise_append]
    refine ⟨h.1, by simp, fun a ha b hb => ?_⟩
    rw [List.mem_singleton.mp hb]
    have := ((h.2 a).mp ha).2
    omega
  · rw [List.mem_append, List.mem_singleton, h.2]
    constructor
    · rintro (⟨h1, h2⟩ | rfl)
      · exact ⟨h1, by omega⟩
      · exact ⟨⟨x, y, hf.eq, rfl⟩, Nat.le_refl _⟩
    · rintro ⟨h1, h2⟩
      by_cases h3 : i ≤ p
      · exact Or.inl ⟨h1, h3⟩
      · refine Or.inr (Classical.byContradiction fun h4 => ?_)
        exact hf.first i (by omega) (by omega) h1

/-- What replacing the occurrence `q` does. -/
def ReplacesNth (old new : Str) (q : Nat) (l r : Str) : Prop :=
  (∃ x y ps, l = x ++ old ++ y ∧ r = x ++ new ++ y ∧ Occurrences l old (x.length + 1) ps ∧ ps.length = q) ∨ (r = l ∧ ∃ ps, Occurrences l old (l.length + 1) ps ∧ ps.length < q)

theorem first_len {s m x y : Str} {st : Nat} (hm : m ≠ []) (hf : FirstFrom s m st x y) : x.length < s.length := by
  rw [hf.eq]
  have := List.length_pos_iff.mpr hm
  simp
  omega

theorem nth_loop {old new l : Str} (ho : old ≠ []) {q : Nat} : ∀ (f : Nat) (p : Nat) (ps : List Nat), Occurrences l old p ps → ps.length < q → p ≤ l.length → l.length + 1 < f + p →
    ∃ r, substGo old new q f l p ps.length = .val r ∧ ReplacesNth old new q l r
  | 0, p, ps, h1, h2, h0, h3 => by
    exfalso
    omega
  | f + 1, p, ps, h1, h2, h0, h3 => by
    rw [substGo]
    rcases instr_cases l ho (p + 1) with ⟨e, hn⟩ | ⟨x, y, hf, e⟩
    · have e : instr ((p : Int) + 1) l old = 0 := e
      rw [e, if_pos rfl]
      refine ⟨l, rfl, Or.inr ⟨rfl, ps, ⟨h1.1, fun i => ?_⟩, h2⟩⟩
      rw [h1.2]
      constructor
      · rintro ⟨a, b⟩
        have := (occurs_bound a).2
        exact ⟨a, by omega⟩
      · rintro ⟨a, b⟩
        refine ⟨a, Classical.byContradiction fun hc => hn i (by omega) a⟩
    · have e : instr ((p : Int) + 1) l old = x.length + 1 := e
      have hx := first_len ho hf
      have hfr := hf.from_
      rw [e, if_neg (by omega)]
      by_cases hq : ps.length + 1 = q
      · rw [if_pos (Or.inl (by omega)), show ((x.length + 1 : Nat) : Int) - 1 = (x.length : Nat) by omega, left_take, Out.bind_val,
          show ((x.length + 1 : Nat) : Int) + old.length = ((x.length + old.length : Nat) : Int) + 1 by omega, right_drop, Out.bind_val, if_pos (by omega)]
        refine ⟨_, rfl, Or.inl ⟨x, y, _, hf.eq, ?_, occ_next h1 hf, by rw [List.length_append, List.length_singleton]; exact hq⟩⟩
        have e1 : l.take x.length = x := by rw [hf.eq, List.append_assoc, List.take_left]
        have e2 : l.drop (x.length + old.length) = y := by rw [hf.eq, ← List.length_append, List.drop_left]
        rw [e1, e2]
      · rw [if_neg (by omega)]
        have := nth_loop (new := new) (q := q) ho f (x.length + 1) (ps ++ [x.length + 1]) (occ_next h1 hf) (by simp; omega) (by omega) (by omega)
        rw [List.length_append, List.length_singleton] at this
        exact this

/-- All occurrences are replaced, from left to right, the next one being searched behind the last one. -/
inductive ReplacesAll (old new : Str) : Str → Str → Prop
  | done {s} : (∀ p, ¬ OccursAt s old p) → ReplacesAll old new s s
  | step {s x y t} : FirstFrom s old 1 x y → ReplacesAll old new y t → ReplacesAll old new s (x ++ new ++ t)

theorem occurs_shift {d s m : Str} {p : Nat} (h : 1 ≤ p) : OccursAt (d ++ s) m (d.length + p) ↔ OccursAt s m p := by
  constructor
  · rintro ⟨a, b, e1, e2⟩
    have h1 : d <+: a := by
      have : d <+: a ++ (m ++ b) := ⟨s, by rw [e1]; simp⟩
      exact List.prefix_of_prefix_length_le this (List.prefix_append a _) (by omega)
    obtain ⟨c, rfl⟩ := h1
    rw [List.append_assoc, List.append_assoc] at e1
    refine ⟨c, b, ?_, by simp at e2; omega⟩
    rw [List.append_cancel_left e1]
    simp
  · rintro ⟨a, b, rfl, e2⟩
    exact ⟨d ++ a, b, by simp, by simp; omega⟩

theorem all_loop {old new : Str} (ho : old ≠ []) : ∀ (f : Nat) (d s : Str) (p : Int), s.length < f → ∃ t, substGo old new (-1) f (d ++ s) d.length p = .val (d ++ t) ∧ ReplacesAll old new s t
  | 0, d, s, p, h => absurd h (Nat.not_lt_zero _)
  | f + 1, d, s, p, h => by
    rw [substGo]
    rcases instr_cases (d ++ s) ho (d.length + 1) with ⟨e, hn⟩ | ⟨x, y, hf, e⟩
    · have e : instr ((d.length : Int) + 1) (d ++ s) old = 0 := e
      rw [e, if_pos rfl]
      refine ⟨s, rfl, .done fun q hq => ?_⟩
      have := (occurs_bound hq).1
      exact hn (d.length + q) (by omega) ((occurs_shift this).mpr hq)
    · have e : instr ((d.length : Int) + 1) (d ++ s) old = x.length + 1 := e
      have hfr := hf.from_
      have h1 : d <+: x := by
        have : d <+: x ++ (old ++ y) := ⟨s, by rw [hf.eq]; simp⟩
        exact List.prefix_of_prefix_length_le this (List.prefix_append x _) (by omega)
      obtain ⟨c, rfl⟩ := h1
      have hs : s = c ++ old ++ y := by
        have := hf.eq
        rw [List.append_assoc, List.append_assoc] at this
        rw [List.append_cancel_left this]
        simp
      have hf2 : FirstFrom s old 1 c y := ⟨hs, by omega, fun q h2 h3 h4 => hf.first (d.length + q) (by omega) (by simp; omega) ((occurs_shift h2).mpr h4)⟩
      rw [e, if_neg (by omega), if_pos (Or.inr rfl), show (((d ++ c).length + 1 : Nat) : Int) - 1 = ((d ++ c).length : Nat) by omega, left_take, Out.bind_val,
        show (((d ++ c).length + 1 : Nat) : Int) + old.length = (((d ++ c).length + old.length : Nat) : Int) + 1 by omega, right_drop, Out.bind_val, if_neg (by simp)]
      have e1 : (d ++ s).take (d ++ c).length = d ++ c := by rw [hf.eq, List.append_assoc, List.take_left]
      have e2 : (d ++ s).drop ((d ++ c).length + old.length) = y := by rw [hf.eq, ← List.length_append, List.drop_left]
      rw [e1, e2]
      have hy : y.length < f := by
        have := List.length_pos_iff.mpr ho
        rw [hs] at h
        simp at h
        omega
      obtain ⟨t, ht, hr⟩ := all_loop ho f (d ++ c ++ new) y (p + 1) hy
      rw [show (((d ++ c).length + 1 : Nat) : Int) + new.length - 1 = ((d ++ c ++ new).length : Nat) by simp; omega, ht]
      exact ⟨c ++ new ++ t, by simp, .step hf2 hr⟩

/-- What SUBSTITUTE does with a line: `occ` is the number of the occurrence, `none` for all. -/
def Substituted (old new : Str) (occ : Option Nat) (l r : Str) : Prop := match occ with
  | some q => ReplacesNth old new q l r
  | none => ReplacesAll old new l r

theorem subst_line {old new : Str} (ho : old ≠ []) (occ : Option Nat) (h : ∀ q, occ = some q → 1 ≤ q) (l : Str) :
    ∃ r, substGo old new (occ.elim (-1) fun q => (q : Int)) (l.length + 2) l 0 0 = .val r ∧ Substituted old new occ l r := by
  cases occ with
  | none =>
    obtain ⟨t, ht, hr⟩ := all_loop (new := new) ho (l.length + 2) [] l 0 (by omega)
    exact ⟨t, ht, hr⟩
  | some q =>
    have hq := h q rfl
    obtain ⟨r, hr, h2⟩ := nth_loop (new := new) (l := l) ho (q := q) (l.length + 2) 0 [] ⟨by simp, fun i => ⟨fun h => by simp at h, fun h => absurd (occurs_bound h.1).1 (by omega)⟩⟩ (by simp; omega) (by omega) (by omega)
    exact ⟨r, hr, h2⟩

/-- Whether a line has the additional string in it. -/
def Has (m l : Str) : Prop := m = [] ∨ ∃ p, OccursAt l m p

theorem has_iff (m l : Str) : (m = [] ∨ instr 1 l m ≠ 0) ↔ Has m l := by
  unfold Has
  by_cases hm : m = []
  · simp [hm]
  · rcases instr_cases l hm 1 with ⟨e, hn⟩ | ⟨x, y, hf, e⟩
    · have e : instr 1 l m = 0 := e
      simp only [hm, e, false_or, ne_eq, not_true_eq_false, false_iff]
      rintro ⟨p, hp⟩
      exact hn p (occurs_bound hp).1 hp
    · have e : instr 1 l m = x.length + 1 := e
      simp only [hm, e, false_or]
      exact ⟨fun _ => ⟨_, x, y, hf.eq, rfl⟩, fun _ => by omega⟩

theorem substLoop_plain {old new m : Str} {q : Int} (hj : instr 1 old backslashN = 0) : ∀ (f : Nat) (ls : List Str), ls.length < f →
    substLoop old new q m f [] ls = mapLines (fun l => if m = [] ∨ instr 1 l m ≠ 0 then substGo old new q (l.length + 2) l 0 0 else .val l) ls
  | 0, ls, h => absurd h (Nat.not_lt_zero _)
  | f + 1, [], h => by
    rw [substLoop, if_pos ⟨rfl, rfl⟩, mapLines]
  | f + 1, l :: ls, h => by
    rw [substLoop, if_neg (by simp), mapLines]
    have ih := substLoop_plain (new := new) (m := m) (q := q) hj f ls (by simpa using h)
    simp only [hj, ne_eq, not_true_eq_false, decide_false, Bool.false_and, Bool.not_false, Bool.true_or, Bool.and_true, if_false, List.headD_cons, List.tail_cons, Bool.false_eq_true]
    rw [ih]
    simp only [decide_eq_true_eq]

/-- **C81, SUBSTITUTE.** If the string to be replaced has no `\n` in it, each line that has the additional string in it gets the occurrence `v` (0 is 1) of the string
replaced, or all of them for an argument that begins with A, and the other lines are not changed; the replacement `\n` stands for a line end. -/
theorem C81_substitute {old new occ m : Str} {v : Int} (ho : old ≠ []) (hj : ∀ p, ¬ OccursAt old backslashN p) {nw : Str} (hn : nw = if new = backslashN then ['\n'] else new)
    (hv : occ.head? = some 'A' ∨ occ.head? = some 'a' ∨ 0 ≤ v) (ls : List Str) :
    ∃ ms, subst old new occ v m ls = .val ms ∧ List.Forall₂ (fun l r =>
      (Has m l → Substituted old nw (if occ.head? = some 'A' ∨ occ.head? = some 'a' then none else some (max v.toNat 1)) l r) ∧ (¬ Has m l → r = l)) ls ms := by
  have h0 : instr 1 old backslashN = 0 := by
    rcases instr_cases old (m := backslashN) (by decide) 1 with ⟨e, _⟩ | ⟨x, y, hf, e⟩
    · exact e
    · exact absurd ⟨x, y, hf.eq, rfl⟩ (hj (x.length + 1))
  unfold subst
  rw [← hn, substLoop_plain h0 _ _ (by omega)]
  have hq : occArg old occ v = (if occ.head? = some 'A' ∨ occ.head? = some 'a' then none else some (max v.toNat 1) : Option Nat).elim (-1) fun q => (q : Int) := by
    unfold occArg
    rw [if_neg (fun h => h h0)]
    split
    · rfl
    · rename_i hc
      have hv : 0 ≤ v := by
        rcases hv with h | h | h
        · exact absurd (Or.inl h) hc
        · exact absurd (Or.inr h) hc
        · exact h
      unfold countArg
      show _ = ((max v.toNat 1 : Nat) : Int)
      split <;> omega
  rw [hq]
  generalize (if occ.head? = some 'A' ∨ occ.head? = some 'a' then none else some (max v.toNat 1) : Option Nat) = o at hq ⊢
  have ho1 : ∀ q, o = some q → 1 ≤ q := by
    rintro q rfl
    have hq : occArg old occ v = (q : Int) := hq
    unfold occArg at hq
    rw [if_neg (fun h => h h0)] at hq
    split at hq
    · omega
    · unfold countArg at hq
      split at hq <;> omega
  induction ls with
  | nil => exact ⟨[], rfl, .nil⟩
  | cons l ls ih =>
    obtain ⟨ms, e, h2⟩ := ih
    rw [mapLines]
    by_cases hm : m = [] ∨ instr 1 l m ≠ 0
    · obtain ⟨r, hr, h3⟩ := subst_line (new := nw) ho o ho1 l
      rw [if_pos hm, hr, Out.bind_val, e, Out.bind_val]
      exact ⟨_, rfl, .cons ⟨fun _ => h3, fun h => absurd ((has_iff m l).mp hm) h⟩ h2⟩
    · rw [if_neg hm, Out.bind_val, e, Out.bind_val]
      exact ⟨_, rfl, .cons ⟨fun h => absurd ((has_iff m l).mpr h) hm, fun _ => rfl⟩ h2⟩

/-- Every other line is joined to the one below it. -/
def joined (new : Str) : List Str → List Str
  | a :: b :: r => (a ++ new ++ b) :: joined new r
  | [a] => [a]
  | [] => []

theorem occ_back {a b : Str} (ha : '\\' ∉ a) : FirstFrom (a ++ backslashN ++ b) backslashN 1 a b := by
  refine ⟨rfl, by omega, fun p h1 h2 => ?_⟩
  rintro ⟨x, y, e1, e2⟩
  apply ha
  have h3 : x ++ ['\\'] <+: a := by
    have h4 : x ++ ['\\'] <+: a ++ (backslashN ++ b) := ⟨'n' :: y, by rw [← List.append_assoc, e1]; simp [backslashN]⟩
    exact List.prefix_of_prefix_length_le h4 (List.prefix_append a _) (by simp; omega)
  obtain ⟨t, rfl⟩ := h3
  simp

theorem substLoop_join {new : Str} : ∀ (f : Nat) (ls : List Str), ls.length < f → (∀ l ∈ ls, '\\' ∉ l) → substLoop backslashN new 1 [] f [] ls = .val (joined new ls)
  | 0, ls, h, _ => absurd h (Nat.not_lt_zero _)
  | f + 1, [], h, _ => by
    rw [substLoop, if_pos ⟨rfl, rfl⟩, joined]
  | f + 1, [a], h, hl => by
    have ha := hl a (by simp)
    have hb : instr 1 backslashN backslashN ≠ 0 := by decide
    rw [substLoop, if_neg (by simp)]
    have e : substGo backslashN new 1 (a.length + 2) a 0 0 = .val a := by
      rw [substGo]
      rcases instr_cases a (m := backslashN) (by decide) 1 with ⟨e, _⟩ | ⟨x, y, hf, e⟩
      · have e : instr (0 + 1) a backslashN = 0 := e
        rw [e, if_pos rfl]
      · exact absurd (by rw [hf.eq]; simp [backslashN]) ha
    obtain ⟨f', rfl⟩ : ∃ f', f = f' + 1 := ⟨f - 1, by simp at h; omega⟩
    have e2 : substLoop backslashN new 1 [] (f' + 1) [] [] = .val [] := by rw [substLoop, if_pos ⟨rfl, rfl⟩]
    simp [e, e2, joined]
  | f + 1, a :: b :: r, h, hl => by
    have ha := hl a (by simp)
    have hb : instr 1 backslashN backslashN ≠ 0 := by decide
    have ih := substLoop_join (new := new) f r (by simp at h; omega) (fun l hx => hl l (by simp [hx]))
    have hi : ∀ (st : Int), st = 1 → instr st (a ++ backslashN ++ b) backslashN = a.length + 1 := by
      rintro st rfl
      rcases instr_cases (a ++ backslashN ++ b) (m := backslashN) (by decide) 1 with ⟨e, hn⟩ | ⟨x, y, hf, e⟩
      · exact absurd ⟨a, b, rfl, rfl⟩ (hn (a.length + 1) (by omega))
      · have e : instr 1 (a ++ backslashN ++ b) backslashN = x.length + 1 := e
        rw [e]
        have g := occ_back (b := b) ha
        rcases Nat.lt_trichotomy x.length a.length with h | h | h
        · exact absurd ⟨x, y, hf.eq, rfl⟩ (g.first (x.length + 1) (by omega) (by omega))
        · omega
        · exact absurd ⟨a, b, rfl, rfl⟩ (hf.first (a.length + 1) (by omega) (by omega))
    have e : substGo backslashN new 1 ((a ++ backslashN ++ b).length + 2) (a ++ backslashN ++ b) 0 0 = .val (a ++ new ++ b) := by
      rw [substGo]
      rw [hi (0 + 1) rfl, if_neg (by omega), if_pos (Or.inl (by omega)), show ((a.length + 1 : Nat) : Int) - 1 = (a.length : Nat) by omega, left_take, Out.bind_val,
        show ((a.length + 1 : Nat) : Int) + backslashN.length = ((a.length + backslashN.length : Nat) : Int) + 1 by omega, right_drop, Out.bind_val, if_pos (by decide)]
      rw [List.append_assoc a, List.take_left, ← List.append_assoc, ← List.length_append, List.drop_left]
    rw [substLoop, if_neg (by simp)]
    have hi1 := hi 1 rfl
    rw [List.append_assoc] at hi1 e
    simp only [List.length_append] at e
    simp [hi1, hb, e, ih, joined]

/-- **C81, SUBSTITUTE.** If the string to be replaced is `\n`, every other line is joined to the one below it (with the replacement between them). -/
theorem C81_join {new occ : Str} {v : Int} (hn : new ≠ backslashN) {ls : List Str} (hl : ∀ l ∈ ls, '\\' ∉ l) : subst backslashN new occ v [] ls = .val (joined new ls) := by
  unfold subst
  rw [if_neg hn, show occArg backslashN occ v = 1 from by unfold occArg; rw [if_pos (by decide)]]
  exact substLoop_join _ _ (by omega) hl

/-- A defect: an empty line is lost if the line before it does not have the string with `\n` that is to be replaced. -/
theorem C81_empty_line_lost : subst "a\\nb".toList "X".toList "1".toList 1 [] ["c".toList, [], "d".toList] = .val ["c".toList, "d".toList] := by decide +kernel

example : subst "ab".toList "b".toList "2".toList 2 [] ["abcabcab".toList, "xab".toList] = .val ["abcbcab".toList, "xab".toList] := by decide +kernel
/-- The example in the source: the replacement is not searched again. -/
example : subst "abb".toList "ab".toList "a".toList 0 [] ["abbbab".toList] = .val ["abbab".toList] := by decide +kernel
example : subst "x".toList "y".toList "ALL".toList 0 "z".toList ["xx".toList, "xxz".toList] = .val ["xx".toList, "yyz".toList] := by decide +kernel
example : joined ", ".toList ["a".toList, "b".toList, "c".toList] = ["a, b".toList, "c".toList] := by decide +kernel

/-! ## TAG -/

/-- Line `i` is in the range of TAG: it begins with the line `s` that is number `sc` of those with `sm`, and ends with the line that is number `ec` of those with `em` from there
on. -/
def InRange (Ps Pe : Str → Bool) (sc ec : Nat) (ls : List Str) (i : Nat) : Prop :=
  ∃ s l, s ≤ i ∧ ls[s]? = some l ∧ Ps l = true ∧ (ls.take (s + 1)).countP Ps = sc ∧ ((ls.drop s).take (i - s)).countP Pe < ec

theorem instr_has {l m : Str} : instr 1 l m ≠ 0 ↔ Has m l := by
  by_cases hm : m = []
  · subst hm
    rw [C26_instr_empty]
    simp [Has]
  · rw [← has_iff]
    simp [hm]

/-- After the start. -/
theorem tag_after {pre post sm em : Str} {sc ec : Int} (Pe : Str → Bool) (hPe : ∀ l, Pe l = true ↔ instr 1 l em ≠ 0) : ∀ (ls : List Str) (b : Int) (i : Nat) (l : Str), ls[i]? = some l →
    (tagGo pre post sm sc em ec ls sc b)[i]? = some (if b + ((ls.take i).countP Pe : Nat) < ec then pre ++ l ++ post else l)
  | [], b, i, l, h => by simp at h
  | x :: ls, b, 0, l, h => by
    have h : x = l := by simpa using h
    subst h
    rw [tagGo]
    rw [if_neg (show ¬ (sc < sc ∧ instr 1 x sm ≠ 0) by omega)]
    by_cases hb : b < ec
    · rw [if_pos ⟨rfl, hb⟩]; simp [hb]
    · rw [if_neg (fun h => hb h.2)]; simp [hb]
  | x :: ls, b, i + 1, l, h => by
    have h : ls[i]? = some l := by simpa using h
    rw [tagGo]
    rw [if_neg (show ¬ (sc < sc ∧ instr 1 x sm ≠ 0) by omega)]
    by_cases hb : b < ec
    · rw [if_pos ⟨rfl, hb⟩, List.getElem?_cons_succ, tag_after Pe hPe ls _ i l h, List.take_succ_cons, List.countP_cons]
      by_cases he : instr 1 x em ≠ 0
      · rw [if_pos he, if_pos ((hPe x).mpr he)]
        have : b + 1 + ((ls.take i).countP Pe : Nat) = b + ((List.countP Pe (ls.take i) + 1 : Nat) : Int) := by omega
        rw [this]
      · rw [if_neg he, if_neg (fun h => he ((hPe x).mp h))]
        rfl
    · rw [if_neg (fun h => hb h.2), List.getElem?_cons_succ, tag_after Pe hPe ls _ i l h]
      rw [if_neg (by omega), if_neg (by omega)]

theorem tag_before {pre post sm em : Str} {ec : Int} (Ps Pe : Str → Bool) (hPs : ∀ l, Ps l = true ↔ instr 1 l sm ≠ 0) (hPe : ∀ l, Pe l = true ↔ instr 1 l em ≠ 0) :
    ∀ (ls : List Str) (n : Nat) (sc : Int) (a : Int) (i : Nat) (l : Str), sc = a + n → 1 ≤ n → ls[i]? = some l →
    ∃ r, (tagGo pre post sm sc em ec ls a 0)[i]? = some r ∧
      ((∃ s x, s ≤ i ∧ ls[s]? = some x ∧ Ps x = true ∧ (ls.take (s + 1)).countP Ps = n ∧ (((ls.drop s).take (i - s)).countP Pe : Int) < ec) → r = pre ++ l ++ post) ∧
      ((¬ ∃ s x, s ≤ i ∧ ls[s]? = some x ∧ Ps x = true ∧ (ls.take (s + 1)).countP Ps = n ∧ (((ls.drop s).take (i - s)).countP Pe : Int) < ec) → r = l)
  | [], n, sc, a, i, l, _, _, h => by simp at h
  | x :: ls, n, sc, a, i, l, hsc, hn, h => by
    by_cases hx : instr 1 x sm ≠ 0
    · have hPx := (hPs x).mpr hx
      by_cases h1 : n = 1
      · -- the range begins here
        subst h1
        have e : tagGo pre post sm sc em ec (x :: ls) a 0 = tagGo pre post sm sc em ec (x :: ls) sc 0 := by
          rw [tagGo, tagGo]
          rw [if_pos (show a < sc ∧ instr 1 x sm ≠ 0 from ⟨by omega, hx⟩), if_neg (show ¬ (sc < sc ∧ instr 1 x sm ≠ 0) by omega), show a + 1 = sc by omega]
        rw [e, tag_after Pe hPe _ _ i l h]
        refine ⟨_, rfl, ?_, ?_⟩
        · rintro ⟨s, y, h2, h3, h4, h5, h6⟩
          have hs : s = 0 := by
            by_contra hs
            obtain ⟨s, rfl⟩ : ∃ s', s = s' + 1 := ⟨s - 1, by omega⟩
            rw [List.take_succ_cons, List.countP_cons, if_pos hPx] at h5
            have h3 : ls[s]? = some y := by simpa using h3
            have : 0 < (ls.take (s + 1)).countP Ps := List.countP_pos_iff.mpr ⟨y, by
              rw [List.mem_iff_getElem?]
              exact ⟨s, by rw [List.getElem?_take, if_pos (by omega)]; exact h3⟩, h4⟩
            omega
          subst hs
          rw [List.drop_zero, Nat.sub_zero] at h6
          rw [if_pos (by omega)]
        · intro hno
          rw [if_neg]
          intro hlt
          exact hno ⟨0, x, by omega, by simp, hPx, by simp [hPx], by simpa using hlt⟩
      · -- not yet
        have e : tagGo pre post sm sc em ec (x :: ls) a 0 = x :: tagGo pre post sm sc em ec ls (a + 1) 0 := by
          rw [tagGo]
          rw [if_pos (show a < sc ∧ instr 1 x sm ≠ 0 from ⟨by omega, hx⟩), if_neg (by omega)]
        rw [e]
        cases i with
        | zero =>
          refine ⟨x, rfl, ?_, fun _ => by simpa using h⟩
          rintro ⟨s, y, h2, h3, h4, h5, h6⟩
          obtain rfl : s = 0 := by omega
          simp [hPx] at h5
          omega
        | succ i =>
          obtain ⟨r, hr, g1, g2⟩ := tag_before Ps Pe hPs hPe ls (n - 1) sc (a + 1) i l (by omega) (by omega) (by simpa using h)
          refine ⟨r, by simpa using hr, ?_, ?_⟩
          · rintro ⟨s, y, h2, h3, h4, h5, h6⟩
            cases s with
            | zero => simp [hPx] at h5; omega
            | succ s =>
              rw [List.take_succ_cons, List.countP_cons, if_pos hPx] at h5
              exact g1 ⟨s, y, by omega, by simpa using h3, h4, by omega, by simpa [Nat.add_sub_add_right] using h6⟩
          · intro hno
            refine g2 ?_
            rintro ⟨s, y, h2, h3, h4, h5, h6⟩
            exact hno ⟨s + 1, y, by omega, by simpa using h3, h4, by rw [List.take_succ_cons, List.countP_cons, if_pos hPx]; omega, by simpa [Nat.add_sub_add_right] using h6⟩
    · have hPx : ¬ Ps x = true := fun h => hx ((hPs x).mp h)
      have e : tagGo pre post sm sc em ec (x :: ls) a 0 = x :: tagGo pre post sm sc em ec ls a 0 := by
        rw [tagGo]
        rw [if_neg (show ¬ (a < sc ∧ instr 1 x sm ≠ 0) from fun h => hx h.2), if_neg (by omega)]
      rw [e]
      cases i with
      | zero =>
        refine ⟨x, rfl, ?_, fun _ => by simpa using h⟩
        rintro ⟨s, y, h2, h3, h4, h5, h6⟩
        obtain rfl : s = 0 := by omega
        have h3 : x = y := by simpa using h3
        exact absurd (h3 ▸ h4) hPx
      | succ i =>
        obtain ⟨r, hr, g1, g2⟩ := tag_before Ps Pe hPs hPe ls n sc a i l hsc hn (by simpa using h)
        refine ⟨r, by simpa using hr, ?_, ?_⟩
        · rintro ⟨s, y, h2, h3, h4, h5, h6⟩
          cases s with
          | zero =>
            have h3 : x = y := by simpa using h3
            exact absurd (h3 ▸ h4) hPx
          | succ s =>
            rw [List.take_succ_cons, List.countP_cons, if_neg hPx] at h5
            exact g1 ⟨s, y, by omega, by simpa using h3, h4, by omega, by simpa [Nat.add_sub_add_right] using h6⟩
        · intro hno
          refine g2 ?_
          rintro ⟨s, y, h2, h3, h4, h5, h6⟩
          exact hno ⟨s + 1, y, by omega, by simpa using h3, h4, by rw [List.take_succ_cons, List.countP_cons, if_neg hPx]; omega, by simpa [Nat.add_sub_add_right] using h6⟩

theorem tagGo_length {pre post sm em : Str} {sc ec : Int} : ∀ (ls : List Str) (a b : Int), (tagGo pre post sm sc em ec ls a b).length = ls.length
  | [], _, _ => by rw [tagGo]
  | x :: ls, a, b => by
    rw [tagGo]
    split <;> split <;> simp [tagGo_length ls]

/-- **C81, TAG.** The lines of the range, and only they, get the strings added; an empty string matches every line, and a count 0 is 1. -/
theorem C81_tag {pre post sm em : Str} {sc ec : Nat} (ls : List Str) : ∃ ms Ps Pe, tag pre post sm sc em ec ls = .val ms ∧ (∀ l, Ps l = true ↔ Has sm l) ∧ (∀ l, Pe l = true ↔ Has em l) ∧
    ms.length = ls.length ∧ ∀ i l, ls[i]? = some l →
      (InRange Ps Pe (max sc 1) (max ec 1) ls i → ms[i]? = some (pre ++ l ++ post)) ∧ (¬ InRange Ps Pe (max sc 1) (max ec 1) ls i → ms[i]? = some l) := by
  have c : ∀ n : Nat, countArg n = (max n 1 : Nat) := by
    intro n
    unfold countArg
    split <;> omega
  refine ⟨_, fun l => decide (instr 1 l sm ≠ 0), fun l => decide (instr 1 l em ≠ 0), rfl, fun l => by rw [decide_eq_true_iff, instr_has], fun l => by rw [decide_eq_true_iff, instr_has],
    tagGo_length _ _ _, fun i l h => ?_⟩
  rw [c, c]
  obtain ⟨r, hr, g1, g2⟩ := tag_before (pre := pre) (post := post) (sm := sm) (em := em) (ec := ((max ec 1 : Nat) : Int)) (fun l => decide (instr 1 l sm ≠ 0))
    (fun l => decide (instr 1 l em ≠ 0)) (fun l => decide_eq_true_iff) (fun l => decide_eq_true_iff) ls (max sc 1) ((max sc 1 : Nat) : Int) 0 i l (by omega) (by omega) h
  rw [hr]
  refine ⟨fun h => ?_, fun h => ?_⟩
  · obtain ⟨s, x, h1, h2, h3, h4, h5⟩ := h
    rw [g1 ⟨s, x, h1, h2, h3, h4, by omega⟩]
  · rw [g2]
    rintro ⟨s, x, h1, h2, h3, h4, h5⟩
    exact h ⟨s, x, h1, h2, h3, h4, by omega⟩

example : tag "@".toList [] "a".toList 2 "b".toList 1 ["a".toList, "b".toList, "ca".toList, "d".toList, "b".toList, "e".toList] =
    .val ["a".toList, "b".toList, "@ca".toList, "@d".toList, "@b".toList, "e".toList] := by decide +kernel

end MM.Tools
