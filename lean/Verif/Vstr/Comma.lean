import Verif.Vstr.Model
import Mathlib.Data.List.Basic
import Mathlib.Tactic.Linarith
/-!
# C27: comma-separated lists
-/
namespace MM.Vstr

/-- Specification: the elements of a comma-separated list (`split_spec` characterises it). -/
def split : Str → List Str
  | [] => [[]]
  | c :: t =>
    if c = ',' then [] :: split t
    else match split t with
      | h :: r => (c :: h) :: r
      | [] => [[c]]

theorem split_ne_nil (s : Str) : split s ≠ [] := by
  cases s with
  | nil => simp [split]
  | cons c t => rw [split]; split <;> (try split) <;> simp

/-- The elements joined by commas give the string back, and no element contains a comma. -/
theorem split_spec (s : Str) : [','].intercalate (split s) = s ∧ ∀ e ∈ split s, ',' ∉ e := by
  induction s with
  | nil => simp [split, List.intercalate]
  | cons c t ih =>
    rw [split]
    by_cases hc : c = ','
    · rw [if_pos hc]
      obtain ⟨h, r, hs⟩ : ∃ h r, split t = h :: r := by
        cases h : split t with
        | nil => exact absurd h (split_ne_nil t)
        | cons a b => exact ⟨a, b, rfl⟩
      refine ⟨?_, ?_⟩
      · have := ih.1
        rw [hs] at this ⊢
        rw [hc]
        simp only [List.intercalate, List.intersperse] at this ⊢
        simp [this]
      · intro e he
        rcases List.mem_cons.1 he with rfl | he
        · simp
        · exact ih.2 e he
    · rw [if_neg hc]
      obtain ⟨h, r, hs⟩ : ∃ h r, split t = h :: r := by
        cases h : split t with
        | nil => exact absurd h (split_ne_nil t)
        | cons a b => exact ⟨a, b, rfl⟩
      rw [hs] at ih ⊢
      refine ⟨?_, ?_⟩
      · have := ih.1
        cases r with
        | nil => simpa [List.intercalate] using this
        | cons a b => simpa [List.intercalate] using this
      · intro e he
        rcases List.mem_cons.1 he with rfl | he
        · have := ih.2 h (by simp)
          simp [this, Ne.symm hc]
        · exact ih.2 e (by simp [he])

theorem split_length (s : Str) : (split s).length = s.count ',' + 1 := by
  induction s with
  | nil => simp [split]
  | cons c t ih =>
    rw [split]
    by_cases hc : c = ','
    · simp [hc, ih]
    · rw [if_neg hc]
      obtain ⟨h, r, hs⟩ : ∃ h r, split t = h :: r := by
        cases h : split t with
        | nil => exact absurd h (split_ne_nil t)
        | cons a b => exact ⟨a, b, rfl⟩
      rw [hs] at ih ⊢
      rw [List.count_cons_of_ne hc]
      simpa using ih

/-- C27: `numEntries` is the number of elements, except that the empty list has none. -/
theorem C27_numEntries (l : Str) : numEntries l = if l = [] then 0 else (split l).length := by
  unfold numEntries
  rw [split_length]

theorem split_nocomma {h : Str} (hh : ',' ∉ h) : split h = [h] := by
  induction h with
  | nil => rfl
  | cons c t ih =>
    rw [split, if_neg (fun e => hh (by simp [e])), ih (fun e => hh (by simp [e]))]

theorem split_append {h : Str} (t : Str) (hh : ',' ∉ h) : split (h ++ ',' :: t) = h :: split t := by
  induction h with
  | nil => simp [split]
  | cons c u ih =>
    rw [List.cons_append, split, if_neg (fun e => hh (by simp [e])), ih (fun e => hh (by simp [e]))]

/-- Every string is a comma-free string or a comma-free string, a comma and more. -/
theorem cases_comma (l : Str) : ',' ∉ l ∨ ∃ h t, l = h ++ ',' :: t ∧ ',' ∉ h := by
  induction l with
  | nil => left; simp
  | cons c u ih =>
    by_cases hc : c = ','
    · exact Or.inr ⟨[], u, by simp [hc], by simp⟩
    · rcases ih with h | ⟨h, t, rfl, hh⟩
      · left; simp [h, Ne.symm hc]
      · exact Or.inr ⟨c :: h, t, by simp, by simp [hh, Ne.symm hc]⟩

theorem entryScan_nocomma {el : Int} {h : Str} (hh : ',' ∉ h) (t : Str) (i first cc : Nat) :
    entryScan el (h ++ t) i first cc = entryScan el t (i + h.length) first cc := by
  induction h generalizing i with
  | nil => simp
  | cons c u ih =>
    rw [List.cons_append, entryScan, if_neg (fun e => hh (by simp [e])), ih (fun e => hh (by simp [e]))]
    congr 1
    simp
    omega

/-- What the scan finds: the boundaries of the element, or the end of the list. -/
theorem entryScan_spec {el : Nat} (l : Str) : ∀ (i cc : Nat), cc < el →
    (∀ e, (split l)[el - 1 - cc]? = some e →
      ∃ r, entryScan el l i i cc = r ∧ i ≤ r.first ∧ (l.drop (r.first - i)).take (r.i - r.first) = e ∧ r.i = r.first + e.length ∧
        r.first + e.length ≤ i + l.length ∧
        (if r.atEnd then r.commas + 1 else r.commas) = el ∧ (r.atEnd = true ↔ r.i = i + l.length)) ∧
    ((split l)[el - 1 - cc]? = none → ∃ r, entryScan el l i i cc = r ∧ r.atEnd = true ∧ r.commas + 1 < el) := by
  induction h : l.length using Nat.strong_induction_on generalizing l with
  | _ n ih =>
    subst h
    intro i cc hcc
    rcases cases_comma l with hl | ⟨u, t, rfl, hu⟩
    · have e0 : entryScan el l i i cc = ⟨i + l.length, i, cc, true⟩ := by
        have := entryScan_nocomma (el := el) hl [] i i cc
        rw [List.append_nil] at this
        rw [this, entryScan]
      rw [split_nocomma hl, e0]
      constructor
      · intro e he
        have h0 : el - 1 - cc = 0 := by
          by_contra hne
          rw [List.getElem?_eq_none (by simp; omega)] at he
          cases he
        rw [h0] at he
        simp at he
        subst he
        refine ⟨_, rfl, le_refl _, ?_, by simp, by simp, by simp; omega, by simp⟩
        simp
      · intro he
        refine ⟨_, rfl, rfl, ?_⟩
        rw [List.getElem?_eq_none_iff] at he
        simp at he
        simp
        omega
    · rw [split_append t hu, entryScan_nocomma hu, entryScan, if_pos rfl]
      by_cases hel : ((cc + 1 : Nat) : Int) = el
      · rw [if_pos hel]
        have h0 : el - 1 - cc = 0 := by omega
        rw [h0]
        constructor
        · intro e he
          simp at he
          subst he
          refine ⟨_, rfl, le_refl _, ?_, by simp, by simp, by simp; omega, by simp⟩
          simp
        · intro he; simp at he
      · rw [if_neg hel]
        have hk : el - 1 - cc = (el - 1 - (cc + 1)) + 1 := by omega
        rw [hk, List.getElem?_cons_succ]
        have := ih t.length (by simp; omega) t rfl (i + u.length + 1) (cc + 1) (by omega)
        constructor
        · intro e he
          obtain ⟨r, h1, h2, h3, h4, h5, h6, h7⟩ := this.1 e he
          refine ⟨r, h1, by omega, ?_, h4, ?_, h6, ?_⟩
          · rw [show u ++ ',' :: t = (u ++ [',']) ++ t by simp, List.drop_append, List.drop_of_length_le (by simp; omega), List.nil_append,
              show r.first - i - (u ++ [',']).length = r.first - (i + u.length + 1) by simp; omega]
            exact h3
          · simp; omega
          · rw [h7]; simp; omega
        · intro he
          exact this.2 he

/-- C27: `entry(n, l)` is the `n`-th element of the list, the empty string if there is none. -/
theorem C27_entry (n : Int) (l : Str) : entry n l = if n < 1 then [] else ((split l)[n.toNat - 1]?).getD [] := by
  unfold entry
  by_cases hn : n < 1
  · rw [if_pos hn, if_pos hn]
  · rw [if_neg hn, if_neg hn]
    obtain ⟨m, rfl⟩ : ∃ m : Nat, n = m := ⟨n.toNat, by omega⟩
    have hs := entryScan_spec (el := m) l 0 0 (by omega)
    simp only [Int.toNat_natCast] at *
    rw [Nat.sub_zero] at hs
    cases he : (split l)[m - 1]? with
    | none =>
      obtain ⟨r, h1, h2, h3⟩ := hs.2 he
      rw [h1, h2, if_pos rfl, if_pos (by omega)]
      rfl
    | some e =>
      obtain ⟨r, h1, h2, h3, h4, h5, h6, h7⟩ := hs.1 e he
      rw [h1, h6, if_neg (by omega)]
      simpa using h3

/-- C27: `entryPosition(n, l)` is 0 if there is no `n`-th element or it is empty; otherwise it is the 1-based position where the element
starts, i.e. the elements before it, each followed by a comma, have that length minus one. -/
theorem C27_entryPosition (n : Int) (l : Str) :
    (entryPosition n l = 0 ∧ (n < 1 ∨ ((split l)[n.toNat - 1]?).getD [] = [])) ∨
    (∃ e, 1 ≤ n ∧ (split l)[n.toNat - 1]? = some e ∧ e ≠ [] ∧ 1 ≤ entryPosition n l ∧
      (l.drop (entryPosition n l - 1)).take e.length = e ∧
      (l.take (entryPosition n l - 1)) = ((split l).take (n.toNat - 1)).flatMap (· ++ [','])) := by
  have prefixOk : ∀ (l : Str) (i cc el : Nat), cc < el → ∀ e, (split l)[el - 1 - cc]? = some e →
      l.take ((entryScan el l i i cc).first - i) = ((split l).take (el - 1 - cc)).flatMap (· ++ [',']) := by
    intro l
    induction h : l.length using Nat.strong_induction_on generalizing l with
    | _ n ih =>
      subst h
      intro i cc el hcc e he
      rcases cases_comma l with hl | ⟨u, t, rfl, hu⟩
      · have e0 : entryScan el l i i cc = ⟨i + l.length, i, cc, true⟩ := by
          have := entryScan_nocomma (el := el) hl [] i i cc
          rw [List.append_nil] at this
          rw [this, entryScan]
        rw [split_nocomma hl] at he ⊢
        have h0 : el - 1 - cc = 0 := by
          by_contra hne
          rw [List.getElem?_eq_none (by simp; omega)] at he
          cases he
        rw [h0, e0]
        simp
      · rw [split_append t hu] at he ⊢
        rw [entryScan_nocomma hu, entryScan, if_pos rfl]
        by_cases hel : ((cc + 1 : Nat) : Int) = el
        · rw [if_pos hel]
          have h0 : el - 1 - cc = 0 := by omega
          rw [h0]
          simp
        · rw [if_neg hel]
          have hk : el - 1 - cc = (el - 1 - (cc + 1)) + 1 := by omega
          rw [hk, List.getElem?_cons_succ] at he
          have := ih t.length (by simp; omega) t rfl (i + u.length + 1) (cc + 1) el (by omega) e he
          obtain ⟨r, h1, h2, _⟩ := (entryScan_spec (el := el) t (i + u.length + 1) (cc + 1) (by omega)).1 e he
          rw [h1] at this ⊢
          rw [hk, List.take_succ_cons, List.flatMap_cons, ← this]
          rw [show r.first - i = u.length + 1 + (r.first - (i + u.length + 1)) by omega, List.take_append,
            List.take_of_length_le (by omega), List.append_assoc]
          congr 1
          rw [show u.length + 1 + (r.first - (i + u.length + 1)) - u.length = (r.first - (i + u.length + 1)) + 1 by omega]
          simp
  unfold entryPosition
  by_cases hn : n < 1
  · left; rw [if_pos hn]; exact ⟨rfl, Or.inl hn⟩
  · rw [if_neg hn]
    obtain ⟨m, rfl⟩ : ∃ m : Nat, n = m := ⟨n.toNat, by omega⟩
    have hs := entryScan_spec (el := m) l 0 0 (by omega)
    rw [Int.toNat_natCast]
    rw [Nat.sub_zero] at hs
    dsimp only
    cases he : (split l)[m - 1]? with
    | none =>
      left
      obtain ⟨r, h1, h2, h3⟩ := hs.2 he
      rw [h1, h2]
      refine ⟨?_, Or.inr (by simp)⟩
      split
      · rfl
      · rw [if_pos rfl, if_pos (by omega)]
    | some e =>
      have hpre := prefixOk l 0 0 m (by omega) e (by simpa using he)
      obtain ⟨r, h1, h2, h3, h4, h5, h6, h7⟩ := hs.1 e he
      rw [h1] at hpre ⊢
      rw [Nat.sub_zero] at h3 hpre
      rw [Nat.zero_add] at h5 h7
      have hnc : ',' ∉ e := (split_spec l).2 e (List.mem_of_getElem? he)
      by_cases hne : e = []
      · left
        refine ⟨?_, Or.inr (by simp [hne])⟩
        subst hne
        simp only [List.length_nil, Nat.add_zero] at h4 h5
        by_cases hend : r.atEnd = true
        · rw [if_pos]
          refine ⟨hend, ?_⟩
          by_contra hno
          push Not at hno
          -- the list ends where the element starts: the text before is a sequence of elements each followed by a comma
          have h8 := h7.1 hend
          have h9 : l = ((split l).take (m - 1 - 0)).flatMap (· ++ [',']) := by
            rw [← hpre, ← h4, h8, List.take_length]
          have hl : ((split l).take (m - 1 - 0)).flatMap (· ++ [',']) ≠ [] := by
            rw [← h9]; intro h0; apply hno.1; rw [h8, h0]; rfl
          apply hno.2
          rw [h8, ← List.getLast?_eq_getElem?, h9]
          rcases List.eq_nil_or_concat ((split l).take (m - 1 - 0)) with h0 | ⟨a, b, h0⟩
          · rw [h0] at hl; simp at hl
          · rw [h0, List.concat_eq_append, List.flatMap_append]; simp
        · rw [if_neg (by tauto), h6, if_neg (by omega)]
          -- the scan stopped at a comma at `r.i = r.first`
          have hcomma : ∀ (l : Str) (i cc : Nat) (f : Nat), (entryScan m l i f cc).atEnd = false →
              l[(entryScan m l i f cc).i - i]? = some ',' ∧ i ≤ (entryScan m l i f cc).i := by
            intro l
            induction l with
            | nil => intro i cc f h; simp [entryScan] at h
            | cons c t ih =>
              intro i cc f h
              rw [entryScan] at h ⊢
              by_cases hc : c = ','
              · rw [if_pos hc] at h ⊢
                by_cases hel : ((cc + 1 : Nat) : Int) = m
                · rw [if_pos hel]; simp [hc]
                · rw [if_neg hel] at h ⊢
                  have := ih (i + 1) (cc + 1) (i + 1) h
                  generalize entryScan (m : Int) t (i + 1) (i + 1) (cc + 1) = q at this ⊢
                  refine ⟨?_, by omega⟩
                  rw [show q.i - i = (q.i - (i + 1)) + 1 by omega]
                  simpa using this.1
              · rw [if_neg hc] at h ⊢
                have := ih (i + 1) cc f h
                generalize entryScan (m : Int) t (i + 1) f cc = q at this ⊢
                refine ⟨?_, by omega⟩
                rw [show q.i - i = (q.i - (i + 1)) + 1 by omega]
                simpa using this.1
          have := (hcomma l 0 0 0 (by rw [h1]; simpa using hend)).1
          rw [h1] at this
          rw [Nat.sub_zero, h4] at this
          rw [if_pos this]
      · right
        have hlen : 0 < e.length := List.length_pos_iff.2 hne
        have hget : ∀ k, k < e.length → l[r.first + k]? ≠ some ',' := by
          intro k hk hc
          apply hnc
          rw [← h3]
          apply List.mem_of_getElem? (i := k)
          rw [List.getElem?_take_of_lt (by omega), List.getElem?_drop]
          exact hc
        have hend : ¬ (r.atEnd = true ∧ (r.i = 0 ∨ l[r.i - 1]? = some ',')) := by
          rintro ⟨_, h0 | h0⟩
          · omega
          · apply hget (e.length - 1) (by omega)
            rw [show r.first + (e.length - 1) = r.i - 1 by omega]
            exact h0
        rw [if_neg hend, h6, if_neg (by omega), if_neg (by simpa using hget 0 hlen)]
        refine ⟨e, by omega, rfl, hne, by omega, ?_, ?_⟩
        · rw [Nat.add_sub_cancel]
          rw [show e.length = r.i - r.first by omega]
          exact h3
        · rw [Nat.add_sub_cancel, hpre, Nat.sub_zero]

theorem lookupGo_nocomma {expr : Str} {h : Str} (hh : ',' ∉ h) (t : Str) (num : Nat) (e : Str) (ok : Bool) :
    lookupGo expr (h ++ t) num e ok = lookupGo expr t num (e.drop h.length) (ok && h.isPrefixOf e) := by
  induction h generalizing e ok with
  | nil => simp
  | cons c u ih =>
    rw [List.cons_append, lookupGo, if_neg (fun e => hh (by simp [e])), ih (fun e => hh (by simp [e]))]
    cases e with
    | nil => simp
    | cons d e =>
      simp only [List.tail_cons, List.length_cons, List.drop_succ_cons, List.isPrefixOf_cons_cons, List.head?_cons]
      congr 1
      rw [Bool.and_assoc]
      congr 2
      rw [Bool.eq_iff_iff, beq_iff_eq, beq_iff_eq, Option.some_inj]
      exact eq_comm

theorem match_iff {e h : Str} : (((true && h.isPrefixOf e) = true) ∧ e.drop h.length = []) ↔ e = h := by
  simp only [Bool.true_and, List.isPrefixOf_iff_prefix]
  constructor
  · rintro ⟨⟨x, rfl⟩, h2⟩
    simpa using h2
  · rintro rfl
    exact ⟨List.prefix_refl _, by simp⟩

theorem lookupGo_spec (expr l : Str) : ∀ num, lookupGo expr l num expr true =
    if expr ∈ split l then num + (split l).idxOf expr + 1 else 0 := by
  induction h : l.length using Nat.strong_induction_on generalizing l with
  | _ n ih =>
    subst h
    intro num
    rcases cases_comma l with hl | ⟨u, t, rfl, hu⟩
    · have := lookupGo_nocomma (expr := expr) hl [] num expr true
      rw [List.append_nil] at this
      rw [this, lookupGo, split_nocomma hl]
      simp only [match_iff]
      by_cases he : expr = l <;> simp [he]
    · rw [lookupGo_nocomma hu, lookupGo, if_pos rfl, split_append t hu]
      simp only [match_iff]
      by_cases he : expr = u
      · simp [he]
      · rw [if_neg he, ih t.length (by simp; omega) t rfl (num + 1)]
        rw [List.idxOf_cons_ne _ (Ne.symm he)]
        simp only [List.mem_cons, he, false_or]
        split <;> omega

/-- C27: `lookup(e, l)` is the number of the first element equal to `e`, 0 if there is none. -/
theorem C27_lookup (e l : Str) :
    (e ∉ split l ∧ lookup e l = 0) ∨
    ((split l)[lookup e l - 1]? = some e ∧ 1 ≤ lookup e l ∧ ∀ k, k < lookup e l - 1 → (split l)[k]? ≠ some e) := by
  unfold lookup
  rw [lookupGo_spec]
  by_cases h : e ∈ split l
  · right
    rw [if_pos h]
    have hlt := List.idxOf_lt_length_of_mem h
    rw [Nat.zero_add, Nat.add_sub_cancel]
    refine ⟨?_, by omega, ?_⟩
    · rw [List.getElem?_eq_getElem hlt, List.getElem_idxOf]
    · intro k hk hc
      obtain ⟨hk', hc'⟩ := List.getElem?_eq_some_iff.1 hc
      have := List.not_of_lt_findIdx (p := (· == e)) hk
      simp [hc'] at this
  · left
    exact ⟨h, by rw [if_neg h]⟩

/-- C27: looking an element up and fetching it gives the element. -/
theorem C27_entry_lookup (e l : Str) (h : lookup e l ≠ 0) : entry (lookup e l) l = e := by
  rcases C27_lookup e l with ⟨_, h0⟩ | ⟨h1, h2, _⟩
  · exact absurd h0 h
  · rw [C27_entry, if_neg (by omega), Int.toNat_natCast, h1]
    rfl

/-- An element with a comma is never found. -/
theorem C27_lookup_comma (e l : Str) (h : ',' ∈ e) : lookup e l = 0 := by
  rcases C27_lookup e l with ⟨_, h0⟩ | ⟨h1, _⟩
  · exact h0
  · exact absurd h ((split_spec l).2 e (List.mem_of_getElem? h1))

example : split "ab,,c".toList = ["ab".toList, [], "c".toList] ∧ entry 3 "ab,,c".toList = "c".toList ∧
    lookup "c".toList "ab,,c".toList = 3 ∧ entryPosition 3 "ab,,c".toList = 5 ∧ entryPosition 2 "ab,,c".toList = 0 ∧
    numEntries "ab,,c".toList = 3 := by decide

end MM.Vstr
