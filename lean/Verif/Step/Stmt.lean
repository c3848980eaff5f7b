import Verif.Step.Model
/-!
# C89: the statement a label pattern selects
-/
namespace MM.Step
open MM.Vstr MM.Proof

/-- Specification: the statement has a label, its type is allowed, the name fits the label, and where hypotheses of other statements are excluded it is an assertion
(or another statement that is no hypothesis) or a hypothesis of statement `maxStmt`.  `fits s` says that the label of statement `s` fits the name. -/
def Selected (E : Match.MEnv) (A : Args) (fits : Nat → Bool) (s : Nat) : Bool :=
  decide (E.lab s ≠ []) &&
  decide (((E.stmt s).kind = .a → A.a = true) ∧ ((E.stmt s).kind = .p → A.p = true) ∧ ((E.stmt s).kind = .e → A.e = true) ∧ ((E.stmt s).kind = .f → A.f = true)) &&
  fits s &&
  decide (A.efOnly = true → (E.stmt s).kind = .e ∨ (E.stmt s).kind = .f → s ∈ (E.stmt A.maxStmt).reqHyp ∨ s ∈ (E.stmt A.maxStmt).optHyp)

/-- The name has one of the characters `*?=~%#@,` and is therefore a pattern. -/
def IsPattern (name : Str) : Prop := ∃ c ∈ name, c ∈ ['*', '?', '=', '~', '%', '#', '@', ',']

instance (s : Str) : Decidable (IsPattern s) := inferInstanceAs (Decidable (∃ c ∈ s, c ∈ ['*', '?', '=', '~', '%', '#', '@', ',']))

/-- What it means for a name to fit a label: a pattern matches it (C28), anything else is equal to it. -/
def Fits (E : Match.MEnv) (A : Args) (fits : Nat → Bool) : Prop :=
  ∀ s, A.startStmt ≤ s → s ≤ E.n →
    (IsPattern A.name → Match.matchesList E (E.lab s) A.name '*' '?' = .val (fits s)) ∧ (¬ IsPattern A.name → (fits s = true ↔ E.lab s = A.name))

/-- The statements from the first one to look at up to (not including) `stop`, and not beyond the last statement, that are selected. -/
def selected (E : Match.MEnv) (A : Args) (fits : Nat → Bool) (start stop : Nat) : List Nat :=
  (List.range' start (min stop (E.n + 1) - start)).filter (Selected E A fits)

theorem wild_iff (s : Str) : hasWildcard s = true ↔ IsPattern s := by
  unfold hasWildcard IsPattern
  rw [List.any_eq_true]
  constructor
  · rintro ⟨c, c1, c2⟩
    exact ⟨c, c1, List.contains_iff_mem.1 c2⟩
  · rintro ⟨c, c1, c2⟩
    exact ⟨c, c1, List.contains_iff_mem.2 c2⟩

theorem refused_iff (A : Args) (k : MM.Veri.Kind) : refused A k = !decide ((k = .a → A.a = true) ∧ (k = .p → A.p = true) ∧ (k = .e → A.e = true) ∧ (k = .f → A.f = true)) := by
  unfold refused
  cases A.a <;> cases A.p <;> cases A.e <;> cases A.f <;> cases k <;> rfl

theorem foreign_iff (E : Match.MEnv) (A : Args) (s : Nat) : (A.efOnly && foreign E A s) =
    !decide (A.efOnly = true → (E.stmt s).kind = .e ∨ (E.stmt s).kind = .f → s ∈ (E.stmt A.maxStmt).reqHyp ∨ s ∈ (E.stmt A.maxStmt).optHyp) := by
  unfold foreign
  cases A.efOnly
  · simp
  · by_cases h1 : s ∈ (E.stmt A.maxStmt).reqHyp <;> by_cases h2 : s ∈ (E.stmt A.maxStmt).optHyp <;> cases h3 : (E.stmt s).kind <;> simp [h1, h2]

/-- One round of the loop, for a statement that is not skipped because the scan has ended. -/
theorem scan_step (E : Match.MEnv) (A : Args) {fits : Nat → Bool} (hf : Fits E A fits) (hb : A.efOnly = true → A.maxStmt ≤ E.n) {k s : Nat} {st : St}
    (h1 : A.startStmt ≤ s) (h2 : s ≤ E.n) (hc : ¬ (s ≥ A.maxStmt ∧ (st.found > 0 ∨ A.unique = false))) :
    scan E A (k + 1) s st = if Selected E A fits s = true then
        (if s ≥ A.maxStmt then .val { st with later := true }
         else if A.unique = false ∨ hasWildcard A.name = false then .val (count s st)
         else scan E A k (s + 1) (count s st))
      else scan E A k (s + 1) st := by
  have hh : hit E A s = .val (fits s) := by
    unfold hit
    obtain ⟨f1, f2⟩ := hf s h1 h2
    by_cases hw : hasWildcard A.name = true
    · rw [if_pos hw]
      exact f1 ((wild_iff _).1 hw)
    · rw [if_neg hw]
      have f3 := f2 fun h => hw ((wild_iff _).2 h)
      congr 1
      by_cases he : A.name = E.lab s
      · rw [f3.2 he.symm]
        exact decide_eq_true he
      · cases hfs : fits s with
        | true => exact absurd (f3.1 hfs).symm he
        | false => exact decide_eq_false he
  have hs : Selected E A fits s = (decide (E.lab s ≠ []) && !refused A (E.stmt s).kind && fits s && !(A.efOnly && foreign E A s)) := by
    rw [refused_iff, foreign_iff]
    unfold Selected
    rw [Bool.not_not, Bool.not_not]
  rw [hs, scan, if_neg hc, hh, Out.bind_val]
  by_cases a1 : E.lab s = []
  · simp [a1]
  · rw [if_neg a1]
    by_cases a2 : refused A (E.stmt s).kind = true
    · simp [a2]
    · rw [if_neg a2]
      by_cases a3 : fits s = false
      · simp [a3]
      · rw [if_neg a3, if_neg (fun h => by have := hb h.1; omega)]
        by_cases a4 : (A.efOnly && foreign E A s) = true
        · rw [if_pos a4, a4]
          simp
        · rw [if_neg a4]
          have a4' : (A.efOnly && foreign E A s) = false := Bool.eq_false_iff.2 a4
          have a2' : refused A (E.stmt s).kind = false := Bool.eq_false_iff.2 a2
          have a3' : fits s = true := by cases h : fits s <;> simp_all
          rw [a4', a2', a3', decide_eq_true a1]
          rfl

/-- The scan from `maxStmt` on. -/
theorem scan_after (E : Match.MEnv) (A : Args) {fits : Nat → Bool} (hf : Fits E A fits) (hb : A.efOnly = true → A.maxStmt ≤ E.n) (st : St) :
    ∀ (k s : Nat), A.startStmt ≤ s → A.maxStmt ≤ s → s + k = E.n + 1 →
    scan E A k s st = .val (if st.found > 0 ∨ A.unique = false then st
      else { st with later := st.later || !((List.range' s k).filter (Selected E A fits)).isEmpty })
  | 0, s, h1, h2, h3 => by
    unfold scan
    simp
  | k + 1, s, h1, h2, h3 => by
    by_cases hc : st.found > 0 ∨ A.unique = false
    · unfold scan
      rw [if_pos ⟨h2, hc⟩, if_pos hc]
    · rw [scan_step E A hf hb h1 (by omega) (fun h => hc h.2), scan_after E A hf hb st k (s + 1) (by omega) (by omega) (by omega), if_neg hc, if_neg hc, List.range'_succ]
      by_cases hs : Selected E A fits s = true
      · rw [if_pos hs, if_pos h2, List.filter_cons_of_pos hs]
        simp
      · rw [if_neg hs, List.filter_cons_of_neg hs]

/-- The variables after the selected statements `l`. -/
def counted (st : St) (l : List Nat) : St := l.foldl (fun st s => count s st) st

theorem counted_found (l : List Nat) : ∀ st, (counted st l).found = st.found + l.length := by
  induction l with
  | nil => intro st; rfl
  | cons a t ih =>
    intro st
    show (counted (count a st) t).found = _
    rw [ih]
    show st.found + 1 + t.length = st.found + (t.length + 1)
    omega

theorem counted_later (l : List Nat) : ∀ st, (counted st l).later = st.later := by
  induction l with
  | nil => intro st; rfl
  | cons a t ih =>
    intro st
    show (counted (count a st) t).later = _
    rw [ih]
    rfl

theorem counted_stable (l : List Nat) : ∀ st, (1 ≤ st.found → (counted st l).m1 = st.m1) ∧ (2 ≤ st.found → (counted st l).m2 = st.m2) := by
  induction l with
  | nil => intro st; exact ⟨fun _ => rfl, fun _ => rfl⟩
  | cons a t ih =>
    intro st
    refine ⟨fun h => ?_, fun h => ?_⟩
    · show (counted (count a st) t).m1 = _
      rw [(ih _).1 (by show 1 ≤ st.found + 1; omega)]
      show (if st.found = 0 then a else st.m1) = _
      rw [if_neg (by omega)]
    · show (counted (count a st) t).m2 = _
      rw [(ih _).2 (by show 2 ≤ st.found + 1; omega)]
      show (if st.found = 1 then a else st.m2) = _
      rw [if_neg (by omega)]

theorem counted_first {x : Nat} {t : List Nat} {st : St} (h : st.found = 0) : (counted st (x :: t)).m1 = x := by
  show (counted (count x st) t).m1 = x
  rw [(counted_stable t _).1 (by show 1 ≤ st.found + 1; omega)]
  show (if st.found = 0 then x else st.m1) = x
  rw [if_pos h]

theorem counted_second {x y : Nat} {t : List Nat} {st : St} (h : st.found = 0) : (counted st (x :: y :: t)).m2 = y := by
  show (counted (count y (count x st)) t).m2 = y
  rw [(counted_stable t _).2 (by show 2 ≤ st.found + 1 + 1; omega)]
  show (if st.found + 1 = 1 then y else _) = y
  rw [if_pos (by omega)]

/-- The whole scan. -/
theorem scan_eq (E : Match.MEnv) (A : Args) {fits : Nat → Bool} (hf : Fits E A fits) (hb : A.efOnly = true → A.maxStmt ≤ E.n) :
    ∀ (k s : Nat) (st : St), A.startStmt ≤ s → s + k = E.n + 1 → st.later = false → (st.found > 0 → A.unique = true ∧ IsPattern A.name) →
    ∃ later : Bool, scan E A k s st = .val { counted st (if A.unique = true ∧ IsPattern A.name then selected E A fits s A.maxStmt else (selected E A fits s A.maxStmt).take 1) with later := later } ∧
      (later = true → A.unique = true ∧ ∃ t, A.maxStmt ≤ t ∧ t ≤ E.n ∧ s ≤ t ∧ Selected E A fits t = true) ∧
      (st.found = 0 → selected E A fits s A.maxStmt = [] → A.unique = true → (∃ t, A.maxStmt ≤ t ∧ t ≤ E.n ∧ s ≤ t ∧ Selected E A fits t = true) → later = true) := by
  intro k
  induction k with
  | zero =>
    intro s st h1 h2 h3 h4
    have e : selected E A fits s A.maxStmt = [] := by
      unfold selected
      rw [show min A.maxStmt (E.n + 1) - s = 0 by omega]
      rfl
    refine ⟨false, ?_, (fun h => by cases h), fun _ _ _ ⟨t, t1, t2, t3, _⟩ => by omega⟩
    rw [e]
    have : (if A.unique = true ∧ IsPattern A.name then ([] : List Nat) else [].take 1) = [] := by split <;> rfl
    rw [this]
    show Out.val st = .val { st with later := false }
    rw [← h3]
  | succ k ih =>
    intro s st h1 h2 h3 h4
    by_cases hm : A.maxStmt ≤ s
    · have e : selected E A fits s A.maxStmt = [] := by
        unfold selected
        rw [show min A.maxStmt (E.n + 1) - s = 0 by omega]
        rfl
      have e2 : (if A.unique = true ∧ IsPattern A.name then ([] : List Nat) else [].take 1) = [] := by split <;> rfl
      rw [scan_after E A hf hb st (k + 1) s h1 hm h2, e, e2]
      by_cases hc : st.found > 0 ∨ A.unique = false
      · rw [if_pos hc]
        refine ⟨false, ?_, (fun h => by cases h), fun a _ b _ => ?_⟩
        · show Out.val st = .val { st with later := false }
          rw [← h3]
        · rcases hc with hc | hc
          · omega
          · rw [b] at hc
            cases hc
      · rw [if_neg hc]
        refine ⟨_, rfl, fun h => ?_, fun _ _ _ ht => ?_⟩
        · rw [h3, Bool.false_or] at h
          have h5 : A.unique = true := by
            cases hu : A.unique with
            | true => rfl
            | false => exact absurd (.inr hu) hc
          refine ⟨h5, ?_⟩
          cases hl : (List.range' s (k + 1)).filter (Selected E A fits) with
          | nil =>
            rw [hl] at h
            cases h
          | cons t ts =>
            have ht : t ∈ (List.range' s (k + 1)).filter (Selected E A fits) := by rw [hl]; exact List.mem_cons_self ..
            obtain ⟨a, b⟩ := List.mem_filter.1 ht
            have := List.mem_range'_1.1 a
            exact ⟨t, by omega, by omega, by omega, b⟩
        · obtain ⟨t, t1, t2, t3, t4⟩ := ht
          have ht : t ∈ (List.range' s (k + 1)).filter (Selected E A fits) := List.mem_filter.2 ⟨List.mem_range'_1.2 ⟨t3, by omega⟩, t4⟩
          cases hl : (List.range' s (k + 1)).filter (Selected E A fits) with
          | nil =>
            rw [hl] at ht
            cases ht
          | cons t ts => rw [Bool.or_comm]; rfl
    · have e : ∀ stop, A.maxStmt = stop → selected E A fits s stop = if Selected E A fits s = true then s :: selected E A fits (s + 1) stop else selected E A fits (s + 1) stop := by
        intro stop hst
        unfold selected
        rw [show min stop (E.n + 1) - s = (min stop (E.n + 1) - (s + 1)) + 1 by omega, List.range'_succ]
        by_cases hs : Selected E A fits s = true
        · rw [if_pos hs, List.filter_cons_of_pos hs]
        · rw [if_neg hs, List.filter_cons_of_neg hs]
      rw [e _ rfl, scan_step E A hf hb h1 (by omega) (fun h => hm h.1)]
      by_cases hs : Selected E A fits s = true
      · rw [if_pos hs, if_neg (by omega), if_pos hs]
        by_cases hu : A.unique = false ∨ hasWildcard A.name = false
        · have hn : ¬ (A.unique = true ∧ IsPattern A.name) := by
            rintro ⟨a, b⟩
            rcases hu with hu | hu
            · rw [a] at hu
              cases hu
            · rw [(wild_iff _).2 b] at hu
              cases hu
          rw [if_pos hu, if_neg hn]
          refine ⟨false, ?_, (fun h => by cases h), fun _ h => by cases h⟩
          show Out.val (count s st) = .val { count s st with later := false }
          have : (count s st).later = false := h3
          rw [← this]
        · rw [if_neg hu]
          have hp : A.unique = true ∧ IsPattern A.name := by
            refine ⟨?_, (wild_iff _).1 ?_⟩
            · cases h : A.unique with
              | true => rfl
              | false => exact absurd (.inl h) hu
            · cases h : hasWildcard A.name with
              | true => rfl
              | false => exact absurd (.inr h) hu
          obtain ⟨l, l1, l2, l3⟩ := ih (s + 1) (count s st) (by omega) (by omega) h3 (fun _ => hp)
          rw [l1, if_pos hp, if_pos hp]
          refine ⟨l, rfl, fun h => ?_, fun _ h => by cases h⟩
          obtain ⟨a, t, t1, t2, t3, t4⟩ := l2 h
          exact ⟨a, t, t1, t2, by omega, t4⟩
      · rw [if_neg hs, if_neg hs]
        obtain ⟨l, l1, l2, l3⟩ := ih (s + 1) st (by omega) (by omega) h3 h4
        refine ⟨l, l1, fun h => ?_, fun a b c ⟨t, t1, t2, t3, t4⟩ => l3 a b c ⟨t, t1, t2, ?_, t4⟩⟩
        · obtain ⟨a, t, t1, t2, t3, t4⟩ := l2 h
          exact ⟨a, t, t1, t2, by omega, t4⟩
        · by_cases h : t = s
          · subst h
            exact absurd t4 hs
          · omega

/-- The statement numbers found, as a single answer. -/
def answer : List Nat → Int
  | [s] => s
  | _ => -1

theorem selected_over (E : Match.MEnv) (A : Args) (fits : Nat → Bool) (h : E.n + 1 < A.startStmt) (stop : Nat) : selected E A fits A.startStmt stop = [] := by
  unfold selected
  rw [show min stop (E.n + 1) - A.startStmt = 0 by omega]
  rfl

theorem get_eq (E : Match.MEnv) (A : Args) {fits : Nat → Bool} (hf : Fits E A fits) (hb : A.efOnly = true → A.maxStmt ≤ E.n) (hs : A.startStmt ≤ E.n + 1) :
    ∃ (later : Bool) (l : List Nat), l = (if A.unique = true ∧ IsPattern A.name then selected E A fits A.startStmt A.maxStmt else (selected E A fits A.startStmt A.maxStmt).take 1) ∧
      getStatementNum E A = .val (message A { counted ⟨0, 1, 1, false⟩ l with later := later }, answer l) ∧
      (later = true → A.unique = true ∧ ∃ t, A.maxStmt ≤ t ∧ t ≤ E.n ∧ A.startStmt ≤ t ∧ Selected E A fits t = true) ∧
      (selected E A fits A.startStmt A.maxStmt = [] → A.unique = true → (∃ t, A.maxStmt ≤ t ∧ t ≤ E.n ∧ A.startStmt ≤ t ∧ Selected E A fits t = true) → later = true) := by
  obtain ⟨l, l1, l2, l3⟩ := scan_eq E A hf hb (E.n + 1 - A.startStmt) A.startStmt ⟨0, 1, 1, false⟩ (Nat.le_refl _) (by omega) rfl (fun h => absurd h (by decide))
  refine ⟨l, _, rfl, ?_, l2, l3 rfl⟩
  unfold getStatementNum
  rw [l1, Out.bind_val]
  generalize hL : (if A.unique = true ∧ IsPattern A.name then selected E A fits A.startStmt A.maxStmt else (selected E A fits A.startStmt A.maxStmt).take 1) = L
  have hlen : (counted ⟨0, 1, 1, false⟩ L).found = L.length := by rw [counted_found]; simp
  have h248 : ¬ (A.unique = false ∧ L.length > 1) := by
    rintro ⟨a, b⟩
    rw [if_neg (fun h => by rw [h.1] at a; cases a)] at hL
    rw [← hL, List.length_take] at b
    omega
  show (if A.unique = false ∧ (counted ⟨0, 1, 1, false⟩ L).found > 1 then _ else Out.val (_, if (counted ⟨0, 1, 1, false⟩ L).found ≠ 1 then -1 else ((counted ⟨0, 1, 1, false⟩ L).m1 : Int))) = _
  rw [hlen, if_neg h248]
  congr 2
  match L with
  | [] => rfl
  | [x] => rfl
  | x :: y :: t => rfl

/-- **C89** (which statement).  `getStatementNum` always gives an answer, never an internal error.  Where a unique statement is asked for and the name is a pattern it is the
only statement selected before `maxStmt`, or -1 if there is none or more than one; in the other cases it is the first statement selected, or -1 if there is none. -/
theorem C89_statement (E : Match.MEnv) (A : Args) {fits : Nat → Bool} (hf : Fits E A fits) (hb : A.efOnly = true → A.maxStmt ≤ E.n) (hs : A.startStmt ≤ E.n + 1) :
    ∃ msg, getStatementNum E A = .val (msg,
      if A.unique = true ∧ IsPattern A.name then answer (selected E A fits A.startStmt A.maxStmt)
      else answer ((selected E A fits A.startStmt A.maxStmt).take 1)) := by
  obtain ⟨later, l, rfl, l2, _⟩ := get_eq E A hf hb hs
  have h5 : answer (if A.unique = true ∧ IsPattern A.name then selected E A fits A.startStmt A.maxStmt else (selected E A fits A.startStmt A.maxStmt).take 1) =
      if A.unique = true ∧ IsPattern A.name then answer (selected E A fits A.startStmt A.maxStmt) else answer ((selected E A fits A.startStmt A.maxStmt).take 1) := by
    split <;> rfl
  rw [h5] at l2
  exact ⟨_, l2⟩

/-- **C89** (in other words).  The statement returned is selected, lies in the range, and is the only one (or, for a plain label or without `uniqueFlag`, the first). -/
theorem C89_sound (E : Match.MEnv) (A : Args) {fits : Nat → Bool} (hf : Fits E A fits) (hb : A.efOnly = true → A.maxStmt ≤ E.n) (hs : A.startStmt ≤ E.n + 1)
    {msg : Msg} {r : Int} (h : getStatementNum E A = .val (msg, r)) :
    (r = -1 ∧ ((∀ s, A.startStmt ≤ s → s < A.maxStmt → s ≤ E.n → Selected E A fits s = false) ∨
        (A.unique = true ∧ IsPattern A.name ∧ ∃ s t : Nat, s ≠ t ∧ ∀ x, (x = s ∨ x = t) → A.startStmt ≤ x ∧ x < A.maxStmt ∧ x ≤ E.n ∧ Selected E A fits x = true))) ∨
    ∃ s : Nat, r = s ∧ A.startStmt ≤ s ∧ s < A.maxStmt ∧ s ≤ E.n ∧ Selected E A fits s = true ∧
      ∀ t, A.startStmt ≤ t → t < A.maxStmt → t ≤ E.n → Selected E A fits t = true → s ≤ t ∧ (A.unique = true → IsPattern A.name → t = s) := by
  obtain ⟨later, l, l1, l2, _⟩ := get_eq E A hf hb hs
  rw [l2] at h
  have hr : answer l = r := (Prod.mk.inj (Out.val.inj h)).2
  have hmem : ∀ s, s ∈ selected E A fits A.startStmt A.maxStmt ↔ A.startStmt ≤ s ∧ s < A.maxStmt ∧ s ≤ E.n ∧ Selected E A fits s = true := by
    intro s
    unfold selected
    rw [List.mem_filter, List.mem_range'_1]
    constructor
    · rintro ⟨⟨a, b⟩, c⟩
      exact ⟨a, by omega, by omega, c⟩
    · rintro ⟨a, b, b', c⟩
      exact ⟨⟨a, by omega⟩, c⟩
  have hsort : (selected E A fits A.startStmt A.maxStmt).Pairwise (· < ·) := List.Pairwise.filter _ List.pairwise_lt_range'
  generalize hL : selected E A fits A.startStmt A.maxStmt = L at hmem hsort l1
  match L, hmem, hsort, l1 with
  | [], hmem, hsort, l1 =>
    left
    have : l = [] := by rw [l1]; split <;> rfl
    rw [this] at hr
    refine ⟨hr.symm, .inl fun s a b c => ?_⟩
    cases hS : Selected E A fits s with
    | false => rfl
    | true => cases (hmem s).2 ⟨a, b, c, hS⟩
  | [x], hmem, hsort, l1 =>
    right
    have : l = [x] := by rw [l1]; split <;> rfl
    rw [this] at hr
    obtain ⟨a, b, c, d⟩ := (hmem x).1 (List.mem_cons_self ..)
    refine ⟨x, hr.symm, a, b, c, d, fun t t1 t2 t3 t4 => ?_⟩
    have := List.mem_singleton.1 ((hmem t).2 ⟨t1, t2, t3, t4⟩)
    exact ⟨by omega, fun _ _ => this⟩
  | x :: y :: rest, hmem, hsort, l1 =>
    by_cases hp : A.unique = true ∧ IsPattern A.name
    · left
      rw [if_pos hp] at l1
      rw [l1] at hr
      refine ⟨hr.symm, .inr ⟨hp.1, hp.2, x, y, ?_, fun z hz => (hmem z).1 ?_⟩⟩
      · have := (List.pairwise_cons.1 hsort).1 y (List.mem_cons_self ..)
        omega
      · rcases hz with rfl | rfl
        · exact List.mem_cons_self ..
        · exact List.mem_cons_of_mem _ (List.mem_cons_self ..)
    · right
      rw [if_neg hp] at l1
      have l1 : l = [x] := l1
      rw [l1] at hr
      obtain ⟨a, b, c, d⟩ := (hmem x).1 (List.mem_cons_self ..)
      refine ⟨x, hr.symm, a, b, c, d, fun t t1 t2 t3 t4 => ⟨?_, fun h1 h2 => absurd ⟨h1, h2⟩ hp⟩⟩
      rcases List.mem_cons.1 ((hmem t).2 ⟨t1, t2, t3, t4⟩) with rfl | ht
      · exact Nat.le_refl _
      · exact Nat.le_of_lt ((List.pairwise_cons.1 hsort).1 t ht)

theorem msg_cases (c1 c2 c3 l : Bool) {msg : Msg} (h : (if c1 = true then Msg.noLabel else if c2 = true then Msg.noP
    else if c3 = true then (if l = false then .noAP else .earlier) else if l = false then .notFound else .earlier) = msg) :
    msg = .noLabel ∨ msg = .noP ∨ (msg = .noAP ∧ l = false) ∨ (msg = .notFound ∧ l = false) ∨ (msg = .earlier ∧ l = true) := by
  subst h
  cases c1 <;> cases c2 <;> cases c3 <;> cases l <;> decide

/-- **C89** (the messages).  For a unique request: with exactly one statement nothing is said; with two or more the message names the first two, with their number; with none, it is said
that the statement must occur earlier only if a selected statement does occur from `maxStmt` on, and (unless the request is for PROVE, or for any statement) always if one does. -/
theorem C89_messages (E : Match.MEnv) (A : Args) {fits : Nat → Bool} (hf : Fits E A fits) (hb : A.efOnly = true → A.maxStmt ≤ E.n) (hs : A.startStmt ≤ E.n + 1)
    (hu : A.unique = true) {msg : Msg} {r : Int} (h : getStatementNum E A = .val (msg, r)) :
    (r ≠ -1 → msg = .silent) ∧
    (r = -1 → msg ≠ .silent) ∧
    (∀ x y, msg = .two x y → IsPattern A.name ∧ selected E A fits A.startStmt A.maxStmt = [x, y]) ∧
    (∀ n x y, msg = .many n x y → IsPattern A.name ∧ ∃ z t, selected E A fits A.startStmt A.maxStmt = x :: y :: z :: t ∧ n = t.length + 3) ∧
    (msg = .earlier → selected E A fits A.startStmt A.maxStmt = [] ∧ ∃ t, A.startStmt ≤ t ∧ A.maxStmt ≤ t ∧ t ≤ E.n ∧ Selected E A fits t = true) ∧
    ((msg = .noAP ∨ msg = .notFound) → ∀ t, A.startStmt ≤ t → t ≤ E.n → Selected E A fits t = false) := by
  obtain ⟨later, l, l1, l2, l3, l4⟩ := get_eq E A hf hb hs
  rw [l2] at h
  have hr : answer l = r := (Prod.mk.inj (Out.val.inj h)).2
  have hm : message A { counted ⟨0, 1, 1, false⟩ l with later := later } = msg := (Prod.mk.inj (Out.val.inj h)).1
  unfold message at hm
  dsimp only at hm
  rw [hu] at hm l1 l3 l4
  have hlen : (counted ⟨0, 1, 1, false⟩ l).found = l.length := by rw [counted_found]; simp
  rw [hlen] at hm
  have hmem : ∀ s, A.startStmt ≤ s → s < A.maxStmt → s ≤ E.n → Selected E A fits s = true → s ∈ selected E A fits A.startStmt A.maxStmt := by
    intro s a b c d
    unfold selected
    rw [List.mem_filter, List.mem_range'_1]
    exact ⟨⟨a, by omega⟩, d⟩
  match l, l1, hm, hr with
  | [], l1, hm, hr =>
    have hnil : selected E A fits A.startStmt A.maxStmt = [] := by
      by_cases hp : true = true ∧ IsPattern A.name
      · rw [if_pos hp] at l1
        exact l1.symm
      · rw [if_neg hp] at l1
        cases hq : selected E A fits A.startStmt A.maxStmt with
        | nil => rfl
        | cons a t => rw [hq] at l1; cases l1
    have hr : r = -1 := hr.symm
    rw [if_pos (show ([] : List Nat).length = 0 from rfl), if_neg (by decide)] at hm
    have hms : msg = .noLabel ∨ msg = .noP ∨ (msg = .noAP ∧ later = false) ∨ (msg = .notFound ∧ later = false) ∨ (msg = .earlier ∧ later = true) := by
      exact msg_cases _ _ _ _ hm
    have hnone : later = false → ∀ t, A.startStmt ≤ t → t ≤ E.n → Selected E A fits t = false := by
      intro hl t t1 t2
      cases hS : Selected E A fits t with
      | false => rfl
      | true =>
        by_cases ht : t < A.maxStmt
        · have := hmem t t1 ht t2 hS
          rw [hnil] at this
          cases this
        · rw [l4 hnil rfl ⟨t, by omega, t2, t1, hS⟩] at hl
          cases hl
    refine ⟨fun h => absurd hr h, fun _ => ?_, ?_, ?_, ?_, ?_⟩
    · rcases hms with h | h | ⟨h, _⟩ | ⟨h, _⟩ | ⟨h, _⟩ <;> (rw [h]; decide)
    · rintro x y rfl
      rcases hms with h | h | ⟨h, _⟩ | ⟨h, _⟩ | ⟨h, _⟩ <;> cases h
    · rintro n x y rfl
      rcases hms with h | h | ⟨h, _⟩ | ⟨h, _⟩ | ⟨h, _⟩ <;> cases h
    · rintro rfl
      rcases hms with h | h | h | h | h
      · cases h
      · cases h
      · cases h.1
      · cases h.1
      · obtain ⟨_, t, t1, t2, t3, t4⟩ := l3 h.2
        exact ⟨hnil, t, t3, t1, t2, t4⟩
    · rintro (rfl | rfl)
      · rcases hms with h | h | h | h | h
        · cases h
        · cases h
        · exact hnone h.2
        · cases h.1
        · cases h.1
      · rcases hms with h | h | h | h | h
        · cases h
        · cases h
        · cases h.1
        · exact hnone h.2
        · cases h.1
  | [x], l1, hm, hr =>
    have hm : Msg.silent = msg := hm
    have hr : ((x : Nat) : Int) = r := hr
    subst hm
    refine ⟨fun _ => rfl, fun h => by omega, ?_, ?_, ?_, ?_⟩
    · intro x y h; cases h
    · intro n x y h; cases h
    · intro h; cases h
    · rintro (h | h) <;> cases h
  | [x, y], l1, hm, hr =>
    have hm : Msg.two x y = msg := hm
    have hr : (-1 : Int) = r := hr
    subst hm
    have hp : true = true ∧ IsPattern A.name := by
      by_cases hp : true = true ∧ IsPattern A.name
      · exact hp
      · rw [if_neg hp] at l1
        cases hq : selected E A fits A.startStmt A.maxStmt with
        | nil => rw [hq] at l1; cases l1
        | cons a t => rw [hq] at l1; cases l1
    rw [if_pos hp] at l1
    refine ⟨fun h => absurd hr.symm h, (fun _ h => by cases h), ?_, ?_, ?_, ?_⟩
    · intro x' y' h
      cases h
      exact ⟨hp.2, l1.symm⟩
    · intro n x y h; cases h
    · intro h; cases h
    · rintro (h | h) <;> cases h
  | x :: y :: z :: t, l1, hm, hr =>
    have hr : (-1 : Int) = r := hr
    have hp : true = true ∧ IsPattern A.name := by
      by_cases hp : true = true ∧ IsPattern A.name
      · exact hp
      · rw [if_neg hp] at l1
        cases hq : selected E A fits A.startStmt A.maxStmt with
        | nil => rw [hq] at l1; cases l1
        | cons a t => rw [hq] at l1; cases l1
    rw [if_pos hp] at l1
    have e1 : (x :: y :: z :: t).length = t.length + 3 := rfl
    rw [e1, if_neg (by omega), if_neg (by omega), if_pos (by omega), counted_first rfl, counted_second rfl] at hm
    have hm2 : Msg.many (t.length + 3) x y = msg := by
      rw [← hm]
    subst hm2
    refine ⟨fun h => absurd hr.symm h, (fun _ h => by cases h), ?_, ?_, ?_, ?_⟩
    · intro x y h; cases h
    · intro n x' y' h
      cases h
      exact ⟨hp.2, z, t, l1.symm, rfl⟩
    · intro h; cases h
    · rintro (h | h) <;> cases h

end MM.Step
