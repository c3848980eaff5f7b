import Verif.Step.Model
import Verif.Step.Spec
import Verif.Tools.Cmds
import Verif.Date.Props
import Verif.Vstr.EditProps
/-!
# C88: the step a user names is the step the command works on
-/
namespace MM.Step
open MM.Vstr MM.Proof

variable {es proof : List Int}

theorem isUnk_eq (hl : es.length = proof.length) {i : Nat} (h1 : 1 ≤ i) (h2 : i ≤ proof.length) :
    isUnk es proof i = .val (isOpen es proof i) := by
  unfold isUnk isOpen Out.read
  have a1 : i - 1 < es.length := by omega
  have a2 : i - 1 < proof.length := by omega
  rw [List.getElem?_eq_getElem a1, List.getElem?_eq_getElem a2]
  simp only [Out.bind_val, Option.getD_some]
  by_cases h : es[i - 1] = 0
  · simp [h]
  · simp [h]

theorem fwd_eq (hl : es.length = proof.length) : ∀ (k i : Nat) (j : Int), 1 ≤ i → i + k = proof.length + 1 →
    fwd es proof k i j = .val (if 1 ≤ j then (((List.range' i k).filter (isOpen es proof))[(j - 1).toNat]?).getD 0 else 0)
  | 0, i, j, h1, h2 => by simp [fwd]
  | k + 1, i, j, h1, h2 => by
    unfold fwd
    rw [isUnk_eq hl h1 (by omega)]
    simp only [Out.bind_val]
    rw [fwd_eq hl k (i + 1) (j - 1) (by omega) (by omega), fwd_eq hl k (i + 1) j (by omega) (by omega), List.range'_succ]
    by_cases h : isOpen es proof i = true
    · rw [if_pos h, List.filter_cons_of_pos h]
      by_cases hj : j - 1 = 0
      · rw [if_pos hj, if_pos (by omega), hj]
        rfl
      · rw [if_neg hj]
        by_cases hj1 : 1 ≤ j
        · rw [if_pos (by omega), if_pos hj1]
          have e : (j - 1).toNat = (j - 1 - 1).toNat + 1 := by omega
          rw [e, List.getElem?_cons_succ]
        · rw [if_neg (by omega), if_neg hj1]
    · rw [if_neg h, List.filter_cons_of_neg h]

theorem back_eq (hl : es.length = proof.length) : ∀ (i : Nat) (j : Int), i ≤ proof.length →
    back es proof i j = .val (if 1 ≤ j then (((List.range' 1 i).filter (isOpen es proof)).reverse[(j - 1).toNat]?).getD 0 else 0)
  | 0, j, h2 => by simp [back]
  | i + 1, j, h2 => by
    unfold back
    rw [isUnk_eq hl (by omega) (by omega)]
    simp only [Out.bind_val]
    rw [back_eq hl i (j - 1) (by omega), back_eq hl i j (by omega), List.range'_concat, List.filter_append, List.reverse_append]
    rw [show 1 + 1 * i = i + 1 by omega]
    by_cases h : isOpen es proof (i + 1) = true
    · rw [if_pos h, List.filter_cons_of_pos h]
      simp only [List.filter_nil, List.reverse_singleton, List.singleton_append]
      by_cases hj : j - 1 = 0
      · rw [if_pos hj, if_pos (by omega), hj]
        rfl
      · rw [if_neg hj]
        by_cases hj1 : 1 ≤ j
        · rw [if_pos (by omega), if_pos hj1]
          have e : (j - 1).toNat = (j - 1 - 1).toNat + 1 := by omega
          rw [e, List.getElem?_cons_succ]
        · rw [if_neg (by omega), if_neg hj1]
    · rw [if_neg h, List.filter_cons_of_neg h]
      simp

theorem mem_opens {es proof : List Int} {i : Nat} : i ∈ opens es proof ↔ 1 ≤ i ∧ i ≤ proof.length ∧ isOpen es proof i = true := by
  unfold opens
  rw [List.mem_filter, List.mem_range'_1]
  constructor
  · rintro ⟨⟨a, b⟩, c⟩
    exact ⟨a, by omega, c⟩
  · rintro ⟨a, b, c⟩
    exact ⟨⟨a, by omega⟩, c⟩

theorem getD_err (os : List Nat) (hp : ∀ i ∈ os, 1 ≤ i) (k : Nat) :
    (if (os[k]?).getD 0 = 0 then -1 else (((os[k]?).getD 0 : Nat) : Int)) = orErr os[k]? := by
  cases h : os[k]? with
  | none => rfl
  | some i =>
    have h1 := hp i (List.mem_of_getElem? h)
    simp only [Option.getD_some, orErr]
    rw [if_neg (by omega)]

theorem findStep_eq (hl : es.length = proof.length) (neg : Bool) (rel : Int) :
    findStep (.val es) proof neg rel =
      .val (if rel < 0 then -1 else orErr (if neg then (opens es proof).reverse[rel.toNat]? else (opens es proof)[rel.toNat]?)) := by
  have hp : ∀ i ∈ opens es proof, 1 ≤ i := fun i h => (mem_opens.1 h).1
  have hp' : ∀ i ∈ (opens es proof).reverse, 1 ≤ i := fun i h => hp i (List.mem_reverse.1 h)
  unfold findStep
  simp only [Out.bind_val]
  have er : (rel + 1 - 1).toNat = rel.toNat := by omega
  cases neg with
  | false =>
    simp only [Bool.false_eq_true, if_false]
    rw [fwd_eq hl _ _ _ (by omega) (by omega), er]
    simp only [Out.bind_val]
    by_cases hr : rel < 0
    · rw [if_pos hr, if_neg (show ¬ 1 ≤ rel + 1 by omega)]
      rfl
    · rw [if_neg hr, if_pos (show 1 ≤ rel + 1 by omega)]
      exact congrArg Out.val (getD_err _ hp _)
  | true =>
    simp only [if_true]
    rw [back_eq hl _ _ (by omega), er]
    simp only [Out.bind_val]
    by_cases hr : rel < 0
    · rw [if_pos hr, if_neg (show ¬ 1 ≤ rel + 1 by omega)]
      rfl
    · rw [if_neg hr, if_pos (show 1 ≤ rel + 1 by omega)]
      exact congrArg Out.val (getD_err _ hp' _)

theorem left_prefix (w u : Str) : ∃ l, left w u.length = .val l ∧ (u = l ↔ u <+: w) :=
  ⟨_, MM.Tools.left_take w u.length, List.prefix_iff_eq_take.symm⟩

theorem upper_eq {s : Str} (hs : NoNul s) : editBase 32 s = upper s := by
  have h1 := (C36_code32 (fun _ => 'x') hs).1
  rw [C36_edit_plain (by decide) (by decide)] at h1
  exact Out.val.inj h1

theorem head_cons {u : Str} {c : Char} (h : u.head? = some c) : ∃ t, u = c :: t := by
  cases u with
  | nil => cases h
  | cons a t => exact ⟨t, by cases h; rfl⟩

theorem str_neg_head {v : Int} (h : 0 ≤ v) : Date.str v = Nat.toDigits 10 v.toNat := by
  obtain ⟨n, rfl⟩ := Int.eq_ofNat_of_zero_le h
  exact Date.str_nat n

/-- **C88** (soundness).  Whatever the user types, if `getStepNum` returns a step then what was typed names that step. -/
theorem C88_step_sound {s : Str} (hs : NoNul s) (hl : es.length = proof.length) {all : Bool} {r : Int}
    (h : getStepNum (.val es) s proof all = .val r) (hr : r ≠ -1) : Names proof.length (opens es proof) all (upper s) r := by
  unfold getStepNum at h
  rw [upper_eq hs] at h
  generalize upper s = u at h ⊢
  dsimp only at h
  cases hv : Date.val u with
  | ub => rw [hv] at h; cases h
  | bug n => rw [hv] at h; cases h
  | fuel => rw [hv] at h; cases h
  | val v =>
    rw [hv, Out.bind_val] at h
    have orE : ∀ {o : Option Nat}, orErr o = r → ∃ i : Nat, o = some i ∧ r = i := by
      intro o ho
      cases o with
      | none => exact absurd ho.symm hr
      | some i => exact ⟨i, rfl, ho.symm⟩
    by_cases c1 : v ≥ 0 ∧ u = Date.str v
    · rw [if_pos c1] at h
      have h := Out.val.inj h
      by_cases c2 : v > proof.length ∨ v < 1
      · rw [if_pos c2] at h
        exact absurd h.symm hr
      · rw [if_neg c2] at h
        obtain ⟨c1a, c1b⟩ := c1
        have h3 : u = Nat.toDigits 10 v.toNat := by rw [c1b, str_neg_head c1a]
        have h4 : ((v.toNat : Nat) : Int) = r := by omega
        rw [← h4]
        exact .actual h3 (by omega) (by omega)
    · rw [if_neg c1] at h
      obtain ⟨f, f1, f2⟩ := left_prefix "FIRST".toList u
      rw [f1, Out.bind_val] at h
      by_cases c2 : u = f
      · rw [if_pos c2, findStep_eq hl] at h
        obtain ⟨i, i1, rfl⟩ := orE (Out.val.inj h)
        exact .first (f2.1 c2) i1
      · rw [if_neg c2] at h
        have une : u ≠ [] := by
          rintro rfl
          exact c2 (f2.2 (List.nil_prefix))
        obtain ⟨f', f1', f2'⟩ := left_prefix "LAST".toList u
        rw [f1', Out.bind_val] at h
        by_cases c3 : u = f'
        · rw [if_pos c3, findStep_eq hl] at h
          obtain ⟨i, i1, rfl⟩ := orE (Out.val.inj h)
          exact .last (f2'.1 c3) une i1
        · rw [if_neg c3] at h
          by_cases c4 : u.head? = some '+'
          · rw [if_pos c4] at h
            obtain ⟨t, rfl⟩ := head_cons c4
            have e2 : right ('+' :: t) 2 = .val t := MM.Tools.right_drop ('+' :: t) 1
            rw [e2, Out.bind_val] at h
            by_cases c5 : t ≠ Date.str v
            · rw [if_pos c5] at h
              exact absurd (Out.val.inj h).symm hr
            · rw [if_neg c5, findStep_eq hl] at h
              have c5 := Classical.not_not.1 c5
              by_cases c6 : v < 0
              · rw [if_pos c6] at h
                exact absurd (Out.val.inj h).symm hr
              · rw [if_neg c6] at h
                obtain ⟨i, i1, rfl⟩ := orE (Out.val.inj h)
                exact .plus (by rw [c5, str_neg_head (by omega)]) i1
          · rw [if_neg c4] at h
            by_cases c4' : u.head? = some '-'
            · rw [if_pos c4'] at h
              obtain ⟨t, rfl⟩ := head_cons c4'
              have e2 : right ('-' :: t) 2 = .val t := MM.Tools.right_drop ('-' :: t) 1
              rw [e2, Out.bind_val] at h
              by_cases c5 : t ≠ Date.str (-v)
              · rw [if_pos c5] at h
                exact absurd (Out.val.inj h).symm hr
              · rw [if_neg c5, findStep_eq hl] at h
                have c5 := Classical.not_not.1 c5
                by_cases c6 : -v < 0
                · rw [if_pos c6] at h
                  exact absurd (Out.val.inj h).symm hr
                · rw [if_neg c6] at h
                  obtain ⟨i, i1, rfl⟩ := orE (Out.val.inj h)
                  exact .minus (by rw [c5, str_neg_head (by omega)]) i1
            · rw [if_neg c4'] at h
              obtain ⟨f'', f1'', f2''⟩ := left_prefix "ALL".toList u
              rw [f1'', Out.bind_val] at h
              by_cases c5 : u = f''
              · rw [if_pos c5] at h
                cases all with
                | false => exact absurd (Out.val.inj h).symm hr
                | true =>
                  have h := Out.val.inj h
                  simp only [if_true] at h
                  rw [← h]
                  exact .every (f2''.1 c5) une rfl
              · rw [if_neg c5] at h
                exact absurd (Out.val.inj h).symm hr

/-! ### Completeness: what the words give -/

theorem val_nodigits : ∀ (l : List Char) (sg : Bool), (∀ c ∈ l, c.isDigit = false ∧ c ≠ '.') → ∃ b : Bool, Date.valGo l 0 1 sg = .val (if b then -0 else 0)
  | [], sg, _ => ⟨sg, rfl⟩
  | c :: t, sg, h => by
    unfold Date.valGo
    have hc := h c (List.mem_cons_self ..)
    have ht := fun x hx => h x (List.mem_cons_of_mem _ hx)
    rw [if_neg hc.2, hc.1]
    by_cases h2 : c = '-'
    · rw [if_pos h2]
      exact val_nodigits t true ht
    · rw [if_neg h2]
      exact val_nodigits t sg ht

theorem val_word {l : List Char} (h : ∀ c ∈ l, c.isDigit = false ∧ c ≠ '.') : Date.val l = .val 0 := by
  obtain ⟨b, hb⟩ := val_nodigits l.reverse false fun c hc => h c (List.mem_reverse.1 hc)
  unfold Date.val
  rw [hb]
  cases b <;> rfl

theorem word_ok {w u : Str} (hw : ∀ c ∈ w, c.isDigit = false ∧ c ≠ '.') (h : u <+: w) : Date.val u = .val 0 ∧ u ≠ Date.str 0 := by
  have h1 : ∀ c ∈ u, c.isDigit = false ∧ c ≠ '.' := fun c hc => hw c (h.subset hc)
  refine ⟨val_word h1, ?_⟩
  intro h2
  have h3 : u = ['0'] := h2
  have := (h1 '0' (by rw [h3]; exact List.mem_cons_self ..)).1
  exact absurd this (by decide)

theorem first_ok : ∀ c ∈ "FIRST".toList, c.isDigit = false ∧ c ≠ '.' := by decide
theorem last_ok : ∀ c ∈ "LAST".toList, c.isDigit = false ∧ c ≠ '.' := by decide
theorem all_ok : ∀ c ∈ "ALL".toList, c.isDigit = false ∧ c ≠ '.' := by decide

theorem digits_not_prefix {n : Nat} {w : Str} (hw : ∀ c ∈ w, c.isDigit = false ∧ c ≠ '.') : ¬ Nat.toDigits 10 n <+: w := by
  intro h
  have h1 := Date.toDigits_digits n
  cases h2 : Nat.toDigits 10 n with
  | nil =>
    have h3 : 0 < (Nat.toDigits 10 n).length := Nat.length_toDigits_pos
    rw [h2] at h3
    cases h3
  | cons c t =>
    have a1 := h1 c (by rw [h2]; exact List.mem_cons_self ..)
    have a2 := (hw c (h.subset (by rw [h2]; exact List.mem_cons_self ..))).1
    rw [a1] at a2
    cases a2

theorem valGo_sign : ∀ (l : List Char) (v : Int) (p : Int) (c : Char), (c = '+' ∨ c = '-') → ∀ sg, (∀ x ∈ l, x.isDigit = true) →
    ∀ r, Date.valGo l v p sg = .val r → Date.valGo (l ++ [c]) v p sg = .val (if c = '-' then (if sg then r else -r) else r)
  | [], v, p, c, hc, sg, _, r, h => by
    have h := Out.val.inj h
    rcases hc with rfl | rfl
    · cases sg <;> simp [Date.valGo, ← h]
    · cases sg <;> simp [Date.valGo, ← h]
  | d :: t, v, p, c, hc, sg, hd, r, h => by
    have h1 := hd d (List.mem_cons_self ..)
    have h2 : ∀ x ∈ t, x.isDigit = true := fun x hx => hd x (List.mem_cons_of_mem _ hx)
    rw [List.cons_append]
    unfold Date.valGo at h ⊢
    rw [if_neg (Date.digit_ne h1 rfl), if_neg (Date.digit_ne h1 rfl), if_pos h1] at h ⊢
    by_cases h3 : p > 10 ^ 14
    · rw [if_pos h3] at h
      cases h
    · rw [if_neg h3] at h ⊢
      exact valGo_sign t _ _ c hc sg h2 r h

theorem val_sign {n : Nat} (h : (Nat.toDigits 10 n).length ≤ 15) (c : Char) (hc : c = '+' ∨ c = '-') :
    Date.val (c :: Nat.toDigits 10 n) = .val (if c = '-' then -(n : Int) else n) := by
  have h1 := Date.val_digits (Date.toDigits_digits n) h
  rw [Date.decimal_toDigits] at h1
  unfold Date.val at h1 ⊢
  rw [List.reverse_cons, valGo_sign _ _ _ c hc false (fun x hx => Date.toDigits_digits n x (List.mem_reverse.1 hx)) _ h1]
  rfl

theorem str_not_sign {n : Nat} {c : Char} (hc : c = '+' ∨ c = '-') {t : Str} : c :: t ≠ Nat.toDigits 10 n := by
  intro h
  have := Date.toDigits_digits n c (by rw [← h]; exact List.mem_cons_self ..)
  rcases hc with rfl | rfl <;> exact absurd this (by decide)

theorem sign_not_prefix {c : Char} (hc : c = '+' ∨ c = '-') {t : Str} : ¬ c :: t <+: "FIRST".toList ∧ ¬ c :: t <+: "LAST".toList := by
  constructor
  · intro h
    rcases hc with rfl | rfl <;> exact absurd (h.subset (List.mem_cons_self ..)) (by decide)
  · intro h
    rcases hc with rfl | rfl <;> exact absurd (h.subset (List.mem_cons_self ..)) (by decide)

/-- **C88** (an unsigned number).  `nn` is the step nn itself, whatever that step is, or an error if there is no such step. -/
theorem C88_actual {s : Str} (hs : NoNul s) (es : Out (List Int)) (all : Bool) {n : Nat} (h : upper s = Nat.toDigits 10 n) (hd : (upper s).length ≤ 15) :
    getStepNum es s proof all = .val (if 1 ≤ n ∧ n ≤ proof.length then (n : Int) else -1) := by
  unfold getStepNum
  rw [upper_eq hs]
  dsimp only
  have h1 := Date.val_digits (Date.toDigits_digits n) (by rw [← h]; exact hd)
  rw [Date.decimal_toDigits] at h1
  rw [h, h1, Out.bind_val, if_pos ⟨by omega, (Date.str_nat n).symm⟩]
  by_cases h2 : 1 ≤ n ∧ n ≤ proof.length
  · rw [if_pos h2, if_neg (by omega)]
  · rw [if_neg h2, if_pos (by omega)]

/-- **C88** (signed numbers).  `+n` and `-n` are the unknown essential steps after `n` others, from the front and from the end, or an error if there are not
as many. -/
theorem C88_signed {s : Str} (hs : NoNul s) (hl : es.length = proof.length) (all : Bool) {n : Nat} (hd : (Nat.toDigits 10 n).length ≤ 15) :
    (upper s = '+' :: Nat.toDigits 10 n → getStepNum (.val es) s proof all = .val (orErr (opens es proof)[n]?)) ∧
    (upper s = '-' :: Nat.toDigits 10 n → getStepNum (.val es) s proof all = .val (orErr (opens es proof).reverse[n]?)) := by
  have key : ∀ c : Char, (c = '+' ∨ c = '-') → upper s = c :: Nat.toDigits 10 n →
      getStepNum (.val es) s proof all = .val (orErr (if c = '-' then (opens es proof).reverse[n]? else (opens es proof)[n]?)) := by
    intro c hc h
    unfold getStepNum
    rw [upper_eq hs]
    dsimp only
    rw [h, val_sign hd c hc, Out.bind_val]
    have g1 : ¬ ((if c = '-' then -(n : Int) else n) ≥ 0 ∧ c :: Nat.toDigits 10 n = Date.str (if c = '-' then -(n : Int) else n)) := by
      rintro ⟨a, b⟩
      rw [str_neg_head a] at b
      exact str_not_sign hc b
    rw [if_neg g1]
    obtain ⟨f, f1, f2⟩ := left_prefix "FIRST".toList (c :: Nat.toDigits 10 n)
    rw [f1, Out.bind_val, if_neg fun hh => (sign_not_prefix hc).1 (f2.1 hh)]
    obtain ⟨f', f1', f2'⟩ := left_prefix "LAST".toList (c :: Nat.toDigits 10 n)
    rw [f1', Out.bind_val, if_neg fun hh => (sign_not_prefix hc).2 (f2'.1 hh)]
    have e2 := MM.Tools.right_drop (c :: Nat.toDigits 10 n) 1
    change right (c :: Nat.toDigits 10 n) 2 = .val (Nat.toDigits 10 n) at e2
    rcases hc with rfl | rfl
    · have hh1 : ('+' :: Nat.toDigits 10 n).head? = some '+' := rfl
      rw [if_pos hh1, e2, Out.bind_val]
      have e3 : ¬ (Nat.toDigits 10 n ≠ Date.str (if '+' = '-' then -(n : Int) else n)) := by
        rw [if_neg (by decide), Date.str_nat]
        exact fun hh => hh rfl
      rw [if_neg e3, findStep_eq hl, if_neg (by decide : ¬ ('+' : Char) = '-'), if_neg (show ¬ (n : Int) < 0 by omega), if_neg (by decide : ¬ ('+' : Char) = '-')]
      rfl
    · have hh1 : ('-' :: Nat.toDigits 10 n).head? = some '-' := rfl
      have hh2 : ¬ (some '-' : Option Char) = some '+' := by decide
      rw [hh1, if_neg hh2, if_pos rfl, e2, Out.bind_val]
      rw [if_pos (rfl : ('-' : Char) = '-'), if_pos (rfl : ('-' : Char) = '-'), Int.neg_neg]
      have e3 : ¬ (Nat.toDigits 10 n ≠ Date.str (n : Int)) := by
        rw [Date.str_nat]
        exact fun hh => hh rfl
      rw [if_neg e3, findStep_eq hl, if_neg (by omega)]
      rfl
  exact ⟨fun h => key '+' (.inl rfl) h, fun h => key '-' (.inr rfl) h⟩

/-- **C88** (words).  `FIRST`, `LAST` and `ALL`, in any mixture of cases and cut short anywhere, mean the first and the last unknown essential step, and 0 where
ALL is allowed.  (What is empty means FIRST.) -/
theorem C88_words {s : Str} (hs : NoNul s) (hl : es.length = proof.length) (all : Bool) :
    (upper s <+: "FIRST".toList → getStepNum (.val es) s proof all = .val (orErr (opens es proof)[0]?)) ∧
    (upper s <+: "LAST".toList → s ≠ [] → getStepNum (.val es) s proof all = .val (orErr (opens es proof).reverse[0]?)) ∧
    (upper s <+: "ALL".toList → s ≠ [] → getStepNum (.val es) s proof all = .val (if all then 0 else -1)) := by
  have ne : s ≠ [] → upper s ≠ [] := fun h h' => h (List.map_eq_nil_iff.1 h')
  have hcl : ∀ {w w' u : Str} {a b : Char}, a ≠ b → w.head? = some a → w'.head? = some b → u ≠ [] → u <+: w → ¬ u <+: w' := by
    intro w w' u a b hab ha hb hu h1 h2
    cases u with
    | nil => exact hu rfl
    | cons c t =>
      obtain ⟨x, hx⟩ := h1
      obtain ⟨y, hy⟩ := h2
      rw [← hx] at ha
      rw [← hy] at hb
      cases ha
      cases hb
      exact hab rfl
  refine ⟨?_, ?_, ?_⟩
  · intro h
    obtain ⟨v1, v2⟩ := word_ok first_ok h
    unfold getStepNum
    rw [upper_eq hs]
    dsimp only
    rw [v1, Out.bind_val, if_neg fun hh => v2 hh.2]
    obtain ⟨f, f1, f2⟩ := left_prefix "FIRST".toList (upper s)
    rw [f1, Out.bind_val, if_pos (f2.2 h), findStep_eq hl]
    rfl
  · intro h hne
    obtain ⟨v1, v2⟩ := word_ok last_ok h
    unfold getStepNum
    rw [upper_eq hs]
    dsimp only
    rw [v1, Out.bind_val, if_neg fun hh => v2 hh.2]
    obtain ⟨f, f1, f2⟩ := left_prefix "FIRST".toList (upper s)
    rw [f1, Out.bind_val, if_neg fun hh => hcl (a := 'L') (b := 'F') (by decide) rfl rfl (ne hne) h (f2.1 hh)]
    obtain ⟨f', f1', f2'⟩ := left_prefix "LAST".toList (upper s)
    rw [f1', Out.bind_val, if_pos (f2'.2 h), findStep_eq hl]
    rfl
  · intro h hne
    obtain ⟨v1, v2⟩ := word_ok all_ok h
    unfold getStepNum
    rw [upper_eq hs]
    dsimp only
    rw [v1, Out.bind_val, if_neg fun hh => v2 hh.2]
    obtain ⟨f, f1, f2⟩ := left_prefix "FIRST".toList (upper s)
    rw [f1, Out.bind_val, if_neg fun hh => hcl (a := 'A') (b := 'F') (by decide) rfl rfl (ne hne) h (f2.1 hh)]
    obtain ⟨f', f1', f2'⟩ := left_prefix "LAST".toList (upper s)
    rw [f1', Out.bind_val, if_neg fun hh => hcl (a := 'A') (b := 'L') (by decide) rfl rfl (ne hne) h (f2'.1 hh)]
    have hh : ∃ c t, upper s = c :: t ∧ c = 'A' := by
      cases h5 : upper s with
      | nil => exact absurd h5 (ne hne)
      | cons c t =>
        rw [h5] at h
        obtain ⟨x, hx⟩ := h
        have hx' : c :: (t ++ x) = 'A' :: ['L', 'L'] := hx
        exact ⟨_, _, rfl, (List.cons.inj hx').1⟩
    obtain ⟨c, t, e1, rfl⟩ := hh
    have e3 : (upper s).head? = some 'A' := by rw [e1]; rfl
    rw [e3, if_neg (by decide), if_neg (by decide)]
    obtain ⟨f'', f1'', f2''⟩ := left_prefix "ALL".toList (upper s)
    rw [f1'', Out.bind_val, if_pos (f2''.2 h)]

theorem valGo_total : ∀ (l : List Char) (v p : Int) (sg : Bool), '.' ∉ l → p * 10 ^ l.length ≤ 10 ^ 15 → 0 ≤ p → ∃ r, Date.valGo l v p sg = .val r
  | [], v, p, sg, _, _, _ => ⟨_, rfl⟩
  | c :: t, v, p, sg, h, hp, h0 => by
    unfold Date.valGo
    rw [if_neg fun e => h (by rw [e]; exact List.mem_cons_self ..)]
    have ht : '.' ∉ t := fun hh => h (List.mem_cons_of_mem _ hh)
    have h1 : (1 : Int) ≤ 10 ^ t.length := Int.pow_pos (by decide)
    have h2 : p * 10 ^ (c :: t).length = 10 * p * 10 ^ t.length := by
      rw [List.length_cons, Int.pow_succ, Int.mul_comm (10 ^ t.length) 10, ← Int.mul_assoc, Int.mul_comm p 10]
    rw [h2] at hp
    have h3 : p * 10 ^ t.length ≤ 10 * p * 10 ^ t.length := Int.mul_le_mul_of_nonneg_right (by omega) (by omega)
    have h4 : 10 * p * 1 ≤ 10 * p * 10 ^ t.length := Int.mul_le_mul_of_nonneg_left h1 (by omega)
    by_cases hc : c = '-'
    · rw [if_pos hc]
      exact valGo_total t _ p _ ht (by omega) h0
    · rw [if_neg hc]
      by_cases hd : c.isDigit = true
      · rw [if_pos hd, if_neg (by omega)]
        exact valGo_total t _ _ _ ht hp (by omega)
      · rw [if_neg hd]
        exact valGo_total t _ p _ ht (by omega) h0

theorem findStep_val (hl : es.length = proof.length) (neg : Bool) (rel : Int) : ∃ r, findStep (.val es) proof neg rel = .val r :=
  ⟨_, findStep_eq hl neg rel⟩

/-- **C88** (every answer).  Whatever is typed (at most 15 characters, no decimal point), `getStepNum` gives an answer: an error, or the step that was named. -/
theorem C88_step_total {s : Str} (hs : NoNul s) (hl : es.length = proof.length) (all : Bool) (hlen : s.length ≤ 15) (hdot : '.' ∉ s) :
    ∃ r, getStepNum (.val es) s proof all = .val r ∧ (r = -1 ∨ Names proof.length (opens es proof) all (upper s) r) := by
  have h1 : ∃ v, Date.val (upper s) = .val v := by
    apply valGo_total
    · intro h
      rw [List.mem_reverse] at h
      obtain ⟨c, c1, c2⟩ := List.mem_map.1 h
      have c3 : (toUp c).toNat = 46 := by
        have : toUp c = '.' := c2
        rw [this]
        rfl
      rw [toUp_toNat] at c3
      by_cases c4 : 97 ≤ c.toNat ∧ c.toNat ≤ 122
      · rw [if_pos c4] at c3
        omega
      · rw [if_neg c4] at c3
        have : c = '.' := char_ext c3
        exact hdot (this ▸ c1)
    · rw [List.length_reverse, upper, List.length_map]
      have : (10 : Int) ^ s.length ≤ 10 ^ 15 := by exact_mod_cast Nat.pow_le_pow_right (by decide : 0 < 10) hlen
      omega
    · decide
  have h2 : ∃ r, getStepNum (.val es) s proof all = .val r := by
    obtain ⟨v, hv⟩ := h1
    unfold getStepNum
    rw [upper_eq hs]
    dsimp only
    rw [hv, Out.bind_val]
    obtain ⟨f, f1, _⟩ := left_prefix "FIRST".toList (upper s)
    obtain ⟨f', f1', _⟩ := left_prefix "LAST".toList (upper s)
    obtain ⟨f'', f1'', _⟩ := left_prefix "ALL".toList (upper s)
    have e2 : right (upper s) 2 = .val _ := MM.Tools.right_drop (upper s) 1
    rw [f1, f1', f1'', e2]
    simp only [Out.bind_val]
    repeat' split
    all_goals first | exact ⟨_, rfl⟩ | exact findStep_val hl _ _
  obtain ⟨r, hr⟩ := h2
  refine ⟨r, hr, ?_⟩
  by_cases h : r = -1
  · exact .inl h
  · exact .inr (C88_step_sound hs hl hr h)

/-! ### The relative step numbers -/

theorem relLoop_eq (hl : es.length = proof.length) : ∀ (i : Nat) (j : Int) (acc : List Int), i ≤ proof.length →
    ∃ l, relLoop es proof i j acc = .val (l ++ acc) ∧ l.length = i ∧ ∀ m, 1 ≤ m → m ≤ i →
      l[m - 1]? = some (if isOpen es proof m then j - ((List.range' (m + 1) (i - m)).filter (isOpen es proof)).length else (m : Int))
  | 0, j, acc, h => ⟨[], rfl, rfl, fun m h1 h2 => by omega⟩
  | i + 1, j, acc, h => by
    unfold relLoop
    rw [isUnk_eq hl (by omega) h]
    simp only [Out.bind_val]
    have split : ∀ m, m ≤ i → List.range' (m + 1) (i + 1 - m) = List.range' (m + 1) (i - m) ++ [i + 1] := by
      intro m hm
      rw [show i + 1 - m = i - m + 1 by omega, List.range'_concat, show m + 1 + 1 * (i - m) = i + 1 by omega]
    by_cases ho : isOpen es proof (i + 1) = true
    · rw [if_pos ho]
      obtain ⟨l, l1, l2, l3⟩ := relLoop_eq hl i (j - 1) (j :: acc) (by omega)
      refine ⟨l ++ [j], by rw [l1]; simp, by simp [l2], fun m h1 h2 => ?_⟩
      by_cases hm : m = i + 1
      · subst hm
        rw [show i + 1 - 1 = l.length by omega, List.getElem?_concat_length, if_pos ho]
        simp
      · rw [List.getElem?_append_left (by omega), l3 m h1 (by omega), split m (by omega), List.filter_append]
        by_cases hom : isOpen es proof m = true
        · rw [if_pos hom, if_pos hom, List.filter_cons_of_pos ho]
          simp
          omega
        · rw [if_neg hom, if_neg hom]
    · rw [if_neg ho]
      obtain ⟨l, l1, l2, l3⟩ := relLoop_eq hl i j (((i + 1 : Nat) : Int) :: acc) (by omega)
      refine ⟨l ++ [((i + 1 : Nat) : Int)], by rw [l1]; simp, by simp [l2], fun m h1 h2 => ?_⟩
      by_cases hm : m = i + 1
      · subst hm
        rw [show i + 1 - 1 = l.length by omega, List.getElem?_concat_length, if_neg ho]
      · rw [List.getElem?_append_left (by omega), l3 m h1 (by omega), split m (by omega), List.filter_append]
        by_cases hom : isOpen es proof m = true
        · rw [if_pos hom, if_pos hom, List.filter_cons_of_neg ho]
          simp
        · rw [if_neg hom, if_neg hom]

/-- **C88** (the numbers shown).  SHOW NEW_PROOF / UNKNOWN shows a number for each step: for a step that is not unknown and essential the step number; for the
others 0, -1, -2, … from the last one. -/
theorem C88_relative_numbers (hl : es.length = proof.length) : ∃ rel, getRelStepNums (.val es) proof = .val rel ∧ rel.length = proof.length ∧
    ∀ m, 1 ≤ m → m ≤ proof.length → rel[m - 1]? = some (if m ∈ opens es proof then
      -(((opens es proof).filter fun i => decide (m < i)).length : Int) else (m : Int)) := by
  obtain ⟨l, l1, l2, l3⟩ := relLoop_eq hl proof.length 0 [] (Nat.le_refl _)
  refine ⟨l, ?_, l2, fun m h1 h2 => ?_⟩
  · unfold getRelStepNums
    rw [Out.bind_val, l1, List.append_nil]
  · rw [l3 m h1 h2]
    have e1 : (m ∈ opens es proof) ↔ isOpen es proof m = true := by
      rw [mem_opens]
      exact ⟨fun h => h.2.2, fun h => ⟨h1, h2, h⟩⟩
    have e2 : (opens es proof).filter (fun i => decide (m < i)) = (List.range' (m + 1) (proof.length - m)).filter (isOpen es proof) := by
      unfold opens
      have e3 : List.range' 1 proof.length = List.range' 1 m ++ List.range' (m + 1) (proof.length - m) := by
        have h5 := List.range'_append (s := 1) (m := m) (n := proof.length - m) (step := 1)
        rw [show 1 + 1 * m = m + 1 by omega, show m + (proof.length - m) = proof.length by omega] at h5
        exact h5.symm
      rw [List.filter_filter, e3, List.filter_append]
      have e4 : (List.range' 1 m).filter (fun a => decide (m < a) && isOpen es proof a) = [] := by
        rw [List.filter_eq_nil_iff]
        intro a ha
        have := (List.mem_range'_1.1 ha).2
        have h9 : ¬ m < a := by omega
        simp [h9]
      rw [e4, List.nil_append]
      apply List.filter_congr
      intro a ha
      have := (List.mem_range'_1.1 ha).1
      have h9 : m < a := by omega
      simp [h9]
    rw [e2]
    by_cases ho : isOpen es proof m = true
    · rw [if_pos ho, if_pos (e1.2 ho)]
      simp
    · rw [if_neg ho, if_neg fun h => ho (e1.1 h)]

/-- **C88** (round trip).  The negative number shown beside a step, typed back, is that step; the unknown essential step shown with 0 is `LAST`, and is `-0`. -/
theorem C88_round_trip (hl : es.length = proof.length) (all : Bool) {rel : List Int} (h : getRelStepNums (.val es) proof = .val rel)
    {m k : Nat} (hm : m ∈ opens es proof) (hk : rel[m - 1]? = some (-(k : Int))) (hd : (Nat.toDigits 10 k).length ≤ 15) :
    getStepNum (.val es) ('-' :: Nat.toDigits 10 k) proof all = .val m ∧
    (k = 0 → getStepNum (.val es) "LAST".toList proof all = .val m) := by
  obtain ⟨rel', r1, _, r3⟩ := C88_relative_numbers hl
  rw [r1] at h
  cases Out.val.inj h
  obtain ⟨m1, m2, m3⟩ := mem_opens.1 hm
  rw [r3 m m1 m2, if_pos hm] at hk
  have hk2 : ((opens es proof).filter fun i => decide (m < i)).length = k := by
    have := Option.some.inj hk
    omega
  have e3 : opens es proof = (List.range' 1 (m - 1)).filter (isOpen es proof) ++ m :: (List.range' (m + 1) (proof.length - m)).filter (isOpen es proof) := by
    unfold opens
    have h5 := List.range'_append (s := 1) (m := m - 1) (n := proof.length - m + 1) (step := 1)
    rw [show 1 + 1 * (m - 1) = m by omega, show m - 1 + (proof.length - m + 1) = proof.length by omega, List.range'_succ] at h5
    rw [← h5, List.filter_append, List.filter_cons_of_pos m3]
  have e5 : (opens es proof).reverse[k]? = some m := by
    have e6 : ((List.range' (m + 1) (proof.length - m)).filter (isOpen es proof)).length = k := by
      rw [← hk2, e3, List.filter_append]
      have z1 : ((List.range' 1 (m - 1)).filter (isOpen es proof)).filter (fun i => decide (m < i)) = [] := by
        rw [List.filter_eq_nil_iff]
        intro a ha
        have h7 := (List.mem_range'_1.1 (List.mem_filter.1 ha).1).2
        have h9 : ¬ m < a := by omega
        simp [h9]
      rw [z1, List.nil_append, List.filter_cons_of_neg (by simp)]
      congr 1
      symm
      rw [List.filter_eq_self]
      intro a ha
      have h7 := (List.mem_range'_1.1 (List.mem_filter.1 ha).1).1
      have h9 : m < a := by omega
      simp [h9]
    rw [e3, List.reverse_append, List.reverse_cons, List.append_assoc]
    rw [List.getElem?_append_right (by rw [List.length_reverse, e6]), List.length_reverse, e6, Nat.sub_self]
    rfl
  have hn : NoNul ('-' :: Nat.toDigits 10 k) := by
    intro c hc
    rcases List.mem_cons.1 hc with rfl | h1
    · decide
    · have := Date.digit_range (Date.toDigits_digits k c h1)
      omega
  have hu : upper ('-' :: Nat.toDigits 10 k) = '-' :: Nat.toDigits 10 k := by
    unfold upper
    have hm' : ∀ c ∈ '-' :: Nat.toDigits 10 k, (if 'a' ≤ c ∧ c ≤ 'z' then Char.ofNat (c.toNat - 32) else c) = id c := by
      intro c hc
      rw [if_neg]
      · rfl
      · rintro ⟨a, _⟩
        rw [le_iff] at a
        have e : ('a' : Char).toNat = 97 := rfl
        rw [e] at a
        rcases List.mem_cons.1 hc with rfl | h1
        · revert a
          decide
        · have := Date.digit_range (Date.toDigits_digits k c h1)
          omega
    rw [List.map_congr_left hm', List.map_id]
  refine ⟨?_, ?_⟩
  · rw [(C88_signed hn hl all hd).2 hu, e5]
    rfl
  · rintro rfl
    rw [(C88_words (by intro c hc; revert c hc; decide) hl all).2.1 (by decide) (by decide), e5]
    rfl

end MM.Step
