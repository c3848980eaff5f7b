import Verif.Vstr.Edit
import Mathlib.Data.List.Basic
import Mathlib.Data.List.Chain
import Mathlib.Tactic.Linarith
/-!
# C36: `edit`
-/
namespace MM.Vstr

/-- C36: without the codes 1024 (tab) and 2048 (untab) `edit` never goes outside its buffer and its result depends on the string only. -/
theorem C36_edit_plain {ctl : Nat} (h1 : on ctl 10 = false) (h2 : on ctl 11 = false) (g : Nat → Char) (s : Str) :
    edit ctl g s = .val (editBase ctl s) := by
  unfold edit
  simp [h1, h2]

theorem editLoop_noquote {ctl : Nat} (h : on ctl 8 = false) (s : Str) : editLoop ctl false s = s.filterMap (editChar ctl) := by
  induction s with
  | nil => rfl
  | cons c t ih =>
    rw [editLoop, List.filterMap_cons]
    simp only [h, Bool.false_and, Bool.false_eq_true, if_false, ih]
    cases editChar ctl c <;> rfl

/-! ## what single codes do -/

theorem editChar_zero {c : Char} (h : c.toNat ≠ 0) : editChar 0 c = some c := by
  simp [editChar, h]

theorem filterMap_id {f : Char → Option Char} {s : Str} (h : ∀ c ∈ s, f c = some c) : s.filterMap f = s := by
  induction s with
  | nil => rfl
  | cons c t ih =>
    rw [List.filterMap_cons, h c (by simp), ih (fun d hd => h d (by simp [hd]))]

theorem filterMap_filter {f : Char → Option Char} {p : Char → Bool} {s : Str}
    (h : ∀ c ∈ s, f c = if p c then none else some c) : s.filterMap f = s.filter (fun c => !p c) := by
  induction s with
  | nil => rfl
  | cons c t ih =>
    rw [List.filterMap_cons, List.filter_cons, h c (by simp), ih (fun d hd => h d (by simp [hd]))]
    by_cases hp : p c = true <;> simp [hp]

theorem filterMap_map {f : Char → Option Char} {p : Char → Char} {s : Str}
    (h : ∀ c ∈ s, f c = some (p c)) : s.filterMap f = s.map p := by
  induction s with
  | nil => rfl
  | cons c t ih =>
    rw [List.filterMap_cons, h c (by simp), ih (fun d hd => h d (by simp [hd])), List.map_cons]

/-- A C string contains no NUL. -/
def NoNul (s : Str) : Prop := ∀ c ∈ s, c.toNat ≠ 0

/-- C36, code 2: all spaces and tabs are discarded, nothing else. -/
theorem C36_code2 (g : Nat → Char) {s : Str} (hs : NoNul s) : edit 2 g s = .val (s.filter fun c => !(c == ' ' || c == '\t')) := by
  rw [C36_edit_plain (by decide) (by decide)]
  show Out.val (editLoop 2 false s) = _
  rw [editLoop_noquote (by decide)]
  congr 1
  apply filterMap_filter
  intro c hc
  have e : editChar 2 c = if isBlank c then none else if c.toNat = 0 then none else some c := rfl
  rw [e, if_neg (hs c hc)]
  rfl

/-- C36, code 8: exactly the leading spaces and tabs are discarded. -/
theorem C36_code8 (g : Nat → Char) {s : Str} (hs : NoNul s) : edit 8 g s = .val (s.dropWhile fun c => c == ' ' || c == '\t') := by
  rw [C36_edit_plain (by decide) (by decide)]
  show Out.val (editLoop 8 false (s.dropWhile isBlank)) = _
  rw [editLoop_noquote (by decide)]
  congr 1
  apply filterMap_id
  intro c hc
  have e : editChar 8 c = if c.toNat = 0 then none else some c := rfl
  rw [e, if_neg (hs c ((List.dropWhile_suffix _).subset hc))]

/-- C36, code 128: exactly the trailing spaces and tabs are discarded. -/
theorem C36_code128 (g : Nat → Char) {s : Str} (hs : NoNul s) :
    edit 128 g s = .val (s.reverse.dropWhile fun c => c == ' ' || c == '\t').reverse := by
  rw [C36_edit_plain (by decide) (by decide)]
  show Out.val (trimEnd isBlank (editLoop 128 false s)) = _
  rw [editLoop_noquote (by decide), filterMap_id]
  · rfl
  · intro c hc
    have e : editChar 128 c = if c.toNat = 0 then none else some c := rfl
    rw [e, if_neg (hs c hc)]

/-- C36, code 4: CR, LF, FF, ESC and BS are discarded, nothing else. -/
theorem C36_code4 (g : Nat → Char) {s : Str} (hs : NoNul s) : edit 4 g s = .val (s.filter fun c => !([13, 10, 12, 27, 8].contains c.toNat)) := by
  rw [C36_edit_plain (by decide) (by decide)]
  show Out.val (editLoop 4 false s) = _
  rw [editLoop_noquote (by decide)]
  congr 1
  apply filterMap_filter (p := fun c => [13, 10, 12, 27, 8].contains c.toNat)
  intro c hc
  have e : editChar 4 c = if c.toNat = 0 then none else if isCtrl c then none else some c := rfl
  rw [e, if_neg (hs c hc)]
  rfl

/-- C36, code 8192: CR is discarded, nothing else. -/
theorem C36_code8192 (g : Nat → Char) {s : Str} (hs : NoNul s) : edit 8192 g s = .val (s.filter fun c => !(c.toNat == 13)) := by
  rw [C36_edit_plain (by decide) (by decide)]
  show Out.val (editLoop 8192 false s) = _
  rw [editLoop_noquote (by decide)]
  congr 1
  apply filterMap_filter (p := fun c => c.toNat == 13)
  intro c hc
  have e : editChar 8192 c = if c.toNat = 0 then none else if c.toNat == 13 then none else some c := rfl
  rw [e, if_neg (hs c hc)]

/-- C36, codes 32 and 512: case folding of the ASCII letters, character by character. -/
theorem C36_code32 (g : Nat → Char) {s : Str} (hs : NoNul s) :
    edit 32 g s = .val (s.map fun c => if 'a' ≤ c ∧ c ≤ 'z' then Char.ofNat (c.toNat - 32) else c) ∧
    edit 512 g s = .val (s.map fun c => if 'A' ≤ c ∧ c ≤ 'Z' then Char.ofNat (c.toNat + 32) else c) := by
  constructor
  · rw [C36_edit_plain (by decide) (by decide)]
    show Out.val (editLoop 32 false s) = _
    rw [editLoop_noquote (by decide)]
    congr 1
    exact filterMap_map fun c hc => by
      have e : editChar 32 c = if c.toNat = 0 then none else some (toUp c) := rfl
      rw [e, if_neg (hs c hc)]
      rfl
  · rw [C36_edit_plain (by decide) (by decide)]
    show Out.val (editLoop 512 false s) = _
    rw [editLoop_noquote (by decide)]
    congr 1
    exact filterMap_map fun c hc => by
      have e : editChar 512 c = if c.toNat = 0 then none else some (toLow c) := rfl
      rw [e, if_neg (hs c hc)]
      rfl

/-! ## properties of the result for every combination of codes -/

theorem reduce_no_pair (s : Str) : ∀ last, List.IsChain (fun a b => ¬ (isBlank a = true ∧ isBlank b = true)) (reduce last s) ∧
    (last = true → ∀ c ∈ (reduce last s).head?, isBlank c = false) ∧ '\t' ∉ reduce last s := by
  induction s with
  | nil => intro last; simp [reduce]
  | cons c t ih =>
    intro last
    rw [reduce]
    by_cases h : isBlank c = true
    · rw [if_pos h]
      cases last with
      | true => exact ⟨(ih true).1, fun _ => (ih true).2.1 rfl, (ih true).2.2⟩
      | false =>
        refine ⟨?_, by simp, ?_⟩
        · simp only [Bool.false_eq_true, if_false, List.isChain_cons]
          refine ⟨fun d hd hb => ?_, (ih true).1⟩
          have := (ih true).2.1 rfl d hd
          rw [this] at hb
          simp at hb
        · simpa using (ih true).2.2
    · rw [if_neg h]
      refine ⟨?_, fun _ d hd => by simp at hd; subst hd; simpa using h, ?_⟩
      · rw [List.isChain_cons]
        exact ⟨fun d _ hb => h hb.1, (ih false).1⟩
      · have h' : ¬ (c = ' ' ∨ c = '\t') := by simpa [isBlank] using h
        push Not at h'
        simp [(ih false).2.2, Ne.symm h'.2]

/-- C36, code 16 (with any others but 1024, 2048): the result contains no tab and no two adjacent spaces. -/
theorem C36_code16 {ctl : Nat} (h1 : on ctl 10 = false) (h2 : on ctl 11 = false) (h : on ctl 4 = true) (g : Nat → Char) (s : Str) :
    ∃ r, edit ctl g s = .val r ∧ '\t' ∉ r ∧ ∀ a b, r ≠ a ++ ' ' :: ' ' :: b := by
  refine ⟨_, C36_edit_plain h1 h2 g s, ?_⟩
  unfold editBase
  simp only [h, if_true]
  refine ⟨(reduce_no_pair _ false).2.2, ?_⟩
  generalize (if on ctl 14 = true then _ else _) = w
  intro a b hab
  have := (reduce_no_pair w false).1
  rw [hab, List.isChain_append] at this
  have := (List.isChain_cons_cons.1 this.2.1).1
  simp [isBlank] at this

theorem trimEnd_last (p : Char → Bool) (s : Str) : ∀ c ∈ (trimEnd p s).getLast?, p c = false := by
  unfold trimEnd
  intro c hc
  rw [List.getLast?_reverse] at hc
  have := List.head?_dropWhile_not p s.reverse
  rw [Option.mem_def] at hc
  rw [hc] at this
  simpa using this

theorem reduce_last (s : Str) : ∀ last, (∀ c ∈ s.getLast?, isBlank c = false) → (reduce last s).getLast? = s.getLast? := by
  induction s with
  | nil => intro last _; rfl
  | cons c t ih =>
    intro last hl
    have ht : ∀ c ∈ t.getLast?, isBlank c = false := by
      intro d hd
      apply hl d
      cases t with
      | nil => simp at hd
      | cons e t => simpa using hd
    rw [reduce]
    by_cases h : isBlank c = true
    · rw [if_pos h]
      cases t with
      | nil => have := hl c (by simp); rw [h] at this; cases this
      | cons e t =>
        have h2 : (reduce true (e :: t)).getLast? = (e :: t).getLast? := ih true ht
        rw [List.getLast?_cons_cons]
        cases last with
        | true => exact h2
        | false =>
          simp only [Bool.false_eq_true, if_false]
          cases hr : reduce true (e :: t) with
          | nil => rw [hr] at h2; simp at h2; exact absurd h2.symm (by simp)
          | cons x y => rw [List.getLast?_cons_cons, ← hr]; exact h2
    · rw [if_neg h]
      cases t with
      | nil => rfl
      | cons e t =>
        have h2 : (reduce false (e :: t)).getLast? = (e :: t).getLast? := ih false ht
        rw [List.getLast?_cons_cons]
        cases hr : reduce false (e :: t) with
        | nil => rw [hr] at h2; exact absurd h2.symm (by simp)
        | cons x y => rw [List.getLast?_cons_cons, ← hr]; exact h2

/-- C36, code 128 or 16384 (with any others but 1024, 2048): the result does not end with a space or tab; with 16384 it does not end with a line
feed either. -/
theorem C36_no_trailing {ctl : Nat} (h1 : on ctl 10 = false) (h2 : on ctl 11 = false) (g : Nat → Char) (s : Str) :
    ∃ r, edit ctl g s = .val r ∧ (on ctl 7 = true ∨ on ctl 14 = true → ∀ c ∈ r.getLast?, c ≠ ' ' ∧ c ≠ '\t') ∧
      (on ctl 14 = true → ∀ c ∈ r.getLast?, c ≠ '\n') := by
  refine ⟨_, C36_edit_plain h1 h2 g s, ?_⟩
  unfold editBase
  dsimp only
  generalize hs : editLoop ctl false (if on ctl 3 = true then List.dropWhile isBlank s else s) = u
  set w := (if on ctl 14 = true then trimEnd isBlankOrLf (if on ctl 7 = true then trimEnd isBlank u else u)
    else if on ctl 7 = true then trimEnd isBlank u else u) with hw
  have hwb : on ctl 7 = true ∨ on ctl 14 = true → ∀ c ∈ w.getLast?, isBlank c = false := by
    intro h c hc
    rw [hw] at hc
    by_cases h14 : on ctl 14 = true
    · rw [if_pos h14] at hc
      have := trimEnd_last isBlankOrLf _ c hc
      simp [isBlankOrLf] at this
      simp [isBlank, this]
    · rw [if_neg h14] at hc
      have h7 : on ctl 7 = true := by tauto
      rw [if_pos h7] at hc
      exact trimEnd_last isBlank _ c hc
  have hwl : on ctl 14 = true → ∀ c ∈ w.getLast?, c ≠ '\n' := by
    intro h c hc
    rw [hw, if_pos h] at hc
    have := trimEnd_last isBlankOrLf _ c hc
    simp [isBlankOrLf] at this
    exact this.2
  constructor
  · intro h c hc
    have hb : isBlank c = false := by
      by_cases h4 : on ctl 4 = true
      · rw [if_pos h4, reduce_last _ _ (hwb h)] at hc
        exact hwb h c hc
      · rw [if_neg h4] at hc
        exact hwb h c hc
    simpa [isBlank] using hb
  · intro h c hc
    by_cases h4 : on ctl 4 = true
    · rw [if_pos h4, reduce_last _ _ (hwb (Or.inr h))] at hc
      exact hwl h c hc
    · rw [if_neg h4] at hc
      exact hwl h c hc

/-! ## idempotence -/

theorem toUp_cases (c : Char) : (toUp c = c ∧ ¬ ('a' ≤ c ∧ c ≤ 'z')) ∨ ('a' ≤ c ∧ c ≤ 'z' ∧ toUp c = Char.ofNat (c.toNat - 32)) := by
  unfold toUp
  by_cases h : 'a' ≤ c ∧ c ≤ 'z'
  · rw [if_pos h]; right; exact ⟨h.1, h.2, rfl⟩
  · rw [if_neg h]; left; exact ⟨rfl, h⟩

/-- The conversions of one character (mmvstr.c 441–474). -/
def conv (ctl : Nat) (c : Char) : Char :=
  let c := if on ctl 5 then toUp c else c
  let c := if on ctl 6 then bracket c else c
  let c := if on ctl 9 then toLow c else c
  if on ctl 12 then screenChar c else c

theorem ofNat_toNat_eq {n : Nat} (h : n < 55296) : (Char.ofNat n).toNat = n := by
  have hv : n.isValidChar := Or.inl h
  simp [Char.ofNat, hv, Char.toNat, Char.ofNatAux]

theorem le_iff (a b : Char) : a ≤ b ↔ a.toNat ≤ b.toNat := by
  rw [Char.le_def, UInt32.le_iff_toNat_le]
  rfl

theorem char_ext {a b : Char} (h : a.toNat = b.toNat) : a = b := by
  rw [← Char.ofNat_toNat a, ← Char.ofNat_toNat b, h]

theorem toUp_toNat (c : Char) : (toUp c).toNat = if 97 ≤ c.toNat ∧ c.toNat ≤ 122 then c.toNat - 32 else c.toNat := by
  unfold toUp
  simp only [le_iff]
  show Char.toNat (if 97 ≤ c.toNat ∧ c.toNat ≤ 122 then _ else _) = _
  split
  · rw [ofNat_toNat_eq (by omega)]
  · rfl

theorem toLow_toNat (c : Char) : (toLow c).toNat = if 65 ≤ c.toNat ∧ c.toNat ≤ 90 then c.toNat + 32 else c.toNat := by
  unfold toLow
  simp only [le_iff]
  show Char.toNat (if 65 ≤ c.toNat ∧ c.toNat ≤ 90 then _ else _) = _
  split
  · rw [ofNat_toNat_eq (by omega)]
  · rfl

theorem eq_iff_toNat (a b : Char) : a = b ↔ a.toNat = b.toNat := ⟨fun h => by rw [h], char_ext⟩

theorem bracket_toNat (c : Char) : (bracket c).toNat = if c.toNat = 91 then 40 else if c.toNat = 93 then 41 else c.toNat := by
  unfold bracket
  simp only [eq_iff_toNat]
  show Char.toNat (if c.toNat = 91 then _ else if c.toNat = 93 then _ else _) = _
  split
  · rfl
  · split <;> rfl

theorem screen_toNat (c : Char) : (screenChar c).toNat =
    if (234 ≤ c.toNat ∧ c.toNat ≤ 237) ∨ c.toNat = 218 ∨ c.toNat = 217 ∨ c.toNat = 191 ∨ c.toNat = 192 then 43
    else if c.toNat = 241 ∨ c.toNat = 196 then 45
    else if c.toNat = 248 ∨ c.toNat = 166 ∨ c.toNat = 179 then 124 else c.toNat := by
  unfold screenChar
  dsimp only
  split
  · rfl
  · split
    · rfl
    · split <;> rfl

/-- The four conversions on character codes. -/
def convN (b5 b6 b9 b12 : Bool) (n : Nat) : Nat :=
  let n := if b5 then (if 97 ≤ n ∧ n ≤ 122 then n - 32 else n) else n
  let n := if b6 then (if n = 91 then 40 else if n = 93 then 41 else n) else n
  let n := if b9 then (if 65 ≤ n ∧ n ≤ 90 then n + 32 else n) else n
  if b12 then
    (if (234 ≤ n ∧ n ≤ 237) ∨ n = 218 ∨ n = 217 ∨ n = 191 ∨ n = 192 then 43
    else if n = 241 ∨ n = 196 then 45
    else if n = 248 ∨ n = 166 ∨ n = 179 then 124 else n) else n

theorem conv_toNat (ctl : Nat) (c : Char) : (conv ctl c).toNat = convN (on ctl 5) (on ctl 6) (on ctl 9) (on ctl 12) c.toNat := by
  unfold conv convN
  dsimp only
  cases on ctl 5 <;> cases on ctl 6 <;> cases on ctl 9 <;> cases on ctl 12 <;>
    simp only [Bool.false_eq_true, if_false, if_true, screen_toNat, toLow_toNat, bracket_toNat, toUp_toNat]

theorem convN_ge {b5 b6 b9 b12 : Bool} {n : Nat} (h : 256 ≤ n) : convN b5 b6 b9 b12 n = n := by
  unfold convN
  dsimp only
  have h1 : (if b5 = true then (if 97 ≤ n ∧ n ≤ 122 then n - 32 else n) else n) = n := by
    rw [if_neg (c := 97 ≤ n ∧ n ≤ 122) (by omega)]; split <;> rfl
  rw [h1]
  have h2 : (if b6 = true then (if n = 91 then 40 else if n = 93 then 41 else n) else n) = n := by
    rw [if_neg (c := n = 91) (by omega), if_neg (c := n = 93) (by omega)]; split <;> rfl
  rw [h2]
  have h3 : (if b9 = true then (if 65 ≤ n ∧ n ≤ 90 then n + 32 else n) else n) = n := by
    rw [if_neg (c := 65 ≤ n ∧ n ≤ 90) (by omega)]; split <;> rfl
  rw [h3, if_neg (c := (234 ≤ n ∧ n ≤ 237) ∨ n = 218 ∨ n = 217 ∨ n = 191 ∨ n = 192) (by omega),
    if_neg (c := n = 241 ∨ n = 196) (by omega), if_neg (c := n = 248 ∨ n = 166 ∨ n = 179) (by omega)]
  split <;> rfl

/-- All 256 byte values, all combinations of conversions. -/
theorem convN_bytes : ∀ b5 b6 b9 b12 : Bool, ∀ n < 256,
    convN b5 b6 b9 b12 (convN b5 b6 b9 b12 n) = convN b5 b6 b9 b12 n ∧
    (if n ≤ 32 then convN b5 b6 b9 b12 n = n else 32 < convN b5 b6 b9 b12 n) := by decide +kernel

/-- Codes up to 32 are left alone. -/
theorem conv_small (ctl : Nat) (c : Char) (h : c.toNat ≤ 32) : conv ctl c = c := by
  apply char_ext
  rw [conv_toNat]
  have := (convN_bytes (on ctl 5) (on ctl 6) (on ctl 9) (on ctl 12) c.toNat (by omega)).2
  rwa [if_pos h] at this

theorem conv_large (ctl : Nat) (c : Char) (h : 32 < c.toNat) : 32 < (conv ctl c).toNat := by
  rw [conv_toNat]
  by_cases hb : c.toNat < 256
  · have := (convN_bytes (on ctl 5) (on ctl 6) (on ctl 9) (on ctl 12) c.toNat hb).2
    rwa [if_neg (by omega)] at this
  · rw [convN_ge (by omega)]; exact h

theorem conv_conv (ctl : Nat) (c : Char) : conv ctl (conv ctl c) = conv ctl c := by
  apply char_ext
  rw [conv_toNat, conv_toNat]
  by_cases hb : c.toNat < 256
  · exact (convN_bytes (on ctl 5) (on ctl 6) (on ctl 9) (on ctl 12) c.toNat hb).1
  · rw [convN_ge (n := c.toNat) (by omega), convN_ge (by omega)]

theorem editChar_eq {ctl : Nat} (h0 : on ctl 0 = false) (c : Char) : editChar ctl c =
    if (on ctl 1 && isBlank c) || c.toNat == 0 || (on ctl 2 && isCtrl c) || (on ctl 13 && c.toNat == 13) then none
    else some (conv ctl c) := by
  unfold editChar conv
  simp only [h0, Bool.false_eq_true, if_false]
  grind

theorem isBlank_iff (c : Char) : isBlank c = true ↔ c.toNat = 32 ∨ c.toNat = 9 := by
  unfold isBlank
  simp only [Bool.or_eq_true, beq_iff_eq, eq_iff_toNat]
  rfl

theorem isCtrl_small {c : Char} (h : isCtrl c = true) : c.toNat ≤ 32 := by
  simp [isCtrl] at h
  omega

/-- A character the loop produces is left alone by a second pass. -/
theorem editChar_fix {ctl : Nat} (h0 : on ctl 0 = false) {c d : Char} (h : editChar ctl c = some d) : editChar ctl d = some d := by
  rw [editChar_eq h0] at h ⊢
  by_cases hc : ((on ctl 1 && isBlank c) || c.toNat == 0 || (on ctl 2 && isCtrl c) || (on ctl 13 && c.toNat == 13)) = true
  · rw [if_pos hc] at h; cases h
  · rw [if_neg hc] at h
    have hd : d = conv ctl c := by simpa using h.symm
    by_cases hs : c.toNat ≤ 32
    · rw [hd, conv_small ctl c hs, if_neg hc, conv_small ctl c hs]
    · have hl := conv_large ctl c (by omega)
      rw [← hd] at hl
      rw [if_neg, hd, conv_conv]
      intro hh
      simp only [Bool.or_eq_true, Bool.and_eq_true, beq_iff_eq] at hh
      have h1 : ¬ isBlank d = true := by rw [isBlank_iff]; omega
      have h2 : ¬ isCtrl d = true := fun h => by have := isCtrl_small h; omega
      have h3 : d.toNat ≠ 0 := by omega
      have h4 : d.toNat ≠ 13 := by omega
      simp [h1, h2, h3, h4] at hh

theorem trimEnd_eq_self {p : Char → Bool} {s : Str} (h : ∀ c ∈ s.getLast?, p c = false) : trimEnd p s = s := by
  unfold trimEnd
  cases hr : s.reverse with
  | nil => rw [List.reverse_eq_nil_iff.1 hr]; rfl
  | cons c t =>
    have : p c = false := by
      apply h
      rw [Option.mem_def, ← List.head?_reverse, hr]
      rfl
    rw [List.dropWhile_cons_of_neg (by simp [this]), ← hr, List.reverse_reverse]

theorem trimEnd_prefix (p : Char → Bool) (s : Str) : trimEnd p s <+: s := by
  unfold trimEnd
  have := List.dropWhile_suffix p (l := s.reverse)
  simpa using List.reverse_prefix.2 this

theorem reduce_idem (s : Str) : ∀ last, reduce last (reduce last s) = reduce last s := by
  induction s with
  | nil => intro last; rfl
  | cons c t ih =>
    intro last
    rw [reduce]
    by_cases h : isBlank c = true
    · rw [if_pos h]
      cases last with
      | true => exact ih true
      | false =>
        simp only [Bool.false_eq_true, if_false]
        rw [reduce, if_pos (by decide), if_neg (by decide), ih true]
    · rw [if_neg h, reduce, if_neg h, ih false]

theorem mem_reduce {s : Str} : ∀ {last : Bool} {c : Char}, c ∈ reduce last s → c ∈ s ∨ (c = ' ' ∧ ∃ d ∈ s, isBlank d = true) := by
  induction s with
  | nil => intro last c h; simp [reduce] at h
  | cons e t ih =>
    intro last c h
    rw [reduce] at h
    by_cases he : isBlank e = true
    · rw [if_pos he] at h
      cases last with
      | true =>
        rcases ih h with h | ⟨h1, d, h2, h3⟩
        · left; simp [h]
        · right; exact ⟨h1, d, by simp [h2], h3⟩
      | false =>
        simp only [Bool.false_eq_true, if_false, List.mem_cons] at h
        rcases h with h | h
        · right; exact ⟨h, e, by simp, he⟩
        · rcases ih h with h | ⟨h1, d, h2, h3⟩
          · left; simp [h]
          · right; exact ⟨h1, d, by simp [h2], h3⟩
    · rw [if_neg he] at h
      rcases List.mem_cons.1 h with h | h
      · left; simp [h]
      · rcases ih h with h | ⟨h1, d, h2, h3⟩
        · left; simp [h]
        · right; exact ⟨h1, d, by simp [h2], h3⟩

theorem reduce_head {s : Str} (h : ∀ c ∈ s.head?, isBlank c = false) (last : Bool) : (reduce last s).head? = s.head? := by
  cases s with
  | nil => rfl
  | cons c t => rw [reduce, if_neg (by rw [h c (by simp)]; simp)]; rfl

/-- C36: applying `edit` twice is the same as once for every combination of codes without 1 (parity), 256 (quotes), 1024, 2048, and without
8 (leading blanks) together with 4 or 8192 (control characters). -/
theorem C36_idempotent {ctl : Nat} (hq : on ctl 8 = false) (hp : on ctl 0 = false) (ht : on ctl 10 = false) (hu : on ctl 11 = false)
    (hl : on ctl 3 = true → on ctl 2 = false ∧ on ctl 13 = false) (g g' : Nat → Char) {s : Str} (hs : NoNul s) :
    ∃ r, edit ctl g s = .val r ∧ edit ctl g' r = .val r := by
  refine ⟨_, C36_edit_plain ht hu g s, ?_⟩
  rw [C36_edit_plain ht hu]
  congr 1
  -- the stages
  set a := (if on ctl 3 = true then s.dropWhile isBlank else s) with ha
  set u := a.filterMap (editChar ctl) with hu'
  set v := (if on ctl 7 = true then trimEnd isBlank u else u) with hv
  set w := (if on ctl 14 = true then trimEnd isBlankOrLf v else v) with hw
  set r := (if on ctl 4 = true then reduce false w else w) with hr
  have e1 : editBase ctl s = r := by
    unfold editBase
    dsimp only
    rw [editLoop_noquote hq]
  rw [e1]
  have hvu : v <+: u := by rw [hv]; split; exacts [trimEnd_prefix _ _, List.prefix_refl _]
  have hwv : w <+: v := by rw [hw]; split; exacts [trimEnd_prefix _ _, List.prefix_refl _]
  have hwu : w <+: u := hwv.trans hvu
  -- every character of the result is fixed
  have hfixu : ∀ c ∈ u, editChar ctl c = some c := by
    intro c hc
    obtain ⟨d, _, hd⟩ := List.mem_filterMap.1 hc
    exact editChar_fix hp hd
  have hfixw : ∀ c ∈ w, editChar ctl c = some c := fun c hc => hfixu c (hwu.subset hc)
  have hfix : ∀ c ∈ r, editChar ctl c = some c := by
    intro c hc
    rw [hr] at hc
    by_cases h4 : on ctl 4 = true
    · rw [if_pos h4] at hc
      rcases mem_reduce hc with h | ⟨rfl, d, hd, hb⟩
      · exact hfixw c h
      · have := hfixw d hd
        rw [editChar_eq hp] at this ⊢
        have h1 : on ctl 1 = false := by
          by_contra hne
          rw [if_pos (by simp at hne; simp [hne, hb])] at this
          cases this
        rw [if_neg (by rw [h1]; simp [isCtrl]), conv_small ctl ' ' (by decide)]
    · rw [if_neg h4] at hc
      exact hfixw c hc
  -- the head
  have hhead : on ctl 3 = true → ∀ c ∈ r.head?, isBlank c = false := by
    intro h3
    have hau : ∀ c ∈ u.head?, isBlank c = false := by
      intro c hc
      have h2 := hl h3
      rw [hu', ha, if_pos h3] at hc
      have hd := List.head?_dropWhile_not isBlank s
      cases hx : s.dropWhile isBlank with
      | nil => rw [hx] at hc; simp at hc
      | cons x y =>
        rw [hx] at hc hd
        simp only [List.head?_cons] at hd
        rw [List.filterMap_cons, editChar_eq hp] at hc
        have hx0 : x.toNat ≠ 0 := hs x ((List.dropWhile_suffix isBlank).subset (by rw [hx]; simp))
        rw [if_neg (by simp only [hd, h2.1, h2.2]; simp [hx0])] at hc
        simp at hc
        subst hc
        by_cases hs : x.toNat ≤ 32
        · rw [conv_small ctl x hs]; exact hd
        · have := conv_large ctl x (by omega)
          rw [← Bool.not_eq_true, isBlank_iff]
          omega
    have haw : ∀ c ∈ w.head?, isBlank c = false := by
      intro c hc
      apply hau
      obtain ⟨z, hz⟩ := hwu
      cases hw0 : w with
      | nil => rw [hw0] at hc; simp at hc
      | cons x y => rw [← hz, hw0]; rw [hw0] at hc; simpa using hc
    intro c hc
    rw [hr] at hc
    by_cases h4 : on ctl 4 = true
    · rw [if_pos h4, reduce_head haw] at hc; exact haw c hc
    · rw [if_neg h4] at hc; exact haw c hc
  -- the end
  have hwl7 : on ctl 7 = true ∨ on ctl 14 = true → ∀ c ∈ w.getLast?, isBlank c = false := by
    intro h c hc
    rw [hw] at hc
    by_cases h14 : on ctl 14 = true
    · rw [if_pos h14] at hc
      have := trimEnd_last isBlankOrLf _ c hc
      simp [isBlankOrLf] at this
      simp [isBlank, this]
    · rw [if_neg h14, hv, if_pos (by tauto)] at hc
      exact trimEnd_last isBlank _ c hc
  have hwl14 : on ctl 14 = true → ∀ c ∈ w.getLast?, isBlankOrLf c = false := by
    intro h c hc
    rw [hw, if_pos h] at hc
    exact trimEnd_last isBlankOrLf _ c hc
  have hrl : on ctl 7 = true ∨ on ctl 14 = true → r.getLast? = w.getLast? := by
    intro h
    rw [hr]
    by_cases h4 : on ctl 4 = true
    · rw [if_pos h4, reduce_last _ _ (hwl7 h)]
    · rw [if_neg h4]
  unfold editBase
  dsimp only
  rw [editLoop_noquote hq]
  have s1 : (if on ctl 3 = true then r.dropWhile isBlank else r) = r := by
    by_cases h3 : on ctl 3 = true
    · rw [if_pos h3]
      cases hr0 : r with
      | nil => rfl
      | cons x y => rw [List.dropWhile_cons_of_neg]; rw [hhead h3 x (by rw [hr0]; simp)]; simp
    · rw [if_neg h3]
  rw [s1, filterMap_id hfix]
  have s2 : (if on ctl 7 = true then trimEnd isBlank r else r) = r := by
    by_cases h7 : on ctl 7 = true
    · rw [if_pos h7]
      exact trimEnd_eq_self (by rw [hrl (Or.inl h7)]; exact hwl7 (Or.inl h7))
    · rw [if_neg h7]
  rw [s2]
  have s3 : (if on ctl 14 = true then trimEnd isBlankOrLf r else r) = r := by
    by_cases h14 : on ctl 14 = true
    · rw [if_pos h14]
      exact trimEnd_eq_self (by rw [hrl (Or.inr h14)]; exact hwl14 h14)
    · rw [if_neg h14]
  rw [s3]
  by_cases h4 : on ctl 4 = true
  · rw [if_pos h4, hr, if_pos h4, reduce_idem]
  · rw [if_neg h4]

/-- Codes 4 + 8 (used by SEARCH) are not idempotent: leading blanks are discarded before control characters are, so a text that starts with a line
feed keeps the blank that follows. -/
theorem C36_codes_4_8_leave_leading_blank (g : Nat → Char) :
    edit (4 + 8) g "\n a".toList = .val " a".toList ∧ edit (4 + 8) g " a".toList = .val "a".toList := by
  constructor <;> (rw [C36_edit_plain (by decide) (by decide)]; decide)

/-- Code 256 ("do not alter characters inside quotes") does not protect from code 16. -/
theorem C36_quotes_not_protected (g : Nat → Char) : edit (16 + 256) g "'a  b'".toList = .val "'a b'".toList := by
  rw [C36_edit_plain (by decide) (by decide)]; decide

example : NoNul " a\tB ".toList ∧ edit (8 + 16 + 32 + 128) (fun _ => 'x') " a\t bB ".toList = .val "A BB".toList := by
  constructor
  · intro c hc; simp at hc; rcases hc with rfl | rfl | rfl | rfl | rfl <;> decide
  · rw [C36_edit_plain (by decide) (by decide)]; decide

end MM.Vstr
