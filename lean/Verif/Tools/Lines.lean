import Verif.Tools.Model
import Verif.Vstr.EditProps
/-!
# C79: the lines of a file
-/
namespace MM.Tools
open MM.Vstr MM.Date

/-- The lines of a text: what is between the line ends; the last line may be without one. -/
def IsLines (text : Str) (ls : List Str) : Prop :=
  (∀ l ∈ ls, '\n' ∉ l) ∧ (text = writeLines ls ∨ ∃ ms l, ls = ms ++ [l] ∧ l ≠ [] ∧ text = writeLines ms ++ l)

theorem bind_inv {α β : Type} {o : Out α} {f : α → Out β} {b : β} (h : (o >>= f) = .val b) : ∃ a, o = .val a ∧ f a = .val b := by
  cases o with
  | val a => exact ⟨a, rfl, h⟩
  | _ => cases h

theorem fgets_line {l : Str} (hl : '\n' ∉ l) (r : Str) : ∀ n, l.length < n → fgets n (l ++ '\n' :: r) = (l ++ ['\n'], r) := by
  induction l with
  | nil => intro n hn; cases n with
    | zero => simp at hn
    | succ n => simp [fgets]
  | cons c l ih =>
    intro n hn
    cases n with
    | zero => simp at hn
    | succ n =>
      have h1 : c ≠ '\n' := fun e => hl (by simp [e])
      have h2 := ih (fun e => hl (by simp [e])) n (by simpa using hn)
      rw [List.cons_append, fgets, if_neg h1, h2]
      rfl

theorem fgets_part {l : Str} (hl : '\n' ∉ l) (r : Str) : ∀ n, n ≤ l.length → fgets n (l ++ r) = (l.take n, l.drop n ++ r) := by
  induction l with
  | nil => intro n hn; cases n with
    | zero => simp [fgets]
    | succ n => simp at hn
  | cons c l ih =>
    intro n hn
    cases n with
    | zero => simp [fgets]
    | succ n =>
      have h1 : c ≠ '\n' := fun e => hl (by simp [e])
      have h2 := ih (fun e => hl (by simp [e])) n (by simpa using hn)
      rw [List.cons_append, fgets, if_neg h1, h2]
      rfl

theorem fgets_end {l : Str} (hl : '\n' ∉ l) : ∀ n, l.length ≤ n → fgets n l = (l, []) := by
  induction l with
  | nil => intro n _; cases n <;> simp [fgets]
  | cons c l ih =>
    intro n hn
    cases n with
    | zero => simp at hn
    | succ n =>
      have h1 : c ≠ '\n' := fun e => hl (by simp [e])
      have h2 := ih (fun e => hl (by simp [e])) n (by simpa using hn)
      rw [fgets, if_neg h1, h2]

theorem takeWhile_nul {l : Str} (h : NoNul l) : l.takeWhile (· ≠ nul) = l := by
  induction l with
  | nil => rfl
  | cons c l ih =>
    have : c ≠ nul := fun e => h c (by simp) (by rw [e]; rfl)
    rw [List.takeWhile_cons_of_pos (by simpa using this), ih (fun d hd => h d (List.mem_cons_of_mem _ hd))]

theorem getLastD_ne {l : Str} (hl : '\n' ∉ l) : l.getLastD ' ' ≠ '\n' := by
  rw [List.getLastD_eq_getLast?]
  intro e
  cases h : l.getLast? with
  | none => rw [h] at e; exact absurd e (by decide)
  | some c =>
    rw [h] at e
    have e : c = '\n' := e
    exact hl (e ▸ List.mem_of_getLast? h)

/-- A line with its end. -/
theorem linputGo_line {N : Nat} (hN : 0 < N) {r : Str} : ∀ (k : Nat) (l : Str) (t : Option Str), '\n' ∉ l → NoNul l → l.length < k →
    linputGo N k t (l ++ '\n' :: r) = .val (some (t.getD [] ++ l), r)
  | 0, l, t, _, _, hk => absurd hk (Nat.not_lt_zero _)
  | k + 1, l, t, hl, hn, hk => by
    rw [linputGo, if_neg (by simp)]
    dsimp only
    by_cases h : l.length < N
    · have hn' : NoNul (l ++ ['\n']) := by
        intro c hc
        rcases List.mem_append.mp hc with hc | hc
        · exact hn c hc
        · rw [List.mem_singleton.mp hc]; decide
      rw [fgets_line hl r N h]
      dsimp only
      rw [takeWhile_nul hn', if_neg (by simp), if_pos (by simp [List.getLastD_eq_getLast?])]
      simp
    · have h := Nat.not_lt.mp h
      rw [fgets_part hl _ N h]
      dsimp only
      have hm : ∀ c ∈ l.take N, c ∈ l := fun c hc => List.mem_of_mem_take hc
      rw [takeWhile_nul (fun c hc => hn c (hm c hc)), if_neg, if_neg (getLastD_ne (fun hc => hl (hm _ hc))),
        linputGo_line hN k (l.drop N) _ (fun hc => hl (List.mem_of_mem_drop hc)) (fun c hc => hn c (List.mem_of_mem_drop hc)) (by rw [List.length_drop]; omega)]
      · simp
      · intro e
        have := congrArg List.length e
        rw [List.length_take, List.length_nil] at this
        omega

/-- The last line, without an end. -/
theorem linputGo_last {N : Nat} (hN : 0 < N) : ∀ (k : Nat) (l : Str) (t : Option Str), '\n' ∉ l → NoNul l → l.length < k →
    linputGo N k t l = .val (if l = [] then t else some (t.getD [] ++ l), [])
  | 0, l, t, _, _, hk => absurd hk (Nat.not_lt_zero _)
  | k + 1, l, t, hl, hn, hk => by
    rw [linputGo]
    by_cases h0 : l = []
    · rw [if_pos h0, if_pos h0]
    rw [if_neg h0, if_neg h0]
    dsimp only
    have h0' : 0 < l.length := List.length_pos_iff.mpr h0
    by_cases h : l.length ≤ N
    · rw [fgets_end hl N h]
      dsimp only
      rw [takeWhile_nul hn, if_neg h0, if_neg (getLastD_ne hl), linputGo_last hN k [] _ (by simp) (by intro c hc; cases hc) (by simp; omega), if_pos rfl]
    · have hp := fgets_part hl [] N (by omega)
      rw [List.append_nil, List.append_nil] at hp
      rw [hp]
      dsimp only
      have hm : ∀ c ∈ l.take N, c ∈ l := fun c hc => List.mem_of_mem_take hc
      have hd : l.drop N ≠ [] := by
        intro e
        have := congrArg List.length e
        rw [List.length_drop] at this
        simp at this
        omega
      rw [takeWhile_nul (fun c hc => hn c (hm c hc)), if_neg, if_neg (getLastD_ne (fun hc => hl (hm _ hc))),
        linputGo_last hN k (l.drop N) _ (fun hc => hl (List.mem_of_mem_drop hc)) (fun c hc => hn c (List.mem_of_mem_drop hc)) (by rw [List.length_drop]; omega), if_neg hd]
      · simp
      · intro e
        have := congrArg List.length e
        rw [List.length_take, List.length_nil] at this
        omega

/-- `linput` reads a line, however long it is. -/
theorem linput_line {l : Str} (hl : '\n' ∉ l) (hn : NoNul l) (r : Str) : linput (l ++ '\n' :: r) = .val (some l, r) := by
  unfold linput
  rw [linputGo_line (by decide) _ l none hl hn (by simp; omega)]
  rfl

theorem linput_last {l : Str} (hl : '\n' ∉ l) (hn : NoNul l) : linput l = .val (if l = [] then none else some l, []) := by
  unfold linput
  rw [linputGo_last (by decide) _ l none hl hn (by omega)]
  rfl

theorem cases_line (s : Str) : '\n' ∉ s ∨ ∃ l r, s = l ++ '\n' :: r ∧ '\n' ∉ l := by
  induction s with
  | nil => exact Or.inl (by simp)
  | cons c s ih =>
    by_cases h : c = '\n'
    · exact Or.inr ⟨[], s, by rw [h]; rfl, by simp⟩
    · rcases ih with ih | ⟨l, r, e, hl⟩
      · exact Or.inl (by simp [ih]; exact fun e => h e.symm)
      · exact Or.inr ⟨c :: l, r, by rw [e]; rfl, by simp [hl]; exact fun e => h e.symm⟩

theorem readGo_spec : ∀ (k : Nat) (s : Str), s.length < k → NoNul s → ∃ ls, readGo k s = .val ls ∧ IsLines s ls
  | 0, s, h, _ => absurd h (Nat.not_lt_zero _)
  | k + 1, s, h, hn => by
    rw [readGo]
    rcases cases_line s with hs | ⟨l, r, rfl, hl⟩
    · rw [linput_last hs hn, Out.bind_val]
      by_cases h0 : s = []
      · rw [if_pos h0]
        exact ⟨[], rfl, by simp, Or.inl (by rw [h0]; rfl)⟩
      · rw [if_neg h0]
        dsimp only [Option.elim]
        obtain ⟨k', rfl⟩ : ∃ k', k = k' + 1 := ⟨k - 1, by have := List.length_pos_iff.mpr h0; omega⟩
        have e0 : linput [] = .val (none, []) := linput_last (by simp) (by intro c hc; cases hc)
        rw [readGo, e0]
        exact ⟨[s], rfl, by simpa using hs, Or.inr ⟨[], s, rfl, h0, rfl⟩⟩
    · have hnl : NoNul l := fun c hc => hn c (List.mem_append.mpr (Or.inl hc))
      have hnr : NoNul r := fun c hc => hn c (List.mem_append.mpr (Or.inr (List.mem_cons_of_mem _ hc)))
      rw [linput_line hl hnl, Out.bind_val]
      dsimp only [Option.elim]
      obtain ⟨ls, e, h1, h2⟩ := readGo_spec k r (by simp at h; omega) hnr
      rw [e, Out.bind_val]
      refine ⟨l :: ls, rfl, ?_, ?_⟩
      · intro x hx
        rcases List.mem_cons.mp hx with rfl | hx
        · exact hl
        · exact h1 x hx
      · rcases h2 with h2 | ⟨ms, x, e1, e2, e3⟩
        · exact Or.inl (by rw [h2]; simp [writeLines])
        · exact Or.inr ⟨l :: ms, x, by rw [e1]; rfl, e2, by rw [e3]; simp [writeLines]⟩

theorem writeLines_cons (l : Str) (ls : List Str) : writeLines (l :: ls) = l ++ '\n' :: writeLines ls := by simp [writeLines]

theorem line_inj {a b r s : Str} (ha : '\n' ∉ a) (hb : '\n' ∉ b) (h : a ++ '\n' :: r = b ++ '\n' :: s) : a = b ∧ r = s := by
  induction a generalizing b with
  | nil => cases b with
    | nil => exact ⟨rfl, by simpa using h⟩
    | cons c b => exact absurd (by simp at h; rw [h.1]; simp) hb
  | cons c a ih => cases b with
    | nil => exact absurd (by simp at h; rw [h.1]; simp) ha
    | cons d b =>
      simp only [List.cons_append, List.cons.injEq] at h
      obtain ⟨e1, e2⟩ := ih (fun e => ha (by simp [e])) (fun e => hb (by simp [e])) h.2
      exact ⟨by rw [h.1, e1], e2⟩

theorem nil_unique {m : Str} {ms : List Str} {text : Str} (h1 : IsLines text []) (h2 : IsLines text (m :: ms)) : False := by
  have e : text = [] := by
    rcases h1.2 with h | ⟨a, l, e, _⟩
    · exact h
    · cases a <;> cases e
  rcases h2.2 with h | ⟨a, l, e1, e2, e3⟩
  · rw [e, writeLines_cons] at h
    simp at h
  · rw [e] at e3
    exact e2 (List.append_eq_nil_iff.mp e3.symm).2

/-- The lines of a text are determined. -/
theorem lines_unique : ∀ (ls ms : List Str) {text : Str}, IsLines text ls → IsLines text ms → ls = ms
  | [], [], _, _, _ => rfl
  | [], m :: ms, text, h1, h2 => (nil_unique h1 h2).elim
  | l :: ls, [], text, h1, h2 => (nil_unique h2 h1).elim
  | l :: ls, m :: ms, text, h1, h2 => by
    have hl := h1.1 l (by simp)
    have hm := h2.1 m (by simp)
    have step : ∀ {l : Str} {ls : List Str}, IsLines text (l :: ls) → (∃ r, text = l ++ '\n' :: r ∧ IsLines r ls) ∨ (text = l ∧ ls = []) := by
      intro l ls h
      rcases h.2 with e | ⟨a, x, e1, e2, e3⟩
      · exact Or.inl ⟨writeLines ls, by rw [e, writeLines_cons], fun x hx => h.1 x (List.mem_cons_of_mem _ hx), Or.inl rfl⟩
      · cases a with
        | nil =>
          simp at e1
          exact Or.inr ⟨by rw [e3, e1.1]; rfl, e1.2⟩
        | cons b a =>
          simp at e1
          refine Or.inl ⟨writeLines a ++ x, by rw [e3, writeLines_cons, e1.1]; simp, fun x hx => h.1 x (List.mem_cons_of_mem _ hx), Or.inr ⟨a, x, e1.2, e2, rfl⟩⟩
    rcases step h1 with ⟨r, e1, g1⟩ | ⟨e1, g1⟩ <;> rcases step h2 with ⟨s, e2, g2⟩ | ⟨e2, g2⟩
    · obtain ⟨a, b⟩ := line_inj hl hm (e1.symm.trans e2)
      subst b
      rw [a, lines_unique ls ms g1 g2]
    · exact absurd (by rw [← e2, e1]; simp) hm
    · exact absurd (by rw [← e1, e2]; simp) hl
    · rw [← e1, ← e2, g1, g2]

/-- **C79.** A text without NUL is read as its lines, however long they are, and whether or not the last one has an end. -/
theorem C79_read {text : Str} (h : NoNul text) (ls : List Str) : readLines text = .val ls ↔ IsLines text ls := by
  obtain ⟨ms, e, h1⟩ := readGo_spec (text.length + 1) text (by omega) h
  unfold readLines
  rw [e]
  exact ⟨fun h2 => by rw [← Out.val.inj h2]; exact h1, fun h2 => by rw [lines_unique _ _ h1 h2]⟩

theorem writeLines_lines {ls : List Str} (h : ∀ l ∈ ls, '\n' ∉ l) : IsLines (writeLines ls) ls := ⟨h, Or.inl rfl⟩

/-- **C79.** A command that changes the lines of a file writes a file with the changed lines. -/
theorem C79_file {f : List Str → Out (List Str)} {text : Str} {ls ms : List Str} (h : NoNul text) (hl : IsLines text ls) (hf : f ls = .val ms) (hm : ∀ l ∈ ms, '\n' ∉ l) :
    ∃ out, onFile f text = .val out ∧ IsLines out ms := by
  unfold onFile
  rw [(C79_read h ls).mpr hl, Out.bind_val, hf, Out.bind_val]
  exact ⟨_, rfl, writeLines_lines hm⟩

/-- A defect: a line that begins with NUL makes `linput` read before its buffer. -/
theorem C79_nul : readLines (nul :: "abc\n".toList) = .ub := by decide +kernel

example : readLines "ab\n\nc d".toList = .val ["ab".toList, [], "c d".toList] := by decide +kernel
example : IsLines "ab\n\nc d".toList ["ab".toList, [], "c d".toList] := (C79_read (by unfold NoNul; decide +kernel) _).mp (by decide +kernel)

end MM.Tools
