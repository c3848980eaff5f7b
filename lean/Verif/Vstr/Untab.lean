import Verif.Vstr.EditProps
/-!
# C36, codes 1024 and 2048: tabs
-/
namespace MM.Vstr

/-- Specification: expand tabs to the next multiple of 8 columns; `col` is the current column, a line feed starts a new line. -/
def expand : Nat → Str → Str
  | _, [] => []
  | col, c :: t =>
    if c = '\n' then '\n' :: expand 0 t
    else if c = '\t' then List.replicate (8 - col % 8) ' ' ++ expand (col + (8 - col % 8)) t
    else c :: expand (col + 1) t

theorem expand_spaces (n : Nat) : ∀ col t, expand col (List.replicate n ' ' ++ t) = List.replicate n ' ' ++ expand (col + n) t := by
  induction n with
  | zero => intro col t; simp
  | succ n ih =>
    intro col t
    rw [List.replicate_succ, List.cons_append, expand, if_neg (by decide), if_neg (by decide), ih, List.cons_append]
    congr 3
    omega

theorem untabGo_tail {cap : Nat} : ∀ (fuel : Nat) (u : UT), 1 ≤ u.i → u.k ≤ cap → u.k + 2 ≤ fuel + u.i →
    (∀ p, u.i - 1 ≤ p → p < u.k → u.buf p ≠ '\t') → u.i ≤ u.k + 1 → untabGo cap fuel u = .val u.buf := by
  intro fuel
  induction fuel with
  | zero => intro u h1 h2 h3 h4 h5; omega
  | succ n ih =>
    intro u h1 h2 h3 h4 h5
    rw [untabGo]
    by_cases hk : u.i > u.k
    · rw [if_pos hk]
    · rw [if_neg hk, if_neg (by omega)]
      dsimp only
      have hc := h4 (u.i - 1) (le_refl _) (by omega)
      by_cases hn : u.buf (u.i - 1) = '\n'
      · rw [if_pos hn]
        exact ih { u with m := 0, i := u.i + 1 } (by simp) h2 (by simp; omega) (fun p hp hp2 => h4 p (by simp at hp; omega) hp2) (by simp; omega)
      · rw [if_neg hn, if_pos hc]
        exact ih { u with m := u.m + 1, i := u.i + 1 } (by simp) h2 (by simp; omega) (fun p hp hp2 => h4 p (by simp at hp; omega) hp2) (by simp; omega)

/-- The buffer holds the string `s`. -/
def Holds (buf : Nat → Char) (s : Str) : Prop := (∀ p < s.length, buf p = s.getD p nul) ∧ buf s.length = nul

/-- No tab is met after the end of the text: either there is none in the buffer, or the scan does not get there. -/
def QuietEnd (u : UT) (P R : Str) : Prop :=
  (∀ p ≥ P.length + R.length, u.buf p ≠ '\t') ∨ (u.k = P.length + R.length ∧ R.count '\t' ≤ 1) ∨
  (u.k = P.length + R.length + 1 ∧ R.count '\t' = 0)

/-- The buffer after a tab has been expanded to `d` spaces. -/
theorem holds_shift {u : UT} {P t : Str} {c : Char} {d : Nat} (h1 : u.i = P.length + 1) (h2 : Holds u.buf (P ++ c :: t))
    (h3 : P.length + (t.length + 1) ≤ u.k) (hd1 : 1 ≤ d) :
    Holds (fun p => if p < u.i - 1 then u.buf p else if p < u.i - 1 + d then ' '
      else if p ≤ u.k + d - 1 then u.buf (p - (d - 1)) else u.buf p) ((P ++ [' ']) ++ (List.replicate (d - 1) ' ' ++ t)) := by
  set buf' := (fun p => if p < u.i - 1 then u.buf p else if p < u.i - 1 + d then ' '
      else if p ≤ u.k + d - 1 then u.buf (p - (d - 1)) else u.buf p) with hbuf
  have hlen : ((P ++ [' ']) ++ (List.replicate (d - 1) ' ' ++ t)).length = P.length + d + t.length := by simp; omega
  have hsplit : (P ++ [' ']) ++ (List.replicate (d - 1) ' ' ++ t) = P ++ (List.replicate d ' ' ++ t) := by
    rw [show d = (d - 1) + 1 by omega, List.replicate_succ]
    simp
  constructor
  · intro p hp
    rw [hlen] at hp
    rw [hsplit, List.getD_eq_getElem?_getD]
    by_cases hp1 : p < P.length
    · rw [hbuf]
      dsimp only
      rw [if_pos (by omega), h2.1 p (by simp; omega), List.getD_eq_getElem?_getD, List.getElem?_append_left hp1,
        List.getElem?_append_left hp1]
    · rw [List.getElem?_append_right (by omega)]
      by_cases hp2 : p < P.length + d
      · rw [hbuf]
        dsimp only
        rw [if_neg (by omega), if_pos (by omega), List.getElem?_append_left (by simp; omega)]
        rw [List.getElem?_replicate, if_pos (by omega)]
        rfl
      · rw [hbuf]
        dsimp only
        rw [if_neg (by omega), if_neg (by omega), if_pos (by omega), h2.1 _ (by simp; omega), List.getD_eq_getElem?_getD,
          List.getElem?_append_right (by omega), List.getElem?_append_right (by simp; omega), List.length_replicate,
          show p - (d - 1) - P.length = (p - P.length - d) + 1 by omega, List.getElem?_cons_succ]
  · rw [hlen, hbuf]
    dsimp only
    rw [if_neg (by omega), if_neg (by omega), if_pos (by omega)]
    have := h2.2
    rw [show P.length + d + t.length - (d - 1) = (P ++ c :: t).length by simp; omega]
    exact this

theorem untabGo_spec {cap : Nat} : ∀ (fuel : Nat) (u : UT) (P R : Str), u.i = P.length + 1 → Holds u.buf (P ++ R) →
    P.length + R.length ≤ u.k → u.k + 8 * R.count '\t' ≤ cap → cap + 1 ≤ fuel + P.length → QuietEnd u P R →
    ∃ b, untabGo cap fuel u = .val b ∧ Holds b (P ++ expand u.m R) := by
  intro fuel
  induction fuel with
  | zero => intro u P R h1 h2 h3 h4 h5; omega
  | succ n ih =>
    intro u P R h1 h2 h3 h4 h5 hq
    cases R with
    | nil =>
      refine ⟨u.buf, ?_, by simpa [expand] using h2⟩
      simp only [List.length_nil, List.count_nil, Nat.mul_zero, Nat.add_zero] at h3 h4
      refine untabGo_tail (n + 1) u (by omega) h4 (by omega) ?_ (by omega)
      intro p hp hp2
      rcases hq with hq | ⟨hq, _⟩ | ⟨hq, _⟩
      · exact hq p (by simp; omega)
      · simp at hq; omega
      · simp only [List.length_nil, Nat.add_zero] at hq
        have : p = P.length := by omega
        rw [this]
        have := h2.2
        simp only [List.append_nil] at this
        rw [this]
        decide
    | cons c t =>
      have hc : u.buf (u.i - 1) = c := by
        rw [h1, Nat.add_sub_cancel, h2.1 P.length (by simp)]
        simp
      simp only [List.length_cons] at h3
      rw [untabGo, if_neg (by omega), if_neg (by omega)]
      dsimp only
      rw [hc]
      by_cases hn : c = '\n'
      · rw [if_pos hn]
        have hct : (c :: t).count '\t' = t.count '\t' := by rw [hn]; simp
        obtain ⟨b, hb1, hb2⟩ := ih { u with m := 0, i := u.i + 1 } (P ++ [c]) t (by simp [h1]) (by simpa using h2) (by simp; omega)
          (by rw [← hct]; exact h4) (by simp; omega) (by
            simpa [QuietEnd, hct, Nat.add_assoc, Nat.add_comm 1] using hq)
        refine ⟨b, hb1, ?_⟩
        rw [expand, if_pos hn]
        simpa [hn] using hb2
      · rw [if_neg hn]
        by_cases ht : c = '\t'
        · rw [if_neg (by simp [ht])]
          set d := 8 - u.m % 8 with hd
          have hd1 : 1 ≤ d ∧ d ≤ 8 := by omega
          have hct : (c :: t).count '\t' = t.count '\t' + 1 := by rw [ht]; simp
          rw [hct] at h4
          rw [if_neg (by omega)]
          set buf' := (fun p => if p < u.i - 1 then u.buf p else if p < u.i - 1 + d then ' '
            else if p ≤ u.k + d - 1 then u.buf (p - (d - 1)) else u.buf p) with hbuf
          have hholds : Holds buf' ((P ++ [' ']) ++ (List.replicate (d - 1) ' ' ++ t)) := by
            have := holds_shift h1 h2 (by omega) hd1.1
            rwa [← hbuf] at this
          have hq' : QuietEnd ⟨buf', u.k + d, u.i + 1, u.m + 1⟩ (P ++ [' ']) (List.replicate (d - 1) ' ' ++ t) := by
            have hl : (P ++ [' ']).length + (List.replicate (d - 1) ' ' ++ t).length = P.length + d + t.length := by simp; omega
            have hc0 : (List.replicate (d - 1) ' ' ++ t).count '\t' = t.count '\t' := by
              rw [List.count_append, List.count_replicate]; simp
            unfold QuietEnd
            rw [hl, hc0]
            dsimp only
            rcases hq with hq | ⟨hq, hq2⟩ | ⟨hq, hq2⟩
            · left
              intro p hp
              rw [hbuf]
              dsimp only
              rw [if_neg (by omega), if_neg (by omega)]
              split
              · exact hq _ (by simp; omega)
              · exact hq _ (by simp; omega)
            · right; right
              simp only [List.length_cons] at hq
              rw [hct] at hq2
              exact ⟨by omega, by omega⟩
            · omega
          obtain ⟨b, hb1, hb2⟩ := ih ⟨buf', u.k + d, u.i + 1, u.m + 1⟩ (P ++ [' ']) (List.replicate (d - 1) ' ' ++ t) (by simp [h1]) hholds
            (by simp; omega) (by
              rw [show (List.replicate (d - 1) ' ' ++ t).count '\t' = t.count '\t' by
                rw [List.count_append, List.count_replicate]; simp]
              dsimp only
              omega) (by simp; omega) hq'
          refine ⟨b, hb1, ?_⟩
          rw [expand, if_neg hn, if_pos ht]
          rw [expand_spaces] at hb2
          rw [← hd]
          have e2 : u.m + d = u.m + 1 + (d - 1) := by omega
          rw [e2]
          have e3 : List.replicate d ' ' = ' ' :: List.replicate (d - 1) ' ' := by
            rw [← List.replicate_succ]; congr 1; omega
          rw [e3]
          simpa using hb2
        · rw [if_pos ht]
          have hct : (c :: t).count '\t' = t.count '\t' := by rw [List.count_cons_of_ne ht]
          obtain ⟨b, hb1, hb2⟩ := ih { u with m := u.m + 1, i := u.i + 1 } (P ++ [c]) t (by simp [h1]) (by simpa using h2) (by simp; omega)
            (by rw [← hct]; exact h4) (by simp; omega) (by
              simpa [QuietEnd, hct, Nat.add_assoc, Nat.add_comm 1] using hq)
          refine ⟨b, hb1, ?_⟩
          rw [expand, if_neg hn, if_neg ht]
          simpa using hb2

theorem nul_ne {c : Char} (h : c.toNat ≠ 0) : c ≠ nul := fun e => h (by rw [e]; rfl)

theorem cstr_holds {cap : Nat} {b : Nat → Char} {s : Str} (h : Holds b s) (hs : NoNul s) (hl : s.length < cap) : cstr cap b = s := by
  unfold cstr
  have h1 : (List.range cap).map b = s ++ nul :: ((List.range' (s.length + 1) (cap - (s.length + 1))).map b) := by
    rw [List.range_eq_range', show cap = s.length + (1 + (cap - (s.length + 1))) by omega, List.range'_append_1.symm, List.map_append]
    congr 1
    · apply List.ext_getElem
      · simp
      · intro i h1 h2
        simp only [List.length_map, List.length_range'] at h1
        simp only [List.getElem_map, List.getElem_range']
        rw [show 0 + 1 * i = i by omega, h.1 i h1, List.getD_eq_getElem?_getD, List.getElem?_eq_getElem h1]
        rfl
    · rw [List.range'_append_1.symm, List.map_append]
      simp only [Nat.zero_add, List.range'_one, List.map_cons, List.map_nil, List.singleton_append, h.2]
      congr 3
      omega
  rw [h1, List.takeWhile_append]
  have h2 : s.takeWhile (fun c => decide (c ≠ nul)) = s := by
    clear h h1 hl
    induction s with
    | nil => rfl
    | cons c t ih =>
      rw [List.takeWhile_cons_of_pos (by simpa using nul_ne (hs c (by simp))), ih (fun d hd => hs d (by simp [hd]))]
  rw [h2]
  simp

theorem expand_nonul {s : Str} (hs : NoNul s) : ∀ col, NoNul (expand col s) := by
  induction s with
  | nil => intro col c hc; simp [expand] at hc
  | cons a t ih =>
    intro col c hc
    have ht : NoNul t := fun d hd => hs d (by simp [hd])
    rw [expand] at hc
    split at hc
    · rcases List.mem_cons.1 hc with rfl | hc
      · decide
      · exact ih ht _ c hc
    · split at hc
      · rcases List.mem_append.1 hc with hc | hc
        · rw [List.eq_of_mem_replicate hc]; decide
        · exact ih ht _ c hc
      · rcases List.mem_cons.1 hc with rfl | hc
        · exact hs c (by simp)
        · exact ih ht _ c hc

theorem expand_length (s : Str) : ∀ col, (expand col s).length ≤ s.length + 7 * s.count '\t' := by
  induction s with
  | nil => intro col; simp [expand]
  | cons a t ih =>
    intro col
    rw [expand]
    by_cases h1 : a = '\n'
    · rw [if_pos h1, h1]
      have := ih 0
      simp
      omega
    · rw [if_neg h1]
      by_cases h2 : a = '\t'
      · rw [if_pos h2, h2]
        have := ih (col + (8 - col % 8))
        simp
        omega
      · rw [if_neg h2, List.count_cons_of_ne h2]
        have := ih (col + 1)
        simp
        omega

theorem fill_holds (s : Str) (g : Nat → Char) : Holds (fill s g) s := by
  constructor
  · intro p hp; simp only [fill, if_pos hp]
  · simp [fill]

theorem untab_spec {cap : Nat} {g : Nat → Char} {s : Str} (hs : NoNul s) (hcap : s.length + 8 * s.count '\t' ≤ cap) (h1 : s.length < cap)
    (hg : (∀ p, g p ≠ '\t') ∨ s.count '\t' ≤ 1) : untab cap g s = .val (expand 0 s) := by
  unfold untab
  obtain ⟨b, hb1, hb2⟩ := untabGo_spec (cap := cap) (cap + 2) ⟨fill s g, s.length, 1, 0⟩ [] s rfl (by simpa using fill_holds s g) (by simp)
    (by simpa using hcap) (by simp) (by
      rcases hg with hg | hg
      · left
        intro p hp
        simp only [List.length_nil, Nat.zero_add] at hp
        unfold fill
        dsimp only
        rw [if_neg (by omega)]
        split
        · decide
        · exact hg p
      · right; left
        exact ⟨by simp, hg⟩)
  rw [hb1]
  simp only [List.nil_append] at hb2
  rw [Out.bind_val, cstr_holds hb2 (expand_nonul hs 0)]
  have := expand_length s 0
  by_cases h0 : s.count '\t' = 0
  · rw [h0] at this; omega
  · omega

/-- C36, code 2048: tabs are expanded to the next multiple of 8 columns, if the string has at most one tab, or if the tabs are at most three quarters
of the string and the uninitialised rest of the buffer contains no tab. -/
theorem C36_untab_partial {g : Nat → Char} {s : Str} (hs : NoNul s) (hcap : 8 * s.count '\t' ≤ 6 * s.length + 7)
    (hg : (∀ p, g p ≠ '\t') ∨ s.count '\t' ≤ 1) : edit 2048 g s = .val (expand 0 s) := by
  unfold edit
  have e : editBase 2048 s = s := by
    show editLoop 2048 false s = s
    rw [editLoop_noquote (by decide)]
    apply filterMap_id
    intro c hc
    have e : editChar 2048 c = if c.toNat = 0 then none else some c := rfl
    rw [e, if_neg (hs c hc)]
  rw [e]
  have h1 : on 2048 11 = true := by decide
  have h2 : on 2048 10 = false := by decide
  simp only [h1, h2, if_true, Bool.or_false]
  rw [untab_spec hs (by omega) (by omega) hg]
  rfl

example : NoNul "a\tb\n\tc".toList ∧ 8 * "a\tb\n\tc".toList.count '\t' ≤ 6 * "a\tb\n\tc".toList.length + 7 ∧
    edit 2048 (fun _ => 'x') "a\tb\n\tc".toList = .val "a       b\n        c".toList := by
  refine ⟨?_, by decide, by decide +kernel⟩
  intro c hc
  have : c ∈ ['a', '\t', 'b', '\n', 'c'] := by revert hc; simp; tauto
  simp at this
  rcases this with rfl | rfl | rfl | rfl | rfl <;> decide

theorem untabGo_overflow {cap : Nat} : ∀ (fuel : Nat) (u : UT) (P rest : Str) (r t : Nat), u.i = P.length + 1 →
    Holds u.buf (P ++ (List.replicate r ' ' ++ (List.replicate (t + 1) '\t' ++ rest))) →
    P.length + r + (t + 1) + rest.length ≤ u.k → P.length + r < cap → (u.m + r) % 8 = 0 → cap < u.k + 8 * (t + 1) → P.length + r < fuel + P.length →
    cap + 1 ≤ fuel + P.length → untabGo cap fuel u = .ub := by
  intro fuel
  induction fuel with
  | zero => intro u P rest r t h1 h2 h3 h4 h5 h6 h7; omega
  | succ n ih =>
    intro u P rest r t h1 h2 h3 h4 h5 h6 h7 h8
    rw [untabGo, if_neg (by omega), if_neg (by omega)]
    dsimp only
    cases r with
    | succ r =>
      have hc : u.buf (u.i - 1) = ' ' := by
        rw [h1, Nat.add_sub_cancel, h2.1 P.length (by simp)]
        simp [List.replicate_succ]
      rw [hc, if_neg (by decide), if_pos (by decide)]
      refine ih _ (P ++ [' ']) rest r t (by simp [h1]) ?_ (by simp; omega) (by simp; omega) (by simp only; omega) h6 (by simp; omega) (by simp; omega)
      rw [List.replicate_succ] at h2
      simpa using h2
    | zero =>
      have hc : u.buf (u.i - 1) = '\t' := by
        rw [h1, Nat.add_sub_cancel, h2.1 P.length (by simp)]
        simp [List.replicate_succ]
      rw [hc, if_neg (by decide), if_neg (by decide)]
      have hm : u.m % 8 = 0 := by simpa using h5
      rw [hm, Nat.sub_zero]
      by_cases ho : u.k + 8 - 1 ≥ cap
      · rw [if_pos ho]
      · rw [if_neg ho]
        cases t with
        | zero => omega
        | succ t =>
          have h2' : Holds u.buf (P ++ '\t' :: (List.replicate (t + 1) '\t' ++ rest)) := by
            rw [List.replicate_zero, List.nil_append, List.replicate_succ] at h2
            simpa using h2
          have := holds_shift (d := 8) h1 h2' (by simp; omega) (by omega)
          exact ih ⟨_, u.k + 8, u.i + 1, u.m + 1⟩ (P ++ [' ']) rest 7 t (by simp [h1]) this (by simp; omega) (by simp; omega) (by simp only; omega)
            (by simp only; omega) (by simp; omega) (by simp; omega)

/-- The buffer for code 2048 is too small: a string that starts with `t + 1` tabs is written outside it when these are more than about three quarters of the
string, whatever the memory contains. -/
theorem C36_untab_overflow (g : Nat → Char) {rest : Str} (hs : NoNul rest) (t : Nat) (h : 6 * rest.length + 7 < 2 * (t + 1)) :
    edit 2048 g (List.replicate (t + 1) '\t' ++ rest) = .ub := by
  unfold edit
  have hs' : NoNul (List.replicate (t + 1) '\t' ++ rest) := by
    intro c hc
    rcases List.mem_append.1 hc with hc | hc
    · rw [List.eq_of_mem_replicate hc]; decide
    · exact hs c hc
  have e : editBase 2048 (List.replicate (t + 1) '\t' ++ rest) = List.replicate (t + 1) '\t' ++ rest := by
    show editLoop 2048 false _ = _
    rw [editLoop_noquote (by decide)]
    apply filterMap_id
    intro c hc
    have e : editChar 2048 c = if c.toNat = 0 then none else some c := rfl
    rw [e, if_neg (hs' c hc)]
  rw [e]
  have h1 : on 2048 11 = true := by decide
  have h2 : on 2048 10 = false := by decide
  simp only [h1, h2, if_true, Bool.or_false]
  have hl : (List.replicate (t + 1) '\t' ++ rest).length = t + 1 + rest.length := by simp
  unfold untab
  rw [untabGo_overflow _ _ [] rest 0 t rfl (by simpa using fill_holds (List.replicate (t + 1) '\t' ++ rest) g) (by simp) (by simp)
    rfl (by simp; omega) (by simp) (by simp)]
  rfl

/-- For example 4 tabs, or 7 tabs before a single character. -/
example (g : Nat → Char) : edit 2048 g "\t\t\t\t".toList = .ub ∧ edit 2048 g "\t\t\t\t\t\t\t}".toList = .ub := by
  constructor
  · exact C36_untab_overflow g (rest := []) (by intro c hc; simp at hc) 3 (by decide)
  · exact C36_untab_overflow g (rest := ['}']) (by intro c hc; simp at hc; subst hc; decide) 6 (by decide)

/-- Code 1024 alone (the T option of the TOOLS command CLEAN): one tab suffices, since the buffer is not enlarged at all. -/
theorem C36_tab_overflow (g : Nat → Char) : edit 1024 g "\t".toList = .ub := by rfl

/-- Code 1024 on a line that starts with 8 spaces reads before the buffer. -/
theorem C36_tab_reads_before_buffer (g : Nat → Char) : edit 1024 g "        x".toList = .ub := by rfl

/-! ## tabbing a line loses nothing -/

theorem expand_append_noctl {a : Str} (h : ∀ c ∈ a, c ≠ '\n' ∧ c ≠ '\t') : ∀ col t, expand col (a ++ t) = a ++ expand (col + a.length) t := by
  induction a with
  | nil => intro col t; simp
  | cons c a ih =>
    intro col t
    rw [List.cons_append, expand, if_neg (h c (by simp)).1, if_neg (h c (by simp)).2, ih (fun d hd => h d (by simp [hd]))]
    simp only [List.cons_append, List.length_cons]
    congr 3
    omega

theorem tabLine_expand : ∀ (n : Nat) (s : Str) (col : Nat), (∀ c ∈ s, c ≠ '\n' ∧ c ≠ '\t') → col % 8 = 0 →
    expand col (tabLine n s) = s := by
  intro n
  induction n with
  | zero =>
    intro s col h _
    have := expand_append_noctl h col []
    simpa [tabLine, expand] using this
  | succ n ih =>
    intro s col h hcol
    rw [tabLine]
    by_cases hl : s.length ≤ 8
    · rw [if_pos hl]
      have := expand_append_noctl h col []
      simpa [expand] using this
    · rw [if_neg hl]
      dsimp only
      have hdrop : ∀ c ∈ s.drop 8, c ≠ '\n' ∧ c ≠ '\t' := fun c hc => h c (List.mem_of_mem_drop hc)
      have htake : ∀ c ∈ s.take 8, c ≠ '\n' ∧ c ≠ '\t' := fun c hc => h c (List.mem_of_mem_take hc)
      have hlen : (s.take 8).length = 8 := by rw [List.length_take]; omega
      by_cases hb : ((s.take 8).reverse.dropWhile (· == ' ')).length ≤ 6
      · rw [if_pos hb]
        set b' := (s.take 8).reverse.dropWhile (· == ' ') with hb'
        have hsuf : b' <:+ (s.take 8).reverse := List.dropWhile_suffix _
        have hpre : b'.reverse <+: s.take 8 := by simpa using List.reverse_prefix.2 hsuf
        have hmem : ∀ c ∈ b'.reverse, c ≠ '\n' ∧ c ≠ '\t' := fun c hc => htake c (hpre.subset hc)
        rw [List.append_assoc, expand_append_noctl hmem, List.singleton_append, expand, if_neg (by decide), if_pos rfl]
        have hsp : s.take 8 = b'.reverse ++ List.replicate (8 - b'.length) ' ' := by
          have h1 := List.takeWhile_append_dropWhile (p := (· == ' ')) (l := (s.take 8).reverse)
          have h2 : (s.take 8).reverse.takeWhile (· == ' ') = List.replicate (8 - b'.length) ' ' := by
            rw [List.eq_replicate_iff]
            constructor
            · have := congrArg List.length h1
              rw [List.length_append, List.length_reverse, hlen, ← hb'] at this
              omega
            · intro c hc
              have := List.all_takeWhile (p := (· == ' ')) (l := (s.take 8).reverse)
              rw [List.all_eq_true] at this
              simpa using this c hc
          rw [h2, ← hb'] at h1
          have := congrArg List.reverse h1
          rw [List.reverse_reverse, List.reverse_append, List.reverse_replicate] at this
          exact this.symm
        rw [List.length_reverse, show (8 - (col + b'.length) % 8) = 8 - b'.length by omega]
        rw [ih _ _ hdrop (by omega)]
        rw [← List.append_assoc, ← hsp, List.take_append_drop]
      · rw [if_neg hb, expand_append_noctl htake, ih _ _ hdrop (by rw [hlen]; omega), List.take_append_drop]

/-- C36, code 1024: converting spaces to tabs loses nothing: expanding the tabs again gives back the line (for a line with at most 7 leading
spaces and without tabs). -/
theorem C36_tab_expands_back {g : Nat → Char} {s : Str} (hs : NoNul s) (hc : ∀ c ∈ s, c ≠ '\n' ∧ c ≠ '\t')
    (h8 : ¬ (s.length > 8 ∧ (s.take 8).all (· == ' ') = true)) :
    ∃ r, edit 1024 g s = .val r ∧ expand 0 r = s := by
  unfold edit
  have e : editBase 1024 s = s := by
    show editLoop 1024 false s = s
    rw [editLoop_noquote (by decide)]
    apply filterMap_id
    intro c hc
    have e : editChar 1024 c = if c.toNat = 0 then none else some c := rfl
    rw [e, if_neg (hs c hc)]
  rw [e]
  have h1 : on 1024 11 = false := by decide
  have h2 : on 1024 10 = true := by decide
  simp only [h1, h2, if_true, Bool.false_eq_true, if_false, Bool.or_true]
  have h0 : s.count '\t' = 0 := List.count_eq_zero.2 (fun h => (hc _ h).2 rfl)
  have hexp : expand 0 s = s := by
    have := expand_append_noctl hc 0 []
    simpa [expand] using this
  rw [untab_spec hs (by omega) (by omega) (Or.inr (by omega)), hexp]
  refine ⟨tabLine s.length s, ?_, tabLine_expand _ _ 0 hc rfl⟩
  simp only [Out.bind_val]
  rw [if_neg h8]

example : edit 1024 (fun _ => 'x') "ab        cd".toList = .val "ab\t  cd".toList := by decide +kernel

end MM.Vstr
