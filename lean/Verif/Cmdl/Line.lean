import Verif.Cmdl.LineSpec
import Verif.Vstr.Props
/-!
# C76: the words of a command line
-/
namespace MM.Cmdl
open MM.Vstr

theorem white_iff (c : Char) : white c = true ↔ c = ' ' ∨ c = '\t' ∨ c = '\n' := by
  unfold white
  simp [or_assoc]

theorem special_iff (tools : Bool) (c : Char) : special tools c = true ↔ tools = false ∧ (c = '/' ∨ c = '=') := by
  unfold special
  simp

theorem plain_iff (tools : Bool) (c : Char) : Plain tools c ↔ ¬ white c = true ∧ ¬ special tools c = true ∧ c ≠ '\'' ∧ c ≠ '"' := by
  rw [white_iff, special_iff]
  unfold Plain
  constructor
  · rintro ⟨h1, h2, h3, h4, h5, h6⟩
    refine ⟨?_, ?_, h4, h5⟩
    · rintro (h | h | h) <;> contradiction
    · rintro ⟨h, h' | h'⟩
      · exact (h6 h).1 h'
      · exact (h6 h).2 h'
  · rintro ⟨h1, h2, h4, h5⟩
    exact ⟨fun h => h1 (Or.inl h), fun h => h1 (Or.inr (Or.inl h)), fun h => h1 (Or.inr (Or.inr h)), h4, h5, fun h => ⟨fun h' => h2 ⟨h, Or.inl h'⟩, fun h' => h2 ⟨h, Or.inr h'⟩⟩⟩

theorem seg_piece {line a w b : Str} (h : line = a ++ w ++ b) : seg line ((a.length + 1 : Nat) : Int) ((a.length + w.length : Nat) : Int) = .val w := by
  have hl : line.length = a.length + w.length + b.length := by rw [h]; simp; omega
  rw [C25_seg, if_neg (by omega), chars_eq _ _ (by omega)]
  rw [show (((a.length + 1 : Nat) : Int) - 1).toNat = a.length by omega, show (((a.length + w.length : Nat) : Int) - ((a.length + 1 : Nat) : Int) + 1).toNat = w.length by omega, h]
  simp

theorem lineGo_reads (tools : Bool) (line : Str) : ∀ l : Str,
    (∀ pre t0 acc, line = pre ++ l → (pre = [] → l.head? ≠ some '!') → ∃ as, lineGo tools line l pre.length .start t0 acc = .val (acc ++ as) ∧ Reads tools (pre.length + 1) l as) ∧
    (∀ pre w acc, line = pre ++ w ++ l → w ≠ [] → (∀ c ∈ w, Plain tools c) →
      ∃ as, lineGo tools line l (pre.length + w.length) .tok (pre.length + 1) acc = .val (acc ++ as) ∧ Reads tools (pre.length + 1) (w ++ l) as) ∧
    (∀ pre w acc, line = pre ++ ['\''] ++ w ++ l → '\'' ∉ w →
      ∃ as, lineGo tools line l (pre.length + 1 + w.length) .squote (pre.length + 2) acc = .val (acc ++ as) ∧ Reads tools (pre.length + 1) ('\'' :: (w ++ l)) as) ∧
    (∀ pre w acc, line = pre ++ ['"'] ++ w ++ l → '"' ∉ w →
      ∃ as, lineGo tools line l (pre.length + 1 + w.length) .dquote (pre.length + 2) acc = .val (acc ++ as) ∧ Reads tools (pre.length + 1) ('"' :: (w ++ l)) as) := by
  intro l
  induction l with
  | nil =>
    refine ⟨?_, ?_, ?_, ?_⟩
    · intro pre t0 acc _ _
      exact ⟨[], by simp [lineGo], .nil⟩
    · intro pre w acc h hw hp
      refine ⟨[⟨pre.length + 1, w⟩], ?_, ?_⟩
      · rw [lineGo, if_neg (by decide), seg_piece h]
        rfl
      · exact .word hw hp (by simp) .nil
    · intro pre w acc h hq
      refine ⟨[⟨pre.length + 2, w⟩], ?_, ?_⟩
      · have := seg_piece (a := pre ++ ['\'']) (w := w) (b := []) (by simpa using h)
        simp only [List.length_append, List.length_cons, List.length_nil, Nat.zero_add] at this
        rw [lineGo, if_neg (by decide), show pre.length + 2 = pre.length + 1 + 1 by omega, this]
        rfl
      · rw [List.append_nil]
        exact .unended (Or.inl rfl) hq
    · intro pre w acc h hq
      refine ⟨[⟨pre.length + 2, w⟩], ?_, ?_⟩
      · have := seg_piece (a := pre ++ ['"']) (w := w) (b := []) (by simpa using h)
        simp only [List.length_append, List.length_cons, List.length_nil, Nat.zero_add] at this
        rw [lineGo, if_neg (by decide), show pre.length + 2 = pre.length + 1 + 1 by omega, this]
        rfl
      · rw [List.append_nil]
        exact .unended (Or.inr rfl) hq
  | cons c l ih =>
    obtain ⟨i1, i2, i3, i4⟩ := ih
    have j1 : ∀ pre p t0 acc, line = pre ++ l → pre ≠ [] → pre.length = p → ∃ as, lineGo tools line l p .start t0 acc = .val (acc ++ as) ∧ Reads tools (p + 1) l as := by
      rintro pre p t0 acc h1 h2 rfl
      exact i1 pre t0 acc h1 (fun hx => absurd hx h2)
    have start : ∀ pre t0 acc, line = pre ++ c :: l → (pre = [] → c ≠ '!') →
        ∃ as, lineGo tools line (c :: l) pre.length .start t0 acc = .val (acc ++ as) ∧ Reads tools (pre.length + 1) (c :: l) as := by
      intro pre t0 acc h hc
      have h' : line = (pre ++ [c]) ++ l := by rw [h]; simp
      have hne : ∀ {p : Prop}, pre ++ [c] = [] → p := fun hx => by simp at hx
      by_cases c1 : white c = true
      · obtain ⟨as, h1, h2⟩ := i1 (pre ++ [c]) t0 acc h' (fun hx => hne hx)
        refine ⟨as, ?_, .blank ((white_iff c).mp c1) (by simpa using h2)⟩
        rw [lineGo, if_pos c1]
        simpa using h1
      have c0 : ¬ (pre.length = 0 ∧ c = '!') := fun hx => hc (List.length_eq_zero_iff.mp hx.1) hx.2
      by_cases c2 : special tools c = true
      · obtain ⟨as, h1, h2⟩ := i1 (pre ++ [c]) t0 (acc ++ [⟨pre.length + 1, [c]⟩]) h' (fun hx => hne hx)
        obtain ⟨ht, hc⟩ := (special_iff tools c).mp c2
        refine ⟨⟨pre.length + 1, [c]⟩ :: as, ?_, .one ht hc (by simpa using h2)⟩
        rw [lineGo, if_neg c1, if_neg c0, if_pos c2]
        simpa using h1
      by_cases c3 : c = '\''
      · obtain ⟨as, h1, h2⟩ := i3 pre [] acc (by rw [h, c3]; simp) (by simp)
        refine ⟨as, ?_, by rw [c3]; simpa using h2⟩
        rw [lineGo, if_neg c1, if_neg c0, if_neg c2, if_pos c3]
        simpa using h1
      by_cases c4 : c = '"'
      · obtain ⟨as, h1, h2⟩ := i4 pre [] acc (by rw [h, c4]; simp) (by simp)
        refine ⟨as, ?_, by rw [c4]; simpa using h2⟩
        rw [lineGo, if_neg c1, if_neg c0, if_neg c2, if_neg c3, if_pos c4]
        simpa using h1
      obtain ⟨as, h1, h2⟩ := i2 pre [c] acc h' (by simp) (by
        intro x hx
        rw [List.mem_singleton.mp hx]
        exact (plain_iff tools c).mpr ⟨c1, c2, c3, c4⟩)
      refine ⟨as, ?_, by simpa using h2⟩
      rw [lineGo, if_neg c1, if_neg c0, if_neg c2, if_neg c3, if_neg c4]
      simpa using h1
    refine ⟨?_, ?_, ?_, ?_⟩
    · intro pre t0 acc h hx
      exact start pre t0 acc h (fun e hc => hx e (by simp [hc]))
    · intro pre w acc h hw hp
      have hs := seg_piece h
      have h' : line = (pre ++ w ++ [c]) ++ l := by rw [h]; simp
      have hne : ∀ {p : Prop}, pre ++ w ++ [c] = [] → p := fun hx => by simp at hx
      by_cases c1 : white c = true
      · obtain ⟨as, h1, h2⟩ := j1 (pre ++ w ++ [c]) (pre.length + w.length + 1) (pre.length + 1) (acc ++ [⟨pre.length + 1, w⟩]) h' (by simp) (by simp; omega)
        refine ⟨⟨pre.length + 1, w⟩ :: as, ?_, .word hw hp (fun x hx => ?_) (.blank ((white_iff c).mp c1) ?_)⟩
        · rw [lineGo, if_pos c1, hs]
          simpa using h1
        · simp at hx
          rw [← hx, plain_iff]
          exact fun hx => hx.1 c1
        · rw [show pre.length + 1 + w.length = pre.length + w.length + 1 by omega]
          exact h2
      by_cases c2 : special tools c = true
      · obtain ⟨as, h1, h2⟩ := j1 (pre ++ w ++ [c]) (pre.length + w.length + 1) (pre.length + 1) (acc ++ [⟨pre.length + 1, w⟩, ⟨pre.length + w.length + 1, [c]⟩]) h' (by simp) (by simp; omega)
        obtain ⟨ht, hc⟩ := (special_iff tools c).mp c2
        refine ⟨⟨pre.length + 1, w⟩ :: ⟨pre.length + w.length + 1, [c]⟩ :: as, ?_, .word hw hp (fun x hx => ?_) ?_⟩
        · rw [lineGo, if_neg c1, if_pos c2, hs]
          simpa using h1
        · simp at hx
          rw [← hx, plain_iff]
          exact fun hx => hx.2.1 c2
        · rw [show pre.length + 1 + w.length = pre.length + w.length + 1 by omega]
          exact .one ht hc (by simpa using h2)
      by_cases c3 : c = '\''
      · obtain ⟨as, h1, h2⟩ := i3 (pre ++ w) [] (acc ++ [⟨pre.length + 1, w⟩]) (by rw [h, c3]; simp) (by simp)
        refine ⟨⟨pre.length + 1, w⟩ :: as, ?_, .word hw hp (fun x hx => ?_) ?_⟩
        · rw [lineGo, if_neg c1, if_neg c2, if_pos c3, hs]
          simpa using h1
        · simp at hx
          rw [← hx, plain_iff]
          exact fun hx => hx.2.2.1 c3
        · rw [c3]
          simpa [Nat.add_right_comm] using h2
      by_cases c4 : c = '"'
      · obtain ⟨as, h1, h2⟩ := i4 (pre ++ w) [] (acc ++ [⟨pre.length + 1, w⟩]) (by rw [h, c4]; simp) (by simp)
        refine ⟨⟨pre.length + 1, w⟩ :: as, ?_, .word hw hp (fun x hx => ?_) ?_⟩
        · rw [lineGo, if_neg c1, if_neg c2, if_neg c3, if_pos c4, hs]
          simpa using h1
        · simp at hx
          rw [← hx, plain_iff]
          exact fun hx => hx.2.2.2 c4
        · rw [c4]
          simpa [Nat.add_right_comm] using h2
      obtain ⟨as, h1, h2⟩ := i2 pre (w ++ [c]) acc (by rw [h]; simp) (by simp) (by
        intro x hx
        rcases List.mem_append.mp hx with hx | hx
        · exact hp x hx
        rw [List.mem_singleton.mp hx]
        exact (plain_iff tools c).mpr ⟨c1, c2, c3, c4⟩)
      refine ⟨as, ?_, by simpa using h2⟩
      rw [lineGo, if_neg c1, if_neg c2, if_neg c3, if_neg c4]
      simpa [Nat.add_assoc] using h1
    · intro pre w acc h hq
      by_cases c3 : c = '\''
      · have hs := seg_piece (a := pre ++ ['\'']) (w := w) (b := c :: l) (by simpa using h)
        simp only [List.length_append, List.length_cons, List.length_nil, Nat.zero_add] at hs
        obtain ⟨as, h1, h2⟩ := j1 (pre ++ ['\''] ++ w ++ [c]) (pre.length + 1 + w.length + 1) (pre.length + 2) (acc ++ [⟨pre.length + 2, w⟩]) (by rw [h]; simp) (by simp) (by simp; omega)
        refine ⟨⟨pre.length + 2, w⟩ :: as, ?_, ?_⟩
        · rw [lineGo, if_pos c3, show pre.length + 2 = pre.length + 1 + 1 by omega, hs]
          simpa using h1
        · rw [c3]
          refine .quoted (Or.inl rfl) hq ?_
          exact h2
      · obtain ⟨as, h1, h2⟩ := i3 pre (w ++ [c]) acc (by rw [h]; simp) (by
          intro hx
          rcases List.mem_append.mp hx with hx | hx
          · exact hq hx
          · exact c3 (List.mem_singleton.mp hx).symm)
        refine ⟨as, ?_, by simpa using h2⟩
        rw [lineGo, if_neg c3]
        simpa [Nat.add_assoc] using h1
    · intro pre w acc h hq
      by_cases c3 : c = '"'
      · have hs := seg_piece (a := pre ++ ['"']) (w := w) (b := c :: l) (by simpa using h)
        simp only [List.length_append, List.length_cons, List.length_nil, Nat.zero_add] at hs
        obtain ⟨as, h1, h2⟩ := j1 (pre ++ ['"'] ++ w ++ [c]) (pre.length + 1 + w.length + 1) (pre.length + 2) (acc ++ [⟨pre.length + 2, w⟩]) (by rw [h]; simp) (by simp) (by simp; omega)
        refine ⟨⟨pre.length + 2, w⟩ :: as, ?_, ?_⟩
        · rw [lineGo, if_pos c3, show pre.length + 2 = pre.length + 1 + 1 by omega, hs]
          simpa using h1
        · rw [c3]
          refine .quoted (Or.inr rfl) hq ?_
          exact h2
      · obtain ⟨as, h1, h2⟩ := i4 pre (w ++ [c]) acc (by rw [h]; simp) (by
          intro hx
          rcases List.mem_append.mp hx with hx | hx
          · exact hq hx
          · exact c3 (List.mem_singleton.mp hx).symm)
        refine ⟨as, ?_, by simpa using h2⟩
        rw [lineGo, if_neg c3]
        simpa [Nat.add_assoc] using h1

end MM.Cmdl
