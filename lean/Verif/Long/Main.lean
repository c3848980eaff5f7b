import Verif.Long.Text
/-!
# C61: what `printLongLine` prints
-/
namespace MM.Long
open MM.Vstr MM.Lex MM.Veri

/-- The break strings used in the program: break anywhere, at spaces, at spaces with right-justified continuation lines, at spaces outside of quotes, at spaces
with a narrower margin, for compressed proofs. -/
def modes : List Str := [[], [' '], [Char.ofNat 1], ['"'], ['\\'], ['&', ' ']]

/-- What is broken: in the quote mode the spaces in quotes are hidden. -/
def shown (bm line : Str) : Str := if bm.head? = some '"' then quoteSpaces none false line else line

/-- What stands before the continuation lines -/
def nextOf (next : Str) : Str := if next.head? = some '~' then [' '] else next

theorem mode_margin {next bm : Str} (hbm : bm ∈ modes) (ht : ¬ (next.head? = some '~' ∧ bm = ['\\'])) : (cfgOf next bm).margin ≤ 1 := by
  unfold Cfg.margin cfgOf
  simp only [modes, List.mem_cons, List.not_mem_nil, or_false] at hbm
  by_cases hn : next.head? = some '~'
  · rcases hbm with rfl | rfl | rfl | rfl | rfl | rfl <;> simp [hn] at ht ⊢
  · rcases hbm with rfl | rfl | rfl | rfl | rfl | rfl <;> simp [hn]

theorem mode_set {next bm line : Str} (hbm : bm ∈ modes) (hamp : bm = ['&', ' '] → '&' ∉ line) (hnul : NUL ∉ line) : SetOk (cfgOf next bm) (shown bm line) := by
  have hmem : ∀ d ∈ shown bm line, d = QSP ∨ d ∈ line := by
    intro d hd
    unfold shown at hd
    split at hd
    · exact quote_mem line _ _ d hd
    · exact Or.inr hd
  refine ⟨fun h => (hmem _ h).elim (by decide) hnul, ?_⟩
  intro d hd
  unfold Cfg.set cfgOf at hd
  simp only [modes, List.mem_cons, List.not_mem_nil, or_false] at hbm
  rcases hbm with rfl | rfl | rfl | rfl | rfl | rfl <;> simp at hd
  · exact Or.inl hd
  · exact Or.inl hd
  · exact Or.inl hd
  · exact Or.inl hd
  · rcases hd with rfl | rfl
    · right
      exact hamp rfl
    · exact Or.inl rfl

/-- **C61**.  `printLongLine` prints every line of the caller broken as specified, and no internal error stops it.  Unless a piece is too long to be broken, no
line is longer than the screen width. -/
theorem C61_wrapped {width : Int} {line next bm : Str} (hbm : bm ∈ modes) (hamp : bm = ['&', ' '] → '&' ∉ line) (hnul : NUL ∉ line)
    (ht : ¬ (next.head? = some '~' ∧ (bm = ['\\'] ∨ bm = [Char.ofNat 1]))) (hW : 5 ≤ width) (hne : line ≠ []) :
    ∃ lss : List (List Str), printLongLine width line next bm = .val (lss.flatten.map unquote) ∧
      List.Forall₂ (fun l ls => Wrapped (cfgOf next bm) width (nextOf next) true l ls ∧
        (Short (cfgOf next bm) (width - (cfgOf next bm).margin + 1 - cut width (nextOf next)).toNat l → ∀ x ∈ ls, (x.length : Int) ≤ width))
        (linesOf (shown bm line)) lss := by
  have hm := mode_margin (next := next) hbm fun h => ht ⟨h.1, Or.inl h.2⟩
  have htt : ¬ ((cfgOf next bm).tilde = true ∧ (cfgOf next bm).tree = true) := by
    rintro ⟨h1, h2⟩
    unfold cfgOf at h1 h2
    simp only [modes, List.mem_cons, List.not_mem_nil, or_false] at hbm
    simp at h1
    rcases hbm with rfl | rfl | rfl | rfl | rfl | rfl <;> simp at h2
    all_goals exact absurd ⟨h1, Or.inr rfl⟩ ht
  obtain ⟨lss, h1, h2⟩ := multiLoop_eq hm htt (W0 := width) (next0 := nextOf next) (by omega) ((shown bm line).length + 1) (shown bm line) (nextOf next) []
    (by omega) (mode_set hbm hamp hnul) ⟨(nextOf next).length + width.toNat, by omega, by rw [List.take_of_length_le (by omega)]⟩
  refine ⟨lss, ?_, h2⟩
  unfold printLongLine
  rw [if_neg hne]
  exact h1

theorem shown_fn {α : Type} {f : Str → List α} (hf : WordFn f) (bm line : Str) : f (shown bm line) = f line := by
  unfold shown
  split
  · rw [← hf.unquote (quoteSpaces none false line), quote_map, hf.unquote]
  · rfl

theorem white_tilde {next : Str} (hn : White next) : next.head? ≠ some '~' := by
  intro h
  have := hn '~' (List.mem_of_head? h)
  revert this; decide

theorem quote_ne {d : Char} (h : d ≠ '"') (p : Option Char) (q : Bool) (t : Str) :
    quoteSpaces p q (d :: t) = (if d = ' ' ∧ q = true then QSP else d) :: quoteSpaces (some d) q t := by
  rw [quoteSpaces]
  simp [h]

theorem quote_q {p : Option Char} (h : p ≠ none) (q : Bool) (t : Str) :
    quoteSpaces p q ('"' :: t) = '"' :: quoteSpaces (some '"') (decide (q = false ∧ p = some '=')) t := by
  rw [quoteSpaces]
  simp [h]

theorem quote_run : ∀ (t r : Str) (p : Option Char) (q : Bool), '"' ∉ t →
    quoteSpaces p q (t ++ r) = (if q then t.map fun d => if d = ' ' then QSP else d else t) ++ quoteSpaces (if t = [] then p else t.getLast?) q r
  | [], r, p, q, _ => by cases q <;> simp
  | d :: t, r, p, q, h => by
    have h1 : d ≠ '"' := fun e => h (by simp [e])
    have h2 : '"' ∉ t := fun e => h (by simp [e])
    rw [List.cons_append, quote_ne h1, quote_run t r _ q h2]
    have e : (if t = [] then some d else t.getLast?) = (d :: t).getLast? := by
      cases t with
      | nil => rfl
      | cons a t => simp [List.getLast?_cons_cons]
    rw [e]
    cases q <;> simp

/-- **C61**.  In the quote mode the spaces between `="` and the next `"` are hidden from the search for a place to break the line, and only they. -/
theorem C61_quotes (segs : List (Str × Str)) (last : Str) (h : ∀ x ∈ segs, '"' ∉ x.1 ∧ '"' ∉ x.2) (hlast : '"' ∉ last) :
    shown ['"'] (segs.flatMap (fun x => x.1 ++ ['=', '"'] ++ x.2 ++ ['"']) ++ last) =
      segs.flatMap (fun x => x.1 ++ ['=', '"'] ++ (x.2.map fun d => if d = ' ' then QSP else d) ++ ['"']) ++ last := by
  have key : ∀ (segs : List (Str × Str)) (p : Option Char), (∀ x ∈ segs, '"' ∉ x.1 ∧ '"' ∉ x.2) →
      quoteSpaces p false (segs.flatMap (fun x => x.1 ++ ['=', '"'] ++ x.2 ++ ['"']) ++ last) =
        segs.flatMap (fun x => x.1 ++ ['=', '"'] ++ (x.2.map fun d => if d = ' ' then QSP else d) ++ ['"']) ++ last := by
    intro segs
    induction segs with
    | nil =>
      intro p _
      have := quote_run last [] p false hlast
      rw [List.append_nil] at this
      simpa [quoteSpaces] using this
    | cons x segs ih =>
      intro p h
      obtain ⟨h1, h2⟩ := h x (by simp)
      have ih' := fun p => ih p fun y hy => h y (by simp [hy])
      have e : (x :: segs).flatMap (fun x => x.1 ++ ['=', '"'] ++ x.2 ++ ['"']) ++ last =
          (x.1 ++ ['=']) ++ ('"' :: (x.2 ++ ('"' :: (segs.flatMap (fun x => x.1 ++ ['=', '"'] ++ x.2 ++ ['"']) ++ last)))) := by simp
      have h3 : '"' ∉ x.1 ++ ['='] := by simp [h1]
      have h4 : (if x.2 = [] then some '"' else x.2.getLast?) ≠ none := by
        split
        · simp
        · simpa using (by assumption)
      rw [e, quote_run _ _ _ _ h3, if_neg (by simp), if_neg (by simp), List.getLast?_concat, quote_q (by simp),
        show decide (false = false ∧ some '=' = some '=') = true by decide, quote_run _ _ _ _ h2, if_pos rfl, quote_q h4,
        show decide (true = false ∧ (if x.2 = [] then some '"' else x.2.getLast?) = some '=') = false by simp, ih']
      simp
  unfold shown
  rw [if_pos (by simp)]
  exact key segs none h

/-- **C61**.  Where the lines are broken at spaces and the continuation lines are indented with white space, the words of the output are the words of the input
(in the sense of a source text, and in the sense of a proof). -/
theorem C61_words {α : Type} {f : Str → List α} (hf : WordFn f) {width : Int} {line next bm : Str} (hbm : bm ∈ [[' '], [Char.ofNat 1], ['"'], ['\\']]) (hnul : NUL ∉ line)
    (hn : White next) (hW : 5 ≤ width) : ∃ ls, printLongLine width line next bm = .val ls ∧ f (printed ls) = f line := by
  by_cases hne : line = []
  · subst hne
    refine ⟨[[]], ?_, ?_⟩
    · unfold printLongLine
      rw [if_pos rfl, print2_eq (by simp; omega), Out.bind_val]
      rfl
    · rw [hf.printed]; simp [hf.nil]
  have hmode : bm ∈ modes := by
    simp only [modes, List.mem_cons, List.not_mem_nil, or_false] at hbm ⊢
    rcases hbm with h | h | h | h <;> simp [h]
  have h8 : bm ≠ ['&', ' '] := by
    rintro rfl
    revert hbm; decide
  obtain ⟨lss, h1, h2⟩ := C61_wrapped (next := next) hmode (fun h => absurd h h8) hnul (fun h => absurd h.1 (white_tilde hn)) hW hne
  refine ⟨_, h1, ?_⟩
  have ht : (cfgOf next bm).tilde = false := by
    unfold cfgOf
    simpa using white_tilde hn
  have hN : nextOf next = next := by unfold nextOf; rw [if_neg (white_tilde hn)]
  rw [hf.printed, flatMap_eq_flatten f hf.unquote (fun l ls h => ?_) h2, ← hf.lines, shown_fn hf]
  refine wrapped_words hf ?_ ?_ ht (by rw [hN]; exact hn) h.1
  · simp only [List.mem_cons, List.not_mem_nil, or_false] at hbm
    unfold cfgOf
    rcases hbm with h | h | h | h <;> simp [h]
  · simp only [List.mem_cons, List.not_mem_nil, or_false] at hbm
    unfold cfgOf
    rcases hbm with h | h | h | h <;> simp [h]

/-- **C61**.  In every mode (without `~`), exactly the printable characters of the input are printed, in order. -/
theorem C61_characters {width : Int} {line next bm : Str} (hbm : bm ∈ modes) (hamp : bm = ['&', ' '] → '&' ∉ line) (hnul : NUL ∉ line) (hn : White next) (hW : 5 ≤ width) :
    ∃ ls, printLongLine width line next bm = .val ls ∧ (printed ls).filter printable = line.filter printable := by
  by_cases hne : line = []
  · subst hne
    refine ⟨[[]], ?_, rfl⟩
    unfold printLongLine
    rw [if_pos rfl, print2_eq (by simp; omega), Out.bind_val]
    rfl
  obtain ⟨lss, h1, h2⟩ := C61_wrapped (next := next) hbm hamp hnul (fun h => absurd h.1 (white_tilde hn)) hW hne
  refine ⟨_, h1, ?_⟩
  have ht : (cfgOf next bm).tilde = false := by
    unfold cfgOf
    simpa using white_tilde hn
  have hN : nextOf next = next := by unfold nextOf; rw [if_neg (white_tilde hn)]
  have e1 := graph_fn.printed (lss.flatten.map unquote)
  rw [flatMap_eq_flatten _ graph_fn.unquote (fun l ls h => wrapped_graph ht (by rw [hN]; exact hn) h.1) h2, ← graph_fn.lines, shown_fn graph_fn] at e1
  exact e1

theorem mem_flatten_map {R : Str → List Str → Prop} : ∀ {xs : List Str} {lss : List (List Str)}, List.Forall₂ R xs lss → ∀ x ∈ lss.flatten.map unquote,
    ∃ l ∈ xs, ∃ ls y, R l ls ∧ y ∈ ls ∧ x = unquote y
  | _, _, .nil => fun x hx => by simp at hx
  | _ :: _, ls :: lss, .cons h t => by
    intro x hx
    rw [List.flatten_cons, List.map_append, List.mem_append] at hx
    rcases hx with hx | hx
    · obtain ⟨y, hy, rfl⟩ := List.mem_map.1 hx
      exact ⟨_, by simp, _, _, h, hy, rfl⟩
    · obtain ⟨l, h1, ls', y, h2⟩ := mem_flatten_map t x hx
      exact ⟨l, by simp [h1], ls', y, h2⟩

/-- **C61**.  No line of the output is longer than the screen width, unless a line of the input has a piece that is too long and cannot be broken. -/
theorem C61_width {width : Int} {line next bm : Str} (hbm : bm ∈ modes) (hamp : bm = ['&', ' '] → '&' ∉ line) (hnul : NUL ∉ line)
    (ht : ¬ (next.head? = some '~' ∧ (bm = ['\\'] ∨ bm = [Char.ofNat 1]))) (hW : 5 ≤ width)
    (hs : ∀ l ∈ linesOf (shown bm line), Short (cfgOf next bm) (width - (cfgOf next bm).margin + 1 - cut width (nextOf next)).toNat l) :
    ∃ ls, printLongLine width line next bm = .val ls ∧ ∀ x ∈ ls, (x.length : Int) ≤ width := by
  by_cases hne : line = []
  · subst hne
    refine ⟨[[]], ?_, by simp; omega⟩
    unfold printLongLine
    rw [if_pos rfl, print2_eq (by simp; omega), Out.bind_val]
    rfl
  obtain ⟨lss, h1, h2⟩ := C61_wrapped hbm hamp hnul ht hW hne
  refine ⟨_, h1, ?_⟩
  intro x hx
  obtain ⟨l, i1, ls, y, i2, i3, rfl⟩ := mem_flatten_map h2 x hx
  have := i2.2 (hs l i1) y i3
  unfold unquote
  rw [List.length_map]
  exact this

end MM.Long
