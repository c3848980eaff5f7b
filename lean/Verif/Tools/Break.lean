import Verif.Tools.Subst
/-!
# C82: BREAK and BUILD
-/
namespace MM.Tools
open MM.Vstr MM.Date

/-- `ws` are the words of `s`: what is between the spaces and tabs. -/
inductive Words : Str → List Str → Prop
  | none {s} : (∀ c ∈ s, isBlank c = true) → Words s []
  | word {b w s ws} : (∀ c ∈ b, isBlank c = true) → w ≠ [] → (∀ c ∈ w, isBlank c = false) → (∀ c ∈ s.head?, isBlank c = true) → Words s ws → Words (b ++ w ++ s) (w :: ws)

theorem Words.blank {s : Str} {ws : List Str} (h : Words s ws) {c : Char} (hc : isBlank c = true) : Words (c :: s) ws := by
  cases h with
  | none h => exact .none (by simpa [hc] using h)
  | @word b w s ws h1 h2 h3 h4 h5 => exact .word (b := c :: b) (by simpa [hc] using h1) h2 h3 h4 h5

theorem Words.empty {ws : List Str} (h : Words [] ws) : ws = [] := by
  generalize he : ([] : Str) = s at h
  cases h with
  | none => rfl
  | @word b w s ws h1 h2 h3 h4 h5 => simp_all

theorem dropWhile_all {s : Str} (h : ∀ c ∈ s, isBlank c = true) : s.dropWhile isBlank = [] := by
  induction s with
  | nil => rfl
  | cons c s ih => rw [List.dropWhile_cons, if_pos (h c (by simp)), ih fun d hd => h d (by simp [hd])]

/-! ## The words as the states of a reader -/

def step (st : Str × List Str) (c : Char) : Str × List Str := if isBlank c then ([], if st.1 = [] then st.2 else st.2 ++ [st.1]) else (st.1 ++ [c], st.2)

def fin (st : Str × List Str) : List Str := if st.1 = [] then st.2 else st.2 ++ [st.1]

theorem reader (s : Str) : ∀ (cur : Str) (done : List Str), (∀ c ∈ cur, isBlank c = false) → ∃ ws, fin (s.foldl step (cur, done)) = done ++ ws ∧ Words (cur ++ s) ws := by
  induction s with
  | nil =>
    intro cur done h
    by_cases hc : cur = []
    · subst hc
      exact ⟨[], by simp [fin], .none (by simp)⟩
    · refine ⟨[cur], by simp [fin, hc], ?_⟩
      have := Words.word (b := []) (w := cur) (s := []) (ws := []) (by simp) hc h (by simp) (.none (by simp))
      simpa using this
  | cons c s ih =>
    intro cur done h
    rw [List.foldl_cons]
    by_cases hb : isBlank c = true
    · by_cases hc : cur = []
      · subst hc
        obtain ⟨ws, e, hw⟩ := ih [] done (by simp)
        refine ⟨ws, ?_, hw.blank hb⟩
        rw [← e, step, if_pos hb]
        rfl
      · obtain ⟨ws, e, hw⟩ := ih [] (done ++ [cur]) (by simp)
        refine ⟨cur :: ws, ?_, ?_⟩
        · rw [step, if_pos hb]
          simp only [if_neg hc]
          rw [e, List.append_assoc]
          rfl
        · have := Words.word (b := []) (w := cur) (s := c :: s) (ws := ws) (by simp) hc h (by simpa using hb) (hw.blank hb)
          simpa using this
    · obtain ⟨ws, e, hw⟩ := ih (cur ++ [c]) done (by
        intro d hd
        rw [List.mem_append, List.mem_singleton] at hd
        rcases hd with hd | rfl
        · exact h d hd
        · simpa using hb)
      refine ⟨ws, ?_, by simpa using hw⟩
      rw [← e, step, if_neg hb]

theorem fold_blanks {b : Str} (h : ∀ c ∈ b, isBlank c = true) (done : List Str) : b.foldl step ([], done) = ([], done) := by
  induction b with
  | nil => rfl
  | cons c b ih =>
    rw [List.foldl_cons, step, if_pos (h c (by simp))]
    exact ih fun d hd => h d (by simp [hd])

theorem fold_word {w : Str} (h : ∀ c ∈ w, isBlank c = false) : ∀ (cur : Str) (done : List Str), w.foldl step (cur, done) = (cur ++ w, done) := by
  induction w with
  | nil => intro cur done; simp
  | cons c w ih =>
    intro cur done
    rw [List.foldl_cons, step, if_neg (by rw [h c (by simp)]; simp), ih fun d hd => h d (by simp [hd])]
    simp

theorem Words.reads {s : Str} {ws : List Str} (h : Words s ws) : ∀ done, fin (s.foldl step ([], done)) = done ++ ws := by
  induction h with
  | none h => intro done; rw [fold_blanks h]; simp [fin]
  | @word b w s ws h1 h2 h3 h4 h5 ih =>
    intro done
    rw [List.foldl_append, List.foldl_append, fold_blanks h1, fold_word h3, List.nil_append]
    cases s with
    | nil => rw [h5.empty]; simp [fin, h2]
    | cons c s =>
      have hc := h4 c (by simp)
      have e : (c :: s).foldl step (w, done) = (c :: s).foldl step ([], done ++ [w]) := by
        rw [List.foldl_cons, List.foldl_cons]
        congr 1
        simp [step, hc, h2]
      rw [e, ih]
      simp

theorem words_iff {s : Str} {ws : List Str} : Words s ws ↔ fin (s.foldl step ([], [])) = ws := by
  constructor
  · intro h; simpa using h.reads []
  · rintro rfl
    obtain ⟨ws, e, h⟩ := reader s [] [] (by simp)
    rw [e]
    simpa using h

/-! ## What `edit` leaves -/

theorem trimEnd_append {x y : Str} (h : ∀ c ∈ x.getLast?, isBlank c = false) : trimEnd isBlank (x ++ y) = x ++ trimEnd isBlank y := by
  unfold trimEnd
  rw [List.reverse_append, List.dropWhile_append]
  split
  · rename_i hy
    have hx : x.reverse.dropWhile isBlank = x.reverse := by
      cases hr : x.reverse with
      | nil => rfl
      | cons c t =>
        have : x.getLast? = some c := by rw [← List.head?_reverse, hr]; rfl
        rw [List.dropWhile_cons, if_neg (by rw [h c (by rw [this]; rfl)]; simp)]
    rw [hx]
    have : y.reverse.dropWhile isBlank = [] := by simpa [List.isEmpty_iff] using hy
    rw [this]
    simp
  · simp

theorem reduce_word {w : Str} (hw : ∀ c ∈ w, isBlank c = false) (t : Str) : w ≠ [] → ∀ l, reduce l (w ++ t) = w ++ reduce false t := by
  induction w with
  | nil => intro h; exact absurd rfl h
  | cons c w ih =>
    intro _ l
    rw [List.cons_append, reduce, if_neg (by rw [hw c (by simp)]; simp)]
    cases w with
    | nil => rfl
    | cons d w => rw [ih (fun e he => hw e (by simp [he])) (by simp)]; rfl

theorem reduce_blanks {b : Str} (h : ∀ c ∈ b, isBlank c = true) {w : Str} (hw : ∀ c ∈ w, isBlank c = false) (hn : w ≠ []) (t : Str) :
    reduce true (b ++ (w ++ t)) = w ++ reduce false t := by
  induction b with
  | nil => exact reduce_word hw t hn true
  | cons c b ih =>
    rw [List.cons_append, reduce, if_pos (h c (by simp)), if_pos rfl]
    exact ih fun d hd => h d (by simp [hd])

/-- The words with a space between them. -/
def spaced1 (ws : List Str) : Str := [' '].intercalate ws

theorem spaced1_cons {w : Str} {ws : List Str} (h : ws ≠ []) : spaced1 (w :: ws) = w ++ ' ' :: spaced1 ws := by
  cases ws with
  | nil => exact absurd rfl h
  | cons x ws => simp [spaced1, List.intercalate, List.intersperse]

theorem reduce_words {s : Str} {ws : List Str} (h : Words s ws) :
    reduce false (trimEnd isBlank s) = if ws = [] then [] else (if (s.head?.map isBlank) = some true then ' ' :: spaced1 ws else spaced1 ws) := by
  induction h with
  | @none s h =>
    have : trimEnd isBlank s = [] := by
      unfold trimEnd
      rw [dropWhile_all (fun c hc => h c (List.mem_reverse.mp hc))]
      rfl
    rw [this]
    rfl
  | @word b w s ws h1 h2 h3 h4 h5 ih =>
    rw [trimEnd_append (by
      intro c hc
      rw [List.getLast?_append_of_ne_nil _ h2] at hc
      exact h3 c (List.mem_of_mem_getLast? hc))]
    have e : w ++ reduce false (trimEnd isBlank s) = spaced1 (w :: ws) := by
      rw [ih]
      by_cases hws : ws = []
      · subst hws
        simp [spaced1, List.intercalate]
      · rw [if_neg hws, spaced1_cons hws]
        cases s with
        | nil => exact absurd h5.empty hws
        | cons c s =>
          rw [if_pos (by simpa using h4 c (by simp))]
    rw [if_neg (by simp), List.append_assoc]
    cases b with
    | nil =>
      rw [List.nil_append, reduce_word h3 _ h2, e, if_neg]
      cases w with
      | nil => exact absurd rfl h2
      | cons c w => simp [h3 c (by simp)]
    | cons c b =>
      rw [List.cons_append, reduce, if_pos (h1 c (by simp)), if_neg (by simp), reduce_blanks (fun d hd => h1 d (by simp [hd])) h3 h2, e, if_pos (by simp [h1 c (by simp)])]

theorem Words.dropWhile {s : Str} {ws : List Str} (h : Words s ws) : Words (s.dropWhile isBlank) ws ∧ ((s.dropWhile isBlank).head?.map isBlank) ≠ some true := by
  cases h with
  | @none s h =>
    rw [dropWhile_all h]
    exact ⟨.none (by simp), by simp⟩
  | @word b w s ws h1 h2 h3 h4 h5 =>
    have e : (b ++ w ++ s).dropWhile isBlank = w ++ s := by
      cases w with
      | nil => exact absurd rfl h2
      | cons c w =>
        rw [List.append_assoc, List.dropWhile_append_of_pos h1, List.cons_append, List.dropWhile_cons, if_neg (by rw [h3 c (by simp)]; simp)]
    rw [e]
    refine ⟨.word (b := []) (by simp) h2 h3 h4 h5, ?_⟩
    cases w with
    | nil => exact absurd rfl h2
    | cons c w => simp [h3 c (by simp)]

theorem edit_words {s : Str} {ws : List Str} (hn : NoNul s) (h : Words s ws) : editBase (8 + 16 + 128) s = spaced1 ws := by
  show reduce false (trimEnd isBlank (editLoop 152 false (s.dropWhile isBlank))) = _
  have e : editLoop 152 false (s.dropWhile isBlank) = s.dropWhile isBlank := by
    rw [editLoop_noquote (by decide)]
    apply filterMap_id
    intro c hc
    have e : editChar 152 c = if c.toNat = 0 then none else some c := rfl
    rw [e, if_neg (hn c ((List.dropWhile_sublist _).subset hc))]
  rw [e, reduce_words h.dropWhile.1, if_neg h.dropWhile.2]
  split
  · rename_i h; subst h; rfl
  · rfl

/-! ## The loop of BREAK -/

/-- Spaces around the characters that are words. -/
def spaced (spec : Str) (l : Str) : Str := l.flatMap fun c => if c ∈ spec then [' ', c, ' '] else [c]

theorem mid_one {x y : Str} {c : Char} : mid (x ++ [c] ++ y) ((x.length : Nat) + 1 : Nat) 1 = .val [c] := by
  have e1 : ¬ ((((x.length + 1 : Nat) : Int)) < 1) := by omega
  have e2 : ((x.length + 1 : Nat) : Int) - 1 = (x.length : Nat) := by omega
  have e3 : ¬ ((1 : Int) > 0 ∧ ((x.length : Nat) : Int) > (x ++ [c] ++ y).length) := by simp; omega
  unfold mid
  dsimp only
  rw [if_neg e1, if_neg (show ¬ ((1 : Int) < 0) by omega), e2, if_neg e3]
  simp

theorem breakChar_spec (c : Char) : ∀ (f : Nat) (d s : Str), s.length < f → breakChar c f (d ++ s) d.length = .val (d ++ spaced [c] s)
  | 0, d, s, h => absurd h (Nat.not_lt_zero _)
  | f + 1, d, s, h => by
    rw [breakChar]
    rcases instr_cases (d ++ s) (m := [c]) (by simp) (d.length + 1) with ⟨e, hn⟩ | ⟨x, y, hf, e⟩
    · have e : instr ((d.length : Int) + 1) (d ++ s) [c] = 0 := e
      rw [e, if_pos rfl]
      have hc : c ∉ s := by
        intro hm
        obtain ⟨a, b, rfl⟩ := List.append_of_mem hm
        exact hn (d.length + a.length + 1) (by omega) ⟨d ++ a, b, by simp, by simp⟩
      congr 2
      unfold spaced
      have : ∀ (t : Str), c ∉ t → t.flatMap (fun x => if x ∈ [c] then [' ', x, ' '] else [x]) = t := by
        intro t ht
        induction t with
        | nil => rfl
        | cons a t ih =>
          rw [List.flatMap_cons, ih (fun h => ht (by simp [h])), if_neg (by intro h; exact ht (by simp [List.mem_singleton.mp h]))]
          rfl
      exact (this s hc).symm
    · have e : instr ((d.length : Int) + 1) (d ++ s) [c] = x.length + 1 := e
      have hfr := hf.from_
      have h1 : d <+: x := by
        have : d <+: x ++ ([c] ++ y) := ⟨s, by rw [hf.eq]; simp⟩
        exact List.prefix_of_prefix_length_le this (List.prefix_append x _) (by omega)
      obtain ⟨a, rfl⟩ := h1
      have hs : s = a ++ [c] ++ y := by
        have := hf.eq
        rw [List.append_assoc, List.append_assoc] at this
        rw [List.append_cancel_left this]
        simp
      have ha : c ∉ a := by
        intro hm
        obtain ⟨a1, a2, rfl⟩ := List.append_of_mem hm
        exact hf.first (d.length + a1.length + 1) (by omega) (by simp) ⟨d ++ a1, a2 ++ [c] ++ y, by rw [hs]; simp, by simp⟩
      have em : mid (d ++ s) ((d ++ a).length + 1 : Nat) 1 = .val [c] := by rw [hf.eq]; exact mid_one
      rw [e, if_neg (by omega), show (((d ++ a).length + 1 : Nat) : Int) - 1 = ((d ++ a).length : Nat) by omega, left_take, Out.bind_val, em, Out.bind_val,
        right_drop, Out.bind_val]
      have e1 : (d ++ s).take (d ++ a).length = d ++ a := by rw [hf.eq, List.append_assoc, List.take_left]
      have e2 : (d ++ s).drop ((d ++ a).length + 1) = y := by
        rw [hf.eq, show (d ++ a).length + 1 = (d ++ a ++ [c]).length by simp; omega, List.drop_left]
      rw [e1, e2]
      have hy : y.length < f := by
        rw [hs] at h
        simp at h
        omega
      have ih := breakChar_spec c f (d ++ a ++ [' '] ++ [c] ++ [' ']) y hy
      rw [show (((d ++ a).length + 1 : Nat) : Int) + 2 = ((d ++ a ++ [' '] ++ [c] ++ [' ']).length : Nat) by simp; omega, ih]
      have : ∀ (t : Str), c ∉ t → spaced [c] t = t := by
        intro t ht
        induction t with
        | nil => rfl
        | cons a t ih =>
          unfold spaced at ih ⊢
          rw [List.flatMap_cons, ih (fun h => ht (by simp [h])), if_neg (by intro h; exact ht (by simp [List.mem_singleton.mp h]))]
          rfl
      have h2 : spaced [c] s = a ++ [' ', c, ' '] ++ spaced [c] y := by
        rw [hs]
        have := this a ha
        unfold spaced at this ⊢
        rw [List.flatMap_append, List.flatMap_append, this]
        simp
      rw [h2]
      simp

theorem breakChars_spec : ∀ (spec : Str) (s : Str), ∃ r, breakChars spec s = .val r ∧ (∀ st, r.foldl step st = (spaced spec s).foldl step st) ∧ (NoNul s → NoNul r)
  | [], s => by
    refine ⟨s, rfl, fun st => ?_, id⟩
    have : spaced [] s = s := by simp [spaced]
    rw [this]
  | c :: spec, s => by
    have h0 := breakChar_spec c (s.length + 1) [] s (by omega)
    have h0 : breakChar c (s.length + 1) s 0 = .val (spaced [c] s) := by simpa using h0
    rw [breakChars, h0, Out.bind_val]
    obtain ⟨r, hr, h1, h2⟩ := breakChars_spec spec (spaced [c] s)
    refine ⟨r, hr, fun st => ?_, fun hn => h2 ?_⟩
    · rw [h1]
      have sb : ∀ st, step (step st ' ') ' ' = step st ' ' := by
        intro st
        simp [step, show isBlank ' ' = true from rfl]
      -- one character
      have one : ∀ x st, (spaced spec (if x ∈ [c] then [' ', x, ' '] else [x])).foldl step st = (if x ∈ c :: spec then [' ', x, ' '] else [x]).foldl step st := by
        intro x st
        by_cases hx : x = c
        · subst hx
          rw [if_pos (by simp), if_pos (by simp)]
          have g : ∀ st, (if ' ' ∈ spec then [' ', ' ', ' '] else [' ']).foldl step st = step st ' ' := by
            intro st
            split <;> simp [sb]
          unfold spaced
          simp only [List.flatMap_cons, List.flatMap_nil, List.append_nil, List.foldl_append, g]
          split <;> simp [sb]
        · rw [if_neg (by simpa using hx)]
          simp [spaced, hx]
      unfold spaced at one ⊢
      rw [List.flatMap_assoc]
      clear * - one
      induction s generalizing st with
      | nil => rfl
      | cons x s ih =>
        rw [List.flatMap_cons, List.flatMap_cons, List.foldl_append, List.foldl_append, ih, one]
    · intro x hx
      unfold spaced at hx
      rw [List.mem_flatMap] at hx
      obtain ⟨y, hy, hx⟩ := hx
      split at hx
      · simp at hx
        rcases hx with rfl | rfl | rfl
        · decide
        · exact hn _ hy
        · decide
      · rw [List.mem_singleton.mp hx]; exact hn _ hy

theorem map_spaced1 {ws : List Str} (h : ∀ w ∈ ws, ' ' ∉ w) : (spaced1 ws).map (fun c => if c = ' ' then '\n' else c) = ['\n'].intercalate ws := by
  have hw : ∀ w : Str, ' ' ∉ w → w.map (fun c => if c = ' ' then '\n' else c) = w := by
    intro w hw
    induction w with
    | nil => rfl
    | cons c w ih =>
      rw [List.map_cons, ih (fun h => hw (by simp [h])), if_neg (by rintro rfl; exact hw (by simp))]
  induction ws with
  | nil => rfl
  | cons w ws ih =>
    by_cases hws : ws = []
    · subst hws
      simpa [spaced1, List.intercalate] using hw w (h w (by simp))
    · rw [spaced1_cons hws, List.map_append, hw w (h w (by simp)), List.map_cons, ih (fun x hx => h x (by simp [hx]))]
      cases ws with
      | nil => exact absurd rfl hws
      | cons x ws => simp [List.intercalate, List.intersperse]

theorem Words.no_blank {s : Str} {ws : List Str} (h : Words s ws) : ∀ w ∈ ws, w ≠ [] ∧ ∀ c ∈ w, isBlank c = false := by
  induction h with
  | none => simp
  | @word b w s ws h1 h2 h3 h4 h5 ih =>
    intro x hx
    rcases List.mem_cons.mp hx with rfl | hx
    · exact ⟨h2, h3⟩
    · exact ih x hx

theorem inter_lines {ws : List Str} (h : ws ≠ []) : ['\n'].intercalate ws ++ ['\n'] = writeLines ws := by
  induction ws with
  | nil => exact absurd rfl h
  | cons w ws ih =>
    cases ws with
    | nil => simp [List.intercalate, writeLines]
    | cons x ws =>
      have := ih (by simp)
      simp only [List.intercalate, List.intersperse, List.flatten_cons, writeLines, List.map_cons, List.append_assoc] at this ⊢
      rw [this]

theorem breakLine_spec (g : Nat → Char) (spec : Str) {l : Str} (hn : NoNul l) : ∃ ws, Words (spaced spec l) ws ∧ breakLine g spec l = .val (['\n'].intercalate ws) := by
  obtain ⟨r, hr, h1, h2⟩ := breakChars_spec spec l
  have hw : Words (spaced spec l) _ := words_iff.mpr rfl
  refine ⟨_, hw, ?_⟩
  have hw2 : Words r (fin ((spaced spec l).foldl step ([], []))) := words_iff.mpr (by rw [h1])
  unfold breakLine
  rw [hr, Out.bind_val, C36_edit_plain (by decide) (by decide), Out.bind_val, edit_words (h2 hn) hw2, map_spaced1]
  intro w hw' hs
  have := (hw.no_blank w hw').2 _ hs
  exact absurd this (by decide)

/-- **C82, BREAK.** The file written has the words of the file in order, one in each line: a word is what is between spaces and tabs, and a character of `spec` is a word itself.
(There are no empty lines.) -/
theorem C82_break (g : Nat → Char) (spec : Str) : ∀ {ls : List Str}, (∀ l ∈ ls, NoNul l) →
    ∃ ms wss, break_ g spec ls = .val ms ∧ List.Forall₂ (fun l ws => Words (spaced spec l) ws) ls wss ∧ writeLines ms = writeLines wss.flatten
  | [], _ => ⟨[], [], rfl, .nil, rfl⟩
  | l :: ls, h => by
    obtain ⟨ms, wss, e, h1, h2⟩ := C82_break g spec (ls := ls) fun x hx => h x (by simp [hx])
    obtain ⟨ws, hw, e2⟩ := breakLine_spec g spec (h l (by simp))
    rw [break_, e2, Out.bind_val, e, Out.bind_val]
    refine ⟨_, ws :: wss, rfl, .cons hw h1, ?_⟩
    by_cases hws : ws = []
    · subst hws
      rw [if_pos (show ['\n'].intercalate ([] : List Str) = [] from rfl), h2]
      rfl
    · have hne : ['\n'].intercalate ws ≠ [] := by
        cases ws with
        | nil => exact absurd rfl hws
        | cons w ws =>
          have hw1 := (hw.no_blank w (by simp)).1
          cases ws <;> simp [List.intercalate, hw1]
      rw [if_neg hne]
      have e3 : ∀ (a : Str) (as : List Str), writeLines (a :: as) = (a ++ ['\n']) ++ writeLines as := fun a as => rfl
      have e4 : ∀ (as bs : List Str), writeLines (as ++ bs) = writeLines as ++ writeLines bs := by
        intro as bs; simp [writeLines]
      rw [e3, inter_lines hws, h2, List.flatten_cons, e4]

example : break_ (fun _ => ' ') "(,)".toList ["f(x, 12)\t y".toList, "  ".toList, "z".toList] = .val ["f\n(\nx\n,\n12\n)\ny".toList, "z".toList] := by decide +kernel

/-! ## BUILD -/

theorem spaced1_snoc {g : List Str} (h : g ≠ []) (l : Str) : spaced1 (g ++ [l]) = spaced1 g ++ [' '] ++ l := by
  induction g with
  | nil => exact absurd rfl h
  | cons w g ih =>
    cases g with
    | nil => simp [spaced1, List.intercalate]
    | cons x g =>
      rw [List.cons_append, spaced1_cons (by simp), ih (by simp), spaced1_cons (w := w) (ws := x :: g) (by simp)]
      simp

theorem build_spec : ∀ (ls : List Str) (g : List Str), g ≠ [] → (∀ w ∈ g, w ≠ []) → (g.length = 1 ∨ (spaced1 g).length ≤ 73) →
    ∃ g' gs, build (spaced1 g) ls = ((g ++ g') :: gs).map spaced1 ∧ g' ++ gs.flatten = ls.filter (· ≠ []) ∧
      (∀ h ∈ (g ++ g') :: gs, h ≠ [] ∧ (h.length = 1 ∨ (spaced1 h).length ≤ 73)) ∧
      ((g ++ g') :: gs).IsChain fun a b => ∀ w ∈ b.head?, 72 < (spaced1 a).length + w.length
  | [], g, h1, h2, h3 => by
    have hne : spaced1 g ≠ [] := by
      cases g with
      | nil => exact absurd rfl h1
      | cons w g =>
        have := h2 w (by simp)
        cases g <;> simp [spaced1, List.intercalate, this]
    exact ⟨[], [], by simp [build, hne], rfl, by simp [h1, h3], by simp⟩
  | l :: ls, g, h1, h2, h3 => by
    have hne : spaced1 g ≠ [] := by
      cases g with
      | nil => exact absurd rfl h1
      | cons w g =>
        have := h2 w (by simp)
        cases g <;> simp [spaced1, List.intercalate, this]
    rw [build]
    by_cases hl : l = []
    · rw [if_pos hl]
      obtain ⟨g', gs, e, h4, h5, h6⟩ := build_spec ls g h1 h2 h3
      exact ⟨g', gs, e, by simp [hl, h4], h5, h6⟩
    · rw [if_neg hl, if_neg hne]
      by_cases hc : (spaced1 g).length + l.length > 72
      · rw [if_pos hc]
        obtain ⟨g', gs, e, h4, h5, h6⟩ := build_spec ls [l] (by simp) (by simpa using hl) (Or.inl rfl)
        have e1 : spaced1 [l] = l := by simp [spaced1, List.intercalate]
        rw [e1] at e
        refine ⟨[], ([l] ++ g') :: gs, by rw [e]; simp, ?_, ?_, ?_⟩
        · rw [List.nil_append, List.flatten_cons, List.append_assoc, h4, List.filter_cons, if_pos (by simpa using hl)]
          rfl
        · intro h hh
          rw [List.append_nil] at hh
          rcases List.mem_cons.mp hh with rfl | hh
          · exact ⟨h1, h3⟩
          · exact h5 h hh
        · rw [List.append_nil]
          refine List.IsChain.cons_cons ?_ h6
          intro w hw
          have : l = w := by simpa using hw
          rw [← this]
          exact hc
      · rw [if_neg hc]
        obtain ⟨g', gs, e, h4, h5, h6⟩ := build_spec ls (g ++ [l]) (by simp) (by
          intro w hw
          rcases List.mem_append.mp hw with hw | hw
          · exact h2 w hw
          · rw [List.mem_singleton.mp hw]; exact hl) (Or.inr (by rw [spaced1_snoc h1]; simp; omega))
        rw [spaced1_snoc h1] at e
        refine ⟨l :: g', gs, by rw [e]; simp, ?_, ?_, ?_⟩
        · rw [List.cons_append, h4, List.filter_cons, if_pos (by simpa using hl)]
        · simpa using h5
        · simpa using h6

/-- **C82, BUILD.** The lines that are not empty are put together in order with spaces between them; a line built from more than one has at most 73 characters, and a new line is
begun only if what is there and the next line have more than 72. -/
theorem C82_build (ls : List Str) : ∃ gs : List (List Str), build [] ls = gs.map ([' '].intercalate ·) ∧ gs.flatten = ls.filter (· ≠ []) ∧
    (∀ h ∈ gs, h ≠ [] ∧ (h.length = 1 ∨ ([' '].intercalate h).length ≤ 73)) ∧ gs.IsChain fun a b => ∀ w ∈ b.head?, 72 < ([' '].intercalate a).length + w.length := by
  induction ls with
  | nil => exact ⟨[], rfl, rfl, by simp, by simp⟩
  | cons l ls ih =>
    by_cases hl : l = []
    · subst hl
      rw [build, if_pos rfl]
      simpa using ih
    · rw [build, if_neg hl, if_pos rfl]
      obtain ⟨g', gs, e, h4, h5, h6⟩ := build_spec ls [l] (by simp) (by simpa using hl) (Or.inl rfl)
      have e1 : spaced1 [l] = l := by simp [spaced1, List.intercalate]
      rw [e1] at e
      exact ⟨([l] ++ g') :: gs, e, by rw [List.flatten_cons, List.append_assoc, h4, List.filter_cons, if_pos (by simpa using hl)]; rfl, h5, h6⟩

theorem words_spaced1 : ∀ {ws : List Str}, (∀ w ∈ ws, w ≠ [] ∧ ∀ c ∈ w, isBlank c = false) → Words (spaced1 ws) ws
  | [], _ => .none (by simp [spaced1, List.intercalate])
  | [w], h => by
    have := Words.word (b := []) (w := w) (s := []) (ws := []) (by simp) (h w (by simp)).1 (h w (by simp)).2 (by simp) (.none (by simp))
    simpa [spaced1, List.intercalate] using this
  | w :: x :: ws, h => by
    have ih := words_spaced1 (ws := x :: ws) fun y hy => h y (by simp [hy])
    have := Words.word (b := []) (w := w) (s := ' ' :: spaced1 (x :: ws)) (ws := x :: ws) (by simp) (h w (by simp)).1 (h w (by simp)).2 (by simp; decide) (ih.blank (by decide))
    rw [spaced1_cons (by simp)]
    simpa using this

theorem Words.unique {s : Str} {a b : List Str} (h1 : Words s a) (h2 : Words s b) : a = b := by
  rw [← words_iff.mp h1, words_iff.mp h2]

/-- **C82.** BREAK undoes BUILD for lines that are words. -/
theorem C82_roundtrip (g : Nat → Char) {ls : List Str} (h : ∀ l ∈ ls, NoNul l ∧ ∀ c ∈ l, isBlank c = false) :
    ∃ ms, break_ g [] (build [] ls) = .val ms ∧ writeLines ms = writeLines (ls.filter (· ≠ [])) := by
  obtain ⟨gs, e, hf, h1, _⟩ := C82_build ls
  have hm : ∀ a ∈ gs, ∀ w ∈ a, w ≠ [] ∧ NoNul w ∧ ∀ c ∈ w, isBlank c = false := by
    intro a ha w hw
    have : w ∈ ls.filter (· ≠ []) := by rw [← hf]; exact List.mem_flatten.mpr ⟨a, ha, hw⟩
    rw [List.mem_filter] at this
    exact ⟨by simpa using this.2, h w this.1⟩
  have hnn : ∀ l ∈ build [] ls, NoNul l := by
    intro l hl
    rw [e, List.mem_map] at hl
    obtain ⟨a, ha, rfl⟩ := hl
    have := hm a ha
    clear * - this
    show NoNul (spaced1 a)
    induction a with
    | nil => intro c hc; simp [spaced1, List.intercalate] at hc
    | cons w a ih =>
      by_cases ha : a = []
      · subst ha
        simpa [spaced1, List.intercalate] using (this w (by simp)).2.1
      · rw [spaced1_cons ha]
        intro c hc
        rw [List.mem_append, List.mem_cons] at hc
        rcases hc with hc | rfl | hc
        · exact (this w (by simp)).2.1 c hc
        · decide
        · exact ih (fun x hx => this x (by simp [hx])) c hc
  obtain ⟨ms, wss, e1, h2, h3⟩ := C82_break g [] hnn
  refine ⟨ms, e1, ?_⟩
  rw [h3, ← hf]
  congr 1
  congr 1
  rw [e] at h2
  clear * - h2 hm
  induction gs generalizing wss with
  | nil => cases h2; rfl
  | cons a gs ih =>
    rw [List.map_cons] at h2
    cases h2 with
    | cons ha hr =>
      have : spaced [] ([' '].intercalate a) = spaced1 a := by simp [spaced, spaced1]
      rw [this] at ha
      rw [ha.unique (words_spaced1 fun w hw => ⟨(hm a (by simp) w hw).1, (hm a (by simp) w hw).2.2⟩), ih (fun b hb => hm b (by simp [hb])) _ hr]

example : build [] ["a".toList, [], "bc".toList, List.replicate 70 'x', "d".toList] = ["a bc".toList, List.replicate 70 'x' ++ " d".toList] := by decide +kernel

end MM.Tools
