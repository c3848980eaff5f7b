import Verif.Cmdl.Line
/-!
# C76: the words of a command line, theorems
-/
namespace MM.Cmdl
open MM.Vstr

variable {tools : Bool}

/-- How a text begins. -/
theorem Reads.inv {p : Nat} {L : Str} {as : List Arg} (h : Reads tools p L as) :
    (L = [] ∧ as = []) ∨
    (∃ c l, L = c :: l ∧ (c = ' ' ∨ c = '\t' ∨ c = '\n') ∧ Reads tools (p + 1) l as) ∨
    (∃ c l bs, L = c :: l ∧ as = ⟨p, [c]⟩ :: bs ∧ tools = false ∧ (c = '/' ∨ c = '=') ∧ Reads tools (p + 1) l bs) ∨
    (∃ c w l bs, L = (c :: w) ++ l ∧ as = ⟨p, c :: w⟩ :: bs ∧ (∀ x ∈ c :: w, Plain tools x) ∧ (∀ x, l.head? = some x → ¬ Plain tools x) ∧ Reads tools (p + (c :: w).length) l bs) ∨
    (∃ q w l bs, L = q :: (w ++ q :: l) ∧ as = ⟨p + 1, w⟩ :: bs ∧ (q = '\'' ∨ q = '"') ∧ q ∉ w ∧ Reads tools (p + w.length + 2) l bs) ∨
    ∃ q w, L = q :: w ∧ as = [⟨p + 1, w⟩] ∧ (q = '\'' ∨ q = '"') ∧ q ∉ w := by
  cases h with
  | nil => exact Or.inl ⟨rfl, rfl⟩
  | blank h1 h2 => exact Or.inr (Or.inl ⟨_, _, rfl, h1, h2⟩)
  | one h1 h2 h3 => exact Or.inr (Or.inr (Or.inl ⟨_, _, _, rfl, rfl, h1, h2, h3⟩))
  | @word _ w _ _ h1 h2 h3 h4 =>
    cases w with
    | nil => exact absurd rfl h1
    | cons c w => exact Or.inr (Or.inr (Or.inr (Or.inl ⟨c, w, _, _, rfl, rfl, h2, h3, h4⟩)))
  | quoted h1 h2 h3 => exact Or.inr (Or.inr (Or.inr (Or.inr (Or.inl ⟨_, _, _, _, rfl, rfl, h1, h2, h3⟩))))
  | unended h1 h2 => exact Or.inr (Or.inr (Or.inr (Or.inr (Or.inr ⟨_, _, rfl, rfl, h1, h2⟩))))

theorem split_unique {P : Char → Prop} : ∀ {w w' l l' : Str}, (∀ x ∈ w, P x) → (∀ x ∈ w', P x) → (∀ x, l.head? = some x → ¬ P x) → (∀ x, l'.head? = some x → ¬ P x) →
    w ++ l = w' ++ l' → w = w' ∧ l = l'
  | [], [], _, _, _, _, _, _, h => ⟨rfl, h⟩
  | [], c :: w', l, _, _, h2, h3, _, h => by
    refine absurd (h2 c (by simp)) (h3 c ?_)
    simp at h
    rw [h]; rfl
  | c :: w, [], _, l', h1, _, _, h4, h => by
    refine absurd (h1 c (by simp)) (h4 c ?_)
    simp at h
    rw [← h]; rfl
  | c :: w, c' :: w', l, l', h1, h2, h3, h4, h => by
    simp only [List.cons_append, List.cons.injEq] at h
    obtain ⟨e1, e2⟩ := split_unique (fun x hx => h1 x (List.mem_cons_of_mem _ hx)) (fun x hx => h2 x (List.mem_cons_of_mem _ hx)) h3 h4 h.2
    exact ⟨by rw [h.1, e1], e2⟩

theorem Reads.det {p : Nat} {L : Str} {as : List Arg} (h : Reads tools p L as) : ∀ {bs}, Reads tools p L bs → as = bs := by
  have quote_blank : ∀ {q : Char}, (q = '\'' ∨ q = '"') → ¬ (q = ' ' ∨ q = '\t' ∨ q = '\n') := by
    rintro q (rfl | rfl) <;> decide
  have quote_one : ∀ {q : Char}, (q = '\'' ∨ q = '"') → ¬ (q = '/' ∨ q = '=') := by
    rintro q (rfl | rfl) <;> decide
  have blank_one : ∀ {q : Char}, (q = ' ' ∨ q = '\t' ∨ q = '\n') → ¬ (q = '/' ∨ q = '=') := by
    rintro q (rfl | rfl | rfl) <;> decide
  have np_q : ∀ {q : Char}, (q = '\'' ∨ q = '"') → ¬ Plain tools q := by
    rintro q (rfl | rfl) <;> simp [Plain]
  have np_b : ∀ {q : Char}, (q = ' ' ∨ q = '\t' ∨ q = '\n') → ¬ Plain tools q := by
    rintro q (rfl | rfl | rfl) <;> simp [Plain]
  have np_o : ∀ {q : Char}, tools = false → (q = '/' ∨ q = '=') → ¬ Plain tools q := by
    rintro q ht (rfl | rfl) <;> simp [Plain, ht]
  induction h with
  | nil =>
    intro bs hb
    rcases hb.inv with ⟨_, h⟩ | ⟨_, _, h, _⟩ | ⟨_, _, _, h, _⟩ | ⟨_, _, _, _, h, _⟩ | ⟨_, _, _, _, h, _⟩ | ⟨_, _, h, _⟩
    · exact h.symm
    all_goals simp at h
  | @blank p c l as h1 _ ih =>
    intro bs hb
    rcases hb.inv with ⟨h, _⟩ | ⟨_, _, h, _, h5⟩ | ⟨_, _, _, h, _, h3, h4, _⟩ | ⟨_, _, _, _, h, _, h3, _⟩ | ⟨_, _, _, _, h, _, h3, _⟩ | ⟨_, _, h, _, h3, _⟩
    · simp at h
    · obtain ⟨_, rfl⟩ := List.cons.inj h
      exact ih h5
    · obtain ⟨rfl, _⟩ := List.cons.inj h
      exact absurd h4 (blank_one h1)
    · obtain ⟨rfl, _⟩ := List.cons.inj h
      exact absurd (h3 _ (by simp)) (np_b h1)
    · obtain ⟨rfl, _⟩ := List.cons.inj h
      exact absurd h1 (quote_blank h3)
    · obtain ⟨rfl, _⟩ := List.cons.inj h
      exact absurd h1 (quote_blank h3)
  | @one p c l as h0 h1 _ ih =>
    intro bs hb
    rcases hb.inv with ⟨h, _⟩ | ⟨_, _, h, h3, _⟩ | ⟨_, _, _, h, e, _, _, h5⟩ | ⟨_, _, _, _, h, _, h3, _⟩ | ⟨_, _, _, _, h, _, h3, _⟩ | ⟨_, _, h, _, h3, _⟩
    · simp at h
    · obtain ⟨rfl, _⟩ := List.cons.inj h
      exact absurd h1 (blank_one h3)
    · obtain ⟨rfl, rfl⟩ := List.cons.inj h
      rw [e, ih h5]
    · obtain ⟨rfl, _⟩ := List.cons.inj h
      exact absurd (h3 _ (by simp)) (np_o h0 h1)
    · obtain ⟨rfl, _⟩ := List.cons.inj h
      exact absurd h1 (quote_one h3)
    · obtain ⟨rfl, _⟩ := List.cons.inj h
      exact absurd h1 (quote_one h3)
  | @word p w l as h0 h1 h2 _ ih =>
    intro bs hb
    cases w with
    | nil => exact absurd rfl h0
    | cons c w =>
      have hc := h1 c (by simp)
      rcases hb.inv with ⟨h, _⟩ | ⟨_, _, h, h3, _⟩ | ⟨_, _, _, h, _, h3, h4, _⟩ | ⟨_, _, _, _, h, e, h3, h4, h5⟩ | ⟨_, _, _, _, h, _, h3, _⟩ | ⟨_, _, h, _, h3, _⟩
      · simp at h
      · obtain ⟨rfl, _⟩ := List.cons.inj h
        exact absurd hc (np_b h3)
      · obtain ⟨rfl, _⟩ := List.cons.inj h
        exact absurd hc (np_o h3 h4)
      · obtain ⟨e1, rfl⟩ := split_unique h1 h3 h2 h4 h
        rw [← e1] at h5
        rw [e, ← e1, ih h5]
      · obtain ⟨rfl, _⟩ := List.cons.inj h
        exact absurd hc (np_q h3)
      · obtain ⟨rfl, _⟩ := List.cons.inj h
        exact absurd hc (np_q h3)
  | @quoted p q w l as h0 h1 _ ih =>
    intro bs hb
    rcases hb.inv with ⟨h, _⟩ | ⟨_, _, h, h3, _⟩ | ⟨_, _, _, h, _, _, h4, _⟩ | ⟨_, _, _, _, h, _, h3, _⟩ | ⟨_, _, _, _, h, e, _, h4, h5⟩ | ⟨_, _, h, _, _, h4⟩
    · simp at h
    · obtain ⟨rfl, _⟩ := List.cons.inj h
      exact absurd h3 (quote_blank h0)
    · obtain ⟨rfl, _⟩ := List.cons.inj h
      exact absurd h4 (quote_one h0)
    · obtain ⟨rfl, _⟩ := List.cons.inj h
      exact absurd (h3 _ (by simp)) (np_q h0)
    · obtain ⟨rfl, h⟩ := List.cons.inj h
      obtain ⟨rfl, e2⟩ := split_unique (P := fun x => x ≠ q) (fun x hx e => h1 (e ▸ hx)) (fun x hx e => h4 (e ▸ hx)) (by simp) (by simp) h
      obtain ⟨_, rfl⟩ := List.cons.inj e2
      rw [e, ih h5]
    · obtain ⟨rfl, rfl⟩ := List.cons.inj h
      exact absurd (by simp) h4
  | @unended p q w h0 h1 =>
    intro bs hb
    rcases hb.inv with ⟨h, _⟩ | ⟨_, _, h, h3, _⟩ | ⟨_, _, _, h, _, _, h4, _⟩ | ⟨_, _, _, _, h, _, h3, _⟩ | ⟨_, _, _, _, h, e, _, h4, h5⟩ | ⟨_, _, h, e, _, h4⟩
    · simp at h
    · obtain ⟨rfl, _⟩ := List.cons.inj h
      exact absurd h3 (quote_blank h0)
    · obtain ⟨rfl, _⟩ := List.cons.inj h
      exact absurd h4 (quote_one h0)
    · obtain ⟨rfl, _⟩ := List.cons.inj h
      exact absurd (h3 _ (by simp)) (np_q h0)
    · obtain ⟨rfl, rfl⟩ := List.cons.inj h
      exact absurd (by simp) h1
    · obtain ⟨rfl, rfl⟩ := List.cons.inj h
      exact e.symm

/-- C76: a line that does not start with `!` is broken up into exactly the arguments it consists of, and the columns are where they start, counted from the prompt on. -/
theorem C76_arguments (prompt : Str) {line : Str} (hc : line.head? ≠ some '!') (as : List Arg) :
    parseCommandLine tools prompt line = .val as ↔ ∃ bs, Reads tools 1 line bs ∧ as = bs.map fun a => { a with pos := a.pos + prompt.length } := by
  obtain ⟨bs, h1, h2⟩ := (lineGo_reads tools line line).1 [] 0 [] (by simp) (fun _ => hc)
  have e : parseCommandLine tools prompt line = .val (bs.map fun a => { a with pos := a.pos + prompt.length }) := by
    unfold parseCommandLine
    have h1 : lineGo tools line line 0 .start 0 [] = .val bs := by simpa using h1
    rw [h1]
    rfl
  rw [e]
  constructor
  · intro h
    exact ⟨bs, h2, (Out.val.inj h).symm⟩
  · rintro ⟨cs, h3, h4⟩
    rw [h4, Reads.det h2 h3]

/-- C76: a line that starts with `!` is a comment. -/
theorem C76_comment (prompt line : Str) : parseCommandLine tools prompt ('!' :: line) = .val [] := by
  unfold parseCommandLine
  rw [lineGo, if_neg (by decide), if_pos ⟨rfl, rfl⟩]
  rfl

/-- C76: every line is read without a crash. -/
theorem C76_ends (prompt line : Str) : ∃ as, parseCommandLine tools prompt line = .val as := by
  by_cases hc : line.head? = some '!'
  · cases line with
    | nil => cases hc
    | cons c l =>
      simp at hc
      subst hc
      exact ⟨_, C76_comment prompt l⟩
  · obtain ⟨bs, h1, h2⟩ := (lineGo_reads tools line line).1 [] 0 [] (by simp) (fun _ => hc)
    exact ⟨_, (C76_arguments prompt hc _).mpr ⟨bs, h2, rfl⟩⟩

/-- The arguments in single quotes, separated by blanks. -/
def quoteAll (args : List Str) : Str := (args.map fun a => '\'' :: (a ++ ['\'', ' '])).flatten

theorem reads_quoteAll : ∀ (args : List Str) (p : Nat), (∀ a ∈ args, '\'' ∉ a) → ∃ as, Reads tools p (quoteAll args) as ∧ as.map Arg.text = args
  | [], _, _ => ⟨[], .nil, rfl⟩
  | a :: args, p, h => by
    obtain ⟨as, h1, h2⟩ := reads_quoteAll args (p + a.length + 2 + 1) fun x hx => h x (List.mem_cons_of_mem _ hx)
    refine ⟨⟨p + 1, a⟩ :: as, ?_, by simp [h2]⟩
    have e : quoteAll (a :: args) = '\'' :: (a ++ '\'' :: ' ' :: quoteAll args) := by simp [quoteAll]
    rw [e]
    exact .quoted (Or.inl rfl) (h a (by simp)) (.blank (Or.inl rfl) h1)

/-- C76: whatever the arguments are (without a single quote in them), in quotes they reach the program unchanged. -/
theorem C76_quotes (prompt : Str) {args : List Str} (h : ∀ a ∈ args, '\'' ∉ a) : ∃ as, parseCommandLine tools prompt (quoteAll args) = .val as ∧ as.map Arg.text = args := by
  obtain ⟨as, h1, h2⟩ := reads_quoteAll (tools := tools) args 1 h
  refine ⟨_, (C76_arguments prompt ?_ _).mpr ⟨as, h1, rfl⟩, by rw [List.map_map]; exact h2⟩
  cases args with
  | nil => simp [quoteAll]
  | cons a l => simp [quoteAll]

/-- The text stands in the line at the column, and what follows does not overlap with it. -/
def Placed (line : Str) : List Arg → Prop
  | [] => True
  | a :: l => 1 ≤ a.pos ∧ (line.drop (a.pos - 1)).take a.text.length = a.text ∧ (∀ b ∈ l, a.pos + a.text.length ≤ b.pos) ∧ Placed line l

theorem reads_pos {p : Nat} {l : Str} {as : List Arg} (h : Reads tools p l as) : ∀ a ∈ as, p ≤ a.pos := by
  induction h with
  | nil => simp
  | blank _ _ ih => intro a ha; have := ih a ha; omega
  | one _ _ _ ih =>
    intro a ha
    rcases List.mem_cons.mp ha with rfl | ha
    · exact Nat.le_refl _
    · have := ih a ha; omega
  | word _ _ _ _ ih =>
    intro a ha
    rcases List.mem_cons.mp ha with rfl | ha
    · exact Nat.le_refl _
    · have := ih a ha; omega
  | quoted _ _ _ ih =>
    intro a ha
    rcases List.mem_cons.mp ha with rfl | ha
    · exact Nat.le_succ _
    · have := ih a ha; omega
  | unended _ _ =>
    intro a ha
    rw [List.mem_singleton.mp ha]
    exact Nat.le_succ _

theorem reads_placed {line : Str} {p : Nat} {l : Str} {as : List Arg} (h : Reads tools p l as) : ∀ pre : Str, line = pre ++ l → p = pre.length + 1 → Placed line as := by
  induction h with
  | nil => intros; trivial
  | @blank p c l as _ _ ih =>
    intro pre h hp
    exact ih (pre ++ [c]) (by rw [h]; simp) (by simp; omega)
  | @one p c l as _ _ h2 ih =>
    intro pre h hp
    refine ⟨by simp; omega, ?_, ?_, ih (pre ++ [c]) (by rw [h]; simp) (by simp; omega)⟩
    · show (line.drop (p - 1)).take 1 = [c]
      rw [h, hp]; simp
    · intro b hb
      exact reads_pos h2 b hb
  | @word p w l as _ _ _ h2 ih =>
    intro pre h hp
    refine ⟨by simp; omega, ?_, ?_, ih (pre ++ w) (by rw [h]; simp) (by simp; omega)⟩
    · show (line.drop (p - 1)).take w.length = w
      rw [h, hp]; simp
    · intro b hb
      exact reads_pos h2 b hb
  | @quoted p q w l as _ _ h2 ih =>
    intro pre h hp
    refine ⟨by simp, ?_, ?_, ih (pre ++ q :: (w ++ [q])) (by rw [h]; simp) (by simp; omega)⟩
    · show (line.drop p).take w.length = w
      rw [h, hp, show pre ++ q :: (w ++ q :: l) = (pre ++ [q]) ++ (w ++ q :: l) by simp, show pre.length + 1 = (pre ++ [q]).length by simp]
      simp
    · intro b hb
      have := reads_pos h2 b hb
      show p + 1 + w.length ≤ b.pos
      omega
  | @unended p q w _ _ =>
    intro pre h hp
    refine ⟨by simp, ?_, by simp, trivial⟩
    show (line.drop p).take w.length = w
    rw [h, hp, show pre ++ q :: w = (pre ++ [q]) ++ w by simp, show pre.length + 1 = (pre ++ [q]).length by simp]
    simp

theorem placed_shift (prompt line : Str) : ∀ {as : List Arg}, Placed line as → Placed (prompt ++ line) (as.map fun a => { a with pos := a.pos + prompt.length })
  | [], _ => trivial
  | a :: l, h => by
    refine ⟨by have := h.1; simp; omega, ?_, ?_, placed_shift prompt line h.2.2.2⟩
    · show ((prompt ++ line).drop (a.pos + prompt.length - 1)).take a.text.length = a.text
      rw [show a.pos + prompt.length - 1 = prompt.length + (a.pos - 1) by have := h.1; omega, ← List.drop_drop, List.drop_left]
      exact h.2.1
    · intro b hb
      obtain ⟨b, hb', rfl⟩ := List.mem_map.mp hb
      have := h.2.2.1 b hb'
      show a.pos + prompt.length + a.text.length ≤ b.pos + prompt.length
      omega

/-- C76: every argument stands in the line, as it is printed with the prompt, at its column, the next one after its end: the carets of an error message are put under it. -/
theorem C76_columns {prompt line : Str} {as : List Arg} (h : parseCommandLine tools prompt line = .val as) : Placed (prompt ++ line) as := by
  by_cases hc : line.head? = some '!'
  · cases line with
    | nil => cases hc
    | cons c l =>
      simp at hc
      subst hc
      rw [C76_comment] at h
      obtain rfl := Out.val.inj h
      trivial
  · obtain ⟨bs, h1, rfl⟩ := (C76_arguments prompt hc as).mp h
    exact placed_shift prompt line (reads_placed h1 [] (by simp) (by simp))

def showArgs (o : Out (List Arg)) : Option (List (Nat × Str)) :=
  match o with
  | .val l => some (l.map fun a => (a.pos, a.text))
  | _ => none

example : showArgs (parseCommandLine false "MM> ".toList "sh st syl/tex = 'a \"b' \"c".toList) =
    some [(5, "sh".toList), (8, "st".toList), (11, "syl".toList), (14, "/".toList), (15, "tex".toList), (19, "=".toList), (22, "a \"b".toList), (29, "c".toList)] := by decide +kernel

/-- In TOOLS `/` and `=` are ordinary characters. -/
example : showArgs (parseCommandLine true [] "add a/b.txt = ''".toList) = some [(1, "add".toList), (5, "a/b.txt".toList), (13, "=".toList), (16, [])] := by decide +kernel

end MM.Cmdl
