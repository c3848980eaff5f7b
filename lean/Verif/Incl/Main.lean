import Verif.Incl.File
/-!
# File inclusion: the theorems
-/
namespace MM.Incl
open MM.Veri MM.Pars MM.Lex

variable {main : Name} {disk : Name → Option (List Char)}

theorem read_mono {fs : Name → Out (Option (List Char))} {n m : Nat} (hnm : n ≤ m) (h : readSourceAndIncludes fs n main ≠ .fuel) :
    readSourceAndIncludes fs m main = readSourceAndIncludes fs n main := by
  unfold readSourceAndIncludes at h ⊢
  cases ht : fs main with
  | val t =>
    rw [ht] at h
    simp only [Out.bind_val] at h ⊢
    rw [expand_mono hnm]
    intro he
    rw [he] at h
    exact h rfl
  | ub => rfl
  | bug k => rfl
  | fuel => rw [ht] at h; exact absurd rfl h

theorem read_val {fs : Name → Out (Option (List Char))} {n : Nat} {t o : List Char} {s : St} (ht : fs main = .val (some t))
    (h : expand fs main n ⟨[], false⟩ t = .val (o, s)) (he : s.err = false) : readSourceAndIncludes fs n main = .val (some o) := by
  unfold readSourceAndIncludes
  rw [ht, Out.bind_val]
  have h' : expand fs main n (content { seen := [] } (some t)).2 (content { seen := [] } (some t)).1 = .val (o, s) := h
  rw [h', Out.bind_val]
  dsimp only
  rw [he]
  rfl

/-- **C63 (partial).** For files of plain text without the program's own markup, none of which includes the main file: when file inclusion as the language
defines it leads to the words `out`, the program accepts the files, and the words of its text are `out`.
Missing: a reference to the main file (`main_included`), an empty file (`empty_file`), a file with the program's own markup comments (`markup_swallows`). -/
theorem C63_included_partial {out : List Name} (hplain : ∀ f b, disk f = some b → PlainFile b ∧ NoMarkup b ∧ ¬ Includes b main) (h : Expands disk main out) :
    ∃ n text, (∀ m ≥ n, readSourceAndIncludes (diskFs disk) m main = .val (some text)) ∧ tokens text = some out := by
  obtain ⟨b, ts, s', h1, h2, h3⟩ := h
  have hfs := read_fsOk fun f b hd => (hplain f b hd).1
  have hF := hfs main
  rw [h1] at hF
  obtain ⟨t, t1, t2, t3, t4⟩ := hF
  obtain ⟨n, o, σ', r1, r2, r3⟩ := run hfs (fun f b hd => (hplain f b hd).2.1) (fun f b hd => (hplain f b hd).2.2) h3 ⟨[], false⟩ t rfl
    (by rw [t2]; exact h2) (by rw [t2]; exact (hplain main b h1).2.1) (fun hi => (hplain main b h1).2.2 ⟨ts, h2, hi⟩)
  have := read_val t1 r1 rfl
  exact ⟨n, o, fun m hm => by rw [read_mono hm (by rw [this]; intro h; cases h), this], r3.words⟩

/-- **C63 (partial), the other direction.** For such files that also keep the lexical rules: when the program accepts them and its first check of the text
(`readRawSource`) finds no error, then the words of the text are what file inclusion as the language defines it leads to. -/
theorem C63_accepted_partial (hplain : ∀ f b, disk f = some b → PlainFile b ∧ NoMarkup b) (hlex : ∀ f b, disk f = some b → ∃ ts, tokens b = some ts ∧ Lexical main ts)
    {n : Nat} {text : List Char} (h : readSourceAndIncludes (diskFs disk) n main = .val (some text)) (hr : rawErrs false false text = 0) :
    ∃ out, tokens text = some out ∧ Expands disk main out := by
  have hfs := read_fsOk fun f b hd => (hplain f b hd).1
  have hF := hfs main
  unfold readSourceAndIncludes at h
  cases hd : disk main with
  | none =>
    rw [hd] at hF
    rw [show diskFs disk main = .val none from hF, Out.bind_val] at h
    cases hx : expand (diskFs disk) main n (content { seen := [] } none).2 (content { seen := [] } none).1 with
    | val x =>
      cases n with
      | zero => cases hx
      | succ n =>
        rw [show (content { seen := [] } none).1 = [] from rfl, expand_nil] at hx
        cases hx
        cases h
    | ub => rw [hx] at h; cases h
    | bug k => rw [hx] at h; cases h
    | fuel => rw [hx] at h; cases h
  | some b =>
    rw [hd] at hF
    obtain ⟨t, t1, t2, t3, t4⟩ := hF
    rw [t1, Out.bind_val] at h
    obtain ⟨ts, hts, hL⟩ := hlex main b hd
    cases hx : expand (diskFs disk) main n (content { seen := [] } (some t)).2 (content { seen := [] } (some t)).1 with
    | val x =>
      rw [hx, Out.bind_val] at h
      dsimp only at h
      by_cases he : x.2.err = true
      · rw [if_pos he] at h; cases h
      · rw [if_neg he] at h
        cases h
        obtain ⟨out, r1, r2, r3⟩ := back hfs (fun f b hd => (hplain f b hd).2) hlex n _ ⟨[], false⟩ x.2 t x.1 ts (Nat.le_refl _) hx (by simpa using he)
          (by rw [t2]; exact hts) (by rw [t2]; exact (hplain main b hd).2) hL
        exact ⟨out, r1.words, b, ts, _, hd, hts, r3 (raw_clean _ x.1 false false out (Nat.le_refl _) hr r1.words)⟩
    | ub => rw [hx] at h; cases h
    | bug k => rw [hx] at h; cases h
    | fuel => rw [hx] at h; cases h

/-- **C63 (partial)**, for the whole of READ. -/
theorem C63_read_partial {sort : List (Name × Nat) → List (Name × Nat)} (hplain : ∀ f b, disk f = some b → PlainFile b ∧ NoMarkup b)
    (hlex : ∀ f b, disk f = some b → ∃ ts, tokens b = some ts ∧ Lexical main ts) {n : Nat} {text : List Char} {o : ReadOut}
    (h : readSourceAndIncludes (diskFs disk) n main = .val (some text)) (ho : readSource sort text = .val o) (he : o.errs = 0) :
    ∃ out, tokens text = some out ∧ Expands disk main out := by
  refine C63_accepted_partial hplain hlex h ?_
  unfold readSource at ho
  dsimp only at ho
  cases h1 : parseLabels sort (parseKeywords text).stmts (parseKeywords text).start <;> rw [h1] at ho
  case val l =>
    rw [Out.bind_val] at ho
    cases h2 : symsOf (parseKeywords text).stmts <;> rw [h2] at ho
    case val ms =>
      rw [Out.bind_val] at ho
      cases h3 : parseStatements (mkSrc (parseKeywords text).stmts l.labels ms) <;> rw [h3] at ho
      case val s =>
        cases ho
        dsimp only at he
        omega
      all_goals cases ho
    all_goals cases ho
  all_goals cases ho

theorem read_ne_fuel (b : List Char) : readFileToString b ≠ .fuel := by
  have he : ∀ t, endLine t ≠ .fuel := by
    intro t
    unfold endLine
    by_cases h1 : t = []
    · rw [if_pos h1]; intro h; cases h
    · rw [if_neg h1]
      by_cases h2 : t.getLast? = some '\n'
      · rw [if_pos h2]; intro h; cases h
      · rw [if_neg h2]; intro h; cases h
  unfold readFileToString
  by_cases h1 : (b.take 2).map Char.toNat = [255, 254]
  · rw [if_pos h1]
    cases unicodeText (b.drop 2) with
    | none => intro h; cases h
    | some t => exact he t
  · rw [if_neg h1]; exact he _

/-- **C64.** Whatever the files contain, and even if they include each other, reading comes to an end. -/
theorem C64_inclusion_ends {F : List Name} (hF : ∀ f, f ∉ F → disk f = none) :
    ∃ n r, r ≠ .fuel ∧ ∀ m ≥ n, readSourceAndIncludes (diskFs disk) m main = r := by
  have hfs : ∀ f, diskFs disk f ≠ .fuel := by
    intro f
    unfold diskFs
    cases disk f with
    | none => intro h; cases h
    | some b => exact read_ne_fuel b
  have hF' : ∀ f, f ∉ F → diskFs disk f = .val none := by
    intro f hf
    unfold diskFs
    rw [hF f hf]
  cases ht : diskFs disk main with
  | val t =>
    obtain ⟨n, hn⟩ := expand_ends (main := main) hF' hfs _ _ (content { seen := [] } t).2 (content { seen := [] } t).1 (Nat.le_refl _) (Nat.le_refl _)
    have hr : readSourceAndIncludes (diskFs disk) n main ≠ .fuel := by
      unfold readSourceAndIncludes
      rw [ht, Out.bind_val]
      cases hx : expand (diskFs disk) main n (content { seen := [] } t).2 (content { seen := [] } t).1 with
      | val x => intro h; cases h
      | ub => intro h; cases h
      | bug k => intro h; cases h
      | fuel => exact absurd hx hn
    exact ⟨n, _, hr, fun m hm => read_mono hm hr⟩
  | ub => exact ⟨0, .ub, (by intro h; cases h), fun m _ => by unfold readSourceAndIncludes; rw [ht]; rfl⟩
  | bug k => exact ⟨0, .bug k, (by intro h; cases h), fun m _ => by unfold readSourceAndIncludes; rw [ht]; rfl⟩
  | fuel => exact absurd ht (hfs main)

theorem inc_seen {s s' ts out : List Name} (h : Inc disk s ts s' out) : (∀ f ∈ s', f ∈ s ∨ disk f ≠ none) ∧ (s.Nodup → s'.Nodup) := by
  induction h with
  | done s => exact ⟨fun f hf => Or.inl hf, fun h => h⟩
  | word _ _ ih => exact ih
  | again _ _ _ ih => exact ih
  | @first s s1 s' ws ts out1 out f text _ hf hd _ _ _ ih1 ih2 =>
    refine ⟨?_, fun h => ih2.2 (ih1.2 (List.nodup_cons.2 ⟨hf, h⟩))⟩
    intro g hg
    rcases ih2.1 g hg with h | h
    · rcases ih1.1 g h with h | h
      · rcases List.mem_cons.1 h with rfl | h
        · right; rw [hd]; simp
        · exact Or.inl h
      · exact Or.inr h
    · exact Or.inr h

/-- There is none of the program's own comments `$( Begin ..`, `$( Skip ..`, `$( End ..` in the text. -/
def NoMarkup3 (text : List Char) : Prop := NoMarkup text ∧ ¬ [['$', '('], ['E', 'n', 'd']] <:+: words text

/-- **C65 (partial).** The text that the program has put together from ASCII files, written to one file -- the main file, or a new one -- and read again, is
unchanged, whatever other files there are then.
Missing: files one of whose names is the beginning of another one (`prefix_names`). -/
theorem C65_read_again_partial {out : List Name} (hplain : ∀ f b, disk f = some b → (PlainFile b ∧ ∀ c ∈ b, c.toNat < 128) ∧ NoMarkup3 b ∧ ¬ Includes b main)
    (hpre : ∀ f g, disk f ≠ none → disk g ≠ none → f <+: g → f = g) (h : Expands disk main out) :
    ∃ n text, readSourceAndIncludes (diskFs disk) n main = .val (some text) ∧
      ∀ (disk' : Name → Option (List Char)) (main' : Name), disk' main' = some text → main' = main ∨ disk main' = none →
        ∃ m, readSourceAndIncludes (diskFs disk') m main' = .val (some text) := by
  obtain ⟨b, ts, s', h1, h2, h3⟩ := h
  have hfs := read_fsOk fun f b hd => (hplain f b hd).1.1
  have hF := hfs main
  rw [h1] at hF
  obtain ⟨t, t1, t2, t3, t4⟩ := hF
  obtain ⟨n, o, σ', r1, r2, r3, r4, r5, r6⟩ := fixed hfs (fun f b hd => (hplain f b hd).2.1) (fun f b hd => (hplain f b hd).2.2) hpre h3 ⟨[], false⟩ t rfl
    (by rw [t2]; exact h2) (by rw [t2]; exact (hplain main b h1).2.1) (fun hi => (hplain main b h1).2.2 ⟨ts, h2, hi⟩)
  refine ⟨n, o, read_val t1 r1 rfl, ?_⟩
  intro disk' main' hd' hm'
  have hseen := inc_seen h3
  have hnd := hseen.2 (List.nodup_singleton main)
  rw [r2] at hnd
  have hne : ∀ f ∈ σ', f ≠ main' := by
    rintro f hf rfl
    have hfm : f ≠ main := by
      rintro rfl
      exact (List.nodup_append.1 hnd).2.2 f hf f (List.mem_singleton.2 rfl) rfl
    rcases hm' with h | h
    · exact hfm h
    · rcases hseen.1 f (by rw [r2]; exact List.mem_append_left _ hf) with h' | h'
      · exact hfm (List.mem_singleton.1 h')
      · exact h' h
  obtain ⟨m, hm⟩ := r5 (diskFs disk') main' hne
  refine ⟨m, read_val (t := o) ?_ hm rfl⟩
  unfold diskFs
  rw [hd']
  have hasc := read_asc fun f b hd => (hplain f b hd).1
  exact read_again (r6 hasc (hasc main t t1)) (by rw [r3.last t3]; exact read_last (fun f b hd => (hplain f b hd).1.1) t1)

end MM.Incl
