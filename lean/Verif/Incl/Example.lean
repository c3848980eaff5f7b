import Verif.Incl.Main
/-!
# File inclusion: concrete cases
-/
namespace MM.Incl
open MM.Veri MM.Pars MM.Lex

/-- Three files: `m` includes `a` and `b`; `a` includes `b`. -/
def disk3 (f : Name) : Option (List Char) :=
  if f = ['m'] then some "$c x $.\r\n$( $[ no $] $) $[ a $] $[ b $]\n$c y $.".toList
  else if f = ['a'] then some "$[ b $] $c z $. $[ b $]\n".toList
  else if f = ['b'] then some "$c w $. $( w $)\r".toList
  else none

/-- The result of reading. -/
def readIs (disk : Name → Option (List Char)) (n : Nat) (main : Name) (t : String) : Bool :=
  match readSourceAndIncludes (diskFs disk) n main with
  | .val (some x) => decide (x = t.toList)
  | _ => false

def readErr (disk : Name → Option (List Char)) (n : Nat) (main : Name) : Bool :=
  match readSourceAndIncludes (diskFs disk) n main with
  | .val none => true
  | _ => false

def readUb (disk : Name → Option (List Char)) (n : Nat) (main : Name) : Bool :=
  match readSourceAndIncludes (diskFs disk) n main with
  | .ub => true
  | _ => false

def readBug (disk : Name → Option (List Char)) (n : Nat) (main : Name) (k : Nat) : Bool :=
  match readSourceAndIncludes (diskFs disk) n main with
  | .bug j => decide (j = k)
  | _ => false

def text3 : String := "$c x $.\n$( $[ no $] $) $( Begin $[ a $] $)\n$( Begin $[ b $] $)\n$c w $. $( w $)\n$( End $[ b $] $) $c z $. $( Skip $[ b $] $)\n$( End $[ a $] $) $( Skip $[ b $] $)\n$c y $.\n"

/-- What the program makes of the three files. -/
theorem read3 : readIs disk3 10 ['m'] text3 = true := by decide +kernel

theorem files3 {f : Name} {b : List Char} (h : disk3 f = some b) : (f = ['m'] ∧ b = "$c x $.\r\n$( $[ no $] $) $[ a $] $[ b $]\n$c y $.".toList) ∨
    (f = ['a'] ∧ b = "$[ b $] $c z $. $[ b $]\n".toList) ∨ (f = ['b'] ∧ b = "$c w $. $( w $)\r".toList) := by
  unfold disk3 at h
  by_cases h1 : f = ['m']
  · rw [if_pos h1] at h; exact Or.inl ⟨h1, (Option.some.inj h).symm⟩
  · rw [if_neg h1] at h
    by_cases h2 : f = ['a']
    · rw [if_pos h2] at h; exact Or.inr (Or.inl ⟨h2, (Option.some.inj h).symm⟩)
    · rw [if_neg h2] at h
      by_cases h3 : f = ['b']
      · rw [if_pos h3] at h; exact Or.inr (Or.inr ⟨h3, (Option.some.inj h).symm⟩)
      · rw [if_neg h3] at h; cases h

/-- The words of the files with the inclusions carried out. -/
def words3 : List Name := [['$', 'c'], ['x'], ['$', '.'], ['$', 'c'], ['w'], ['$', '.'], ['$', 'c'], ['z'], ['$', '.'], ['$', 'c'], ['y'], ['$', '.']]

theorem words_m : words "$c x $.\r\n$( $[ no $] $) $[ a $] $[ b $]\n$c y $.".toList = [['$', 'c'], ['x'], ['$', '.'], ['$', '('], ['$', '['], ['n', 'o'], ['$', ']'], ['$', ')'],
    ['$', '['], ['a'], ['$', ']'], ['$', '['], ['b'], ['$', ']'], ['$', 'c'], ['y'], ['$', '.']] := by decide +kernel
theorem words_a : words "$[ b $] $c z $. $[ b $]\n".toList = [['$', '['], ['b'], ['$', ']'], ['$', 'c'], ['z'], ['$', '.'], ['$', '['], ['b'], ['$', ']']] := by decide +kernel
theorem words_b : words "$c w $. $( w $)\r".toList = [['$', 'c'], ['w'], ['$', '.'], ['$', '('], ['w'], ['$', ')']] := by decide +kernel

theorem tokens_m : tokens "$c x $.\r\n$( $[ no $] $) $[ a $] $[ b $]\n$c y $.".toList = some [['$', 'c'], ['x'], ['$', '.'],
    ['$', '['], ['a'], ['$', ']'], ['$', '['], ['b'], ['$', ']'], ['$', 'c'], ['y'], ['$', '.']] := by
  unfold tokens; rw [words_m]; decide +kernel
theorem tokens_a : tokens "$[ b $] $c z $. $[ b $]\n".toList = some [['$', '['], ['b'], ['$', ']'], ['$', 'c'], ['z'], ['$', '.'], ['$', '['], ['b'], ['$', ']']] := by
  unfold tokens; rw [words_a]; decide +kernel
theorem tokens_b : tokens "$c w $. $( w $)\r".toList = some [['$', 'c'], ['w'], ['$', '.']] := by
  unfold tokens; rw [words_b]; decide +kernel

theorem expands3 : Expands disk3 ['m'] words3 := by
  refine ⟨_, _, [['b'], ['a'], ['m']], rfl, tokens_m, ?_⟩
  refine .word (by decide) (.word (by decide) (.word (by decide) ?_))
  refine .first (f := ['a']) (s1 := [['b'], ['a'], ['m']]) (out1 := [['$', 'c'], ['w'], ['$', '.'], ['$', 'c'], ['z'], ['$', '.']]) (by decide) (by decide) rfl tokens_a ?_ ?_
  · refine .first (f := ['b']) (out1 := [['$', 'c'], ['w'], ['$', '.']]) (by decide) (by decide) rfl tokens_b
      (.word (by decide) (.word (by decide) (.word (by decide) (.done _)))) ?_
    refine .word (by decide) (.word (by decide) (.word (by decide) (.again (by decide) (by decide) (.done _))))
  · exact .again (by decide) (by decide) (.word (by decide) (.word (by decide) (.word (by decide) (.done _))))

theorem disk3_ok (f : Name) (b : List Char) (h : disk3 f = some b) : (PlainFile b ∧ ∀ c ∈ b, c.toNat < 128) ∧ NoMarkup3 b ∧ ¬ Includes b ['m'] := by
  have hinc : ∀ {ts : List Name}, tokens b = some ts → ¬ [['$', '['], ['m'], ['$', ']']] <:+: ts → ¬ Includes b ['m'] := by
    rintro ts h1 h2 ⟨ts', h3, h4⟩
    rw [h1] at h3
    cases h3
    exact h2 h4
  rcases files3 h with ⟨_, rfl⟩ | ⟨_, rfl⟩ | ⟨_, rfl⟩
  · refine ⟨⟨⟨by decide, by decide⟩, by decide⟩, ?_, hinc tokens_m (by decide)⟩
    unfold NoMarkup3 NoMarkup
    rw [words_m]
    decide
  · refine ⟨⟨⟨by decide, by decide⟩, by decide⟩, ?_, hinc tokens_a (by decide)⟩
    unfold NoMarkup3 NoMarkup
    rw [words_a]
    decide
  · refine ⟨⟨⟨by decide, by decide⟩, by decide⟩, ?_, hinc tokens_b (by decide)⟩
    unfold NoMarkup3 NoMarkup
    rw [words_b]
    decide

theorem disk3_lex (f : Name) (b : List Char) (h : disk3 f = some b) : ∃ ts, tokens b = some ts ∧ Lexical ['m'] ts := by
  have key : ∀ (ts : List Name), (∀ g : Name, [['$', '['], g, ['$', ']']] <:+: ts → g = ['a'] ∨ g = ['b']) → ∀ g, [['$', '['], g, ['$', ']']] <:+: ts → '$' ∉ g ∧ g ≠ ['m'] := by
    intro ts hts g hg
    rcases hts g hg with rfl | rfl <;> exact ⟨by decide, by decide⟩
  rcases files3 h with ⟨_, rfl⟩ | ⟨_, rfl⟩ | ⟨_, rfl⟩
  · refine ⟨_, tokens_m, by decide, key _ ?_⟩
    intro g hg
    simp [List.infix_cons_iff] at hg
    tauto
  · refine ⟨_, tokens_a, by decide, key _ ?_⟩
    intro g hg
    simp [List.infix_cons_iff] at hg
    tauto
  · refine ⟨_, tokens_b, by decide, key _ ?_⟩
    intro g hg
    simp [List.infix_cons_iff] at hg

theorem disk3_names (f g : Name) (hf : disk3 f ≠ none) (hg : disk3 g ≠ none) (h : f <+: g) : f = g := by
  have key : ∀ f, disk3 f ≠ none → f = ['m'] ∨ f = ['a'] ∨ f = ['b'] := by
    intro f hf
    cases hd : disk3 f with
    | none => exact absurd hd hf
    | some b => rcases files3 hd with ⟨h, _⟩ | ⟨h, _⟩ | ⟨h, _⟩ <;> simp [h]
  rcases key f hf with rfl | rfl | rfl <;> rcases key g hg with rfl | rfl | rfl <;> first | rfl | exact absurd h (by decide)

/-- The hypotheses of `C63_included_partial` hold for the three files. -/
example : ∃ n text, (∀ m ≥ n, readSourceAndIncludes (diskFs disk3) m ['m'] = .val (some text)) ∧ tokens text = some words3 :=
  C63_included_partial (fun f b h => ⟨(disk3_ok f b h).1.1, (disk3_ok f b h).2.1.1, (disk3_ok f b h).2.2⟩) expands3

/-- The hypotheses of `C63_accepted_partial` hold for the three files. -/
example : ∃ out, tokens text3.toList = some out ∧ Expands disk3 ['m'] out := by
  refine C63_accepted_partial (n := 10) (fun f b h => ⟨(disk3_ok f b h).1.1, (disk3_ok f b h).2.1.1⟩) disk3_lex ?_ (by decide +kernel)
  have := read3
  unfold readIs at this
  split at this
  · rename_i x hx; rw [hx, of_decide_eq_true this]
  · cases this

/-- The hypotheses of `C65_read_again_partial` hold for the three files. -/
example := C65_read_again_partial disk3_ok disk3_names expands3

/-- Two files that include each other. -/
def diskLoop (f : Name) : Option (List Char) :=
  if f = ['m'] then some "$[ a $]".toList else if f = ['a'] then some "$[ b $]".toList else if f = ['b'] then some "$[ a $] $c x $.".toList else none

/-- A case of C64: files that include each other. -/
example : readIs diskLoop 10 ['m'] "$( Begin $[ a $] $)\n$( Begin $[ b $] $)\n$( Skip $[ a $] $) $c x $.\n$( End $[ b $] $)\n$( End $[ a $] $)\n" = true := by decide +kernel

/-- A missing file is an error. -/
example : readErr (fun f => if f = ['m'] then some "$[ a $]".toList else none) 10 ['m'] = true := by decide +kernel

/-- A main file that includes itself. -/
def diskSelf (f : Name) : Option (List Char) := if f = ['m'] then some "$c x $. $[ m $]\n".toList else none

theorem self_read : readBug diskSelf 10 ['m'] 1765 = true := by decide +kernel

/-- A reference to the main file, which the language ignores, stops the program with `bug(1765)`. -/
theorem main_included : Expands diskSelf ['m'] [['$', 'c'], ['x'], ['$', '.']] ∧ ∀ m ≥ 10, readSourceAndIncludes (diskFs diskSelf) m ['m'] = .bug 1765 := by
  constructor
  · have hw : words "$c x $. $[ m $]\n".toList = [['$', 'c'], ['x'], ['$', '.'], ['$', '['], ['m'], ['$', ']']] := by decide +kernel
    have ht : tokens "$c x $. $[ m $]\n".toList = some [['$', 'c'], ['x'], ['$', '.'], ['$', '['], ['m'], ['$', ']']] := by unfold tokens; rw [hw]; decide +kernel
    exact ⟨_, _, _, rfl, ht, .word (by decide) (.word (by decide) (.word (by decide) (.again (by decide) (by decide) (.done _))))⟩
  · intro m hm
    have hb := self_read
    unfold readBug at hb
    have h10 : readSourceAndIncludes (diskFs diskSelf) 10 ['m'] = .bug 1765 := by
      split at hb
      · rename_i j hj; rw [hj, of_decide_eq_true hb]
      · cases hb
    rw [read_mono hm (by rw [h10]; intro h; cases h), h10]

/-- An included file without characters: `readFileToString` looks at the character before its buffer. -/
theorem empty_file : readUb (fun f => if f = ['m'] then some "$[ a $]\n".toList else if f = ['a'] then some [] else none) 10 ['m'] = true := by decide +kernel

/-- A comment `$( Begin $[ a $] $)` in a file makes the program take the text after it as the contents of `a`; without an `$( End` it reads beyond the
text. -/
theorem markup_swallows : readUb (fun f => if f = ['m'] then some "$( Begin $[ a $] $)\n".toList else none) 10 ['m'] = true := by decide +kernel

/-- In the text between Begin and End, inclusions are looked for, but their expansion is thrown away: the text still contains `$[ b $]`, and the program goes
on too far behind. -/
theorem block_nested : readUb (fun f => if f = ['m'] then some "$( Begin $[ a $] $)\n$[ b $]\n$( End $[ a $] $)\n".toList else if f = ['b'] then some "$c w $.\n".toList else none) 10 ['m'] = true := by
  decide +kernel

/-- Files `m`, `ab` and `a`; the name `a` is the beginning of `ab`. -/
def diskPre (f : Name) : Option (List Char) :=
  if f = ['m'] then some "$[ ab $]\n".toList else if f = ['a', 'b'] then some "$[ a $] $c y $.\n".toList else if f = ['a'] then some "$c x $.\n".toList else none

def textPre : String := "$( Begin $[ ab $] $)\n$( Begin $[ a $] $)\n$c x $.\n$( End $[ a $] $) $c y $.\n$( End $[ ab $] $)\n"

/-- The text made of these files is not accepted when it is read again: `$( End $[ a $] $)` is taken as the end of `ab`. -/
theorem prefix_names : readIs diskPre 10 ['m'] textPre = true ∧ readErr (fun f => if f = ['m'] then some textPre.toList else none) 10 ['m'] = true := by
  refine ⟨by decide +kernel, by decide +kernel⟩

/-- A UTF-16 file whose lines end with carriage returns is read as one line. -/
theorem utf16_mac : readFileToString (([255, 254, 97, 0, 13, 0, 98, 0] : List Nat).map Char.ofNat) = .val (some ['a', 'b', '\n']) := by rfl

end MM.Incl
