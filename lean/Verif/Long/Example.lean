import Verif.Long.Norm
/-!
# `printLongLine` on examples
-/
namespace MM.Long
open MM.Vstr MM.Lex MM

/-- The output is `t`. -/
def prints (o : Out (List Str)) (t : String) : Bool := match o with
  | .val ls => decide (printed ls = t.toList)
  | _ => false

/-- A text of two lines with a word that is too long: that word stands on a line of its own. -/
example : prints (printLongLine 20 "the quick brown fox jumps over\nthe lazy dog and theextremelylongwordthatcannotbreak here".toList "    ".toList [' '])
    "the quick brown fox\n    jumps over\nthe lazy dog and\ntheextremelylongwordthatcannotbreak\n    here\n" = true := by decide +kernel

/-- It meets the hypotheses of `C61_words`. -/
example : ∃ ls, printLongLine 20 "the quick brown fox jumps over\nthe lazy dog and theextremelylongwordthatcannotbreak here".toList "    ".toList [' '] = .val ls ∧
    words (printed ls) = words "the quick brown fox jumps over\nthe lazy dog and theextremelylongwordthatcannotbreak here".toList :=
  C61_words words_fn (by simp) (by decide +kernel) (by unfold White; decide +kernel) (by decide)

/-- The quote mode does not break inside of quotes. -/
example : prints (printLongLine 24 "<A HREF=\"a b c d e f g\"> some text here".toList [] ['"']) "<A HREF=\"a b c d e f g\">\nsome text here\n" = true := by decide +kernel

/-- The mode for `~`. -/
example : prints (printLongLine 20 "the quick brown fox jumps over".toList ['~'] [' ']) "the quick brown fox~\n jumps over\n" = true := by decide +kernel

/-- Right-justified continuation lines. -/
example : prints (printLongLine 30 "aaa bb cccc ddd eeeeee fff gggg hhhh".toList [' ', ' '] [Char.ofNat 1])
    "aaa bb cccc ddd eeeeee fff\n                     gggg hhhh\n" = true := by decide +kernel

/-- Without break characters no line is too long. -/
example : prints (printLongLine 10 "abcdefghijklmnopqrstuvw".toList [' ', ' '] []) "abcdefghij\n  klmnopqr\n  stuvw\n" = true := by decide +kernel

example : ∃ ls, printLongLine 10 "abcdefghijklmnopqrstuvw".toList [' ', ' '] [] = .val ls ∧ ∀ x ∈ ls, (x.length : Int) ≤ 10 :=
  C61_width (by simp [modes]) (by simp) (by decide +kernel) (by simp) (by decide) (fun _ _ => Or.inl rfl)

/-- A compressed proof. -/
example : prints (printLongLine 14 "  ( wi ax-1 ax-2 ax-mp ) ABABCDEFGHIJKLMNOPQRSTUAUBUCUDZ $.".toList [' ', ' '] ['&', ' '])
    "  ( wi ax-1\n  ax-2 ax-mp )\n  ABABCDEFGHIJ\n  KLMNOPQRSTUA\n  UBUCUDZ $.\n" = true := by decide +kernel

/-- It meets the hypotheses of `C61_code`. -/
example : ∃ ls P u, printLongLine 14 ("  ( wi ax-1 ax-2 ax-mp ".toList ++ ')' :: ' ' :: ("ABABCDEFGHIJKLMNOPQRSTUAUBUCUDZ".toList ++ [' ', '$', '.'])) [' ', ' '] ['&', ' '] = .val ls ∧
    printed ls = P ++ ')' :: (u ++ [' ', '$', '.', '\n']) ∧ (∀ (α : Type) (f : Str → List α), WordFn f → f P = f "  ( wi ax-1 ax-2 ax-mp ".toList) ∧
      u.filter printable = "ABABCDEFGHIJKLMNOPQRSTUAUBUCUDZ".toList ∧ ∀ d ∈ P ++ u, printable d = true ∨ d ∈ "  ( wi ax-1 ax-2 ax-mp ".toList ∨ d = ' ' ∨ d = '\n' :=
  C61_code (by decide +kernel) (by decide +kernel) (by decide +kernel) (by decide +kernel) (by decide +kernel) (by decide +kernel) (by decide)

/-- A proof in the normal format. -/
example : prints (printLongLine 12 "  wph wps ax-1 ax-2 ax-mp $.".toList [' ', ' '] [' ']) "  wph wps\n  ax-1 ax-2\n  ax-mp $.\n" = true := by decide +kernel

/-- It meets the hypotheses of `C61_normal`. -/
example : ∃ ls P, printLongLine 12 ("  wph wps ax-1 ax-2 ax-mp".toList ++ [' ', '$', '.']) [' ', ' '] [' '] = .val ls ∧ printed ls = P ++ [' ', '$', '.', '\n'] ∧
    (∀ (α : Type) (f : Str → List α), WordFn f → f P = f "  wph wps ax-1 ax-2 ax-mp".toList) ∧
      ∀ d ∈ P, printable d = true ∨ d ∈ "  wph wps ax-1 ax-2 ax-mp".toList ∨ d = ' ' ∨ d = '\n' :=
  C61_normal (by decide +kernel) (by decide +kernel) (by decide) (by decide)

/-- An HTML attribute with spaces: `C61_quotes`. -/
example : shown ['"'] "<A HREF=\"a b\"> x y".toList = "<A HREF=\"a".toList ++ QSP :: "b\"> x y".toList := by
  have := C61_quotes [("<A HREF".toList, "a b".toList)] "> x y".toList (by decide +kernel) (by decide +kernel)
  simpa using this

/-- The bound 5 on the width is needed.  `SET WIDTH 4` is allowed, but then the indentation is cut to nothing, the text of a compressed proof does not end with ` $.`, and SAVE PROOF
stops with BUG #1128 ... -/
theorem C61_witness_width_4 : prints (printLongLine 4 "  ( ax-mp ) ABABCDEF $.".toList [' ', ' '] ['&', ' ']) "  (\nax-mp\n) ABA\nBCDEF\n$.\n" = true := by decide +kernel

/-- ... and with `SET WIDTH 3` a line that needs a margin cannot be printed at all: BUG #1524. -/
theorem C61_witness_width_3 : (match printLongLine 3 "a b c d e".toList [] ['\\'] with | .bug n => decide (n = 1524) | _ => false) = true := by decide +kernel

end MM.Long
