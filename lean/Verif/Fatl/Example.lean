import Verif.Fatl.Props
/-!
# Concrete cases of C29
-/
namespace MM.Fatl

/-- `fatalErrorPush("a%s%%", "bc")`, `fatalErrorPush("%u%x", 4294967295)` and `fatalErrorPush(NULL)` -/
def exCalls : List Call := [⟨some "a%s%%".toList, [.str (some "bc".toList)]⟩, ⟨some "%u%x".toList, [.num 4294967295]⟩, ⟨none, []⟩]

theorem ex_ok : CallsOk exCalls ["abc%".toList, "4294967295%x".toList, []] := by
  have n1 : ∀ {l : List Char}, (∀ c ∈ l, c.toNat ≠ 0) → NoNul l := fun h => h
  refine .cons ⟨?_, ?_, ?_⟩ (.cons ⟨?_, ?_, ?_⟩ (.cons ⟨rfl, ?_, ?_⟩ .nil))
  · have : Expands "a%s%%".toList [.str (some "bc".toList)] ('a' :: ("bc".toList ++ ['%'])) := .char (by decide) (.str _ (.percent (.done _)))
    exact this
  · intro x hx; cases hx; exact n1 (by decide)
  · intro x hx; simp at hx; subst hx; exact n1 (by decide)
  · have : Expands "%u%x".toList [.num 4294967295] (Nat.toDigits 10 4294967295 ++ ['%', 'x']) :=
      .num _ (by decide) (.stray (by decide) (by decide) (by decide) (.char (by decide) (.done _)))
    exact this
  · intro x hx; cases hx; exact n1 (by decide)
  · intro x hx; simp at hx
  · intro x hx; cases hx
  · intro x hx; simp at hx

/-- With room for 9 characters the text is truncated. -/
example : ∃ b, pushAll 10 exCalls (initBuffer 10) = .val (b, [true, false, false]) ∧ cstr b.text = .val "abc%429496...\n".toList := by
  refine ⟨⟨"abc%429496...\n".toList ++ [nul], 10⟩, ?_, ?_⟩ <;> decide +kernel

example : ∃ b rs, pushAll 1024 exCalls (initBuffer 1024) = .val (b, rs) ∧ cstr b.text = .val "abc%4294967295%x".toList ∧ rs[2]? = some true := by
  obtain ⟨b, rs, h1, _, h3, _, h5⟩ := C29_push_sequence (C := 1024) ex_ok
  exact ⟨b, rs, h1, h3, h5 2 (by decide)⟩

example : exitAt 1024 (some "mmdata.c".toList) 2958 (some "?FATAL ERROR %u Out of memory".toList) [.num 1376] =
    .val "At mmdata.c:2958\n?FATAL ERROR 1376 Out of memory\n".toList := by
  have he : ExpandsOpt (some "?FATAL ERROR %u Out of memory".toList) [.num 1376] ("?FATAL ERROR ".toList ++ (Nat.toDigits 10 1376 ++ " Out of memory".toList)) := by
    have h := expands_chars (p := " Out of memory".toList) (by decide) (.done [])
    rw [List.append_nil] at h
    exact expands_chars (p := "?FATAL ERROR ".toList) (by decide) (.num 1376 (by decide) h)
  rw [C29_exit_at (by decide) (by intro x hx; cases hx; unfold NoNul; decide) (by intro x hx; cases hx; unfold NoNul; decide) (by intro x hx; simp at hx) he]
  decide +kernel

/-- The line feed that is supplied may itself overflow the buffer. -/
example : exitAt 4 none 0 (some "abc".toList) [] = .val "abc\n...\n".toList := by decide +kernel

end MM.Fatl
