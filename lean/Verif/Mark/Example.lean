import Verif.Mark.Props
/-!
# C93: examples
-/
namespace MM.Mark.Ex
open MM.Vstr MM.Veri MM.Mark

def g : Nat → Char := fun _ => 'x'

/-- Three statements: the last comment before the first one has the phrase, over two lines; before the second one it is in a comment that is not the last; the third is a hypothesis. -/
def sec1 : Str := "\n  $( First. $)\n  $( An axiom.  (New\tusage\n     is discouraged.) $)\n ax-1 ".toList
def sec2 : Str := " $( (New usage is discouraged.) $) $( Another one. $) ax-2 ".toList
def sec3 : Str := " $( (New usage is discouraged.) $) hyp ".toList
/-- The line break has no space before it nor behind it. -/
def sec4 : Str := " $( (New usage\nis discouraged.) $) ax-4 ".toList

def db : Db := ⟨4, fun i => if i = 3 then .e else .a, fun i => if i = 1 then sec1 else if i = 2 then sec2 else if i = 3 then sec3 else if i = 4 then sec4 else []⟩

def flags (o : Option Cache) : List (Nat × Nat) → List (Option Bool)
  | [] => []
  | (i, mode) :: l => match getMarkupFlag g db o i mode with
    | .val r => some r.1 :: flags r.2 l
    | _ => none :: flags o l

theorem asked : flags none [(1, 2), (1, 1), (2, 2), (3, 2), (1, 2), (4, 2), (5, 2), (0, 1)] = [some true, some false, some false, some false, some true, some false, none, none] := by
  decide +kernel

theorem db_ok : ∀ i, CString (db.sec i) := by
  intro i
  show CString (if i = 1 then sec1 else if i = 2 then sec2 else if i = 3 then sec3 else if i = 4 then sec4 else [])
  split
  · unfold CString; decide +kernel
  split
  · unfold CString; decide +kernel
  split
  · unfold CString; decide +kernel
  split
  · unfold CString; decide +kernel
  · intro c hc; cases hc

theorem fresh : Reached g db none := .read db db_ok

def first : Option (Bool × Option Cache) := match getMarkupFlag g db none 1 2 with
  | .val r => some r
  | _ => none

/-- After the first statement was asked for, the theorem applies, to all four. -/
example : ∃ o, Reached g db (some o) ∧ (∃ b o', getMarkupFlag g db (some o) 2 2 = .val (b, o') ∧ (b = true ↔ Marked db usageMarkup 2)) ∧ Marked db usageMarkup 1 ∧
    ¬ Marked db usageMarkup 2 ∧ ¬ Marked db usageMarkup 3 := by
  have h1 : first.map (fun r => (r.1, r.2.isSome)) = some (true, true) := by decide +kernel
  have m : ∀ i ∈ [1, 2, 3], ∃ b o', getMarkupFlag g db none i 2 = .val (b, o') ∧ (b = true ↔ Marked db usageMarkup i) := fun i hi =>
    (C93_flag fresh (by revert i; decide) (by revert i; decide) (by revert i; decide)).2
  have a : ∀ i v, flags none [(i, 2)] = [some v] → ∀ b o', getMarkupFlag g db none i 2 = .val (b, o') → b = v := by
    intro i v h b o' e
    unfold flags at h
    rw [e] at h
    exact Option.some.inj (List.cons.inj h).1
  obtain ⟨b1, o1, e1, i1⟩ := m 1 (by simp)
  obtain ⟨b2, o2, e2, i2⟩ := m 2 (by simp)
  obtain ⟨b3, o3, e3, i3⟩ := m 3 (by simp)
  have v1 := a 1 true (by decide +kernel) _ _ e1
  have v2 := a 2 false (by decide +kernel) _ _ e2
  have v3 := a 3 false (by decide +kernel) _ _ e3
  unfold first at h1
  rw [e1] at h1
  cases o1 with
  | none => simp at h1
  | some o =>
    have hr : Reached g db (some o) := .ask fresh e1
    refine ⟨o, hr, (C93_flag hr (by decide) (by decide) (by decide)).2, i1.mp v1, fun h => ?_, fun h => ?_⟩
    · rw [i2.mpr h] at v2; cases v2
    · rw [i3.mpr h] at v3; cases v3

/-- Finding: a line break alone does not count as a space.  If `(New usage is discouraged.)` is broken at the left margin, the statement is not discouraged: the words are joined
to `(New usageis discouraged.)` before the phrase is looked for. -/
theorem C93_line_break_at_margin : ¬ Marked db usageMarkup 4 ∧ getDescription g sec4 = .val "(New usage\nis discouraged.)".toList := by
  refine ⟨fun h => ?_, by decide +kernel⟩
  obtain ⟨b, o', e, hi⟩ := (C93_flag fresh (i := 4) (by decide) (by decide) (by decide)).2
  have e2 := hi.mpr h
  have : flags none [(4, 2)] = [some false] := by decide +kernel
  unfold flags at this
  rw [e] at this
  rw [e2] at this
  cases (List.cons.inj this).1

/-- A phrase with the same words and a space more is read. -/
example : Has usageMarkup "x (New  usage \n is discouraged.) y".toList := by
  refine (has_iff phrase_usage false).mp ?_
  exact ⟨"x ".toList, " y".toList, by decide +kernel⟩

end MM.Mark.Ex
