import Verif.Cmdl.Lists
import Verif.Vstr.Props
/-!
# C78: the tests of a command
-/
namespace MM.Cmdl
open MM.Vstr MM.Date

/-- The words `ws`, written with a space between them, are `cmd`. -/
def Spaced (cmd : Str) (ws : List Str) : Prop := ws ≠ [] ∧ (∀ w ∈ ws, ' ' ∉ w) ∧ cmd = [' '].intercalate ws

theorem spaced_flatten : ∀ ws : List Str, ws ≠ [] → ' ' :: [' '].intercalate ws = (ws.map (' ' :: ·)).flatten
  | [], h => absurd rfl h
  | [w], _ => by simp [List.intercalate]
  | w :: v :: ws, _ => by
    have := spaced_flatten (v :: ws) (by simp)
    rw [List.map_cons, List.flatten_cons, ← this]
    simp [List.intercalate]

theorem count_flatten : ∀ ws : List Str, ((ws.map (' ' :: ·)).flatten).count ' ' = ws.length + (ws.map (List.count ' ')).sum
  | [] => rfl
  | w :: ws => by
    have := count_flatten ws
    simp only [List.map_cons, List.flatten_cons, List.count_append, this, List.length_cons, List.sum_cons]
    simp
    omega

theorem sum_zero : ∀ ws : List Str, (ws.map (List.count ' ')).sum = 0 ↔ ∀ w ∈ ws, ' ' ∉ w
  | [] => by simp
  | w :: ws => by
    rw [List.map_cons, List.sum_cons, Nat.add_eq_zero_iff, sum_zero ws]
    simp [List.count_eq_zero]

/-- **C78.** A command is taken as the command `cmd` exactly if its first words are the words of `cmd`, whatever spaces there are in its arguments. -/
theorem C78_matches (full : List Str) (cmd : Str) : cmdMatches full cmd = true ↔ ∃ ws, Spaced cmd ws ∧ ws <+: full := by
  unfold cmdMatches
  constructor
  · intro h
    split at h
    · cases h
    rename_i hl
    have h := of_decide_eq_true h
    have hn : (full.take (cmd.count ' ' + 1)).length = cmd.count ' ' + 1 := by rw [List.length_take]; omega
    refine ⟨full.take (cmd.count ' ' + 1), ⟨?_, ?_, ?_⟩, List.take_prefix _ _⟩
    · intro e; rw [e] at hn; simp at hn
    · rw [← sum_zero]
      have hc := count_flatten (full.take (cmd.count ' ' + 1))
      rw [← h, hn] at hc
      rw [List.count_cons_self] at hc
      omega
    · rw [← spaced_flatten _ (by intro e; rw [e] at hn; simp at hn)] at h
      exact (List.cons.inj h).2
  · rintro ⟨ws, ⟨h1, h2, h3⟩, r, h4⟩
    have hc : cmd.count ' ' + 1 = ws.length := by
      have := count_flatten ws
      rw [← spaced_flatten _ h1, ← h3, (sum_zero ws).mpr h2] at this
      simpa using this
    have hlen : ws.length ≤ full.length := by rw [← h4]; simp
    rw [if_neg (by omega), hc]
    apply decide_eq_true
    rw [← h4, List.take_left, ← spaced_flatten _ h1, h3]

/-- A switch: `/` and the word after it, at index `i`. -/
def SwitchAt (full : List Str) (sw : Str) (i : Nat) : Prop := full[i]? = some ['/'] ∧ full[i + 1]? = some sw

theorem switchGo_spec (sw : Str) : ∀ (full : List Str) (i : Nat), (switchGo sw full i = 0 ∧ ∀ q, ¬ SwitchAt full sw q) ∨
    ∃ q, switchGo sw full i = i + q + 1 ∧ SwitchAt full sw q ∧ ∀ p < q, ¬ SwitchAt full sw p
  | [], i => Or.inl ⟨by rw [switchGo], fun q h => by simp [SwitchAt] at h⟩
  | [a], i => Or.inl ⟨by rw [switchGo], fun q h => by simp [SwitchAt] at h⟩
  | a :: b :: l, i => by
    rw [switchGo]
    by_cases h : a = ['/'] ∧ b = sw
    · rw [if_pos h]
      exact Or.inr ⟨0, rfl, by simp [SwitchAt, h.1, h.2], fun p hp => absurd hp (Nat.not_lt_zero p)⟩
    · rw [if_neg h]
      have h0 : ¬ SwitchAt (a :: b :: l) sw 0 := fun hx => h (by simpa [SwitchAt] using hx)
      have hs : ∀ q, SwitchAt (a :: b :: l) sw (q + 1) ↔ SwitchAt (b :: l) sw q := fun q => by simp [SwitchAt]
      rcases switchGo_spec sw (b :: l) (i + 1) with ⟨e, hq⟩ | ⟨q, e, hq, hp⟩
      · refine Or.inl ⟨e, fun q => ?_⟩
        cases q with
        | zero => exact h0
        | succ q => rw [hs]; exact hq q
      · refine Or.inr ⟨q + 1, by rw [e]; omega, (hs q).mpr hq, fun p hp' => ?_⟩
        cases p with
        | zero => exact h0
        | succ p => rw [hs]; exact hp p (by omega)

/-- **C78.** Looking for a switch gives 0 exactly if it is not there, and otherwise the number of its `/` (the first word has number 1), for the first of them. -/
theorem C78_switch {full : List Str} {sw : Str} (h : ' ' ∉ sw) : ∃ p, switchPos full sw = .val p ∧ (p = 0 ↔ ∀ q, ¬ SwitchAt full sw q) ∧
    (p ≠ 0 → SwitchAt full sw (p - 1) ∧ ∀ q < p - 1, ¬ SwitchAt full sw q) := by
  have hi : instr 1 sw [' '] = 0 := by
    rcases C26_instr 1 sw [' '] (by simp) with ⟨e, _⟩ | ⟨_, ho, _⟩
    · exact e
    · exfalso
      obtain ⟨pre, post, e, _⟩ := ho
      exact h (by rw [e]; simp)
  unfold switchPos
  rw [if_neg (fun e => e hi)]
  rcases switchGo_spec sw full 0 with ⟨e, hq⟩ | ⟨q, e, hq, hp⟩
  · exact ⟨_, rfl, by simp [e]; exact hq, fun hn => absurd e hn⟩
  · refine ⟨_, rfl, ?_, fun _ => ?_⟩
    · rw [e]
      exact ⟨fun h => by omega, fun h => absurd hq (h q)⟩
    · rw [e, show 0 + q + 1 - 1 = q by omega]
      exact ⟨hq, hp⟩

/-! ## A part of the tree, and examples -/

/-- The tree of the command READ in the normal mode (src/mmcmdl.c 52–70, 133–153); the other commands are left out here. -/
def nextRead (l : List Str) : Next :=
  if l.length = 0 then .call (keyLists.getD 0 [])
  else if l.getD 0 [] ≠ "READ".toList then .bad
  else if l.length = 1 then .call "& What is the name of the source input file? ".toList
  else if l.length = 2 then .call ['/', '|', '$', '|', '<', '$', '>']
  else if l.length = 3 ∧ l.getD 2 [] = ['/'] then .call ['V', 'E', 'R', 'I', 'F', 'Y', '|', '<', 'V', 'E', 'R', 'I', 'F', 'Y', '>']
  else .good

theorem nextRead_sane (l : List Str) (cmd : Str) (h : nextRead l = .call cmd) : Sane cmd := by
  unfold nextRead at h
  split at h
  · rw [← Next.call.inj h]
    exact keyLists_sane _ (by decide +kernel)
  split at h
  · cases h
  split at h
  · rw [← Next.call.inj h]
    exact sane_other (Or.inr (by decide +kernel))
  split at h
  · rw [← Next.call.inj h]
    exact keyLists_sane _ (by decide +kernel)
  split at h
  · rw [← Next.call.inj h]
    exact keyLists_sane _ (by decide +kernel)
  · cases h

def exRead : World := ⟨fun n => if n = 0 then "set.mm".toList else [], fun w => w == "set.mm".toList⟩

example : process exRead nextRead 5 ⟨["r".toList, "set.mm".toList, "/".toList, "v".toList], [], false, 0⟩ =
    .val (some ["READ".toList, "set.mm".toList, "/".toList, "VERIFY".toList],
      ⟨["r".toList, "set.mm".toList, "/".toList, "v".toList], ["READ".toList, "set.mm".toList, "/".toList, "VERIFY".toList], false, 0⟩) := by decide +kernel

/-- The file is asked for, and then whether there is a switch. -/
theorem exRead_asked : process exRead nextRead 5 ⟨["r".toList], [], false, 0⟩ =
    .val (some ["READ".toList, "set.mm".toList], ⟨["r".toList, "set.mm".toList], ["READ".toList, "set.mm".toList, nothing3], true, 2⟩) := by decide +kernel

/-- `C78_full_form_partial` for it: no question is asked. -/
example : process ⟨fun _ => "x".toList, exRead.opens⟩ nextRead 5 ⟨["READ".toList, "set.mm".toList], [], false, 0⟩ =
    .val (some ["READ".toList, "set.mm".toList], ⟨["READ".toList, "set.mm".toList], ["READ".toList, "set.mm".toList, nothing3], false, 0⟩) := by
  refine C78_full_form_partial (W := exRead) nextRead_sane (fun n => ?_) rfl exRead_asked
  unfold exRead
  dsimp only
  split <;> decide +kernel

/-- Too many words: not accepted. -/
example : process exRead nextRead 5 ⟨["r".toList, "set.mm".toList, "/".toList, "v".toList, "x".toList], [], false, 0⟩ =
    .val (none, ⟨["r".toList, "set.mm".toList, "/".toList, "v".toList, "x".toList], ["READ".toList, "set.mm".toList, "/".toList, "VERIFY".toList], false, 0⟩) := by decide +kernel

/-- The tree of the command CLOSE (src/mmcmdl.c 319–322). -/
def nextClose (l : List Str) : Next :=
  if l.length = 0 then .call (keyLists.getD 0 [])
  else if l.length = 1 then .call ['L', 'O', 'G', '|', 'T', 'E', 'X', '|', '<', 'L', 'O', 'G', '>']
  else .good

/-- A defect: if a user answers the question of `CLOSE` with `nothing`, in small letters, the program takes this for no argument and accepts the command `CLOSE`, which, given in
full, has an argument: the premise of `C78_full_form_partial` cannot be left out. -/
theorem C78_nothing_answer : (process ⟨fun _ => nothingWord, fun _ => true⟩ nextClose 3 ⟨["CLOSE".toList], [], false, 0⟩ =
      .val (some ["CLOSE".toList], ⟨["CLOSE".toList], ["CLOSE".toList, nothing3], true, 1⟩)) ∧
    (process ⟨fun _ => [], fun _ => true⟩ nextClose 3 ⟨["CLOSE".toList], [], false, 0⟩ =
      .val (some ["CLOSE".toList, "LOG".toList], ⟨["CLOSE".toList, "LOG".toList], ["CLOSE".toList, "LOG".toList], true, 1⟩)) := by decide +kernel

/-- A defect: a question with a default that has ` ALL` in it, such as the name of a contributor, offers ALL: every name that begins with A becomes `ALL`. -/
theorem C78_contributor : getFullArg exWorld "* What is the contributor name for SAVE (NEW_)PROOF <J. ALLEN>? ".toList 2
      ⟨["SET".toList, "CONTRIBUTOR".toList, "ada".toList], ["SET".toList, "CONTRIBUTOR".toList], false, 0⟩ =
    .val (none, ⟨["SET".toList, "CONTRIBUTOR".toList, "ada".toList], ["SET".toList, "CONTRIBUTOR".toList, "ALL".toList], false, 0⟩) := by decide +kernel

example : cmdMatches ["SHOW".toList, "PROOF".toList, "a b".toList] "SHOW PROOF".toList = true ∧ cmdMatches ["SHOW".toList, "PROOF".toList, "a b".toList] "SHOW PROOF a".toList = false ∧
    cmdMatches ["SHOW".toList] "SHOW PROOF".toList = false := by decide +kernel

/-- The example in the comment of `switchPos` in the source. -/
example : switchPos ["DISPLAY".toList, "PROOF".toList, "/".toList, "UNKNOWN".toList, "/".toList, "START_STEP".toList, "=".toList, "10".toList, "/".toList, "ESSENTIAL".toList]
    "START_STEP".toList = .val 5 := by decide +kernel

/-- A defect: the words `"/" ALL` of `SEARCH "/" ALL` are a label and a string, but also a switch. -/
theorem C78_quoted_switch : switchPos ["SEARCH".toList, "/".toList, "ALL".toList] "ALL".toList = .val 2 := by decide +kernel

end MM.Cmdl
