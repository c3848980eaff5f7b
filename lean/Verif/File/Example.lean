import Verif.File.Main
/-!
# Concrete cases for C59, and what happens when a `rename` fails
-/
namespace MM.File.Example
open Vstr

/-- Everything works. -/
def good : Os := ⟨fun _ => false, fun _ => false, fun _ => false, fun _ => false⟩
theorem good_all : good.AllWork := ⟨fun _ => rfl, fun _ => rfl, fun _ => rfl, fun _ => rfl⟩
/-- `remove` and `fopen` for writing never work. -/
def halfGood : Os := ⟨fun _ => false, fun _ => true, fun _ => true, fun _ => false⟩
theorem halfGood_no : halfGood.NoRenameFails := ⟨fun _ => rfl, fun _ => rfl⟩

/-- A directory given by a list. -/
def dir (l : List (String × String)) : Fs := fun x => (l.find? (fun p => p.1.toList == x)).map (fun p => p.2.toList)
def start (l : List (String × String)) : W := ⟨dir l, 0, []⟩
/-- The contents of some files in the end. -/
def show' (r : Out (Bool × W)) (names : List String) : Option (Bool × List (Option String)) :=
  match r with
  | .val (b, w) => some (b, names.map (fun n => (w.fs n.toList).map String.ofList))
  | _ => none

/-- Two versions, a gap at 3, and version 4. -/
def gapDir : List (String × String) := [("a.mm", "now"), ("a.mm~1", "one"), ("a.mm~2", "two"), ("a.mm~4", "four"), ("b", "other")]

example : show' (fSafeOpen good "a.mm".toList ['w'] false (start gapDir)) ["a.mm", "a.mm~1", "a.mm~2", "a.mm~3", "a.mm~4", "b"] =
    some (true, [some "", some "now", some "one", some "two", some "four", some "other"]) := by decide +kernel

/-- The hypotheses of `C59_versions` and `C59_crash` are met by this directory, and some crash points there are. -/
example : (start gapDir).fs "a.mm".toList ≠ none := by decide +kernel
example : ((match fSafeOpen good "a.mm".toList ['w'] false (start gapDir) with | .val (_, w) => w.seen.length | _ => 0) = 4) := by decide +kernel

/-- A full set: version 9 is dropped, also when `remove` and the final `fopen` fail. -/
def fullDir : List (String × String) := [("a", "0"), ("a~1", "1"), ("a~2", "2"), ("a~3", "3"), ("a~4", "4"), ("a~5", "5"), ("a~6", "6"), ("a~7", "7"), ("a~8", "8"), ("a~9", "9")]
example : show' (fSafeOpen good "a".toList ['d'] false (start fullDir)) ["a", "a~1", "a~2", "a~8", "a~9", "a~10"] =
    some (false, [none, some "0", some "1", some "7", some "8", none]) := by decide +kernel
example : show' (fSafeOpen halfGood "a".toList ['w'] false (start fullDir)) ["a", "a~1", "a~2", "a~8", "a~9", "a~10"] =
    some (false, [none, some "0", some "1", some "7", some "8", none]) := by decide +kernel

/-- A history of three saves into an empty directory. -/
example : Holds (start []).fs "a".toList [] := by intro k _; rfl
example : (match saves good "a".toList ["x".toList, "y".toList, "z".toList] (start []) with
    | .val w => [w.fs "a".toList, w.fs "a~1".toList, w.fs "a~2".toList, w.fs "a~3".toList] | _ => []) = [some ['z'], some ['y'], some ['x'], none] := by decide +kernel

/-- Renaming a temporary file. -/
def tmpDir : List (String × String) := [("zz~list1.tmp", "new"), ("out", "old"), ("out~1", "older")]
example : show' (fSafeRename good "zz~list1.tmp".toList "out".toList (start tmpDir)) ["zz~list1.tmp", "out", "out~1", "out~2"] =
    some (true, [none, some "new", some "old", some "older"]) := by decide +kernel
example : show' (fSafeRename halfGood "zz~list1.tmp".toList "out".toList (start tmpDir)) ["zz~list1.tmp", "out", "out~1", "out~2"] =
    some (false, [some "new", none, some "old", some "older"]) := by decide +kernel
example : ∀ k, k ≤ 9 → "zz~list1.tmp".toList ≠ verName "out".toList k := by
  intro k hk
  have : ∀ k < 10, "zz~list1.tmp".toList ≠ verName "out".toList k := by decide +kernel
  exact this k (by omega)
example : (match fGetTmpName good "zz~list".toList 0 (start tmpDir) with | .val (n, c, _) => (String.ofList n, c) | _ => ("", 0)) = ("zz~list2.tmp", 2) := by
  decide +kernel

/-- `rename` never works: for example the directory is not writable, or, on a system where `rename` refuses an existing target, `fn~9` could not be removed. -/
def noRename : Os := ⟨fun _ => false, fun _ => false, fun _ => false, fun _ => true⟩

/-- **Finding**: the result of `rename` is not looked at.  If it fails, `fSafeOpen` goes on, truncates the file and reports success: the old contents are
nowhere. -/
theorem C59_failing_rename_loses_the_file :
    show' (fSafeOpen noRename "a.mm".toList ['w'] false (start [("a.mm", "now")])) ["a.mm", "a.mm~1"] = some (true, [some "", none]) := by decide +kernel

/-- Only the rename of version 2 to version 3 fails: version 1 is moved over it. -/
def oneFails (k : Nat) : Os := ⟨fun _ => false, fun _ => false, fun _ => false, fun n => n == k⟩
theorem C59_failing_rename_loses_a_version :
    show' (fSafeOpen (oneFails 6) "a".toList ['w'] false (start [("a", "0"), ("a~1", "1"), ("a~2", "2")])) ["a", "a~1", "a~2", "a~3"] =
      some (true, [some "", some "0", some "1", none]) := by decide +kernel

/-- So the hypothesis of `C59_crash` cannot be dropped. -/
theorem C59_needs_rename : ¬ ∀ (o : Os) (fn : Str) (w : W), ∃ opened w', fSafeOpen o fn ['w'] false w = .val (opened, w') ∧ Safe fn w.fs w'.fs := by
  intro h
  obtain ⟨b, w', e, s⟩ := h noRename "a.mm".toList (start [("a.mm", "now")])
  have hw := C59_failing_rename_loses_the_file
  rw [e] at hw
  have h1 : (w'.fs "a.mm".toList).map String.ofList = some "" ∧ (w'.fs "a.mm~1".toList).map String.ofList = none := by
    unfold show' at hw
    simp only [Option.some.injEq, Prod.mk.injEq, List.map_cons, List.map_nil, List.cons.injEq] at hw
    exact ⟨hw.2.1, hw.2.2.1⟩
  have hv : verName "a.mm".toList 1 = "a.mm~1".toList := by decide +kernel
  rcases s.file "now".toList (by decide +kernel) with q | q
  · rw [q] at h1
    exact absurd h1.1 (by decide +kernel)
  · rw [hv] at q
    rw [q] at h1
    exact absurd h1.2 (by simp)

end MM.File.Example
