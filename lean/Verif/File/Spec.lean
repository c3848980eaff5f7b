import Verif.File.Model
/-!
# What the user relies on when a file is overwritten

Written without the functions of the model except the file system, the environment and the names of the versions (`fn~1`, `fn~2`, …).
-/
namespace MM.File

/-- The file and its versions: number 0 is the file itself, number `k` is `fileName~k`. -/
def verName (fileName : Vstr.Str) : Nat → Vstr.Str
  | 0 => fileName
  | k + 1 => fileName ++ ['~'] ++ (Nat.repr (k + 1)).toList

/-- No `rename` and no `fopen` for reading fails when its file exists. -/
structure Os.NoRenameFails (o : Os) : Prop where
  openR : ∀ n, o.openR n = false
  rename : ∀ n, o.rename n = false

/-- No library call fails without reason. -/
structure Os.AllWork (o : Os) : Prop where
  openR : ∀ n, o.openR n = false
  rename : ∀ n, o.rename n = false
  remove : ∀ n, o.remove n = false
  openW : ∀ n, o.openW n = false

/-- All versions before `k` (the file itself included) exist: version `k - 1` is going to be moved to `k`. -/
def AllBefore (fs : Fs) (fileName : Vstr.Str) (k : Nat) : Prop := ∀ j, j < k → fs (verName fileName j) ≠ none

/-- Directory `s` has lost nothing of directory `fs` that the user may want back: the file is still there, or it is version 1; every version is still
there, or it is the next version; or it was version 9 of a full set of versions; all other files are as they were. -/
structure Safe (fileName : Vstr.Str) (fs s : Fs) : Prop where
  file : ∀ d, fs fileName = some d → s fileName = some d ∨ s (verName fileName 1) = some d
  versions : ∀ k d, 1 ≤ k → k ≤ 9 → fs (verName fileName k) = some d →
    s (verName fileName k) = some d ∨ (k < 9 ∧ s (verName fileName (k + 1)) = some d) ∨ (k = 9 ∧ AllBefore fs fileName 10)
  others : ∀ x, (∀ k, k ≤ 9 → x ≠ verName fileName k) → s x = fs x

/-- Directory `s` is `fs` with the file and the versions before the first gap moved up by one, version 9 being dropped; the file itself does not exist any
more. -/
structure MovedUp (fileName : Vstr.Str) (fs s : Fs) : Prop where
  gone : s fileName = none
  moved : ∀ k, k < 9 → AllBefore fs fileName (k + 1) → s (verName fileName (k + 1)) = fs (verName fileName k)
  beyondGap : ∀ k, k ≤ 9 → ¬ AllBefore fs fileName k → s (verName fileName k) = fs (verName fileName k)
  others : ∀ x, (∀ k, k ≤ 9 → x ≠ verName fileName k) → s x = fs x

end MM.File
