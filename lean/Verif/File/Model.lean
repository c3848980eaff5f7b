import Verif.Basic
import Verif.Date.Model
/-!
# Model of the safe file operations of src/mminou.c (`fSafeOpen`, `fSafeRename`, `fGetTmpName`)

The file system is a map from names to contents.  The library functions `fopen`, `remove` and `rename` are modelled as POSIX describes them; each call may
fail, as decided by an arbitrary environment `Os`.  The state records every file system there has been on the way (`seen`): those are the states in which a
crash of the program or of the machine can leave the directory, `remove`, `rename` and the truncation by `fopen(…, "w")` being atomic.

Simplifications: there are no directories, links, or other processes writing to the same files, a file that exists is readable unless the environment makes
`fopen` fail, and messages to the user are not modelled.
-/
namespace MM.File
open Vstr

/-- The contents of the directory. -/
abbrev Fs := Str → Option Str

/-- Which library calls fail: the call number `n` of the program, if it is a call of the function in question, fails if the flag is set.  `exist`: `rename` also
needs its source to exist, and so do `remove` and `fopen(…, "r")`. -/
structure Os where
  openR : Nat → Bool
  openW : Nat → Bool
  remove : Nat → Bool
  rename : Nat → Bool

/-- The state: the directory, the number of calls made, and the directories there have been after each call that may change it, latest first. -/
structure W where
  fs : Fs
  n : Nat
  seen : List Fs

/-- One file changed. -/
def Fs.set (fs : Fs) (name : Str) (v : Option Str) : Fs := fun x => if x = name then v else fs x

variable (o : Os)

/-- `fopen(name, "r")`, directly followed by `fclose` when it succeeds; nothing changes. -/
def openR (name : Str) (w : W) : Bool × W :=
  ((w.fs name).isSome && !o.openR w.n, { w with n := w.n + 1 })

/-- `fopen(name, "w")`: the file is created, or truncated. -/
def openW (name : Str) (w : W) : Bool × W :=
  if o.openW w.n then (false, ⟨w.fs, w.n + 1, w.fs :: w.seen⟩)
  else (true, ⟨w.fs.set name (some []), w.n + 1, w.fs.set name (some []) :: w.seen⟩)

/-- `remove(name)`; the result is whether it succeeded. -/
def remove (name : Str) (w : W) : Bool × W :=
  if o.remove w.n = true ∨ w.fs name = none then (false, ⟨w.fs, w.n + 1, w.fs :: w.seen⟩)
  else (true, ⟨w.fs.set name none, w.n + 1, w.fs.set name none :: w.seen⟩)

/-- The directory after a successful `rename(old, new)`; a file `new` is replaced. -/
def Fs.moved (fs : Fs) (old new : Str) : Fs :=
  if old = new then fs else (fs.set old none).set new (fs old)

/-- `rename(old, new)`; the result is whether it succeeded. -/
def rename (old new : Str) (w : W) : Bool × W :=
  if o.rename w.n = true ∨ w.fs old = none then (false, ⟨w.fs, w.n + 1, w.fs :: w.seen⟩)
  else (true, ⟨w.fs.moved old new, w.n + 1, w.fs.moved old new :: w.seen⟩)

/-- `VERSIONS` (mminou.c 1109) -/
def VERSIONS : Nat := 9

/-- The name of version `v`, `cat(prefix, str(v), postfix)` with `prefix = fileName~` and an empty postfix (mminou.c 1127–1129, 1139, the branch for
unix). -/
def bakName (fileName : Str) (v : Nat) : Str := cat [cat [fileName, ['~']], MM.Date.str v, []]

/-- The scan for the last version before a gap (mminou.c 1145–1152): `todo` are the versions still to look at, the `lastVersion` so far is `last`. -/
def scan (fileName : Str) : List Nat → Nat → W → Nat × W
  | [], last, w => (last, w)
  | v :: todo, last, w =>
    if (openR o (bakName fileName v) w).1 = true then scan fileName todo v (openR o (bakName fileName v) w).2
    else (last, (openR o (bakName fileName v) w).2)

/-- The removal of version `VERSIONS` (mminou.c 1155–1163): the new `lastVersion` and the state. -/
def dropLast (fileName : Str) (last : Nat) (w : W) : Nat × W :=
  if last = VERSIONS then
    if (openR o (bakName fileName VERSIONS) w).1 = true then
      (last - 1, (remove o (bakName fileName VERSIONS) (openR o (bakName fileName VERSIONS) w).2).2)
    else (last - 1, (openR o (bakName fileName VERSIONS) w).2)
  else (last, w)

/-- The loop that renames the versions (mminou.c 1165–1172), from version `v` down to 1. -/
def shiftUp (fileName : Str) : Nat → W → W
  | 0, w => w
  | v + 1, w =>
    if (openR o (bakName fileName (v + 1)) w).1 = true then
      shiftUp fileName v
        (rename o (bakName fileName (v + 1)) (bakName fileName (v + 1 + 1)) (openR o (bakName fileName (v + 1)) w).2).2
    else shiftUp fileName v (openR o (bakName fileName (v + 1)) w).2

/-- Lines 1141–1173 of mminou.c: make room for version 1. -/
def makeRoom (fileName : Str) (w : W) : W :=
  if (openR o (bakName fileName 1) w).1 = true then
    let s := scan o fileName (List.range' 1 VERSIONS) 0 (openR o (bakName fileName 1) w).2
    let d := dropLast o fileName s.1 s.2
    shiftUp o fileName d.1 d.2
  else (openR o (bakName fileName 1) w).2

/-- Lines 1103–1180 of mminou.c: the backup of an existing file. -/
def backup (fileName : Str) (w : W) : W :=
  if (openR o fileName w).1 = true then
    (rename o fileName (bakName fileName 1) (makeRoom o fileName (openR o fileName w).2)).2
  else (openR o fileName w).2

/-- `fSafeOpen(fileName, mode, noVersioningFlag)` (mminou.c 1084–1213).  The result is whether the file pointer is not `NULL`. -/
def fSafeOpen (fileName mode : Str) (noVersioningFlag : Bool) (w : W) : Out (Bool × W) :=
  if mode = ['r'] then .val (openR o fileName w)
  else if mode = ['w'] ∨ mode = ['d'] then
    let w1 := if noVersioningFlag = true then w else backup o fileName w
    if mode = ['w'] then .val (openW o fileName w1)
    else if noVersioningFlag = true then .val (false, (remove o fileName w1).2)
    else .val (false, w1)
  else .bug 1510

/-- The further attempts to remove the file (mminou.c 1234–1237), at most `k` of them. -/
def removeRetry (name : Str) : Nat → W → Bool × W
  | 0, w => (false, w)
  | k + 1, w => if (remove o name w).1 = true then (true, (remove o name w).2) else removeRetry name k (remove o name w).2

/-- The removal in `fSafeRename` (mminou.c 1230–1243). -/
def removeHard (name : Str) (w : W) : Bool × W :=
  if (remove o name w).1 = true then (true, (remove o name w).2) else removeRetry o name 998 (remove o name w).2

/-- `fSafeRename(oldFileName, newFileName)` (mminou.c 1217–1256).  The result is whether the returned error is 0.  `fclose` of the empty file is taken to
succeed. -/
def fSafeRename (oldFileName newFileName : Str) (w : W) : Out (Bool × W) :=
  fSafeOpen o newFileName ['w'] false w >>= fun r =>
    if r.1 = false then .val (false, r.2)
    else if (removeHard o newFileName r.2).1 = false then .val (false, (removeHard o newFileName r.2).2)
    else .val (rename o oldFileName newFileName (removeHard o newFileName r.2).2)

/-- `fGetTmpName(filePrefix)` (mminou.c 1266–1284) with the static `counter`: the name and the new counter.  The loop ends because of the counter; `fuel` counts
the rounds that can still follow. -/
def tmpNameGo (filePrefix : Str) : Nat → Nat → W → Out (Str × Nat × W)
  | 0, _, _ => .fuel
  | fuel + 1, counter, w =>
    let fname := cat [filePrefix, MM.Date.str (counter + 1 : Nat), ".tmp".toList]
    if (openR o fname w).1 = false then .val (fname, counter + 1, (openR o fname w).2)
    else if counter + 1 > 1000 then .val (fname, counter + 1, (openR o fname w).2)
    else tmpNameGo filePrefix fuel (counter + 1) (openR o fname w).2

/-- `fGetTmpName(filePrefix)`, with enough rounds. -/
def fGetTmpName (filePrefix : Str) (counter : Nat) (w : W) : Out (Str × Nat × W) := tmpNameGo o filePrefix (1002 - counter + 1) counter w

/-- A command that saves `text` under `fileName`: it opens the file with `fSafeOpen` and, if that succeeds, writes the text (for instance `writeSource`, mmcmds.c
3765–3779).  The writing is one step here; in between, the file holds a part of the text, and the other files are as they are afterwards. -/
def save (fileName text : Str) (w : W) : Out W :=
  fSafeOpen o fileName ['w'] false w >>= fun r =>
    if r.1 = true then .val ⟨r.2.fs.set fileName (some text), r.2.n, r.2.fs.set fileName (some text) :: r.2.seen⟩ else .val r.2

/-- One save after the other. -/
def saves (fileName : Str) : List Str → W → Out W
  | [], w => .val w
  | t :: ts, w => save o fileName t w >>= fun w' => saves fileName ts w'

end MM.File
