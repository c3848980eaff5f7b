import Verif.Veri.Model

/-!
# Model of `processUndoStack`, `copyProofStruct` (mmpfas.c) and of the commands that call it (metamath.c)
-/
namespace MM.Pfas
open MM.Veri

/-- `struct pip_struct` (mmpfas.h): the proof in progress.  A list is what the C string holds before its terminator. -/
structure Pip where
  proof : List Int
  target : List (List Nat)
  source : List (List Nat)
  user : List (List Nat)
deriving DecidableEq, Repr

/-- The initial and the deallocated structure (mmpfas.c 3161–3178, 3238–3243). -/
def Pip.empty : Pip := ⟨[], [], [], []⟩

/-- `copyProofStruct(&out, p)` (mmpfas.c 3080–3113): what `out` holds afterwards. -/
def copyPip (p : Pip) : Out Pip :=
  if p.proof.length = 0 then .bug 1854
  else if p.proof.length ≠ p.target.length then .bug 1855
  else if p.proof.length ≠ p.source.length then .bug 1856
  else if p.proof.length ≠ p.user.length then .bug 1857
  else .val p

/-- One entry of `proofStack` and `infoStack`. -/
abbrev Slot := Pip × List Char

/-- The static variables of `processUndoStack` (mmpfas.c 3222–3230). -/
structure UStack where
  slots : List Slot
  size : Int
  last : Int
  ptr : Int
  overflowed : Bool
  aborted : Bool

/-- `size` empty entries (mmpfas.c 3237–3244, 3290–3297). -/
def fresh (size : Int) : List Slot := List.replicate size.toNat (Pip.empty, [])

/-- The static variables after the allocation at the first call (mmpfas.c 3225–3246); `DEFAULT_UNDO_STACK_SIZE` is 20. -/
def UStack.start : UStack := ⟨fresh 20, 20, -1, -1, false, false⟩

/-- The actions (mmpfas.c 3210–3216). -/
inductive Act
  | init | push | undo | redo | newSize (n : Int) | getSize | getStatus
deriving DecidableEq

/-- The message printed. -/
inductive Msg
  | none | noUndo | exceeded (max : Int) | undid (info : List Char) | noRedo | redid (info : List Char) | discarded
deriving DecidableEq

/-- The test at the start and the end of the function (mmpfas.c 3232–3235, 3394–3397). -/
def badPtr (u : UStack) : Bool :=
  decide (u.ptr < -1) || decide (u.ptr > u.last) || decide (u.ptr > u.size - 1) || decide (u.last < -1) || decide (u.last > u.size - 1)

/-- Writing an entry; an index outside the allocated array is undefined behaviour. -/
def setSlot (l : List Slot) (i : Int) (x : Slot) : Out (List Slot) :=
  if 0 ≤ i ∧ i.toNat < l.length then .val (l.set i.toNat x) else .ub

/-- Reading an entry. -/
def getSlot (l : List Slot) (i : Int) : Out Slot :=
  if 0 ≤ i then Out.read l i.toNat else .ub

/-- Deallocating the entries `i`, `i+1`, … (`count` of them) (mmpfas.c 3257–3260, 3308–3311). -/
def clear : Nat → Int → List Slot → Out (List Slot)
  | 0, _, l => .val l
  | count + 1, i, l => setSlot l i (Pip.empty, []) >>= clear count (i + 1)

/-- Moving the entries down (mmpfas.c 3321–3331): `stack[i] = stack[i + 1]` for `i`, `i+1`, … (`count` of them). -/
def moveDown : Nat → Int → List Slot → Out (List Slot)
  | 0, _, l => .val l
  | count + 1, i, l => getSlot l (i + 1) >>= fun x => setSlot l i x >>= moveDown count (i + 1)

/-- `PUS_PUSH`, first part: erase the REDO part (mmpfas.c 3306–3313). -/
def dropRedo (u : UStack) : Out UStack :=
  if u.ptr < u.last then
    clear (u.last - u.ptr).toNat (u.ptr + 1) u.slots >>= fun l => .val { u with slots := l, last := u.ptr }
  else .val u

/-- `PUS_PUSH`, second part: make room (mmpfas.c 3317–3342). -/
def makeRoom (u : UStack) : Out UStack :=
  if u.ptr = u.size - 1 then
    setSlot u.slots 0 (Pip.empty, []) >>= fun l0 =>
    moveDown (u.size - 1).toNat 0 l0 >>= fun l1 =>
    setSlot l1 u.ptr (Pip.empty, []) >>= fun l2 =>
    if u.ptr - 1 ≠ u.size - 2 ∨ u.ptr - 1 ≠ u.last - 1 then .bug 1862
    else .val { u with slots := l2, ptr := u.ptr - 1, last := u.last - 1, overflowed := true }
  else .val u

/-- `PUS_PUSH`, third part: store the proof (mmpfas.c 3345–3350). -/
def store (u : UStack) (p : Pip) (info : List Char) : Out UStack :=
  if u.ptr + 1 ≠ u.last + 1 then .bug 1863
  else copyPip p >>= fun q => setSlot u.slots (u.ptr + 1) (q, info) >>= fun l => .val { u with slots := l, ptr := u.ptr + 1, last := u.last + 1 }

/-- `PUS_INIT` and the first part of `PUS_NEW_SIZE` (mmpfas.c 3257–3281). -/
def reset (u : UStack) : Out UStack :=
  clear (u.last + 1).toNat 0 u.slots >>= fun l => .val { u with slots := l, last := -1, ptr := -1, overflowed := false }

/-- The `switch` (mmpfas.c 3250–3392): the new static variables, the new `*proofStruct`, the message. -/
def action (u : UStack) (p : Pip) (info : List Char) : Act → Out (UStack × Pip × Msg)
  | .getSize => .val (u, p, .none)
  | .getStatus => .val (u, p, .none)
  | .init => reset u >>= fun v => .val ({ v with aborted := false }, p, .none)
  | .newSize n => reset u >>= fun v =>
      if n + 1 < 1 then .bug 1867
      else .val ({ v with slots := fresh (n + 1), size := n + 1, aborted := u.aborted || decide (u.ptr > 0) || u.overflowed }, p,
        if u.ptr > 0 then .discarded else .none)
  | .push => dropRedo u >>= fun v => makeRoom v >>= fun w => store w p info >>= fun x => .val (x, p, .none)
  | .undo =>
      if u.ptr < 0 then .bug 1864
      else if u.ptr = 0 then .val (u, p, if u.overflowed = false then .noUndo else .exceeded (u.size - 1))
      else getSlot u.slots u.ptr >>= fun x => getSlot u.slots (u.ptr - 1) >>= fun y =>
        copyPip y.1 >>= fun q => .val ({ u with ptr := u.ptr - 1 }, q, .undid x.2)
  | .redo =>
      if u.ptr = u.last then .val (u, p, .noRedo)
      else getSlot u.slots (u.ptr + 1) >>= fun x => copyPip x.1 >>= fun q => .val ({ u with ptr := u.ptr + 1 }, q, .redid x.2)

/-- The value returned (mmpfas.c 3399–3406). -/
def retVal (u : UStack) : Act → Int
  | .getStatus => if u.overflowed || u.aborted || decide (u.ptr ≠ 0) then 1 else 0
  | _ => u.size - 1

/-- `processUndoStack` (mmpfas.c 3209–3407) -/
def undoStack (u : UStack) (p : Pip) (info : List Char) (a : Act) : Out ((UStack × Pip × Msg) × Int) :=
  if badPtr u then .bug 1858
  else action u p info a >>= fun r => if badPtr r.1 then .bug 1866 else .val (r, retVal r.1 a)

/-! ### The commands -/

/-- The state of a Proof Assistant session as far as these commands go: `g_ProofInProgress`, the stack, `g_proofChanged`, `proofSavedFlag`. -/
structure Sess where
  pip : Pip
  stack : UStack
  changed : Bool
  saved : Bool

/-- The commands.  `change p info` is any command that changes the proof to `p` and pushes it (`g_proofChanged = 1; processUndoStack(&g_ProofInProgress,
PUS_PUSH, g_fullArgString, 0)`, e.g. metamath.c 4198–4199, 4377–4379, 5529–5530); `save` is SAVE NEW_PROOF. -/
inductive Cmd
  | change (p : Pip) (info : List Char) | undo | redo | save | setUndo (n : Int)

/-- Entering MM-PA (metamath.c 4127–4130).  `g_proofChanged` and `proofSavedFlag` are 0 then (metamath.c 1230–1232, 807; mmcmdl.c 35). -/
def enter (u : UStack) (p : Pip) : Out Sess :=
  undoStack u p [] .init >>= fun r => undoStack r.1.1 p [] .push >>= fun r' => .val ⟨p, r'.1.1, false, false⟩

/-- The commands (metamath.c 4134–4136, 4157–4159, 3793–3801, 6084–6101). -/
def runCmd (s : Sess) : Cmd → Out (Sess × Msg)
  | .change p info => undoStack s.stack p info .push >>= fun r => .val (⟨p, r.1.1, true, s.saved⟩, .none)
  | .undo => undoStack s.stack s.pip [] .undo >>= fun r => .val (⟨r.1.2.1, r.1.1, true, s.saved⟩, r.1.2.2)
  | .redo => undoStack s.stack s.pip [] .redo >>= fun r => .val (⟨r.1.2.1, r.1.1, true, s.saved⟩, r.1.2.2)
  | .save => undoStack s.stack s.pip [] .getStatus >>= fun r => .val (⟨s.pip, r.1.1, false, if r.2 ≠ 0 then true else s.saved⟩, .none)
  | .setUndo n => undoStack s.stack s.pip [] .getSize >>= fun r =>
      if r.2 ≠ (if n < 0 then 0 else n) then
        undoStack r.1.1 s.pip [] (.newSize (if n < 0 then 0 else n)) >>= fun r1 =>
        undoStack r1.1.1 s.pip [] .push >>= fun r2 => .val (⟨s.pip, r2.1.1, s.changed, s.saved⟩, r1.1.2.2)
      else .val (⟨s.pip, r.1.1, s.changed, s.saved⟩, .none)

/-- Does EXIT warn that changes are not saved (metamath.c 1206–1214)? -/
def exitWarns (s : Sess) : Out Bool :=
  if s.changed then undoStack s.stack s.pip [] .getStatus >>= fun r => .val (decide (r.2 ≠ 0) || s.saved) else .val false

/-- A series of commands. -/
def runCmds : Sess → List Cmd → Out (Sess × List Msg)
  | s, [] => .val (s, [])
  | s, c :: cs => runCmd s c >>= fun r => runCmds r.1 cs >>= fun q => .val (q.1, r.2 :: q.2)

end MM.Pfas
