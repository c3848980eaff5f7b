import Verif.Basic
/-!
# Model of the string memory: `let`, `cat`, temporary strings (src/mmvstr.c 60–258)

The heap maps an address to a block with its size and the characters of the string in it (those before the NUL).  `malloc` is any function that gives, if it does not fail, an address that
is not allocated; use of an address without a block, writing beyond a block and `strcpy` between overlapping strings are undefined behaviour, except `strcpy` of a string to itself,
which the program relies on (e.g. mmwtex.c 980).  The statistics `db`, `db1` are not modelled.
-/
namespace MM.Let

structure Blk where
  size : Nat
  data : List Char
deriving DecidableEq

abbrev Heap := Nat → Option Blk
def Heap.set (h : Heap) (p : Nat) (b : Blk) : Heap := fun q => if q = p then some b else h q
def Heap.del (h : Heap) (p : Nat) : Heap := fun q => if q = p then none else h q
def Heap.get (h : Heap) (p : Nat) : Out Blk := (h p).elim .ub .val

abbrev Malloc := Heap → Option Nat

/-- A `const char *`: a constant, or a place in a block. -/
inductive Ref where
  | lit (s : List Char)
  | at (p k : Nat)

/-- The string a pointer points to; its start must be in the string or at its NUL. -/
def Heap.str (h : Heap) : Ref → Out (List Char)
  | .lit s => .val s
  | .at p k => h.get p >>= fun b => if k ≤ b.data.length then .val (b.data.drop k) else .ub

/-- The program's strings: variables (`none` is the constant empty string), and the stack `tempAllocStack`, the last first. -/
structure Prog where
  heap : Heap := fun _ => none
  var : Nat → Option Nat := fun _ => none
  tmp : List Nat := []

/-- The pointer in a variable. -/
def Prog.ref (g : Prog) (v : Nat) : Ref := (g.var v).elim (.lit []) fun p => .at p 0

/-- `free(p)` -/
def free (p : Nat) (h : Heap) : Out Heap := h.get p >>= fun _ => .val (h.del p)

/-- `strcpy(p, source)` -/
def strcpy (p : Nat) (source : Ref) (h : Heap) : Out Heap :=
  h.str source >>= fun s => h.get p >>= fun b =>
  let overlap := match source with | .lit _ => false | .at q k => decide (q = p ∧ k ≠ 0)
  if overlap then .ub else if s.length + 1 ≤ b.size then .val (h.set p { b with data := s }) else .ub

/-- The loop of `freeTempAlloc` (mmvstr.c 82–93), from the last string. -/
def freeTemps (start : Nat) : List Nat → Heap → Out (Heap × List Nat)
  | [], h => .val (h, [])
  | p :: ps, h => if ps.length < start then .val (h, p :: ps) else free p h >>= freeTemps start ps

/-- `freeTempAlloc()` with `g_startTempAllocStack = start` -/
def freeTempAlloc (start : Nat) (g : Prog) : Out Prog := freeTemps start g.tmp g.heap >>= fun r => .val { g with heap := r.1, tmp := r.2 }

/-- `MAX_ALLOC_STACK` (mmvstr.c 54) -/
def maxStack : Nat := 100
/-- `MAX_CAT_ARGS` (mmvstr.c 218) -/
def maxArgs : Nat := 50

/-- `let(&v, source)` (mmvstr.c 178–214) -/
def let_ (m : Malloc) (start : Nat) (v : Nat) (source : Ref) (g : Prog) : Out Prog :=
  g.heap.str source >>= fun s => g.heap.str (g.ref v) >>= fun t =>
  (if t.length < s.length then
    (if t.length ≠ 0 then (g.var v).elim .ub fun p => free p g.heap else .val g.heap) >>= fun h =>
    (m h).elim (.bug 2204) fun a => .val { g with heap := h.set a { size := s.length + 1, data := [] }, var := upd g.var v (some a) }
  else .val g) >>= fun g =>
  (if s.length ≠ 0 then (g.var v).elim .ub fun p => strcpy p source g.heap >>= fun h => .val { g with heap := h }
  else (if t.length ≠ 0 then (g.var v).elim .ub fun p => free p g.heap else .val g.heap) >>= fun h => .val { g with heap := h, var := upd g.var v none }) >>= fun g =>
  freeTempAlloc start g

/-- `pushTempAlloc` (mmvstr.c 116–126) -/
def pushTemp (p : Nat) (g : Prog) : Out Prog := if g.tmp.length ≥ maxStack - 1 then .bug 2201 else .val { g with tmp := p :: g.tmp }

/-- `makeTempAlloc(v)` (mmvstr.c 167–175); `v` is a local variable of a function that returns the string, so it ends here. -/
def makeTempAlloc (v : Nat) (g : Prog) : Out Prog :=
  g.heap.str (g.ref v) >>= fun s =>
  if s ≠ [] then (g.var v).elim .ub fun p => pushTemp p g >>= fun g => .val { g with var := upd g.var v none }
  else .val { g with var := upd g.var v none }

/-- The first loop of `cat`: the arguments' strings, whose lengths give the size of the result. -/
def catArgs (h : Heap) : List Ref → Out (List (List Char))
  | [] => .val []
  | r :: rs => h.str r >>= fun s => catArgs h rs >>= fun ss => .val (s :: ss)

/-- The second loop of `cat`: each argument goes where the one before ends. -/
def catCopy (p size : Nat) : List (List Char) → List Char → Heap → Out Heap
  | [], d, h => .val (h.set p { size := size, data := d })
  | s :: ss, d, h => if d.length + s.length + 1 ≤ size then catCopy p size ss (d ++ s) h else .ub

/-- `cat(args, NULL)` (mmvstr.c 217–258); the result is the temporary string pushed. -/
def cat (m : Malloc) (args : List Ref) (g : Prog) : Out Prog :=
  if args.length > maxArgs then .bug 2206
  else catArgs g.heap args >>= fun ss =>
  let size := (ss.map List.length).sum + 1
  (m g.heap).elim (.bug 2202) fun a => pushTemp a { g with heap := g.heap.set a { size := size, data := [] } } >>= fun g =>
  catCopy a size ss [] g.heap >>= fun h => .val { g with heap := h }

end MM.Let
