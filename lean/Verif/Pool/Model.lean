import Verif.Basic
/-!
# Model of the memory pools (src/mmdata.c 373–660) and of `nmbrLet` (986–1010, 1046–1135, 1178–1206)

The heap maps the address of element 0 of a block to the block; an address without a block is not allocated, and using it is undefined behaviour.  `malloc` is any function that
gives, if it does not fail, an address that is not allocated.  Sizes do not overflow `long`; allocation of the two pool arrays themselves does not fail (else the program ends); `db9`
output is not modelled.
-/
namespace MM.Pool

/-- A block: header elements -1, -2, -3 and, for a string of numbers, the elements before the -1 at its end. -/
structure Blk where
  actual : Nat
  alloc : Nat
  loc : Int
  data : List Int := []
deriving DecidableEq

abbrev Heap := Nat → Option Blk

/-- Write the block at `p`. -/
def Heap.set (h : Heap) (p : Nat) (b : Blk) : Heap := fun q => if q = p then some b else h q
/-- `free` -/
def Heap.del (h : Heap) (p : Nat) : Heap := fun q => if q = p then none else h q
/-- Read the block at `p`. -/
def Heap.get (h : Heap) (p : Nat) : Out Blk := (h p).elim .ub .val

/-- The globals: `used` is `memUsedPool[0 .. memUsedPoolSize - 1]`, `free` is `memFreePool[0 .. memFreePoolSize - 1]` listed from the last, `usedMax` and `freeMax` the lengths of
the two arrays, `total` is `poolTotalFree`. -/
structure St where
  heap : Heap := fun _ => none
  used : List Nat := []
  usedMax : Nat := 0
  free : List Nat := []
  freeMax : Nat := 0
  total : Int := 0

/-- `malloc`, given what is allocated; `none` is failure. -/
abbrev Malloc := Heap → Option Nat

/-- `MEM_POOL_GROW` (mmdata.c 213) -/
def grow : Nat := 1000

/-- `memFreePoolPurge` (mmdata.c 616–642); `max` is `poolAbsoluteMax`. -/
def purgeGo (max : Int) (untilOK : Bool) : List Nat → St → Out St
  | [], s => .val { s with freeMax := grow }
  | p :: r, s => s.heap.get p >>= fun b =>
    let s1 := { s with free := r, total := s.total - b.alloc, heap := s.heap.del p }
    if untilOK && decide (s1.total ≤ max) then .val s1 else purgeGo max untilOK r s1

def purge (max : Int) (untilOK : Bool) (s : St) : Out St := purgeGo max untilOK s.free s

/-- The block of a `malloc` (mmdata.c 385–388, 415–418, …) -/
def fresh (s : St) (a size : Nat) : Out (St × Nat) := .val ({ s with heap := s.heap.set a { actual := size, alloc := size, loc := -1 } }, a)

/-- `malloc`, and if it fails again after `memFreePoolPurge(0)` (mmdata.c 402–415, 453–466); the number is the one in the message of `outOfMemory`. -/
def twice (max : Int) (n : Nat) (m1 m2 : Malloc) (s : St) (size : Nat) : Out (St × Nat) :=
  (m1 s.heap).elim (purge max false s >>= fun s => (m2 s.heap).elim (.bug n) fun a => fresh s a size) fun a => fresh s a size

/-- `poolFixedMalloc` (mmdata.c 373–419); `realloc` may move the block anywhere that is not allocated. -/
def poolFixedMalloc (max : Int) (m1 m2 : Malloc) (size : Nat) (s : St) : Out (St × Nat) :=
  match s.free with
  | [] => (m1 s.heap).elim (.bug 25) fun a => fresh s a size
  | p :: r => s.heap.get p >>= fun b =>
    let s1 := { s with free := r, total := s.total - b.alloc }
    if size ≤ b.alloc then (m1 (s1.heap.del p)).elim (.bug 1382) fun a => fresh { s1 with heap := s1.heap.del p } a size
    else twice max 26 m1 m2 { s1 with heap := s1.heap.del p } size

/-- Put `p` at the end of `memUsedPool` (mmdata.c 477–505, 577–601), first making the array longer if necessary. -/
def pushUsed (s : St) (p : Nat) : Out St :=
  let max := if s.used.length ≥ s.usedMax then s.usedMax + grow else s.usedMax
  if s.used.length < max then
    s.heap.get p >>= fun b => .val { s with used := s.used ++ [p], usedMax := max, heap := s.heap.set p { b with loc := s.used.length } }
  else .ub

/-- `poolMalloc` (mmdata.c 422–507) -/
def poolMalloc (max : Int) (m1 m2 : Malloc) (size : Nat) (s : St) : Out (St × Nat) :=
  (if s.total > max then purge max true s else .val s) >>= fun s =>
  match s.free with
  | [] => (m1 s.heap).elim (.bug 27) fun a => fresh s a size
  | p :: r => s.heap.get p >>= fun b =>
    let s1 := { s with free := r, total := s.total - b.alloc }
    if size ≤ b.alloc then
      let s2 := { s1 with heap := s1.heap.set p { b with actual := size, loc := -1 } }
      if size = b.alloc then .val (s2, p)
      else pushUsed { s2 with total := s2.total + b.alloc - size } p >>= fun s3 => .val (s3, p)
    else twice max 28 m1 m2 { s1 with heap := s1.heap.del p } size

/-- The first part of `poolFree` (mmdata.c 518–531): remove the block from `memUsedPool`, the last one taking its place. -/
def unuse (s : St) (b : Blk) : Out St :=
  if 0 ≤ b.loc then
    if s.used = [] then .ub
    else
      let k := s.used.length - 1
      let t := s.total - b.alloc + b.actual
      if b.loc.toNat < k then
        Out.read s.used k >>= fun q => s.heap.get q >>= fun c => .val { s with total := t, used := (s.used.set b.loc.toNat q).take k, heap := s.heap.set q { c with loc := b.loc } }
      else .val { s with total := t, used := s.used.take k }
  else .val s

/-- `poolFree` (mmdata.c 510–569) -/
def poolFree (p : Nat) (s : St) : Out St :=
  s.heap.get p >>= fun b => unuse s b >>= fun s =>
  let max := if s.free.length ≥ s.freeMax then s.freeMax + grow else s.freeMax
  if s.free.length < max then
    s.heap.get p >>= fun b => .val { s with free := p :: s.free, freeMax := max, heap := s.heap.set p { b with loc := -2 }, total := s.total + b.alloc }
  else .ub

/-- `addToUsedPool` (mmdata.c 572–605) -/
def addToUsedPool (p : Nat) (s : St) : Out St :=
  s.heap.get p >>= fun b => if b.actual = b.alloc then .bug 1305 else pushUsed s p >>= fun s => .val { s with total := s.total + b.alloc - b.actual }

/-- The two sums of `getPoolStats` whose sum it compares with `poolTotalFree` (mmdata.c 646–662). -/
def sumOver (h : Heap) (f : Blk → Int) : List Nat → Out Int
  | [] => .val 0
  | p :: ps => h.get p >>= fun b => sumOver h f ps >>= fun n => .val (f b + n)

def getPoolStats (s : St) : Out (Int × Int) :=
  sumOver s.heap (fun b => b.alloc) s.free >>= fun a => sumOver s.heap (fun b => b.alloc - b.actual) s.used >>= fun u => .val (a, u)

/-! ## Strings of numbers -/

/-- `sizeof(nmbrString)` -/
def w : Nat := 8

/-- `nmbrLen` (mmdata.c 1179–1184); a `long` division by 8. -/
def nmbrLen (b : Blk) : Int := ((b.actual : Int) - w).tdiv w
/-- `nmbrAllocLen` (mmdata.c 1187–1192) -/
def nmbrAllocLen (b : Blk) : Int := ((b.alloc : Int) - w).tdiv w

/-- `nmbrZapLen` (mmdata.c 1201–1209); the number `n` that the caller made -1 is then the end of the string. -/
def nmbrZapLen (p n : Nat) (s : St) : Out St :=
  s.heap.get p >>= fun b =>
  .val { s with total := if b.loc ≠ -1 then s.total + b.actual - ((n + 1) * w : Nat) else s.total, heap := s.heap.set p { b with actual := (n + 1) * w, data := b.data.take n } }

/-- The caller of `poolMalloc`, or `nmbrCpy`, writes the numbers `d` and a -1 to the block at `p`; they must fit. -/
def nmbrFill (p : Nat) (d : List Int) (s : St) : Out St :=
  s.heap.get p >>= fun b => if (d.length + 1) * w ≤ b.alloc then .val { s with heap := s.heap.set p { b with data := d } } else .ub

/-- Pool handling after a copy (mmdata.c 1058–1083, 1092–1114): the block at `p` gets the actual size of the source. -/
def setActual (p src : Nat) (s : St) : Out St :=
  s.heap.get p >>= fun b =>
  let s1 := { s with heap := s.heap.set p { b with actual := src } }
  if src ≠ b.alloc then
    if src > b.alloc then .bug 1325
    else if b.loc = -1 then addToUsedPool p s1 else .val { s1 with total := s1.total + ((b.actual : Int) - src) }
  else .val (if b.loc ≠ -1 then { s1 with total := s1.total + ((b.actual : Int) - src) } else s1)

/-- A pointer to a string of numbers; `none` is `NULL_NMBRSTRING`, the constant string of length 0 (whose header has both sizes 8). -/
abbrev Ptr := Option Nat

def nullBlk : Blk := { actual := w, alloc := w, loc := -1 }

def Heap.str (h : Heap) (p : Ptr) : Out Blk := p.elim (.val nullBlk) h.get

/-- `nmbrCpy` (mmdata.c 1214–1222) -/
def nmbrCpy (p : Nat) (source : Ptr) (s : St) : Out St := s.heap.str source >>= fun b => nmbrFill p b.data s

/-- The program's strings: variables and the stack of temporary strings, the last first (mmdata.c 980–984). -/
structure Prog where
  st : St := {}
  var : Nat → Ptr := fun _ => none
  tmp : List Nat := []

/-- `nmbrTempAlloc(size)` for `size > 0` (mmdata.c 991–998), and the caller filling the string with the numbers `d` (`size` is one more than their number).  `cap` is
`M_MAX_ALLOC_STACK`. -/
def nmbrTemp (max : Int) (m1 m2 : Malloc) (cap : Nat) (d : List Int) (g : Prog) : Out Prog :=
  if g.tmp.length ≥ cap - 1 then .bug 105
  else poolMalloc max m1 m2 ((d.length + 1) * w) g.st >>= fun r => nmbrFill r.2 d r.1 >>= fun s => .val { g with st := s, tmp := r.2 :: g.tmp }

/-- `nmbrTempAlloc(0)` (mmdata.c 1000–1008) with `g_nmbrStartTempAllocStack = start` -/
def dropTemps (start : Nat) : List Nat → Prog → Out Prog
  | [], g => .val g
  | p :: ps, g => if ps.length < start then .val g else poolFree p g.st >>= fun s => dropTemps start ps { g with st := s, tmp := ps }

/-- `nmbrMakeTempAlloc(v)` (mmdata.c 1014–1033); `v` is a local variable of a function that returns the string, so it ends here. -/
def nmbrMakeTemp (cap : Nat) (v : Nat) (g : Prog) : Out Prog :=
  if g.tmp.length ≥ cap - 1 then .bug 1368
  else g.st.heap.str (g.var v) >>= fun b =>
  if b.data ≠ [] then (g.var v).elim .ub fun p => .val { g with tmp := p :: g.tmp, var := upd g.var v none }
  else .val { g with var := upd g.var v none }

/-- `nmbrCpy` and what follows it in `nmbrLet` (mmdata.c 1057–1084, 1095–1119) -/
def copyTo (t : Nat) (source : Ptr) (s : St) : Out St :=
  nmbrCpy t source s >>= fun s => s.heap.str source >>= fun sb => setActual t sb.actual s

/-- `nmbrLet(&v, source)` (mmdata.c 1046–1135) -/
def nmbrLet (max : Int) (m1 m2 : Malloc) (start : Nat) (v : Nat) (source : Ptr) (g : Prog) : Out Prog :=
  g.st.heap.str source >>= fun sb => g.st.heap.str (g.var v) >>= fun tb =>
  let sl := nmbrLen sb
  let tal := nmbrAllocLen tb
  (if tal ≠ 0 then
    (g.var v).elim .ub fun t =>
    if sl ≠ 0 then
      if tal ≥ sl then copyTo t source g.st >>= fun s => .val { g with st := s }
      else poolFree t g.st >>= fun s => poolMalloc max m1 m2 ((sl.toNat + 1) * w * 2) s >>= fun r => copyTo r.2 source r.1 >>= fun s => .val { g with st := s, var := upd g.var v (some r.2) }
    else poolFree t g.st >>= fun s => .val { g with st := s, var := upd g.var v none }
  else if sl ≠ 0 then poolMalloc max m1 m2 ((sl.toNat + 1) * w) g.st >>= fun r => nmbrCpy r.2 source r.1 >>= fun s => .val { g with st := s, var := upd g.var v (some r.2) }
  else .val g) >>= fun g => dropTemps start g.tmp g

end MM.Pool
