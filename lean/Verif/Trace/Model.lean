import Verif.Veri.Model
import Verif.Proof.Model
import Verif.Match.Model
import Verif.Lex.Model
import Verif.Vstr.Model

/-!
# Model of `traceProofWork`, `traceProof`, `traceUsage` (mmcmds.c)

The commands SHOW TRACE_BACK (all forms except / TREE and / COUNT_STEPS) and SHOW USAGE.
-/
namespace MM.Trace
open MM.Veri MM.Proof MM.Vstr

/-- What the two commands read of the database: `g_statements`, the `type` and `labelName` fields, the outcome of `parseProof(p)` for a statement `p`,
`nmbrGetEssential`, and (for the speed-up of SHOW USAGE / DIRECT only) the source text of the proofs. -/
structure TDb where
  n : Nat
  kind : Nat → Kind
  label : Nat → List Char
  parse : Nat → Out Parsed
  ess : List Int → Out (List Int)
  /-- The environment of `matchesList`. -/
  menv : MM.Match.MEnv
  /-- The source buffer from `proofSectionPtr` on, up to the terminating NUL. -/
  text : Nat → List Char
  /-- `proofSectionLen` -/
  textLen : Nat → Nat

/-- `matchesList(g_Statement[stmt].labelName, list, '*', '?')` -/
def isMatch (D : TDb) (stmt : Nat) (list : List Char) : Out Bool := MM.Match.matchesList D.menv (D.label stmt) list '*' '?'

/-- The proof both functions work with: a proof with an error is replaced by the proof `?` (mmcmds.c 2917–2922, 3629–3634). -/
def proofOf (D : TDb) (p : Nat) : Out (List Int) :=
  D.parse p >>= fun r => if r.ret > 1 then .val [-63] else .val r.proof

/-- State of the worklist algorithm: `statementList[0..slen-1]`, the `Y`/`N` string, the list of unproved statements. -/
structure WState where
  list : List Nat
  flags : Nat → Bool
  unproved : List Nat

/-- `statementList[slen] = stmt; slen++; flags[stmt] = 'Y'` (mmcmds.c 2950–2952): the array has `g_statements` cells. -/
def addStmt (D : TDb) (stmt : Nat) (w : WState) : Out WState :=
  if w.list.length < D.n then .val { w with list := w.list ++ [stmt], flags := upd w.flags stmt true } else .ub

/-- One step of a proof (mmcmds.c 2929–2961).  `cur` is `statementList[pos]`, `filter` is `traceToFilter` (or `none` without / TO).  The statement
array and the flag string have the indices 0 to `g_statements`. -/
def traceStep (D : TDb) (filter : Option (Nat → Bool)) (cur : Nat) (x : Int) (w : WState) : Out WState :=
  if x < 0 then
    if x > -1000 then .val (if cur ∈ w.unproved then w else { w with unproved := w.unproved ++ [cur] })
    else .val w
  else if D.n < x.toNat then .ub
  else if D.kind x.toNat ≠ .a ∧ D.kind x.toNat ≠ .p then .val w
  else if w.flags x.toNat = true then .val w
  else if filter = none then addStmt D x.toNat w
  else if (filter.map (fun f => f x.toNat)) = some true then addStmt D x.toNat w
  else .val w

/-- The loop over the steps of one proof (mmcmds.c 2929–2962); `none` instead of the flags when `essentialFlag` is off. -/
def traceSteps (D : TDb) (filter : Option (Nat → Bool)) (cur : Nat) : List Int → Option (List Int) → WState → Out WState
  | [], _, w => .val w
  | x :: xs, none, w => traceStep D filter cur x w >>= traceSteps D filter cur xs none
  | _ :: _, some [], _ => .ub
  | x :: xs, some (e :: es), w =>
    if e = 0 then traceSteps D filter cur xs (some es) w
    else traceStep D filter cur x w >>= traceSteps D filter cur xs (some es)

/-- The essential-step flags, if wanted (mmcmds.c 2926–2928). -/
def essFlags (D : TDb) (essential : Bool) (proof : List Int) : Out (Option (List Int)) :=
  if essential then D.ess proof >>= fun es => .val (some es) else .val none

/-- The loop over the statement list (mmcmds.c 2911–2963). -/
def traceLoop (D : TDb) (essential : Bool) (filter : Option (Nat → Bool)) : Nat → Nat → WState → Out WState
  | 0, _, _ => .fuel
  | fuel + 1, pos, w =>
    if pos < w.list.length then
      Out.read w.list pos >>= fun cur =>
      if D.kind cur ≠ .p then traceLoop D essential filter fuel (pos + 1) w
      else proofOf D cur >>= fun proof =>
        essFlags D essential proof >>= fun es =>
        traceSteps D filter cur proof es w >>= fun w' => traceLoop D essential filter fuel (pos + 1) w'
    else .val w

/-- Does any of the listed statements occur in the proof (mmcmds.c 3636–3642)? -/
def usesAny (proof : List Int) (l : List Nat) : Bool := l.any (fun q => proof.contains (q : Int))

/-- Position of the first `)` (mmcmds.c 3605–3609): the part of the text before it; the end of the buffer calls `bug(217)`. -/
def upToParen : List Char → Out (List Char)
  | [] => .bug 217
  | c :: cs => if c = ')' then .val [] else upToParen cs >>= fun r => .val (c :: r)

/-- The speed-up of the non-recursive search (mmcmds.c 3598–3626): false means the proof is skipped without parsing it. -/
def mayUse (D : TDb) (statemNum stmt : Nat) : Out Bool :=
  if D.text stmt = [] then .val false
  else MM.Lex.skipWs .ws (D.text stmt) >>= fun q =>
    if q.head? = some '(' then upToParen q >>= fun r => .val (decide (instr 1 r (D.label statemNum) ≠ 0))
    else .val (decide (instr 1 (q.take (D.textLen stmt - ((D.text stmt).length - q.length))) (D.label statemNum) ≠ 0))

/-- Does the proof of `stmt` use a statement of `l` (mmcmds.c 3628–3643)? -/
def usesProof (D : TDb) (stmt : Nat) (l : List Nat) : Out Bool :=
  proofOf D stmt >>= fun proof => .val (usesAny proof l)

/-- Is `stmt` added to the list (the body of the loop, mmcmds.c 3593–3643)?  `speedup` is `notEFRec`. -/
def usageTest (D : TDb) (speedup : Bool) (statemNum stmt : Nat) (l : List Nat) : Out Bool :=
  if D.kind stmt ≠ .p then .val false
  else if speedup then mayUse D statemNum stmt >>= fun b => if b then usesProof D stmt l else .val false
  else usesProof D stmt l

/-- The loop over the statements `stmt`, `stmt+1`, … (`count` of them) (mmcmds.c 3592–3648).  The list searched is the whole `statementList` when
`recursiveFlag`, its first entry otherwise (`lastPos`). -/
def usageLoop (D : TDb) (recursive speedup : Bool) (statemNum : Nat) : Nat → Nat → List Nat → Out (List Nat)
  | 0, _, l => .val l
  | count + 1, stmt, l =>
    usageTest D speedup statemNum stmt (if recursive then l else l.take 1) >>= fun b =>
      usageLoop D recursive speedup statemNum count (stmt + 1) (if b then l ++ [stmt] else l)

/-- Filling in the flags (mmcmds.c 3654–3662): the listed statements except the first; `flags[0]` is set when there is any. -/
def usageFlags (D : TDb) (statemNum : Nat) : List Nat → (Nat → Bool) → Out (Nat → Bool)
  | [], f => .val f
  | x :: xs, f =>
    if x ≤ statemNum ∨ D.kind x ≠ .p ∨ D.n < x then .bug 212 else usageFlags D statemNum xs (upd f x true)

/-- `notEFRec` (mmcmds.c 3579–3584) -/
def notEFRec (D : TDb) (recursive : Bool) (statemNum : Nat) : Bool :=
  !(D.kind statemNum == .e || D.kind statemNum == .f || recursive)

/-- `cutoffStmt` (mmcmds.c 3591) -/
def cutoff (D : TDb) (cutoffStmt : Nat) : Nat := if cutoffStmt = 0 then D.n else cutoffStmt

/-- `traceUsage(statemNum, recursiveFlag, cutoffStmt)` (mmcmds.c 3561–3666): the Y/N string as a function of the index 0..g_statements. -/
def traceUsage (D : TDb) (recursive : Bool) (statemNum cutoffStmt : Nat) : Out (Nat → Bool) :=
  usageLoop D recursive (notEFRec D recursive statemNum) statemNum (cutoff D cutoffStmt - statemNum) (statemNum + 1) [statemNum] >>= fun l =>
    usageFlags D statemNum l.tail (upd (fun _ => false) 0 (decide (1 < l.length)))

/-- `OR`ing the usage of `stmt` into the filter (mmcmds.c 2895–2901). -/
def orUsage (D : TDb) (stmt : Nat) (use f : Nat → Bool) : Nat → Bool :=
  if use 0 = true then fun j => if stmt + 1 ≤ j ∧ j ≤ D.n ∧ use j = true then true else upd f stmt true j else upd f stmt true

/-- The loop computing `traceToFilter` (mmcmds.c 2883–2903), over the statements `stmt`, `stmt+1`, … (`count` of them). -/
def filterLoop (D : TDb) (traceTo : List Char) (statemNum : Nat) : Nat → Nat → (Nat → Bool) → Out (Nat → Bool)
  | 0, _, f => .val f
  | count + 1, stmt, f =>
    if D.kind stmt ≠ .a ∧ D.kind stmt ≠ .p then filterLoop D traceTo statemNum count (stmt + 1) f
    else isMatch D stmt traceTo >>= fun m =>
      if m = false then filterLoop D traceTo statemNum count (stmt + 1) f
      else traceUsage D true stmt statemNum >>= fun use => filterLoop D traceTo statemNum count (stmt + 1) (orUsage D stmt use f)

/-- `traceToFilter` (mmcmds.c 2881–2904) -/
def toFilter (D : TDb) (traceTo : List Char) (statemNum : Nat) : Out (Option (Nat → Bool)) :=
  if traceTo = [] then .val none
  else filterLoop D traceTo statemNum D.n 1 (fun _ => false) >>= fun f => .val (some f)

/-- `traceProofWork` (mmcmds.c 2864–2973) -/
def traceProofWork (D : TDb) (essential : Bool) (traceTo : List Char) (statemNum : Nat) : Out WState :=
  toFilter D traceTo statemNum >>= fun filter =>
    if D.n = 0 then .ub
    else traceLoop D essential filter (D.n + 1) 0 ⟨[statemNum], upd (fun _ => false) statemNum true, []⟩

/-- Does a used statement pass the / MATCH list, if there is one (mmcmds.c 2797–2801)? -/
def passes (D : TDb) (matchList : List Char) (stmt : Nat) : Out Bool :=
  if matchList = [] then .val true else isMatch D stmt matchList

/-- The loop of `traceProof` that builds the output (mmcmds.c 2793–2826), over the statements `stmt`, `stmt+1`, … (`count` of them): the list of the
statements whose labels are printed; `axiomFlag` limits it to `$a`. -/
def listLoop (D : TDb) (axiomFlag : Bool) (matchList : List Char) (flags : Nat → Bool) : Nat → Nat → Out (List Nat)
  | 0, _ => .val []
  | count + 1, stmt =>
    if flags stmt = true then
      passes D matchList stmt >>= fun m =>
        if m = true ∧ (axiomFlag = false ∨ D.kind stmt = .a) then
          listLoop D axiomFlag matchList flags count (stmt + 1) >>= fun r => .val (stmt :: r)
        else listLoop D axiomFlag matchList flags count (stmt + 1)
    else listLoop D axiomFlag matchList flags count (stmt + 1)

/-- The same loop with `testOnlyFlag` (mmcmds.c 2803–2807): is some used statement matched?  `axiomFlag` is not looked at. -/
def testLoop (D : TDb) (matchList : List Char) (flags : Nat → Bool) : Nat → Nat → Out Bool
  | 0, _ => .val false
  | count + 1, stmt =>
    if flags stmt = true then
      passes D matchList stmt >>= fun m => if m = true then .val true else testLoop D matchList flags count (stmt + 1)
    else testLoop D matchList flags count (stmt + 1)

/-- `traceProof` without `testOnlyFlag` (mmcmds.c 2749–2860): the statements listed, in the order printed, and the list of the warning "not proved".
The text around the labels is not modelled. -/
def traceProof (D : TDb) (essential axiomFlag : Bool) (matchList traceTo : List Char) (statemNum : Nat) : Out (List Nat × List Nat) :=
  if D.kind statemNum ≠ .p then .bug 249
  else traceProofWork D essential traceTo statemNum >>= fun w =>
    listLoop D axiomFlag matchList w.flags (statemNum - 1) 1 >>= fun l => .val (l, w.unproved)

/-- `traceProof` with `testOnlyFlag` (mmcmds.c 2749–2860). -/
def traceTest (D : TDb) (essential : Bool) (matchList traceTo : List Char) (statemNum : Nat) : Out Bool :=
  if D.kind statemNum ≠ .p then .bug 249
  else traceProofWork D essential traceTo statemNum >>= fun w => testLoop D matchList w.flags (statemNum - 1) 1

end MM.Trace
