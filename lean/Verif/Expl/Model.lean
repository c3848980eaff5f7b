import Verif.Pfas.Model
/-!
# Model of `parseProof` (src/mmpars.c 1885–2731) with the `/EXPLICIT` format

In the `/EXPLICIT` format a step is written `target=label`, where `target` is the label of the hypothesis that the step is for; the subproofs
of an assertion may then be written in any order.  `Verif/Proof/Model.lean` has the part that is the same for all normal proofs.
-/
namespace MM.Expl
open MM.Veri MM.Pars MM.Proof MM.Data MM.Tree MM.Pfas

/-- The token is `=` (mmpars.c 2094, 2099). -/
def isEq (t : Name) : Bool := t.head? == some '='

/-- Variables of the first scan (mmpars.c 2088–2196): those of `LScan`, the numbers of the tokens that `stepSrcPtrPntr` points to, and `explicitTargets`. -/
structure XScan where
  s : LScan
  idx : List Nat
  expl : Bool

/-- The loop over the tokens (mmpars.c 2089–2196); `prev` is the token before, `i` the number of the token. -/
def xscan (E : Env) (p : Nat) : Name → List Name → Nat → XScan → Out XScan
  | _, [], _, S => .val S
  | prev, tok :: rest, i, S =>
    if 2 ≤ rest.length ∧ isEq (rest.headD []) = true then xscan E p tok rest (i + 1) { S with expl := true }
    else if isEq tok = true then xscan E p tok rest (i + 1) S
    else lscanTok E p prev tok S.s >>= fun s' =>
      xscan E p tok rest (i + 1) { s := s', idx := (S.idx ++ [i]).take s'.num.toNat, expl := S.expl }

/-- The loop that collects the targets (mmpars.c 2207–2231): the targets so far (`targetPntr`, `targetNmbr`), `returnFlag`, `errorCount`.
`lit` says that the first token is the string literal `"?"` (mmpars.c 2074); a target that is a literal is `none`. -/
def collect (lit : Bool) (num : Nat) (idx : List Nat) : List Name → Nat → List (Option Name) → Nat → Nat → List (Option Name) × Nat × Nat
  | a :: b :: c :: rest, i, tg, r, e =>
    if isEq b = true then
      if tg.length ≥ num then (tg, max r 2, e + 1)
      else
        let t : Option Name := if i = 0 ∧ lit = true then none else some a
        if idx.getD tg.length 0 ≠ i + 2 then collect lit num idx (b :: c :: rest) (i + 1) (tg ++ [t]) (max r 2) (e + 1)
        else collect lit num idx (b :: c :: rest) (i + 1) (tg ++ [t]) r e
    else collect lit num idx (b :: c :: rest) (i + 1) tg r e
  | _, _, tg, r, e => (tg, r, e)

/-- The targets, and the check of their number (mmpars.c 2203–2243).  The places of `targetPntr` that are not assigned point to the literal `""`. -/
def targets (lit : Bool) (num : Nat) (idx : List Nat) (toks : List Name) (r e : Nat) : List (Option Name) × Nat × Nat :=
  let c := collect lit num idx toks 0 [] r e
  if c.1.length ≠ num then (c.1 ++ List.replicate (num - c.1.length) none, max c.2.1 2, c.2.2 + 1) else c

/-- Variables of the loop over the steps: those of `Walk`, `RPNStack` (bottom first) and `oldStepNums`. -/
structure XWalk extends Walk where
  stack : List Nat
  old : List Int

/-- The assertion that a step applies, if the stack has enough entries (mmpars.c 2303–2304, 2317–2321, 2386–2404, 2429–2432, 2458). -/
def useOf (E : Env) (tbl : List (Name × Int)) (x : Name) (sp : Nat) : Option Nat :=
  if x.head? = some '?' ∨ (E.look tbl x).isSome then none
  else (E.look (labelKeys E) x).bind fun j => if sp < (E.stmt j.toNat).reqHyp.length then none else some j.toNat

/-- The subproofs of the hypotheses and their original step numbers (mmpars.c 2481–2496): for each one its length, steps and numbers. -/
def gather (E : Env) (wrk old : List Int) : List Nat → Out (List (Int × List Int × List Int))
  | [] => .val []
  | h :: hs =>
    subproofLen E wrk h >>= fun len =>
    nmbrSeg wrk (h - len + 2) (h + 1) >>= fun sub =>
    nmbrSeg old (h - len + 2) (h + 1) >>= fun nums =>
    gather E wrk old hs >>= fun r => .val ((len, sub, nums) :: r)

/-- The search for the subproof whose target is `nm` (mmpars.c 2506–2520).  The end of the target is overwritten for a moment, which is undefined for a literal. -/
def findTgt (tg : List (Option Name)) (nm : Name) : List Nat → Nat → Out (Option Nat)
  | [], _ => .val none
  | h :: hs, k =>
    match tg[h]? with
    | some (some t) => if nm = t then .val (some k) else findTgt tg nm hs (k + 1)
    | _ => .ub

/-- The loop over the hypotheses of the assertion (mmpars.c 2504–2541): the rearranged subproofs and numbers, or `none` if a hypothesis has no matching target. -/
def pickAll (E : Env) (tg : List (Option Name)) (hs : List Nat) (subs : List (Int × List Int × List Int)) : List Nat → List Int → List Int → Out (Option (List Int × List Int))
  | [], a, b => .val (some (a, b))
  | h :: rest, a, b =>
    findTgt tg (E.lab h) hs 0 >>= fun r =>
    match r with
    | none => .val none
    | some k => pickAll E tg hs subs rest (a ++ (subs.getD k (0, [], [])).2.1) (b ++ (subs.getD k (0, [], [])).2.2)

/-- The rearrangement of the subproofs of the assertion `j` at the end of `w.proof` (mmpars.c 2467–2575); `w.stack` is the stack before the assertion is applied.
The elements of `proofString` after the current step are not yet assigned; the model's `proofString` ends with the current step. -/
def rearrange (E : Env) (tg : List (Option Name)) (j : Nat) (w : XWalk) : Out XWalk :=
  let step : Int := (w.proof.length : Int) - 1
  let req := (E.stmt j).reqHyp
  let hs := w.stack.drop (w.stack.length - req.length)
  subproofLen E w.proof step >>= fun concl =>
  gather E w.proof w.old hs >>= fun subs =>
  if (subs.map fun x => x.1).sum ≠ concl - 1 then .bug 1731
  else if req = [] then .val w
  else pickAll E tg hs subs req [] [] >>= fun r =>
    match r with
    | none => .val { w with ret := max w.ret 2, ec := w.ec + 1 }
    | some (sub, nums) =>
      if (sub.length : Int) ≠ concl - 1 then .bug 1732
      else
        nmbrLeft w.proof (step - concl + 1) >>= fun l1 =>
        nmbrLeft w.old (step - concl + 1) >>= fun l2 =>
        let wrk := l1 ++ sub ++ nmbrRight w.proof (step + 1)
        if wrk.length ≠ w.proof.length ∨ wrk.getLast? ≠ w.proof.getLast? then .bug 1735
        else .val { w with proof := wrk, old := l2 ++ nums ++ nmbrRight w.old (step + 1) }

/-- One iteration of the loop over the steps (mmpars.c 2299–2582). -/
def walkTokX (E : Env) (p : Nat) (tbl : List (Name × Int)) (expl : Bool) (tg : List (Option Name)) (x : Name × Bool) (w : XWalk) : Out XWalk :=
  walkTok E p tbl x w.toWalk >>= fun w' =>
  match useOf E tbl x.1 w.sp with
  | none => .val { toWalk := w', stack := w.stack ++ [w.proof.length], old := w.old }
  | some j =>
    (if expl = true then rearrange E tg j { toWalk := w', stack := w.stack, old := w.old } else .val { toWalk := w', stack := w.stack, old := w.old }) >>= fun v =>
    .val { v with stack := w.stack.take (w.stack.length - (E.stmt j).reqHyp.length) ++ [w.proof.length] }

def walkX (E : Env) (p : Nat) (tbl : List (Name × Int)) (expl : Bool) (tg : List (Option Name)) : List (Name × Bool) → XWalk → Out XWalk
  | [], w => .val w
  | x :: xs, w => walkTokX E p tbl expl tg x w >>= fun w' => walkX E p tbl expl tg xs w'

/-- The new number of a reference (mmpars.c 2601–2624). -/
def renum1 (old : List Int) (num : Nat) (x : Int) : Out Int :=
  if x ≤ -1000 then
    let k := -1000 - x
    if k < 0 ∨ k ≥ num then .bug 1733
    else rdN old k >>= fun v =>
      if v = k then .val x
      else if old.idxOf k < num then .val (-1000 - (old.idxOf k : Int)) else .bug 1740
  else .val x

def renumAll (old : List Int) (num : Nat) : List Int → Out (List Int)
  | [] => .val []
  | x :: xs => renum1 old num x >>= fun y => renumAll old num xs >>= fun ys => .val (y :: ys)

/-- The first step that refers to a later one, and the step it refers to (mmpars.c 2637–2642). -/
def findFwd : List Int → Nat → Option (Nat × Int)
  | [], _ => none
  | x :: xs, step => if x ≤ -1000 ∧ -1000 - x > step then some (step, -1000 - x) else findFwd xs (step + 1)

/-- `nmbrMid(sin, start, length)` (mmdata.c 1262–1271).  Simplification: as `nmbrSeg`. -/
def nmbrMid (l : List Int) (start length : Int) : Out (List Int) :=
  let a := (max start 1 - 1).toNat
  let n := length.toNat
  if a + n ≤ l.length then .val ((l.drop a).take n) else .ub

/-- The correction of a reference after a subproof has been moved (mmpars.c 2688–2709). -/
def fix1 (step : Nat) (k m : Int) (num : Nat) (x : Int) : Out Int :=
  if x > -1000 then .val x
  else
    let j := -1000 - x
    if j ≥ 0 ∧ j < step then .val (-j - 1000)
    else if j = step then .bug 1738
    else if j > step ∧ j ≤ k - m then .val (-(j + m - 1) - 1000)
    else if j > k - m ∧ j ≤ k then .val (-(j + step + m - 1 - k) - 1000)
    else if j > k ∧ j ≤ (num : Int) - 1 then .val (-j - 1000)
    else .bug 1739

def fixAll (step : Nat) (k m : Int) (num : Nat) : List Int → Out (List Int)
  | [] => .val []
  | x :: xs => fix1 step k m num x >>= fun y => fixAll step k m num xs >>= fun ys => .val (y :: ys)

/-- One move of a subproof: step `step` refers to the later step `k` (mmpars.c 2642–2714). -/
def moveOne (E : Env) (proof : List Int) (step : Nat) (k : Int) : Out (List Int) :=
  subproofLen E proof k >>= fun m =>
  nmbrLeft proof step >>= fun p1 =>
  nmbrMid proof (k - m + 2) m >>= fun p2 =>
  nmbrSeg proof (step + 2) (k - m + 1) >>= fun p3 =>
  nmbrMid proof (step + 1) 1 >>= fun p4 =>
  let wrk := p1 ++ p2 ++ p3 ++ p4 ++ nmbrRight proof (k + 2)
  if wrk.length ≠ proof.length then .bug 1736
  else if wrk.getD k.toNat 0 ≠ proof.getD step 0 then .bug 1737
  else fixAll step k m proof.length wrk

/-- The loop `do … while (subProofMoved)` (mmpars.c 2630–2727); the first argument bounds the number of iterations. -/
def moveLoop (E : Env) : Nat → List Int → Out (List Int)
  | 0, _ => .fuel
  | n + 1, proof =>
    match findFwd proof 0 with
    | none => .val proof
    | some (step, k) => moveOne E proof step k >>= fun p' => moveLoop E n p'

/-- mmpars.c 2597–2734: the references of a proof with explicit targets. -/
def finish (E : Env) (fuel : Nat) (expl : Bool) (num : Nat) (w : XWalk) (ret ec : Nat) : Out Parsed :=
  if expl = true then
    renumAll w.old num w.proof >>= fun p1 =>
    moveLoop E fuel p1 >>= fun p2 => .val ⟨p2, ret, ec⟩
  else .val ⟨w.proof, ret, ec⟩

/-- `parseProof` for a proof section with the tokens `toks`, not starting with `(`.  `fuel` bounds the iterations of the loop at mmpars.c 2630–2727. -/
def parseProofX (E : Env) (p : Nat) (fuel : Nat) (toks : List Name) : Out Parsed :=
  let t := fixTokens toks
  xscan E p [] t.1 0 { s := { tbl := hypTable E p, ret := t.2.1, ec := t.2.2 }, idx := [], expl := false } >>= fun S =>
  let s := S.s
  let locals : Bool := decide (s.tbl.length > (hypTable E p).length)
  if s.num < 0 then .ub     -- nmbrSpace(-1), proofString[-1] = -1
  else
    let c := if S.expl = true then targets ((toks.headD []).head? == some ':') s.num.toNat S.idx t.1 s.ret s.ec else ([], s.ret, s.ec)
    if locals && dupUb s.tbl then .ub
    else
      let d := if locals then dupCount s.tbl else 0
      walkX E p s.tbl S.expl c.1 s.steps ⟨⟨[], 0, if d > 0 then max c.2.1 2 else c.2.1, c.2.2 + d⟩, [], (List.range s.num.toNat).map Int.ofNat⟩ >>= fun w =>
      if w.sp ≠ 1 then
        if s.steps.isEmpty then .ub     -- stepSrcPtrPntr[-1]
        else finish E fuel S.expl s.num.toNat w (max w.ret 3) (w.ec + 1)
      else finish E fuel S.expl s.num.toNat w w.ret w.ec

end MM.Expl
