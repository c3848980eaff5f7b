import Verif.Data.Compress
/-!
# Model of the functions on proof trees (src/mmdata.c 1307–1323, 1700–1955)

A proof is a `nmbrString`: statement numbers, `-1000 - k` for a reference to step `k`, `-'?'` for an unknown step, ended by -1.  The model is the list of the
numbers before the end mark; the end mark is what is read just after the last element.
-/
namespace MM.Tree
open MM.Veri MM.Proof MM.Data

/-- `string[i]` (the end mark `-1` after the last element; beyond it, undefined). -/
def rdN (l : List Int) (i : Int) : Out Int :=
  if i < 0 then .ub else if i.toNat < l.length then .val (l.getD i.toNat 0) else if i.toNat = l.length then .val (-1) else .ub

/-- `g_Statement[x]`, statements being numbered 1 to `g_statements`. -/
def stmtAt (E : Env) (x : Int) : Out Stmt := if x > E.n then .ub else .val (E.stmt x.toNat)

/-- `nmbrSeg(sin, start, stop)` (mmdata.c 1250–1260).  Simplification: a segment that reaches beyond the end of `sin` has uninitialised elements and is `ub`. -/
def nmbrSeg (l : List Int) (start stop : Int) : Out (List Int) :=
  let a := (max start 1 - 1).toNat
  let n := ((if stop < 1 then 0 else stop) - max start 1 + 1).toNat
  if a + n ≤ l.length then .val ((l.drop a).take n) else .ub

/-- `nmbrLeft(sin, n)` (mmdata.c 1273–1279).  Simplification: as `nmbrSeg`. -/
def nmbrLeft (l : List Int) (n : Int) : Out (List Int) := if n.toNat ≤ l.length then .val (l.take n.toNat) else .ub

/-- `nmbrRight(sin, n)` (mmdata.c 1282–1290) -/
def nmbrRight (l : List Int) (n : Int) : List Int := l.drop (max n 1 - 1).toNat

/-- The loop of `nmbrInstr` (mmdata.c 1315–1321) on the part of `string1` from index `i` on. -/
def instrFrom (sub : List Int) : List Int → Nat → Nat
  | [], i => if sub.isEmpty then i + 1 else 0
  | x :: xs, i => if sub.isPrefixOf (x :: xs) then i + 1 else instrFrom sub xs (i + 1)

/-- `nmbrInstr(start_position, string1, string2)` (mmdata.c 1307–1323) -/
def nmbrInstr (start : Int) (l sub : List Int) : Nat :=
  let a := (max start 1 - 1).toNat
  if a > l.length then 0 else instrFrom sub (l.drop a) a

/-- The loop over the hypotheses in `nmbrGetSubproofLen` (mmdata.c 1717–1719). -/
def subLoop (f : Int → Out Int) : Nat → Int → Out Int
  | 0, pos => .val pos
  | k + 1, pos => do
    let r ← f pos
    subLoop f k (pos - r)

/-- `nmbrGetSubproofLen(proof, step)` (mmdata.c 1703–1721); the first argument bounds the depth of the recursion. -/
def subLenF (E : Env) (proof : List Int) : Nat → Int → Out Int
  | 0, _ => .fuel
  | n + 1, step =>
    if step < 0 then .bug 1329
    else do
      let x ← rdN proof step
      if x < 0 then .val 1
      else do
        let t ← stmtAt E x
        if t.kind = .f ∨ t.kind = .e then .val 1
        else do
          let pos ← subLoop (subLenF E proof n) t.reqHyp.length (step - 1)
          .val (step - pos)

/-- `nmbrGetSubproofLen(proof, step)` (mmdata.c 1703–1721).  The positions visited decrease, so `step + 2` levels are enough. -/
def subLen (E : Env) (proof : List Int) (step : Int) : Out Int := subLenF E proof (step.toNat + 2) step

/-- The loop `while (1)` of `nmbrSquishProof` (mmdata.c 1748–1758): `np` is `newProof`, `m` is `matchStep`. -/
def replLoop (sub : List Int) (step : Nat) (len : Int) : Nat → List Int → Int → Bool → Out (List Int × Bool)
  | 0, _, _, _ => .fuel
  | n + 1, np, m, found =>
    let m' := nmbrInstr (m + 1) np sub
    if m' = 0 then .val (np, found)
    else do
      let left ← nmbrLeft np (m' - 1)
      replLoop sub step len n (nmbrAddElement left (-1000 - (step : Int)) ++ nmbrRight np (m' + len)) (m' - len + 1) true

/-- The loop over the steps in `nmbrSquishProof` (mmdata.c 1738–1767): `plen`, `newProof`, `dummyProof`, `dummyStep`. -/
def squishLoop (E : Env) : Nat → Nat → Nat → List Int → List Int → Int → Out (List Int)
  | 0, _, _, _, _, _ => .fuel
  | n + 1, step, plen, np, dummy, ds =>
    if step < plen then do
      let len ← subLen E dummy ds
      if len ≤ 1 then squishLoop E n (step + 1) plen np dummy (ds + 1)
      else do
        let sub ← nmbrSeg dummy (ds - len + 2) (ds + 1)
        let r ← replLoop sub step len (np.length + 1) np (step + 1) false
        if r.2 then do
          let left ← nmbrLeft dummy (ds + 1 - len)
          squishLoop E n (step + 1) r.1.length r.1 (nmbrAddElement left (-1000 - (step : Int)) ++ nmbrRight r.1 (step + 2)) (ds + 1 - len + 1)
        else squishLoop E n (step + 1) plen r.1 dummy (ds + 1)
    else .val np

/-- `nmbrSquishProof(proof)` (mmdata.c 1724–1771) -/
def squish (E : Env) (proof : List Int) : Out (List Int) := squishLoop E (proof.length + 1) 0 proof.length proof proof 0

/-- The loop of `nmbrUnsquishProof` (mmdata.c 1782–1794); the first argument bounds the iterations. -/
def unsquishLoop (E : Env) : Nat → List Int → Int → Out (List Int)
  | 0, _, _ => .fuel
  | n + 1, np, step =>
    if step < 0 then .val np
    else do
      let x ← rdN np step
      if x > -1000 then unsquishLoop E n np (step - 1)
      else do
        let len ← subLen E np (-1000 - x)
        let left ← nmbrLeft np step
        let sub ← nmbrSeg np (-1000 - x - len + 2) (-1000 - x + 1)
        unsquishLoop E n (left ++ sub ++ nmbrRight np (step + 2)) (step + len - 1 - 1)

/-- `nmbrUnsquishProof(proof)` (mmdata.c 1775–1797) -/
def unsquish (E : Env) (fuel : Nat) (proof : List Int) : Out (List Int) := unsquishLoop E fuel proof (proof.length - 1)

/-- Copying `len` elements of `src` to `arr`, from index `off` on (mmdata.c 1833–1835, 1883–1885, 1940–1942). -/
def blit (arr : List Int) (off : Int) (src : List Int) (len : Int) : Out (List Int) :=
  if off < 0 ∨ arr.length < off + len ∨ src.length < len then .ub
  else .val (arr.take off.toNat ++ src.take len.toNat ++ arr.drop (off.toNat + len.toNat))

/-- The array of a `nmbrString` made by `nmbrSpace(plen)`, after `a[plen - 1] = v` (mmdata.c 1294–1305, 1813–1814). -/
def spaceLast (plen : Nat) (v : Int) : List Int := (List.replicate plen 0).set (plen - 1) v

/-- The loop over the hypotheses in `nmbrGetIndentation` (mmdata.c 1829–1837); `f` is the recursive call on a subproof. -/
def indentLoop (E : Env) (proof : List Int) (f : List Int → Out (List Int)) : Nat → Int → List Int → Out (List Int × Int)
  | 0, pos, arr => .val (arr, pos)
  | k + 1, pos, arr => do
    let len ← subLen E proof pos
    let sub ← nmbrSeg proof (pos - len + 2) (pos + 1)
    let tmp ← f sub
    let arr' ← blit arr (pos - len + 1) tmp len
    indentLoop E proof f k (pos - len) arr'

/-- `nmbrGetIndentation(proof, startingLevel)` (mmdata.c 1803–1842); the first argument bounds the depth of the recursion. -/
def indentF (E : Env) : Nat → List Int → Int → Out (List Int)
  | 0, _, _ => .fuel
  | n + 1, proof, lev => do
    let x ← rdN proof (proof.length - 1)
    if x < 0 then if proof.length ≠ 1 then .bug 1330 else .val (spaceLast proof.length lev)
    else do
      let t ← stmtAt E x
      if t.kind = .f ∨ t.kind = .e then if proof.length ≠ 1 then .bug 1331 else .val (spaceLast proof.length lev)
      else if t.kind ≠ .a ∧ t.kind ≠ .p then .bug 1332
      else do
        let r ← indentLoop E proof (fun sub => indentF E n sub (lev + 1)) t.reqHyp.length (proof.length - 2) (spaceLast proof.length lev)
        if r.2 ≠ -1 then .bug 333 else .val r.1

/-- `nmbrGetIndentation(proof, startingLevel)` (mmdata.c 1803–1842).  Each recursive call is on a shorter string. -/
def indentation (E : Env) (proof : List Int) (lev : Int) : Out (List Int) := indentF E (proof.length + 1) proof lev

/-- The loop over the hypotheses in `nmbrGetEssential` (mmdata.c 1877–1889); the list is the part of `reqHypList` still to do, last one first. -/
def essLoop (E : Env) (proof : List Int) (f : List Int → Out (List Int)) : List Nat → Int → List Int → Out (List Int × Int)
  | [], pos, arr => .val (arr, pos)
  | h :: hs, pos, arr => do
    let len ← subLen E proof pos
    let th ← stmtAt E h
    if th.kind = .e then do
      let sub ← nmbrSeg proof (pos - len + 2) (pos + 1)
      let tmp ← f sub
      let arr' ← blit arr (pos - len + 1) tmp len
      essLoop E proof f hs (pos - len) arr'
    else essLoop E proof f hs (pos - len) arr

/-- `nmbrGetEssential(proof)` (mmdata.c 1848–1895); the first argument bounds the depth of the recursion. -/
def essF (E : Env) : Nat → List Int → Out (List Int)
  | 0, _ => .fuel
  | n + 1, proof =>
    if proof.length = 0 then .bug 1343
    else do
      let x ← rdN proof (proof.length - 1)
      if x < 0 then
        if proof.length ≠ 1 then .bug 1334 else if x ≠ unk ∧ x > -1000 then .bug 1335 else .val (spaceLast proof.length 1)
      else do
        let t ← stmtAt E x
        if t.kind = .f ∨ t.kind = .e then if proof.length ≠ 1 then .bug 1336 else .val (spaceLast proof.length 1)
        else if t.kind ≠ .a ∧ t.kind ≠ .p then .bug 1337
        else do
          let r ← essLoop E proof (fun sub => essF E n sub) t.reqHyp.reverse (proof.length - 2) (spaceLast proof.length 1)
          if r.2 ≠ -1 then .bug 1338 else .val r.1

/-- `nmbrGetEssential(proof)` (mmdata.c 1848–1895) -/
def essential (E : Env) (proof : List Int) : Out (List Int) := essF E (proof.length + 1) proof

/-- `targetHyp[pos] = v` (mmdata.c 1945) -/
def put (arr : List Int) (pos : Int) (v : Int) : Out (List Int) :=
  if pos < 0 ∨ arr.length ≤ pos then .ub else .val (arr.set pos.toNat v)

/-- The loop over the hypotheses in `nmbrGetTargetHyp` (mmdata.c 1933–1948); the list is the part of `reqHypList` still to do, last one first. -/
def targLoop (E : Env) (proof : List Int) (f : List Int → Int → Out (List Int)) : List Nat → Int → List Int → Out (List Int × Int)
  | [], pos, arr => .val (arr, pos)
  | h :: hs, pos, arr => do
    let len ← subLen E proof pos
    if len > 1 then do
      let sub ← nmbrSeg proof (pos - len + 2) (pos + 1)
      let tmp ← f sub h
      let arr' ← blit arr (pos - len + 1) tmp len
      targLoop E proof f hs (pos - len) arr'
    else do
      let arr' ← put arr pos h
      targLoop E proof f hs (pos - len) arr'

/-- `targetHyp` before the loop (mmdata.c 1912–1915). -/
def targInit (plen : Nat) (statemNum : Int) : List Int := if statemNum ≠ 0 then spaceLast plen statemNum else List.replicate plen 0

/-- `nmbrGetTargetHyp(proof, statemNum)` (mmdata.c 1903–1955); the first argument bounds the depth of the recursion. -/
def targF (E : Env) : Nat → List Int → Int → Out (List Int)
  | 0, _, _ => .fuel
  | n + 1, proof, statemNum => do
    let x ← rdN proof (proof.length - 1)
    if x < 0 then
      if proof.length ≠ 1 then .bug 1339 else if x ≠ unk then .bug 1340 else .val (targInit proof.length statemNum)
    else do
      let t ← stmtAt E x
      if t.kind = .f ∨ t.kind = .e then if proof.length ≠ 1 then .bug 1341 else .val (targInit proof.length statemNum)
      else if t.kind ≠ .a ∧ t.kind ≠ .p then .bug 1342
      else do
        let r ← targLoop E proof (fun sub h => targF E n sub h) t.reqHyp.reverse (proof.length - 2) (targInit proof.length statemNum)
        if r.2 ≠ -1 then .bug 343 else .val r.1

/-- `nmbrGetTargetHyp(proof, statemNum)` (mmdata.c 1903–1955) -/
def targetHyp (E : Env) (proof : List Int) (statemNum : Int) : Out (List Int) := targF E (proof.length + 1) proof statemNum

end MM.Tree
