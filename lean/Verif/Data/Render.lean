import Verif.Proof.Model
import Verif.Data.Nmbr
/-!
# Model of `nmbrCvtRToVString` (src/mmdata.c 1378–1525) without explicit targets: a proof as text

This is the text SAVE PROOF writes for the `/NORMAL` and `/PACKED` formats, and the label list of the `/COMPRESSED` format.
-/
namespace MM.Data
open MM.Veri MM.Pars MM.Proof

/-- `str((double)n)` (mmvstr.c 801–818) for an integer that a `double` represents exactly. -/
def strNat (n : Nat) : List Char := Nat.toDigits 10 n
def strInt (z : Int) : List Char := if z < 0 then '-' :: strNat (-z).toNat else strNat z.toNat

/-- Collect the local labels (mmdata.c 1419–1427): the steps that are referred to. -/
def localLabels (proof : List Int) : List Int :=
  proof.foldl (fun v x => if x ≤ -1000 then (if nmbrElementIn 1 v (-1000 - x) = 0 then nmbrAddElement v (-1000 - x) else v) else v) []

/-- `maxLocalLen` (mmdata.c 1408–1414): the number of digits of `plen`, 0 for 0. -/
def maxLocalLen (plen : Nat) : Nat := if plen = 0 then 0 else (strNat plen).length

/-- `maxLabelLen` (mmdata.c 1416–1441) -/
def maxLabelLen (E : Env) (proof : List Int) : Nat :=
  proof.foldl (fun (m : Nat) (x : Int) => if x ≤ -1000 then m else if x < 1 ∨ x > E.n then 100 else max m (E.lab x.toNat).length) 0

/-- Is the name the label of a statement? (`bsearch` in `g_allLabelKeyBase`, mmdata.c 1490–1492) -/
def isLabel (E : Env) (nm : Name) : Bool := (List.range' 1 E.n).any fun i => E.lab i == nm

/-- The next number that is not a statement label (mmdata.c 1487–1497), for at most the given number of iterations. -/
def nextFree (E : Env) : Nat → Nat → Out Nat
  | 0, _ => .fuel
  | n + 1, k => if isLabel E (strNat k) then nextFree E n (k + 1) else .val k

/-- Variables of the loop that builds the text (mmdata.c 1460–1511): `localLabelNames`, `nextLocLabNum`, the text so far. -/
structure RState where
  names : List Nat
  next : Nat := 1
  text : List Char := []

/-- One iteration (mmdata.c 1460–1511). -/
def renderStep (E : Env) (locals : List Int) (step : Nat) (x : Int) (s : RState) : Out RState :=
  if x < 0 then
    if x ≤ -1000 then do
      let nm ← Out.read s.names (-1000 - x).toNat
      .val { s with text := s.text ++ strNat nm ++ [' '] }
    else if x ≠ unk then .val { s with text := s.text ++ ['?', '?'] ++ strInt x ++ [' '] }
    else .val { s with text := s.text ++ ['?', ' '] }
  else if x < 1 ∨ x > E.n then .val { s with text := s.text ++ ['?', '?'] ++ strInt x ++ [' '] }
  else if nmbrElementIn 1 locals step ≠ 0 then do
    let k ← nextFree E (E.n + 1) s.next
    .val { names := s.names.set step k, next := k + 1, text := s.text ++ strNat k ++ [':'] ++ E.lab x.toNat ++ [' '] }
  else .val { s with text := s.text ++ E.lab x.toNat ++ [' '] }

def renderLoop (E : Env) (locals : List Int) : Nat → List Int → RState → Out RState
  | _, [], s => .val s
  | step, x :: xs, s => do
    let s' ← renderStep E locals step x s
    renderLoop E locals (step + 1) xs s'

/-- The number of bytes allocated for the text before the NUL (mmdata.c 1453–1457). -/
def renderCap (E : Env) (proof : List Int) : Nat := proof.length * (2 + maxLabelLen E proof + maxLocalLen proof.length)

/-- `nmbrCvtRToVString(proof, 0, 0)`.  The text is written with `memcpy` into the preallocated buffer; undefined if it does not fit. -/
def nmbrCvtRToVString (E : Env) (proof : List Int) : Out (List Char) := do
  let s ← renderLoop E (localLabels proof) 0 proof { names := List.replicate proof.length 0 }
  if s.text.length > renderCap E proof + 1 then .ub
  else .val s.text.dropLast

end MM.Data
