import Verif.Expl.Model
import Verif.Data.Render
import Verif.Proof.Compressed
/-!
# Model of `nmbrCvtRToVString` (src/mmdata.c 1378–1525) with explicit targets

This is the text SAVE PROOF writes for `/EXPLICIT` (with `/NORMAL` or `/PACKED`).
-/
namespace MM.Expl
open MM.Veri MM.Pars MM.Proof MM.Data MM.Tree MM.Lex

/-- `maxLabelLen` and `maxTargetLabelLen` (mmdata.c 1416–1450): the lists are the proof and `targetHyps`. -/
def maxLens (E : Env) : List Int → List Int → Nat → Nat → Out (Nat × Nat)
  | x :: xs, t :: ts, a, b =>
    if x > -1000 ∧ (x < 1 ∨ x > E.n) then maxLens E xs ts 100 100
    else if t ≤ 0 then .bug 1390
    else maxLens E xs ts (if x ≤ -1000 then a else max a (E.lab x.toNat).length) (max b (E.lab t.toNat).length)
  | _, _, a, b => .val (a, b)

/-- One iteration of the loop that builds the text (mmdata.c 1460–1511); `t` is `targetHyps[step]`. -/
def renderStepX (E : Env) (locals : List Int) (step : Nat) (x t : Int) (s : RState) : Out RState :=
  if x < 0 then
    if x ≤ -1000 then
      Out.read s.names (-1000 - x).toNat >>= fun nm =>
      .val { s with text := s.text ++ E.lab t.toNat ++ ['='] ++ strNat nm ++ [' '] }
    else if x ≠ unk then .val { s with text := s.text ++ ['?', '?'] ++ strInt x ++ [' '] }
    else .val { s with text := s.text ++ E.lab t.toNat ++ ['='] ++ ['?', ' '] }
  else if x < 1 ∨ x > E.n then .val { s with text := s.text ++ ['?', '?'] ++ strInt x ++ [' '] }
  else if nmbrElementIn 1 locals step ≠ 0 then
    nextFree E (E.n + 1) s.next >>= fun k =>
    .val { names := s.names.set step k, next := k + 1, text := s.text ++ strNat k ++ [':'] ++ E.lab t.toNat ++ ['='] ++ E.lab x.toNat ++ [' '] }
  else .val { s with text := s.text ++ E.lab t.toNat ++ ['='] ++ E.lab x.toNat ++ [' '] }

def renderLoopX (E : Env) (locals : List Int) : Nat → List Int → List Int → RState → Out RState
  | step, x :: xs, t :: ts, s => renderStepX E locals step x t s >>= fun s' => renderLoopX E locals (step + 1) xs ts s'
  | _, _, _, s => .val s

/-- `nmbrCvtRToVString(proof, 1, statemNum)`.  The text is written with `memcpy` into the preallocated buffer; undefined if it does not fit. -/
def nmbrCvtRToVStringX (E : Env) (proof : List Int) (statemNum : Int) : Out (List Char) :=
  if statemNum ≤ 0 then .bug 1388
  else
    targetHyp E proof statemNum >>= fun tg =>
    maxLens E proof tg 0 0 >>= fun m =>
    renderLoopX E (localLabels proof) 0 proof tg { names := List.replicate proof.length 0 } >>= fun s =>
    if s.text.length > proof.length * (2 + m.1 + (m.2 + 1) + maxLocalLen proof.length) + 1 then .ub
    else .val s.text.dropLast

/-- `parseProof` on the text of a proof section (mmpars.c 1885–2731), all formats: as `parseProofText`, with explicit targets. -/
def parseProofTextX (E : Env) (W p fuel : Nat) (sec : List Char) (secLen : Nat) : Out Parsed :=
  skipWs .ws sec >>= fun q =>
  if q.head? = some '(' then parseCompressed E W p sec secLen
  else proofToks sec >>= fun toks => parseProofX E p fuel toks

end MM.Expl
