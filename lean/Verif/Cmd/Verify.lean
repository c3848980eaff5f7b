import Verif.Proof.Text
import Verif.Match.Model
/-!
# Model of VERIFY PROOF: `verifyProofs` (src/mmcmds.c 4589–4668)
-/
namespace MM.Cmd
open MM.Veri MM.Pars MM.Lex MM.Proof MM.Match MM.Vstr

/-- `g_wrkProofMaxSize` after the allocation in `parseProof` (mmpars.c 1937–1949) or `parseCompressedProof` (2825–2843). -/
def wrkSize (W need : Nat) (compressed : Bool) : Nat := if need > W then need + (if compressed then 0 else 2) else W

/-- `parseProof(i)` with the allocation of the work arrays: the result and the new size. -/
def parseAt (E : Env) (W p : Nat) (sec : List Char × Nat) : Out (Parsed × Nat) := do
  let q ← skipWs .ws sec.1
  let W' := wrkSize W (sec.2 + (E.stmt p).reqHyp.length + (E.stmt p).optHyp.length) (decide (q.head? = some '('))
  let r ← parseProofText E W' p sec.1 sec.2
  .val (r, W')

/-- Variables of the loop: `g_wrkProofMaxSize`, `errorFound`, the labels in `emptyProofList`, the number of error messages printed so far. -/
structure VLoop where
  wrk : Nat
  errorFound : Bool := false
  empty : List Name := []
  printed : Nat := 0

/-- The part of the loop body after `parseProof` (mmcmds.c 4635–4645): verification. -/
def vcheck (E : Env) (verifyFlag : Bool) (i : Nat) (r : Parsed) : Out (Bool × Nat) :=
  if r.ret < 2 ∧ verifyFlag = true then do
    let v ← verifyProof E.toDb i r.proof r.ret r.ec
    .val (decide (v.ret ≥ 2), v.msgs.length)
  else .val (false, 0)

/-- The loop body (mmcmds.c 4622–4648) for a `$p` statement whose label matches. -/
def vone (E : Env) (sec : Nat → List Char × Nat) (verifyFlag : Bool) (i : Nat) (s : VLoop) : Out VLoop := do
  let k ← parseAt E s.wrk i (sec i)
  let v ← vcheck E verifyFlag i k.1
  .val { wrk := k.2
         errorFound := s.errorFound || decide (k.1.ret ≥ 2) || v.1
         empty := if k.1.ret = 1 then s.empty ++ [E.lab i] else s.empty
         printed := s.printed + (if k.1.ec > 0 then 1 else 0) + v.2 }

/-- The loop body (mmcmds.c 4613–4648). -/
def vbody (M : MEnv) (sec : Nat → List Char × Nat) (labelMatch : Str) (verifyFlag : Bool) (i : Nat) (s : VLoop) : Out VLoop :=
  if (M.stmt i).kind ≠ .p then .val s
  else do
    let m ← matchesList M (M.lab i) labelMatch '*' '?'
    if m = true then vone M.toEnv sec verifyFlag i s else .val s

/-- The loop (mmcmds.c 4613) -/
def vloop (M : MEnv) (sec : Nat → List Char × Nat) (labelMatch : Str) (verifyFlag : Bool) : List Nat → VLoop → Out VLoop
  | [], s => .val s
  | i :: is, s => do
    let s' ← vbody M sec labelMatch verifyFlag i s
    vloop M sec labelMatch verifyFlag is s'

/-- What the command prints: the labels of "The following $p statement(s) were not proved", whether "All proofs in the database were verified" (or, without
verification, "passed the syntax-only check") is printed, and the number of error messages. -/
structure VerifyMsg where
  unproved : List Name
  success : Bool
  printed : Nat

/-- `verifyProofs` (mmcmds.c 4589–4668); `W` is `g_wrkProofMaxSize` before, `sec i` the proof section of statement `i`. -/
def verifyProofs (M : MEnv) (W : Nat) (sec : Nat → List Char × Nat) (labelMatch : Str) (verifyFlag : Bool) : Out VerifyMsg := do
  let s ← vloop M sec labelMatch verifyFlag (List.range' 1 M.n) { wrk := W }
  .val ⟨s.empty, s.empty.isEmpty && !s.errorFound && decide (labelMatch = ['*']), s.printed⟩

end MM.Cmd
