import Verif.Pfas.Model

/-!
# The commands of the Proof Assistant (src/metamath.c), as far as they change the proof in progress

The commands UNDO and REDO are modelled in `Verif/Pfas/Undo.lean` (C53).  Not modelled: the parsing of the commands, the checks that only refuse a command
(`checkStmtMatch`, `checkMStringMatch`, markup), the display, and the search for the proofs that REPLACE, IMPROVE and MINIMIZE_WITH insert
(`proveFloating` is modelled in `Verif/Impr`, `replaceStatement` and `minimizeProof` in `Verif/Repl`): those proofs are parameters of the commands.  `expandProof` is modelled in `Verif/Expd`.
-/
namespace MM.Pfas
open MM.Veri MM.Proof MM.Data MM.Tree

/-- The proof in progress, `g_pipDummyVars`, and whether "Could not simultaneously unify" was printed since the last time that all steps were initialised
(PROVE, EXPAND, INITIALIZE ALL). -/
structure St where
  pip : Pip
  d : Nat
  err : Bool

/-- The commands; steps are numbered from 0. -/
inductive PAct where
  /-- ASSIGN, MATCH (metamath.c 4423–4480, mmpfas.c 213): statement number and step -/
  | assign (stmt step : Nat)
  /-- IMPROVE, MINIMIZE_WITH (metamath.c 4780–4782, 4922–4924; mmpfas.c 2094–2102): a proof found for a step -/
  | insert (sub : List Int) (step : Nat)
  /-- REPLACE (metamath.c 4610–4626) -/
  | replace (sub : List Int) (step : Nat)
  /-- DELETE STEP, DELETE ALL, DELETE FLOATING_HYPOTHESES (metamath.c 5581–5598, 5659) -/
  | delete (step : Nat)
  /-- LET VARIABLE (metamath.c 4360–4373) -/
  | letVar (n : Nat) (m : List Nat)
  /-- LET STEP (metamath.c 4382–4396) -/
  | letStep (step : Nat) (m : List Nat)
  /-- a unification chosen by the user in UNIFY STEP, UNIFY ALL / INTERACTIVE, ASSIGN (mmpfas.c 2418–2475) -/
  | choose (τ : Nat → List Nat)
  /-- `autoUnify`, which ends most commands; and UNIFY ALL -/
  | unify
  /-- INITIALIZE STEP (metamath.c 5734–5747) -/
  | initStep (step : Nat)
  /-- INITIALIZE ALL (metamath.c 5702–5714) -/
  | initAll
  /-- INITIALIZE USER (metamath.c 5722–5728) -/
  | initUser
  /-- EXPAND (metamath.c 5535–5570): the expanded proof -/
  | rebuild (proof : List Int)

/-- Replacing the subproof at `step` by `sub`: `deleteSubProof`, then `addSubProof` at the place of the first step of the subproof (`step - subproofLen + 1`).
IMPROVE calls `deleteSubProof` only for a subproof of more than one step; as it wants a subproof with an unknown step, the step is unknown otherwise and
`deleteSubProof` would do nothing. -/
def swapSub (E : Env) (p : Pip) (sub : List Int) (step : Nat) : Out (Pip × Nat) :=
  subproofLen E p.proof step >>= fun q =>
  deleteSubProof E p step >>= fun p1 =>
  addSubProof p1 sub ((step : Int) - q + 1) >>= fun p2 => .val (p2, ((step : Int) - q + 1).toNat)

/-- The effect of a command; a command with a bad step is refused.  `n` bounds the number of rounds of `autoUnify`. -/
def exec (n : Nat) (E : Env) (U : Unifier) (prove : Nat) (s : St) : PAct → Out St
  | .assign stmt step =>
    if step < s.pip.proof.length ∧ s.pip.proof.getD step 0 = unk then assignStatement E s.pip s.d stmt step >>= fun r => .val { s with pip := r.1, d := r.2 }
    else .val s
  | .insert sub step =>
    if step < s.pip.proof.length then
      swapSub E s.pip sub step >>= fun r => assignKnownSteps E U s.d r.1 r.2 sub.length >>= fun a => .val { s with pip := a.1, err := s.err || a.2 }
    else .val s
  | .replace sub step =>
    if step < s.pip.proof.length then
      swapSub E s.pip sub step >>= fun r => assignKnownSubProofs E U s.d r.1 >>= fun a => initEmpty E a.1.proof.length 0 a.1 s.d >>= fun q =>
      autoUnify n E U q.1 false >>= fun u => .val ⟨u.1, q.2, s.err || a.2⟩
    else .val s
  | .delete step => if step < s.pip.proof.length then deleteSubProof E s.pip step >>= fun p => .val { s with pip := p } else .val s
  | .letVar k m => if 1 ≤ k ∧ k ≤ s.d then .val { s with pip := (replaceDummyVar E s.pip k m).1 } else .val s
  | .letStep step m => if step < s.pip.proof.length then setF s.pip.user step m >>= fun u => .val { s with pip := { s.pip with user := u } } else .val s
  | .choose τ => .val { s with pip := makeSubstAll E τ s.pip }
  | .unify => autoUnify n E U s.pip true >>= fun u => .val { s with pip := u.1 }
  | .initStep step =>
    if step < s.pip.proof.length then
      initStep E s.pip s.d step >>= fun r => setF r.1.user step [] >>= fun u => .val { s with pip := { r.1 with user := u }, d := r.2 }
    else .val s
  | .initAll => initEach E s.pip.proof.length 0 s.pip 0 >>= fun r => assignKnownSubProofs E U r.2 r.1 >>= fun a => .val ⟨a.1, r.2, a.2⟩
  | .initUser => .val { s with pip := { s.pip with user := s.pip.user.map fun _ => [] } }
  | .rebuild proof => initProofStruct n E U proof prove >>= fun r => .val ⟨r.1, r.2.1, r.2.2⟩

/-! ## Sessions -/

/-- A step that the commands may put into a proof of `prove`: unknown, an active hypothesis, or an earlier assertion. -/
def Legal (E : Env) (prove : Nat) (x : Int) : Prop :=
  x = unk ∨ (1 ≤ x ∧ x ≤ E.n ∧
    ((x.toNat ∈ (E.stmt prove).reqHyp ++ (E.stmt prove).optHyp ∧ ((E.stmt x.toNat).kind = .e ∨ (E.stmt x.toNat).kind = .f)) ∨
     (x.toNat < prove ∧ ((E.stmt x.toNat).kind = .a ∨ (E.stmt x.toNat).kind = .p))))

/-- The steps of `l` as a list of proofs in reverse Polish notation: the number of proofs, if every step finds its hypotheses. -/
def rpnCount (E : Env) : List Int → Nat → Option Nat
  | [], k => some k
  | x :: l, k =>
    let a := if 1 ≤ x ∧ ((E.stmt x.toNat).kind = .a ∨ (E.stmt x.toNat).kind = .p) then (E.stmt x.toNat).reqHyp.length else 0
    if a ≤ k then rpnCount E l (k - a + 1) else none

/-- A complete or incomplete proof, right or wrong: legal steps, each with the right number of subproofs. -/
def Formed (E : Env) (prove : Nat) (l : List Int) : Prop := rpnCount E l 0 = some 1 ∧ ∀ x ∈ l, Legal E prove x

/-- The statements and proofs given to a command are legal; IMPROVE and MINIMIZE_WITH insert complete proofs. -/
def PAct.Ok (E : Env) (prove : Nat) : PAct → Prop
  | .assign stmt _ => Legal E prove stmt
  | .insert sub _ => Formed E prove sub ∧ unk ∉ sub
  | .replace sub _ => Formed E prove sub
  | .rebuild proof => Formed E prove proof
  | _ => True

/-- The states of sessions for `prove`: PROVE starts with a stored proof or `?` (metamath.c 4031–4082); commands; UNDO and REDO go to the proof of an earlier state
(C53; `g_pipDummyVars` is not restored). -/
inductive Reach (n : Nat) (E : Env) (U : Unifier) (prove : Nat) : St → Prop
  | start {proof : List Int} {r : Pip × Nat × Bool} : Formed E prove proof → initProofStruct n E U proof prove = .val r → Reach n E U prove ⟨r.1, r.2.1, r.2.2⟩
  | act {s s' : St} {c : PAct} : Reach n E U prove s → c.Ok E prove → exec n E U prove s c = .val s' → Reach n E U prove s'
  | undo {s s' : St} : Reach n E U prove s → Reach n E U prove s' → Reach n E U prove ⟨s'.pip, s.d, s'.err⟩

end MM.Pfas
