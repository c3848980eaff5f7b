import Verif.Pfas.Session
import Verif.Match.Model

/-!
# Model of EXPAND (src/mmpfas.c 1146–1322, src/metamath.c 5535–5579)

`prf i` is the result of `getProof(i, 0)` (mmpars.c 3385–3404).
-/
namespace MM.Expd
open MM.Veri MM.Proof MM.Data MM.Tree MM.Pfas MM.Match

/-- `getProof(statemNum, 0)` (mmpars.c 3385–3404), from the result of `parseProof(statemNum)`.  Simplification: `g_WrkProof.errorSeverity` is the value that
`parseProof` returns (mmpars.c 1935, 2729, 3369). -/
def getProof (r : Parsed) : List Int := if r.ret > 1 then [unk] else r.proof

/-- `nmbrMid(sin, start, length)` (mmdata.c 1263–1270).  Simplification: copying beyond the end of `sin` is `ub`. -/
def nmbrMid (l : List Int) (start len : Int) : Out (List Int) :=
  let a := (max start 1 - 1).toNat
  if a + len.toNat ≤ l.length then .val ((l.drop a).take len.toNat) else .ub

/-- The loop that collects the proofs of the hypotheses, last one first (mmpfas.c 1201–1209): `hypStep`, `totalSubpLen`, and the part of `hypSubproofs` done. -/
def hypSubs (E : Env) (proof : List Int) : Nat → Int → Int → List (List Int) → Out (List (List Int) × Int)
  | 0, _, total, acc => .val (acc, total)
  | k + 1, hypStep, total, acc =>
    subproofLen E proof hypStep >>= fun n =>
    nmbrMid proof (hypStep + 1 - (n - 1)) n >>= fun sub =>
    hypSubs E proof k (hypStep - n) (total + n) (sub :: acc)

/-- What a step of the source proof adds to `expandedSubproof` (mmpfas.c 1225–1279); `req` is the `reqHypList` of the source statement, `subs` is `hypSubproofs`.
`bug(1874)` and `bug(1875)` end the program here. -/
def srcStep (E : Env) (req : List Nat) (subs : List (List Int)) (x : Int) : Out (List Int) :=
  if x < 0 then (if x = unk then .val [unk] else .bug 1873)
  else stmtAt E x >>= fun t =>
    if t.kind = .e ∨ t.kind = .f then
      if x.toNat ∈ req then .val (subs.getD (req.idxOf x.toNat) [])
      else if t.kind = .e then .bug 1874
      else .val [unk]
    else if t.kind ≠ .a ∧ t.kind ≠ .p then .bug 1875
    else .val [x]

/-- The loop over the source proof (mmpfas.c 1224–1280): `expandedSubproof`. -/
def buildSub (E : Env) (req : List Nat) (subs : List (List Int)) : List Int → Out (List Int)
  | [] => .val []
  | x :: xs => srcStep E req subs x >>= fun a => buildSub E req subs xs >>= fun b => .val (a ++ b)

/-- The loop over the steps, last one first (mmpfas.c 1189–1288): the expanded proof, if a use of `s` is found; `k` is `targetStep + 1`. -/
def expandOnce (E : Env) (s : Nat) (src proof : List Int) : Nat → Out (Option (List Int))
  | 0 => .val none
  | k + 1 =>
    rdN proof k >>= fun x =>
    if x ≠ s then expandOnce E s src proof k
    else
      subproofLen E proof k >>= fun len =>
      hypSubs E proof (E.stmt s).reqHyp.length ((k : Int) - 1) 0 [] >>= fun r =>
      if r.2 ≠ len - 1 then .bug 1872
      else
        buildSub E (E.stmt s).reqHyp r.1 src >>= fun sub =>
        nmbrLeft proof ((k : Int) + 1 - len) >>= fun a =>
        .val (some (a ++ sub ++ nmbrRight proof ((k : Int) + 1 + 1)))

/-- The loop `while (1)` (mmpfas.c 1185–1292); the first argument bounds the iterations. -/
def expandLoop (E : Env) (s : Nat) (src : List Int) : Nat → List Int → Out (List Int)
  | 0, _ => .fuel
  | n + 1, proof => expandOnce E s src proof proof.length >>= fun r => if r.isSome then expandLoop E s src n (r.getD []) else .val proof

/-- `expandProof(rawTargetProof, sourceStmtNum)` (mmpfas.c 1146–1322), without the messages. -/
def expandProof (E : Env) (fuel : Nat) (prf : Nat → List Int) (raw : List Int) (s : Nat) : Out (List Int) :=
  unsquish E fuel (prf s) >>= fun src => unsquish E fuel raw >>= fun tgt =>
  if (E.stmt s).kind ≠ .p then .bug 1871 else expandLoop E s src fuel tgt

/-- The loop of the command EXPAND over the statements (metamath.c 5541–5561): `nmbrSaveProof`, and `g_proofChangedFlag`; `k` is `i + 1`. -/
def expandAll (M : MEnv) (fuel : Nat) (prf : Nat → List Int) (arg : List Char) : Nat → List Int → Bool → Out (List Int × Bool)
  | 0, proof, ch => .val (proof, ch)
  | i + 1, proof, ch =>
    if i = 0 then .val (proof, ch)
    else if (M.stmt i).kind ≠ .p then expandAll M fuel prf arg i proof ch
    else matchesList M (M.lab i) arg '*' '?' >>= fun m =>
      if m = false then expandAll M fuel prf arg i proof ch
      else expandProof M.toEnv fuel prf proof i >>= fun q =>
        if q ≠ proof then expandAll M fuel prf arg i q true else expandAll M fuel prf arg i proof ch

/-- EXPAND (metamath.c 5535–5579): the new proof, if it was changed. -/
def expandCmd (M : MEnv) (fuel : Nat) (prf : Nat → List Int) (arg : List Char) (prove : Nat) (proof : List Int) : Out (Option (List Int)) :=
  expandAll M fuel prf arg prove proof false >>= fun r => .val (if r.2 then some r.1 else none)

end MM.Expd
