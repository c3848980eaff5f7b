import Verif.Trace.Model
import Verif.Pars.Stmts
/-!
# Model of `writeExtractedSource` (src/mmcmds.c 3786–4357): WRITE SOURCE / EXTRACT

Modelled is which statements are written and in which order, and the two statements declaring the unused symbols.  Not modelled: the comments written
with the statements (headings, descriptions, the `$t` comment, the comment at the top), the changes to labels in comments
(`fixUndefinedLabels`), the layout, the final message.  Flag strings are functions of the index; `g_Statement` and `extractNeeded` have the indices 0 to `g_statements + 1`.
-/
namespace MM.Extr
open MM.Veri MM.Pars MM.Trace

/-- `beginScopeStmtNum` and the fields `beginScopeStatementNum`, `endScopeStatementNum` of the statements (mmpars.c 896–903). -/
structure Links where
  cur : Nat
  beg : Nat → Nat
  fin : Nat → Nat

/-- What `parseStatements` does for one statement (mmpars.c 901–902, 907–919, 967–975); `kind` gives the types of the statements. -/
def linkStep (kind : Nat → Kind) (stmt : Nat) (L : Links) : Out Links :=
  let beg := upd L.beg stmt L.cur
  let fin := upd L.fin stmt 0
  if kind stmt = .lb then .val ⟨stmt, beg, fin⟩
  else if kind stmt = .rb ∧ 0 < L.cur then
    if kind L.cur ≠ .lb then .bug 1773 else .val ⟨beg L.cur, beg, upd fin L.cur stmt⟩
  else .val ⟨L.cur, beg, fin⟩

/-- The statements `stmt`, `stmt + 1`, … (`count` of them) -/
def linkLoop (kind : Nat → Kind) : Nat → Nat → Links → Out Links
  | 0, _, L => .val L
  | count + 1, stmt, L => linkStep kind stmt L >>= fun L' => linkLoop kind count (stmt + 1) L'

/-- `parseStatements` starts with `beginScopeStmtNum = 0` (mmpars.c 896); the fields are 0 before (211–212). -/
def links (kind : Nat → Kind) (n : Nat) : Out Links := linkLoop kind n 1 ⟨0, fun _ => 0, fun _ => 0⟩

/-- `g_MathToken[t].statement` (set by `parseMathDecl`, mmpars.c 610) for the statements from number `n` on, parallel to `declToks` -/
def declStmts : Nat → List Src → List Nat
  | _, [] => []
  | n, x :: xs => (if x.kind = .c ∨ x.kind = .v then List.replicate x.syms.length n else []) ++ declStmts (n + 1) xs

/-- The first loop (mmcmds.c 3839–3864): the statements `stmt`, `stmt - 1`, …, 1. -/
def pickLoop (D : TDb) (list : List Char) : Nat → (Nat → Bool) → Out (Nat → Bool)
  | 0, f => .val f
  | m + 1, f =>
    if f (m + 1) = true then pickLoop D list m f
    else isMatch D (m + 1) list >>= fun b =>
      if b = false then pickLoop D list m f
      else if D.kind (m + 1) = .a then pickLoop D list m (upd f (m + 1) true)
      else if D.kind (m + 1) ≠ .p then pickLoop D list m f
      else traceProofWork D false [] (m + 1) >>= fun w =>
        pickLoop D list m (fun j => if 1 ≤ j ∧ j ≤ m + 1 ∧ w.flags j = true then true else f j)

/-- The `while` loop over the enclosing blocks (mmcmds.c 3874–3887) -/
def climb (kind : Nat → Kind) (L : Links) : Nat → Nat → (Nat → Bool) → Out (Nat → Bool)
  | 0, _, _ => .fuel
  | fuel + 1, scp, f =>
    if L.beg scp = 0 then .val f
    else if kind (L.beg scp) ≠ .lb then .bug 269
    else if f (L.beg scp) = true then .val f
    else if kind (L.fin (L.beg scp)) ≠ .rb then .bug 270
    else climb kind L fuel (L.beg scp) (upd (upd f (L.beg scp) true) (L.fin (L.beg scp)) true)

/-- Is the statement a flagged `$a` or `$p`? -/
def flagged (kind : Nat → Kind) (f : Nat → Bool) (stmt : Nat) : Bool := f stmt && (kind stmt == .a || kind stmt == .p)

/-- The loop adding the `${` and `$}` (mmcmds.c 3868–3889) -/
def scopeLoop (kind : Nat → Kind) (L : Links) : Nat → Nat → (Nat → Bool) → Out (Nat → Bool)
  | 0, _, f => .val f
  | count + 1, stmt, f =>
    if flagged kind f stmt = true then climb kind L (stmt + 1) stmt f >>= fun f' => scopeLoop kind L count (stmt + 1) f'
    else scopeLoop kind L count (stmt + 1) f

/-- `extractNeeded[..] = 'Y'` for all statements of a list; the string has `n + 2` characters. -/
def setAll (n : Nat) : List Nat → (Nat → Bool) → Out (Nat → Bool)
  | [], f => .val f
  | x :: xs, f => if n + 2 ≤ x then .ub else setAll n xs (upd f x true)

/-- The statements declaring the given tokens -/
def tokStmts (decl : List Nat) : List Nat → Out (List Nat)
  | [] => .val []
  | t :: ts => Out.read decl t >>= fun x => tokStmts decl ts >>= fun r => .val (x :: r)

/-- Everything a flagged assertion needs (mmcmds.c 3898–3932) -/
def addFrame (n : Nat) (decl : List Nat) (x : Stmt) (f : Nat → Bool) : Out (Nat → Bool) :=
  setAll n x.reqHyp f >>= fun f => setAll n x.optHyp f >>= fun f =>
  tokStmts decl x.reqVars >>= fun r => setAll n r f >>= fun f =>
  tokStmts decl x.optVars >>= fun r => setAll n r f >>= fun f =>
  setAll n x.reqDisjStmt f >>= fun f => setAll n x.optDisjStmt f

/-- "add in hypotheses and variable declarations for all $a's and $p's" (mmcmds.c 3892–3934) -/
def frameLoop (n : Nat) (decl : List Nat) (stmts : Nat → Stmt) : Nat → Nat → (Nat → Bool) → Out (Nat → Bool)
  | 0, _, f => .val f
  | count + 1, stmt, f =>
    if flagged (fun i => (stmts i).kind) f stmt = true then
      addFrame n decl (stmts stmt) f >>= fun f' => frameLoop n decl stmts count (stmt + 1) f'
    else frameLoop n decl stmts count (stmt + 1) f

/-- Is the statement a flagged `$a`, `$p`, `$e`, `$f`? -/
def hasMath (kind : Nat → Kind) (f : Nat → Bool) (stmt : Nat) : Bool :=
  f stmt && (kind stmt == .a || kind stmt == .p || kind stmt == .e || kind stmt == .f)

/-- "add in the $c, $v required by all statements" (mmcmds.c 3937–3953) -/
def symLoop (n : Nat) (decl : List Nat) (stmts : Nat → Stmt) : Nat → Nat → (Nat → Bool) → Out (Nat → Bool)
  | 0, _, f => .val f
  | count + 1, stmt, f =>
    if hasMath (fun i => (stmts i).kind) f stmt = true then
      tokStmts decl (stmts stmt).math >>= fun r => setAll n r f >>= fun f' => symLoop n decl stmts count (stmt + 1) f'
    else symLoop n decl stmts count (stmt + 1) f

/-- `mathTokenDeclared` (mmcmds.c 4121–4133) -/
def declaredLoop (stmts : Nat → Stmt) (f : Nat → Bool) : Nat → Nat → (Nat → Bool) → (Nat → Bool)
  | 0, _, d => d
  | count + 1, stmt, d =>
    if f stmt = true ∧ ((stmts stmt).kind = .c ∨ (stmts stmt).kind = .v) then
      declaredLoop stmts f count (stmt + 1) (fun t => if t ∈ (stmts stmt).math then true else d t)
    else declaredLoop stmts f count (stmt + 1) d

/-- "make sure it isn't declared in another scope" (mmcmds.c 4150–4161): another token with the name of `t` that is declared -/
def elsewhere (toks : List (Name × Bool)) (d : Nat → Bool) (t : Nat) : Bool :=
  (List.range toks.length).any fun j => j != t && ((toks[j]?).map (·.1) == (toks[t]?).map (·.1)) && d j

/-- "Build $c and $v statements for undeclared math tokens" (mmcmds.c 4136–4171): `undeclaredC`, `undeclaredV`.  (Every token is a constant or a variable,
so `bug(271)` has no counterpart.) -/
def undeclLoop (toks : List (Name × Bool)) : Nat → Nat → (Nat → Bool) → List Name × List Name → List Name × List Name
  | 0, _, _, r => r
  | count + 1, t, d, r =>
    if d t = true then undeclLoop toks count (t + 1) d r
    else if tokIsVar toks t = false then undeclLoop toks count (t + 1) d (r.1 ++ [((toks[t]?).map (·.1)).getD []], r.2)
    else undeclLoop toks count (t + 1) (upd d t true)
      (r.1, if elsewhere toks d t = true then r.2 else r.2 ++ [((toks[t]?).map (·.1)).getD []])

/-- The statements flagged (mmcmds.c 4234–4316) -/
def written (f : Nat → Bool) : Nat → List Src → List Src
  | _, [] => []
  | n, x :: xs => if f n = true then x :: written f (n + 1) xs else written f (n + 1) xs

/-- The declarations of the unused symbols (mmcmds.c 4323–4334) -/
def unused (r : List Name × List Name) : List Src :=
  (if r.1 = [] then [] else [{ kind := .c, syms := r.1 }]) ++ (if r.2 = [] then [] else [{ kind := .v, syms := r.2 }])

/-- The loops computing `extractNeeded` -/
def needed (D : TDb) (src : List Src) (s : PState) (list : List Char) : Out (Nat → Bool) :=
  links (fun i => (s.stmt i).kind) src.length >>= fun L =>
  pickLoop D list src.length (fun _ => false) >>= fun f =>
  scopeLoop (fun i => (s.stmt i).kind) L src.length 1 f >>= fun f =>
  frameLoop src.length (declStmts 1 src) s.stmt src.length 1 f >>= fun f =>
  symLoop src.length (declStmts 1 src) s.stmt src.length 1 f

/-- The statements of the file written by WRITE SOURCE / EXTRACT `list`, for the source `src` with the stored statements `s` -/
def extract (D : TDb) (src : List Src) (s : PState) (list : List Char) : Out (List Src) :=
  needed D src s list >>= fun f =>
  if f (src.length + 1) = true then .bug 272
  else .val (written f 1 src ++ unused (undeclLoop (declToks src) (declToks src).length 0 (declaredLoop s.stmt f src.length 1 (fun _ => false)) ([], [])))

end MM.Extr
