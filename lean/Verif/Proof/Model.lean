import Verif.Pars.Stmts
/-!
# Model of `parseProof` (src/mmpars.c 1885–2731) for normal proofs

The proof section is given as its tokens (`Verif/Lex` models the tokeniser; `:` `?` `(` `)` `=` are tokens of one
character).  Proofs in the `/EXPLICIT` format, i.e. with `=` tokens, are not covered by this definition, compressed ones
are in `Verif/Proof/Compressed.lean`.
-/
namespace MM.Proof
open MM.Veri MM.Pars

/-- `qsort` of a table by name followed by `bsearch`: an arbitrary function with the property `LookOk`.
Which of several entries of the same name is found is not specified. -/
abbrev Look := List (Name × Int) → Name → Option Int

/-- A search finds an entry with the name asked for, if there is one. -/
def LookOk (look : Look) : Prop :=
  ∀ tbl nm, (∀ j, look tbl nm = some j → (nm, j) ∈ tbl) ∧ (look tbl nm = none → ∀ j, (nm, j) ∉ tbl)

/-- What `parseProof` reads: the statements with their labels (`lab i` = `g_Statement[i].labelName`, `[]` for no label), the number
of statements, and the table search. -/
structure Env extends Db where
  lab : Nat → Name
  n : Nat
  look : Look

/-- `g_labelKeyBase` after the filter at mmpars.c 1833–1848: all labelled statements except `$e`, `$f`. -/
def labelKeys (E : Env) : List (Name × Int) :=
  ((List.range' 1 E.n).filter fun i => E.lab i ≠ [] ∧ (E.stmt i).kind ≠ .e ∧ (E.stmt i).kind ≠ .f).map fun i => (E.lab i, (i : Int))

/-- `hypAndLocLabel` with the active hypotheses (mmpars.c 2026–2053). -/
def hypTable (E : Env) (p : Nat) : List (Name × Int) :=
  ((E.stmt p).optHyp ++ (E.stmt p).reqHyp).map fun i => (E.lab i, (i : Int))

/-- `illegalLabelChar` (mmpars.c 434–440), with `isalnum` of the "C" locale. -/
def legalLabelChar (c : Char) : Bool := c.isAlphanum || c == '-' || c == '_' || c == '.'

/-- Variables of the scan for local labels (mmpars.c 2088–2196).  `num` is `g_WrkProof.numSteps`; `steps` are the
tokens of the steps `0 .. num-1` with `localLabelFlag`. -/
structure LScan where
  num : Int := 0
  steps : List (Name × Bool) := []
  lflag : Bool := false
  tbl : List (Name × Int)
  ret : Nat
  ec : Nat

/-- One token of the scan; `prev` is the token before it. -/
def lscanTok (E : Env) (p : Nat) (prev tok : Name) (s : LScan) : Out LScan :=
  if s.num < 0 then .ub    -- write to stepSrcPtrNmbr[-1]
  else
    let steps := s.steps ++ [(tok, s.lflag)]
    if tok.head? ≠ some ':' then .val { s with num := s.num + 1, steps := steps, lflag := false }
    else
      let num := s.num + 1 - 2
      let bad := (prev.filter fun c => !legalLabelChar c).length
      let c1 := (E.look (labelKeys E) prev).any fun j => decide (j ≤ (p : Int))
      let c2 := (E.look (hypTable E p) prev).isSome
      .val { num := num, steps := steps.take num.toNat, lflag := true
             tbl := if c2 then s.tbl else s.tbl ++ [(prev, -num - 1000)]
             ret := if bad > 0 ∨ c1 = true ∨ c2 = true then max s.ret 2 else s.ret
             ec := s.ec + bad + (if c1 then 1 else 0) + (if c2 then 1 else 0) }

def lscan (E : Env) (p : Nat) : Name → List Name → LScan → Out LScan
  | _, [], s => .val s
  | prev, tok :: rest, s => do
    let s' ← lscanTok E p prev tok s
    lscan E p tok rest s'

/-- The step a table entry refers to (mmpars.c 2255–2256). -/
def locStep (e : Name × Int) : Int := -(e.2 + 1000)

/-- Number of adjacent equal names in the sorted table (mmpars.c 2250–2283). -/
def dupCount : List (Name × Int) → Nat
  | [] => 0
  | e :: es => (if es.any (fun x => x.1 == e.1) then 1 else 0) + dupCount es

/-- `stepSrcPtrPntr[k - 1]` with `k = 0` (mmpars.c 2262): two labels of the same name for the first step. (Which entries of a group of
more than two equal names are adjacent after `qsort` is unspecified; any such pair counts.) -/
def dupUb : List (Name × Int) → Bool
  | [] => false
  | e :: es => es.any (fun x => x.1 == e.1 && decide (locStep x ≤ 0) && decide (locStep e ≤ 0)) || dupUb es

/-- Variables of the loop over the steps (mmpars.c 2296–2518): `proofString`, `RPNStackPtr`, `returnFlag`, `errorCount`. -/
structure Walk where
  proof : List Int := []
  sp : Nat := 0
  ret : Nat
  ec : Nat

/-- `-(long)'?'` -/
def unk : Int := -63

/-- One iteration of the loop (mmpars.c 2296–2518 without the `/EXPLICIT` part). -/
def walkTok (E : Env) (p : Nat) (tbl : List (Name × Int)) (x : Name × Bool) (w : Walk) : Out Walk :=
  if x.1.head? = some '?' then .val ⟨w.proof ++ [unk], w.sp + 1, max w.ret 1, w.ec⟩
  else match E.look tbl x.1 with
  | some j =>
    if j < 0 then
      let i := -1000 - j
      if i < 0 then .bug 1734
      else
        let later : Bool := decide (i > (w.proof.length : Int))
        .val ⟨w.proof ++ [if later then unk else j], w.sp + 1, if later || x.2 then max w.ret 2 else w.ret,
          w.ec + (if later then 1 else 0) + (if x.2 then 1 else 0)⟩
    else if j = 0 then .bug 1709
    else .val ⟨w.proof ++ [j], w.sp + 1, if x.2 then max w.ret 2 else w.ret, w.ec + if x.2 then 1 else 0⟩
  | none =>
    match E.look (labelKeys E) x.1 with
    | none => .val ⟨w.proof ++ [unk], w.sp + 1, max w.ret 2, w.ec + 1⟩
    | some j =>
      let A := E.stmt j.toNat
      if A.kind ≠ .a ∧ A.kind ≠ .p then .bug 1710
      else
        let fut : Bool := decide (j ≥ p)
        let ret := if fut then max w.ret 2 else w.ret
        let ec := w.ec + if fut then 1 else 0
        if w.sp < A.reqHyp.length then .val ⟨w.proof ++ [unk], w.sp + 1, max ret 3, ec + 1⟩
        else .val ⟨w.proof ++ [j], w.sp - A.reqHyp.length + 1, ret, ec⟩

def walk (E : Env) (p : Nat) (tbl : List (Name × Int)) : List (Name × Bool) → Walk → Out Walk
  | [], w => .val w
  | x :: xs, w => do
    let w' ← walkTok E p tbl x w
    walk E p tbl xs w'

/-- Result of `parseProof`: `g_WrkProof.proofString`, the return value (also `errorSeverity`) and `errorCount`.  A message is
printed for the first error only, so a message is printed iff `ec > 0`. -/
structure Parsed where
  proof : List Int
  ret : Nat
  ec : Nat
deriving Repr, DecidableEq

/-- mmpars.c 2007–2024 and 2065–2087: an empty proof becomes `?`, a colon at the start becomes `?`, a colon at the end is dropped. -/
def fixTokens (toks : List Name) : List Name × Nat × Nat :=
  let t0 := if toks.isEmpty then ([['?']], 1, 1) else (toks, 0, 0)
  let t1 := match t0.1 with
    | t :: ts => if t.head? = some ':' then (['?'] :: ts, max t0.2.1 2, t0.2.2 + 1) else t0
    | [] => t0
  match t1.1.getLast? with
  | some l => if l.head? = some ':' then (t1.1.dropLast, max t1.2.1 2, t1.2.2 + 1) else t1
  | none => t1

/-- `parseProof` for a proof section with the tokens `toks` (no `=` among them, not starting with `(`). -/
def parseProof (E : Env) (p : Nat) (toks : List Name) : Out Parsed :=
  let t := fixTokens toks
  do
  let s ← lscan E p [] t.1 { tbl := hypTable E p, ret := t.2.1, ec := t.2.2 }
  let locals : Bool := decide (s.tbl.length > (hypTable E p).length)
  if s.num < 0 then .ub     -- proofString[-1] = -1
  else if locals && dupUb s.tbl then .ub
  else
    let d := if locals then dupCount s.tbl else 0
    let w ← walk E p s.tbl s.steps ⟨[], 0, if d > 0 then max s.ret 2 else s.ret, s.ec + d⟩
    if w.sp ≠ 1 then
      if s.steps.isEmpty then .ub     -- stepSrcPtrPntr[-1]
      else .val ⟨w.proof, max w.ret 3, w.ec + 1⟩
    else .val ⟨w.proof, w.ret, w.ec⟩

end MM.Proof
