import Verif.Proof.Model
import Verif.Lex.Model
/-!
# Model of `parseCompressedProof` (src/mmpars.c 2733–3365) and of the choice of the proof format (1922–1935)

The proof section is the pointer to its first character (`sec`, the text from there to the end of the source buffer) and its length (`secLen`,
`proofSectionLen`).  `W` is `g_wrkProofMaxSize`, the size of the work arrays; the code makes sure that it is at least
`secLen` plus the number of active hypotheses (mmpars.c 2825–2876), nothing more.
-/
namespace MM.Proof
open MM.Veri MM.Pars MM.Lex

/-- What the scan of the label list finds (mmpars.c 2902–2922): the tokens, `fbStartProof`, the pointer to the last label token, and whether `)` is
missing. -/
structure LabelList where
  toks : List Name := []
  rest : List Char
  last : Option (List Char) := none
  missing : Bool := false

/-- The scan of the label list (mmpars.c 2901–2924), for at most the given number of iterations. -/
def labelList : Nat → List Char → Out LabelList
  | 0, _ => .fuel
  | n + 1, p => do
    let q ← skipWs .ws p
    if proofTokenLen q = 0 then .val { rest := q, missing := true }
    else if q.head? = some ')' then .val { rest := q.drop 1 }
    else do
      let r ← labelList n (q.drop (proofTokenLen q))
      .val { r with toks := q.take (proofTokenLen q) :: r.toks, last := r.last <|> some q }

/-- `hypAndLocLabel` (mmpars.c 2928–2952): required hypotheses are marked by `-1000 - k`. -/
def hypTableC (E : Env) (p : Nat) : List (Name × Int) :=
  (E.stmt p).optHyp.map (fun i => (E.lab i, (i : Int))) ++ (E.stmt p).reqHyp.map (fun i => (E.lab i, -1000 - (i : Int)))

/-- One label of the list (mmpars.c 2966–3043): its entry of the label map, the least return code it demands, the number of errors. -/
def clabel (E : Env) (p : Nat) (tok : Name) : Out (Int × Nat × Nat) :=
  match E.look (hypTableC E p) tok with
  | some j =>
    let k := if j < 0 then -1000 - j else j
    if k ≤ 0 then .bug 1713 else .val (k, if j < 0 then 1 else 0, if j < 0 then 1 else 0)
  | none =>
    match E.look (labelKeys E) tok with
    | none => .val (unk, 2, 1)
    | some j =>
      if (E.stmt j.toNat).kind ≠ .a ∧ (E.stmt j.toNat).kind ≠ .p then .bug 1714
      else .val (j, if j ≥ p then 2 else 0, if j ≥ p then 1 else 0)

/-- The loop over the label list (mmpars.c 2961–3043). -/
def clabels (E : Env) (p : Nat) : List Name → Out (List Int × Nat × Nat)
  | [] => .val ([], 0, 0)
  | t :: ts => do
    let x ← clabel E p t
    let r ← clabels E p ts
    .val (x.1 :: r.1, max x.2.1 r.2.1, x.2.2 + r.2.2)

/-- Variables of the loop over the characters (mmpars.c 3085–3321): `proofString` (`numSteps` is its length), `RPNStackPtr`,
`compressedPfLabelMap`, `labelMapIndex`, `returnFlag`, `errorCount`. -/
structure CState where
  proof : List Int := []
  sp : Nat := 0
  map : List Int
  idx : Nat := 0
  ret : Nat
  ec : Nat

/-- Does `strstr(s, m)` find something? -/
def hasSub (m : List Char) : List Char → Bool
  | [] => m.isPrefixOf []
  | c :: t => m.isPrefixOf (c :: t) || hasSub m t

/-- `bggyAlgo` (mmpars.c 3072–3080) -/
def bggy (s : List Char) : Bool := hasSub ['U', 'V'] s && !hasSub ['U', 'U'] s

/-- `LONG_MAX` + 1 -/
def longMax : Nat := 2 ^ 63

/-- Is the label map entry a hypothesis, a local label reference or an unknown step? (mmpars.c 3127–3134) -/
def isPush (E : Env) (st : Int) : Bool := decide (st < 0) || (decide ((E.stmt st.toNat).kind ≠ .a) && decide ((E.stmt st.toNat).kind ≠ .p))

/-- A letter `A`–`T` of weight `w` (mmpars.c 3087–3187).  When the stack is exhausted, `continue` processes the same character again, with the
`labelMapIndex` just computed; the number of these repetitions is limited by the size of `RPNStack`.  The read of a
label map entry that was not written is undefined. -/
def letter (E : Env) (W w : Nat) : Nat → CState → Out CState
  | 0, _ => .fuel
  | n + 1, s =>
    if s.proof.length ≥ W then .ub    -- stepSrcPtrNmbr[numSteps]
    else if s.idx * 20 + w ≥ longMax then .ub    -- overflow of labelMapIndex
    else
      let bad : Bool := decide (s.idx * 20 + w ≥ s.map.length)
      let i := if bad then 0 else s.idx * 20 + w
      let ret := if bad then max s.ret 2 else s.ret
      let ec := s.ec + if bad then 1 else 0
      match s.map[i]? with
      | none => .ub    -- compressedPfLabelMap[0] of an empty map
      | some st =>
        if isPush E st then
          if s.sp ≥ W then .ub else .val { s with proof := s.proof ++ [st], sp := s.sp + 1, idx := 0, ret := ret, ec := ec }
        else if s.sp < (E.stmt st.toNat).reqHyp.length then
          if s.sp ≥ W then .ub else letter E W w n { s with sp := s.sp + 1, idx := i, ret := max ret 3, ec := ec + 1 }
        else if s.sp - (E.stmt st.toNat).reqHyp.length ≥ W then .ub
        else .val { s with proof := s.proof ++ [st], sp := s.sp - (E.stmt st.toNat).reqHyp.length + 1, idx := 0, ret := ret, ec := ec }

/-- A digit `U`–`Y` of weight `w` (mmpars.c 3189–3198). -/
def digit (bg : Bool) (w : Nat) (s : CState) : Out CState :=
  if s.idx = 0 then .val { s with idx := w + 1 }
  else if s.idx * 5 + w + 1 ≥ longMax then .ub
  else .val { s with idx := s.idx * 5 + w + 1 - if bg then 1 else 0 }

/-- "A compressed label character was expected here." (mmpars.c 3201–3209, 3278–3286) -/
def expected (s : CState) : CState := if s.idx = 0 then s else { s with idx := 0, ret := max s.ret 2, ec := s.ec + 1 }

/-- The character `Z` (mmpars.c 3200–3253) -/
def zed (E : Env) (W : Nat) (s0 : CState) : Out CState :=
  let s := expected s0
  if s.map.length ≥ W then .ub    -- compressedPfLabelMap[compressedPfNumLabels]
  else
    let map := s.map ++ [-1000 - ((s.proof.length : Int) - 1)]
    match s.proof.getLast? with
    | none => .val { s with map := map, ret := max s.ret 2, ec := s.ec + 1 }
    | some st => .val { s with map := map, ret := if isPush E st then max s.ret 2 else s.ret, ec := s.ec + if isPush E st then 1 else 0 }

/-- The character `?` (mmpars.c 3277–3305) -/
def quest (W : Nat) (s0 : CState) : Out CState :=
  let s := expected s0
  if s.proof.length ≥ W ∨ s.sp ≥ W then .ub
  else .val { s with proof := s.proof ++ [unk], sp := s.sp + 1, ret := max s.ret 1 }

/-- One character other than `$` (the `switch`, mmpars.c 3086–3316).  `chrType` is indexed by a `char`; a byte above 127 gives a negative index
(where `char` is signed). -/
def cchar (E : Env) (W : Nat) (bg : Bool) (c : Char) (s : CState) : Out CState :=
  if c.toNat ≥ 128 then .ub
  else if 65 ≤ c.toNat ∧ c.toNat ≤ 84 then letter E W (c.toNat - 65) (W + 1 - s.sp) s
  else if 85 ≤ c.toNat ∧ c.toNat ≤ 89 then digit bg (c.toNat - 85) s
  else if c = 'Z' then zed E W s
  else if isSpace c then .val s
  else if c = '?' then quest W s
  else .val { s with ret := max s.ret 2, ec := s.ec + 1 }

/-- The loop over the characters (mmpars.c 3085–3321), for at most the given number of iterations.  It does not stop at the end of the buffer. -/
def cloop (E : Env) (W : Nat) (bg : Bool) : Nat → List Char → CState → Out CState
  | 0, _, _ => .fuel
  | _ + 1, [], _ => .ub
  | n + 1, c :: r, s =>
    if c = '$' then
      if r.head? = some '.' then .val s
      else if r.head? = some '(' ∨ r.head? = some '!' then do
        let q ← skipWs .ws (c :: r)
        cloop E W bg n q s
      else cloop E W bg n r { s with ret := max s.ret 2, ec := s.ec + 1 }
    else do
      let s' ← cchar E W bg c s
      cloop E W bg n r s'

/-- After the loop: unfinished number, empty proof, the check of the stack (mmpars.c 3323–3365). -/
def cfinish (W : Nat) (s0 : CState) : Out Parsed :=
  let s := expected s0
  if s.proof = [] then
    if s.sp ≥ W ∨ 1 ≥ W then .ub
    else .val ⟨[unk], if s.sp + 1 ≠ 1 then max (max s.ret 1) 3 else max s.ret 1, s.ec + 1 + if s.sp + 1 ≠ 1 then 1 else 0⟩
  else if s.proof.length ≥ W then .ub     -- proofString[numSteps] = -1
  else .val ⟨s.proof, if s.sp ≠ 1 then max s.ret 3 else s.ret, s.ec + if s.sp ≠ 1 then 1 else 0⟩

/-- The text searched for the old compression (mmpars.c 3065–3071): from the last label, or from the start of the compressed part if the label list is
empty, to the end of the proof section. -/
def bggyText (sec : List Char) (secLen : Nat) (L : LabelList) : List Char :=
  let f := L.last.getD L.rest
  f.take (secLen - (sec.length - f.length))

/-- `parseCompressedProof` (mmpars.c 2733–3365) -/
def parseCompressed (E : Env) (W p : Nat) (sec : List Char) (secLen : Nat) : Out Parsed := do
  let q ← skipWs .ws sec
  if q.head? ≠ some '(' then .bug 1712
  else do
    let L ← labelList (sec.length + 1) (q.drop 1)
    if L.toks.length ≥ W ∨ (E.stmt p).reqHyp.length + L.toks.length > W then .ub    -- proofString, compressedPfLabelMap
    else do
      let x ← clabels E p L.toks
      let s ← cloop E W (bggy (bggyText sec secLen L)) (sec.length + 1) L.rest
        { map := (E.stmt p).reqHyp.map (fun (i : Nat) => (i : Int)) ++ x.1
          ret := if L.missing then max 3 x.2.1 else x.2.1
          ec := x.2.2 + if L.missing then 1 else 0 }
      cfinish W s

/-- `parseProof` (mmpars.c 1885–2731) on the proof section: a proof whose first character is `(` is compressed.  (A normal proof must not contain `=`
tokens here.) -/
def parseProofText (E : Env) (W p : Nat) (sec : List Char) (secLen : Nat) : Out Parsed := do
  let q ← skipWs .ws sec
  if q.head? = some '(' then parseCompressed E W p sec secLen
  else do
    let toks ← proofToks sec
    parseProof E p toks

end MM.Proof
