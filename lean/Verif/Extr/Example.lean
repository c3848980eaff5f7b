import Verif.Extr.Props
import Verif.Trace.Example
/-!
# Databases for C72: one that meets the hypotheses, one whose extract READ rejects
-/
namespace MM.Extr.Ex
open MM.Veri MM.Pars MM.Spec MM.Trace MM.Proof MM.Lex MM.Trace.Ex

/-- The value of a run, when there is one -/
def valOf (o : Out (List Src)) : Option (List Src) :=
  match o with
  | .val l => some l
  | _ => none

theorem val_of {o : Out (List Src)} {l : List Src} (h : valOf o = some l) : o = .val l := by
  unfold valOf at h
  cases o <;> simp_all

/-- `extract` uses of the state only the stored statements. -/
theorem extract_out {D : TDb} {src : List Src} {s : PState} {list : List Char} {o : List Stmt} (h : s.out = o) :
    extract D src s list = extract D src { out := o } list := by
  have : s.stmt = ({ out := o } : PState).stmt := by funext i; unfold PState.stmt; rw [h]
  unfold extract needed
  rw [this]

/-! ## A source with blocks, optional variables, unused symbols -/

/-- `th` uses `ax`; `bx` and `un` are not needed.
```
$c W T $.  $v p q $.  $v r $.  wp $f W p $.  wq $f W q $.  $c X $.
${ $d p q $.  m $e T p $.  ax $a T q $. $}
${ $v k $.  wk $f W k $.  bx $a T k $. $}
${ $d p q r $.  h $e T p $.  th $p T q $= wp wq h ax $. $}
un $a X p $.
```
-/
def xSrc : List Src :=
  [st .c "" ['W', 'T'], st .v "" ['p', 'q'], st .v "" ['r'], st .f "wp" ['W', 'p'], st .f "wq" ['W', 'q'], st .c "" ['X'],
   st .lb "" [], st .d "" ['p', 'q'], st .e "m" ['T', 'p'], st .a "ax" ['T', 'q'], st .rb "" [],
   st .lb "" [], st .v "" ['k'], st .f "wk" ['W', 'k'], st .a "bx" ['T', 'k'], st .rb "" [],
   st .lb "" [], st .d "" ['p', 'q', 'r'], st .e "h" ['T', 'p'], st .p "th" ['T', 'q'], st .rb "" [],
   st .a "un" ['X', 'p']]

/-- What is extracted for `th` -/
def xExt : List Src :=
  [st .c "" ['W', 'T'], st .v "" ['p', 'q'], st .v "" ['r'], st .f "wp" ['W', 'p'], st .f "wq" ['W', 'q'],
   st .lb "" [], st .d "" ['p', 'q'], st .e "m" ['T', 'p'], st .a "ax" ['T', 'q'], st .rb "" [],
   st .lb "" [], st .d "" ['p', 'q', 'r'], st .e "h" ['T', 'p'], st .p "th" ['T', 'q'], st .rb "" [],
   st .c "" ['X'], st .v "" ['k']]

def xOut : List Stmt := [
  {}, { kind := .c, math := [0, 1] }, { kind := .v, math := [2, 3] }, { kind := .v, math := [4] }, { kind := .f, math := [0, 2] }, { kind := .f, math := [0, 3] },
  { kind := .c, math := [5] },
  { kind := .lb }, { kind := .d, math := [2, 3] }, { kind := .e, math := [1, 2] },
  { kind := .a, math := [1, 3], reqHyp := [4, 5, 9], reqVars := [3, 2], reqDisj := [(2, 3)], reqDisjStmt := [8] }, { kind := .rb },
  { kind := .lb }, { kind := .v, math := [6] }, { kind := .f, math := [0, 6] }, { kind := .a, math := [1, 6], reqHyp := [14], reqVars := [6] }, { kind := .rb },
  { kind := .lb }, { kind := .d, math := [2, 3, 4] }, { kind := .e, math := [1, 2] },
  { kind := .p, math := [1, 3], reqHyp := [4, 5, 19], reqVars := [3, 2], reqDisj := [(2, 3)], reqDisjStmt := [18], optVars := [4],
    optDisj := [(2, 4), (3, 4)], optDisjStmt := [18, 18] }, { kind := .rb },
  { kind := .a, math := [5, 2], reqHyp := [4], reqVars := [2] }]

theorem x_accepted : ∃ s, Accepted xSrc s ∧ s.out = xOut := accepted_of_result (by decide +kernel)

def xText : List Char := " wp wq h ax $.".toList

def xDb : TDb := srcDb (menvOf (pfEnv xOut xSrc)) (fun _ => 100) (fun _ => xText) (fun _ => 12)

theorem x_parse : xDb.parse 20 = .val ⟨[4, 5, 19, 10], 0, 0⟩ := by decide +kernel

theorem x_only {p : Nat} (h1 : 1 ≤ p) (h2 : p ≤ xSrc.length) (hk : kindAt (kinds xSrc) p = .p) : p = 20 := by
  have : ∀ p < 23, 1 ≤ p → kindAt (kinds xSrc) p = .p → p = 20 := by decide
  exact this p (Nat.lt_succ_of_le h2) h1 hk

theorem x_match {m : Nat} (h1 : 1 ≤ m) (h2 : m ≤ xSrc.length) : ∃ b, isMatch xDb m ['t', 'h'] = .val b := by
  have : ∀ m < 23, 1 ≤ m → (isMatch xDb m ['t', 'h'] = .val true) ∨ (isMatch xDb m ['t', 'h'] = .val false) := by decide +kernel
  rcases this m (Nat.lt_succ_of_le h2) h1 with h | h <;> exact ⟨_, h⟩

/-- The hypotheses of C72 are met ... -/
theorem x_dbOk {s : PState} (h : Accepted xSrc s) (ho : s.out = xOut) : DbOk xDb xSrc ['t', 'h'] :=
  C72_db_after_read h linLook_ok (pfEnv_eq (src := xSrc) ho).symm
    (fun p h1 h2 hk => by cases x_only h1 h2 hk; exact ⟨_, x_parse⟩) (fun m h1 h2 => x_match h1 h2)

/-- ... and the extract is what one expects; READ accepts it. -/
example : ∃ s, Accepted xSrc s ∧ DbOk xDb xSrc ['t', 'h'] ∧ extract xDb xSrc s ['t', 'h'] = .val xExt ∧ ∃ s', Accepted xExt s' := by
  obtain ⟨s, h, ho⟩ := x_accepted
  refine ⟨s, h, x_dbOk h ho, ?_, ?_⟩
  · rw [extract_out ho]
    exact val_of (by decide +kernel)
  · have hr : (result xExt).map (·.2) = some [] := by decide +kernel
    cases hx : result xExt with
    | none => rw [hx] at hr; cases hr
    | some p =>
      rw [hx] at hr
      obtain ⟨o, e⟩ := p
      cases hr
      obtain ⟨s', h', _⟩ := accepted_of_result hx
      exact ⟨s', h'⟩

/-! ## The variable `z` of a `$d` statement above an axiom is lost -/

/-- `$c T $.  $v x y $.  $v z $.  tx $f T x $.  ty $f T y $.  ${ $d x y z $.  ax $a T x y $. $}` -/
def lSrc : List Src :=
  [st .c "" ['T'], st .v "" ['x', 'y'], st .v "" ['z'], st .f "tx" ['T', 'x'], st .f "ty" ['T', 'y'],
   st .lb "" [], st .d "" ['x', 'y', 'z'], st .a "ax" ['T', 'x', 'y'], st .rb "" []]

/-- The extract for `ax`: `z` is declared at the end, after the `$d`. -/
def lExt : List Src :=
  [st .c "" ['T'], st .v "" ['x', 'y'], st .f "tx" ['T', 'x'], st .f "ty" ['T', 'y'],
   st .lb "" [], st .d "" ['x', 'y', 'z'], st .a "ax" ['T', 'x', 'y'], st .rb "" [], st .v "" ['z']]

def lOut : List Stmt := [
  {}, { kind := .c, math := [0] }, { kind := .v, math := [1, 2] }, { kind := .v, math := [3] }, { kind := .f, math := [0, 1] }, { kind := .f, math := [0, 2] },
  { kind := .lb }, { kind := .d, math := [1, 2, 3] },
  { kind := .a, math := [0, 1, 2], reqHyp := [4, 5], reqVars := [1, 2], reqDisj := [(1, 2)], reqDisjStmt := [7] }, { kind := .rb }]

theorem l_accepted : ∃ s, Accepted lSrc s ∧ s.out = lOut := accepted_of_result (by decide +kernel)

def lDb : TDb := srcDb (menvOf (pfEnv lOut lSrc)) (fun _ => 100) (fun _ => []) (fun _ => 0)

theorem l_match {m : Nat} (h1 : 1 ≤ m) (h2 : m ≤ lSrc.length) : ∃ b, isMatch lDb m ['a', 'x'] = .val b := by
  have : ∀ m < 10, 1 ≤ m → (isMatch lDb m ['a', 'x'] = .val true) ∨ (isMatch lDb m ['a', 'x'] = .val false) := by decide +kernel
  rcases this m (Nat.lt_succ_of_le h2) h1 with h | h <;> exact ⟨_, h⟩

theorem l_dbOk {s : PState} (h : Accepted lSrc s) (ho : s.out = lOut) : DbOk lDb lSrc ['a', 'x'] :=
  C72_db_after_read h linLook_ok (pfEnv_eq (src := lSrc) ho).symm
    (fun p h1 h2 hk => by
      have : ∀ p < 10, kindAt (kinds lSrc) p ≠ .p := by decide
      exact absurd hk (this p (Nat.lt_succ_of_le h2))) (fun m h1 h2 => l_match h1 h2)

/-- READ accepts the source, but not what WRITE SOURCE / EXTRACT ax makes of it: the `$d x y z $.` is extracted, the `$v z $.` before it is not. -/
theorem C72_axiom_loses_variable : ∃ s, Accepted lSrc s ∧ DbOk lDb lSrc ['a', 'x'] ∧ extract lDb lSrc s ['a', 'x'] = .val lExt ∧ ¬ ∃ s', Accepted lExt s' := by
  obtain ⟨s, h, ho⟩ := l_accepted
  refine ⟨s, h, l_dbOk h ho, ?_, ?_⟩
  · rw [extract_out ho]
    exact val_of (by decide +kernel)
  · rintro ⟨s', h1, h2⟩
    have hr : ((result lExt).map fun p => p.2.isEmpty) = some false := by decide +kernel
    unfold result at hr
    rw [h1] at hr
    simp only [Option.map_some, Option.some.injEq] at hr
    rw [h2] at hr
    cases hr

end MM.Extr.Ex
