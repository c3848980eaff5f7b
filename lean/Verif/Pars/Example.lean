import Verif.Pars.Safe
/-!
# Concrete sources for the theorems about READ

`exSrc` is the source

```
$c W T ( > ) $.  $v p q r $.  wp $f W p $.  wq $f W q $.  wr $f W r $.
wi $a W ( p > q ) $.
${ $d q r p $.  m $e T p $.  n $e T ( p > q ) $.  mp $a T q $. $}
${ $d p r $.  x $e T p $.  th $p W q $= ... $. $}
```
with symbols written as one character.
-/
namespace MM.Pars
open MM.Veri MM.Spec

def st (k : Kind) (l : String) (syms : List Char) : Src := { kind := k, label := l.toList, syms := syms.map ([·]) }

def exSrc : List Src :=
  [st .c "" ['W', 'T', '(', '>', ')'], st .v "" ['p', 'q', 'r'],
   st .f "wp" ['W', 'p'], st .f "wq" ['W', 'q'], st .f "wr" ['W', 'r'],
   st .a "wi" ['W', '(', 'p', '>', 'q', ')'],
   st .lb "" [], st .d "" ['q', 'r', 'p'], st .e "m" ['T', 'p'], st .e "n" ['T', '(', 'p', '>', 'q', ')'],
   st .a "mp" ['T', 'q'], st .rb "" [],
   st .lb "" [], st .d "" ['p', 'r'], st .e "x" ['T', 'p'], st .p "th" ['W', 'q'], st .rb "" []]

/-- The stored statements and messages, when the run ends normally. -/
def result (src : List Src) : Option (List Stmt × List PErr) :=
  match parseStatements src with
  | .val s => some (s.out, s.errs)
  | _ => none

theorem accepted_of_result {src : List Src} {o : List Stmt} (h : result src = some (o, [])) :
    ∃ s, Accepted src s ∧ s.out = o := by
  unfold result at h
  cases hp : parseStatements src with
  | val s =>
    rw [hp] at h
    simp only [Option.some.injEq, Prod.mk.injEq] at h
    exact ⟨s, ⟨hp, h.2⟩, h.1⟩
  | ub => rw [hp] at h; cases h
  | bug n => rw [hp] at h; cases h
  | fuel => rw [hp] at h; cases h

def exOut : List Stmt := [
  {}, { kind := .c, math := [0, 1, 2, 3, 4] }, { kind := .v, math := [5, 6, 7] },
  { kind := .f, math := [0, 5] }, { kind := .f, math := [0, 6] }, { kind := .f, math := [0, 7] },
  { kind := .a, math := [0, 2, 5, 3, 6, 4], reqHyp := [3, 4], reqVars := [5, 6] },
  { kind := .lb }, { kind := .d, math := [6, 7, 5] }, { kind := .e, math := [1, 5] },
  { kind := .e, math := [1, 2, 5, 3, 6, 4] },
  { kind := .a, math := [1, 6], reqHyp := [3, 4, 9, 10], reqVars := [6, 5], reqDisj := [(5, 6)], reqDisjStmt := [8] },
  { kind := .rb }, { kind := .lb }, { kind := .d, math := [5, 7] }, { kind := .e, math := [1, 5] },
  { kind := .p, math := [0, 6], reqHyp := [3, 4, 15], reqVars := [6, 5], optHyp := [5], optVars := [7],
    optDisj := [(5, 7)], optDisjStmt := [14] },
  { kind := .rb }]

theorem exSrc_result : result exSrc = some (exOut, []) := by decide +kernel

/-- The hypothesis of C12–C15 and C37 is met: `exSrc` is accepted, with nested blocks, `$d`, `$e`, optional and
mandatory hypotheses. -/
theorem exSrc_accepted : ∃ s, Accepted exSrc s ∧ s.out = exOut := accepted_of_result exSrc_result

example : IsAssert exSrc 11 ∧ IsAssert exSrc 16 ∧ kindAt (kinds exSrc) 16 = .p := by
  unfold IsAssert; decide
example : isVarOf exSrc 6 = true := by decide
/-- C14: the body of the first block is balanced. -/
example : Balanced (kinds ((exSrc.drop 7).take 4)) :=
  .stmt (by decide) (by decide) (.stmt (by decide) (by decide) (.stmt (by decide) (by decide) (.stmt (by decide) (by decide) .nil)))

/-- C38: no symbol of `exSrc` is longer than the declared ones. -/
example : (∀ x ∈ exSrc, x.kind ≠ .none) ∧ ∀ x ∈ exSrc, ∀ nm ∈ x.syms, ∃ p ∈ declToks exSrc, nm.length ≤ p.1.length := by decide

end MM.Pars
