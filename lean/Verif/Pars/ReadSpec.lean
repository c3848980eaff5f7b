import Verif.Pars.Inv
/-!
# Specification: the sources READ has to accept

The rules of the Metamath language about declarations, scopes and types of variables (Metamath book 4.2.1–4.2.8), stated for
a source given as a list of statements with their symbols as written.  Only names, statement numbers and `Active`
(`Verif/Spec/Scope.lean`) are used: no symbol table, no stacks.
-/
namespace MM.Pars
open MM.Veri MM.Spec

/-- The symbols of statement number `i` as written in the source. -/
def symsAt (src : List Src) (i : Nat) : List Name := if i = 0 then [] else (src.getD (i - 1) {}).syms

/-- `nm` is declared by a statement of kind `k` (`$c` or `$v`) that is active just before statement `i`. -/
def Declared (src : List Src) (k : Kind) (i : Nat) (nm : Name) : Prop :=
  ∃ j, Active (kinds src) j i ∧ kindAt (kinds src) j = k ∧ nm ∈ symsAt src j

/-- Statement `f` is an active `$f` for the variable `nm`. -/
def FFor (src : List Src) (i f : Nat) (nm : Name) : Prop :=
  Active (kinds src) f i ∧ kindAt (kinds src) f = .f ∧ (symsAt src f)[1]? = some nm

/-- A mandatory variable of assertion `i`: a variable of the assertion itself or of an active `$e`. -/
def MandName (src : List Src) (i : Nat) (nm : Name) : Prop :=
  Declared src .v i nm ∧
    (nm ∈ symsAt src i ∨ ∃ j, Active (kinds src) j i ∧ kindAt (kinds src) j = .e ∧ nm ∈ symsAt src j)

/-- The rules for statement number `i` of `src`. -/
structure StmtRules (src : List Src) (i : Nat) : Prop where
  /-- the keyword is known -/
  kind : kindAt (kinds src) i ≠ .none
  /-- `$}` closes a block -/
  rb : kindAt (kinds src) i = .rb → 1 ≤ depth (kinds src) i
  /-- `$c` only in the outermost block -/
  outer : kindAt (kinds src) i = .c → depth (kinds src) i = 0
  /-- `$c`, `$v`: at least one symbol, none twice, none that is declared already -/
  decl : kindAt (kinds src) i = .c ∨ kindAt (kinds src) i = .v → symsAt src i ≠ [] ∧ (symsAt src i).Nodup ∧
    ∀ nm ∈ symsAt src i, ¬ Declared src .c i nm ∧ ¬ Declared src .v i nm
  /-- every symbol used is declared -/
  used : kindAt (kinds src) i ∈ [Kind.d, .e, .f, .a, .p] → ∀ nm ∈ symsAt src i,
    Declared src .c i nm ∨ Declared src .v i nm
  /-- `$d`: at least two variables, all different -/
  d : kindAt (kinds src) i = .d → 2 ≤ (symsAt src i).length ∧ (symsAt src i).Nodup ∧
    ∀ nm ∈ symsAt src i, Declared src .v i nm
  /-- `$e`, `$a`, `$p` start with a constant -/
  first : kindAt (kinds src) i ∈ [Kind.e, .a, .p] → ∃ c, (symsAt src i)[0]? = some c ∧ Declared src .c i c
  /-- `$f`: a constant and a variable -/
  f : kindAt (kinds src) i = .f → ∃ c v, symsAt src i = [c, v] ∧ Declared src .c i c ∧ Declared src .v i v
  /-- `$a`, `$p`: every variable of the assertion or of an active `$e` has an active `$f` before the place it is used -/
  typed : kindAt (kinds src) i = .a ∨ kindAt (kinds src) i = .p →
    ∀ m, m = i ∨ (Active (kinds src) m i ∧ kindAt (kinds src) m = .e) → ∀ nm ∈ symsAt src m, Declared src .v i nm →
      ∃ f, f < m ∧ FFor src i f nm
  /-- ... and only one -/
  single : kindAt (kinds src) i = .a ∨ kindAt (kinds src) i = .p →
    ∀ nm, MandName src i nm → ∀ f g, FFor src i f nm → FFor src i g nm → f = g

/-- The source obeys the rules. -/
structure ReadRules (src : List Src) : Prop where
  stmt : ∀ i, 1 ≤ i → i ≤ src.length → StmtRules src i
  /-- every block is closed -/
  closed : depth (kinds src) (src.length + 1) = 0
  /-- no symbol is declared both as a constant and as a variable, in whatever scopes -/
  conVar : ∀ i j nm, kindAt (kinds src) i = .c → kindAt (kinds src) j = .v → nm ∈ symsAt src i → nm ∉ symsAt src j

end MM.Pars
