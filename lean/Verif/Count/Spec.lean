import Verif.Count.Model

/-!
# Specification: decimal numbers and fully expanded proofs

Written without reference to the modelled functions.
-/
namespace MM.Count
open MM.Veri MM.Proof MM.Trace

/-- A string of decimal digits. -/
def IsNum (s : Str) : Prop := ∀ c ∈ s, '0' ≤ c ∧ c ≤ '9'

/-- Its value; the empty string is 0. -/
def value (s : Str) : Nat := s.foldl (fun n c => 10 * n + (c.toNat - 48)) 0

/-- `l` is the list of the steps that count in the proof of `p`: a proof with an error is the proof `?`; with `ess` only the essential steps count. -/
def StepsOf (D : TDb) (ess : Bool) (p : Nat) (l : List Int) : Prop :=
  ∃ r, D.parse p = .val r ∧
    ((1 < r.ret ∧ l = [-63]) ∨
     (r.ret ≤ 1 ∧ ess = false ∧ l = r.proof) ∨
     (r.ret ≤ 1 ∧ ess = true ∧ ∃ es, D.ess r.proof = .val es ∧ es.length = r.proof.length ∧ l = ((r.proof.zip es).filter (fun q => q.2 ≠ 0)).map Prod.fst))

/-- The hypotheses of `x` that count. -/
def hyps (D : CDb) (ess : Bool) (x : Nat) : List Nat :=
  if D.kind x = .a ∨ D.kind x = .p then (D.req x).filter (fun k => !ess || D.kind k == .e) else []

/-- What a step `y` of the fully expanded proof of a theorem becomes when the theorem is used, its hypotheses `hs` having the expanded proofs `args`: a hypothesis becomes its proof; another
hypothesis (of a dummy variable) becomes some other single step, for which `?` stands; other steps stay. -/
def graft1 (D : CDb) (hs : List Nat) (args : List (List Int)) (y : Int) : List Int :=
  if 0 ≤ y ∧ (D.kind y.toNat = .e ∨ D.kind y.toNat = .f) then (if y.toNat ∈ hs then args.getD (hs.idxOf y.toNat) [] else [-63]) else [y]

/-- One step: the stack holds fully expanded proofs.  The step takes the proofs of its hypotheses from the stack.  A theorem is replaced by its own fully expanded proof `F x`. -/
def fullStep (D : CDb) (ess : Bool) (F : Nat → List Int) (st : List (List Int)) (x : Int) : Option (List (List Int)) :=
  if x < 0 then (if x ≤ -1000 then none else some ([x] :: st))
  else if (hyps D ess x.toNat).length ≤ st.length then
    let args := (st.take (hyps D ess x.toNat).length).reverse
    some ((if D.kind x.toNat = .p then (F x.toNat).flatMap (graft1 D (hyps D ess x.toNat) args) else args.flatten ++ [x]) :: st.drop (hyps D ess x.toNat).length)
  else none

/-- All the steps of a proof. -/
def fullRun (D : CDb) (ess : Bool) (F : Nat → List Int) : List Int → List (List Int) → Option (List (List Int))
  | [], st => some st
  | x :: xs, st => (fullStep D ess F st x).bind (fullRun D ess F xs)

/-- `q` is the proof `l` with every use of a theorem replaced, back to axioms and hypotheses, where `F x` is the fully expanded proof of the theorem `x`. -/
def Expanded (D : CDb) (ess : Bool) (F : Nat → List Int) (l q : List Int) : Prop := fullRun D ess F l [] = some [q]

/-- The proof of `p` has `q` as one of the steps that count. -/
def Uses (D : CDb) (ess : Bool) (p q : Nat) : Prop := D.kind p = .p ∧ ∃ l, StepsOf D.toTDb ess p l ∧ (q : Int) ∈ l

/-- `q` is `p` or is used by it, directly or indirectly. -/
inductive Leads (D : CDb) (ess : Bool) (p : Nat) : Nat → Prop
  | self : Leads D ess p p
  | step {q r : Nat} : Leads D ess p q → Uses D ess q r → Leads D ess p r

/-- A chain of uses starting with `p`. -/
inductive Chain (D : CDb) (ess : Bool) : Nat → List Nat → Prop
  | one (p : Nat) : Chain D ess p [p]
  | cons {p q : Nat} {l : List Nat} : Uses D ess p q → Chain D ess q l → Chain D ess p (p :: l)

/-- The database the command runs on: parsing the proof of every `$p` ends normally, an accepted proof cites earlier statements only (C11), the essential-step flags exist, one per step (C34), the mandatory hypotheses of a theorem are different hypotheses (C12). -/
structure Sane (D : CDb) (ess : Bool) : Prop where
  steps : ∀ p, 1 ≤ p → p ≤ D.n → D.kind p = .p → ∃ l, StepsOf D.toTDb ess p l ∧ ∀ x ∈ l, 0 ≤ x → 1 ≤ x.toNat ∧ x.toNat < p
  req : ∀ p, 1 ≤ p → p ≤ D.n → D.kind p = .p → (D.req p).Nodup ∧ ∀ h ∈ D.req p, D.kind h = .e ∨ D.kind h = .f
  unk : ess = true → D.ess [-63] = .val [1]

/-- `S` gives the steps that count of every theorem used by `s` (and of `s`), `F` the fully expanded proofs. -/
structure Proofs (D : CDb) (ess : Bool) (s : Nat) (S F : Nat → List Int) : Prop where
  steps : ∀ p, Leads D ess s p → D.kind p = .p → StepsOf D.toTDb ess p (S p)
  full : ∀ p, Leads D ess s p → D.kind p = .p → Expanded D ess F (S p) (F p)

/-- Every theorem used, directly or indirectly, uses each of its own hypotheses exactly once. -/
def Once (D : CDb) (ess : Bool) (s : Nat) (S : Nat → List Int) : Prop :=
  ∀ p, Leads D ess s p → p ≠ s → D.kind p = .p → ∀ h ∈ hyps D ess p, (S p).count (h : Int) = 1

end MM.Count
