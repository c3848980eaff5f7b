import Verif.Trace.Model

/-!
# Specification for SHOW TRACE_BACK and SHOW USAGE

Nothing here refers to the algorithms: only to what `parseProof` and `nmbrGetEssential` deliver.
-/
namespace MM.Trace
open MM.Veri MM.Proof

/-- The database a trace runs on: parsing the proof of every `$p` ends normally; an accepted proof (return code 0 or 1) cites statements that come
earlier (C11); the essential-step flags, when they are used, exist, one per step (C34). -/
structure Sane (D : TDb) (ess : Bool) : Prop where
  parses : ∀ p, 1 ≤ p → p ≤ D.n → D.kind p = .p → ∃ r, D.parse p = .val r ∧
    (r.ret ≤ 1 → (∀ x ∈ r.proof, 0 ≤ x → 1 ≤ x.toNat ∧ x.toNat < p) ∧
      (ess = true → ∃ es, D.ess r.proof = .val es ∧ es.length = r.proof.length))
  unk : ess = true → D.ess [-63] = .val [1]

/-- `x` is a step of the proof of `p`: a proof with an error has no steps that count.  With `ess` only essential steps count. -/
def StepOf (D : TDb) (ess : Bool) (p : Nat) (x : Int) : Prop :=
  ∃ r, D.parse p = .val r ∧ r.ret ≤ 1 ∧
    ((ess = false ∧ x ∈ r.proof) ∨ (ess = true ∧ ∃ (es : List Int) (i : Nat) (e : Int), D.ess r.proof = .val es ∧ r.proof[i]? = some x ∧ es[i]? = some e ∧ e ≠ 0))

/-- The proof of the theorem `p` uses the assertion `q`. -/
def Cites (D : TDb) (ess : Bool) (p q : Nat) : Prop :=
  D.kind p = .p ∧ (D.kind q = .a ∨ D.kind q = .p) ∧ StepOf D ess p (q : Int)

/-- `q` is `p` or is used, directly or indirectly, by the proof of `p`. -/
inductive Reached (D : TDb) (ess : Bool) (p : Nat) : Nat → Prop
  | self : Reached D ess p p
  | step {q r : Nat} : Reached D ess p q → Cites D ess q r → Reached D ess p r

/-- The theorem `p` is not proved: its proof has an error or an unknown (`?`) step that counts. -/
def Unproved (D : TDb) (ess : Bool) (p : Nat) : Prop :=
  D.kind p = .p ∧ ((∃ r, D.parse p = .val r ∧ 1 < r.ret) ∨ ∃ x : Int, StepOf D ess p x ∧ -1000 < x ∧ x < 0)

/-- The proof of the theorem `t` has a step that refers to `s` (any kind of statement). -/
def Refers (D : TDb) (t s : Nat) : Prop := D.kind t = .p ∧ StepOf D false t (s : Int)

/-- The theorem `t` uses `s`, directly or through other theorems. -/
inductive Affects (D : TDb) (s : Nat) : Nat → Prop
  | direct {t : Nat} : Refers D t s → Affects D s t
  | step {u t : Nat} : Affects D s u → Refers D t u → Affects D s t

/-- The label of the assertion `m` is matched by the pattern list (C28). -/
def Matched (D : TDb) (pat : List Char) (m : Nat) : Prop :=
  1 ≤ m ∧ m ≤ D.n ∧ (D.kind m = .a ∨ D.kind m = .p) ∧ isMatch D m pat = .val true

end MM.Trace
