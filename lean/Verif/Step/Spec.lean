/-!
# Specification: the steps a user can name by FIRST, LAST, +n and -n, and the statements a name selects

Nothing here refers to the model of `getStepNum` and `getStatementNum`.
-/
namespace MM.Step

/-- Step `i` (counted from 1) is unknown and essential: `es` holds the flags that tell essential steps, -63 is the number of an unknown step. -/
def isOpen (es proof : List Int) (i : Nat) : Bool := decide ((es[i - 1]?).getD 0 ≠ 0) && decide (proof[i - 1]? = some (-63))

/-- The unknown essential steps, in ascending order. -/
def opens (es proof : List Int) : List Nat := (List.range' 1 proof.length).filter (isOpen es proof)

/-- The letters made upper case. -/
def upper (s : List Char) : List Char := s.map fun c => if 'a' ≤ c ∧ c ≤ 'z' then Char.ofNat (c.toNat - 32) else c

/-- The step, or -1 if there is none. -/
def orErr : Option Nat → Int
  | some i => i
  | none => -1

/-- What the word `u` (in upper case) names in a proof of `len` steps with the unknown essential steps `os`. -/
inductive Names (len : Nat) (os : List Nat) (all : Bool) (u : List Char) : Int → Prop where
  /-- `nn`: step nn itself -/
  | actual {n : Nat} : u = Nat.toDigits 10 n → 1 ≤ n → n ≤ len → Names len os all u n
  /-- `FIRST` (or an abbreviation): the first unknown essential step -/
  | first {i : Nat} : u <+: "FIRST".toList → os[0]? = some i → Names len os all u i
  /-- `LAST` (or an abbreviation): the last one -/
  | last {i : Nat} : u <+: "LAST".toList → u ≠ [] → os.reverse[0]? = some i → Names len os all u i
  /-- `+n`: the one after n others from the front -/
  | plus {n i : Nat} : u = '+' :: Nat.toDigits 10 n → os[n]? = some i → Names len os all u i
  /-- `-n`: the one before n others from the end -/
  | minus {n i : Nat} : u = '-' :: Nat.toDigits 10 n → os.reverse[n]? = some i → Names len os all u i
  /-- `ALL` (or an abbreviation), where it is allowed -/
  | every : u <+: "ALL".toList → u ≠ [] → all = true → Names len os all u 0

end MM.Step
