import Verif.Fatl.Model
/-!
# Specification: formatted messages and what is shown of them

Written without reference to the modelled functions (`Arg` is the type of an argument).
-/
namespace MM.Fatl

/-- `Expands fmt args t`: the format `fmt` with the arguments `args` stands for the text `t`.  Surplus arguments are allowed. -/
inductive Expands : List Char → List Arg → List Char → Prop
  | done (args) : Expands [] args []
  | char {c fmt args t} : c ≠ '%' → Expands fmt args t → Expands (c :: fmt) args (c :: t)
  | str {fmt args t} (x : List Char) : Expands fmt args t → Expands ('%' :: 's' :: fmt) (.str (some x) :: args) (x ++ t)
  | null {fmt args t} : Expands fmt args t → Expands ('%' :: 's' :: fmt) (.str none :: args) t
  | num {fmt args t} (n : Nat) : n < 2 ^ 32 → Expands fmt args t → Expands ('%' :: 'u' :: fmt) (.num n :: args) (Nat.toDigits 10 n ++ t)
  | percent {fmt args t} : Expands fmt args t → Expands ('%' :: '%' :: fmt) args ('%' :: t)
  | stray {fmt args t} : fmt.head? ≠ some 's' → fmt.head? ≠ some 'u' → fmt.head? ≠ some '%' → Expands fmt args t → Expands ('%' :: fmt) args ('%' :: t)

/-- A NULL format stands for nothing. -/
def ExpandsOpt : Option (List Char) → List Arg → List Char → Prop
  | none, _, t => t = []
  | some f, args, t => Expands f args t

/-- Strings of C have no NUL. -/
def NoNul (l : List Char) : Prop := ∀ c ∈ l, c.toNat ≠ 0

/-- The strings among the arguments have no NUL. -/
def ArgsNoNul (args : List Arg) : Prop := ∀ x, Arg.str (some x) ∈ args → NoNul x

/-- What is shown of a text if there is room for less than `C` characters: the beginning, marked with an ellipsis if something is missing or there is no room
for the terminating NUL. -/
def shown (C : Nat) (t : List Char) : List Char := if t.length < C then t else t.take C ++ ['.', '.', '.', '\n']

/-- A line feed is supplied if the text does not end with one. -/
def finish (C : Nat) (t : List Char) : List Char := if t.length < C ∧ t ≠ [] ∧ t.getLast? ≠ some '\n' then t ++ ['\n'] else t

/-- The description of the error location. -/
def location (file : Option (List Char)) (line : Nat) : List Char :=
  match file, line with
  | some (c :: f), 0 => "In file ".toList ++ (c :: f) ++ ":\n".toList
  | some (c :: f), n + 1 => "At ".toList ++ (c :: f) ++ ":".toList ++ Nat.toDigits 10 (n + 1) ++ "\n".toList
  | _, 0 => []
  | _, n + 1 => "In line ".toList ++ Nat.toDigits 10 (n + 1) ++ ":\n".toList

/-- One call `fatalErrorPush(format, args)`. -/
structure Call where
  format : Option (List Char)
  args : List Arg

end MM.Fatl
