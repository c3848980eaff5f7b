/-!
# Common vocabulary of the model

`Out α` is the outcome of a piece of modelled C code: a normal value, undefined
behaviour (read/write outside an array, use of uninitialised memory, ...), a call
of the internal-error routine `bug(n)` (mmcmdl/mmdata `bug`), or exhaustion of the
fuel given to a modelled loop (never an outcome of the program; theorems show it
does not happen for the fuel used).
-/
namespace MM

inductive Out (α : Type) where
  | val (a : α)
  | ub
  | bug (n : Nat)
  | fuel
deriving Repr, DecidableEq

namespace Out
def bind {α β : Type} : Out α → (α → Out β) → Out β
  | val a, f => f a
  | ub, _ => ub
  | bug n, _ => bug n
  | fuel, _ => fuel

instance : Monad Out where
  pure := val
  bind := Out.bind

@[simp] theorem pure_eq {α} (a : α) : (pure a : Out α) = val a := rfl
@[simp] theorem bind_val {α β} (a : α) (f : α → Out β) : (val a >>= f) = f a := rfl
@[simp] theorem bind_ub {α β} (f : α → Out β) : ((ub : Out α) >>= f) = ub := rfl
@[simp] theorem bind_bug {α β} (n) (f : α → Out β) : ((bug n : Out α) >>= f) = bug n := rfl
@[simp] theorem bind_fuel {α β} (f : α → Out β) : ((fuel : Out α) >>= f) = fuel := rfl

/-- Array read: outside the array is undefined behaviour. -/
def read {α : Type} (l : List α) (i : Nat) : Out α :=
  match l[i]? with
  | some a => val a
  | none => ub
end Out

/-- Assignment to one array cell, arrays being total functions of the index. -/
def upd {α : Type} (f : Nat → α) (i : Nat) (a : α) : Nat → α :=
  fun j => if j = i then a else f j

@[simp] theorem upd_same {α} (f : Nat → α) (i : Nat) (a : α) : upd f i a i = a := by simp [upd]
theorem upd_other {α} (f : Nat → α) {i j : Nat} (a : α) (h : j ≠ i) : upd f i a j = f j := by
  simp [upd, h]

end MM
