import Verif.Basic
/-!
# Specification: dates

Written without reference to the modelled functions.
-/
namespace MM.Date

/-- The number that a text of decimal digits stands for. -/
def decimal (l : List Char) : Nat := l.foldl (fun a c => 10 * a + (c.toNat - 48)) 0

def Digits (l : List Char) : Prop := ∀ c ∈ l, c.isDigit = true

/-- The months as they are written in dates. -/
def monthNames : List (List Char) :=
  ["Jan".toList, "Feb".toList, "Mar".toList, "Apr".toList, "May".toList, "Jun".toList, "Jul".toList, "Aug".toList, "Sep".toList, "Oct".toList, "Nov".toList,
    "Dec".toList]

/-- The text `ys` stands for the year `y`: four digits (a year from 100 on), or, as obsolete form, the last two digits of a year between 1993 and 2092. -/
def IsYear (ys : List Char) (y : Nat) : Prop :=
  Digits ys ∧ ((ys.length = 4 ∧ decimal ys = y ∧ 100 ≤ y) ∨ (ys.length = 2 ∧ 1993 ≤ y ∧ y ≤ 2092 ∧ y % 100 = decimal ys))

/-- The text `s` is the date "day `d` of month `m` of year `y`" in the form dd-mmm-yyyy, where dd is one or two digits. -/
def IsDate (s : List Char) (d m y : Nat) : Prop :=
  ∃ ds ms ys, s = ds ++ '-' :: (ms ++ '-' :: ys) ∧ Digits ds ∧ (ds.length = 1 ∨ ds.length = 2) ∧ decimal ds = d ∧ 1 ≤ d ∧ d ≤ 31 ∧
    1 ≤ m ∧ monthNames[m - 1]? = some ms ∧ IsYear ys y

/-- Day `d` of month `m` of year `y` comes before day `d'` of month `m'` of year `y'`. -/
def Before (d m y d' m' y' : Nat) : Prop := y < y' ∨ (y = y' ∧ (m < m' ∨ (m = m' ∧ d < d')))

end MM.Date
