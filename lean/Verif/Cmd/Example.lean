import Verif.Cmd.Props
import Verif.Lex.Example
import Verif.Proof.Example
/-!
# Concrete sessions for C09 and C10
-/
namespace MM.Cmd
open MM.Veri MM.Pars MM.Lex MM.Proof MM.Match MM.Vstr MM.Spec

/-- What the special label patterns need besides the database; not used with `*`. -/
def sessEnv (o : ReadOut) : MEnv := { envOf linLook o.src o.state with pink := fun _ => 0, prove := 0, changed := fun _ => false, val := fun _ => 0 }

/-- READ, then `VERIFY PROOF *`: number of READ errors, success reported, number of error messages, labels of the statements not proved. -/
def session (text : String) : Option (Nat × Bool × Nat × List String) :=
  match readSource insSort text.toList with
  | .val o => match verifyProofs (sessEnv o) 0 (secOf o) ['*'] true with
    | .val v => some (o.errs, v.success, v.printed, v.unproved.map String.ofList)
    | _ => none
  | _ => none

def goodText : String :=
  "$( Demo. $) $c wff |- -> $. $v p q $. wp $f wff p $. wq $f wff q $. wi $a wff -> p q $. ${ min $e |- p $. ax $a |- -> p q $. th $p |- -> p q $= wp wq min ax $. $} t2 $p wff -> -> p q -> p q $= ( wi ) ABCZD $( comment $) C $."

/-- A source with a normal and a compressed proof: no error, success, nothing unproved (C09, C10). -/
example : session goodText = some (0, true, 0, []) := by decide +kernel

/-- An unknown step is reported and there is no success (C10). -/
example : session "$c wff $. $v p q $. wp $f wff p $. wq $f wff q $. th $p wff p $= ? $. t2 $p wff q $= wq $. t3 $p wff q $= ( ) B?A $." =
    some (0, false, 1, ["th"]) := by decide +kernel

def badText : String :=
  "$c wff |- $. $v x y z $. vx $f wff x $. vy $f wff y $. vz $f wff z $. ${ $d x y $. ax $a |- x y $. $} th $p |- z z $= vz vz ax $."

/-- **C09** is false without the condition on messages: the proof of `th` violates a disjoint variable restriction, an error message is printed, and
nevertheless the command ends with "All proofs in the database were verified". -/
theorem C09_success_after_error : session badText = some (0, true, 1, []) := by decide +kernel

/-- The same with a proof of the wrong formula. -/
theorem C09_success_after_wrong_formula :
    session "$c wff $. $v x y $. vx $f wff x $. vy $f wff y $. th $p wff x $= vy $." = some (0, true, 1, []) := by decide +kernel

end MM.Cmd
