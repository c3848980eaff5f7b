import Verif.Fmt.RMain
import Verif.Fmt.Example
/-!
# Examples for WRITE SOURCE / REWRAP
-/
namespace MM.Fmt
open MM.Veri MM.Pars MM.Lex MM.Vstr MM.Long MM.Write MM.Incl MM.Spec

def rwCfg : FCfg := { exCfg with rewrap := true }

/-- `C71_rewrap_keeps_database_partial` applies. -/
theorem rw_applies : ∃ o, readSource insSort exText = .val o ∧ o.errs = 0 ∧ List.Forall₂ (Laid rwCfg) (o.stmts.map KStmt.sections) o.src ∧ '\r' ∉ exText ∧ 5 ≤ rwCfg.width ∧ SortOk insSort := by
  obtain ⟨o, h1, h2, h3, h4⟩ := ex_applies
  exact ⟨o, h1, h2, f2_imp (fun x y h => (⟨h.hyp, h.asrt, h.tabs⟩ : Laid rwCfg x y)) h3, h4⟩

def rwOut : List Char := ("$( Hi $)\n  $c wff |- ( ) $.\n\n\n  $v p q $. $( type\n of\n  it $)\n  wp $f wff p $.\n  wq $f wff q $.\n  ${  $d p q $.  $d q p $.\n    " ++
  "hyp.1 $e |- p $.\n    $( A description. $)\n    ax-1 $a |- ( p q ) $.  $}\n\n  ${  $}\n  $( PLEASE PUT DESCRIPTION\n     HERE. $)\n  ax-2 $a |-\n q $.   ").toList

/-- What is written for it. -/
theorem rw_example : isText (formatText rwCfg exText) rwOut = true := by decide +kernel

/-- Spaces around the math and a period are added. -/
theorem rw_period : isText (formatText rwCfg "$c wff $.\n $( A  `wff`\nthing $)\n ax $a wff $.\n".toList) "  $c wff $.\n  $( A ` wff ` thing. $)\n  ax $a wff $.\n".toList = true := by decide +kernel

def isBug : Out (List Char) → Nat → Bool
  | .bug n, k => decide (n = k)
  | _, _ => false

/-- The command stops with bug 1730 if the comment ends with an empty line. -/
theorem C71_witness_bug : checkRead "$c wff $.\n $( A thing\n\n$)\n ax $a wff $.\n".toList (fun _ => true) = true ∧
    isBug (formatText rwCfg "$c wff $.\n $( A thing\n\n$)\n ax $a wff $.\n".toList) 1730 = true := by decide +kernel

end MM.Fmt
