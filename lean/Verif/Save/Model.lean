import Verif.Long.Model
/-!
# SAVE PROOF: the text of the proof
-/
namespace MM.Save
open MM.Vstr MM.Long

/-- What SAVE PROOF puts into `g_printString` (metamath.c 3697–3718): `out` is the proof as text, `ind` the variable `indentation`.
Not modelled: how `indentation`, 2 plus the number of spaces before the label (`getSourceIndentation`, mmdata.c 2984–3004), is computed. -/
def saveText (width : Int) (ind : Nat) (compressed : Bool) (out : Str) : Out Str :=
  printLongLine width (List.replicate ind ' ' ++ out ++ [' ', '$', '.']) (List.replicate ind ' ') (if compressed then ['&', ' '] else [' ']) >>= fun ls =>
  .val (printed ls)

end MM.Save
