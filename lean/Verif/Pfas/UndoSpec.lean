import Verif.Pfas.Undo

/-!
# Specification of UNDO and REDO: a history with a cursor, of which at most `limit` older states are kept
-/
namespace MM.Pfas

/-- A proof in progress as the Proof Assistant keeps it: at least one step, one target, source and user formula per step. -/
def Pip.Ok (p : Pip) : Prop :=
  p.proof ≠ [] ∧ p.target.length = p.proof.length ∧ p.source.length = p.proof.length ∧ p.user.length = p.proof.length

/-- The history: the older states (most recent first), the current one, the undone ones (next first); each with the command that led to it.
`lost`: an older state was dropped because `limit` were kept already.  `cut`: the history was discarded by SET UNDO when there were older states. -/
structure Hist where
  past : List Slot
  cur : Slot
  future : List Slot
  limit : Nat
  lost : Bool
  cut : Bool
  stored : Pip

/-- What a command does to the history, and what it prints.  `stored` is the proof at entry or at the last SAVE NEW_PROOF. -/
def Hist.step (h : Hist) : Cmd → Hist × Msg
  | .change p info => ({ h with past := (h.cur :: h.past).take h.limit, cur := (p, info), future := [],
                                lost := h.lost || decide (h.limit ≤ h.past.length) }, .none)
  | .undo => match h.past with
    | [] => (h, if h.lost then .exceeded h.limit else .noUndo)
    | x :: l => ({ h with past := l, cur := x, future := h.cur :: h.future }, .undid h.cur.2)
  | .redo => match h.future with
    | [] => (h, .noRedo)
    | x :: l => ({ h with past := h.cur :: h.past, cur := x, future := l }, .redid x.2)
  | .save => ({ h with stored := h.cur.1 }, .none)
  | .setUndo n =>
    if (h.limit : Int) = max n 0 then (h, .none)
    else ({ h with past := [], cur := (h.cur.1, []), future := [], limit := n.toNat, lost := false, cut := h.cut || h.lost || !h.past.isEmpty },
      if h.past = [] then .none else .discarded)

def Hist.run : Hist → List Cmd → Hist × List Msg
  | h, [] => (h, [])
  | h, c :: cs => (((h.step c).1.run cs).1, (h.step c).2 :: ((h.step c).1.run cs).2)

/-- The history at the start of a session. -/
def Hist.begin (p : Pip) (max : Nat) : Hist := ⟨[], (p, []), [], max, false, false, p⟩

/-- The commands only install proper proofs. -/
def CmdOk : Cmd → Prop
  | .change p _ => p.Ok
  | _ => True

end MM.Pfas
