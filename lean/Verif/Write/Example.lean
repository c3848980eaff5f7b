import Verif.Write.Main
/-!
# An example of WRITE SOURCE
-/
namespace MM.Write
open MM.Veri MM.Pars MM.Lex

def exText : List Char := "$c wff $. $( Ax $) ax $a wff $.\n $( Th. $)\n th $p wff $= ? $. $( end $)\n".toList

def exSave : Save := ⟨3, "   ax $.\n".toList, some "\n   (Contributed by NM, 1-Jan-2000.) ".toList⟩

theorem ex_check : (match readSource (fun l => l) exText with
    | .val o => decide (o.errs = 0) && decide (o.stmts.map KStmt.kind = [.c, .a, .p]) | _ => false) = true := by decide +kernel

/-- The example is read without errors. -/
theorem ex_read : ∃ o, readSource (fun l => l) exText = .val o ∧ o.errs = 0 ∧ o.stmts.map KStmt.kind = [.c, .a, .p] := by
  have := ex_check
  cases h : readSource (fun l => l) exText with
  | val o =>
    rw [h] at this
    simp only [Bool.and_eq_true, decide_eq_true_eq] at this
    exact ⟨o, rfl, this.1, this.2⟩
  | ub => rw [h] at this; cases this
  | bug n => rw [h] at this; cases this
  | fuel => rw [h] at this; cases this

theorem ex_ok : exSave.Ok [.c, .a, .p] := by
  refine ⟨⟨2, rfl, rfl⟩, ⟨"   ax".toList, rfl, ?_⟩, ?_⟩
  · unfold TextChar; decide
  · intro n hn
    cases hn
    exact ⟨by unfold TextChar; decide, ⟨'\n', _, rfl, by decide⟩, ⟨"\n   (Contributed by NM, 1-Jan-2000.)".toList, ' ', rfl, by decide⟩⟩

/-- `C60_saved_source` applies, here to two SAVE PROOF commands. -/
example : ∃ o, readSource (fun l => l) exText = .val o ∧ o.errs = 0 ∧ ∀ s ∈ [exSave, exSave], s.Ok (o.stmts.map KStmt.kind) := by
  obtain ⟨o, h1, h2, h3⟩ := ex_read
  refine ⟨o, h1, h2, ?_⟩
  rw [h3]
  simp [ex_ok]

/-- Unchanged, and after SAVE PROOF. -/
example : (match writeSourceToBuffer (statements exText) with | .val t => decide (t = exText) | _ => false) = true := by decide +kernel

example : (match saveAll [exSave] (statements exText) >>= writeSourceToBuffer with
    | .val t => decide (t = "$c wff $. $( Ax $) ax $a wff $.\n $( Th. \n   (Contributed by NM, 1-Jan-2000.) $)\n th $p wff $=\n   ax $. $( end $)\n".toList)
    | _ => false) = true := by decide +kernel

/-- The condition on the note is needed: SET CONTRIBUTOR takes any name, and after `SET CONTRIBUTOR "N $) M"` the source WRITE SOURCE writes after SAVE PROOF is
not accepted by READ. -/
theorem C60_witness_contributor : (match saveAll [⟨3, "   ax $.\n".toList, some "\n   (Contributed by N $) M, 1-Jan-2000.) ".toList⟩] (statements exText) >>=
    writeSourceToBuffer >>= readSource (fun l => l) with
    | .val o => decide (0 < o.errs) | _ => false) = true := by decide +kernel

end MM.Write
