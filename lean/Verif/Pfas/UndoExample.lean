import Verif.Pfas.UndoProps
/-!
# Sessions that meet the hypotheses of C53
-/
namespace MM.Pfas
open MM.Veri

def exP (n : Nat) : Pip := ⟨[(n : Int)], [[n]], [[n]], [[]]⟩

theorem exP_ok (n : Nat) : (exP n).Ok := ⟨by simp [exP], rfl, rfl, rfl⟩

def exCmds : List Cmd := [.setUndo 2, .change (exP 1) ['a'], .change (exP 2) ['b'], .change (exP 3) ['c'], .undo, .undo, .undo, .redo, .save, .undo]

/-- A session with an overflow of the stack: the messages, the proof in progress, and that EXIT warns. -/
example : (enter .start (exP 0) >>= fun s => runCmds s exCmds >>= fun r => exitWarns r.1 >>= fun b => .val (r.1.pip, r.2, b)) =
    Out.val (exP 1, [.none, .none, .none, .none, .undid ['c'], .undid ['b'], .exceeded 2, .redid ['b'], .none, .undid ['b']], true) := by decide +kernel

theorem exCmds_ok : ∀ c ∈ exCmds, CmdOk c := by
  intro c hc
  simp only [exCmds, List.mem_cons, List.not_mem_nil, or_false] at hc
  rcases hc with rfl | rfl | rfl | rfl | rfl | rfl | rfl | rfl | rfl | rfl <;> first | trivial | exact exP_ok _

/-- C53 applies to it. -/
example : ∃ s m b, (enter .start (exP 0) >>= fun s => runCmds s exCmds) = .val (s, m) ∧ exitWarns s = .val b ∧
    (b = false → s.pip = ((Hist.begin (exP 0) 19).run exCmds).1.stored) :=
  C53_exit_safe start_valid (exP_ok 0) exCmds_ok

/-- No warning when everything was undone and nothing saved. -/
example : (enter .start (exP 0) >>= fun s => runCmds s [.change (exP 1) ['a'], .undo] >>= fun r => exitWarns r.1) = Out.val false := by decide +kernel

example : ∃ s0 s1 s2 m0 m1 m2, (enter .start (exP 0) >>= fun s => runCmds s exCmds) = .val (s0, m0) ∧
    runCmds s0 (([((exP 5), ['x'])] ++ [((exP 6), ['y'])]).map (fun x => .change x.1 x.2) ++ List.replicate 2 .undo) = .val (s1, m1) ∧ s1.pip = s0.pip ∧
      runCmds s1 (List.replicate 2 .redo) = .val (s2, m2) ∧ s2.pip = exP 6 :=
  C53_undo_restores start_valid (exP_ok 0) exCmds_ok (ps := [((exP 5), ['x'])]) (q := ((exP 6), ['y']))
    (by intro x hx; simp at hx; rcases hx with rfl | rfl <;> exact exP_ok _) (by decide)

end MM.Pfas
