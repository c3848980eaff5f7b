import Verif.Basic
import Verif.Veri.Example
import Verif.Pars.Example
import Verif.Pars.ReadProps
import Verif.Proof.Example
import Verif.Vstr.Props
import Verif.Vstr.Comma
import Verif.Vstr.Untab
import Verif.Match.Props
import Verif.Lex.Example
import Verif.Cmd.Example
import Verif.Proof.CompExample
import Verif.Data.RenderExample
import Verif.Proof.CompSafeExample
import Verif.Tree.Example
import Verif.Tree.VerdictExample
import Verif.Fatl.Example
import Verif.Date.Props
import Verif.Unif.Example
import Verif.Unif.HExample
import Verif.Trace.Example
import Verif.Pfas.UndoExample
import Verif.Pfas.SessionExample
import Verif.Pfas.EndExample
import Verif.Proof.NoChain
import Verif.Expd.Example
import Verif.File.Example
import Verif.Write.Example
import Verif.Long.Example
import Verif.Save.Example
import Verif.Incl.Example
import Verif.Count.Example
import Verif.Expl.Props
import Verif.Expl.Example
import Verif.Expl.SaveExample
import Verif.Fmt.Example
import Verif.Fmt.RExample
import Verif.Extr.Nest
import Verif.Extr.Model
import Verif.Extr.Flags
import Verif.Extr.Flags2
import Verif.Extr.DeclAt
import Verif.Extr.Transfer
import Verif.Extr.Keep
import Verif.Extr.Kept
import Verif.Extr.Undecl
import Verif.Extr.Frame
import Verif.Extr.Props
import Verif.Extr.Example
import Verif.Extr.Tau
import Verif.Extr.Proofs
import Verif.Extr.Verify
import Verif.Extr.Text
import Verif.Extr.Comp
import Verif.Extr.Sect
import Verif.Extr.ProofProps
import Verif.Extr.ProofExample
import Verif.Impr.Model
import Verif.Impr.Sound
import Verif.Impr.Loop
import Verif.Impr.Ends
import Verif.Impr.Props
import Verif.Impr.Example
import Verif.Repl.Model
import Verif.Repl.Inv
import Verif.Repl.Sound
import Verif.Repl.Comp
import Verif.Repl.Sort
import Verif.Repl.Main
import Verif.Repl.Mini
import Verif.Repl.Loop
import Verif.Repl.Props
import Verif.Repl.Example
import Verif.Repl.Acc
import Verif.Repl.Ends
import Verif.Repl.Ends2
import Verif.Repl.Ends3
import Verif.Repl.EndProps
import Verif.Repl.EndExample
import Verif.Cmdl.Model
import Verif.Cmdl.LineSpec
import Verif.Cmdl.Line
import Verif.Cmdl.LineProps
import Verif.Cmdl.KeySpec
import Verif.Cmdl.Key
import Verif.Cmdl.KeyProps
import Verif.Cmdl.Again
import Verif.Cmdl.Process
import Verif.Cmdl.Lists
import Verif.Cmdl.Words
import Verif.Tools.Model
import Verif.Tools.Lines
import Verif.Tools.Cmds
import Verif.Tools.Subst
import Verif.Tools.Break
import Verif.Tools.Sort
import Verif.Tools.Misc
import Verif.Tools.Clean
import Verif.Tools.Multi
import Verif.Pool.Model
import Verif.Pool.Sane
import Verif.Pool.Ops
import Verif.Pool.Nmbr
import Verif.Let.Model
import Verif.Let.Assign
import Verif.Step.Model
import Verif.Step.Spec
import Verif.Step.Steps
import Verif.Step.Stmt
import Verif.Step.Example
import Verif.Byrep.Model
import Verif.Byrep.Known
import Verif.Byrep.Spec
import Verif.Byrep.Props
import Verif.Byrep.Example
import Verif.Improve.Model
import Verif.Improve.Props
import Verif.Improve.Example
import Verif.Iso.Model
import Verif.Iso.Spec
import Verif.Iso.Props
import Verif.Iso.Unique
import Verif.Iso.Example
import Verif.Mark.Model
import Verif.Mark.Spec
import Verif.Mark.Props
import Verif.Mark.Example
