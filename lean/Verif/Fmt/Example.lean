import Verif.Fmt.Main
import Verif.Lex.Example
/-!
# Examples for WRITE SOURCE / FORMAT
-/
namespace MM.Fmt
open MM.Veri MM.Pars MM.Lex MM.Vstr MM.Long MM.Write MM.Incl MM.Spec

/-- The line of the label. -/
theorem ownLine_at {a b : Str} (hb : ∀ c ∈ b, c ≠ '\n' ∧ isGraph c = false) : OwnLine (a ++ '\n' :: b) := by
  intro a' b' e h
  obtain ⟨_, rfl⟩ := last_nl_uniq e (fun hm => (hb _ hm).1 rfl) h
  exact fun c hc => (hb c hc).2

theorem ownLine_none {p : Str} (h : '\n' ∉ p) : OwnLine p := fun a b e _ => absurd (by rw [e]; simp) h

def exText : List Char := ("$( Hi $) $c wff |- ( ) $. \n\n\n\n\n  $v p   q $. $( type\n of\n  it $)\n wp $f wff p $.\n wq\t$f wff\tq $.\n${ $d p  q $. $d q p $.\n\n  " ++
  "hyp.1 $e |-   p $.\n\n $( A\n  description. $)\n  ax-1 $a |- ( p q ) $. $} ${ $} ax-2 $a |-\n\n q $.   ").toList

/-- `SET WIDTH 30`. -/
def exCfg : FCfg := ⟨30, false, "(Proof modification is discouraged.)".toList, "(New usage is discouraged.)".toList, fun _ => 'x'⟩

def exOut : List Char := ("$( Hi $)\n  $c wff |- ( ) $.\n\n\n  $v p q $. $( type\n of\n  it $)\n  wp $f wff p $.\n  wq $f wff q $.\n  ${  $d p q $.  $d q p $.\n    " ++
  "hyp.1 $e |- p $.\n    $( A\n       description. $)\n    ax-1 $a |- ( p q ) $.  $}\n\n  ${  $}\n  $( PLEASE PUT DESCRIPTION\n     HERE. $)\n  ax-2 $a |-\n q $.   ").toList

def exSecs : List Sections :=
  [⟨.c, "$( Hi $) ".toList, " wff |- ( ) ".toList, []⟩, ⟨.v, " \n\n\n\n\n  ".toList, " p   q ".toList, []⟩, ⟨.f, " $( type\n of\n  it $)\n wp ".toList, " wff p ".toList, []⟩,
   ⟨.f, "\n wq\t".toList, " wff\tq ".toList, []⟩, ⟨.lb, "\n".toList, [], []⟩, ⟨.d, " ".toList, " p  q ".toList, []⟩, ⟨.d, " ".toList, " q p ".toList, []⟩,
   ⟨.e, "\n\n  hyp.1 ".toList, " |-   p ".toList, []⟩, ⟨.a, "\n\n $( A\n  description. $)\n  ax-1 ".toList, " |- ( p q ) ".toList, []⟩, ⟨.rb, " ".toList, [], []⟩,
   ⟨.lb, " ".toList, [], []⟩, ⟨.rb, " ".toList, [], []⟩, ⟨.a, " ax-2 ".toList, " |-\n\n q ".toList, []⟩]

def nm (l : List String) : List Name := l.map String.toList

def exSrc : List Src :=
  [⟨.c, [], nm ["wff", "|-", "(", ")"], []⟩, ⟨.v, [], nm ["p", "q"], []⟩, ⟨.f, "wp".toList, nm ["wff", "p"], []⟩,
   ⟨.f, "wq".toList, nm ["wff", "q"], []⟩, ⟨.lb, [], [], []⟩, ⟨.d, [], nm ["p", "q"], []⟩, ⟨.d, [], nm ["q", "p"], []⟩,
   ⟨.e, "hyp.1".toList, nm ["|-", "p"], []⟩, ⟨.a, "ax-1".toList, nm ["|-", "(", "p", "q", ")"], []⟩, ⟨.rb, [], [], []⟩, ⟨.lb, [], [], []⟩,
   ⟨.rb, [], [], []⟩, ⟨.a, "ax-2".toList, nm ["|-", "q"], []⟩]

deriving instance DecidableEq for Sections

def checkRead (text : List Char) (p : ReadOut → Bool) : Bool := match readSource insSort text with | .val o => decide (o.errs = 0) && p o | _ => false

theorem read_of_check {text : List Char} {p : ReadOut → Bool} (h : checkRead text p = true) : ∃ o, readSource insSort text = .val o ∧ o.errs = 0 ∧ p o = true := by
  unfold checkRead at h
  cases hr : readSource insSort text with
  | val o => rw [hr] at h; simp only [Bool.and_eq_true, decide_eq_true_eq] at h; exact ⟨o, rfl, h.1, h.2⟩
  | ub => rw [hr] at h; cases h
  | bug n => rw [hr] at h; cases h
  | fuel => rw [hr] at h; cases h

theorem ex_check : checkRead exText (fun o => decide (o.stmts.map KStmt.sections = exSecs) && decide (o.src = exSrc)) = true := by decide +kernel

/-- The statements of the example are laid out as `C70_format_keeps_database_partial` asks for. -/
theorem ex_laid : List.Forall₂ (Laid exCfg) exSecs exSrc := by
  have tab : ∀ s : Str, '\t' ∉ s → TabsOk exCfg.g s := fun s h => ⟨by rw [List.count_eq_zero.2 h]; omega, Or.inl (fun _ => show ('x' : Char) ≠ '\t' by decide)⟩
  have none : ∀ {x : Sections} {y : Src}, (y.kind ≠ .e ∧ y.kind ≠ .f ∧ y.kind ≠ .a ∧ y.kind ≠ .p) → '\t' ∉ x.label → '\t' ∉ x.math → Laid exCfg x y :=
    fun h h1 h2 => ⟨fun h' => by tauto, fun h' => by tauto, tab _ h1, tab _ h2⟩
  have noA : ∀ {P : Prop} {k : Kind}, (k ≠ .a ∧ k ≠ .p) → k = .a ∨ k = .p → P := fun h h' => by tauto
  have noE : ∀ {P : Prop} {k : Kind}, (k ≠ .e ∧ k ≠ .f) → k = .e ∨ k = .f → P := fun h h' => by tauto
  unfold exSecs exSrc
  refine .cons (none (by decide) (by decide) (by decide)) (.cons (none (by decide) (by decide) (by decide)) (.cons ⟨fun _ => ?_, noA (by decide), tab _ (by decide), tab _ (by decide)⟩
    (.cons ⟨fun _ => ?_, noA (by decide), ?_, ?_⟩ (.cons (none (by decide) (by decide) (by decide)) (.cons (none (by decide) (by decide) (by decide))
    (.cons (none (by decide) (by decide) (by decide)) (.cons ⟨fun _ => ?_, noA (by decide), tab _ (by decide), tab _ (by decide)⟩ (.cons ⟨noE (by decide), fun _ => ?_, tab _ (by decide), tab _ (by decide)⟩
    (.cons (none (by decide) (by decide) (by decide)) (.cons (none (by decide) (by decide) (by decide)) (.cons (none (by decide) (by decide) (by decide))
    (.cons ⟨noE (by decide), fun _ => ?_, tab _ (by decide), tab _ (by decide)⟩ .nil))))))))))))
  · refine ⟨" $( type\n of\n  it $)\n ".toList, " ".toList, rfl, by unfold EndsGap; decide, ?_, by decide⟩
    exact ownLine_at (a := " $( type\n of\n  it $)".toList) (b := " ".toList) (by decide)
  · refine ⟨"\n ".toList, "\t".toList, rfl, by unfold EndsGap; decide, ?_, by decide⟩
    exact ownLine_at (a := []) (b := " ".toList) (by decide)
  · exact ⟨by decide, Or.inr (by decide)⟩
  · exact ⟨by decide, Or.inr (by decide)⟩
  · refine ⟨"\n\n  ".toList, " ".toList, rfl, by unfold EndsGap; decide, ?_, by decide⟩
    exact ownLine_at (a := "\n".toList) (b := "  ".toList) (by decide)
  · refine Or.inr ⟨"\n\n ".toList, " A\n  description. ".toList, "\n  ".toList, " ".toList, rfl, by decide, by decide, by decide, by decide, Or.inl ?_⟩
    exact ownLine_at (a := "\n".toList) (b := " ".toList) (by decide)
  · exact Or.inl (by decide)

/-- `C70_format_keeps_database_partial` applies. -/
theorem ex_applies : ∃ o, readSource insSort exText = .val o ∧ o.errs = 0 ∧ List.Forall₂ (Laid exCfg) (o.stmts.map KStmt.sections) o.src ∧ '\r' ∉ exText ∧ 5 ≤ exCfg.width ∧ SortOk insSort := by
  obtain ⟨o, h1, h2, h3⟩ := read_of_check ex_check
  simp only [Bool.and_eq_true, decide_eq_true_eq] at h3
  refine ⟨o, h1, h2, ?_, by decide +kernel, by decide, sortOk_insSort⟩
  rw [h3.1, h3.2]
  exact ex_laid

/-- READ and WRITE SOURCE / FORMAT. -/
def formatText (f : FCfg) (text : List Char) : Out (List Char) := readSource insSort text >>= fun o => writeFormatted f text o

def isText : Out (List Char) → List Char → Bool
  | .val t, u => decide (t = u)
  | _, _ => false

/-- What is written for the example. -/
example : isText (formatText exCfg exText) exOut = true := by decide +kernel

/-- READ, WRITE SOURCE / FORMAT, and the errors READ reports for what was written. -/
def errsAfter (f : FCfg) (text : List Char) : Option Nat := match formatText f text >>= fun t => readSource insSort t with | .val o => some o.errs | _ => none

/-- Without `Laid` the claim is false: after `$( type`⏎` of`⏎`it $) wp $f wff p $.` the end of the comment is lost, and READ does not accept what is written. -/
theorem C70_witness_comment_cut : checkRead "$c wff $. $v p $. $( type\n of\n  it $) wp $f wff p $.\n".toList (fun _ => true) = true ∧
    isText (formatText exCfg "$c wff $. $v p $. $( type\n of\n  it $) wp $f wff p $.\n".toList) "  $c wff $.  $v p $. $( type\n of\n  wp $f wff p $.\n".toList = true ∧
    errsAfter exCfg "$c wff $. $v p $. $( type\n of\n  it $) wp $f wff p $.\n".toList ≠ some 0 := by decide +kernel

/-- A comment between a `$e` and its label is lost. -/
theorem C70_witness_comment_lost : checkRead "$c wff $.\n h $( keep $) $e wff $.\n".toList (fun _ => true) = true ∧
    isText (formatText exCfg "$c wff $.\n h $( keep $) $e wff $.\n".toList) "  $c wff $.\n  h $e wff $.\n".toList = true := by decide +kernel

/-- The label of a `$a` with the comment after it is written twice, and READ does not accept that. -/
theorem C70_witness_label_twice : checkRead "$c wff $. ax $( keep $) $a wff $.\n".toList (fun _ => true) = true ∧
    isText (formatText exCfg "$c wff $. ax $( keep $) $a wff $.\n".toList) "  $c wff $. ax\n  $( keep $)\n  ax $a wff $.\n".toList = true ∧
    errsAfter exCfg "$c wff $. ax $( keep $) $a wff $.\n".toList ≠ some 0 := by decide +kernel

end MM.Fmt
