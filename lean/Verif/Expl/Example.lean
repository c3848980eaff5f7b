import Verif.Expl.Props
import Verif.Proof.Example
/-!
# Concrete proofs in the `/EXPLICIT` format

```
$c W ( > ) $.  $v p q $.  wp $f W p $.  wq $f W q $.  wi $a W ( p > q ) $.
th $p W ( ( p > q ) > ( p > q ) ) $= wq=wq wp=wp a:wq=wi wp=a th=wi $.
```
-/
namespace MM.Expl
open MM.Veri MM.Pars MM.Proof MM.Data MM.Tree MM.Pfas MM.Spec MM.Lex

def pfE : Env := pfEnv pfOut pfSrc

/-- All the subproofs are in the order opposite to that of the database, and the reference `a` has to be exchanged with what it refers to. -/
def exItems : List XItem := [⟨⟨[], w "wq"⟩, w "wq"⟩, ⟨⟨[], w "wp"⟩, w "wp"⟩, ⟨⟨[w "a"], w "wi"⟩, w "wq"⟩, ⟨⟨[], w "a"⟩, w "wp"⟩, ⟨⟨[], w "wi"⟩, w "th"⟩]

def exToks : List Name := [w "wq", w "=", w "wq", w "wp", w "=", w "wp", w "a", w ":", w "wq", w "=", w "wi", w "wp", w "=", w "a", w "th", w "=", w "wi"]

theorem ex_text : xtext exItems = exToks := by decide

theorem ex_form : XForm exItems := by unfold XForm; decide

theorem ex_parse : parseProofX pfE 6 5 exToks = .val ⟨[3, 4, 5, -1002, 5], 0, 0⟩ := by decide +kernel

/-- Without the targets the steps are in the order of the text. -/
theorem ex_plain : parseProof pfE 6 (text (exItems.map XItem.item)) = .val ⟨[4, 3, 5, -1002, 5], 0, 0⟩ := by decide +kernel

theorem ex_means : Explicit pfE ((exItems.map XItem.tgt).zip [4, 3, 5, -1002, 5]) [3, 4, 5, 3, 4, 5, 5] := ⟨w "th", [[4], [3], [3, 4, 5], [3, 4, 5], [3, 4, 5, 3, 4, 5, 5]], by decide +kernel⟩

/-- The hypotheses of `C68_explicit_means` and `C68_order_keeps_verdict` are met ... -/
example : ∃ s, Accepted pfSrc s ∧ (∃ w l, parseProof (envOf linLook pfSrc s) 6 (text (exItems.map XItem.item)) = .val ⟨w, 0, 0⟩ ∧ w.length = exItems.length ∧
      Explicit (envOf linLook pfSrc s) ((exItems.map XItem.tgt).zip w) l ∧ Expands (envOf linLook pfSrc s) [3, 4, 5, -1002, 5] l ∧ ((∀ x ∈ w, -1000 < x) → [3, 4, 5, -1002, 5] = l)) := by
  obtain ⟨s, h, ho⟩ := pfSrc_accepted
  have hr : parseProofX (envOf linLook pfSrc s) 6 5 (xtext exItems) = .val ⟨[3, 4, 5, -1002, 5], 0, 0⟩ := by
    rw [ex_text, pfEnv_eq (src := pfSrc) ho]; exact ex_parse
  exact ⟨s, h, C68_explicit_means h linLook_ok pfLabels (p := 6) (by decide) (by decide) ex_form hr (by decide)⟩

/-- ... and those of `C68_explicit_accepted`: the loop ends. -/
example : ∃ s, Accepted pfSrc s ∧ ∃ F P, (∀ fuel, F ≤ fuel → parseProofX (envOf linLook pfSrc s) 6 fuel (xtext exItems) = .val ⟨P, 0, 0⟩) ∧
    Expands (envOf linLook pfSrc s) P [3, 4, 5, 3, 4, 5, 5] := by
  obtain ⟨s, h, ho⟩ := pfSrc_accepted
  have e := pfEnv_eq (src := pfSrc) ho
  obtain ⟨F, P, h1, h2, _⟩ := C68_explicit_accepted h linLook_ok pfLabels (p := 6) (by decide) (by decide) ex_form (r := ⟨[4, 3, 5, -1002, 5], 0, 0⟩) (l := [3, 4, 5, 3, 4, 5, 5])
    (by rw [e]; exact ex_plain) (by decide) (by rw [e]; exact ex_means)
  exact ⟨s, h, F, P, h1, h2⟩

/-- The hypotheses of `C68_any_text_is_derivable` are met: `th` is derivable. -/
example : ∃ s, Accepted pfSrc s ∧
    Derivable (isVarOf pfSrc) (ActiveHyp pfSrc s 6) (EarlierAssertion pfSrc s 6) (DvDeclared (kinds pfSrc) s.math 6) (s.math 6) := by
  obtain ⟨s, h, ho⟩ := pfSrc_accepted
  have e := pfEnv_eq (src := pfSrc) ho
  refine ⟨s, h, C68_any_text_is_derivable h linLook_ok pfLabels (p := 6) (by decide) (toks := exToks) (fuel := 5) (r := ⟨[3, 4, 5, -1002, 5], 0, 0⟩) (by rw [e]; exact ex_parse) rfl
    (out := ⟨0, 0, []⟩) ?_ rfl rfl⟩
  have : toDb pfSrc s = (pfEnv pfOut pfSrc).toDb := by rw [← e]; rfl
  rw [this]; exact pf_verify

/-- Without local labels the parsed proof has the order of the database: `wq=wq wp=wp wq=wi wq=wq wp=wp wp=wi th=wi`. -/
def exItems2 : List XItem := [⟨⟨[], w "wq"⟩, w "wq"⟩, ⟨⟨[], w "wp"⟩, w "wp"⟩, ⟨⟨[], w "wi"⟩, w "wq"⟩, ⟨⟨[], w "wq"⟩, w "wq"⟩, ⟨⟨[], w "wp"⟩, w "wp"⟩, ⟨⟨[], w "wi"⟩, w "wp"⟩,
  ⟨⟨[], w "wi"⟩, w "th"⟩]

example : parseProofX pfE 6 1 (xtext exItems2) = .val ⟨[3, 4, 5, 3, 4, 5, 5], 0, 0⟩ := by decide +kernel

/-- A target that no hypothesis has is an error: `wx=wq wp=wp th=wi`. -/
example : parseProofX pfE 6 1 (xtext [⟨⟨[], w "wq"⟩, w "wx"⟩, ⟨⟨[], w "wp"⟩, w "wp"⟩, ⟨⟨[], w "wi"⟩, w "th"⟩]) = .val ⟨[4, 3, 5], 2, 1⟩ := by decide +kernel

/-! ## Faults -/

/-- A step without a target is reported, but then the end of the literal `""` is overwritten when the step is compared: `wp wq th=wi`. -/
theorem C68_missing_target_ub : parseProofX pfE 6 1 [w "wp", w "wq", w "th", w "=", w "wi"] = .ub := by decide +kernel

/-- A `=` before the first target and one after the last step are accepted: `= wp=wp wq=wq th=wi =`. -/
theorem C68_stray_equals : parseProofX pfE 6 1 [w "=", w "wp", w "=", w "wp", w "wq", w "=", w "wq", w "th", w "=", w "wi", w "="] = .val ⟨[3, 4, 5], 0, 0⟩ := by decide +kernel

end MM.Expl
