import Verif.Proof.Safe
import Verif.Pars.Example
/-!
# Concrete proof texts for the theorems about `parseProof`

```
$c W ( > ) $.  $v p q $.  wp $f W p $.  wq $f W q $.  wi $a W ( p > q ) $.
th $p W ( ( p > q ) > ( p > q ) ) $= wp wq a : wi a wi $.
```
-/
namespace MM.Proof
open MM.Veri MM.Pars MM.Spec

/-- A linear search is one of the searches allowed by `LookOk`. -/
def linLook : Look := fun tbl nm => (tbl.find? fun e => e.1 == nm).map Prod.snd

theorem linLook_ok : LookOk linLook := by
  intro tbl nm
  unfold linLook
  constructor
  · intro j hj
    cases hf : tbl.find? (fun e => e.1 == nm) with
    | none => rw [hf] at hj; cases hj
    | some e =>
      rw [hf] at hj
      simp only [Option.map_some, Option.some.injEq] at hj
      have h1 := List.mem_of_find?_eq_some hf
      have h2 := List.find?_some hf
      simp only [beq_iff_eq] at h2
      rw [← h2, ← hj]; exact h1
  · intro hn j hm
    rw [Option.map_eq_none_iff, List.find?_eq_none] at hn
    have := hn _ hm
    simp at this

def pfSrc : List Src :=
  [st .c "" ['W', '(', '>', ')'], st .v "" ['p', 'q'], st .f "wp" ['W', 'p'], st .f "wq" ['W', 'q'],
   st .a "wi" ['W', '(', 'p', '>', 'q', ')'],
   st .p "th" ['W', '(', '(', 'p', '>', 'q', ')', '>', '(', 'p', '>', 'q', ')', ')']]

def pfOut : List Stmt := [
  {}, { kind := .c, math := [0, 1, 2, 3] }, { kind := .v, math := [4, 5] }, { kind := .f, math := [0, 4] }, { kind := .f, math := [0, 5] },
  { kind := .a, math := [0, 1, 4, 2, 5, 3], reqHyp := [3, 4], reqVars := [4, 5] },
  { kind := .p, math := [0, 1, 1, 4, 2, 5, 3, 2, 1, 4, 2, 5, 3, 3], reqHyp := [3, 4], reqVars := [4, 5] }]

theorem pfSrc_accepted : ∃ s, Accepted pfSrc s ∧ s.out = pfOut := accepted_of_result (by decide +kernel)

/-- The label tables depend only on the stored statements. -/
def pfEnv (out : List Stmt) (src : List Src) : Env where
  isVar := tokIsVar (declToks src)
  sep := (declToks src).length
  stmt := fun i => out.getD i {}
  lab := srcLabel src
  n := src.length
  look := linLook

theorem pfEnv_eq {src : List Src} {s : PState} {out : List Stmt} (h : s.out = out) : envOf linLook src s = pfEnv out src := by
  subst h; rfl

def w (x : String) : Name := x.toList

def pfToks : List Name := [w "wp", w "wq", w "a", w ":", w "wi", w "a", w "wi"]

/-- The text is parsed without error, to a proof with a local reference ... -/
theorem pf_parse : parseProof (pfEnv pfOut pfSrc) 6 pfToks = .val ⟨[3, 4, 5, -1002, 5], 0, 0⟩ := by decide +kernel

/-- ... and verified without a message: the hypotheses of C07, C11, C39 are met. -/
theorem pf_verify : verifyProof (pfEnv pfOut pfSrc).toDb 6 [3, 4, 5, -1002, 5] 0 0 = .val ⟨0, 0, []⟩ := by decide +kernel

example : ∃ s, Accepted pfSrc s ∧
    Derivable (isVarOf pfSrc) (ActiveHyp pfSrc s 6) (EarlierAssertion pfSrc s 6) (DvDeclared (kinds pfSrc) s.math 6) (s.math 6) := by
  obtain ⟨s, h, ho⟩ := pfSrc_accepted
  have e := pfEnv_eq (src := pfSrc) ho
  refine ⟨s, h, C07_accepted_is_derivable h linLook_ok (p := 6) (by decide) (toks := pfToks) (r := ⟨[3, 4, 5, -1002, 5], 0, 0⟩) ?_ rfl (out := ⟨0, 0, []⟩) ?_ rfl rfl⟩
  · rw [e]; exact pf_parse
  · have : toDb pfSrc s = (pfEnv pfOut pfSrc).toDb := by rw [← e]; rfl
    rw [this]; exact pf_verify

/-! ## C08: the hypotheses of completeness are met -/

def pfItems : List Item := [⟨[], w "wp"⟩, ⟨[], w "wq"⟩, ⟨[w "a"], w "wi"⟩, ⟨[], w "a"⟩, ⟨[], w "wi"⟩]
def pfRefs : List Ref := [.stmt 3, .stmt 4, .stmt 5, .step 2, .stmt 5]

theorem pfLabels : SrcLabels pfSrc where
  uniq := by
    have : ∀ i < 7, ∀ j < 7, (1 ≤ i ∧ 1 ≤ j ∧ srcLabel pfSrc i ≠ [] ∧ srcLabel pfSrc i = srcLabel pfSrc j) → i = j := by decide +kernel
    intro i j h1 h2 h3 h4 h5 h6
    exact this i (Nat.lt_succ_of_le h2) j (Nat.lt_succ_of_le h4) ⟨h1, h3, h5, h6⟩
  kinds := by
    have : ∀ i < 7, 1 ≤ i → (srcLabel pfSrc i ≠ [] ↔ kindAt (kinds pfSrc) i = .e ∨ kindAt (kinds pfSrc) i = .f ∨ kindAt (kinds pfSrc) i = .a ∨ kindAt (kinds pfSrc) i = .p) := by
      decide +kernel
    intro i h1 h2
    exact this i (Nat.lt_succ_of_le h2) h1

theorem pfText : GoodText pfSrc 6 pfItems ∧ text pfItems = pfToks := by
  refine ⟨⟨by decide, ?_, by decide, by decide⟩, by decide⟩
  have : ∀ x ∈ pfItems, ∀ l ∈ x.labels, ∀ j < 7, srcLabel pfSrc j ≠ l := by decide +kernel
  intro x hx l hl j _ h2
  exact this x hx l hl j (Nat.lt_succ_of_le h2)

theorem flat_active {ks : List Kind} (h : ∀ k ∈ ks, delta k = 0) {j i : Nat} (h1 : 1 ≤ j) (h2 : j < i) : Active ks j i := by
  have hz : ∀ n, depth ks n = 0 := by
    intro n
    unfold depth
    have : ∀ l : List Kind, (∀ k ∈ l, delta k = 0) → (l.map delta).sum = 0 := by
      intro l
      induction l with
      | nil => intro _; rfl
      | cons x l ih => intro hl; simp [ih (fun k hk => hl k (by simp [hk])), hl x (by simp)]
    exact this _ (fun k hk => h k (List.mem_of_mem_take hk))
  exact ⟨h1, h2, fun k _ _ => by rw [hz, hz]⟩

theorem pf_flat : ∀ k ∈ kinds pfSrc, delta k = 0 := by decide

theorem pf_names : ∀ k x ref, pfItems[k]? = some x → pfRefs[k]? = some ref → Names pfSrc 6 pfItems k x.tok ref ∧
    (x.labels ≠ [] → ∃ j, ref = .stmt j ∧ IsAssert pfSrc j) := by
  intro k x ref hx hr
  have hf {j : Nat} (h1 : 1 ≤ j) (h2 : j < 6) := flat_active pf_flat h1 h2
  have h5 : IsAssert pfSrc 5 := Or.inl (by decide)
  match k with
  | 0 => cases hx; cases hr; exact ⟨.hyp 3 (hf (by decide) (by decide)) (by decide) (by decide), fun h => absurd rfl h⟩
  | 1 => cases hx; cases hr; exact ⟨.hyp 4 (hf (by decide) (by decide)) (by decide) (by decide), fun h => absurd rfl h⟩
  | 2 => cases hx; cases hr; exact ⟨.use 5 (by decide) h5 (by decide), fun _ => ⟨5, rfl, h5⟩⟩
  | 3 => cases hx; cases hr; exact ⟨.step 2 ⟨[w "a"], w "wi"⟩ (by decide) rfl (by decide), fun h => absurd rfl h⟩
  | 4 => cases hx; cases hr; exact ⟨.use 5 (by decide) h5 (by decide), fun h => absurd rfl h⟩
  | k + 5 => simp [pfItems] at hx

/-- The proof of `th` meets every hypothesis of C08 (and so is accepted). -/
example : ∃ (s : PState) (steps : List Step), Accepted pfSrc s ∧ List.Forall₂ (Means pfSrc s) pfRefs steps ∧
    Proves (isVarOf pfSrc) (DvDeclared (kinds pfSrc) s.math 6) steps (s.math 6) := by
  obtain ⟨s, h, ho⟩ := pfSrc_accepted
  have m3 : s.math 3 = [0, 4] := by unfold PState.math PState.stmt; rw [ho]; rfl
  have m4 : s.math 4 = [0, 5] := by unfold PState.math PState.stmt; rw [ho]; rfl
  have m6 : s.math 6 = [0, 1, 1, 4, 2, 5, 3, 2, 1, 4, 2, 5, 3, 3] := by unfold PState.math PState.stmt; rw [ho]; rfl
  have h5 : IsAssert pfSrc 5 := Or.inl (by decide)
  have hA := isAssertion_frame h h5
  have hfr : frameOf (toDb pfSrc s) 5 = ⟨[], [[0, 4], [0, 5]], [0, 1, 4, 2, 5, 3]⟩ := by
    have e : toDb pfSrc s = (pfEnv pfOut pfSrc).toDb := by rw [← pfEnv_eq ho]; rfl
    rw [e]; rfl
  rw [hfr] at hA
  let A : Assertion := ⟨[], [[0, 4], [0, 5]], [0, 1, 4, 2, 5, 3]⟩
  refine ⟨s, [.hyp (s.math 3), .hyp (s.math 4), .use A, .back 2, .use A], h,
    .cons (.hyp 3 (by decide)) (.cons (.hyp 4 (by decide)) (.cons (.use 5 A hA) (.cons (.back 2) (.cons (.use 5 A hA) .nil)))), ?_⟩
  rw [m3, m4, m6]
  have hdv : ∀ dv σ, DvOk (isVarOf pfSrc) dv A σ := fun _ _ x y hxy => by cases hxy
  have r2 : RPN (isVarOf pfSrc) (DvDeclared (kinds pfSrc) s.math 6) [.hyp [0, 4], .hyp [0, 5]] [[0, 4], [0, 5]] [[0, 5], [0, 4]] :=
    .hyp [0, 5] (.hyp [0, 4] .nil)
  have r3 := RPN.use (st := []) A (fun t => [t]) r2 (hdv _ _)
  have r4 := RPN.back 2 [0, 1, 4, 2, 5, 3] r3 (by decide)
  have r5 := RPN.use (st := []) A (fun _ => [1, 4, 2, 5, 3]) r4 (hdv _ _)
  exact ⟨_, r5⟩

/-! ## C10, C22, C38: other texts -/

/-- C10: a `?` is flagged. -/
example : parseProof (pfEnv pfOut pfSrc) 6 [w "?", w "wq", w "wi", w "?", w "wi"] = .val ⟨[-63, 4, 5, -63, 5], 1, 0⟩ := by decide +kernel

/-- C22: the premises of the safe case are met by a text with errors in it. -/
example : NoDoubleColon [w ":", w "wq", w "b", w ":", w "xx", w "c", w ":"] ∧ (colonLabels [w ":", w "wq", w "b", w ":", w "xx", w "c", w ":"]).Nodup := by
  refine ⟨by simp [NoDoubleColon, w], by decide⟩

/-- C22 is **false** without the provisos: `a : : wp` makes the program write before the start of its step arrays ... -/
theorem C22_double_colon_out_of_bounds : parseProof (pfEnv pfOut pfSrc) 6 [w "a", w ":", w ":", w "wp"] = .ub := by decide +kernel

/-- ... `a : :` makes it read there ... -/
theorem C22_trailing_colons_out_of_bounds : parseProof (pfEnv pfOut pfSrc) 6 [w "a", w ":", w ":"] = .ub := by decide +kernel

/-- ... and so does declaring the same local label twice for the first step. -/
theorem C22_repeated_label_out_of_bounds : parseProof (pfEnv pfOut pfSrc) 6 [w "a", w ":", w "a", w ":", w "wp"] = .ub := by decide +kernel

end MM.Proof
