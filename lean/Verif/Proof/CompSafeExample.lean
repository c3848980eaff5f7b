import Verif.Proof.CompSafe
import Verif.Proof.CompExample
/-!
# C20: a case that meets the conditions, and four in which the parser leaves its work arrays
-/
namespace MM.Proof
open MM.Veri MM.Pars MM.Spec MM.Lex

/-- The hypotheses of C20 are met. -/
example : ∃ s, Accepted pfSrc s ∧ ∃ res, parseProofText (envOf linLook pfSrc s) 100 6 (cpText ++ '$' :: '.' :: []) cpText.length = .val res := by
  obtain ⟨s, h, ho⟩ := pfSrc_accepted
  have hm : ∀ i, i = 5 ∨ i = 6 → (s.stmt i).reqHyp = [3, 4] := by
    intro i hi; unfold PState.stmt; rw [ho]; rcases hi with rfl | rfl <;> rfl
  obtain ⟨b, u1, u2, hB, hb, _⟩ := cp_section
  refine ⟨s, h, (C20_compressed_safe_partial (W := 100) (r := []) h linLook_ok pfLabels (p := 6) (by decide) cp_chars hB hb ?_ (by decide) (by decide) ?_).imp fun _ h => h.1⟩
  · intro i hs hi hM
    have hi' : i = 5 ∨ i = 6 := by
      have h1 : ∀ i < 7, IsAssert pfSrc i → i = 5 ∨ i = 6 := by
        intro i h1 h2
        unfold IsAssert at h2
        revert i
        decide
      refine h1 i ?_ hi
      have := (kindAt_pos (ks := kinds pfSrc) (i := i) (by rcases hi with hi | hi <;> rw [hi] <;> simp)).2
      have e : (kinds pfSrc).length = 6 := by decide
      omega
    have hM' : MandList pfSrc s i (s.stmt i).reqHyp := by
      obtain ⟨h1, h2, _⟩ := C12_mandatory_hyps h (i := i) hi
      exact ⟨h1, h2⟩
    rw [mandList_unique hM hM', hm i hi']
    decide
  · intro labs code tail hsec
    constructor
    · right
      refine ⟨3, ((mandList_req h (p := 6) (by decide)).2 3).1 ?_⟩
      rw [hm 6 (Or.inr rfl)]; simp
    · obtain ⟨b', u1', u2', hB', _, _, _, hcode, _⟩ := hsec
      intro x hx _
      have h1 := hx.length_le
      have h2 := List.length_filter_le (fun c => decide (c ∈ digits)) x
      have h3 := blank_len hB'
      have h4 := List.length_filter_le printable u2'
      have h5 : cpText.length ≤ 25 := by decide
      rw [hcode] at h1
      simp at h3
      omega

/-! ### Witnesses -/

/-- `$c W $. ax $a W $. ${ e0 $e W $. … e9 $e W $. b $a W $. $} th $p W …` -/
def badSrc : List Src := [st .c "" ['W'], st .a "ax" ['W'], st .lb "" [], st .e "e0" ['W'], st .e "e1" ['W'], st .e "e2" ['W'], st .e "e3" ['W'], st .e "e4" ['W'],
  st .e "e5" ['W'], st .e "e6" ['W'], st .e "e7" ['W'], st .e "e8" ['W'], st .e "e9" ['W'], st .a "b" ['W'], st .rb "" [], st .p "th" ['W']]

def badOut : List Stmt := [({} : Stmt), { kind := .c, math := [0] }, { kind := .a, math := [0] }, { kind := .lb }] ++ List.replicate 10 { kind := .e, math := [0] } ++
  [{ kind := .a, math := [0], reqHyp := [4, 5, 6, 7, 8, 9, 10, 11, 12, 13] }, { kind := .rb }, { kind := .p, math := [0] }]

theorem badSrc_accepted : ∃ s, Accepted badSrc s ∧ s.out = badOut := accepted_of_result (by decide +kernel)

/-- **C20 is false in general** (1): an empty label list in a statement without hypotheses; the letter `A` reads the label map, which was not written, however
large the work arrays. -/
theorem C20_empty_label_map : ∃ s, Accepted badSrc s ∧ kindAt (kinds badSrc) 16 = .p ∧
    parseProofText (envOf linLook badSrc s) 1000 16 (" ( ) A ".toList ++ '$' :: '.' :: []) 7 = .ub := by
  obtain ⟨s, h, ho⟩ := badSrc_accepted
  exact ⟨s, h, by decide, by rw [pfEnv_eq (src := badSrc) ho]; decide +kernel⟩

/-- **C20 is false in general** (2): the section ` ( b ) A ` has nine characters, and `th` has no hypotheses, so the stack `RPNStack` is given nine entries; using
`b`, which has ten hypotheses, on the empty stack writes a tenth.  (With a larger array there is only a message.) -/
theorem C20_stack_overflow : ∃ s, Accepted badSrc s ∧ kindAt (kinds badSrc) 16 = .p ∧ (s.stmt 16).reqHyp = [] ∧ (s.stmt 16).optHyp = [] ∧
    parseProofText (envOf linLook badSrc s) 9 16 (" ( b ) A ".toList ++ '$' :: '.' :: []) 9 = .ub ∧
    ∃ r, parseProofText (envOf linLook badSrc s) 30 16 (" ( b ) A ".toList ++ '$' :: '.' :: []) 9 = .val r ∧ r.ret = 3 ∧ r.ec = 10 := by
  obtain ⟨s, h, ho⟩ := badSrc_accepted
  refine ⟨s, h, by decide, by unfold PState.stmt; rw [ho]; rfl, by unfold PState.stmt; rw [ho]; rfl, by rw [pfEnv_eq (src := badSrc) ho]; decide +kernel, ?_⟩
  exact ⟨⟨[14], 3, 10⟩, by rw [pfEnv_eq (src := badSrc) ho]; decide +kernel, rfl, rfl⟩

/-- **C20 is false in general** (3): a number with 27 digits; the index into the label map is computed modulo nothing (overflow of a signed `long`). -/
theorem C20_index_overflow : ∃ s, Accepted badSrc s ∧ kindAt (kinds badSrc) 16 = .p ∧
    parseProofText (envOf linLook badSrc s) 1000 16 (" ( ax ) YYYYYYYYYYYYYYYYYYYYYYYYYYYA ".toList ++ '$' :: '.' :: []) 37 = .ub := by
  obtain ⟨s, h, ho⟩ := badSrc_accepted
  exact ⟨s, h, by decide, by rw [pfEnv_eq (src := badSrc) ho]; decide +kernel⟩

/-- **C20 is false in general** (4): the section `(` of one character; the empty proof is stored as `?` and a terminator, in an array of one entry. -/
theorem C20_tiny_section : ∃ s, Accepted badSrc s ∧ kindAt (kinds badSrc) 16 = .p ∧
    parseProofText (envOf linLook badSrc s) 1 16 ("(".toList ++ '$' :: '.' :: []) 1 = .ub := by
  obtain ⟨s, h, ho⟩ := badSrc_accepted
  exact ⟨s, h, by decide, by rw [pfEnv_eq (src := badSrc) ho]; decide +kernel⟩

end MM.Proof
