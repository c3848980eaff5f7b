import Verif.Data.RenderProps
import Verif.Data.CompressExample
/-!
# Writing concrete proofs in the normal and packed formats; where the buffer overflows
-/
namespace MM.Data
open MM.Veri MM.Pars MM.Proof MM.Lex MM.Spec

theorem pf_render : nmbrCvtRToVString (pfEnv pfOut pfSrc) [3, 4, 5, -1002, 5] = .val "wp wq 1:wi 1 wi".toList := by decide +kernel

/-- The hypotheses of C46 are met; here the text is read back after a line break and a comment have been added. -/
example : ∃ s, Accepted pfSrc s ∧ parseProofText (envOf linLook pfSrc s) 100 6 (" wp wq\n 1:wi $( x $) 1 wi ".toList ++ '$' :: '.' :: []) 26 = .val ⟨pfRefs.map Ref.code, 0, 0⟩ := by
  obtain ⟨s, h, ho⟩ := pfSrc_accepted
  have e := pfEnv_eq (src := pfSrc) ho
  have := (C46_normal_round_trip h linLook_ok pfLabels pf_labelChars (p := 6) (by decide) (pf_packed h ho) (out := "wp wq 1:wi 1 wi".toList)
    (by rw [e]; exact pf_render)).2.2 " wp wq\n 1:wi $( x $) 1 wi ".toList " wp wq\n 1:wi   1 wi ".toList [] 100 ?_ (by decide +kernel)
  · exact ⟨s, h, this⟩
  · have h1 : Blank (" 1 wi ".toList ++ []) (" 1 wi ".toList ++ []) := blank_plain _ (by decide) .nil
    have h2 : Blank ('$' :: '(' :: (" x ".toList ++ '$' :: ')' :: (" 1 wi ".toList ++ []))) (' ' :: (" 1 wi ".toList ++ [])) := .comment cp_comment h1
    exact blank_plain " wp wq\n 1:wi ".toList (by decide) h2

/-- The hypotheses of C45 are met. -/
example : ∃ out, nmbrCvtRToVString (pfEnv pfOut pfSrc) [3, unk, 5, -1002, 5] = .val out := by
  apply C45_render_safe_partial
  · decide +kernel
  · intro i m h1 h2 he
    have hd : ∀ c ∈ (pfEnv pfOut pfSrc).lab i, c.isDigit = true := by
      rw [he]; intro c hc; exact Nat.isDigit_of_mem_toDigits (b := 10) (by decide) (by decide) hc
    have : ∀ i < 7, 1 ≤ i → (pfEnv pfOut pfSrc).lab i = [] ∨ ∃ c ∈ (pfEnv pfOut pfSrc).lab i, c.isDigit = false := by decide +kernel
    rcases this i (by have : (pfEnv pfOut pfSrc).n = 6 := by decide
                      omega) h1 with h | ⟨c, hc, hf⟩
    · rw [h] at he
      have := Nat.length_toDigits_pos (b := 10) (n := m)
      rw [← he] at this; simp at this
    · rw [hd c hc] at hf; cases hf
  · intro _
    have : ∀ i < 7, ((pfEnv pfOut pfSrc).lab i).length ≤ 100 := by decide +kernel
    intro i _ h2
    exact this i (by have : (pfEnv pfOut pfSrc).n = 6 := by decide
                     omega)

/-! ### An unknown step after a long label -/

/-- `$c W $. ${ h1 $e W $. h2 $e W $. mp $a W $. $} l…l $a W $. th $p W $= l…l ? mp $.`, with a label of 400 characters. -/
def longSrc : List Src := [st .c "" ['W'], st .lb "" [], st .e "h1" ['W'], st .e "h2" ['W'], st .a "mp" ['W'], st .rb "" [],
  { kind := .a, label := List.replicate 400 'l', syms := [['W']] }, st .p "th" ['W']]

def longText : List Char := ' ' :: List.replicate 400 'l' ++ " ? mp ".toList

def longOut : List Stmt := [{}, { kind := .c, math := [0] }, { kind := .lb }, { kind := .e, math := [0] }, { kind := .e, math := [0] },
  { kind := .a, math := [0], reqHyp := [3, 4] }, { kind := .rb }, { kind := .a, math := [0] }, { kind := .p, math := [0] }]

theorem longSrc_accepted : ∃ s, Accepted longSrc s ∧ s.out = longOut := accepted_of_result (by decide +kernel)

/-- **C45 is false in general**: the source is accepted, the proof `l…l ? mp` is parsed without any message, and `SAVE PROOF th /NORMAL` writes 406 characters
into a buffer of 309: the unknown step resets the maximum label length to 100. -/
theorem C45_unknown_step_overflows : ∃ s, Accepted longSrc s ∧
    parseProofText (envOf linLook longSrc s) 1000 8 (longText ++ '$' :: '.' :: []) 407 = .val ⟨[7, unk, 5], 1, 0⟩ ∧
    nmbrCvtRToVString (envOf linLook longSrc s) [7, unk, 5] = .ub := by
  obtain ⟨s, h, ho⟩ := longSrc_accepted
  have e := pfEnv_eq (src := longSrc) ho
  refine ⟨s, h, ?_, ?_⟩
  · rw [e]; decide +kernel
  · rw [e]; decide +kernel

/-! ### Statements whose labels are numerals -/

/-- 99 axioms with labels `1` … `99`, `a $a W $.`, an axiom `n` with eight hypotheses, and a theorem. -/
def numSrc : List Src := st .c "" ['W'] :: (List.range' 1 99).map (fun i => { kind := .a, label := Nat.toDigits 10 i, syms := [['W']] }) ++
  [st .a "a" ['W'], st .lb "" [], st .e "e1" ['W'], st .e "e2" ['W'], st .e "e3" ['W'], st .e "e4" ['W'], st .e "e5" ['W'], st .e "e6" ['W'], st .e "e7" ['W'],
   st .e "e8" ['W'], st .a "n" ['W'], st .rb "" [], st .p "th" ['W']]

def numOut : List Stmt := ({} : Stmt) :: { kind := .c, math := [0] } :: (List.range' 1 99).map (fun _ => { kind := .a, math := [0] }) ++
  [{ kind := .a, math := [0] }, { kind := .lb }] ++ List.replicate 8 { kind := .e, math := [0] } ++
  [{ kind := .a, math := [0], reqHyp := List.range' 103 8 }, { kind := .rb }, { kind := .p, math := [0] }]

theorem numSrc_accepted : ∃ s, Accepted numSrc s ∧ s.out = numOut := accepted_of_result (by decide +kernel)

/-- **C45 is false in general**: the space reserved for the generated labels assumes that they are at most the number of steps; but numbers that are labels of
statements are skipped. -/
theorem C45_numeric_labels_overflow : ∃ s, Accepted numSrc s ∧
    parseProofText (envOf linLook numSrc s) 1000 113 (" w:a w x:a x y:a y z:a z n ".toList ++ '$' :: '.' :: []) 27 =
      .val ⟨[101, -1000, 101, -1002, 101, -1004, 101, -1006, 111], 0, 0⟩ ∧
    nmbrCvtRToVString (envOf linLook numSrc s) [101, -1000, 101, -1002, 101, -1004, 101, -1006, 111] = .ub := by
  obtain ⟨s, h, ho⟩ := numSrc_accepted
  have e := pfEnv_eq (src := numSrc) ho
  refine ⟨s, h, ?_, ?_⟩
  · rw [e]; decide +kernel
  · rw [e]; decide +kernel

end MM.Data
