import Verif.Data.RoundTrip
import Verif.Data.EncProps
import Verif.Proof.CompExample
/-!
# Compressing concrete proofs; where the claims fail
-/
namespace MM.Data
open MM.Veri MM.Pars MM.Proof MM.Lex MM.Spec

/-! ### The proof of `th` in `Verif/Proof/Example.lean` -/

theorem pf_packed {s : PState} (h : Accepted pfSrc s) (ho : s.out = pfOut) : PackedProof pfSrc s 6 pfRefs := by
  have hr : (s.stmt 6).reqHyp = [3, 4] := by unfold PState.stmt; rw [ho]; rfl
  have hm := (mandList_req h (p := 6) (by decide)).2
  rw [hr] at hm
  have h5 : IsAssert pfSrc 5 := Or.inl (by decide)
  have hdb : toDb pfSrc s = (pfEnv pfOut pfSrc).toDb := by rw [← pfEnv_eq ho]; rfl
  refine ⟨?_, ?_, ?_⟩
  · intro j hj
    have hj' : j = 3 ∨ j = 4 ∨ j = 5 := by simp [pfRefs] at hj; omega
    rcases hj' with rfl | rfl | rfl
    · exact Or.inl ((hm 3).1 (by simp))
    · exact Or.inl ((hm 4).1 (by simp))
    · exact Or.inr (Or.inr ⟨by decide, h5⟩)
  · intro k i hk
    match k with
    | 0 => simp [pfRefs] at hk
    | 1 => simp [pfRefs] at hk
    | 2 => simp [pfRefs] at hk
    | 3 => simp [pfRefs] at hk; subst hk; exact ⟨by decide, 5, rfl, h5⟩
    | 4 => simp [pfRefs] at hk
    | k + 5 => simp [pfRefs] at hk
  · rw [hdb]
    have d1 : Depth (pfEnv pfOut pfSrc).toDb ([] ++ [3]) 1 := .push .nil (Or.inr (Or.inr ⟨by decide, Or.inr (by decide)⟩))
    have d2 : Depth (pfEnv pfOut pfSrc).toDb ([3] ++ [4]) 2 := .push d1 (Or.inr (Or.inr ⟨by decide, Or.inr (by decide)⟩))
    have d3 : Depth (pfEnv pfOut pfSrc).toDb ([3, 4] ++ [5]) 1 := .use d2 (by decide) (Or.inl (by decide)) (by decide)
    have d4 : Depth (pfEnv pfOut pfSrc).toDb ([3, 4, 5] ++ [-1002]) 2 := .push d3 (Or.inr (Or.inl (by decide)))
    exact .use d4 (by decide) (Or.inl (by decide)) (by decide)

theorem pf_compress (old : Bool) : compressProof (pfEnv pfOut pfSrc) 6 [3, 4, 5, -1002, 5] old 79 4 10 = .val "( wi ) ABCZDC".toList := by
  cases old <;> decide +kernel

theorem pf_labelChars : ∀ i, 1 ≤ i → i ≤ pfSrc.length → ∀ c ∈ srcLabel pfSrc i, LabelChar c := by
  have : ∀ i < 7, ∀ c ∈ srcLabel pfSrc i, LabelChar c := by decide +kernel
  intro i _ h; exact this i (Nat.lt_succ_of_le h)

theorem pf_req {s : PState} (h : Accepted pfSrc s) (ho : s.out = pfOut) {hs : List Nat} (hh : MandList pfSrc s 6 hs) : hs = [3, 4] := by
  have hr : (s.stmt 6).reqHyp = [3, 4] := by unfold PState.stmt; rw [ho]; rfl
  rw [mandList_unique hh (mandList_req h (by decide)), hr]

/-- The hypotheses of C18, C19, C31, C43, C44 are met; the text is read back. -/
example (old : Bool) : ∃ s, Accepted pfSrc s ∧ parseProofText (envOf linLook pfSrc s) 100 6 ("( wi ) ABCZDC".toList ++ '$' :: '.' :: []) 13 = .val ⟨pfRefs.map Ref.code, 0, 0⟩ := by
  obtain ⟨s, h, ho⟩ := pfSrc_accepted
  have e := pfEnv_eq (src := pfSrc) ho
  refine ⟨s, h, C18_compressed_round_trip (W := 100) h linLook_ok pfLabels pf_labelChars (p := 6) (by decide) (pf_packed h ho) (old := old) (width := 79) (indent := 4) (fuel := 10)
    (Or.inr (by decide)) ?_ (by rw [e]; exact pf_compress old) ?_ (by decide) []⟩
  · intro hs hh; rw [pf_req h ho hh]; decide
  · intro hs hh; rw [pf_req h ho hh]; decide

example : ∃ s, Accepted pfSrc s ∧ ∃ out, compressProof (envOf linLook pfSrc s) 6 (pfRefs.map Ref.code) false 79 4 6 = .val out := by
  obtain ⟨s, h, ho⟩ := pfSrc_accepted
  refine ⟨s, h, C43_compress_terminates_partial h (by decide) (pf_packed h ho) (Or.inr ⟨by decide, ?_⟩) (by decide)⟩
  rintro j ⟨h1, h2⟩
  have hj' : j = 3 ∨ j = 4 ∨ j = 5 := by simp [pfRefs] at h1; omega
  rcases hj' with rfl | rfl | rfl <;> decide

/-- C43: on a line of one character the label `wi` does not fit: `SAVE PROOF th /COMPRESSED` never ends. -/
theorem C43_compress_may_not_end : ∃ s, Accepted pfSrc s ∧ PackedProof pfSrc s 6 pfRefs ∧
    ∀ fuel, compressProof (envOf linLook pfSrc s) 6 (pfRefs.map Ref.code) false 5 4 fuel = .fuel := by
  obtain ⟨s, h, ho⟩ := pfSrc_accepted
  refine ⟨s, h, pf_packed h ho, fun fuel => C43_long_label_never_ends h (by decide) (pf_packed h ho) (j := 5) (by decide) ⟨by decide, ?_⟩ (by decide) fuel⟩
  intro hm
  have := ((mandList_req h (p := 6) (by decide)).2 5).2 hm
  have hr : (s.stmt 6).reqHyp = [3, 4] := by unfold PState.stmt; rw [ho]; rfl
  rw [hr] at this
  simp at this

/-! ### C19: a statement with 141 hypotheses -/

/-- `$c W $.  e0 $e W $. … (141 of them) th $p W $= e140 $.` -/
def manySrc : List Src := st .c "" ['W'] :: (List.range 141).map (fun i => { kind := .e, label := ['e', Char.ofNat (97 + i / 12), Char.ofNat (97 + i % 12)], syms := [['W']] }) ++
  [st .p "th" ['W']]

def manyOut : List Stmt := ({} : Stmt) :: { kind := .c, math := [0] } :: (List.range 141).map (fun _ => { kind := .e, math := [0] }) ++
  [{ kind := .p, math := [0], reqHyp := List.range' 2 141 }]

theorem manySrc_accepted : ∃ s, Accepted manySrc s ∧ s.out = manyOut := accepted_of_result (by decide +kernel)

/-- **C19 is false in general**: the last of 141 hypotheses has number 140, written `UVA`; there is no `UU` in the text, and the program reads its own output
as the number 120 - without any message. -/
theorem C19_heuristic_corrupts : ∃ s, Accepted manySrc s ∧ kindAt (kinds manySrc) 143 = .p ∧ PackedProof manySrc s 143 [.stmt 142] ∧
    compressProof (envOf linLook manySrc s) 143 [142] false 79 4 10 = .val "(  ) UVA".toList ∧
    parseProofText (envOf linLook manySrc s) 1000 143 ("(  ) UVA".toList ++ '$' :: '.' :: []) 8 = .val ⟨[122], 0, 0⟩ := by
  obtain ⟨s, h, ho⟩ := manySrc_accepted
  have e := pfEnv_eq (src := manySrc) ho
  have hr : (s.stmt 143).reqHyp = List.range' 2 141 := by
    unfold PState.stmt; rw [ho]; decide +kernel
  have hk : kindAt (kinds manySrc) 143 = .p := by decide +kernel
  refine ⟨s, h, hk, ⟨?_, ?_, ?_⟩, ?_, ?_⟩
  · intro j hj
    simp at hj; subst hj
    left
    apply ((mandList_req h hk).2 142).1
    rw [hr]; simp
  · intro k i hk
    match k with
    | 0 => simp at hk
    | k + 1 => simp at hk
  · have hdb : toDb manySrc s = (pfEnv manyOut manySrc).toDb := by rw [← e]; rfl
    rw [hdb]
    have hkind : ((pfEnv manyOut manySrc).stmt (Int.toNat 142)).kind = .e := by decide +kernel
    exact .push (l := []) .nil (Or.inr (Or.inr ⟨by decide, Or.inl hkind⟩))
  · rw [e]; decide +kernel
  · rw [e]; decide +kernel

end MM.Data
