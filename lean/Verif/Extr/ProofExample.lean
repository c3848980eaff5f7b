import Verif.Extr.ProofProps
import Verif.Extr.Example
/-!
# C73: proofs that meet the hypotheses, and a proof that VERIFY PROOF rejects in the extract
-/
namespace MM.Extr.Ex
open MM.Veri MM.Pars MM.Spec MM.Trace MM.Proof MM.Lex MM.Trace.Ex

/-- The database `xSrc` with another proof of `th` -/
def xDbOf (t : List Char) : TDb := srcDb (menvOf (pfEnv xOut xSrc)) (fun _ => 100) (fun _ => t ++ ['$', '.']) (fun _ => t.length)

def isVal (o : Out VerifyOut) : Bool := match o with
  | .val out => out.ret == 0 && out.msgs.isEmpty
  | _ => false

theorem of_isVal {o : Out VerifyOut} (h : isVal o = true) : ∃ out, o = .val out ∧ out.ret = 0 ∧ out.msgs = [] := by
  unfold isVal at h
  cases o with
  | val out => simp at h; exact ⟨out, rfl, h.1, h.2⟩
  | _ => simp at h

theorem xLabels : SrcLabels xSrc where
  uniq := by
    intro i j h1 h2 h3 h4 h5 h6
    have : ∀ i < 23, ∀ j < 23, srcLabel xSrc i ≠ [] → srcLabel xSrc i = srcLabel xSrc j → i = j := by decide
    exact this i (Nat.lt_succ_of_le h2) j (Nat.lt_succ_of_le h4) h5 h6
  kinds := by
    intro i h1 h2
    have : ∀ i < 23, 1 ≤ i → (srcLabel xSrc i ≠ [] ↔ kindAt (kinds xSrc) i = .e ∨ kindAt (kinds xSrc) i = .f ∨ kindAt (kinds xSrc) i = .a ∨ kindAt (kinds xSrc) i = .p) := by decide
    exact this i (Nat.lt_succ_of_le h2) h1

theorem x_verified {s : PState} (ho : s.out = xOut) : ∃ out, verifyProof (toDb xSrc s) 20 [4, 5, 19, 10] 0 0 = .val out ∧ out.ret = 0 ∧ out.msgs = [] := by
  refine of_isVal ?_
  have e : toDb xSrc s = toDb xSrc { out := xOut } := by unfold toDb; rw [ho]
  rw [e]
  decide +kernel

theorem x_wanted {t : List Char} (hm : isMatch (xDbOf t) 20 ['t', 'h'] = .val true) : Wanted (xDbOf t) ['t', 'h'] 20 :=
  ⟨20, ⟨by omega, by show 20 ≤ xSrc.length; decide, Or.inr rfl, hm⟩, .self⟩

theorem xOf_dbOk {t : List Char} {s : PState} (h : Accepted xSrc s) (ho : s.out = xOut) (hp : (xDbOf t).parse 20 = .val ⟨[4, 5, 19, 10], 0, 0⟩)
    (hm : ∀ m < 23, 1 ≤ m → isMatch (xDbOf t) m ['t', 'h'] = .val true ∨ isMatch (xDbOf t) m ['t', 'h'] = .val false) : DbOk (xDbOf t) xSrc ['t', 'h'] :=
  C72_db_after_read h linLook_ok (pfEnv_eq (src := xSrc) ho).symm
    (fun p h1 h2 hk => by cases x_only h1 h2 hk; exact ⟨_, hp⟩) (fun m h1 h2 => by
      rcases hm m (Nat.lt_succ_of_le h2) h1 with e | e <;> exact ⟨_, e⟩)

theorem blank_same {t u : List Char} (h : Blank t u) (hd : '$' ∉ t) : u = t := by
  induction h with
  | nil => rfl
  | char c _ _ ih => rw [ih (by simp at hd; exact hd.2)]
  | comment => simp at hd

theorem split_first {c : Char} : ∀ {b l r : List Char}, l = b ++ c :: r → c ∉ b → b = l.takeWhile (· ≠ c) ∧ r = (l.dropWhile (· ≠ c)).tail
  | [], _, _, e, _ => by subst e; simp
  | x :: b, _, r, e, h => by
    subst e
    simp only [List.mem_cons, not_or] at h
    obtain ⟨h1, h2⟩ := split_first (l := b ++ c :: r) rfl h.2
    have hx : (decide (x ≠ c)) = true := by simp; exact fun e => h.1 e.symm
    rw [List.cons_append, List.takeWhile_cons_of_pos (p := fun y => decide (y ≠ c)) hx, List.dropWhile_cons_of_pos (p := fun y => decide (y ≠ c)) hx, ← h1]
    exact ⟨rfl, h2⟩

theorem section_labs {t code tail : List Char} {ls : List Name} (hd : '$' ∉ t) (hs : CompSection t ls code tail) :
    ls = proofWords (((t.dropWhile (· ≠ '(')).tail).takeWhile (· ≠ ')')) ∧ tail <:+ t ∧ '(' ∈ t := by
  obtain ⟨b, u1, u2, hB, hb, hu1, hl, _, ht, _⟩ := hs
  have e := blank_same hB hd
  have h1 : '(' ∉ b := fun hm => by have := hb _ hm; revert this; decide
  obtain ⟨_, h2⟩ := split_first e.symm h1
  obtain ⟨h3, _⟩ := split_first h2.symm hu1
  exact ⟨by rw [hl, h3], ht, by rw [← e]; simp⟩

def x1 : List Char := " wp wq h ax ".toList
def x2 : List Char := " ( ax ) ABCD ".toList
def x3 : List Char := " ( ax bx ) ABCD ".toList

theorem x_compOk1 {ls : List Name} {code tail : List Char} (h : CompSection x1 ls code tail) : False := by
  have := (section_labs (by decide) h).2.2
  revert this; decide

theorem x_compOk2 {ls : List Name} {code tail : List Char} (h : CompSection x2 ls code tail) : ¬ OldLooking tail ∧ ls = [['a', 'x']] := by
  obtain ⟨h1, h2, _⟩ := section_labs (by decide) h
  refine ⟨fun ho => ?_, h1.trans (by decide)⟩
  have := ho.1.trans h2.isInfix
  revert this; decide

/-- The hypotheses of `C73_extract_verifies_partial` are met by the proof `wp wq h ax` ... -/
example : ∃ s, Accepted xSrc s ∧ DbOk (xDbOf x1) xSrc ['t', 'h'] ∧ SrcLabels xSrc ∧ Wanted (xDbOf x1) ['t', 'h'] 20 ∧ SourceChars x1 ∧ Blank x1 x1 ∧
    (xDbOf x1).parse 20 = parseProofText (envOf linLook xSrc s) 100 20 (x1 ++ '$' :: '.' :: []) x1.length ∧
    (xDbOf x1).parse 20 = .val ⟨[4, 5, 19, 10], 0, 0⟩ ∧ (∃ out, verifyProof (toDb xSrc s) 20 [4, 5, 19, 10] 0 0 = .val out ∧ out.ret = 0 ∧ out.msgs = []) ∧
    ∀ labs code tail, CompSection x1 labs code tail → ¬ OldLooking tail ∧
      (∀ l ∈ labs, ∃ x ∈ [4, 5, 19, 10], (0 : Int) ≤ x ∧ srcLabel xSrc x.toNat = l) ∧ (s.stmt 20).reqHyp.length + x1.length ≤ 100 ∧ 100 ≤ 2 ^ 63 := by
  obtain ⟨s, h, ho⟩ := x_accepted
  have hp : (xDbOf x1).parse 20 = .val ⟨[4, 5, 19, 10], 0, 0⟩ := by decide +kernel
  have hm : ∀ m < 23, 1 ≤ m → isMatch (xDbOf x1) m ['t', 'h'] = .val true ∨ isMatch (xDbOf x1) m ['t', 'h'] = .val false := by decide +kernel
  refine ⟨s, h, xOf_dbOk h ho hp hm, xLabels, x_wanted (by decide +kernel), ?_, ?_, ?_, hp, x_verified ho, fun _ _ _ hc => (x_compOk1 hc).elim⟩
  · unfold SourceChars; decide
  · have := blank_plain x1 (by decide) .nil
    simpa using this
  · rw [pfEnv_eq ho]; rfl

/-- ... and by the compressed proof `( ax ) ABCD`. -/
example : ∃ s, Accepted xSrc s ∧ DbOk (xDbOf x2) xSrc ['t', 'h'] ∧ SrcLabels xSrc ∧ Wanted (xDbOf x2) ['t', 'h'] 20 ∧ SourceChars x2 ∧ Blank x2 x2 ∧
    (xDbOf x2).parse 20 = parseProofText (envOf linLook xSrc s) 100 20 (x2 ++ '$' :: '.' :: []) x2.length ∧
    (xDbOf x2).parse 20 = .val ⟨[4, 5, 19, 10], 0, 0⟩ ∧ (∃ out, verifyProof (toDb xSrc s) 20 [4, 5, 19, 10] 0 0 = .val out ∧ out.ret = 0 ∧ out.msgs = []) ∧
    ∀ labs code tail, CompSection x2 labs code tail → ¬ OldLooking tail ∧
      (∀ l ∈ labs, ∃ x ∈ [4, 5, 19, 10], (0 : Int) ≤ x ∧ srcLabel xSrc x.toNat = l) ∧ (s.stmt 20).reqHyp.length + x2.length ≤ 100 ∧ 100 ≤ 2 ^ 63 := by
  obtain ⟨s, h, ho⟩ := x_accepted
  have hp : (xDbOf x2).parse 20 = .val ⟨[4, 5, 19, 10], 0, 0⟩ := by decide +kernel
  have hm : ∀ m < 23, 1 ≤ m → isMatch (xDbOf x2) m ['t', 'h'] = .val true ∨ isMatch (xDbOf x2) m ['t', 'h'] = .val false := by decide +kernel
  refine ⟨s, h, xOf_dbOk h ho hp hm, xLabels, x_wanted (by decide +kernel), ?_, ?_, ?_, hp, x_verified ho, fun _ _ _ hc => ?_⟩
  · unfold SourceChars; decide
  · have := blank_plain x2 (by decide) .nil
    simpa using this
  · rw [pfEnv_eq ho]; rfl
  · obtain ⟨c1, rfl⟩ := x_compOk2 hc
    have hr : (s.stmt 20).reqHyp = [4, 5, 19] := by unfold PState.stmt; rw [ho]; rfl
    exact ⟨c1, by decide, by rw [hr]; decide, by decide⟩

def yOut : List Stmt := [
  {}, { kind := .c, math := [0, 1] }, { kind := .v, math := [2, 3] }, { kind := .v, math := [4] }, { kind := .f, math := [0, 2] }, { kind := .f, math := [0, 3] },
  { kind := .lb }, { kind := .d, math := [2, 3] }, { kind := .e, math := [1, 2] },
  { kind := .a, math := [1, 3], reqHyp := [4, 5, 8], reqVars := [3, 2], reqDisj := [(2, 3)], reqDisjStmt := [7] }, { kind := .rb },
  { kind := .lb }, { kind := .d, math := [2, 3, 4] }, { kind := .e, math := [1, 2] },
  { kind := .p, math := [1, 3], reqHyp := [4, 5, 13], reqVars := [3, 2], reqDisj := [(2, 3)], reqDisjStmt := [12], optVars := [4],
    optDisj := [(2, 4), (3, 4)], optDisjStmt := [12, 12] }, { kind := .rb }, { kind := .c, math := [5] }, { kind := .v, math := [6] }]

theorem y_accepted : ∃ s, Accepted xExt s ∧ s.out = yOut := accepted_of_result (by decide +kernel)

/-- The proof `( ax bx ) ABCD` of `th` does not use its label `bx`.  VERIFY PROOF accepts it; in the extract the label is unknown, and the proof is rejected. -/
theorem C73_unused_label_lost : ∃ s s', Accepted xSrc s ∧ DbOk (xDbOf x3) xSrc ['t', 'h'] ∧ Wanted (xDbOf x3) ['t', 'h'] 20 ∧
    parseProofText (envOf linLook xSrc s) 100 20 (x3 ++ '$' :: '.' :: []) x3.length = .val ⟨[4, 5, 19, 10], 0, 0⟩ ∧
    (∃ out, verifyProof (toDb xSrc s) 20 [4, 5, 19, 10] 0 0 = .val out ∧ out.ret = 0 ∧ out.msgs = []) ∧
    extract (xDbOf x3) xSrc s ['t', 'h'] = .val xExt ∧ Accepted xExt s' ∧ srcLabel xExt 14 = srcLabel xSrc 20 ∧
    ∃ res, parseProofText (envOf linLook xExt s') 100 14 (x3 ++ '$' :: '.' :: []) x3.length = .val res ∧ res.ret = 2 ∧ res.ec = 1 := by
  obtain ⟨s, h, ho⟩ := x_accepted
  obtain ⟨s', h', ho'⟩ := y_accepted
  have hp : (xDbOf x3).parse 20 = .val ⟨[4, 5, 19, 10], 0, 0⟩ := by decide +kernel
  have hm : ∀ m < 23, 1 ≤ m → isMatch (xDbOf x3) m ['t', 'h'] = .val true ∨ isMatch (xDbOf x3) m ['t', 'h'] = .val false := by decide +kernel
  refine ⟨s, s', h, xOf_dbOk h ho hp hm, x_wanted (by decide +kernel), ?_, x_verified ho, ?_, h', by decide, ?_⟩
  · rw [pfEnv_eq ho]; exact hp
  · rw [extract_out ho]
    exact val_of (by decide +kernel)
  · rw [pfEnv_eq ho']
    exact ⟨⟨[4, 5, 13, 9], 2, 1⟩, by decide +kernel, rfl, rfl⟩

end MM.Extr.Ex
