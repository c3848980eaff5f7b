import Verif.Cmd.Verify
import Verif.Match.Props
import Verif.Lex.Read
/-!
# Properties C09, C10 of VERIFY PROOF
-/
namespace MM.Cmd
open MM.Veri MM.Pars MM.Lex MM.Proof MM.Match MM.Vstr MM.Spec

variable {src : List Src} {s : PState} {look : Look}

/-! ### The verifier's return code -/

theorem verifyStep_ret {db : Db} {proved n : Nat} {st st' : VState} {ps : Int} (h : verifyStep db proved n st ps = .val st') (hp : ps ≠ unk)
    (hr : st.ret ≠ 1) : st'.ret ≠ 1 := by
  unfold verifyStep at h
  dsimp only at h
  split at h
  · exact absurd (by assumption) hp
  split at h
  · split at h
    · cases h
    split at h
    · cases h; exact hr
    · cases h
  · cases hk : (db.stmt ps.toNat).kind <;> rw [hk] at h <;> dsimp only at h
    all_goals first | (cases h; done) | (cases h; exact hr) | skip
    all_goals
      split at h
      · cases h
      · generalize assignVar _ _ _ _ _ _ _ _ = o at h
        cases o with
        | val r =>
          rw [Out.bind_val] at h
          cases h
          dsimp only
          split
          · omega
          · exact hr
        | ub => cases h
        | bug n => cases h
        | fuel => cases h

theorem verifySteps_ret {db : Db} {proved n : Nat} : ∀ {proof : List Int} {st st' : VState}, verifySteps db proved n proof st = .val st' → unk ∉ proof →
    st.ret ≠ 1 → st'.ret ≠ 1 := by
  intro proof
  induction proof with
  | nil => intro st st' h _ hr; cases h; exact hr
  | cons a l ih =>
    intro st st' h hu hr
    rw [verifySteps] at h
    cases h1 : verifyStep db proved n st a <;> rw [h1] at h
    · rw [Out.bind_val] at h
      exact ih h (fun hm => hu (by simp [hm])) (verifyStep_ret h1 (fun hc => hu (by simp [hc])) hr)
    all_goals cases h

theorem verifyProof_ret {db : Db} {proved : Nat} {proof : List Int} {sev ec : Nat} {out : VerifyOut} (h : verifyProof db proved proof sev ec = .val out)
    (hu : unk ∉ proof) : out.ret ≠ 1 := by
  unfold verifyProof at h
  split at h
  · cases h; dsimp only; omega
  split at h
  · cases h; dsimp only; omega
  split at h
  · cases h; dsimp only; omega
  · cases h1 : verifySteps db proved proof.length proof ⟨0, ec, [], [], []⟩ <;> rw [h1] at h
    · rw [Out.bind_val] at h
      have := verifySteps_ret h1 hu (by simp)
      split at h
      · cases h
      dsimp only at h
      split at h
      · cases h; exact this
      · cases h; exact this
    all_goals cases h

/-! ### The loop -/

/-- The result of parsing the proof of statement `i` during the command. -/
def ParsedAs (E : Env) (sec : Nat → List Char × Nat) (i : Nat) (r : Parsed) : Prop := ∃ W, parseProofText E W i (sec i).1 (sec i).2 = .val r

/-- What the loop body did with a statement. -/
structure Done (M : MEnv) (sec : Nat → List Char × Nat) (verifyFlag : Bool) (i : Nat) (a b : VLoop) (r : Parsed) : Prop where
  parsed : ParsedAs M.toEnv sec i r
  err : b.errorFound = false → a.errorFound = false ∧ r.ret < 2
  empty : b.empty = a.empty ++ if r.ret = 1 then [M.lab i] else []
  printed : a.printed ≤ b.printed ∧ (b.printed = a.printed → r.ec = 0)
  verified : verifyFlag = true → r.ret < 2 → ∃ v, verifyProof M.toDb i r.proof r.ret r.ec = .val v ∧ (b.errorFound = false → v.ret < 2) ∧
    (b.printed = a.printed → v.msgs = [])

theorem vone_done {M : MEnv} {sec : Nat → List Char × Nat} {verifyFlag : Bool} {i : Nat} {a b : VLoop} (h : vone M.toEnv sec verifyFlag i a = .val b) :
    ∃ r, Done M sec verifyFlag i a b r := by
  unfold vone parseAt at h
  cases hq : skipWs .ws (sec i).1 <;> rw [hq] at h
  · rename_i q
    rw [Out.bind_val] at h
    generalize wrkSize _ _ _ = W' at h
    cases hr : parseProofText M.toEnv W' i (sec i).1 (sec i).2 <;> dsimp only at h <;> rw [hr] at h
    · rename_i r
      rw [Out.bind_val, Out.bind_val] at h
      dsimp only at h
      unfold vcheck at h
      by_cases hc : r.ret < 2 ∧ verifyFlag = true
      · rw [if_pos hc] at h
        cases hv : verifyProof M.toDb i r.proof r.ret r.ec <;> rw [hv] at h
        · rename_i v
          rw [Out.bind_val, Out.bind_val] at h
          cases h
          refine ⟨r, ⟨W', hr⟩, ?_, ?_, ?_, ?_⟩
          · intro he
            dsimp only at he
            simp only [Bool.or_eq_false_iff, decide_eq_false_iff_not] at he
            exact ⟨he.1.1, hc.1⟩
          · dsimp only
            by_cases h1 : r.ret = 1 <;> simp [h1]
          · dsimp only
            refine ⟨by omega, fun he => ?_⟩
            by_contra hne
            rw [if_pos (by omega)] at he; omega
          · intro _ _
            refine ⟨v, hv, ?_, ?_⟩
            · intro he
              dsimp only at he
              simp only [Bool.or_eq_false_iff, decide_eq_false_iff_not] at he
              omega
            · intro he
              dsimp only at he
              exact List.length_eq_zero_iff.1 (by omega)
        all_goals cases h
      · rw [if_neg hc, Out.bind_val] at h
        cases h
        refine ⟨r, ⟨W', hr⟩, ?_, ?_, ?_, ?_⟩
        · intro he
          dsimp only at he
          simp only [Bool.or_eq_false_iff, decide_eq_false_iff_not] at he
          exact ⟨he.1.1, by omega⟩
        · dsimp only
          by_cases h1 : r.ret = 1 <;> simp [h1]
        · dsimp only
          refine ⟨by omega, fun he => ?_⟩
          by_contra hne
          rw [if_pos (by omega)] at he; omega
        · intro hf hlt; exact absurd ⟨hlt, hf⟩ hc
    all_goals cases h
  all_goals cases h

/-- The statements the command looks at with the pattern `*`. -/
def isP (M : MEnv) (i : Nat) : Bool := decide ((M.stmt i).kind = .p)

theorem vloop_spec {M : MEnv} {sec : Nat → List Char × Nat} {verifyFlag : Bool} (hstar : ∀ i, '*' ∉ M.lab i) : ∀ {is : List Nat} {a b : VLoop}, is.Nodup →
    vloop M sec ['*'] verifyFlag is a = .val b → ∃ res : Nat → Parsed,
      b.empty = a.empty ++ (is.filter fun i => isP M i && decide ((res i).ret = 1)).map M.lab ∧
      (b.errorFound = false → a.errorFound = false) ∧ a.printed ≤ b.printed ∧
      ∀ i ∈ is, (M.stmt i).kind = .p → ParsedAs M.toEnv sec i (res i) ∧ (b.errorFound = false → (res i).ret < 2) ∧ (b.printed = a.printed → (res i).ec = 0) ∧
        (verifyFlag = true → (res i).ret < 2 → ∃ v, verifyProof M.toDb i (res i).proof (res i).ret (res i).ec = .val v ∧ (b.errorFound = false → v.ret < 2) ∧
          (b.printed = a.printed → v.msgs = [])) := by
  intro is
  induction is with
  | nil =>
    intro a b _ h
    cases h
    exact ⟨fun _ => ⟨[], 0, 0⟩, by simp, id, le_refl _, by simp⟩
  | cons i is ih =>
    intro a b hn h
    obtain ⟨hn1, hn2⟩ := List.nodup_cons.1 hn
    rw [vloop] at h
    cases h1 : vbody M sec ['*'] verifyFlag i a <;> rw [h1] at h
    · rename_i c
      rw [Out.bind_val] at h
      obtain ⟨res, r1, r2, r3, r4⟩ := ih hn2 h
      unfold vbody at h1
      by_cases hk : (M.stmt i).kind = .p
      · rw [if_neg (by simpa using hk), C28_star M (hstar i), Out.bind_val, if_pos rfl] at h1
        obtain ⟨r, hd⟩ := vone_done h1
        have hfl : (is.filter fun j => isP M j && decide ((if j = i then r else res j).ret = 1)) = is.filter fun j => isP M j && decide ((res j).ret = 1) := by
          apply List.filter_congr
          intro j hj
          rw [if_neg (by rintro rfl; exact hn1 hj)]
        refine ⟨fun j => if j = i then r else res j, ?_, ?_, ?_, ?_⟩
        · rw [List.filter_cons, hfl, r1, hd.empty]
          by_cases hr : r.ret = 1 <;> simp [hr, isP, hk]
        · intro he; exact (hd.err (r2 he)).1
        · have := hd.printed.1; omega
        · intro j hj hkj
          have hp1 := hd.printed.1
          by_cases hji : j = i
          · subst hji
            simp only [if_true]
            refine ⟨hd.parsed, fun he => (hd.err (r2 he)).2, fun he => hd.printed.2 (by omega), fun hf hlt => ?_⟩
            obtain ⟨v, v1, v2, v3⟩ := hd.verified hf hlt
            exact ⟨v, v1, fun he => v2 (r2 he), fun he => v3 (by omega)⟩
          · simp only [if_neg hji]
            have hj' : j ∈ is := by
              rcases List.mem_cons.1 hj with h | h
              · exact absurd h hji
              · exact h
            obtain ⟨q1, q2, q3, q4⟩ := r4 j hj' hkj
            refine ⟨q1, q2, fun he => q3 (by omega), fun hf hlt => ?_⟩
            obtain ⟨v, v1, v2, v3⟩ := q4 hf hlt
            exact ⟨v, v1, v2, fun he => v3 (by omega)⟩
      · rw [if_pos hk] at h1
        cases h1
        refine ⟨res, ?_, r2, r3, ?_⟩
        · rw [List.filter_cons, if_neg (by simp [isP, hk]), r1]
        · intro j hj hkj
          rcases List.mem_cons.1 hj with rfl | hj
          · exact absurd hkj hk
          · exact r4 j hj hkj
    all_goals cases h

/-! ### The properties -/

/-- The database of the command is what READ stored. -/
structure Session (look : Look) (src : List Src) (s : PState) (M : MEnv) : Prop where
  accepted : Accepted src s
  lookOk : LookOk look
  env : M.toEnv = envOf look src s
  legal : ∀ x ∈ src, '*' ∉ x.label

theorem Session.star {M : MEnv} (h : Session look src s M) (i : Nat) : '*' ∉ M.lab i := by
  rw [h.env]
  show '*' ∉ srcLabel src i
  unfold srcLabel
  split
  · simp
  · rw [List.getD_eq_getElem?_getD, List.getElem?_map]
    cases hx : src[i - 1]? with
    | none => simp
    | some x => exact h.legal x (List.mem_of_getElem? hx)

theorem Session.mem {M : MEnv} (h : Session look src s M) {p : Nat} (hp : kindAt (kinds src) p = .p) : p ∈ List.range' 1 M.n ∧ (M.stmt p).kind = .p := by
  have hk := kindAt_pos (ks := kinds src) (i := p) (by rw [hp]; simp)
  constructor
  · rw [h.env, List.mem_range'_1]
    show 1 ≤ p ∧ p < 1 + src.length
    have : (kinds src).length = src.length := by simp [kinds]
    omega
  · rw [h.env, kind_env h.accepted]; exact hp

/-- **C10** The command lists the statements without proof: "The following $p statement(s) were not proved" names, in order, exactly the
labels of the `$p` statements whose proof got return code 1, i.e. is incomplete; and if there is one, success is not reported. -/
theorem C10_unproved_list {M : MEnv} (hM : Session look src s M) {W : Nat} {sec : Nat → List Char × Nat} {flag : Bool} {o : VerifyMsg}
    (h : verifyProofs M W sec ['*'] flag = .val o) :
    ∃ res : Nat → Parsed, (∀ p, kindAt (kinds src) p = .p → ParsedAs (envOf look src s) sec p (res p)) ∧
      o.unproved = ((List.range' 1 src.length).filter fun i => decide (kindAt (kinds src) i = .p) && decide ((res i).ret = 1)).map (srcLabel src) ∧
      (o.success = true → ∀ p, kindAt (kinds src) p = .p → (res p).ret = 0 ∧ unk ∉ (res p).proof) := by
  unfold verifyProofs at h
  cases hl : vloop M sec ['*'] flag (List.range' 1 M.n) { wrk := W } <;> rw [hl] at h
  · rename_i b
    rw [Out.bind_val] at h
    cases h
    obtain ⟨res, r1, r2, r3, r4⟩ := vloop_spec hM.star (List.nodup_range' (n := M.n)) hl
    have hres : ∀ p, kindAt (kinds src) p = .p → ParsedAs (envOf look src s) sec p (res p) := by
      intro p hp
      obtain ⟨m1, m2⟩ := hM.mem hp
      have := (r4 p m1 m2).1
      rwa [hM.env] at this
    have hfil : ((List.range' 1 M.n).filter fun i => isP M i && decide ((res i).ret = 1)) =
        (List.range' 1 src.length).filter fun i => decide (kindAt (kinds src) i = .p) && decide ((res i).ret = 1) := by
      have : M.n = src.length := by rw [hM.env]; rfl
      rw [this]
      apply List.filter_congr
      intro i _
      unfold isP
      rw [hM.env, kind_env hM.accepted]
    have hlab : M.lab = srcLabel src := by rw [hM.env]; rfl
    rw [hfil, hlab] at r1
    refine ⟨res, hres, by simpa using r1, ?_⟩
    intro hs p hp
    dsimp only at hs
    simp only [Bool.and_eq_true, Bool.not_eq_eq_eq_not, Bool.not_true, List.isEmpty_iff] at hs
    obtain ⟨m1, m2⟩ := hM.mem hp
    obtain ⟨q1, q2, q3, _⟩ := r4 p m1 m2
    have hlt := q2 hs.1.2
    have h1 : (res p).ret ≠ 1 := by
      intro h1
      rw [hs.1.1] at r1
      have hm : p ∈ (List.range' 1 src.length).filter fun i => decide (kindAt (kinds src) i = .p) && decide ((res i).ret = 1) := by
        rw [List.mem_filter]
        have : M.n = src.length := by rw [hM.env]; rfl
        rw [this] at m1
        exact ⟨m1, by simp [hp, h1]⟩
      simp at r1
      have := r1 p
      rw [List.mem_range'_1] at m1
      have hn : M.n = src.length := by rw [hM.env]; rfl
      exact this (by omega) (by omega) hp h1
    refine ⟨by omega, ?_⟩
    obtain ⟨W', hW'⟩ := hres p hp
    intro hu
    have := ((parseProofText_ok (E := envOf look src s) hM.lookOk (hypKinds_of_parse hM.accepted hp) hW').1 hlt).2.2.2 hu
    omega
  all_goals cases h

/-- **C09**, the part that holds: when `VERIFY PROOF *` ends with "All proofs in the database were verified" and no error message was printed on the way,
every `$p` statement is derivable.  (The full claim, without the condition on messages, is false: `C09_success_after_error`.) -/
theorem C09_success_partial {M : MEnv} (hM : Session look src s M) {W : Nat} {sec : Nat → List Char × Nat} {o : VerifyMsg}
    (h : verifyProofs M W sec ['*'] true = .val o) (hs : o.success = true) (hq : o.printed = 0) {p : Nat} (hp : kindAt (kinds src) p = .p) :
    Derivable (isVarOf src) (ActiveHyp src s p) (EarlierAssertion src s p) (DvDeclared (kinds src) s.math p) (s.math p) := by
  unfold verifyProofs at h
  cases hl : vloop M sec ['*'] true (List.range' 1 M.n) { wrk := W } <;> rw [hl] at h
  · rename_i b
    rw [Out.bind_val] at h
    cases h
    obtain ⟨res, r1, r2, r3, r4⟩ := vloop_spec hM.star (List.nodup_range' (n := M.n)) hl
    dsimp only at hs hq
    simp only [Bool.and_eq_true, Bool.not_eq_eq_eq_not, Bool.not_true, List.isEmpty_iff] at hs
    obtain ⟨m1, m2⟩ := hM.mem hp
    obtain ⟨q1, q2, q3, q4⟩ := r4 p m1 m2
    have hlt := q2 hs.1.2
    have hec := q3 hq
    obtain ⟨v, v1, v2, v3⟩ := q4 rfl hlt
    have h1 : (res p).ret ≠ 1 := by
      intro h1
      rw [hs.1.1] at r1
      simp at r1
      rw [List.mem_range'_1] at m1
      have := r1 p (by omega) (by omega) (by simp [isP, m2])
      exact this h1
    rw [hM.env] at q1
    obtain ⟨W', hW'⟩ := q1
    have hun : unk ∉ (res p).proof := by
      intro hu
      have := ((parseProofText_ok (E := envOf look src s) hM.lookOk (hypKinds_of_parse hM.accepted hp) hW').1 hlt).2.2.2 hu
      omega
    have hvr := verifyProof_ret v1 hun
    have hv2 := v2 hs.1.2
    rw [hM.env] at v1
    exact C07_text_is_derivable hM.accepted hM.lookOk hp hW' hec v1 (by omega) (v3 hq)
  all_goals cases h

/-! ### From the source text to the verdict -/

/-- The proof section of statement `i`. -/
def secOf (o : ReadOut) (i : Nat) : List Char × Nat :=
  match o.stmts[i - 1]? with
  | none => ([], 0)
  | some x => (x.proof, x.proofLen)

/-- **C09** from the source text, the part that holds: READ of the text and then `VERIFY PROOF *` print no error message, and the latter ends with "All proofs
in the database were verified".  Then every `$p` statement of the source is derivable from its active hypotheses and the assertions before it. -/
theorem C09_text_partial {sort : List (Name × Nat) → List (Name × Nat)} (hsort : SortOk sort) {text : List Char} {o : ReadOut}
    (hr : readSource sort text = .val o) (he : o.errs = 0) (hl : LookOk look) {M : MEnv} (hM : M.toEnv = envOf look o.src o.state)
    {W : Nat} {v : VerifyMsg} (hv : verifyProofs M W (secOf o) ['*'] true = .val v) (hs : v.success = true) (hq : v.printed = 0)
    {p : Nat} (hp : kindAt (kinds o.src) p = .p) :
    Derivable (isVarOf o.src) (ActiveHyp o.src o.state p) (EarlierAssertion o.src o.state p) (DvDeclared (kinds o.src) o.state.math p)
      (o.state.math p) := by
  obtain ⟨⟨secs, last, _, _, hst⟩, hacc, _, _⟩ := C42_read_stores_source hsort hr he
  have hlegal : ∀ x ∈ o.src, '*' ∉ x.label := by
    intro x hx hstar
    obtain ⟨i, hi⟩ := List.mem_iff_getElem?.1 hx
    have hlt : i < secs.length := by
      rw [hst.length_eq]; exact (List.getElem?_eq_some_iff.1 hi).1
    have hlt2 : i < o.src.length := (List.getElem?_eq_some_iff.1 hi).1
    have := (List.forall₂_iff_get.1 hst).2 i hlt hlt2
    rw [List.getElem?_eq_getElem hlt2] at hi
    cases hi
    have := this.legal '*' hstar
    revert this
    decide
  exact C09_success_partial ⟨hacc, hl, hM, hlegal⟩ hv hs hq hp

end MM.Cmd
