import Verif.Extr.Proofs
/-!
# The verifier on the extract
-/
namespace MM.Extr
open MM.Veri MM.Pars MM.Spec MM.Proof MM.Trace

/-- A step of the stored proof in the extract: statement numbers are the new ones, references to earlier steps stay. -/
def codeAt (keep : Nat → Bool) (x : Int) : Int := if 0 ≤ x then (pos keep x.toNat : Int) else x

theorem backOk_map {keep : Nat → Bool} : ∀ {l : List Int} {n : Nat}, BackOk n l → BackOk n (l.map (codeAt keep))
  | [], _, _ => trivial
  | x :: l, n, h => by
    refine ⟨fun hx => ?_, backOk_map h.2⟩
    unfold codeAt at hx ⊢
    by_cases h0 : 0 ≤ x
    · rw [if_pos h0] at hx; omega
    · rw [if_neg h0] at hx ⊢; exact h.1 hx

section
variable {src : List Src} {s s' : PState} {keep : Nat → Bool} {r : List Name × List Name}

theorem decode_tau (h : Accepted src s) (h' : Accepted (ext src keep r) s') (hK : Kept src keep) {x : Int} (kx : 0 ≤ x → keep x.toNat = true) {st : Step}
    (hd : decode (toDb src s) x = some st) :
    ∃ st', decode (toDb (ext src keep r) s') (codeAt keep x) = some st' ∧ SameStep (isVarOf src) (Used src keep) (tau src s s' keep) st st' := by
  by_cases h0 : 0 ≤ x
  · have kj := kx h0
    obtain ⟨j, rfl⟩ : ∃ j : Nat, x = j := ⟨x.toNat, by omega⟩
    rw [Int.toNat_natCast] at kj
    have hc : codeAt keep (j : Int) = (pos keep j : Int) := by unfold codeAt; rw [if_pos h0]; simp
    rw [hc]
    unfold decode at hd ⊢
    rw [if_neg (by omega), if_neg (by omega), Int.toNat_natCast, kind_toDb h] at hd
    rw [if_neg (by omega), if_neg (by omega), Int.toNat_natCast, kind_toDb h']
    by_cases hn : kindAt (kinds src) j = .none
    · rw [hn] at hd; cases hd
    obtain ⟨j1, j2⟩ := kind_bound hn
    rw [kinds_length] at j2
    rw [kind_ext j1 j2 kj]
    have hyp : kindAt (kinds src) j = .e ∨ kindAt (kinds src) j = .f → st = .hyp (s.math j) → SameStep (isVarOf src) (Used src keep) (tau src s s' keep) st (.hyp (s'.math (pos keep j))) := by
      intro hk e
      obtain ⟨u, q⟩ := math_tau h h' hK kj (by rcases hk with e | e <;> rw [e] <;> simp)
      rw [e, q]
      exact .hyp _ u
    have ass : IsAssert src j → st = .use (frameOf (toDb src s) j) → SameStep (isVarOf src) (Used src keep) (tau src s s' keep) st (.use (frameOf (toDb (ext src keep r) s') (pos keep j))) := by
      intro hk e
      obtain ⟨A', a1, a2⟩ := assert_tau h h' hK kj (isAssertion_frame h hk)
      have hk' : IsAssert (ext src keep r) (pos keep j) := by
        unfold IsAssert
        rw [kind_ext j1 j2 kj]; exact hk
      obtain ⟨e1, e2, e3⟩ := isAssertion_unique a1 (isAssertion_frame h' hk')
      rw [e]
      refine .use _ _ ⟨by rw [← e2]; exact a2.concl, by rw [← e1]; exact a2.hyps, a2.useC, a2.useH, a2.cover, fun x y hxy => a2.dv x y ((e3 x y).mpr hxy)⟩
    cases hk : kindAt (kinds src) j <;> rw [hk] at hd <;> first | cases hd | skip
    all_goals first
      | exact ⟨_, rfl, hyp (by rw [hk]; simp) rfl⟩
      | exact ⟨_, rfl, ass (by unfold IsAssert; rw [hk]; simp) rfl⟩
  · have hc : codeAt keep x = x := by unfold codeAt; rw [if_neg h0]
    rw [hc]
    unfold decode at hd ⊢
    by_cases h1 : x = -63
    · rw [if_pos h1] at hd; cases hd
    rw [if_neg h1, if_pos (by omega)] at hd
    rw [if_neg h1, if_pos (by omega)]
    by_cases h2 : x > -1000
    · rw [if_pos h2] at hd; cases hd
    rw [if_neg h2] at hd
    rw [if_neg h2]
    cases hd
    exact ⟨_, rfl, .back _⟩

theorem decode_all (h : Accepted src s) (h' : Accepted (ext src keep r) s') (hK : Kept src keep) : ∀ {proof : List Int} {steps : List Step},
    (∀ x ∈ proof, 0 ≤ x → keep x.toNat = true) → proof.map (decode (toDb src s)) = steps.map some →
    ∃ steps', (proof.map (codeAt keep)).map (decode (toDb (ext src keep r) s')) = steps'.map some ∧ List.Forall₂ (SameStep (isVarOf src) (Used src keep) (tau src s s' keep)) steps steps'
  | [], [], _, _ => ⟨[], rfl, .nil⟩
  | [], _ :: _, _, h => by simp at h
  | _ :: _, [], _, h => by simp at h
  | x :: proof, st :: steps, hk, hd => by
    simp only [List.map_cons, List.cons.injEq] at hd
    obtain ⟨st', a, b⟩ := decode_tau h h' hK (hk x (by simp)) hd.1
    obtain ⟨steps', c, d⟩ := decode_all h h' hK (fun y hy => hk y (by simp [hy])) hd.2
    exact ⟨st' :: steps', by simp only [List.map_cons, a, c], .cons b d⟩

/-- A correct proof of a theorem kept, that uses only statements kept, is correct in the extract. -/
theorem verify_ext (h : Accepted src s) (h' : Accepted (ext src keep r) s') (hK : Kept src keep) {p : Nat} (hp : kindAt (kinds src) p = .p) (kp : keep p = true)
    (hdv : ∀ a b, a ≠ b → DvDeclared (kinds src) s.math p a b → DvDeclared (kinds (ext src keep r)) s'.math (pos keep p) (tau src s s' keep a) (tau src s s' keep b))
    {proof : List Int} (hk : ∀ x ∈ proof, 0 ≤ x → keep x.toNat = true) (hb : BackOk 0 proof) {sev sev' : Nat} (hsev : sev ≤ 2) (hsev' : sev' ≤ 2)
    {out : VerifyOut} (hv : verifyProof (toDb src s) p proof sev 0 = .val out) (hret : out.ret = 0) (hmsgs : out.msgs = []) :
    ∃ out', verifyProof (toDb (ext src keep r) s') (pos keep p) (proof.map (codeAt keep)) sev' 0 = .val out' ∧ out'.ret = 0 ∧ out'.msgs = [] := by
  obtain ⟨p1, p2⟩ := assert_bound (src := src) (i := p) (Or.inr hp)
  have hp' : kindAt (kinds (ext src keep r)) (pos keep p) = .p := by rw [kind_ext p1 p2 kp]; exact hp
  have hkp : ((toDb src s).stmt p).kind = .p := by rw [kind_toDb h]; exact hp
  have hne : proof ≠ [] := by
    rintro rfl
    unfold verifyProof at hv
    rw [if_neg (by simp [hkp]), if_neg (by omega), if_pos List.length_nil] at hv
    cases hv; cases hret
  obtain ⟨steps, hd, hpr⟩ := (verify_iff tok_sep hkp hsev hne (fun ps _ => goodRef_of_parse h ps) hb).mp ⟨out, hv, hret, hmsgs⟩
  rw [proves_declared (dvOrdered_of_parse h hp)] at hpr
  obtain ⟨hist, hrpn⟩ := hpr
  replace hrpn := RPN.mono (fun a b hab => (declared_iff h hp a b hab).mp) hrpn
  obtain ⟨steps', c, d⟩ := decode_all h h' hK hk hd
  obtain ⟨g, hg⟩ : ∃ g : Nat → Nat, ∀ t, Used src keep t → g (tau src s s' keep t) = t := by
    classical
    refine ⟨fun t' => if hx : ∃ u, Used src keep u ∧ tau src s s' keep u = t' then hx.choose else 0, fun t ht => ?_⟩
    have hx : ∃ u, Used src keep u ∧ tau src s s' keep u = tau src s s' keep t := ⟨t, ht, rfl⟩
    dsimp only
    rw [dif_pos hx]
    exact tau_inj h h' hx.choose_spec.1 ht hx.choose_spec.2
  obtain ⟨e1, _, _⟩ := rpn_carry (isVar' := isVarOf (ext src keep r)) (dv' := DvDeclared (kinds (ext src keep r)) s'.math (pos keep p))
    (fun t ht => tau_isVar h h' ht) hg (fun a b ⟨j, q1, q2, q3, q4⟩ => ⟨j, q1, q2, q4, q3⟩) hdv hrpn d
  have hm : [((toDb src s).stmt p).math].map (List.map (tau src s s' keep)) = [((toDb (ext src keep r) s').stmt (pos keep p)).math] := by
    have := (math_tau h h' hK kp (by rw [hp]; simp)).2
    show [(s.math p).map _] = [s'.math _]
    rw [this]
  rw [hm] at e1
  exact C08_correct_is_verified tok_sep (by rw [kind_toDb h']; exact hp') hsev' (dvOrdered_of_parse h' hp') (fun ps _ => goodRef_of_parse h' ps) (backOk_map hb) c
    ⟨_, RPN.mono (fun a b hab => (declared_iff h' hp' a b hab).mpr) e1⟩

end

section
variable {src : List Src} {s s' : PState} {D : TDb} {list : List Char} {keep : Nat → Bool} {r : List Name × List Name}

/-- The `$d` conditions of a theorem kept are kept. -/
theorem thm_dv (h : Accepted src s) (h' : Accepted (ext src keep r) s') (hK : Kept src keep) (hD : DbOk D src list) (hkeep : ∀ i, keep i = true ↔ Flag D src s list i)
    {p : Nat} (hp : kindAt (kinds src) p = .p) (kp : keep p = true) {a b : Nat} (hab : a ≠ b) (hd : DvDeclared (kinds src) s.math p a b) :
    DvDeclared (kinds (ext src keep r)) s'.math (pos keep p) (tau src s s' keep a) (tau src s s' keep b) := by
  have hn := nested_of ((C41_read_accepts_exactly src).mp ⟨s, h⟩)
  obtain ⟨p1, p2⟩ := assert_bound (src := src) (i := p) (Or.inr hp)
  obtain ⟨j, q1, q2, q3, q4⟩ := hd
  have hkd : kindAt (kinds src) j ∈ [Kind.d, .e, .f, .a, .p] := by rw [q2]; simp
  obtain ⟨la, _⟩ := (inv_of h).acts j hkd a q3
  obtain ⟨lb, _⟩ := (inv_of h).acts j hkd b q4
  have na := nameOf_some la
  have nb := nameOf_some lb
  have ta := tokActive_of h hn (Or.inr q1) hkd q3
  have tb := tokActive_of h hn (Or.inr q1) hkd q4
  have hne : nameOf (declToks src) a ≠ nameOf (declToks src) b := by
    intro e
    exact hab (name_uniq h p1 (by omega) ta tb (by rw [na, nb, e]))
  obtain ⟨j', c1, c2, c3, c4, c5⟩ := apart_stmt_thm h hn hp ⟨hne, j, q1, q2, (tok_of_name h (Or.inl hkd)).mpr ⟨a, q3, na⟩, (tok_of_name h (Or.inl hkd)).mpr ⟨b, q4, nb⟩⟩
  have kj' : keep j' = true := by
    refine frame_flag hkeep h hn hD kp (Or.inr hp) ?_
    unfold frameStmts
    rcases List.mem_append.mp c1 with e | e <;> simp [e]
  have hkd' : kindAt (kinds src) j' ∈ [Kind.d, .e, .f, .a, .p] := by rw [c3]; simp
  obtain ⟨a', a1, a2⟩ := (tok_of_name h (Or.inl hkd')).mp c4
  obtain ⟨b', b1, b2⟩ := (tok_of_name h (Or.inl hkd')).mp c5
  have := name_uniq h p1 (by omega) ta (tokActive_of h hn (Or.inr c2) hkd' a1) (by rw [na, a2])
  subst this
  have := name_uniq h p1 (by omega) tb (tokActive_of h hn (Or.inr c2) hkd' b1) (by rw [nb, b2])
  subst this
  exact dv_to h h' hK p1 p2 kp kj' c2 c3 a1 b1

/-- The active hypotheses of a theorem kept are kept. -/
theorem thm_hyps (h : Accepted src s) (hD : DbOk D src list) (hkeep : ∀ i, keep i = true ↔ Flag D src s list i)
    {p : Nat} (hp : kindAt (kinds src) p = .p) (kp : keep p = true) {j : Nat} (hj : j ∈ (s.stmt p).reqHyp ++ (s.stmt p).optHyp) : keep j = true := by
  have hn := nested_of ((C41_read_accepts_exactly src).mp ⟨s, h⟩)
  refine frame_flag hkeep h hn hD kp (Or.inr hp) ?_
  unfold frameStmts
  rcases List.mem_append.mp hj with e | e <;> simp [e]

/-- The statements a proof uses are kept. -/
theorem thm_refs (h : Accepted src s) (hD : DbOk D src list) (hkeep : ∀ i, keep i = true ↔ Flag D src s list i)
    {p : Nat} (hp : kindAt (kinds src) p = .p) (kp : keep p = true) {res : Parsed} (hparse : D.parse p = .val res) (hret : res.ret ≤ 1)
    (hleg : LegalRefs (toDb src s) p res.proof) : ∀ x ∈ res.proof, 0 ≤ x → keep x.toNat = true := by
  have hn := nested_of ((C41_read_accepts_exactly src).mp ⟨s, h⟩)
  intro x hx h0
  rcases hleg x hx h0 with ⟨a, _⟩ | ⟨_, b⟩
  · exact thm_hyps h hD hkeep hp kp a
  · have hb : IsAssert src x.toNat := by rw [kind_toDb h] at b; exact b
    rw [hkeep, flag_assert h hn hD hb]
    obtain ⟨m, m1, m2⟩ := (flag_assert h hn hD (Or.inr hp)).mp ((hkeep p).mp kp)
    refine ⟨m, m1, .step m2 ⟨by rw [hD.kind]; exact hp, by rw [hD.kind]; exact hb, res, hparse, hret, Or.inl ⟨rfl, ?_⟩⟩⟩
    rw [Int.toNat_of_nonneg h0]; exact hx

end
end MM.Extr
