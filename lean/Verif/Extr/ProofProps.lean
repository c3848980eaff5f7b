import Verif.Extr.Sect
import Verif.Extr.Props
/-!
# C73: the proofs of the theorems extracted

READ followed by VERIFY PROOF of the extract: the proof sections are written unchanged, but the statements have other numbers and the symbols other token
numbers.
-/
namespace MM.Extr
open MM.Veri MM.Pars MM.Spec MM.Trace MM.Proof MM.Lex

section
variable {src : List Src} {s : PState} {D : TDb} {list : List Char} {look look' : Look}

/-- The run of EXTRACT, with what is needed for proofs -/
theorem extract_run (h : Accepted src s) (hD : DbOk D src list) :
    ∃ keep r, extract D src s list = .val (ext src keep r) ∧ (∀ i, keep i = true ↔ Flag D src s list i) ∧ (∀ i, IsAssert src i → (keep i = true ↔ Wanted D list i)) ∧
      ∀ s', Accepted (ext src keep r) s' → Kept src keep := by
  have hR := (C41_read_accepts_exactly src).mp ⟨s, h⟩
  have hn := nested_of hR
  obtain ⟨keep, h1, h2⟩ := needed_ok h hR hD
  obtain ⟨keep', r', e1, e2, _, _⟩ := C72_extract_selects h hD
  have hC := closed_flag h2 h hn hD
  refine ⟨keep, lost src s keep, ?_, h2, fun i hi => by rw [h2, flag_assert h hn hD hi], fun s' h' => kept_flag h hn hD h2 ?_⟩
  · unfold extract at e1 ⊢
    rw [h1, Out.bind_val] at e1 ⊢
    by_cases hb : keep (src.length + 1) = true
    · rw [if_pos hb] at e1; cases e1
    · rw [if_neg hb, written_pick]; rfl
  · intro i ki hd nm hm
    have hR' := (C41_read_accepts_exactly _).mp ⟨s', h'⟩
    obtain ⟨i1, i2⟩ := kind_bound (ks := kinds src) (i := i) (by rw [hd]; simp)
    rw [kinds_length] at i2
    have hp2 : pos keep i ≤ (ext src keep (lost src s keep)).length := by
      unfold ext
      rw [List.length_append, pick_length]; have := pos_mono (keep := keep) i2; omega
    have hp1 : 1 ≤ pos keep i := by
      obtain ⟨k, rfl⟩ : ∃ k, i = k + 1 := ⟨i - 1, by omega⟩
      rw [pos_kept ki]; omega
    have hk' := kind_ext (r := lost src s keep) i1 i2 ki
    have hs' := syms_ext (r := lost src s keep) i1 i2 ki
    have := ((hR'.stmt (pos keep i) hp1 hp2).d (by rw [hk', hd])).2.2 nm (by rw [hs']; exact hm)
    exact (declared_ext hn hC i1 i2 ki).mp this

/-- The first printable character of the section is `(`, comments left out, or is not. -/
theorem parse_ext {s' : PState} {keep : Nat → Bool} {r : List Name × List Name} (h : Accepted src s) (h' : Accepted (ext src keep r) s') (hK : Kept src keep)
    (hl : LookOk look) (hl' : LookOk look') (hL : SrcLabels src) {p : Nat} (hp : kindAt (kinds src) p = .p) (kp : keep p = true)
    (hh : ∀ j ∈ (s.stmt p).reqHyp ++ (s.stmt p).optHyp, keep j = true) {W W' : Nat} {t u r1 r2 : List Char} (hT : SourceChars t) (hB : Blank t u) {res : Parsed}
    (hr : parseProofText (envOf look src s) W p (t ++ '$' :: '.' :: r1) t.length = .val res) (hret : res.ret = 0)
    (hk : ∀ x ∈ res.proof, 0 ≤ x → keep x.toNat = true)
    (hcomp : ∀ labs code tail, CompSection t labs code tail → ¬ OldLooking tail ∧
      (∀ l ∈ labs, ∃ x ∈ res.proof, 0 ≤ x ∧ srcLabel src x.toNat = l) ∧ (s.stmt p).reqHyp.length + t.length ≤ W' ∧ W' ≤ 2 ^ 63) :
    parseProofText (envOf look' (ext src keep r) s') W' (pos keep p) (t ++ '$' :: '.' :: r2) t.length = .val ⟨res.proof.map (codeAt keep), 0, 0⟩ := by
  obtain ⟨p1, p2⟩ := assert_bound (src := src) (i := p) (Or.inr hp)
  have hp' : kindAt (kinds (ext src keep r)) (pos keep p) = .p := by rw [kind_ext p1 p2 kp]; exact hp
  have he : ∀ q, Stop ('$' :: '.' :: q) := fun q => Or.inr ⟨_, _, rfl, by decide⟩
  by_cases hs : StartsParen u
  · obtain ⟨b, u', rfl, hb⟩ := hs
    obtain ⟨labs, code, tail, hsec, hmean⟩ := C39_compressed_resolved h hl hp hT hB hb hr hret
    obtain ⟨c1, c2, c3, c4⟩ := hcomp _ _ _ hsec
    obtain ⟨xs, refs, rfl, hM, hpr⟩ := hmean c1
    obtain ⟨_, _, hdep, _⟩ := (parseProofText_ok (E := envOf look src s) hl (hypKinds_of_parse h hp) hr).1 (by omega)
    have hM' := compMeans_ext (s' := s') (r := r) h h' hK hp kp hM (by
      intro j hj hm
      obtain ⟨x, x1, x2, x3⟩ := c2 _ hm
      have kx := hk x x1 x2
      have hjb : 1 ≤ j ∧ j ≤ src.length ∧ srcLabel src j ≠ [] := by
        rcases hj.2 with ⟨g1, g2, _⟩ | ⟨_, g2⟩
        · have b1 := g1.1
          have b2 : j ≤ src.length := by have := g1.2.1; omega
          exact ⟨b1, b2, (hL.kinds j b1 b2).mpr (Or.inr (Or.inl g2))⟩
        · obtain ⟨b1, b2⟩ := assert_bound g2
          exact ⟨b1, b2, (hL.kinds j b1 b2).mpr (Or.inr (Or.inr g2))⟩
      have hxb : 1 ≤ x.toNat ∧ x.toNat ≤ src.length := by
        have hne : srcLabel src x.toNat ≠ [] := by rw [x3]; exact hjb.2.2
        unfold srcLabel at hne
        by_cases h0 : x.toNat = 0
        · rw [if_pos h0] at hne; exact absurd rfl hne
        · rw [if_neg h0] at hne
          refine ⟨by omega, ?_⟩
          rcases Nat.lt_or_ge (x.toNat - 1) src.length with q | q
          · omega
          · rw [List.getD_eq_getElem?_getD, List.getElem?_eq_none (by simpa using q)] at hne
            exact absurd rfl hne
      rw [hL.uniq j x.toNat hjb.1 hjb.2.1 hxb.1 hxb.2 hjb.2.2 x3.symm]
      exact kx) (by
      intro j hj
      have := hk (Ref.stmt j).code (by rw [hpr]; exact List.mem_map.mpr ⟨_, hj, rfl⟩) (by show (0 : Int) ≤ (j : Int); omega)
      have e : ((Ref.stmt j).code).toNat = j := by show ((j : Int)).toNat = j; simp
      rw [e] at this; exact this)
    have hcode : (refs.map (refAt keep)).map Ref.code = res.proof.map (codeAt keep) := by
      rw [hpr, List.map_map, List.map_map]
      exact List.map_congr_left fun x _ => refAt_code keep x
    rw [← hcode]
    refine C39_compressed_complete h' hl' (srcLabels_ext hL) hp' hT hsec (Or.inl fun tail' ht => (hcomp _ _ _ ht).1) hM' ?_ c4 ?_
    · intro hs hm
      rw [mandList_unique hm (mandList_req h' hp'), hyps_ext h h' hK (Or.inr hp) kp, List.length_map]
      exact c3
    · rw [hcode]
      exact depth_map h h' hK hdep hk
  · obtain ⟨q, q1, q2⟩ := skip_other hB (he r1) hs
    obtain ⟨q', q1', q2'⟩ := skip_other hB (he r2) hs
    unfold parseProofText at hr ⊢
    rw [q1, Out.bind_val, if_neg q2, C23_proof_tokens hB (he r1), Out.bind_val] at hr
    rw [q1', Out.bind_val, if_neg q2', C23_proof_tokens hB (he r2), Out.bind_val]
    exact parse_normal h h' hK hl hl' hL hp kp hh (proofWords_colons u) proofWords_ne hr hret hk

/-- **C73** Every theorem that VERIFY PROOF accepts and that is extracted is accepted by VERIFY PROOF in the extract, provided that (for a compressed proof) each
label of the list in parentheses is used in the proof and the text does not look like that of the old compression algorithm. -/
theorem C73_extract_verifies_partial (h : Accepted src s) (hD : DbOk D src list) (hl : LookOk look) (hl' : LookOk look') (hL : SrcLabels src) :
    ∃ keep r, extract D src s list = .val (pick keep 1 src ++ unused r) ∧ (∀ i, IsAssert src i → (keep i = true ↔ Wanted D list i)) ∧
      ∀ s', Accepted (pick keep 1 src ++ unused r) s' → ∀ p, Wanted D list p → kindAt (kinds src) p = .p →
        ∀ (W W' : Nat) (t u r1 r2 : List Char) (res : Parsed) (out : VerifyOut), SourceChars t → Blank t u →
          D.parse p = parseProofText (envOf look src s) W p (t ++ '$' :: '.' :: r1) t.length →
          D.parse p = .val res → res.ret = 0 → res.ec = 0 →
          verifyProof (toDb src s) p res.proof res.ret res.ec = .val out → out.ret = 0 → out.msgs = [] →
          (∀ labs code tail, CompSection t labs code tail → ¬ OldLooking tail ∧
            (∀ l ∈ labs, ∃ x ∈ res.proof, 0 ≤ x ∧ srcLabel src x.toNat = l) ∧ (s.stmt p).reqHyp.length + t.length ≤ W' ∧ W' ≤ 2 ^ 63) →
          ∃ res' out', parseProofText (envOf look' (pick keep 1 src ++ unused r) s') W' (pos keep p) (t ++ '$' :: '.' :: r2) t.length = .val res' ∧ res'.ret = 0 ∧ res'.ec = 0 ∧
            verifyProof (toDb (pick keep 1 src ++ unused r) s') (pos keep p) res'.proof res'.ret res'.ec = .val out' ∧ out'.ret = 0 ∧ out'.msgs = [] := by
  obtain ⟨keep, r, e1, e2, e3, e4⟩ := extract_run h hD
  refine ⟨keep, r, e1, e3, ?_⟩
  intro s' h' p hw hp W W' t u r1 r2 res out hT hB hpt hpar hret hec hv ho1 ho2 hcomp
  have hK := e4 s' h'
  have kp : keep p = true := (e3 p (Or.inr hp)).mpr hw
  have hr := hpar
  rw [hpt] at hr
  obtain ⟨hleg, hback, _, _⟩ := (parseProofText_ok (E := envOf look src s) hl (hypKinds_of_parse h hp) hr).1 (by omega)
  have hk := thm_refs h hD e2 hp kp hpar (by omega) hleg
  have hP := parse_ext (r2 := r2) (W' := W') h h' hK hl hl' hL hp kp (fun j hj => thm_hyps h hD e2 hp kp hj) hT hB hr hret hk hcomp
  rw [hec, hret] at hv
  obtain ⟨out', f1, f2, f3⟩ := verify_ext (sev' := 0) h h' hK hp kp (fun a b hab hd => thm_dv h h' hK hD e2 hp kp hab hd) hk hback (by omega) (by omega) hv ho1 ho2
  exact ⟨_, out', hP, rfl, rfl, f1, f2, f3⟩

end
end MM.Extr
