import Verif.Proof.CompInv
import Verif.Proof.Props
/-!
# Properties C07, C11 for the proof section as text, normal or compressed
-/
namespace MM.Proof
open MM.Veri MM.Pars MM.Spec MM.Lex

variable {src : List Src} {s : PState} {look : Look} {p W : Nat} {sec : List Char} {secLen : Nat} {r : Parsed}

/-- What `parseProof` guarantees for a proof section. -/
theorem parseProofText_ok {E : Env} (hlook : LookOk E.look) (hk : HypKinds E.toDb p) (h : parseProofText E W p sec secLen = .val r) :
    (r.ret < 2 → LegalRefs E.toDb p r.proof ∧ BackOk 0 r.proof ∧ Depth E.toDb r.proof 1 ∧ (unk ∈ r.proof → r.ret = 1)) ∧ (r.ec = 0 → r.ret ≤ 1) := by
  unfold parseProofText at h
  cases hq : skipWs .ws sec <;> rw [hq] at h
  · rename_i q
    rw [Out.bind_val] at h
    split at h
    · exact parseCompressed_ok hlook hk h
    · cases ht : proofToks sec <;> rw [ht] at h
      · exact ⟨parseProof_ok hlook hk h, parseProof_quiet h⟩
      all_goals cases h
  all_goals cases h

/-- **C11** for the proof section as text: a proof with return code 0 or 1, normal or compressed, cites only active hypotheses and assertions that
strictly precede the statement. -/
theorem C11_text_cites_only_earlier (h : Accepted src s) (hl : LookOk look) (hp : kindAt (kinds src) p = .p)
    (hr : parseProofText (envOf look src s) W p sec secLen = .val r) (hret : r.ret < 2) :
    ∀ ps ∈ r.proof, 0 ≤ ps → (Active (kinds src) ps.toNat p ∧ (kindAt (kinds src) ps.toNat = .e ∨ kindAt (kinds src) ps.toNat = .f)) ∨
      (ps.toNat < p ∧ IsAssert src ps.toNat) := by
  intro ps hps h0
  have := ((parseProofText_ok (E := envOf look src s) hl (hypKinds_of_parse h hp) hr).1 hret).1 ps hps h0
  rcases this with ⟨h1, _⟩ | ⟨h1, h2⟩
  · exact Or.inl ((mem_hyps_iff (look := look) h hp _).mp h1)
  · refine Or.inr ⟨h1, ?_⟩
    rw [kind_env h] at h2
    exact h2

/-- **C07** for the proof section as text: READ accepted the source, parsing and verifying the proof, normal or compressed, printed no
message, and the verifier's return code is 0.  Then the statement is derivable. -/
theorem C07_text_is_derivable (h : Accepted src s) (hl : LookOk look) (hp : kindAt (kinds src) p = .p)
    (hr : parseProofText (envOf look src s) W p sec secLen = .val r) (hquiet : r.ec = 0)
    {out : VerifyOut} (hv : verifyProof (toDb src s) p r.proof r.ret r.ec = .val out) (hret : out.ret = 0) (hmsgs : out.msgs = []) :
    Derivable (isVarOf src) (ActiveHyp src s p) (EarlierAssertion src s p) (DvDeclared (kinds src) s.math p) (s.math p) := by
  obtain ⟨hok, hq⟩ := parseProofText_ok (E := envOf look src s) hl (hypKinds_of_parse h hp) hr
  have hr1 := hq hquiet
  obtain ⟨h1, h2, _, _⟩ := hok (by omega)
  rw [hquiet] at hv
  have hd := C07_verified_is_derivable (db := toDb src s) tok_sep (by rw [kind_toDb h]; exact hp) (by omega) (dvOrdered_of_parse h hp)
    (fun ps _ => goodRef_of_parse h ps) h2 h1 hv hret hmsgs
  refine Derivable.mono hd ?_ ?_ (fun a b hab => (declared_iff h hp a b hab).mp)
  · rintro e ⟨k, hk, rfl⟩
    obtain ⟨h3, h4⟩ := (mem_hyps_iff (look := look) h hp k).mp hk
    exact ⟨k, h3, h4, rfl⟩
  · rintro A ⟨i, hi, hk, rfl⟩
    rw [kind_toDb h] at hk
    exact ⟨i, hi, isAssertion_frame h hk⟩

end MM.Proof
