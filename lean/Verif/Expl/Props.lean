import Verif.Expl.Any
import Verif.Proof.Text
/-!
# C68: what a proof in the `/EXPLICIT` format means
-/
namespace MM.Expl
open MM.Veri MM.Pars MM.Proof MM.Data MM.Tree MM.Pfas MM.Spec MM.Lex

variable {src : List Src} {s : PState} {look : Look} {p : Nat}

theorem hypLabels_of (h : Accepted src s) (hL : SrcLabels src) : HypLabels (envOf look src s) := by
  intro j hj
  rw [kind_env h] at hj
  obtain ⟨h1, h2, _⟩ := C12_mandatory_hyps h (i := j) hj
  show (((s.stmt j).reqHyp).map (srcLabel src)).Nodup
  have hn : (s.stmt j).reqHyp.Nodup := h1.imp (fun h => Nat.ne_of_lt h)
  refine List.Nodup.map_on ?_ hn
  have hk : ∀ a ∈ (s.stmt j).reqHyp, 1 ≤ a ∧ a ≤ src.length ∧ (kindAt (kinds src) a = .e ∨ kindAt (kinds src) a = .f) := by
    intro a ha
    obtain ⟨h3, h4⟩ := (h2 a).1 ha
    have hka : kindAt (kinds src) a = .e ∨ kindAt (kinds src) a = .f := by
      rcases h4 with h4 | ⟨h4, _⟩
      · exact Or.inl h4
      · exact Or.inr h4
    have := kindAt_pos (ks := kinds src) (i := a) (by rcases hka with h | h <;> rw [h] <;> simp)
    exact ⟨h3.1, by simpa [kinds] using this.2, hka⟩
  intro a ha b hb hab
  obtain ⟨a1, a2, a3⟩ := hk a ha
  obtain ⟨b1, b2, b3⟩ := hk b hb
  refine hL.uniq a b a1 a2 b1 b2 ((hL.kinds a a1 a2).2 ?_) hab
  rcases a3 with h | h
  · exact Or.inl h
  · exact Or.inr (Or.inl h)

/-- The proof that a packed proof stands for has no references and at least one step. -/
theorem expands_plain {E : Env} {q l : List Int} (_hok : ∀ x ∈ q, StepOk E x) (h : Expands E q l) : (∀ x ∈ l, -1000 < x) ∧ l ≠ [] := by
  obtain ⟨rec, h⟩ := h
  have key : ∀ (q : List Int) (st sv st' sv' : List (List Int)), expandRun E q (st, sv) = some (st', sv') → (∀ b ∈ st ++ sv, (∀ x ∈ b, (-1000 : Int) < x) ∧ b ≠ []) →
      ∀ b ∈ st' ++ sv', (∀ x ∈ b, (-1000 : Int) < x) ∧ b ≠ [] := by
    intro q
    induction q with
    | nil => intro st sv st' sv' h hb; cases h; exact hb
    | cons x q ih =>
      intro st sv st' sv' h hb
      have h' : (expandStep E (st, sv) x).bind (expandRun E q) = some (st', sv') := h
      unfold expandStep at h'
      dsimp only at h'
      by_cases hx : x ≤ -1000
      · rw [if_pos hx] at h'
        cases hg : sv[(-1000 - x).toNat]? with
        | none => rw [hg] at h'; cases h'
        | some b =>
          rw [hg, Option.bind_some] at h'
          refine ih _ _ _ _ h' ?_
          have h1 := hb b (List.mem_append_right _ (List.mem_of_getElem? hg))
          intro c hc
          simp only [List.mem_append, List.mem_cons, List.mem_singleton] at hc
          rcases hc with (hc | hc) | hc | hc
          · rw [hc]; exact h1
          · exact hb c (List.mem_append_left _ hc)
          · exact hb c (List.mem_append_right _ hc)
          · rcases hc with hc | hc
            · rw [hc]; exact h1
            · cases hc
      · rw [if_neg hx] at h'
        by_cases ha : arity E x ≤ st.length
        · rw [if_pos ha, Option.bind_some] at h'
          refine ih _ _ _ _ h' ?_
          have h1 : (∀ y ∈ (st.take (arity E x)).reverse.flatten ++ [x], (-1000 : Int) < y) ∧ (st.take (arity E x)).reverse.flatten ++ [x] ≠ [] := by
            refine ⟨?_, by simp⟩
            intro y hy
            rcases List.mem_append.1 hy with hy | hy
            · obtain ⟨c, hc, hyc⟩ := List.mem_flatten.1 hy
              exact (hb c (List.mem_append_left _ (List.mem_of_mem_take (List.mem_reverse.1 hc)))).1 y hyc
            · rw [List.mem_singleton.1 hy]; omega
          intro c hc
          simp only [List.mem_append, List.mem_cons, List.mem_singleton] at hc
          rcases hc with (hc | hc) | hc | hc
          · rw [hc]; exact h1
          · exact hb c (List.mem_append_left _ (List.mem_of_mem_drop hc))
          · exact hb c (List.mem_append_right _ hc)
          · rcases hc with hc | hc
            · rw [hc]; exact h1
            · cases hc
        · rw [if_neg ha] at h'; cases h'
  exact key q [] [] [l] rec h (by simp) l (by simp)

/-- **C68** A proof in the explicit format that is accepted (return value 0, or 1 for an incomplete proof) is, without its targets, accepted as the text of the steps `w`; the targets
say which step is for which hypothesis (`Explicit`); and the parsed proof stands for the proof `l` that has the subproofs in the order of the database, whatever their order in the
text.  Without local labels the parsed proof is `l`. -/
theorem C68_explicit_means (h : Accepted src s) (hl : LookOk look) (hL : SrcLabels src) (hp : kindAt (kinds src) p = .p) {xs : List XItem} (hne : xs ≠ []) (hX : XForm xs)
    {fuel : Nat} {r : Parsed} (hr : parseProofX (envOf look src s) p fuel (xtext xs) = .val r) (hret : r.ret < 2) :
    ∃ w l, parseProof (envOf look src s) p (text (xs.map XItem.item)) = .val ⟨w, r.ret, r.ec⟩ ∧ w.length = xs.length ∧ Explicit (envOf look src s) ((xs.map XItem.tgt).zip w) l ∧
      Expands (envOf look src s) r.proof l ∧ ((∀ x ∈ w, -1000 < x) → r.proof = l) := by
  obtain ⟨w, l, h1, h2, h3, h4⟩ := (explicit_iff (E := envOf look src s) hl (hypLabels_of h hL) (hypsOk_of h hp) hX hne).1 fuel r hr hret
  exact ⟨w, l, h1, h2, h3, h4.expands, h4.norefs⟩

/-- **C68** Conversely: if the text without the targets is accepted, and the targets select the subproofs of a proof `l`, then the explicit proof is accepted (the loop that moves
subproofs ends), with the same return value and number of errors, as a proof that stands for `l`. -/
theorem C68_explicit_accepted (h : Accepted src s) (hl : LookOk look) (hL : SrcLabels src) (hp : kindAt (kinds src) p = .p) {xs : List XItem} (hne : xs ≠ []) (hX : XForm xs)
    {r : Parsed} {l : List Int} (hr : parseProof (envOf look src s) p (text (xs.map XItem.item)) = .val r) (hret : r.ret < 2)
    (hex : Explicit (envOf look src s) ((xs.map XItem.tgt).zip r.proof) l) :
    ∃ F P, (∀ fuel, F ≤ fuel → parseProofX (envOf look src s) p fuel (xtext xs) = .val ⟨P, r.ret, r.ec⟩) ∧ Expands (envOf look src s) P l ∧ ((∀ x ∈ r.proof, -1000 < x) → P = l) := by
  obtain ⟨F, P, h1, h2⟩ := (explicit_iff (E := envOf look src s) hl (hypLabels_of h hL) (hypsOk_of h hp) hX hne).2 r l hr hret hex
  exact ⟨F, P, h2, h1.expands, h1.norefs⟩

/-- **C68** with C07: any text of a proof in a normal or explicit format that is parsed and verified without a message is a proof of the statement. -/
theorem C68_any_text_is_derivable (h : Accepted src s) (hl : LookOk look) (hL : SrcLabels src) (hp : kindAt (kinds src) p = .p) {toks : List Name} {fuel : Nat} {r : Parsed}
    (hr : parseProofX (envOf look src s) p fuel toks = .val r) (hquiet : r.ec = 0)
    {out : VerifyOut} (hv : verifyProof (toDb src s) p r.proof r.ret r.ec = .val out) (hok : out.ret = 0) (hmsgs : out.msgs = []) :
    Derivable (isVarOf src) (ActiveHyp src s p) (EarlierAssertion src s p) (DvDeclared (kinds src) s.math p) (s.math p) := by
  have hr1 := parseProofX_quiet hr hquiet
  obtain ⟨h1, h2, _, _⟩ := parseProofX_ok (E := envOf look src s) hl (hypLabels_of h hL) (hypsOk_of h hp) hr (by omega)
  rw [hquiet] at hv
  have hd := C07_verified_is_derivable (db := toDb src s) tok_sep (by rw [kind_toDb h]; exact hp) (by omega) (dvOrdered_of_parse h hp)
    (fun ps _ => goodRef_of_parse h ps) h2 h1 hv hok hmsgs
  refine Derivable.mono hd ?_ ?_ (fun a b hab => (declared_iff h hp a b hab).mp)
  · rintro e ⟨k, hk, rfl⟩
    obtain ⟨h3, h4⟩ := (mem_hyps_iff (look := look) h hp k).mp hk
    exact ⟨k, h3, h4, rfl⟩
  · rintro A ⟨i, hi, hk, rfl⟩
    rw [kind_toDb h] at hk
    exact ⟨i, hi, isAssertion_frame h hk⟩

/-- **C68** with C11: any text that is accepted cites only active hypotheses and earlier assertions. -/
theorem C68_any_text_cites_earlier (h : Accepted src s) (hl : LookOk look) (hL : SrcLabels src) (hp : kindAt (kinds src) p = .p) {toks : List Name} {fuel : Nat} {r : Parsed}
    (hr : parseProofX (envOf look src s) p fuel toks = .val r) (hret : r.ret < 2) :
    ∀ ps ∈ r.proof, 0 ≤ ps → (Active (kinds src) ps.toNat p ∧ (kindAt (kinds src) ps.toNat = .e ∨ kindAt (kinds src) ps.toNat = .f)) ∨
      (ps.toNat < p ∧ IsAssert src ps.toNat) := by
  intro ps hps h0
  have := (parseProofX_ok (E := envOf look src s) hl (hypLabels_of h hL) (hypsOk_of h hp) hr hret).1 ps hps h0
  rcases this with ⟨h1, _⟩ | ⟨h1, h2⟩
  · exact Or.inl ((mem_hyps_iff (look := look) h hp _).mp h1)
  · refine Or.inr ⟨h1, ?_⟩
    rw [kind_env h] at h2
    exact h2

/-- **C68** The verifier accepts the parsed explicit proof exactly if it accepts the proof `l` with the subproofs in the order of the database. -/
theorem C68_order_keeps_verdict (h : Accepted src s) (hl : LookOk look) (hL : SrcLabels src) (hp : kindAt (kinds src) p = .p) {xs : List XItem} (hne : xs ≠ []) (hX : XForm xs)
    {fuel : Nat} {r : Parsed} (hr : parseProofX (envOf look src s) p fuel (xtext xs) = .val r) (hret : r.ret < 2) :
    ∃ w l, parseProof (envOf look src s) p (text (xs.map XItem.item)) = .val ⟨w, r.ret, r.ec⟩ ∧ Explicit (envOf look src s) ((xs.map XItem.tgt).zip w) l ∧
      (Verified (toDb src s) p r.proof ↔ Verified (toDb src s) p l) := by
  obtain ⟨w, l, h1, _, h3, h4⟩ := (explicit_iff (E := envOf look src s) hl (hypLabels_of h hL) (hypsOk_of h hp) hX hne).1 fuel r hr hret
  refine ⟨w, l, h1, h3, ?_⟩
  have hex := h4.expands
  have hq : r.proof ≠ [] := by
    intro e
    obtain ⟨rec, hr⟩ := hex
    rw [e] at hr; simp [expandRun] at hr
  obtain ⟨hll, hln⟩ := expands_plain h4.ok hex
  rw [verified_iff h hp hq h4.back, verified_iff h hp hln (backOk_get fun k x hk hx => by have := hll x (List.mem_of_getElem? hk); omega)]
  exact packed_proves_iff (E := envOf look src s) (goodRef_of_parse h) h4.ok hex

/-- **C68** A text without `=` is parsed as a normal proof. -/
theorem C68_without_targets {E : Env} {fuel : Nat} {toks : List Name} (h : ∀ t ∈ toks, t.head? ≠ some '=') : parseProofX E p fuel toks = parseProof E p toks :=
  parseProofX_plain fun t ht => by
    cases hh : isEq t with
    | false => rfl
    | true => exact absurd (isEq_iff.1 hh) (h t ht)

end MM.Expl
