import Verif.Expd.Loop
import Verif.Proof.NoChain
import Verif.Pfas.Props
import Verif.Tree.Unsquish

/-!
# Stored proofs as sources of EXPAND
-/
namespace MM.Expd
open MM.Veri MM.Pars MM.Spec MM.Proof MM.Data MM.Tree MM.Pfas Tree.Forest

variable {src : List Src} {s : PState} {look : Look} {E : Env}

theorem depth_steps {db : Db} {l : List Int} {n : Nat} (h : Depth db l n) : ∀ x ∈ l, x = unk ∨ x ≤ -1000 ∨ 0 ≤ x := by
  induction h with
  | nil => intro x hx; cases hx
  | push _ ha ih =>
    intro x hx
    rcases List.mem_append.1 hx with hx | hx
    · exact ih x hx
    · rw [List.mem_singleton] at hx; subst hx
      rcases ha with ha | ha | ha
      · exact Or.inl ha
      · exact Or.inr (Or.inl ha)
      · exact Or.inr (Or.inr ha.1)
  | use _ ha _ _ ih =>
    intro x hx
    rcases List.mem_append.1 hx with hx | hx
    · exact ih x hx
    · rw [List.mem_singleton] at hx; subst hx; exact Or.inr (Or.inr ha)

theorem backOk_inv {a : Int} : ∀ {l : List Int} {off : Nat}, BackOk off (l ++ [a]) → BackOk off l ∧ (a ≤ -1000 → (-1000 - a).toNat < off + l.length)
  | [], off, h => ⟨trivial, by simpa using h.1⟩
  | b :: l, off, h => by
    obtain ⟨h1, h2⟩ := backOk_inv (l := l) h.2
    exact ⟨⟨h.1, h1⟩, fun ha => by have := h2 ha; simp only [List.length_cons]; omega⟩

theorem mem_getD {l : List (List Int)} {i : Nat} (h : i < l.length) : l.getD i [] ∈ l := by
  rw [List.getD_eq_getElem _ _ h]; exact List.getElem_mem h

/-- A parsed proof, run on the machine of packed proofs: it succeeds, and what it has on the stack and in the record consists of the steps of the proof that are not
references. -/
theorem run_of_depth {l : List Int} {n : Nat} (h : Depth E.toDb l n) : BackOk 0 l → (∀ x ∈ l, StepOk E x) →
    ∃ st rec, expandRun E l ([], []) = some (st, rec) ∧ st.length = n ∧ ∀ b ∈ st ++ rec, ∀ y ∈ b, y ∈ l ∧ -1000 < y := by
  induction h with
  | nil => intro _ _; exact ⟨[], [], rfl, rfl, by simp⟩
  | push _ ha ih =>
    rename_i l n a _
    intro hb hok
    obtain ⟨hb1, hb2⟩ := backOk_inv hb
    obtain ⟨st, rec, h1, h2, h3⟩ := ih hb1 (fun x hx => hok x (by simp [hx]))
    have hlen := run_len h1
    have h3' : ∀ b ∈ st ++ rec, ∀ y ∈ b, y ∈ l ++ [a] ∧ -1000 < y := fun b hb y hy => ⟨by simp [(h3 b hb y hy).1], (h3 b hb y hy).2⟩
    by_cases hr : a ≤ -1000
    · have hlt := hb2 hr
      rw [Nat.zero_add, ← hlen] at hlt
      refine ⟨rec.getD (-1000 - a).toNat [] :: st, rec ++ [rec.getD (-1000 - a).toNat []], run_join h1 (run_one.trans (step_ref_ok (st := (st, rec)) hr hlt)), by simp [h2], ?_⟩
      intro b hb
      have hm := mem_getD hlt
      simp only [List.cons_append, List.mem_cons, List.mem_append, List.not_mem_nil, or_false] at hb
      rcases hb with rfl | hb | hb | rfl
      · exact h3' _ (List.mem_append_right _ hm)
      · exact h3' _ (by simp [hb])
      · exact h3' _ (by simp [hb])
      · exact h3' _ (List.mem_append_right _ hm)
    · have h0 : arity E a = 0 := by
        rcases ha with rfl | ha | ⟨_, ha | ha⟩
        · exact arity_hyp (Or.inl (by decide))
        · exact absurd ha hr
        · exact arity_hyp (Or.inr (Or.inr ha))
        · exact arity_hyp (Or.inr (Or.inl ha))
      have h4 := step_stmt_ok (E := E) (st := (st, rec)) (x := a) (by omega) (by rw [h0]; exact Nat.zero_le _)
      rw [h0] at h4
      simp only [List.take_zero, List.reverse_nil, List.flatten_nil, List.nil_append, List.drop_zero] at h4
      refine ⟨[a] :: st, rec ++ [[a]], run_join h1 (run_one.trans h4), by simp [h2], ?_⟩
      intro b hb
      simp only [List.cons_append, List.mem_cons, List.mem_append, List.not_mem_nil, or_false] at hb
      rcases hb with rfl | hb | hb | rfl
      · intro y hy; rw [List.mem_singleton] at hy; subst hy; exact ⟨by simp, by omega⟩
      · exact h3' _ (by simp [hb])
      · exact h3' _ (by simp [hb])
      · intro y hy; rw [List.mem_singleton] at hy; subst hy; exact ⟨by simp, by omega⟩
  | use _ ha hk hle ih =>
    rename_i l n a _
    intro hb hok
    obtain ⟨hb1, hb2⟩ := backOk_inv hb
    obtain ⟨st, rec, h1, h2, h3⟩ := ih hb1 (fun x hx => hok x (by simp [hx]))
    have h3' : ∀ b ∈ st ++ rec, ∀ y ∈ b, y ∈ l ++ [a] ∧ -1000 < y := fun b hb y hy => ⟨by simp [(h3 b hb y hy).1], (h3 b hb y hy).2⟩
    have hnk : ¬ ((E.stmt a.toNat).kind = .f ∨ (E.stmt a.toNat).kind = .e) := by
      have hk' : (E.stmt a.toNat).kind = .a ∨ (E.stmt a.toNat).kind = .p := hk
      rcases hk' with hk | hk <;> rw [hk] <;> simp
    obtain ⟨_, _, _, har⟩ := arity_ap (hok a (by simp)) (by omega) hnk
    have h4 := step_stmt_ok (E := E) (st := (st, rec)) (x := a) (by omega) (by rw [har, h2]; exact hle)
    refine ⟨_, _, run_join h1 (run_one.trans h4), ?_, ?_⟩
    · simp only [List.length_cons, List.length_drop, har, h2]
    · have hnew : ∀ y ∈ (st.take (arity E a)).reverse.flatten ++ [a], y ∈ l ++ [a] ∧ -1000 < y := by
        intro y hy
        rcases List.mem_append.1 hy with hy | hy
        · obtain ⟨b, hb, hyb⟩ := List.mem_flatten.1 hy
          exact h3' b (by simp [List.mem_of_mem_take (List.mem_reverse.1 hb)]) y hyb
        · rw [List.mem_singleton] at hy; subst hy; exact ⟨by simp, by omega⟩
      intro b hb
      simp only [List.cons_append, List.mem_cons, List.mem_append, List.not_mem_nil, or_false] at hb
      rcases hb with rfl | hb | hb | rfl
      · exact hnew
      · exact h3' _ (by simp [List.mem_of_mem_drop hb])
      · exact h3' _ (by simp [hb])
      · exact hnew

/-- The proof string that `getProof` returns for theorem `i`, and the proof without references that it stands for. -/
structure Stored (E : Env) (i : Nat) (q p : List Int) : Prop where
  unpack : ∀ fuel, p.length < fuel → unsquish E fuel q = .val p
  expands : Expands E q p
  normal : NormalProof E p
  legal : ∀ x ∈ p, Legal E i x
  back : BackOk 0 q
  ok : ∀ x ∈ q, StepOk E x

theorem legal_of (h : Accepted src s) {i : Nat} {l : List Int} {n : Nat} (hL : LegalRefs (envOf look src s).toDb i l) (hD : Depth (envOf look src s).toDb l n) :
    ∀ x ∈ l, x ≤ -1000 ∨ Legal (envOf look src s) i x := by
  intro x hx
  rcases depth_steps hD x hx with h1 | h1 | h1
  · exact Or.inr (Or.inl h1)
  · exact Or.inl h1
  · refine Or.inr (Or.inr ?_)
    have hl := hL x hx h1
    have hb : kindAt (kinds src) x.toNat ≠ .none → 1 ≤ x ∧ x ≤ (envOf look src s).n := by
      intro e
      have := kindAt_pos (ks := kinds src) (i := x.toNat) e
      have h2 := this.2
      simp only [kinds, List.length_map] at h2
      simp only [envOf]
      exact ⟨by omega, by omega⟩
    have hn : kindAt (kinds src) x.toNat ≠ .none := by
      rw [← kind_env (look := look) h]
      have hk : (((envOf look src s).stmt x.toNat).kind = .e ∨ ((envOf look src s).stmt x.toNat).kind = .f) ∨
          ((envOf look src s).stmt x.toNat).kind = .a ∨ ((envOf look src s).stmt x.toNat).kind = .p := by
        rcases hl with ⟨_, h2⟩ | ⟨_, h2⟩
        · exact Or.inl h2
        · exact Or.inr h2
      rcases hk with (hk | hk) | hk | hk <;> rw [hk] <;> simp
    exact ⟨(hb hn).1, (hb hn).2, hl⟩

theorem stepOk_legal {i : Nat} {x : Int} (h : Legal E i x) : StepOk E x ∧ -1000 < x := by
  rcases h with rfl | ⟨h1, h2, h3⟩
  · exact ⟨Or.inl rfl, by decide⟩
  · refine ⟨Or.inr (Or.inr ⟨h1, h2, ?_⟩), by omega⟩
    rcases h3 with ⟨_, h3 | h3⟩ | ⟨_, h3 | h3⟩ <;> simp [h3]

theorem normal_unk : NormalProof E [unk] := ⟨unk, nil, ⟨trivial, trivial, Or.inl rfl, arity_hyp (Or.inl (by decide))⟩, rfl, by intro y hy; rw [List.mem_singleton] at hy; subst hy; decide⟩

/-- What `getProof` returns stands for a proof without references of legal steps. -/
theorem stored_of_parse (h : Accepted src s) (hl : LookOk look) {i W : Nat} (hp : kindAt (kinds src) i = .p) {sec : List Char} {secLen : Nat} {r : Parsed}
    (hr : parseProofText (envOf look src s) W i sec secLen = .val r) : ∃ p, Stored (envOf look src s) i (getProof r) p := by
  have hk := hypKinds_of_parse (look := look) h hp
  by_cases h2 : r.ret > 1
  · have e : getProof r = [unk] := by unfold getProof; rw [if_pos h2]
    rw [e]
    have hE := normal_expands (E := envOf look src s) normal_unk
    refine ⟨[unk], fun fuel hf => C21_unpack_references ?_ ?_ hE hf, hE, normal_unk, ?_, ⟨fun h => absurd h (by decide), trivial⟩, fun x hx => by rw [List.mem_singleton] at hx; subst hx; exact Or.inl rfl⟩
    · intro x hx; rw [List.mem_singleton] at hx; subst hx; exact Or.inl rfl
    · intro x hx hx1; rw [List.mem_singleton] at hx; subst hx; exact absurd hx1 (by decide)
    · intro x hx; rw [List.mem_singleton] at hx; subst hx; exact Or.inl rfl
  · have e : getProof r = r.proof := by unfold getProof; rw [if_neg h2]
    obtain ⟨hL, hB, hD, _⟩ := (parseProofText_ok (E := envOf look src s) hl hk hr).1 (by omega)
    have hN := parseProofText_noChain (E := envOf look src s) hl hk hr (by omega)
    have hleg := legal_of h hL hD
    have hok : ∀ x ∈ r.proof, StepOk (envOf look src s) x := fun x hx => by
      rcases hleg x hx with h1 | h1
      · exact Or.inr (Or.inl h1)
      · exact (stepOk_legal h1).1
    obtain ⟨st, rec, h3, h4, h5⟩ := run_of_depth hD hB hok
    obtain ⟨p, rfl⟩ := List.length_eq_one_iff.1 h4
    have hE : Expands (envOf look src s) r.proof p := ⟨rec, h3⟩
    rw [e]
    refine ⟨p, fun fuel hf => C21_unpack_references hok hN hE hf, hE, ?_, ?_, hB, hok⟩
    · exact (run_normal hok (by simp) (by simp) h3).1 p (by simp)
    · intro x hx
      obtain ⟨h6, h7⟩ := h5 p (by simp) x hx
      rcases hleg x h6 with h8 | h8
      · omega
      · exact h8

/-- A stored proof is a proper source. -/
theorem Stored.srcOk (h : Accepted src s) {i : Nat} (hp : kindAt (kinds src) i = .p) {q p : List Int} (hS : Stored (envOf look src s) i q p) : SrcOk (envOf look src s) i p := by
  refine ⟨hS.normal, ?_, ?_⟩
  · intro hi
    rcases hS.legal _ hi with h1 | ⟨_, _, ⟨_, h1⟩ | ⟨h1, _⟩⟩
    · unfold unk at h1; omega
    · rw [Int.toNat_natCast, kind_env h, hp] at h1; simp at h1
    · rw [Int.toNat_natCast] at h1; omega
  · intro y hy h0 he
    rcases hS.legal _ hy with rfl | ⟨_, _, ⟨h1, _⟩ | ⟨_, h1⟩⟩
    · exact absurd h0 (by decide)
    · obtain ⟨h2, _⟩ := (mem_hyps_iff (look := look) h hp _).mp h1
      exact ((C12_mandatory_hyps h (Or.inr hp)).2.1 _).2 ⟨h2, Or.inl (by rw [← kind_env (look := look) h]; exact he)⟩
    · rw [he] at h1; simp at h1

end MM.Expd
