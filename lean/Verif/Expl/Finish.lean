import Verif.Expl.Run
import Verif.Tree.Expand
/-!
# The end of the parsing of an explicit proof
-/
namespace MM.Expl
open MM.Veri MM.Pars MM.Proof MM.Data MM.Tree MM.Pfas

variable {E : Env} {p : Nat}

/-- A proof that the machine of packed proofs accepts uses the stack correctly and refers back. -/
theorem depth_of_run {P : List Int} : ∀ {st sv : List (List Int)}, expandRun E P ([], []) = some (st, sv) → (∀ x ∈ P, StepOk E x) → Depth E.toDb P st.length ∧ BackOk 0 P := by
  induction P using List.reverseRecOn with
  | nil => intro st sv h _; cases h; exact ⟨.nil, trivial⟩
  | append_singleton P x ih =>
    intro st sv h hok
    obtain ⟨⟨s1, v1⟩, h1, h2⟩ := run_split h
    rw [run_one] at h2
    obtain ⟨hd, hb⟩ := ih h1 (fun y hy => hok y (List.mem_append_left _ hy))
    have hlen := run_len h1
    have hx := hok x (by simp)
    unfold expandStep at h2
    dsimp only at h2
    by_cases hc : x ≤ -1000
    · rw [if_pos hc] at h2
      cases hg : v1[(-1000 - x).toNat]? with
      | none => rw [hg] at h2; cases h2
      | some b =>
        rw [hg] at h2
        cases h2
        refine ⟨.push hd (Or.inr (Or.inl hc)), backOk_append hb fun _ => ?_⟩
        have := (List.getElem?_eq_some_iff.1 hg).1
        omega
    · rw [if_neg hc] at h2
      refine ⟨?_, backOk_append hb fun h3 => absurd h3 hc⟩
      by_cases ha : arity E x ≤ s1.length
      · rw [if_pos ha] at h2
        cases h2
        rw [List.length_cons, List.length_drop]
        rcases hx with hx | hx | ⟨h3, h4, h5⟩
        · have : arity E x = 0 := by rw [hx]; unfold arity; rw [if_neg (fun h => absurd h.1 (by decide))]
          rw [this]; exact .push hd (Or.inl hx)
        · exact absurd hx hc
        · by_cases hk : (E.stmt x.toNat).kind = .a ∨ (E.stmt x.toNat).kind = .p
          · have : arity E x = (E.stmt x.toNat).reqHyp.length := by unfold arity; rw [if_pos ⟨by omega, hk⟩]
            rw [this] at ha ⊢
            exact .use hd (by omega) hk ha
          · have : arity E x = 0 := by unfold arity; rw [if_neg (fun h => hk h.2)]
            rw [this]
            refine .push hd (Or.inr (Or.inr ⟨by omega, ?_⟩))
            rcases h5 with h | h | h | h
            · exact Or.inr h
            · exact Or.inl h
            · exact absurd (Or.inl h) hk
            · exact absurd (Or.inr h) hk
      · rw [if_neg ha] at h2; cases h2

/-- What is proved about the parsed proof `P` of an explicit proof with the steps `w`, which stands for `l`. -/
structure Final (E : Env) (p : Nat) (w : List Int) (P : List Int) (l : List Int) : Prop where
  expands : Expands E P l
  len : P.length = w.length
  ok : ∀ x ∈ P, StepOk E x
  legal : LegalRefs E.toDb p P
  back : BackOk 0 P
  depth : Depth E.toDb P 1
  unk : unk ∈ P → unk ∈ w
  norefs : (∀ x ∈ w, -1000 < x) → P = l

theorem WI.start {T : List Name} {r e : Nat} : WI E T [] ⟨⟨[], 0, r, e⟩, [], (List.range T.length).map Int.ofNat⟩ [] [] [] where
  proof := rfl
  old := by rw [List.range_eq_range']; simp [cat, ids]
  perm := by simp [cat]
  pos := trivial
  stack := rfl
  sp := rfl
  mst := rfl
  rlen := rfl
  blk := by simp
  len := by simp

theorem mem_zip_range {w : List Int} {i : Nat} {x : Int} : (i, x) ∈ (List.range w.length).zip w ↔ w[i]? = some x := by
  rw [List.mem_iff_getElem?]
  constructor
  · rintro ⟨n, hn⟩
    rw [List.getElem?_zip_eq_some] at hn
    obtain ⟨h1, h2⟩ := hn
    have := List.getElem?_eq_some_iff.1 h1
    obtain ⟨h3, h4⟩ := this
    rw [List.getElem_range] at h4
    dsimp only at h2 h4
    rw [← h4]; exact h2
  · intro h
    refine ⟨i, ?_⟩
    rw [List.getElem?_zip_eq_some]
    have := (List.getElem?_eq_some_iff.1 h).1
    exact ⟨by rw [List.getElem?_range this], h⟩

theorem finish_ok {T : List Name} {w : List Int} {X : XWalk} {st : List (Name × List Int)} {rec : List (List Int)} {bs : List Bk} (hI : WI E T w X st rec bs) (hT : w.length = T.length) (hsp : X.sp = 1)
    (hn : NoChain w) (hl : LegalRefs E.toDb p w) : ∃ t l F P, st = [(t, l)] ∧ Final E p w P l ∧ ∀ fuel r e, F ≤ fuel → finish E fuel true w.length X r e = .val ⟨P, r, e⟩ := by
  obtain ⟨b, hb⟩ : ∃ b, bs = [b] := by
    have h1 := hI.sp
    rw [hsp] at h1
    exact List.length_eq_one_iff.1 h1.symm
  subst hb
  have hG : cat [b].reverse = b.1 := by simp [cat]
  have hblk := hI.blk rec (List.prefix_refl _) b (by simp)
  have hperm := hI.perm
  rw [hG] at hperm
  have hrun : crun E rec b.1 [] = some [rec.getD b.2 []] := blk_run hblk []
  have hmem : ∀ i x, (i, x) ∈ b.1 ↔ w[i]? = some x := fun i x => by rw [hperm.mem_iff, mem_zip_range]
  have hfst : (b.1.map Prod.fst).Perm (List.range w.length) := by
    refine (hperm.map Prod.fst).trans ?_
    rw [List.map_fst_zip (by simp)]
  have hJ : J E b.1 := by
    refine ⟨?_, blk_ok hblk, ?_⟩
    · exact hfst.nodup_iff.2 List.nodup_range
    · rintro ⟨i, x⟩ hg hx
      have h1 := (hmem i x).1 hg
      obtain ⟨y, h2, h3⟩ := hn x (List.mem_of_getElem? h1) hx
      exact ⟨y, (hmem _ _).2 h2, h3⟩
  obtain ⟨F, G', g1, g2, g3, g4⟩ := moveLoop_ok (E := E) (ρ := rec) (b.1.length + 1) 0 hJ hrun (by intro A a B S C _ _ _; left; omega)
  have hJ' := hJ.perm g1
  have hexp := expand_ok hJ' g2 g3
  have hlen : b.1.length = w.length := by rw [hperm.length_eq]; simp
  have hok : ∀ x ∈ renG G', StepOk E x := by
    intro x hx
    obtain ⟨g, hg, rfl⟩ := List.mem_map.1 hx
    by_cases hc : g.2 ≤ -1000
    · exact Or.inr (Or.inl ((ren_map _ _).1 hc))
    · rw [(ren_map _ _).2 (by omega)]; exact hJ'.ok g hg
  have hsnd : ∀ x ∈ renG G', -1000 < x → x ∈ w := by
    intro x hx h0
    obtain ⟨g, hg, rfl⟩ := List.mem_map.1 hx
    have hc : ¬ g.2 ≤ -1000 := fun hc => by have := (ren_map (G'.map Prod.fst) g.2).1 hc; omega
    rw [(ren_map _ _).2 (by omega)]
    exact List.mem_of_getElem? ((hmem g.1 g.2).1 (g1.mem_iff.1 hg))
  obtain ⟨hd, hbk⟩ := depth_of_run hexp hok
  have hst := hI.mst
  refine ⟨_, _, F, renG G', hst, ⟨⟨_, hexp⟩, ?_, hok, ?_, hbk, hd, fun h => hsnd _ h (by decide), ?_⟩, ?_⟩
  · unfold renG; rw [List.length_map, g1.length_eq, hlen]
  · intro ps hps h0
    exact hl ps (hsnd ps hps (by omega)) h0
  · intro hw
    have hnr : ∀ x ∈ renG G', -1000 < x := by
      intro x hx
      obtain ⟨g, hg, rfl⟩ := List.mem_map.1 hx
      have : -1000 < g.2 := hw _ (List.mem_of_getElem? ((hmem g.1 g.2).1 (g1.mem_iff.1 hg)))
      rw [(ren_map _ _).2 this]; exact this
    have key : ∀ (P : List Int) (st sv : List (List Int)) (st' sv' : List (List Int)), (∀ x ∈ P, -1000 < x) → expandRun E P (st, sv) = some (st', sv') → st'.reverse.flatten = st.reverse.flatten ++ P := by
      intro P
      induction P with
      | nil => intro st sv st' sv' _ h; cases h; simp
      | cons x P ih =>
        intro st sv st' sv' hP h
        have h' : (expandStep E (st, sv) x).bind (expandRun E P) = some (st', sv') := h
        unfold expandStep at h'
        dsimp only at h'
        have hx : ¬ x ≤ -1000 := by have := hP x (by simp); omega
        rw [if_neg hx] at h'
        by_cases ha : arity E x ≤ st.length
        · rw [if_pos ha, Option.bind_some] at h'
          have := ih _ _ _ _ (fun y hy => hP y (List.mem_cons_of_mem _ hy)) h'
          rw [this]
          have h5 : st.reverse.flatten = (st.drop (arity E x)).reverse.flatten ++ (st.take (arity E x)).reverse.flatten := by
            rw [← List.flatten_append, ← List.reverse_append, List.take_append_drop]
          rw [h5]
          simp
        · rw [if_neg ha] at h'; cases h'
    have := key _ _ _ _ _ hnr hexp
    simpa using this.symm
  · intro fuel r e hf
    have h1 := renumAll_ok hJ (num := w.length) hlen.symm hfst
    have h2 : X.old = (b.1.map Prod.fst).map Int.ofNat := by
      rw [hI.old, hG, hT, Nat.sub_self]; simp [ids]
    have h3 : X.proof = b.1.map Prod.snd := by rw [hI.proof, hG]; rfl
    unfold finish
    rw [if_pos rfl, h2, h3, h1, Out.bind_val, moveLoop_mono g4 hf, Out.bind_val]

end MM.Expl
