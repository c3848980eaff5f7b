import Verif.Tree.Squish
/-!
# `nmbrUnsquishProof` computes what a packed proof stands for (C21)
-/
namespace MM.Tree
open MM.Veri MM.Proof MM.Data Forest

variable {E : Env}

theorem unsquishLoop_ok : ∀ (n : Nat) (P Z : List Int) (st sv : List (List Int)), expandRun E P ([], []) = some (st, sv) → (∀ x ∈ P, StepOk E x) →
    (∀ x ∈ P, x ≤ -1000 → ∃ y, P[(-1000 - x).toNat]? = some y ∧ -1000 < y) → (expL sv P).length < n →
    unsquishLoop E n (P ++ Z) ((P.length : Int) - 1) = .val (expL sv P ++ Z)
  | 0, _, _, _, _, _, _, _, h => absurd h (Nat.not_lt_zero _)
  | n + 1, P, Z, st, sv, hrun, hok, htgt, hn => by
    unfold unsquishLoop
    rcases List.eq_nil_or_concat P with rfl | ⟨P0, x, rfl⟩
    · rw [if_pos (by simp)]; simp [expL]
    rw [List.concat_eq_append] at *
    have hstep : ((P0 ++ [x]).length : Int) - 1 = P0.length := by simp
    rw [hstep, if_neg (by omega), show P0 ++ [x] ++ Z = P0 ++ x :: Z by simp, rdN_append, Out.bind_val]
    obtain ⟨⟨st0, sv0⟩, r0, rx⟩ := run_split hrun
    rw [run_one] at rx
    obtain ⟨b, st', e⟩ := step_push rx
    cases e
    have hl0 := run_len r0
    have hrl0 := run_refs' r0
    have hpe : expL (sv0 ++ [b]) P0 = expL sv0 P0 := (expL_congr (List.prefix_append _ _) (by rw [hl0]; exact hrl0)).symm
    rw [expL_append, expL_single, hpe] at hn ⊢
    have htgt0 : ∀ z ∈ P0, z ≤ -1000 → ∃ y, P0[(-1000 - z).toNat]? = some y ∧ -1000 < y := by
      intro z hz hr
      obtain ⟨y, h1, h2⟩ := htgt z (by simp [hz]) hr
      rw [List.getElem?_append_left (hrl0 z hz hr)] at h1
      exact ⟨y, h1, h2⟩
    by_cases hx : x > -1000
    · rw [if_pos hx]
      have e1 : exp1 (sv0 ++ [b]) x = [x] := by unfold exp1; rw [if_neg (by omega)]
      rw [e1] at hn ⊢
      have := unsquishLoop_ok n P0 (x :: Z) st0 sv0 r0 (fun z hz => hok z (by simp [hz])) htgt0
        (by simp only [List.length_append, List.length_singleton] at hn; omega)
      rw [this]; simp
    · rw [if_neg hx]
      have hx : x ≤ -1000 := by omega
      have hlt := (step_ref hx rx).1
      simp only at hlt
      obtain ⟨i, hi⟩ : ∃ i : Nat, -1000 - x = i := ⟨(-1000 - x).toNat, by omega⟩
      have hit : (-1000 - x).toNat = i := by omega
      rw [hit] at hlt
      obtain ⟨y, hy1, hy2⟩ := htgt x (by simp) hx
      rw [hit, List.getElem?_append_left (by omega)] at hy1
      have hi0 : i < P0.length := by omega
      have hsp : P0 = P0.take i ++ y :: P0.drop (i + 1) := by
        conv_lhs => rw [← List.take_append_drop i P0]
        rw [List.drop_eq_getElem_cons hi0]
        rw [List.getElem?_eq_getElem hi0] at hy1; cases hy1; rfl
      have hyp := hy2
      have hrun0 := r0
      rw [hsp] at hrun0
      obtain ⟨l, ch, hW, hQ, hval⟩ := block_at (fun z hz => hok z (by rw [← hsp] at hz; simp [hz])) (by omega) hrun0
      have hQl : (P0.take i).length = i := by rw [List.length_take]; omega
      rw [hQl] at hval
      have hil : i = l.length + ch.flat.length := by rw [← hQl, hQ, List.length_append]
      have hnp : P0 ++ x :: Z = l ++ ch.flat ++ y :: (P0.drop (i + 1) ++ x :: Z) := by
        conv_lhs => rw [hsp, hQ]
        simp
      have hsl := subLen_tree (A := P0 ++ x :: Z) hW hnp
      have ei : -1000 - x = (l.length : Int) + ch.flat.length := by omega
      rw [ei, hsl, Out.bind_val, left_append _ _ rfl, Out.bind_val, seg_tree hnp (by omega) rfl, Out.bind_val]
      have hrt : nmbrRight (P0 ++ x :: Z) ((P0.length : Int) + 2) = Z := by
        rw [show P0 ++ x :: Z = (P0 ++ [x]) ++ Z by simp]
        exact right_append _ _ (by simp; omega)
      rw [hrt]
      have hchP : ∀ z ∈ ch.flat, z ∈ P0 := by
        intro z hz
        rw [hsp, hQ]; simp [hz]
      obtain ⟨m, hm⟩ := run_ok (E := E) (st := st0) (sv := sv0) hW.2.1 (by intro z hz hr; rw [hl0]; exact hrl0 z (hchP z hz) hr)
      have hrunN := run_join r0 hm
      have hexp1 : exp1 (sv0 ++ [b]) x = expL sv0 ch.flat ++ [y] := by
        unfold exp1; rw [if_pos hx, hit, List.getD_append _ _ _ _ hlt, hval]
      have hexpN : expL (sv0 ++ m) (P0 ++ ch.flat) = expL sv0 P0 ++ expL sv0 ch.flat := by
        rw [← expL_congr (ρ := sv0) (List.prefix_append _ _) (by
          rw [hl0]; exact hrl0.app (fun z hz hr => hrl0 z (hchP z hz) hr)), expL_append]
      have ih := unsquishLoop_ok n (P0 ++ ch.flat) (y :: Z) _ _ hrunN
        (by
          intro z hz
          rcases List.mem_append.1 hz with hz | hz
          · exact hok z (by simp [hz])
          · exact hok z (by simp [hchP z hz]))
        (by
          intro z hz hr
          have hz0 : z ∈ P0 := by
            rcases List.mem_append.1 hz with hz | hz
            · exact hz
            · exact hchP z hz
          obtain ⟨w, h1, h2⟩ := htgt0 z hz0 hr
          exact ⟨w, by rw [List.getElem?_append_left (hrl0 z hz0 hr)]; exact h1, h2⟩)
        (by rw [hexpN]; rw [hexp1] at hn; simp only [List.length_append, List.length_singleton] at hn ⊢; omega)
      have e3 : P0 ++ (tree y ch).flat ++ Z = P0 ++ ch.flat ++ y :: Z := by simp [tree, flat]
      have e4 : (P0.length : Int) + ((ch.flat.length : Int) + 1) - 1 - 1 = ((P0 ++ ch.flat).length : Int) - 1 := by rw [List.length_append]; omega
      rw [e3, e4, ih, hexpN, hexp1]
      simp

/-- **C21** (unpacking, general form).  Unpacking a packed proof none of whose references is to a reference gives the proof it stands for. -/
theorem C21_unpack_references {q p : List Int} (hok : ∀ x ∈ q, StepOk E x) (hr : ∀ x ∈ q, x ≤ -1000 → ∃ y, q[(-1000 - x).toNat]? = some y ∧ -1000 < y)
    (h : Expands E q p) {fuel : Nat} (hf : p.length < fuel) : unsquish E fuel q = .val p := by
  obtain ⟨rec, hrun⟩ := h
  obtain ⟨g, hg, hgf, hge⟩ := run_forest (E := E) (l := q) (f := nil) (st := []) (sv := []) trivial hok (fun _ _ => rfl) hrun
  have hp : expL rec q = p := by
    have := entries_flatten rec g
    simp only at hge
    rw [← hge, hgf] at this
    simpa [flat] using this.symm
  have := unsquishLoop_ok fuel q [] [p] rec hrun hok hr (by rw [hp]; exact hf)
  unfold unsquish
  rw [List.append_nil, List.append_nil, hp] at this
  exact this

/-- **C21** (unpacking).  Unpacking a packed proof whose references are to earlier assertion steps gives the proof it stands for. -/
theorem C21_unpack_gives_meaning {q p : List Int} (hok : ∀ x ∈ q, StepOk E x) (hr : RefsOk E q) (h : Expands E q p) {fuel : Nat} (hf : p.length < fuel) :
    unsquish E fuel q = .val p := by
  refine C21_unpack_references hok ?_ h hf
  intro x hx hxr
  obtain ⟨k, hk⟩ := List.getElem?_of_mem hx
  obtain ⟨i, y, h1, _, h3, h4⟩ := hr k x hk hxr
  refine ⟨y, ?_, by have := arity_pos_gt h4; omega⟩
  rw [h1, show (-1000 - (-1000 - (i : Int))).toNat = i by omega]; exact h3

/-- **C21**.  Packing a normal proof and unpacking the result gives the proof back; the packed proof is not longer. -/
theorem C21_pack_unpack {p : List Int} (h : NormalProof E p) {fuel : Nat} (hf : p.length < fuel) :
    ∃ q, squish E p = .val q ∧ q.length ≤ p.length ∧ unsquish E fuel q = .val p := by
  obtain ⟨q, h1, h2, h3, h4, h5⟩ := C21_pack_keeps_meaning h
  exact ⟨q, h1, h2, C21_unpack_gives_meaning h5 h4 h3 hf⟩

end MM.Tree
