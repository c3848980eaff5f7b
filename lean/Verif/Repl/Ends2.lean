import Verif.Repl.Ends
/-!
# `replaceStatement` ends: the backtracking over the hypotheses
-/
namespace MM.Repl
open MM.Veri MM.Proof MM.Data MM.Tree MM.Pfas MM.Impr MM.Spec
open MM.Pfas.AF MM.Pfas.Cx
open MM.Unif (Cfg SV SVH ResH makeSubst unifyH unifyHNext HCalls Calls bind_inv NextT hcalls_acc Proper)

variable {X : Impr.Ctx} {R : Range} {i : Nat} {v : SV} {ord : List Nat} {nE : Nat} {hs : List (List Nat)}

/-- What is fixed during the loop over the hypotheses. -/
structure Sit (X : Impr.Ctx) (R : Range) (i : Nat) (v : SV) (ord : List Nat) (nE : Nat) (hs : List (List Nat)) (A m : List Nat) : Prop where
  rdy : Rdy X
  pip : PipOk X
  try' : Try X R
  nodup : ord.Nodup
  len : nE ≤ ord.length
  strs : ∀ j < ord.length, hs.getD (ord.getD j 0) [] ≠ [] ∧ X.E.sep ∉ hs.getD (ord.getD j 0) []
  kE : ∀ p < nE, (X.E.stmt ((X.E.stmt i).reqHyp.getD (ord.getD p 0) 0)).kind = .e
  kF : ∀ p, nE ≤ p → p < ord.length → (X.E.stmt ((X.E.stmt i).reqHyp.getD (ord.getD p 0) 0)).kind = .f
  prop : Proper X.C A m
  calls : Calls X.C A m (fun _ => True) v

variable {A m : List Nat}

/-- The substitutions together exist. -/
theorem wcomp (S : Sit X R i v ord nE hs A m) {σ : Nat → Slot} : ∀ k ≤ nE, (∀ q < k, At X R v ord nE hs σ q) →
    ∃ T : Nat → List Nat, (∀ l, ∃ f, (makeSubst X.C v l >>= fun r => substs X.C σ (ord.take k) r) = .val (inst X.E T l, f)) ∧ ∀ y, X.E.sep < y → X.E.sep ∉ T y ∧ T y ≠ []
  | 0, _, _ => by
    obtain ⟨ρ, r1, r2, r3⟩ := sv_inst S.rdy S.prop S.calls
    refine ⟨ρ, fun l => ?_, r3⟩
    obtain ⟨f, hf⟩ := r1 l
    exact ⟨f, by rw [hf]; rfl⟩
  | k + 1, hk, hat => by
    obtain ⟨T, h1, h2⟩ := wcomp S k (by omega) fun q hq => hat q (by omega)
    have hlen := S.len
    obtain ⟨mm, a1, a2 | a2⟩ := hat k (by omega)
    swap
    · omega
    unfold hypStr at a1
    rw [Nat.min_eq_left (by omega)] at a1
    obtain ⟨f, hf⟩ := h1 (hs.getD (ord.getD k 0) [])
    rw [hf] at a1
    obtain rfl := Out.val.inj a1
    obtain ⟨t, w, l, e1, e2, e3, e4, e5, e6, e7, e8⟩ := a2.ex
    dsimp only at e5 e8
    have hprop := S.rdy.fits.proper e5 e4 (inst_ns (fun y hy => (h2 y hy).1) (S.strs k (by omega)).2) (test_ns S.rdy e1)
    obtain ⟨ρ, r1, r2, r3⟩ := sv_inst S.rdy hprop (calls_of hprop e8)
    have hcomp : ∀ l, inst X.E ρ (inst X.E T l) = inst X.E (fun y => inst X.E ρ (T y)) l := fun l => MM.Unif.inst_comp _ _ _ _
    refine ⟨fun y => inst X.E ρ (T y), ?_, ?_⟩
    · intro l
      obtain ⟨g, hg⟩ := h1 l
      have et : ord.take (k + 1) = ord.take k ++ [ord.getD k 0] := by
        rw [List.take_succ_eq_append_getElem (by omega), List.getD_eq_getElem _ _ (by omega)]
      have : (makeSubst X.C v l >>= fun r => substs X.C σ (ord.take (k + 1)) r) =
          (makeSubst X.C v l >>= fun r => substs X.C σ (ord.take k) r) >>= fun r => substs X.C σ [ord.getD k 0] r := by
        rw [et]
        cases makeSubst X.C v l with
        | val x => exact substs_append
        | _ => rfl
      rw [this, hg, Out.bind_val, substs, e3]
      obtain ⟨g', hg'⟩ := r1 (inst X.E T l)
      refine ⟨g', ?_⟩
      show (makeSubst X.C w.sv (inst X.E T l) >>= fun r => substs X.C σ [] r) = _
      rw [hg', Out.bind_val, hcomp]
      rfl
    · intro y hy
      exact ⟨inst_ns (fun z hz => (r3 z hz).1) (h2 y hy).1, inst_ne (fun z hz => (r3 z hz).2) (h2 y hy).2⟩

theorem hyp_val (S : Sit X R i v ord nE hs A m) {σ : Nat → Slot} {p : Nat} (hp : p < ord.length) (hat : ∀ q < p, At X R v ord nE hs σ q) :
    ∃ r, hypStr X.C v ord nE hs σ p = .val r ∧ r.1 ≠ [] ∧ X.E.sep ∉ r.1 := by
  obtain ⟨T, h1, h2⟩ := wcomp S (min p nE) (by omega) fun q hq => hat q (by omega)
  obtain ⟨f, hf⟩ := h1 (hs.getD (ord.getD p 0) [])
  exact ⟨_, hf, inst_ne (fun y hy => (h2 y hy).2) (S.strs p hp).1, inst_ns (fun y hy => (h2 y hy).1) (S.strs p hp).2⟩

/-- The slots of the positions below `p` are the same. -/
def Agree (ord : List Nat) (p : Nat) (σ τ : Nat → Slot) : Prop := ∀ q < p, σ (ord.getD q 0) = τ (ord.getD q 0)

theorem hypStr_agree {C : Cfg} {σ τ : Nat → Slot} {p : Nat} (hp : p < ord.length) (h : Agree ord p σ τ) : hypStr C v ord nE hs σ p = hypStr C v ord nE hs τ p := by
  unfold hypStr
  congr 1
  funext r
  apply substs_congr
  intro j hj
  obtain ⟨k, hk⟩ := List.getElem?_of_mem hj
  obtain ⟨h1, h2⟩ := List.getElem?_eq_some_iff.mp hk
  rw [List.length_take] at h1
  rw [List.getElem_take, ← List.getD_eq_getElem _ 0 (by omega)] at h2
  rw [← h2]
  exact h k (by omega)

theorem tryHyp_ends (S : Sit X R i v ord nE hs A m) {σ : Nat → Slot} {p : Nat} (hp : p < ord.length) (hI : Inv X R v ord nE hs p σ) {w : List Nat × Bool}
    (hw : hypStr X.C v ord nE hs σ p = .val w) (hm : w.1 ≠ [] ∧ X.E.sep ∉ w.1) :
    ∃ N r, (∀ n, N ≤ n → tryHyp X n R i v ord nE hs p σ = .val r) ∧ (∀ j, j ≠ ord.getD p 0 → r.2 j = σ j) ∧
      (r.1 = true → (σ (ord.getD p 0)).flag = 1 ∨ (σ (ord.getD p 0)).flag = 2 ∧ Later X R w (r.2 (ord.getD p 0)) (σ (ord.getD p 0))) := by
  have upds : ∀ (s : Slot) j, j ≠ ord.getD p 0 → upd σ (ord.getD p 0) s j = σ j := fun s j hj => by unfold upd; rw [if_neg hj]
  have updp : ∀ s : Slot, upd σ (ord.getD p 0) s (ord.getD p 0) = s := fun s => by unfold upd; rw [if_pos rfl]
  have c1 : ¬ (p < nE ∧ (X.E.stmt ((X.E.stmt i).reqHyp.getD (ord.getD p 0) 0)).kind ≠ .e) := fun h => h.2 (S.kE p h.1)
  have c2 : ¬ (nE ≤ p ∧ (X.E.stmt ((X.E.stmt i).reqHyp.getD (ord.getD p 0) 0)).kind ≠ .f) := fun h => h.2 (S.kF p h.1 hp)
  have hcur : (σ (ord.getD p 0)).flag = 1 ∨ Match X R w (σ (ord.getD p 0)) ∨ (σ (ord.getD p 0)).flag = 3 := by
    rcases hI.cur hp with h | ⟨w', h1, h | h⟩
    · exact Or.inl h
    · rw [hw] at h1
      obtain rfl := Out.val.inj h1
      exact Or.inr (Or.inl h)
    · exact Or.inr (Or.inr h.2.flag)
  have c3 : ¬ ((σ (ord.getD p 0)).flag < 1 ∨ 3 < (σ (ord.getD p 0)).flag) := by
    rcases hcur with h | h | h
    · omega
    · have := h.flag; omega
    · omega
  -- the result of the scan
  have key : ∃ N r, (∀ n, N ≤ n → (if (σ (ord.getD p 0)).flag = 3 then .val (false, { σ (ord.getD p 0) with flag := 1 }) else
        scan X n R w.1 w.2 (total X R - (if (σ (ord.getD p 0)).flag = 2 then (σ (ord.getD p 0)).step else 0)) (if (σ (ord.getD p 0)).flag = 2 then (σ (ord.getD p 0)).step else 0)
          (σ (ord.getD p 0))) = .val r) ∧ (r.1 = true → (σ (ord.getD p 0)).flag = 1 ∨ (σ (ord.getD p 0)).flag = 2 ∧ Later X R w r.2 (σ (ord.getD p 0))) := by
    by_cases c : (σ (ord.getD p 0)).flag = 3
    · exact ⟨0, _, fun n _ => by rw [if_pos c], fun h => by cases h⟩
    · rcases hcur with h | h | h
      · obtain ⟨N, o, h1, _⟩ := scan_ends S.rdy S.try' hm (total X R) 0 (σ (ord.getD p 0)) (by omega) (Or.inl h)
        refine ⟨N, o, fun n hn => ?_, fun _ => Or.inl h⟩
        rw [if_neg c, if_neg (by omega)]
        exact h1 n hn
      · obtain ⟨N, o, h1, h2⟩ := scan_ends S.rdy S.try' hm (total X R - (σ (ord.getD p 0)).step) (σ (ord.getD p 0)).step (σ (ord.getD p 0)) (by have := h.lt; omega) (Or.inr ⟨h, rfl⟩)
        refine ⟨N, o, fun n hn => ?_, fun ho => Or.inr ⟨h.flag, (h2 ho).2 h.flag⟩⟩
        rw [if_neg c, if_pos h.flag]
        exact h1 n hn
      · exact absurd h c
  obtain ⟨N, r, h1, h2⟩ := key
  have e : ∀ n, N ≤ n → tryHyp X n R i v ord nE hs p σ = (if r.1 then .val (true, upd σ (ord.getD p 0) r.2)
    else if nE ≤ p ∧ (σ (ord.getD p 0)).flag = 1 ∧ (w.1.any fun t => decide (X.E.sep < t)) = false then
      proveFloating X n w.1 >>= fun q =>
      if q = [] then .val (false, upd σ (ord.getD p 0) r.2) else .val (true, upd σ (ord.getD p 0) { r.2 with flag := 3, proof := q })
    else .val (false, upd σ (ord.getD p 0) r.2)) := by
    intro n hn
    unfold tryHyp
    rw [hw, Out.bind_val, if_neg c1, if_neg c2, if_neg c3]
    have := h1 n hn
    unfold total at this
    dsimp only
    rw [this, Out.bind_val]
  by_cases c4 : r.1 = true
  · refine ⟨N, (true, upd σ (ord.getD p 0) r.2), fun n hn => by rw [e n hn, if_pos c4], upds _, fun _ => ?_⟩
    show _ ∨ _ ∧ Later X R w (upd σ (ord.getD p 0) r.2 (ord.getD p 0)) _
    rw [updp]
    exact h2 c4
  by_cases c5 : nE ≤ p ∧ (σ (ord.getD p 0)).flag = 1 ∧ (w.1.any fun t => decide (X.E.sep < t)) = false
  · obtain ⟨f, hr, hA, _⟩ := S.pip
    have hstr : Str X.E w.1 := by
      refine ⟨hm.1, fun t ht => ?_⟩
      have h3 := List.any_eq_false.mp c5.2.2 t ht
      have h4 : t ≠ X.E.sep := fun h => hm.2 (h ▸ ht)
      have h3 : ¬ X.E.sep < t := by simpa using h3
      omega
    obtain ⟨N', q, hq⟩ := search_ends S.rdy.ready hr (hA.mono fun _ _ => NodeOk.shape) 40 w.1 ⟨0, false⟩ hstr
    have hpf : ∀ n, N' ≤ n → proveFloating X n w.1 = .val q.1 := fun n hn => by unfold proveFloating; rw [hq n hn]; rfl
    by_cases c6 : q.1 = []
    · exact ⟨max N N', (false, upd σ (ord.getD p 0) r.2), fun n hn => by rw [e n (by omega), if_neg c4, if_pos c5, hpf n (by omega), Out.bind_val, if_pos c6], upds _, fun h => by cases h⟩
    · exact ⟨max N N', (true, upd σ (ord.getD p 0) { r.2 with flag := 3, proof := q.1 }), fun n hn => by rw [e n (by omega), if_neg c4, if_pos c5, hpf n (by omega), Out.bind_val, if_neg c6],
        upds _, fun _ => Or.inl c5.2.1⟩
  · exact ⟨N, (false, upd σ (ord.getD p 0) r.2), fun n hn => by rw [e n hn, if_neg c4, if_neg c5], upds _, fun h => by cases h⟩

/-- The loop over the hypotheses ends. -/
def Ends (X : Impr.Ctx) (R : Range) (i : Nat) (v : SV) (ord : List Nat) (nE : Nat) (hs : List (List Nat)) (p : Nat) (σ : Nat → Slot) : Prop :=
  ∃ N o, ∀ n f, N ≤ n → N ≤ f → hypsLoop X n R i v ord nE hs f p σ = .val o

theorem ends_try {σ : Nat → Slot} {p : Nat} (hp : p < ord.length) {N : Nat} {r : Bool × (Nat → Slot)} (h : ∀ n, N ≤ n → tryHyp X n R i v ord nE hs p σ = .val r)
    (h1 : r.1 = true → Ends X R i v ord nE hs (p + 1) r.2) (h2 : r.1 = false → p = 0 ∨ Ends X R i v ord nE hs (p - 1) r.2) : Ends X R i v ord nE hs p σ := by
  have e : ∀ n f, N ≤ n → hypsLoop X n R i v ord nE hs (f + 1) p σ = (if r.1 then hypsLoop X n R i v ord nE hs f (p + 1) r.2
      else if p = 0 then .val (false, r.2) else hypsLoop X n R i v ord nE hs f (p - 1) r.2) := by
    intro n f hn
    rw [hypsLoop, if_neg (by omega), h n hn, Out.bind_val]
  have fin : ∀ {p' : Nat}, Ends X R i v ord nE hs p' r.2 → (∀ n f, N ≤ n → hypsLoop X n R i v ord nE hs (f + 1) p σ = hypsLoop X n R i v ord nE hs f p' r.2) → Ends X R i v ord nE hs p σ := by
    rintro p' ⟨M, o, ho⟩ h3
    refine ⟨max N (M + 1), o, fun n f hn hf => ?_⟩
    obtain ⟨f, rfl⟩ := Nat.exists_eq_succ_of_ne_zero (show f ≠ 0 by omega)
    rw [Nat.succ_eq_add_one, h3 n f (by omega)]
    exact ho n f (by omega) (by omega)
  by_cases c : r.1 = true
  · exact fin (h1 c) fun n f hn => by rw [e n f hn, if_pos c]
  · have c' : r.1 = false := by simpa using c
    by_cases c0 : p = 0
    · refine ⟨N + 1, (false, r.2), fun n f hn hf => ?_⟩
      obtain ⟨f, rfl⟩ := Nat.exists_eq_succ_of_ne_zero (show f ≠ 0 by omega)
      rw [Nat.succ_eq_add_one, e n f (by omega), if_neg c, if_pos c0]
    · exact fin ((h2 c').resolve_left c0) fun n f hn => by rw [e n f hn, if_neg c, if_neg c0]

theorem advance (S : Sit X R i v ord nE hs A m) : ∀ (k p : Nat), p + k = ord.length → ∀ σ, Pre X R v ord nE hs p σ →
    (∀ τ, Pre X R v ord nE hs p τ → Agree ord p τ σ → p = 0 ∨ Ends X R i v ord nE hs (p - 1) τ) → Ends X R i v ord nE hs p σ
  | 0, p, hp, σ, _, _ => by
    refine ⟨1, (true, σ), fun n f _ hf => ?_⟩
    obtain ⟨f, rfl⟩ := Nat.exists_eq_succ_of_ne_zero (show f ≠ 0 by omega)
    rw [Nat.succ_eq_add_one, hypsLoop, if_pos (by omega)]
  | k + 1, p, hp, σ, hpre, hK => by
    have hpl : p < ord.length := by omega
    obtain ⟨w, w1, w2⟩ := hyp_val S hpl hpre.below
    have agr : ∀ {τ : Nat → Slot} {r : Bool × (Nat → Slot)}, (∀ j, j ≠ ord.getD p 0 → r.2 j = τ j) → Agree ord p r.2 τ := fun h q hq => h _ (getD_ne S.nodup (by omega) hpl (by omega))
    have re : ∀ s, Acc (Later X R w) s → ∀ τ, Pre X R v ord nE hs (p + 1) τ → Agree ord p τ σ → τ (ord.getD p 0) = s → Ends X R i v ord nE hs p τ := by
      intro s hacc
      induction hacc with
      | intro s _ ih =>
        intro τ ht hag hs1
        have hI := ht.back
        have hw : hypStr X.C v ord nE hs τ p = .val w := by rw [hypStr_agree hpl hag]; exact w1
        obtain ⟨N, r, r1, r2, r3⟩ := tryHyp_ends S hpl hI hw w2
        have hinv := tryHyp_inv S.nodup hpl hI (r1 N (Nat.le_refl _))
        have hag' : Agree ord p r.2 σ := fun q hq => (agr r2 q hq).trans (hag q hq)
        refine ends_try hpl r1 (fun h => ?_) (fun h => ?_)
        · rw [if_pos h] at hinv
          have hl : Later X R w (r.2 (ord.getD p 0)) s := by
            rcases r3 h with h3 | h3
            · obtain ⟨m', _, h4 | h4⟩ := ht.below p (by omega)
              · have := h4.flag; omega
              · have := h4.2.flag; omega
            · rw [← hs1]; exact h3.2
          refine advance S k (p + 1) (by omega) r.2 hinv fun τ' h1 h2 => Or.inr ?_
          exact ih _ hl τ' h1 (fun q hq => (h2 q (by omega)).trans (hag' q hq)) (h2 p (by omega))
        · rw [if_neg (by simp [h])] at hinv
          exact hK r.2 hinv hag'
    obtain ⟨N, r, r1, r2, r3⟩ := tryHyp_ends S hpl hpre.inv w1 w2
    have hinv := tryHyp_inv S.nodup hpl hpre.inv (r1 N (Nat.le_refl _))
    refine ends_try hpl r1 (fun h => ?_) (fun h => ?_)
    · rw [if_pos h] at hinv
      exact advance S k (p + 1) (by omega) r.2 hinv fun τ' h1 h2 => Or.inr
        (re _ (later_acc S.rdy w2.2 _) τ' h1 (fun q hq => (h2 q (by omega)).trans (agr r2 q hq)) rfl)
    · rw [if_neg (by simp [h])] at hinv
      exact hK r.2 hinv (agr r2)

/-- The loop over the hypotheses ends, and its proofs are not empty. -/
theorem hypsLoop_ends (S : Sit X R i v ord nE hs A m) {σ : Nat → Slot} (hf : ∀ p < ord.length, (σ (ord.getD p 0)).flag = 1) :
    ∃ N o, (∀ n, N ≤ n → hypsLoop X n R i v ord nE hs n 0 σ = .val o) ∧ (if o.1 then ∀ p < ord.length, (o.2 (ord.getD p 0)).proof ≠ [] else ∀ p < ord.length, (o.2 (ord.getD p 0)).flag = 1) := by
  have hpre : Pre X R v ord nE hs 0 σ := ⟨fun q hq => by omega, fun q _ hq => hf q hq⟩
  obtain ⟨N, o, h⟩ := advance S ord.length 0 (by omega) σ hpre fun _ _ _ => Or.inl rfl
  refine ⟨N, o, fun n hn => h n n hn hn, ?_⟩
  have hinv := hypsLoop_inv S.nodup (Nat.zero_le _) hpre.inv (h N N (Nat.le_refl _) (Nat.le_refl _))
  by_cases c : o.1 = true
  · rw [if_pos c] at hinv ⊢
    intro p hp
    obtain ⟨w, _, h1 | h1⟩ := hinv.below p hp
    · obtain ⟨t, q, _, _, q1, q2⟩ := S.try' _ h1.lt
      obtain ⟨t', _, _, _, e2, _⟩ := h1.ex
      rw [q1] at e2
      rw [← Out.val.inj e2]; exact q2
    · exact h1.2.ne
  · rw [if_neg c] at hinv ⊢
    exact fun p hp => hinv.above p (Nat.zero_le _) hp

end MM.Repl
