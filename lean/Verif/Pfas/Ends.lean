import Verif.Pfas.Concrete
import Mathlib.Data.List.Dedup
import Mathlib.Data.List.Perm.Subperm

/-!
# `autoUnify` ends
-/
namespace MM.Pfas
open MM.Veri MM.Proof MM.Data MM.Tree AF
open MM.Unif (Cfg Proper bind_inv)
variable {P : Node → List (List Nat) → Prop} {E : Env} {U : Unifier} {C : Cfg}

/-- The strings of a proof in progress. -/
def strs (p : Pip) : List (List Nat) := p.target ++ p.source ++ p.user

/-- No string holds the separator. -/
def NoSep (E : Env) (p : Pip) : Prop := ∀ m ∈ strs p, E.sep ∉ m

/-- The dummy variables in the strings. -/
def dums (E : Env) (p : Pip) : List Nat := ((strs p).flatten.filter fun t => decide (E.sep < t)).dedup

theorem mem_dums {p : Pip} {y : Nat} : y ∈ dums E p ↔ E.sep < y ∧ ∃ m ∈ strs p, y ∈ m := by
  unfold dums
  rw [List.mem_dedup, List.mem_filter, List.mem_flatten]
  simp only [decide_eq_true_eq]
  exact And.comm

theorem strs_subst (τ : Nat → List Nat) (p : Pip) : strs (makeSubstAll E τ p) = (strs p).map (inst E τ) := by
  have e : ∀ m : List Nat, (if m ≠ [] then inst E τ m else m) = inst E τ m := by
    intro m
    by_cases h : m = []
    · subst h; rfl
    · rw [if_pos h]
  unfold strs makeSubstAll
  simp only [e, List.map_append]

theorem mem_inst {τ : Nat → List Nat} {m : List Nat} {y : Nat} : y ∈ inst E τ m ↔ ∃ t ∈ m, (E.sep < t ∧ y ∈ τ t) ∨ (t ≤ E.sep ∧ y = t) := by
  unfold inst MM.Unif.inst
  rw [List.mem_flatMap]
  constructor
  · rintro ⟨t, ht, h⟩
    refine ⟨t, ht, ?_⟩
    by_cases hs : E.sep < t
    · rw [if_pos hs] at h; exact Or.inl ⟨hs, h⟩
    · rw [if_neg hs] at h; exact Or.inr ⟨by omega, List.mem_singleton.mp h⟩
  · rintro ⟨t, ht, h⟩
    refine ⟨t, ht, ?_⟩
    rcases h with ⟨hs, h⟩ | ⟨hs, rfl⟩
    · rw [if_pos hs]; exact h
    · rw [if_neg (by omega)]; exact List.mem_singleton_self _

theorem noSep_subst {τ : Nat → List Nat} (hτ : ∀ y, E.sep < y → E.sep ∉ τ y) {p : Pip} (h : NoSep E p) : NoSep E (makeSubstAll E τ p) := by
  intro m hm hs
  rw [strs_subst] at hm
  obtain ⟨m', hm', rfl⟩ := List.mem_map.mp hm
  obtain ⟨t, ht, ⟨h1, h2⟩ | ⟨_, rfl⟩⟩ := mem_inst.mp hs
  · exact hτ t h1 h2
  · exact h m' hm' ht

/-- A unification of two different strings removes a dummy variable. -/
theorem dums_less {τ : Nat → List Nat} {p : Pip} {A B : List Nat} (hA : A ∈ strs p) (hB : B ∈ strs p) (hne : A ≠ B) (hu : inst E τ A = inst E τ B)
    (hv : ∀ y, E.sep < y → τ y ≠ [y] → (y ∈ A ∨ y ∈ B) ∧ ∀ z ∈ τ y, E.sep < z → (z ∈ A ∨ z ∈ B) ∧ τ z = [z]) :
    (dums E (makeSubstAll E τ p)).length < (dums E p).length := by
  have hex : ∃ y, E.sep < y ∧ τ y ≠ [y] := by
    apply Classical.byContradiction
    intro hn
    have hid : ∀ l, inst E τ l = l := fun l => MM.Unif.inst_fixed fun z _ hz => Classical.byContradiction fun h => hn ⟨z, hz, h⟩
    exact hne (by rw [← hid A, ← hid B]; exact hu)
  obtain ⟨y, hy, hyn⟩ := hex
  have hyd : y ∈ dums E p := by
    rcases (hv y hy hyn).1 with h | h
    · exact mem_dums.mpr ⟨hy, A, hA, h⟩
    · exact mem_dums.mpr ⟨hy, B, hB, h⟩
  have hsub : dums E (makeSubstAll E τ p) ⊆ (dums E p).erase y := by
    intro z hz
    obtain ⟨hz1, m, hm, hzm⟩ := mem_dums.mp hz
    rw [strs_subst] at hm
    obtain ⟨m', hm', rfl⟩ := List.mem_map.mp hm
    have key : z ∈ dums E p ∧ τ z = [z] := by
      obtain ⟨t, ht, ⟨h1, h2⟩ | ⟨h1, rfl⟩⟩ := mem_inst.mp hzm
      · by_cases ht1 : τ t = [t]
        · rw [ht1] at h2
          cases List.mem_singleton.mp h2
          exact ⟨mem_dums.mpr ⟨hz1, m', hm', ht⟩, ht1⟩
        · obtain ⟨h3, h4⟩ := (hv t h1 ht1).2 z h2 hz1
          refine ⟨?_, h4⟩
          rcases h3 with h3 | h3
          · exact mem_dums.mpr ⟨hz1, A, hA, h3⟩
          · exact mem_dums.mpr ⟨hz1, B, hB, h3⟩
      · omega
    have hne : z ≠ y := fun e => hyn (by rw [← e]; exact key.2)
    exact (List.mem_erase_of_ne hne).mpr key.1
  have hnd : (dums E (makeSubstAll E τ p)).Nodup := List.nodup_dedup _
  have h1 := (List.subperm_of_subset hnd hsub).length_le
  rw [List.length_erase_of_mem hyd] at h1
  have := List.length_pos_of_mem hyd
  omega

theorem getF_mem {l : List (List Nat)} {i : Int} {m : List Nat} (h : getF l i = .val m) : m ∈ l := by
  unfold getF at h
  by_cases hi : 0 ≤ i ∧ i.toNat < l.length
  · rw [if_pos hi] at h
    cases h
    rw [List.getD_eq_getElem?_getD, List.getElem?_eq_getElem hi.2]
    exact List.getElem_mem _
  · rw [if_neg hi] at h; cases h

theorem auPair_mem {p : Pip} {i k : Nat} {ab : List Nat × List Nat} (h : auPair p i k = .val ab) : ab.1 ∈ strs p ∧ ab.2 ∈ strs p := by
  unfold auPair at h
  unfold strs
  simp only [List.mem_append]
  split at h
  · obtain ⟨a, h1, h⟩ := bind_inv h
    obtain ⟨b, h2, h⟩ := bind_inv h
    cases h
    exact ⟨Or.inl (Or.inl (getF_mem h1)), Or.inr (getF_mem h2)⟩
  · split at h
    · obtain ⟨a, h1, h⟩ := bind_inv h
      obtain ⟨b, h2, h⟩ := bind_inv h
      cases h
      exact ⟨Or.inl (Or.inr (getF_mem h1)), Or.inr (getF_mem h2)⟩
    · obtain ⟨a, h1, h⟩ := bind_inv h
      obtain ⟨b, h2, h⟩ := bind_inv h
      cases h
      exact ⟨Or.inl (Or.inl (getF_mem h1)), Or.inl (Or.inr (getF_mem h2))⟩

/-- The globals fit the database, and `SET EMPTY_SUBSTITUTION` is off. -/
structure Fits (C : Cfg) (E : Env) : Prop where
  mt : C.mt = E.sep
  min : C.min = 1
  con : ∀ t, C.mt < t → C.isCon t = false

theorem Fits.proper (hC : Fits C E) {A B : List Nat} (hA : A ≠ []) (hB : B ≠ []) (sA : E.sep ∉ A) (sB : E.sep ∉ B) : Proper C A B :=
  ⟨hA, hB, by rw [hC.mt, List.count_eq_zero.mpr sA, List.count_eq_zero.mpr sB], by rw [hC.min], Or.inl hC.min⟩

theorem auOne_meas (hR : Realises C U) (hC : Fits C E) {s s' : AU} {x : Nat × Nat} (h : auOne E U s x = .val s') (hs : NoSep E s.pip) :
    NoSep E s'.pip ∧ ((s'.pip = s.pip ∧ s'.changed = s.changed) ∨ (dums E s'.pip).length < (dums E s.pip).length) := by
  unfold auOne at h
  obtain ⟨ab, h1, h2⟩ := bind_inv h
  obtain ⟨m1, m2⟩ := auPair_mem h1
  by_cases hc : ab.1 ≠ [] ∧ ab.2 ≠ [] ∧ ab.1 ≠ ab.2
  · rw [if_pos hc] at h2
    by_cases hu : (U.uniq ab.1 ab.2).1 = 1
    · rw [if_pos hu] at h2
      cases h2
      have hP := hC.proper hc.1 hc.2.1 (hs _ m1) (hs _ m2)
      obtain ⟨v, v1, v2⟩ := hR.uniq_answer hC.con hP hu
      obtain ⟨a1, a2⟩ := MM.Unif.answer_unifies hC.con hP v1 v2
      have a3 := MM.Unif.answer_vars hC.con hP v1 v2
      rw [hC.mt] at a1 a2 a3
      exact ⟨noSep_subst a2 hs, Or.inr (dums_less m1 m2 hc.2.2 a1 a3)⟩
    · rw [if_neg hu] at h2; cases h2; exact ⟨hs, Or.inl ⟨rfl, rfl⟩⟩
  · rw [if_neg hc] at h2; cases h2; exact ⟨hs, Or.inl ⟨rfl, rfl⟩⟩

theorem auPass_meas (hR : Realises C U) (hC : Fits C E) : ∀ (xs : List (Nat × Nat)) {s s' : AU}, auPass E U xs s = .val s' → NoSep E s.pip →
    NoSep E s'.pip ∧ ((s'.pip = s.pip ∧ s'.changed = s.changed) ∨ (dums E s'.pip).length < (dums E s.pip).length)
  | [], s, s', h, hs => by cases h; exact ⟨hs, Or.inl ⟨rfl, rfl⟩⟩
  | x :: xs, s, s', h, hs => by
    rw [auPass] at h
    obtain ⟨s1, h1, h2⟩ := bind_inv h
    obtain ⟨k1, k2⟩ := auOne_meas hR hC h1 hs
    obtain ⟨k3, k4⟩ := auPass_meas hR hC xs h2 k1
    refine ⟨k3, ?_⟩
    rcases k2 with ⟨e1, e2⟩ | k2
    · rw [← e1, ← e2]; exact k4
    · rcases k4 with ⟨e1, _⟩ | k4
      · rw [e1]; exact Or.inr k2
      · exact Or.inr (by omega)

theorem auLoop_noSep (hR : Realises C U) (hC : Fits C E) {plen : Nat} : ∀ (n : Nat) {s s' : AU}, auLoop E U plen n s = .val s' → NoSep E s.pip → NoSep E s'.pip
  | 0, _, _, h, _ => by cases h
  | n + 1, s, s', h, hs => by
    rw [auLoop] at h
    obtain ⟨s1, h1, h2⟩ := bind_inv h
    have h3 := (auPass_meas hR hC _ h1 hs).1
    split at h2
    · exact auLoop_noSep hR hC n h2 h3
    · cases h2; exact h3

theorem autoUnify_noSep (hR : Realises C U) (hC : Fits C E) {n : Nat} {p : Pip} {b : Bool} {r : Pip × Bool} (h : autoUnify n E U p b = .val r) (hs : NoSep E p) : NoSep E r.1 := by
  unfold autoUnify at h
  obtain ⟨s, h1, h2⟩ := bind_inv h
  cases h2
  exact auLoop_noSep hR hC n h1 hs

/-- The loop of `autoUnify` ends: each round but the last removes a dummy variable. -/
theorem auLoop_ends (hR : Realises C U) (hC : Fits C E) (hI : InstClosed E P) : ∀ (n : Nat) {s : AU} {f : AF}, Rep s.pip f → All P f → (∀ m ∈ f.tgts, ∀ t ∈ m, t < E.sep) →
    NoSep E s.pip → (dums E s.pip).length < n → ∃ s', auLoop E U f.flat.length n s = .val s'
  | 0, _, _, _, _, _, _, h => by omega
  | n + 1, s, f, hr, hA, ht, hs, hn => by
    obtain ⟨s1, f1, h1, h2, h3, h4, h5, _⟩ := auPass_rep (U := U) hI (auPairs f.flat.length) (s := { s with changed := false }) hr hA ht auPairs_lt
    have hlen : f1.flat.length = f.flat.length := by simpa using congrArg List.length h5
    obtain ⟨k1, k2⟩ := auPass_meas hR hC _ h1 hs
    rw [auLoop, h1, Out.bind_val]
    cases hc : s1.changed with
    | false => exact ⟨s1, rfl⟩
    | true =>
      rw [if_pos rfl, ← hlen]
      refine auLoop_ends hR hC hI n h2 h3 (by rw [h4]; exact ht) k1 ?_
      rcases k2 with ⟨_, e⟩ | k2
      · rw [hc] at e; cases e
      · dsimp only at k2; omega

theorem autoUnify_ends (hR : Realises C U) (hC : Fits C E) {prove : Nat} (hm : ∀ t ∈ (E.stmt prove).math, t < E.sep) {p : Pip} (h : InvP E prove (Basic E) p)
    (hs : NoSep E p) (b : Bool) {n : Nat} (hn : (dums E p).length < n) : ∃ r, autoUnify n E U p b = .val r := by
  obtain ⟨f, hr, hA, ht, _⟩ := h
  have hl : p.proof.length = f.flat.length := by rw [hr.proof, List.length_map]
  obtain ⟨s, h1⟩ := auLoop_ends hR hC instClosed_basic n (s := ⟨p, true, false⟩) hr hA (by rw [ht]; intro m hm'; simp only [List.mem_singleton] at hm'; subst hm'; exact hm) hs hn
  unfold autoUnify
  rw [hl, h1]
  exact ⟨_, rfl⟩

end MM.Pfas
