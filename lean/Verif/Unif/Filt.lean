import Verif.Unif.Erase
import Verif.Unif.Norm
import Verif.Unif.HSpec
/-!
# The Henty filter: answers and their variants
-/
namespace MM.Unif

variable {C : Cfg} {A B : List Nat}

/-! ### Determinism -/

theorem unify_det (hP : Proper C A B) {n n' t t' : Nat} {r r' : Res} (h : unify n C t A B = .val r) (h' : unify n' C t' A B = .val r')
    (hr : r ≠ .timeout) (hr' : r' ≠ .timeout) : r.z = r'.z := by
  obtain ⟨N, r0, h1, h2⟩ := C49_unify_ends hP 0
  have e := (unify_er h).resolve_left hr
  have e' := (unify_er h').resolve_left hr'
  have k : ∀ m (q : Res), unify m C 0 A B = .val q → q = r0 := by
    intro m q hq
    by_cases hm : N ≤ m
    · rw [h1 m hm] at hq; cases hq; rfl
    · rw [h2 m (by omega)] at hq; cases hq
  rw [k _ _ e, k _ _ e']

/-- An answer, up to the count of trials. -/
def CallsZ (C : Cfg) (A B : List Nat) (v : SV) : Prop := ∃ u, Calls C A B (fun _ => True) u ∧ u.z = v.z

theorem unifyNext_det (hP : Proper C A B) {v v' : SV} (hv : CallsZ C A B v) (hz : v.z = v'.z) {n n' : Nat} {r r' : Res}
    (h : unifyNext n C A B v = .val r) (h' : unifyNext n' C A B v' = .val r') (hr : r ≠ .timeout) (hr' : r' ≠ .timeout) : r.z = r'.z := by
  obtain ⟨u, hu, huz⟩ := hv
  obtain ⟨N, r0, h1, h2⟩ := C49_unifyNext_ends hP hu 0
  have e := (unifyNext_er h).resolve_left hr
  have e' := (unifyNext_er h').resolve_left hr'
  rw [← hz, ← huz] at e'
  rw [← huz] at e
  have k : ∀ m (q : Res), unifyNext m C A B u.z = .val q → q = r0 := by
    intro m q hq
    by_cases hm : N ≤ m
    · rw [show u.z = { u with trials := 0 } from rfl, h1 m hm] at hq; cases hq; rfl
    · rw [show u.z = { u with trials := 0 } from rfl, h2 m (by omega)] at hq; cases hq
  rw [k _ _ e, k _ _ e']

/-! ### The substitution of an answer -/

theorem mem_pairs {s : St} {p : Nat} (hc : Core C A B (vars s.stk) s.seg s.A s.B p) {y : Nat} {w : List Nat} :
    (y, w) ∈ pairs s ↔ y ∈ vars s.stk ∧ w = sol s y := by
  constructor
  · intro h
    exact ⟨(List.of_mem_zip h).1, (assoc_of_mem hc.nodup h).symm⟩
  · rintro ⟨h1, rfl⟩
    obtain ⟨e, he⟩ := mem_zip_left hc.len h1
    have := zip_map_mem (slice s.A) he
    rw [sol_bound hc he]
    exact this

theorem val_unbound {s : St} {p : Nat} (hc : Core C A B (vars s.stk) s.seg s.A s.B p) {y z : Nat} (hy : y ∈ vars s.stk) (hz : z ∈ sol s y) : z ∉ vars s.stk := by
  intro h
  obtain ⟨e, he⟩ := mem_zip_left hc.len hy
  rw [sol_bound hc he] at hz
  exact hc.notA z h (List.mem_of_mem_drop (List.mem_of_mem_take hz))

theorem inst_fixed {mt : Nat} {σ : Nat → List Nat} : ∀ {l : List Nat}, (∀ z ∈ l, mt < z → σ z = [z]) → inst mt σ l = l
  | [], _ => rfl
  | t :: l, h => by
    rw [inst_cons, inst_fixed (fun z hz => h z (by simp [hz]))]
    by_cases ht : mt < t
    · rw [if_pos ht, h t (by simp) ht]; rfl
    · rw [if_neg ht]; rfl

theorem inst_one {mt : Nat} {σ : Nat → List Nat} {z : Nat} (h : mt < z) : inst mt σ [z] = σ z := by
  rw [inst_cons, if_pos h]; simp [inst]

theorem swp_cases (mt : Nat) (y : Nat) (w : List Nat) :
    swp mt (y, w) = (y, w) ∨ ∃ z, w = [z] ∧ mt < z ∧ z < y ∧ swp mt (y, w) = (z, [y]) := by
  unfold swp
  by_cases h : w.length = 1 ∧ mt < w.headD 0 ∧ w.headD 0 < y
  · right
    obtain ⟨z, rfl⟩ := List.length_eq_one_iff.mp h.1
    refine ⟨z, rfl, h.2.1, h.2.2, ?_⟩
    rw [if_pos h]; rfl
  · left; rw [if_neg h]

/-- Answers with the same normal form: the second is an instance of the first. -/
theorem same_inst {s s' : St} {p p' : Nat} (hc : Core C A B (vars s.stk) s.seg s.A s.B p) (hc' : Core C A B (vars s'.stk) s'.seg s'.A s'.B p')
    (h : ((pairs s).map (swp C.mt)).Perm ((pairs s').map (swp C.mt))) {y : Nat} (hy : C.mt < y) : inst C.mt (sol s') (sol s y) = sol s' y := by
  by_cases hm : y ∈ vars s.stk
  · obtain ⟨⟨y', w'⟩, h1, h2⟩ := List.mem_map.mp (h.mem_iff.mp (List.mem_map.mpr ⟨(y, sol s y), (mem_pairs hc).2 ⟨hm, rfl⟩, rfl⟩))
    obtain ⟨hm', rfl⟩ := (mem_pairs hc').1 h1
    rcases swp_cases C.mt y (sol s y) with e | ⟨z, e0, e1, e2, e⟩ <;> rcases swp_cases C.mt y' (sol s' y') with e' | ⟨z', e0', e1', e2', e'⟩
    · rw [e, e'] at h2
      injection h2 with h3 h4
      subst h3
      rw [← h4]
      exact inst_fixed fun z hz _ => sol_unbound (val_unbound hc' hm' hz)
    · rw [e, e'] at h2
      injection h2 with h3 h4
      subst h3
      rw [← h4, inst_one (hc'.unk _ hm').1, e0', sol_unbound (val_unbound hc' hm' (by rw [e0']; simp))]
    · rw [e, e'] at h2
      injection h2 with h3 h4
      subst h3
      rw [e0, inst_one e1, h4, sol_unbound (val_unbound hc' hm' (by rw [h4]; simp))]
    · rw [e, e'] at h2
      injection h2 with h3 h4
      simp only [List.cons.injEq, and_true] at h4
      subst h3 h4
      rw [e0, inst_one e1, e0', sol_unbound (val_unbound hc' hm' (by rw [e0']; simp))]
  · rw [sol_unbound hm, inst_one hy]

/-- The answers that have a state. -/
theorem normalize_calls (hP : Proper C A B) {v : SV} (h : Calls C A B (fun _ => True) v) : ∃ s p ps, v = svOf s ∧ Core C A B (vars s.stk) s.seg s.A s.B p ∧
    (∀ t, hentyNormalize C { v with trials := t } = .val (encode ps)) ∧ ps.Perm ((pairs s).map (swp C.mt)) ∧ ps.Pairwise fun x y => x.1 ≤ y.1 := by
  obtain ⟨s, rfl, ⟨_, ⟨p, hc⟩, _⟩, _⟩ := calls_at hP h
  obtain ⟨ps, h1, h2, h3⟩ := normalize_ok hc 0
  refine ⟨s, p, ps, rfl, hc, ?_, h2, h3⟩
  intro t
  rw [← h1]
  rfl

theorem substOf (hK : ∀ t, C.mt < t → C.isCon t = false) {s : St} {p : Nat} (hc : Core C A B (vars s.stk) s.seg s.A s.B p) {σ : Nat → List Nat}
    (h : SubstOf C (svOf s) σ) {y : Nat} (hy : C.mt < y) : σ y = sol s y := by
  obtain ⟨f, hf⟩ := h [y]
  have := makeSubst_eq hK hc s.trials [y]
  rw [show ({ svOf s with trials := s.trials } : SV) = svOf s from rfl, hf] at this
  injection this with this
  injection this with this _
  rw [inst_one hy, inst_one hy] at this
  exact this

theorem inst_congr {mt : Nat} {σ τ : Nat → List Nat} : ∀ {l : List Nat}, (∀ z ∈ l, mt < z → σ z = τ z) → inst mt σ l = inst mt τ l
  | [], _ => rfl
  | t :: l, h => by
    rw [inst_cons, inst_cons, inst_congr (fun z hz => h z (by simp [hz]))]
    by_cases ht : mt < t
    · rw [if_pos ht, if_pos ht, h t (by simp) ht]
    · rw [if_neg ht, if_neg ht]

/-- Answers with the same normal form are variants. -/
theorem variant_of_same (hK : ∀ t, C.mt < t → C.isCon t = false) (hP : Proper C A B) {v w : SV} (hv : Calls C A B (fun _ => True) v)
    (hw : Calls C A B (fun _ => True) w) (he : hentyNormalize C v = hentyNormalize C w) {σ τ : Nat → List Nat} (hσ : SubstOf C v σ) (hτ : SubstOf C w τ) :
    Variant C.mt σ τ := by
  obtain ⟨s, p, ps, rfl, hc, n1, k1, _⟩ := normalize_calls hP hv
  obtain ⟨s', p', ps', rfl, hc', n1', k1', _⟩ := normalize_calls hP hw
  have e1 := n1 s.trials
  have e2 := n1' s'.trials
  rw [show ({ svOf s with trials := s.trials } : SV) = svOf s from rfl] at e1
  rw [show ({ svOf s' with trials := s'.trials } : SV) = svOf s' from rfl] at e2
  rw [e1, e2] at he
  injection he with he
  have hps := encode_inj he
  subst hps
  have hperm := k1.symm.trans k1'
  refine ⟨⟨τ, ?_⟩, ⟨σ, ?_⟩⟩
  · intro y hy
    rw [substOf hK hc hσ hy, substOf hK hc' hτ hy, ← same_inst hc hc' hperm hy]
    exact inst_congr fun z _ hz => substOf hK hc' hτ hz
  · intro y hy
    rw [substOf hK hc hσ hy, substOf hK hc' hτ hy, ← same_inst hc' hc hperm.symm hy]
    exact inst_congr fun z _ hz => substOf hK hc hσ hz

theorem substOf_exists (hK : ∀ t, C.mt < t → C.isCon t = false) (hP : Proper C A B) {v : SV} (h : Calls C A B (fun _ => True) v) : ∃ σ, SubstOf C v σ := by
  obtain ⟨σ, h1, _⟩ := C48_unify_sound hK hP h
  exact ⟨σ, fun l => ⟨_, h1 l v.trials⟩⟩

theorem substOf_z {v w : SV} (h : v.z = w.z) {σ : Nat → List Nat} (hs : SubstOf C v σ) : SubstOf C w σ := by
  have key : ∀ (u : SV) (l : List Nat), makeSubst C u l = makeSubst C u.z l := by
    intro u l
    induction l with
    | nil => rfl
    | cons t l ih =>
      unfold makeSubst
      rw [ih]
      rfl
  intro l
  obtain ⟨f, hf⟩ := hs l
  exact ⟨f, by rw [key, ← h, ← key]; exact hf⟩

theorem normalize_z {v w : SV} (h : v.z = w.z) : hentyNormalize C v = hentyNormalize C w := by
  have key : ∀ u : SV, hentyNormalize C u = hentyNormalize C u.z := fun u => rfl
  rw [key, h, ← key]

end MM.Unif
