import Verif.Repl.Model
import Verif.Impr.Props
import Verif.Pfas.EndProps
/-!
# The invariant of the backtracking of `replaceStatement`
-/
namespace MM.Repl
open MM.Veri MM.Proof MM.Data MM.Tree MM.Pfas MM.Impr
open MM.Unif (Cfg SV SVH ResH makeSubst unifyH unifyHNext HCalls bind_inv)

variable {X : Impr.Ctx} {R : Range} {n : Nat}

/-- The number of things to try. -/
abbrev total (X : Impr.Ctx) (R : Range) : Nat := (X.E.stmt X.prove).reqHyp.length + (R.hi - R.lo)

/-- The slot holds a match with something tried. -/
structure Match (X : Impr.Ctx) (R : Range) (m : List Nat × Bool) (s : Slot) : Prop where
  flag : s.flag = 2
  lt : s.step < total X R
  free : barred X R s.step = false
  ex : ∃ t v l, testStr X R s.step = .val t ∧ testProof X R s.step = .val s.proof ∧ s.sv = some v ∧ t ≠ [] ∧ m.1 ≠ [] ∧ (m.2 = false → t = m.1) ∧ unlike X.C m.1 t m.2 = false ∧
    HCalls X.on X.C m.1 t l v

/-- The slot holds a proof that `proveFloating` found. -/
structure Float (X : Impr.Ctx) (m : List Nat × Bool) (s : Slot) : Prop where
  flag : s.flag = 3
  ne : s.proof ≠ []
  known : ∀ t ∈ m.1, t ≤ X.E.sep
  ex : ∃ n, proveFloating X n m.1 = .val s.proof

theorem unifSlot_inv {m : List Nat × Bool} {t : List Nat} {s : Slot} {r : ResH} (h : unifSlot X n m.1 t s = .val r)
    (hs : s.flag = 1 ∨ ∃ v l, s.sv = some v ∧ HCalls X.on X.C m.1 t l v) {v : SVH} (hr : ansOf r = some v) : ∃ l, HCalls X.on X.C m.1 t l v := by
  have hr : r = .found v := by
    cases r with
    | found w => exact congrArg _ (Option.some.inj hr)
    | none => cases hr
    | timeout => cases hr
  subst hr
  unfold unifSlot at h
  by_cases c : s.flag = 1
  · rw [if_pos c] at h
    exact ⟨_, .first h⟩
  · rw [if_neg c] at h
    obtain ⟨w, l, e, hc⟩ := hs.resolve_left c
    rw [e] at h
    exact ⟨_, .next (t := 1) hc h⟩

theorem scan_inv {m : List Nat × Bool} : ∀ {c k : Nat} {s : Slot} {o : Bool × Slot}, scan X n R m.1 m.2 c k s = .val o → c + k = total X R →
    (s.flag = 1 ∨ (Match X R m s ∧ s.step = k)) → if o.1 then Match X R m o.2 else o.2.flag = 1
  | 0, k, s, o, h, ht, hs => by
    obtain rfl := (Out.val.inj h).symm
    refine hs.elim (fun h => ?_) (fun h => ?_)
    · simpa using h
    · have := h.1.lt; omega
  | c + 1, k, s, o, h, ht, hs => by
    rw [scan] at h
    have next : ∀ {s' : Slot}, s'.flag = 1 → scan X n R m.1 m.2 c (k + 1) s' = .val o → if o.1 then Match X R m o.2 else o.2.flag = 1 :=
      fun h1 h2 => scan_inv h2 (by omega) (Or.inl h1)
    by_cases c1 : barred X R k = true
    · rw [if_pos c1] at h
      refine hs.elim (fun h1 => next h1 h) (fun h1 => ?_)
      have := h1.1.free
      rw [h1.2, c1] at this; cases this
    rw [if_neg c1] at h
    obtain ⟨t, t1, h⟩ := bind_inv h
    have hst : ∀ {P : Prop}, (Match X R m s ∧ s.step = k → t ≠ [] → (m.2 = false → t = m.1) → unlike X.C m.1 t m.2 = false →
        (∃ v l, s.sv = some v ∧ HCalls X.on X.C m.1 t l v) → P) → Match X R m s ∧ s.step = k → P := by
      intro P hp hM
      obtain ⟨t', v, l, e1, _, e3, e4, _, e6, e7, e8⟩ := hM.1.ex
      rw [hM.2, t1] at e1
      obtain rfl := Out.val.inj e1
      exact hp hM e4 e6 e7 ⟨v, l, e3, e8⟩
    by_cases c2 : m.2 = false ∧ t ≠ m.1
    · rw [if_pos c2] at h
      exact hs.elim (fun h1 => next h1 h) (hst fun _ _ h2 _ _ => absurd (h2 c2.1) c2.2)
    rw [if_neg c2] at h
    by_cases c3 : t = [] ∨ m.1 = []
    · rw [if_pos c3] at h; cases h
    rw [if_neg c3] at h
    by_cases c4 : unlike X.C m.1 t m.2 = true
    · rw [if_pos c4] at h
      exact hs.elim (fun h1 => next h1 h) (hst fun _ _ _ h2 _ => by rw [c4] at h2; cases h2)
    rw [if_neg c4] at h
    by_cases c5 : s.flag < 1 ∨ 2 < s.flag
    · rw [if_pos c5] at h; cases h
    rw [if_neg c5] at h
    obtain ⟨r, r1, h⟩ := bind_inv h
    have hcall := fun v => unifSlot_inv (m := m) (v := v) r1 (hs.imp id (hst fun _ _ _ _ h2 => h2))
    by_cases c6 : ansOf r = none
    · rw [if_pos c6] at h
      by_cases c7 : m.2 = false ∧ s.flag = 2
      · rw [if_pos c7] at h
        obtain rfl := (Out.val.inj h).symm
        rfl
      · rw [if_neg c7] at h
        exact next rfl h
    rw [if_neg c6] at h
    obtain ⟨b, b1, h⟩ := bind_inv h
    by_cases c7 : b = true
    · rw [if_pos c7] at h
      refine hs.elim (fun h1 => next (s' := { s with sv := none }) h1 h) (fun h1 => ?_)
      rw [if_neg (by rw [h1.1.flag]; omega)] at b1
      rw [← Out.val.inj b1] at c7; cases c7
    rw [if_neg c7] at h
    obtain ⟨q, q1, h⟩ := bind_inv h
    obtain rfl := (Out.val.inj h).symm
    obtain ⟨v, hv⟩ := Option.ne_none_iff_exists'.mp c6
    obtain ⟨l, hl⟩ := hcall v hv
    rw [if_pos rfl]
    exact ⟨rfl, by show k < total X R; omega, by cases e : barred X R k; rfl; exact absurd e c1, t, v, l, t1, q1, hv, fun e => c3 (Or.inl e), fun e => c3 (Or.inr e), fun e => Classical.byContradiction fun hn => c2 ⟨e, hn⟩,
      by cases e : unlike X.C m.1 t m.2; rfl; exact absurd e c4, hl⟩

/-! ### The hypotheses -/

variable {i : Nat} {v : SV} {ord : List Nat} {nE : Nat} {hs : List (List Nat)}

/-- The hypothesis at a position of the order has a proof in its slot. -/
def At (X : Impr.Ctx) (R : Range) (v : SV) (ord : List Nat) (nE : Nat) (hs : List (List Nat)) (σ : Nat → Slot) (p : Nat) : Prop :=
  ∃ m, hypStr X.C v ord nE hs σ p = .val m ∧ (Match X R m (σ (ord.getD p 0)) ∨ (nE ≤ p ∧ Float X m (σ (ord.getD p 0))))

/-- Those below `p` have proofs; from `p` on nothing was tried yet. -/
structure Pre (X : Impr.Ctx) (R : Range) (v : SV) (ord : List Nat) (nE : Nat) (hs : List (List Nat)) (p : Nat) (σ : Nat → Slot) : Prop where
  below : ∀ q < p, At X R v ord nE hs σ q
  above : ∀ q, p ≤ q → q < ord.length → (σ (ord.getD q 0)).flag = 1

/-- Those below `p` have proofs; the one at `p` has one (which is to be replaced by another), or nothing was tried yet. -/
structure Inv (X : Impr.Ctx) (R : Range) (v : SV) (ord : List Nat) (nE : Nat) (hs : List (List Nat)) (p : Nat) (σ : Nat → Slot) : Prop where
  below : ∀ q < p, At X R v ord nE hs σ q
  cur : p < ord.length → (σ (ord.getD p 0)).flag = 1 ∨ At X R v ord nE hs σ p
  above : ∀ q, p < q → q < ord.length → (σ (ord.getD q 0)).flag = 1

theorem Pre.inv {p : Nat} {σ : Nat → Slot} (h : Pre X R v ord nE hs p σ) : Inv X R v ord nE hs p σ :=
  ⟨h.below, fun hp => Or.inl (h.above p (Nat.le_refl _) hp), fun q h1 h2 => h.above q (by omega) h2⟩

theorem Pre.back {p : Nat} {σ : Nat → Slot} (h : Pre X R v ord nE hs (p + 1) σ) : Inv X R v ord nE hs p σ :=
  ⟨fun q hq => h.below q (by omega), fun _ => Or.inr (h.below p (by omega)), fun q h1 h2 => h.above q (by omega) h2⟩

theorem getD_ne (hn : ord.Nodup) {p q : Nat} (hp : p < ord.length) (hq : q < ord.length) (h : p ≠ q) : ord.getD p 0 ≠ ord.getD q 0 := by
  rw [List.getD_eq_getElem _ _ hp, List.getD_eq_getElem _ _ hq]
  intro e
  exact h ((List.Nodup.getElem_inj_iff hn).mp e)

theorem substs_congr {C : Cfg} {σ τ : Nat → Slot} : ∀ {l : List Nat} {r : List Nat × Bool}, (∀ j ∈ l, σ j = τ j) → substs C σ l r = substs C τ l r
  | [], _, _ => rfl
  | j :: l, r, h => by
    rw [substs, substs, h j (by simp)]
    congr 1
    funext w
    congr 1
    funext r1
    exact substs_congr fun j hj => h j (by simp [hj])

theorem hypStr_upd (hn : ord.Nodup) {σ : Nat → Slot} {p q : Nat} {s : Slot} (hp : p < ord.length) (hq : q ≤ p) :
    hypStr X.C v ord nE hs (upd σ (ord.getD p 0) s) q = hypStr X.C v ord nE hs σ q := by
  unfold hypStr
  congr 1
  funext r
  apply substs_congr
  intro j hj
  unfold upd
  rw [if_neg]
  rintro rfl
  obtain ⟨k, hk⟩ := List.getElem?_of_mem hj
  obtain ⟨h1, h2⟩ := List.getElem?_eq_some_iff.mp hk
  rw [List.length_take] at h1
  rw [List.getElem_take, ← List.getD_eq_getElem _ 0 (by omega)] at h2
  exact getD_ne hn (p := k) (q := p) (by omega) hp (by omega) h2

theorem at_upd (hn : ord.Nodup) {σ : Nat → Slot} {p q : Nat} {s : Slot} (hp : p < ord.length) (hq : q < p) (h : At X R v ord nE hs σ q) :
    At X R v ord nE hs (upd σ (ord.getD p 0) s) q := by
  obtain ⟨m, h1, h2⟩ := h
  refine ⟨m, by rw [hypStr_upd hn hp (by omega)]; exact h1, ?_⟩
  have : upd σ (ord.getD p 0) s (ord.getD q 0) = σ (ord.getD q 0) := by
    unfold upd
    rw [if_neg (getD_ne hn (by omega) hp (by omega))]
  rw [this]
  exact h2

theorem pre_upd (hn : ord.Nodup) {σ : Nat → Slot} {p : Nat} {s : Slot} (hp : p < ord.length) (hI : Inv X R v ord nE hs p σ) (hs1 : s.flag = 1) :
    Pre X R v ord nE hs p (upd σ (ord.getD p 0) s) := by
  refine ⟨fun q hq => at_upd hn hp hq (hI.below q hq), fun q h1 h2 => ?_⟩
  unfold upd
  by_cases e : ord.getD q 0 = ord.getD p 0
  · rw [if_pos e]; exact hs1
  · rw [if_neg e]
    exact hI.above q (by rcases Nat.lt_or_eq_of_le h1 with h | h; exact h; rw [h] at e; exact absurd rfl e) h2

theorem pre_succ (hn : ord.Nodup) {σ : Nat → Slot} {p : Nat} {s : Slot} (hp : p < ord.length) (hI : Inv X R v ord nE hs p σ) {m : List Nat × Bool}
    (hm : hypStr X.C v ord nE hs σ p = .val m) (hs1 : Match X R m s ∨ (nE ≤ p ∧ Float X m s)) : Pre X R v ord nE hs (p + 1) (upd σ (ord.getD p 0) s) := by
  refine ⟨fun q hq => ?_, fun q h1 h2 => ?_⟩
  · by_cases e : q = p
    · subst e
      refine ⟨m, by rw [hypStr_upd hn hp (Nat.le_refl _)]; exact hm, ?_⟩
      have : upd σ (ord.getD q 0) s (ord.getD q 0) = s := by unfold upd; rw [if_pos rfl]
      rw [this]; exact hs1
    · exact at_upd hn hp (by omega) (hI.below q (by omega))
  · unfold upd
    rw [if_neg (getD_ne hn h2 hp (by omega))]
    exact hI.above q (by omega) h2

theorem tryHyp_inv (hn : ord.Nodup) {σ : Nat → Slot} {p : Nat} (hp : p < ord.length) (hI : Inv X R v ord nE hs p σ) {o : Bool × (Nat → Slot)}
    (h : tryHyp X n R i v ord nE hs p σ = .val o) : if o.1 then Pre X R v ord nE hs (p + 1) o.2 else Pre X R v ord nE hs p o.2 := by
  unfold tryHyp at h
  obtain ⟨m, m1, h⟩ := bind_inv h
  by_cases c1 : p < nE ∧ (X.E.stmt ((X.E.stmt i).reqHyp.getD (ord.getD p 0) 0)).kind ≠ .e
  · rw [if_pos c1] at h; cases h
  rw [if_neg c1] at h
  by_cases c2 : nE ≤ p ∧ (X.E.stmt ((X.E.stmt i).reqHyp.getD (ord.getD p 0) 0)).kind ≠ .f
  · rw [if_pos c2] at h; cases h
  rw [if_neg c2] at h
  by_cases c3 : (σ (ord.getD p 0)).flag < 1 ∨ 3 < (σ (ord.getD p 0)).flag
  · rw [if_pos c3] at h; cases h
  rw [if_neg c3] at h
  obtain ⟨r, r1, h⟩ := bind_inv h
  have key : if r.1 then Match X R m r.2 else r.2.flag = 1 := by
    by_cases c4 : (σ (ord.getD p 0)).flag = 3
    · rw [if_pos c4] at r1
      obtain rfl := (Out.val.inj r1).symm
      rfl
    rw [if_neg c4] at r1
    rcases hI.cur hp with h1 | ⟨m', e1, h1 | h1⟩
    · rw [if_neg (by omega)] at r1
      exact scan_inv r1 (by unfold total; omega) (Or.inl h1)
    · rw [m1] at e1
      obtain rfl := Out.val.inj e1
      rw [if_pos h1.flag] at r1
      have hlt := h1.lt
      exact scan_inv r1 (by unfold total at hlt ⊢; omega) (Or.inr ⟨h1, rfl⟩)
    · exact absurd h1.2.flag c4
  by_cases c4 : r.1 = true
  · rw [if_pos c4] at h key
    obtain rfl := (Out.val.inj h).symm
    exact pre_succ hn hp hI m1 (Or.inl key)
  rw [if_neg c4] at h key
  by_cases c5 : nE ≤ p ∧ (σ (ord.getD p 0)).flag = 1 ∧ (m.1.any fun t => decide (X.E.sep < t)) = false
  · rw [if_pos c5] at h
    obtain ⟨q, q1, h⟩ := bind_inv h
    by_cases c6 : q = []
    · rw [if_pos c6] at h
      obtain rfl := (Out.val.inj h).symm
      exact pre_upd hn hp hI key
    · rw [if_neg c6] at h
      obtain rfl := (Out.val.inj h).symm
      refine pre_succ hn hp hI m1 (Or.inr ⟨c5.1, rfl, c6, ?_, n, q1⟩)
      intro t ht
      have := List.any_eq_false.mp c5.2.2 t ht
      simpa using this
  · rw [if_neg c5] at h
    obtain rfl := (Out.val.inj h).symm
    exact pre_upd hn hp hI key

theorem hypsLoop_inv (hn : ord.Nodup) : ∀ {f p : Nat} {σ : Nat → Slot} {o : Bool × (Nat → Slot)}, p ≤ ord.length → Inv X R v ord nE hs p σ →
    hypsLoop X n R i v ord nE hs f p σ = .val o → if o.1 then Pre X R v ord nE hs ord.length o.2 else Pre X R v ord nE hs 0 o.2
  | 0, _, _, _, _, _, h => by cases h
  | f + 1, p, σ, o, hp, hI, h => by
    rw [hypsLoop] at h
    by_cases c1 : ord.length ≤ p
    · rw [if_pos c1] at h
      obtain rfl := (Out.val.inj h).symm
      have : p = ord.length := by omega
      subst this
      exact ⟨hI.below, fun q h1 h2 => by omega⟩
    rw [if_neg c1] at h
    obtain ⟨r, r1, h⟩ := bind_inv h
    have key := tryHyp_inv hn (by omega) hI r1
    by_cases c2 : r.1 = true
    · rw [if_pos c2] at h key
      exact hypsLoop_inv hn (by omega) key.inv h
    rw [if_neg c2] at h key
    by_cases c3 : p = 0
    · rw [if_pos c3] at h
      obtain rfl := (Out.val.inj h).symm
      subst c3
      exact key
    · rw [if_neg c3] at h
      obtain ⟨p', rfl⟩ : ∃ p', p = p' + 1 := ⟨p - 1, by omega⟩
      exact hypsLoop_inv hn (by omega) key.back h

end MM.Repl
