import Verif.Extr.Undecl
/-! # Frames of extracted assertions -/
namespace MM.Extr
open MM.Veri MM.Pars MM.Spec MM.Trace

/-- The variables `x` and `y` occur together in a `$d` statement active at statement `i`. -/
def Apart (src : List Src) (i : Nat) (x y : Name) : Prop := x ≠ y ∧ ∃ j, Active (kinds src) j i ∧ kindAt (kinds src) j = .d ∧ x ∈ symsAt src j ∧ y ∈ symsAt src j

section
variable {src : List Src} {s : PState}

theorem assert_kind {i : Nat} (hi : IsAssert src i) : kindAt (kinds src) i ∈ [Kind.d, .e, .f, .a, .p] := by rcases hi with e | e <;> rw [e] <;> simp

theorem assert_bound {i : Nat} (hi : IsAssert src i) : 1 ≤ i ∧ i ≤ src.length := by
  have := kind_bound (ks := kinds src) (i := i) (by rcases hi with e | e <;> rw [e] <;> simp)
  rwa [kinds_length] at this

/-- Mandatory variables by name -/
theorem mand_name (h : Accepted src s) (hn : Nested (kinds src)) {i v : Nat} (hi : IsAssert src i) (hm : Mandatory (isVarOf src) (kinds src) s.math i v) :
    MandName src i (nameOf (declToks src) v) := by
  obtain ⟨hl, ha, hk⟩ := mandatory_decl h hn hi hm
  obtain ⟨j, _, _, a, b, c⟩ := tok_decl h hl
  rw [show tokIsVar (declToks src) v = true from hm.1] at a
  replace a : kindAt (kinds src) j = .v := by simpa using a
  rw [decl_getD h (Or.inr a) b] at ha
  refine ⟨⟨j, ha, a, c⟩, ?_⟩
  rcases hm.2 with hv | ⟨e, x, y, hv⟩
  · exact Or.inl ((tok_of_name h (Or.inl (assert_kind hi))).mpr ⟨v, hv, nameOf_some hl⟩)
  · exact Or.inr ⟨e, x, y, (tok_of_name h (Or.inl (by rw [y]; simp))).mpr ⟨v, hv, nameOf_some hl⟩⟩

theorem name_mand (h : Accepted src s) (hn : Nested (kinds src)) {i : Nat} (hi : IsAssert src i) {nm : Name} (hm : MandName src i nm) :
    ∃ v, Mandatory (isVarOf src) (kinds src) s.math i v ∧ tokName (declToks src) v = some nm ∧ TokActive (kinds src) s.math i v := by
  have hb := assert_bound hi
  obtain ⟨j, a, b, c⟩ := hm.1
  obtain ⟨v, hv, e⟩ := (tok_of_name h (Or.inr (Or.inr b))).mp c
  have hva : TokActive (kinds src) s.math i v := ⟨j, a, Or.inr b, hv⟩
  have hvar : tokIsVar (declToks src) v = true := by
    obtain ⟨hl, _⟩ := nameOf_eq e
    obtain ⟨j', _, _, x, y, _⟩ := tok_decl h hl
    have h1 := decl_of_mem h (Or.inr b) hv
    have h2 := decl_of_mem h (i := j') (by rw [x]; cases tokIsVar (declToks src) v <;> simp) y
    rw [h1] at h2
    cases h2
    rw [b] at x
    cases hq : tokIsVar (declToks src) v
    · rw [hq] at x; simp at x
    · rfl
  refine ⟨v, ⟨hvar, ?_⟩, e, hva⟩
  rcases hm.2 with a | ⟨k, a, b, c⟩
  · obtain ⟨t, ht, e'⟩ := (tok_of_name h (Or.inl (assert_kind hi))).mp a
    have := name_uniq h hb.1 (by omega) (tokActive_of h hn (Or.inl rfl) (assert_kind hi) ht) hva (by rw [e, e'])
    subst this; exact Or.inl ht
  · obtain ⟨t, ht, e'⟩ := (tok_of_name h (Or.inl (by rw [b]; simp))).mp c
    have := name_uniq h hb.1 (by omega) (tokActive_of h hn (Or.inr a) (by rw [b]; simp) ht) hva (by rw [e, e'])
    subst this; exact Or.inr ⟨k, a, b, ht⟩

/-- The mandatory hypotheses in terms of names -/
theorem hyp_name (h : Accepted src s) (hn : Nested (kinds src)) {i j : Nat} (hi : IsAssert src i) : j ∈ (s.stmt i).reqHyp ↔
    (Active (kinds src) j i ∧ kindAt (kinds src) j = .e) ∨ ∃ nm, FFor src i j nm ∧ MandName src i nm := by
  constructor
  · intro hj
    obtain ⟨a, b⟩ := (((inv_of h).frame i hi).hyp j).mp hj
    rcases b with b | ⟨b, v, hv, hm⟩
    · exact Or.inl ⟨a, b⟩
    · obtain ⟨c, w, hcw, hc, hw⟩ := (inv_of h).fShape j b
      have hvw : v = w := by
        replace hv : v ∈ s.math j := hv
        rw [hcw] at hv
        rcases List.mem_cons.mp hv with rfl | hv
        · exfalso
          have := hm.1
          rw [hc] at this
          cases this
        · exact List.mem_singleton.mp hv
      have hl := (mandatory_decl h hn hi hm).1
      refine Or.inr ⟨nameOf (declToks src) v, ⟨a, b, ?_⟩, mand_name h hn hi hm⟩
      have hnm := names_at (inv_of h).toSInv (j := j) (by rw [b]; simp) (by rw [b]; simp) (by rw [b]; simp)
      rw [hcw] at hnm
      have h1 : ((symsAt src j).map some)[1]? = some (tokName (declToks src) w) := by rw [← hnm]; rfl
      rw [List.getElem?_map, ← hvw, nameOf_some hl] at h1
      cases hx : (symsAt src j)[1]? with
      | none => rw [hx] at h1; cases h1
      | some y => rw [hx] at h1; simpa using h1
  · rintro (⟨a, b⟩ | ⟨nm, a, b⟩)
    · exact (((inv_of h).frame i hi).hyp j).mpr ⟨a, Or.inl b⟩
    · exact ffor_hyp h hn hi (assert_bound hi).2 b a

/-- A pair of mandatory variables kept apart comes from one of the `$d` statements listed in the frame. -/
theorem apart_stmt (h : Accepted src s) (hn : Nested (kinds src)) {i : Nat} (hi : IsAssert src i) {x y : Name} (hx : MandName src i x) (hy : MandName src i y)
    (ha : Apart src i x y) : ∃ j ∈ (s.stmt i).reqDisjStmt, Active (kinds src) j i ∧ kindAt (kinds src) j = .d ∧ x ∈ symsAt src j ∧ y ∈ symsAt src j := by
  have F := (inv_of h).frame i hi
  have hb := assert_bound hi
  obtain ⟨v, hv, ev, av⟩ := name_mand h hn hi hx
  obtain ⟨w, hw, ew, aw⟩ := name_mand h hn hi hy
  obtain ⟨hne, j, a, b, c, d⟩ := ha
  obtain ⟨v', hv', ev'⟩ := (tok_of_name h (Or.inl (by rw [b]; simp))).mp c
  obtain ⟨w', hw', ew'⟩ := (tok_of_name h (Or.inl (by rw [b]; simp))).mp d
  have e1 := name_uniq h hb.1 (by omega) (tokActive_of h hn (Or.inr a) (by rw [b]; simp) hv') av (by rw [ev, ev'])
  have e2 := name_uniq h hb.1 (by omega) (tokActive_of h hn (Or.inr a) (by rw [b]; simp) hw') aw (by rw [ew, ew'])
  subst e1; subst e2
  have hdv : DvDeclared (kinds src) s.math i v' w' := ⟨j, a, b, hv', hw'⟩
  have hdv' : DvDeclared (kinds src) s.math i w' v' := ⟨j, a, b, hw', hv'⟩
  have hnew : v' ≠ w' := by
    rintro rfl
    rw [ev'] at ew'; cases ew'; exact hne rfl
  rcases Nat.lt_or_ge v' w' with hl | hl
  · obtain ⟨k, k1, k2, k3, k4, k5⟩ := mem_forall2' F.dStmt _ ((F.d v' w').mpr ⟨hl, hv, hw, hdv⟩)
    exact ⟨k, k1, k2, k3, (tok_of_name h (Or.inl (by rw [k3]; simp))).mpr ⟨v', k4, ev'⟩, (tok_of_name h (Or.inl (by rw [k3]; simp))).mpr ⟨w', k5, ew'⟩⟩
  · obtain ⟨k, k1, k2, k3, k4, k5⟩ := mem_forall2' F.dStmt _ ((F.d w' v').mpr ⟨by omega, hw, hv, hdv'⟩)
    exact ⟨k, k1, k2, k3, (tok_of_name h (Or.inl (by rw [k3]; simp))).mpr ⟨v', k5, ev'⟩, (tok_of_name h (Or.inl (by rw [k3]; simp))).mpr ⟨w', k4, ew'⟩⟩

/-- ... and for a theorem every pair, mandatory or not. -/
theorem apart_stmt_thm (h : Accepted src s) (hn : Nested (kinds src)) {i : Nat} (hi : kindAt (kinds src) i = .p) {x y : Name} (ha : Apart src i x y) :
    ∃ j ∈ (s.stmt i).reqDisjStmt ++ (s.stmt i).optDisjStmt, Active (kinds src) j i ∧ kindAt (kinds src) j = .d ∧ x ∈ symsAt src j ∧ y ∈ symsAt src j := by
  have F := (inv_of h).frame i (Or.inr hi)
  obtain ⟨hne, j, a, b, c, d⟩ := ha
  obtain ⟨v, hv, ev⟩ := (tok_of_name h (Or.inl (by rw [b]; simp))).mp c
  obtain ⟨w, hw, ew⟩ := (tok_of_name h (Or.inl (by rw [b]; simp))).mp d
  have hnew : v ≠ w := by
    rintro rfl
    rw [ev] at ew; cases ew; exact hne rfl
  have key : ∀ v w, v < w → DvDeclared (kinds src) s.math i v w → ∃ j ∈ (s.stmt i).reqDisjStmt ++ (s.stmt i).optDisjStmt, Active (kinds src) j i ∧ kindAt (kinds src) j = .d ∧
      v ∈ s.math j ∧ w ∈ s.math j := by
    intro v w hl hd
    by_cases hm : Mandatory (isVarOf src) (kinds src) s.math i v ∧ Mandatory (isVarOf src) (kinds src) s.math i w
    · obtain ⟨k, k1, k2⟩ := mem_forall2' F.dStmt _ ((F.d v w).mpr ⟨hl, hm.1, hm.2, hd⟩)
      exact ⟨k, List.mem_append.mpr (Or.inl k1), k2⟩
    · obtain ⟨k, k1, k2⟩ := mem_forall2' (F.odStmt hi) _ ((F.od hi v w).mpr ⟨hl, hm, hd⟩)
      exact ⟨k, List.mem_append.mpr (Or.inr k1), k2⟩
  rcases Nat.lt_or_ge v w with hl | hl
  · obtain ⟨k, k1, k2, k3, k4, k5⟩ := key v w hl ⟨j, a, b, hv, hw⟩
    exact ⟨k, k1, k2, k3, (tok_of_name h (Or.inl (by rw [k3]; simp))).mpr ⟨v, k4, ev⟩, (tok_of_name h (Or.inl (by rw [k3]; simp))).mpr ⟨w, k5, ew⟩⟩
  · obtain ⟨k, k1, k2, k3, k4, k5⟩ := key w v (by omega) ⟨j, a, b, hw, hv⟩
    exact ⟨k, k1, k2, k3, (tok_of_name h (Or.inl (by rw [k3]; simp))).mpr ⟨v, k5, ev⟩, (tok_of_name h (Or.inl (by rw [k3]; simp))).mpr ⟨w, k4, ew⟩⟩

end

theorem sorted_ext {l m : List Nat} (hl : l.Pairwise (· < ·)) (hm : m.Pairwise (· < ·)) (h : ∀ x, x ∈ l ↔ x ∈ m) : l = m := by
  induction l generalizing m with
  | nil =>
    cases m with
    | nil => rfl
    | cons y m => exact absurd ((h y).mpr (by simp)) (by simp)
  | cons a l ih =>
    cases m with
    | nil => exact absurd ((h a).mp (by simp)) (by simp)
    | cons b m =>
      obtain ⟨h1, h2⟩ := List.pairwise_cons.mp hl
      obtain ⟨h3, h4⟩ := List.pairwise_cons.mp hm
      have hab : a = b := by
        rcases List.mem_cons.mp ((h a).mp (by simp)) with e | e
        · exact e
        · rcases List.mem_cons.mp ((h b).mpr (by simp)) with e' | e'
          · exact e'.symm
          · have := h1 b e'; have := h3 a e; omega
      subst hab
      rw [ih h2 h4 (fun x => ?_)]
      have := h x
      simp only [List.mem_cons] at this
      constructor
      · intro hx
        rcases this.mp (Or.inr hx) with e | e
        · have := h1 x hx; omega
        · exact e
      · intro hx
        rcases this.mpr (Or.inr hx) with e | e
        · have := h3 x hx; omega
        · exact e

section
variable {src : List Src} {s s' : PState} {D : TDb} {list : List Char} {keep : Nat → Bool} {r : List Name × List Name}

theorem mandName_ext (hR : ReadRules src) (hn : Nested (kinds src)) (hK : Kept src keep) {i : Nat} (hi : IsAssert src i) (ki : keep i = true) {nm : Name} :
    MandName (ext src keep r) (pos keep i) nm ↔ MandName src i nm := by
  obtain ⟨h1, h2⟩ := assert_bound hi
  constructor
  · rintro ⟨a, b⟩
    refine ⟨declared_mono hn hK.closed h1 h2 ki a, ?_⟩
    rcases b with b | ⟨p, b, c, d⟩
    · rw [syms_ext h1 h2 ki] at b; exact Or.inl b
    · obtain ⟨j, x, y, rfl, z, w⟩ := active_from hn hK.closed h1 h2 ki b
      rw [kind_ext z w x] at c
      rw [syms_ext z w x] at d
      exact Or.inr ⟨j, y, c, d⟩
  · rintro ⟨a, b⟩
    rcases b with b | ⟨j, b, c, d⟩
    · exact ⟨declared_kept hR hn hK h1 h2 ki (assert_kind hi) (Or.inr rfl) b a, Or.inl (by rw [syms_ext h1 h2 ki]; exact b)⟩
    · have kj := hK.ess i ki hi j b c
      have hj2 : j ≤ src.length := by have := b.2.1; omega
      refine ⟨?_, Or.inr ⟨pos keep j, (active_ext hn hK.closed h1 h2 b.1 hj2 ki kj).mpr b, by rw [kind_ext b.1 hj2 kj]; exact c, by rw [syms_ext b.1 hj2 kj]; exact d⟩⟩
      obtain ⟨k, x, y, z, w⟩ := hK.sym j kj (by rw [c]; simp) nm d
      rw [declared_ext hn hK.closed h1 h2 ki]
      refine ⟨k, x, active_trans hn y b, ?_, w⟩
      obtain ⟨q, _, q2, q3⟩ := a
      rcases z with z | z
      · exact absurd q3 (hR.conVar k q nm z q2 w)
      · exact z

/-- The mandatory hypotheses of an extracted assertion are the same statements. -/
theorem hyps_ext (h : Accepted src s) (h' : Accepted (ext src keep r) s') (hK : Kept src keep) {i : Nat} (hi : IsAssert src i) (ki : keep i = true) :
    (s'.stmt (pos keep i)).reqHyp = (s.stmt i).reqHyp.map (pos keep) := by
  have hR := (C41_read_accepts_exactly src).mp ⟨s, h⟩
  have hn := nested_of hR
  have hn' := nested_of ((C41_read_accepts_exactly _).mp ⟨s', h'⟩)
  obtain ⟨h1, h2⟩ := assert_bound hi
  have hi' : IsAssert (ext src keep r) (pos keep i) := by
    unfold IsAssert
    rw [kind_ext h1 h2 ki]; exact hi
  have hkept : ∀ j ∈ (s.stmt i).reqHyp, keep j = true := by
    intro j hj
    rcases (hyp_name h hn hi).mp hj with ⟨a, b⟩ | ⟨nm, a, b⟩
    · exact hK.ess i ki hi j a b
    · exact hK.flt i ki hi nm b j a
  refine sorted_ext ((inv_of h').frame _ hi').hypSorted ?_ (fun p => ?_)
  · rw [List.pairwise_map]
    refine List.Pairwise.imp_of_mem ?_ ((inv_of h).frame i hi).hypSorted
    intro a b ha hb hlt
    exact pos_lt hlt (hkept b hb)
  · rw [hyp_name h' hn' hi', List.mem_map]
    constructor
    · rintro (⟨a, b⟩ | ⟨nm, a, b⟩)
      · obtain ⟨j, x, y, rfl, z, w⟩ := active_from hn hK.closed h1 h2 ki a
        rw [kind_ext z w x] at b
        exact ⟨j, (hyp_name h hn hi).mpr (Or.inl ⟨y, b⟩), rfl⟩
      · obtain ⟨f, x, y, rfl⟩ := (ffor_ext hn hK.closed h1 h2 ki).mp a
        exact ⟨f, (hyp_name h hn hi).mpr (Or.inr ⟨nm, y, (mandName_ext hR hn hK hi ki).mp b⟩), rfl⟩
    · rintro ⟨j, hj, rfl⟩
      have kj := hkept j hj
      rcases (hyp_name h hn hi).mp hj with ⟨a, b⟩ | ⟨nm, a, b⟩
      · have hj2 : j ≤ src.length := by have := a.2.1; omega
        exact Or.inl ⟨(active_ext hn hK.closed h1 h2 a.1 hj2 ki kj).mpr a, by rw [kind_ext a.1 hj2 kj]; exact b⟩
      · exact Or.inr ⟨nm, (ffor_ext hn hK.closed h1 h2 ki).mpr ⟨j, kj, a, rfl⟩, (mandName_ext hR hn hK hi ki).mpr b⟩

theorem apart_of_ext (hn : Nested (kinds src)) (hK : Closed (kinds src) keep) {i : Nat} (h1 : 1 ≤ i) (h2 : i ≤ src.length) (ki : keep i = true) {x y : Name}
    (h : Apart (ext src keep r) (pos keep i) x y) : Apart src i x y := by
  obtain ⟨hne, p, a, b, c, d⟩ := h
  obtain ⟨j, x', y', rfl, z, w⟩ := active_from hn hK h1 h2 ki a
  rw [kind_ext z w x'] at b
  rw [syms_ext z w x'] at c d
  exact ⟨hne, j, y', b, c, d⟩

theorem apart_to_ext (hn : Nested (kinds src)) (hK : Closed (kinds src) keep) {i : Nat} (h1 : 1 ≤ i) (h2 : i ≤ src.length) (ki : keep i = true) {x y : Name} (hne : x ≠ y)
    {j : Nat} (kj : keep j = true) (a : Active (kinds src) j i) (b : kindAt (kinds src) j = .d) (c : x ∈ symsAt src j) (d : y ∈ symsAt src j) :
    Apart (ext src keep r) (pos keep i) x y := by
  have hj2 : j ≤ src.length := by have := a.2.1; omega
  exact ⟨hne, pos keep j, (active_ext hn hK h1 h2 a.1 hj2 ki kj).mpr a, by rw [kind_ext a.1 hj2 kj]; exact b, by rw [syms_ext a.1 hj2 kj]; exact c,
    by rw [syms_ext a.1 hj2 kj]; exact d⟩

end
end MM.Extr
