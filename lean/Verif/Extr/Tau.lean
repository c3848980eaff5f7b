import Verif.Extr.Frame
/-!
# The symbols of the extract

`tau` gives for each symbol (token number) of the source, if its declaration is kept, the token number it has in the extract.
-/
namespace MM.Extr
open MM.Veri MM.Pars MM.Spec

/-- The token of the extract for the token `t` of the source: the same place in the same declaration. -/
def tau (src : List Src) (s s' : PState) (keep : Nat → Bool) (t : Nat) : Nat :=
  (s'.math (pos keep ((declStmts 1 src).getD t 0))).getD ((s.math ((declStmts 1 src).getD t 0)).idxOf t) 0

/-- The declaration of `t` is kept. -/
def Used (src : List Src) (keep : Nat → Bool) (t : Nat) : Prop := t < (declToks src).length ∧ keep ((declStmts 1 src).getD t 0) = true

theorem map_eq_inj {α β : Type} {f : α → β} : ∀ {l m : List α}, l.map f = m.map f → (∀ x ∈ l, ∀ y ∈ m, f x = f y → x = y) → l = m
  | [], [], _, _ => rfl
  | [], _ :: _, h, _ => by simp at h
  | _ :: _, [], h, _ => by simp at h
  | x :: l, y :: m, h, hi => by
    simp only [List.map_cons, List.cons.injEq] at h
    rw [hi x (by simp) y (by simp) h.1, map_eq_inj h.2 (fun a ha b hb => hi a (by simp [ha]) b (by simp [hb]))]

section
variable {src : List Src} {s : PState}

/-- Names within a declaration are different. -/
theorem decl_name_inj (h : Accepted src s) {d : Nat} (hd : kindAt (kinds src) d = .c ∨ kindAt (kinds src) d = .v) {a b : Nat} (ha : a ∈ s.math d) (hb : b ∈ s.math d)
    (e : tokName (declToks src) a = tokName (declToks src) b) : a = b := by
  have hR := (C41_read_accepts_exactly src).mp ⟨s, h⟩
  have hbd := kind_bound (ks := kinds src) (i := d) (by rcases hd with e | e <;> rw [e] <;> simp)
  rw [kinds_length] at hbd
  have hnd := ((hR.stmt d hbd.1 hbd.2).decl hd).2.1
  have hnm := names_at (inv_of h).toSInv (j := d) (by rcases hd with e | e <;> rw [e] <;> simp) (by rcases hd with e | e <;> rw [e] <;> simp) (by rcases hd with e | e <;> rw [e] <;> simp)
  have : ((s.math d).map (tokName (declToks src))).Nodup := by
    rw [hnm]
    exact hnd.map (fun x y hxy => Option.some.inj hxy)
  exact List.inj_on_of_nodup_map this ha hb e

variable {s' : PState} {keep : Nat → Bool} {r : List Name × List Name}

theorem used_of (h : Accepted src s) {d t : Nat} (hd : kindAt (kinds src) d = .c ∨ kindAt (kinds src) d = .v) (ht : t ∈ s.math d) (kd : keep d = true) : Used src keep t := by
  have := decl_of_mem h hd ht
  refine ⟨?_, ?_⟩
  · rw [← declStmts_length src 1]
    exact (List.getElem?_eq_some_iff.mp this).1
  · rw [List.getD_eq_getElem?_getD, this]; exact kd

/-- What `tau` does -/
theorem tau_mem (h : Accepted src s) (h' : Accepted (ext src keep r) s') {t : Nat} (hu : Used src keep t) :
    ∃ d, 1 ≤ d ∧ d ≤ src.length ∧ keep d = true ∧ (declStmts 1 src)[t]? = some d ∧ (kindAt (kinds src) d = .c ∨ kindAt (kinds src) d = .v) ∧ t ∈ s.math d ∧
      tau src s s' keep t ∈ s'.math (pos keep d) ∧ tokName (declToks (ext src keep r)) (tau src s s' keep t) = tokName (declToks src) t := by
  obtain ⟨d, a, b, c, e, f⟩ := decl_mem h hu.1
  have hd : (declStmts 1 src).getD t 0 = d := by rw [List.getD_eq_getElem?_getD, a]; rfl
  have kd : keep d = true := by rw [← hd]; exact hu.2
  have hk' := kind_ext (r := r) b c kd
  have hs' := syms_ext (r := r) b c kd
  have n1 := names_at (inv_of h).toSInv (j := d) (by rcases e with e | e <;> rw [e] <;> simp) (by rcases e with e | e <;> rw [e] <;> simp) (by rcases e with e | e <;> rw [e] <;> simp)
  have n2 := names_at (inv_of h').toSInv (j := pos keep d) (by rw [hk']; rcases e with e | e <;> rw [e] <;> simp) (by rw [hk']; rcases e with e | e <;> rw [e] <;> simp)
    (by rw [hk']; rcases e with e | e <;> rw [e] <;> simp)
  rw [hs', ← n1] at n2
  have hlen : (s'.math (pos keep d)).length = (s.math d).length := by simpa using congrArg List.length n2
  have hi : (s.math d).idxOf t < (s.math d).length := List.idxOf_lt_length_iff.mpr f
  have htau : tau src s s' keep t = (s'.math (pos keep d))[(s.math d).idxOf t]'(by omega) := by
    unfold tau
    rw [hd, List.getD_eq_getElem?_getD, List.getElem?_eq_getElem (by omega)]; rfl
  refine ⟨d, b, c, kd, a, e, f, ?_, ?_⟩
  · rw [htau]; exact List.getElem_mem _
  · have := congrArg (fun l => l[(s.math d).idxOf t]?) n2
    simp only [List.getElem?_map] at this
    rw [List.getElem?_eq_getElem (by omega), List.getElem?_eq_getElem hi, List.getElem_idxOf] at this
    simp only [Option.map_some, Option.some.injEq] at this
    rw [htau]; exact this

theorem tau_inj (h : Accepted src s) (h' : Accepted (ext src keep r) s') {a b : Nat} (ha : Used src keep a) (hb : Used src keep b)
    (e : tau src s s' keep a = tau src s s' keep b) : a = b := by
  obtain ⟨d, a1, a2, a3, a4, a5, a6, a7, a8⟩ := tau_mem h h' ha
  obtain ⟨d2, b1, b2, b3, b4, b5, b6, b7, b8⟩ := tau_mem h h' hb
  have x := decl_of_mem h' (i := pos keep d) (by rw [kind_ext a1 a2 a3]; exact a5) a7
  have y := decl_of_mem h' (i := pos keep d2) (by rw [kind_ext b1 b2 b3]; exact b5) b7
  rw [e, y] at x
  simp only [Option.some.injEq] at x
  have := pos_inj b3 a3 x
  subst this
  exact decl_name_inj h a5 a6 b6 (by rw [← a8, ← b8, e])

theorem tau_isVar (h : Accepted src s) (h' : Accepted (ext src keep r) s') {t : Nat} (hu : Used src keep t) :
    isVarOf (ext src keep r) (tau src s s' keep t) = isVarOf src t := by
  obtain ⟨d, a1, a2, a3, a4, a5, a6, a7, a8⟩ := tau_mem h h' hu
  have x := decl_of_mem h' (i := pos keep d) (by rw [kind_ext a1 a2 a3]; exact a5) a7
  have hl : tau src s s' keep t < (declToks (ext src keep r)).length := by
    rw [← declStmts_length _ 1]
    exact (List.getElem?_eq_some_iff.mp x).1
  obtain ⟨j, _, _, j3, j4, _⟩ := tok_decl h hu.1
  obtain ⟨j', _, _, k3, k4, _⟩ := tok_decl h' hl
  have e1 := decl_of_mem h (i := j) (by rw [j3]; cases tokIsVar (declToks src) t <;> simp) j4
  have e2 := decl_of_mem h' (i := j') (by rw [k3]; cases tokIsVar (declToks (ext src keep r)) (tau src s s' keep t) <;> simp) k4
  rw [a4] at e1
  rw [x] at e2
  simp only [Option.some.injEq] at e1 e2
  subst e1 e2
  rw [kind_ext a1 a2 a3, j3] at k3
  show tokIsVar _ _ = tokIsVar _ _
  cases h1 : tokIsVar (declToks src) t <;> cases h2 : tokIsVar (declToks (ext src keep r)) (tau src s s' keep t) <;> rw [h1, h2] at k3 <;> simp at k3 <;> rfl

/-- The math string of a statement kept -/
theorem math_tau (h : Accepted src s) (h' : Accepted (ext src keep r) s') (hK : Kept src keep) {i : Nat} (ki : keep i = true)
    (hk : kindAt (kinds src) i ∈ [Kind.d, .e, .f, .a, .p]) :
    (∀ t ∈ s.math i, Used src keep t) ∧ s'.math (pos keep i) = (s.math i).map (tau src s s' keep) := by
  have hn := nested_of ((C41_read_accepts_exactly src).mp ⟨s, h⟩)
  have hn' := nested_of ((C41_read_accepts_exactly _).mp ⟨s', h'⟩)
  have hnb : ∀ k : Kind, k ∉ [Kind.d, .e, .f, .a, .p] → kindAt (kinds src) i ≠ k := fun k a b => a (b ▸ hk)
  obtain ⟨i1, i2⟩ := kind_bound (ks := kinds src) (i := i) (hnb _ (by simp))
  rw [kinds_length] at i2
  have hdecl : ∀ t ∈ s.math i, ∃ d, keep d = true ∧ Active (kinds src) d i ∧ (kindAt (kinds src) d = .c ∨ kindAt (kinds src) d = .v) ∧ t ∈ s.math d := by
    intro t ht
    obtain ⟨hlt, _⟩ := (inv_of h).acts i hk t ht
    have hnm := (tok_of_name h (Or.inl hk)).mpr ⟨t, ht, nameOf_some hlt⟩
    obtain ⟨j, a, b, c, d⟩ := hK.sym i ki hk _ hnm
    obtain ⟨t2, e1, e2⟩ := (tok_of_name h (Or.inr c)).mp d
    have := name_uniq h i1 (by omega) (tokActive_of h hn (Or.inl rfl) hk ht) ⟨j, b, c, e1⟩ (by rw [e2, nameOf_some hlt])
    subst this
    exact ⟨j, a, b, c, e1⟩
  have hused : ∀ t ∈ s.math i, Used src keep t := by
    intro t ht
    obtain ⟨d, a, b, c, e⟩ := hdecl t ht
    exact used_of h c e a
  refine ⟨hused, ?_⟩
  have hk' := kind_ext (r := r) i1 i2 ki
  have hs' := syms_ext (r := r) i1 i2 ki
  have n1 := names_at (inv_of h).toSInv (j := i) (hnb _ (by simp)) (hnb _ (by simp)) (hnb _ (by simp))
  have n2 := names_at (inv_of h').toSInv (j := pos keep i) (by rw [hk']; exact hnb _ (by simp)) (by rw [hk']; exact hnb _ (by simp)) (by rw [hk']; exact hnb _ (by simp))
  rw [hs', ← n1] at n2
  have hp1 : 1 ≤ pos keep i := by
    obtain ⟨k, rfl⟩ : ∃ k, i = k + 1 := ⟨i - 1, by omega⟩
    rw [pos_kept ki]; omega
  have hp2 : pos keep i ≤ (ext src keep r).length := by
    unfold ext
    rw [List.length_append, pick_length]; have := pos_mono (keep := keep) i2; omega
  apply map_eq_inj (f := tokName (declToks (ext src keep r)))
  · rw [n2, List.map_map]
    apply List.map_congr_left
    intro t ht
    obtain ⟨_, _, _, _, _, _, _, _, e⟩ := tau_mem h h' (hused t ht)
    exact e.symm
  · intro x hx y hy e
    obtain ⟨t, ht, rfl⟩ := List.mem_map.mp hy
    refine name_uniq h' hp1 (by omega) (tokActive_of h' hn' (Or.inl rfl) (by rw [hk']; exact hk) hx) ?_ e
    obtain ⟨d, a1, a2, a3, a4, a5, a6, a7, a8⟩ := tau_mem h h' (hused t ht)
    obtain ⟨d2, b1, b2, b3, b4⟩ := hdecl t ht
    have := decl_of_mem h b3 b4
    rw [a4] at this
    simp only [Option.some.injEq] at this
    subst this
    exact ⟨pos keep d, (active_ext hn hK.closed i1 i2 a1 a2 ki a3).mpr b2, by rw [kind_ext a1 a2 a3]; exact a5, a7⟩

/-- Mandatory variables of the extract come from mandatory variables. -/
theorem mand_from (h : Accepted src s) (h' : Accepted (ext src keep r) s') (hK : Kept src keep) {i : Nat} (hi : IsAssert src i) (ki : keep i = true) {v' : Nat}
    (hm : Mandatory (isVarOf (ext src keep r)) (kinds (ext src keep r)) s'.math (pos keep i) v') :
    ∃ v, Mandatory (isVarOf src) (kinds src) s.math i v ∧ Used src keep v ∧ v' = tau src s s' keep v := by
  have hn := nested_of ((C41_read_accepts_exactly src).mp ⟨s, h⟩)
  obtain ⟨i1, i2⟩ := assert_bound hi
  obtain ⟨hv, hm⟩ := hm
  rcases hm with hm | ⟨j', a, b, c⟩
  · obtain ⟨u, e⟩ := math_tau h h' hK ki (by rcases hi with e | e <;> rw [e] <;> simp)
    rw [e] at hm
    obtain ⟨v, x, rfl⟩ := List.mem_map.mp hm
    rw [tau_isVar h h' (u v x)] at hv
    exact ⟨v, ⟨hv, Or.inl x⟩, u v x, rfl⟩
  · obtain ⟨j, x, y, rfl, z, w⟩ := active_from hn hK.closed i1 i2 ki a
    rw [kind_ext z w x] at b
    obtain ⟨u, e⟩ := math_tau h h' hK x (by rw [b]; simp)
    rw [e] at c
    obtain ⟨v, q, rfl⟩ := List.mem_map.mp c
    rw [tau_isVar h h' (u v q)] at hv
    exact ⟨v, ⟨hv, Or.inr ⟨j, y, b, q⟩⟩, u v q, rfl⟩

theorem mand_to (h : Accepted src s) (h' : Accepted (ext src keep r) s') (hK : Kept src keep) {i : Nat} (hi : IsAssert src i) (ki : keep i = true) {v : Nat}
    (hm : Mandatory (isVarOf src) (kinds src) s.math i v) :
    Mandatory (isVarOf (ext src keep r)) (kinds (ext src keep r)) s'.math (pos keep i) (tau src s s' keep v) ∧ Used src keep v := by
  have hn := nested_of ((C41_read_accepts_exactly src).mp ⟨s, h⟩)
  obtain ⟨i1, i2⟩ := assert_bound hi
  obtain ⟨hv, hm⟩ := hm
  rcases hm with hm | ⟨j, a, b, c⟩
  · obtain ⟨u, e⟩ := math_tau h h' hK ki (by rcases hi with e | e <;> rw [e] <;> simp)
    refine ⟨⟨by rw [tau_isVar h h' (u v hm)]; exact hv, Or.inl ?_⟩, u v hm⟩
    rw [e]; exact List.mem_map_of_mem hm
  · have kj := hK.ess i ki hi j a b
    have j2 : j ≤ src.length := by have := a.2.1; omega
    obtain ⟨u, e⟩ := math_tau h h' hK kj (by rw [b]; simp)
    refine ⟨⟨by rw [tau_isVar h h' (u v c)]; exact hv, Or.inr ⟨pos keep j, ?_, ?_, ?_⟩⟩, u v c⟩
    · exact (active_ext hn hK.closed i1 i2 a.1 j2 ki kj).mpr a
    · rw [kind_ext a.1 j2 kj]; exact b
    · rw [e]; exact List.mem_map_of_mem c

theorem dv_from (h : Accepted src s) (h' : Accepted (ext src keep r) s') (hK : Kept src keep) {i : Nat} (i1 : 1 ≤ i) (i2 : i ≤ src.length) (ki : keep i = true) {a b : Nat}
    (ha : Used src keep a) (hb : Used src keep b)
    (hd : DvDeclared (kinds (ext src keep r)) s'.math (pos keep i) (tau src s s' keep a) (tau src s s' keep b)) : DvDeclared (kinds src) s.math i a b := by
  have hn := nested_of ((C41_read_accepts_exactly src).mp ⟨s, h⟩)
  obtain ⟨j', x, y, z, w⟩ := hd
  obtain ⟨j, c, d, rfl, e, f⟩ := active_from hn hK.closed i1 i2 ki x
  rw [kind_ext e f c] at y
  obtain ⟨u, q⟩ := math_tau h h' hK c (by rw [y]; simp)
  rw [q] at z w
  obtain ⟨a', z1, z2⟩ := List.mem_map.mp z
  obtain ⟨b', w1, w2⟩ := List.mem_map.mp w
  have := tau_inj h h' (u _ z1) ha z2
  subst this
  have := tau_inj h h' (u _ w1) hb w2
  subst this
  exact ⟨j, d, y, z1, w1⟩

/-- A pair in a `$d` kept -/
theorem dv_to (h : Accepted src s) (h' : Accepted (ext src keep r) s') (hK : Kept src keep) {i j : Nat} (i1 : 1 ≤ i) (i2 : i ≤ src.length) (ki : keep i = true)
    (kj : keep j = true) (ha : Active (kinds src) j i) (hd : kindAt (kinds src) j = .d) {a b : Nat} (h1 : a ∈ s.math j) (h2 : b ∈ s.math j) :
    DvDeclared (kinds (ext src keep r)) s'.math (pos keep i) (tau src s s' keep a) (tau src s s' keep b) := by
  have hn := nested_of ((C41_read_accepts_exactly src).mp ⟨s, h⟩)
  have j2 : j ≤ src.length := by have := ha.2.1; omega
  obtain ⟨_, q⟩ := math_tau h h' hK kj (by rw [hd]; simp)
  refine ⟨pos keep j, (active_ext hn hK.closed i1 i2 ha.1 j2 ki kj).mpr ha, by rw [kind_ext ha.1 j2 kj]; exact hd, ?_, ?_⟩ <;> rw [q]
  · exact List.mem_map_of_mem h1
  · exact List.mem_map_of_mem h2

end
end MM.Extr
