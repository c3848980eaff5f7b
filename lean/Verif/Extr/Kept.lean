import Verif.Extr.Keep
/-! # The statements flagged: blocks, hypotheses, declarations -/
namespace MM.Extr
open MM.Veri MM.Pars MM.Spec MM.Trace

section
variable {src : List Src} {s : PState} {D : TDb} {list : List Char} {keep : Nat → Bool}

theorem active_sub {ks : List Kind} (hn : Nested ks) {i j b : Nat} (h : Active ks i j) (hb : b ∈ opens ks (i - 1)) : b ∈ opens ks (j - 1) := by
  obtain ⟨i, rfl⟩ : ∃ k, i = k + 1 := ⟨i - 1, by have := h.1; omega⟩
  obtain ⟨j, rfl⟩ : ∃ k, j = k + 1 := ⟨j - 1, by have := h.2.1; omega⟩
  exact ((active_iff hn).mp h).2.subset hb

/-- The blocks around a `${` or `$}` around `j` are around `j`. -/
theorem around_sub {ks : List Kind} {i j b : Nat} (h : Around ks j i) (hb : b ∈ opens ks (i - 1)) : b ∈ opens ks (j - 1) := by
  obtain ⟨b', hb', e⟩ := h
  obtain ⟨pre, t, ho⟩ := List.append_of_mem hb'
  have hp := opens_pred ho
  rcases e with rfl | e
  · rw [hp] at hb; rw [ho]; simp [hb]
  · have hh := e.2.2
    cases hx : opens ks (i - 1) with
    | nil => rw [hx] at hb; cases hb
    | cons y u =>
      rw [hx] at hh hb
      simp at hh
      subst hh
      have := opens_pred (pre := []) hx
      rw [hp] at this
      subst this
      rw [ho]
      rcases List.mem_cons.mp hb with rfl | hb
      · simp
      · simp [hb]

theorem base_encl (h : Accepted src s) (hn : Nested (kinds src)) (hD : DbOk D src list) {i b : Nat} (hi : Base D src s list i) (hb : b ∈ opens (kinds src) (i - 1)) :
    ∃ j, Wanted D list j ∧ b ∈ opens (kinds src) (j - 1) := by
  rcases hi with hi | ⟨j, hj, ha⟩ | ⟨j, hj, hf⟩
  · exact ⟨i, hi, hb⟩
  · exact ⟨j, hj, around_sub ha hb⟩
  · exact ⟨j, hj, active_sub hn ((frame_mem h hn (wanted_ok hD hj).2.2).2 i hf).1 hb⟩

/-- Which kinds of statements are flagged why -/
theorem flag_decl (h : Accepted src s) {j t i : Nat} (hj : kindAt (kinds src) j ∈ [Kind.a, .p, .e, .f]) (ht : t ∈ s.math j) (hi : i = (declStmts 1 src).getD t 0) :
    Active (kinds src) i j ∧ (kindAt (kinds src) i = .c ∨ kindAt (kinds src) i = .v) := by
  obtain ⟨_, a, b, _⟩ := decl_active h (j := j) (t := t) (by simp only [List.mem_cons, List.not_mem_nil, or_false] at hj ⊢; tauto) ht
  rw [hi]; exact ⟨a, b⟩

theorem flag_encl (h : Accepted src s) (hn : Nested (kinds src)) (hD : DbOk D src list) {i b : Nat} (hi : Flag D src s list i) (hb : b ∈ opens (kinds src) (i - 1)) :
    ∃ j, Wanted D list j ∧ b ∈ opens (kinds src) (j - 1) := by
  rcases hi with hi | ⟨j, hj, hk, t, ht, e⟩
  · exact base_encl h hn hD hi hb
  · exact base_encl h hn hD hj (active_sub hn (flag_decl h hk ht e).1 hb)

theorem flag_brace (h : Accepted src s) (hn : Nested (kinds src)) (hD : DbOk D src list) {i : Nat} (hk : kindAt (kinds src) i = .lb ∨ kindAt (kinds src) i = .rb) :
    Flag D src s list i ↔ ∃ j, Wanted D list j ∧ Around (kinds src) j i := by
  constructor
  · rintro ((hi | hi | ⟨j, hj, hf⟩) | ⟨j, hj, hk', t, ht, e⟩)
    · rcases (wanted_ok hD hi).2.2 with e | e <;> rw [e] at hk <;> simp at hk
    · exact hi
    · have := ((frame_mem h hn (wanted_ok hD hj).2.2).2 i hf).2
      rcases hk with e | e <;> rw [e] at this <;> simp at this
    · have := (flag_decl h hk' ht e).2
      rcases hk with e | e <;> rw [e] at this <;> simp at this
  · intro hi; exact Or.inl (Or.inr (Or.inl hi))

/-- The assertions flagged are the ones wanted. -/
theorem flag_assert (h : Accepted src s) (hn : Nested (kinds src)) (hD : DbOk D src list) {i : Nat} (hk : IsAssert src i) :
    Flag D src s list i ↔ Wanted D list i := by
  constructor
  · rintro ((hi | ⟨j, _, hi⟩ | ⟨j, hj, hf⟩) | ⟨j, hj, hk', t, ht, e⟩)
    · exact hi
    · have := around_kind hi
      rcases hk with e | e <;> rw [e] at this <;> simp at this
    · have := ((frame_mem h hn (wanted_ok hD hj).2.2).2 i hf).2
      rcases hk with e | e <;> rw [e] at this <;> simp at this
    · have := (flag_decl h hk' ht e).2
      rcases hk with e | e <;> rw [e] at this <;> simp at this
  · intro hi; exact Or.inl (Or.inl hi)

theorem flag_math (h : Accepted src s) {i : Nat} (hk : kindAt (kinds src) i ∈ [Kind.d, .e, .f, .a, .p]) (hi : Flag D src s list i) : Base D src s list i := by
  rcases hi with hi | ⟨j, hj, hk', t, ht, e⟩
  · exact hi
  · have := (flag_decl h hk' ht e).2
    rcases this with e | e <;> rw [e] at hk <;> simp at hk

variable (hkeep : ∀ i, keep i = true ↔ Flag D src s list i)
include hkeep

theorem closed_flag (h : Accepted src s) (hn : Nested (kinds src)) (hD : DbOk D src list) : Closed (kinds src) keep := by
  refine ⟨fun i hi hk b t ho => ?_, fun i hi hki b hb => ?_⟩
  · have hb : b ∈ opens (kinds src) i := by rw [ho]; simp
    have hlb := opens_lt hb
    have key : keep (i + 1) = true ↔ keep b = true := by
      rw [hkeep, hkeep, flag_brace h hn hD (Or.inr hk), flag_brace h hn hD (Or.inl hlb.2.2)]
      constructor
      · rintro ⟨j, hj, b', hb', e⟩
        rcases e with e | e
        · have := (opens_lt hb').2.2
          rw [← e, hk] at this; cases this
        · have := e.2.2
          rw [Nat.add_sub_cancel, ho] at this
          simp at this
          subst this
          exact ⟨j, hj, b, hb', Or.inl rfl⟩
      · rintro ⟨j, hj, b', hb', e⟩
        rcases e with e | e
        · subst e
          exact ⟨j, hj, b, hb', Or.inr ⟨by omega, hk, by rw [Nat.add_sub_cancel, ho]; rfl⟩⟩
        · have := e.2.1
          rw [hlb.2.2] at this; cases this
    cases hx : keep (i + 1) <;> cases hy : keep b <;> simp [hx, hy] at key ⊢
  · have := flag_encl h hn hD ((hkeep _).mp hki) (by rw [Nat.add_sub_cancel]; exact hb)
    obtain ⟨j, hj, hb'⟩ := this
    exact (hkeep b).mpr (Or.inl (Or.inr (Or.inl ⟨j, hj, b, hb', Or.inl rfl⟩)))

/-- The declarations of the symbols of `$a`, `$p`, `$e`, `$f` statements are kept. -/
theorem sym_flag (h : Accepted src s) {i : Nat} (hi : keep i = true) (hk : kindAt (kinds src) i ∈ [Kind.e, .f, .a, .p]) {t : Nat} (ht : t ∈ s.math i) :
    keep ((declStmts 1 src).getD t 0) = true := by
  rw [hkeep] at hi ⊢
  have hb := flag_math h (by simp only [List.mem_cons, List.not_mem_nil, or_false] at hk ⊢; tauto) hi
  exact Or.inr ⟨i, hb, by simp only [List.mem_cons, List.not_mem_nil, or_false] at hk ⊢; tauto, t, ht, rfl⟩

theorem frame_flag (h : Accepted src s) (hn : Nested (kinds src)) (hD : DbOk D src list) {i j : Nat} (hi : keep i = true) (hk : IsAssert src i)
    (hj : j ∈ frameStmts (declStmts 1 src) (s.stmt i)) : keep j = true := by
  rw [hkeep] at hi ⊢
  exact Or.inl (Or.inr (Or.inr ⟨i, (flag_assert h hn hD hk).mp hi, hj⟩))

end

section
variable {src : List Src} {s : PState}

/-- The symbols of a statement by name and by token -/
theorem tok_of_name (h : Accepted src s) {i : Nat} (hk : kindAt (kinds src) i ∈ [Kind.d, .e, .f, .a, .p] ∨ kindAt (kinds src) i = .c ∨ kindAt (kinds src) i = .v) {nm : Name} :
    nm ∈ symsAt src i ↔ ∃ t ∈ s.math i, tokName (declToks src) t = some nm := by
  refine mem_syms (names_at (inv_of h).toSInv ?_ ?_ ?_)
  all_goals
    intro e
    rw [e] at hk
    simp at hk

theorem name_uniq (h : Accepted src s) {i t t' : Nat} (h1 : 1 ≤ i) (h2 : i ≤ src.length + 1) (ht : TokActive (kinds src) s.math i t) (ht' : TokActive (kinds src) s.math i t')
    (hn : tokName (declToks src) t = tokName (declToks src) t') : t = t' := by
  have e : i = (src.take (i - 1)).length + 1 := by rw [List.length_take, Nat.min_eq_left (by omega)]; omega
  rw [e] at ht ht'
  exact C37_active_names_unique h (List.take_append_drop (i - 1) src).symm ht ht' hn

theorem tokActive_of (h : Accepted src s) (hn : Nested (kinds src)) {i j t : Nat} (hj : j = i ∨ Active (kinds src) j i) (hk : kindAt (kinds src) j ∈ [Kind.d, .e, .f, .a, .p])
    (ht : t ∈ s.math j) : TokActive (kinds src) s.math i t := by
  obtain ⟨_, k, a, b, c⟩ := (inv_of h).acts j hk t ht
  rcases hj with rfl | hj
  · exact ⟨k, a, b, c⟩
  · exact ⟨k, active_trans hn a hj, b, c⟩

/-- An active `$f` for a mandatory variable is a mandatory hypothesis. -/
theorem ffor_hyp (h : Accepted src s) (hn : Nested (kinds src)) {i f : Nat} (hi : IsAssert src i) (hi2 : i ≤ src.length) {nm : Name} (hm : MandName src i nm)
    (hf : FFor src i f nm) : f ∈ (s.stmt i).reqHyp := by
  have hki : kindAt (kinds src) i ∈ [Kind.d, .e, .f, .a, .p] := by rcases hi with e | e <;> rw [e] <;> simp
  have hi1 : 1 ≤ i := by have := hf.1.2.1; have := hf.1.1; omega
  obtain ⟨c, v, hcv, _, hv⟩ := (inv_of h).fShape f hf.2.1
  have hvn : tokName (declToks src) v = some nm := by
    have hnm := names_at (inv_of h).toSInv (j := f) (by rw [hf.2.1]; simp) (by rw [hf.2.1]; simp) (by rw [hf.2.1]; simp)
    rw [hcv] at hnm
    have h3 := hf.2.2
    have : ((symsAt src f).map some)[1]? = some (some nm) := by rw [List.getElem?_map, h3]; rfl
    rw [← hnm] at this
    simpa using this
  have hvm : v ∈ s.math f := by rw [hcv]; simp
  have hva := tokActive_of h hn (Or.inr hf.1) (by rw [hf.2.1]; simp) hvm
  refine (((inv_of h).frame i hi).hyp f).mpr ⟨hf.1, Or.inr ⟨hf.2.1, v, hvm, hv, ?_⟩⟩
  rcases hm.2 with a | ⟨j, a, b, c⟩
  · obtain ⟨t, ht, e⟩ := (tok_of_name h (Or.inl hki)).mp a
    have := name_uniq h hi1 (by omega) (tokActive_of h hn (Or.inl rfl) hki ht) hva (by rw [e, hvn])
    subst this; exact Or.inl ht
  · obtain ⟨t, ht, e⟩ := (tok_of_name h (Or.inl (by rw [b]; simp))).mp c
    have := name_uniq h hi1 (by omega) (tokActive_of h hn (Or.inr a) (by rw [b]; simp) ht) hva (by rw [e, hvn])
    subst this; exact Or.inr ⟨j, a, b, ht⟩

variable {D : TDb} {list : List Char} {keep : Nat → Bool}

/-- Every symbol of a `$d` statement kept is declared by a statement kept. -/
def DKept (src : List Src) (keep : Nat → Bool) : Prop := ∀ i, keep i = true → kindAt (kinds src) i = .d → ∀ nm ∈ symsAt src i,
  ∃ j, keep j = true ∧ Active (kinds src) j i ∧ kindAt (kinds src) j = .v ∧ nm ∈ symsAt src j

theorem kept_flag (h : Accepted src s) (hn : Nested (kinds src)) (hD : DbOk D src list) (hkeep : ∀ i, keep i = true ↔ Flag D src s list i) (hd : DKept src keep) : Kept src keep := by
  refine ⟨closed_flag hkeep h hn hD, fun i hi hk nm hm => ?_, fun i hi hk j hj hke => ?_, fun i hi hk nm hm f hf => ?_⟩
  · by_cases hdd : kindAt (kinds src) i = .d
    · obtain ⟨j, a, b, c, d⟩ := hd i hi hdd nm hm
      exact ⟨j, a, b, Or.inr c, d⟩
    · obtain ⟨t, ht, e⟩ := (tok_of_name h (Or.inl hk)).mp hm
      obtain ⟨_, a, b, c⟩ := decl_active h hk ht
      refine ⟨_, sym_flag hkeep h hi ?_ ht, a, b, ?_⟩
      · simp only [List.mem_cons, List.not_mem_nil, or_false] at hk ⊢; tauto
      · exact (tok_of_name h (Or.inr b)).mpr ⟨t, c, e⟩
  · refine frame_flag hkeep h hn hD hi hk ?_
    have := (((inv_of h).frame i hk).hyp j).mpr ⟨hj, Or.inl hke⟩
    unfold frameStmts
    simp [this]
  · refine frame_flag hkeep h hn hD hi hk ?_
    have := kind_bound (ks := kinds src) (i := i) (by rcases hk with e | e <;> rw [e] <;> simp)
    rw [kinds_length] at this
    have := ffor_hyp h hn hk this.2 hm hf
    unfold frameStmts
    simp [this]

/-- A variable of a `$d` active at a wanted theorem is declared by a statement kept. -/
theorem dkept_thm (h : Accepted src s) (hn : Nested (kinds src)) (hD : DbOk D src list) (hkeep : ∀ i, keep i = true ↔ Flag D src s list i) {i j : Nat}
    (hj : kindAt (kinds src) j = .p) (kj : keep j = true) (hi : Active (kinds src) i j) (hd : kindAt (kinds src) i = .d) {t : Nat} (ht : t ∈ s.math i) :
    keep ((declStmts 1 src).getD t 0) = true := by
  refine frame_flag hkeep h hn hD kj (Or.inr hj) ?_
  obtain ⟨_, k, a, b, c⟩ := (inv_of h).acts i (by rw [hd]; simp) t ht
  have hv := ((inv_of h).dShape i hd).2.2 t ht
  have hkv : kindAt (kinds src) k = .v := by
    rcases b with b | b
    · obtain ⟨x, y, z, _⟩ := (inv_of h).acts i (by rw [hd]; simp) t ht
      exfalso
      have hm := (tok_of_name h (i := k) (Or.inr (Or.inl b)) (nm := ((declToks src)[t]?.map (·.1)).getD [])).mpr ⟨t, c, by
        unfold tokName
        rw [List.getElem?_eq_getElem x]; rfl⟩
      have h1 : (((declToks src)[t]?.map (·.1)).getD [], true) ∈ declToks src := by
        rw [← hv]
        refine tok_mem ?_
        unfold tokName
        rw [List.getElem?_eq_getElem x]; rfl
      obtain ⟨q, hq1, hq2⟩ := mem_declToks_at.mp h1
      have hR := (C41_read_accepts_exactly src).mp ⟨s, h⟩
      exact hR.conVar k q _ b (by simpa using hq1) hm hq2
    · exact b
  have F := (inv_of h).frame j (Or.inr hj)
  by_cases hm : Mandatory (isVarOf src) (kinds src) s.math j t
  · have := (F.var t).mpr hm
    unfold frameStmts
    simp only [List.mem_append, List.mem_map]
    exact Or.inl (Or.inl (Or.inl (Or.inr ⟨t, this, rfl⟩)))
  · have := (F.oVar hj t).mpr ⟨⟨k, active_trans hn a hi, hkv, c⟩, hm⟩
    unfold frameStmts
    simp only [List.mem_append, List.mem_map]
    exact Or.inl (Or.inl (Or.inr ⟨t, this, rfl⟩))

end
end MM.Extr
