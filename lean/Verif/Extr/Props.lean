import Verif.Extr.Frame
import Verif.Trace.Source
/-!
# C72: WRITE SOURCE / EXTRACT

`Wanted` are the assertions whose labels match the pattern and everything they depend on (C51).  `pick keep 1 src` are the statements of `src` whose numbers
are in `keep`, in the same order, and `pos keep i` is the new number of statement `i`.
-/
namespace MM.Extr
open MM.Veri MM.Pars MM.Spec MM.Trace MM.Proof MM.Lex

section
variable {src : List Src} {s : PState} {D : TDb} {list : List Char}

/-- **C72**, what is written: the assertions wanted and no others, in the old order; the declarations at the end declare exactly the symbols that
would be missing. -/
theorem C72_extract_selects (h : Accepted src s) (hD : DbOk D src list) :
    ∃ keep r, extract D src s list = .val (pick keep 1 src ++ unused r) ∧ (∀ i, IsAssert src i → (keep i = true ↔ Wanted D list i)) ∧
      (∀ x, x ∈ declToks (pick keep 1 src ++ unused r) ↔ x ∈ declToks src) ∧
      (∀ nm, nm ∈ r.1 ∨ nm ∈ r.2 → ∀ i, keep i = true → kindAt (kinds src) i = .c ∨ kindAt (kinds src) i = .v → nm ∉ symsAt src i) := by
  have hR := (C41_read_accepts_exactly src).mp ⟨s, h⟩
  have hn := nested_of hR
  obtain ⟨keep, h1, h2⟩ := needed_ok h hR hD
  have hx := rest_lost (keep := keep) h
  refine ⟨keep, lost src s keep, ?_, fun i hi => ?_, fun x => ⟨fun hm => ?_, fun hm => ?_⟩, fun nm hm i ki hk => hx.new nm hm i ki hk⟩
  · unfold extract
    rw [h1, Out.bind_val, if_neg, written_pick]
    · rfl
    · rw [h2]
      intro hf
      have hk : kindAt (kinds src) (src.length + 1) = .none := kindAt_over (by rw [kinds_length]; omega)
      rcases hf with (hf | ⟨j, _, hf⟩ | ⟨j, hj, hf⟩) | ⟨j, hj, hk', t, ht, e⟩
      · have := (wanted_ok hD hf).2.1; omega
      · have := around_kind hf
        rw [hk] at this; simp at this
      · have := ((frame_mem h hn (wanted_ok hD hj).2.2).2 _ hf).2
        rw [hk] at this; simp at this
      · have := (flag_decl h hk' ht e).2
        rw [hk] at this; simp at this
  · rw [h2, flag_assert h hn hD hi]
  · obtain ⟨nm, b⟩ := x
    obtain ⟨p, a, c⟩ := mem_declToks_at.mp hm
    rw [mem_declToks_at]
    exact decl_from hx (by cases b <;> simp) a c
  · obtain ⟨nm, b⟩ := x
    exact lost_all h hm

/-- **C72**, the extract can be read: READ accepts it if and only if every variable of a `$d` statement extracted is declared by an extracted statement
that is active there.  (This is all that can go wrong; `C72_axiom_loses_variable` below shows that it can.)  And then every extracted assertion has
the same mandatory variables, the same mandatory hypotheses in the same order and the same distinct variable conditions; an extracted theorem also has
the same optional `$f` hypotheses and `$d` conditions. -/
theorem C72_extract_reads_back_partial (h : Accepted src s) (hD : DbOk D src list) :
    ∃ keep r, extract D src s list = .val (pick keep 1 src ++ unused r) ∧ (∀ i, IsAssert src i → (keep i = true ↔ Wanted D list i)) ∧
      ((∃ s', Accepted (pick keep 1 src ++ unused r) s') ↔
        ∀ i, keep i = true → kindAt (kinds src) i = .d → ∀ nm ∈ symsAt src i, ∃ j, keep j = true ∧ Active (kinds src) j i ∧ kindAt (kinds src) j = .v ∧ nm ∈ symsAt src j) ∧
      ∀ s', Accepted (pick keep 1 src ++ unused r) s' → ∀ i, keep i = true → IsAssert src i →
        kindAt (kinds (pick keep 1 src ++ unused r)) (pos keep i) = kindAt (kinds src) i ∧
        (pick keep 1 src ++ unused r)[pos keep i - 1]? = src[i - 1]? ∧
        (∀ nm, MandName (pick keep 1 src ++ unused r) (pos keep i) nm ↔ MandName src i nm) ∧
        (s'.stmt (pos keep i)).reqHyp = (s.stmt i).reqHyp.map (pos keep) ∧
        (∀ j ∈ (s.stmt i).reqHyp, (pick keep 1 src ++ unused r)[pos keep j - 1]? = src[j - 1]?) ∧
        (∀ x y, MandName src i x → MandName src i y → (Apart (pick keep 1 src ++ unused r) (pos keep i) x y ↔ Apart src i x y)) ∧
        (kindAt (kinds src) i = .p → (∀ x y, Apart (pick keep 1 src ++ unused r) (pos keep i) x y ↔ Apart src i x y) ∧
          ∀ p nm, FFor (pick keep 1 src ++ unused r) (pos keep i) p nm ↔ ∃ f, FFor src i f nm ∧ pos keep f = p ∧ (pick keep 1 src ++ unused r)[p - 1]? = src[f - 1]?) := by
  have hR := (C41_read_accepts_exactly src).mp ⟨s, h⟩
  have hn := nested_of hR
  obtain ⟨keep, h1, h2⟩ := needed_ok h hR hD
  obtain ⟨keep', r', e1, e2, _, _⟩ := C72_extract_selects h hD
  have hx := rest_lost (keep := keep) h
  have hC := closed_flag h2 h hn hD
  -- the run is the one of `C72_extract_selects`
  have hext : extract D src s list = .val (pick keep 1 src ++ unused (lost src s keep)) := by
    unfold extract at e1 ⊢
    rw [h1, Out.bind_val] at e1 ⊢
    by_cases hb : keep (src.length + 1) = true
    · rw [if_pos hb] at e1; cases e1
    · rw [if_neg hb, written_pick]; rfl
  have hdk : (∃ s', Accepted (pick keep 1 src ++ unused (lost src s keep)) s') ↔ DKept src keep := by
    constructor
    · rintro ⟨s', h'⟩ i ki hd nm hm
      have hR' := (C41_read_accepts_exactly _).mp ⟨s', h'⟩
      obtain ⟨i1, i2⟩ := kind_bound (ks := kinds src) (i := i) (by rw [hd]; simp)
      rw [kinds_length] at i2
      have hp2 : pos keep i ≤ (pick keep 1 src ++ unused (lost src s keep)).length := by
        rw [List.length_append, pick_length]; have := pos_mono (keep := keep) i2; omega
      have hp1 : 1 ≤ pos keep i := by
        obtain ⟨k, rfl⟩ : ∃ k, i = k + 1 := ⟨i - 1, by omega⟩
        rw [pos_kept ki]; omega
      have hk' := kind_ext (r := lost src s keep) i1 i2 ki
      have hs' := syms_ext (r := lost src s keep) i1 i2 ki
      have := ((hR'.stmt (pos keep i) hp1 hp2).d (by rw [hk', hd])).2.2 nm (by rw [hs']; exact hm)
      exact (declared_ext hn hC i1 i2 ki).mp this
    · intro hdd
      exact (C41_read_accepts_exactly _).mpr (rules_ext hR hn (kept_flag h hn hD h2 hdd) hx)
  have hget : ∀ i, 1 ≤ i → i ≤ src.length → keep i = true → (pick keep 1 src ++ unused (lost src s keep))[pos keep i - 1]? = src[i - 1]? := by
    intro i i1 i2 ki
    obtain ⟨k, rfl⟩ : ∃ k, i = k + 1 := ⟨i - 1, by omega⟩
    have hg := pick_get (l := src) (i := k) (by omega) ki
    rw [pos_kept ki, Nat.add_sub_cancel, Nat.add_sub_cancel, List.getElem?_eq_getElem (show k < src.length by omega)]
    obtain ⟨hl, _⟩ := List.getElem?_eq_some_iff.mp hg
    rw [List.getElem?_append_left hl, hg]
  refine ⟨keep, lost src s keep, hext, fun i hi => by rw [h2, flag_assert h hn hD hi], hdk, ?_⟩
  intro s' h' i ki hi
  have hK := kept_flag h hn hD h2 (hdk.mp ⟨s', h'⟩)
  obtain ⟨i1, i2⟩ := assert_bound hi
  have F := (inv_of h).frame i hi
  refine ⟨kind_ext i1 i2 ki, hget i i1 i2 ki, fun nm => mandName_ext hR hn hK hi ki, hyps_ext h h' hK hi ki, fun j hj => ?_, fun x y hx hy => ?_, fun hp => ⟨fun x y => ?_, fun p nm => ?_⟩⟩
  · have ha := ((F.hyp j).mp hj).1
    refine hget j ha.1 (by have := ha.2.1; omega) (frame_flag h2 h hn hD ki hi ?_)
    unfold frameStmts
    simp [hj]
  · constructor
    · exact apart_of_ext hn hC i1 i2 ki
    · intro ha
      obtain ⟨j, j1, j2, j3, j4, j5⟩ := apart_stmt h hn hi hx hy ha
      refine apart_to_ext hn hC i1 i2 ki ha.1 (frame_flag h2 h hn hD ki hi ?_) j2 j3 j4 j5
      unfold frameStmts
      simp [j1]
  · constructor
    · exact apart_of_ext hn hC i1 i2 ki
    · intro ha
      obtain ⟨j, j1, j2, j3, j4, j5⟩ := apart_stmt_thm h hn hp ha
      refine apart_to_ext hn hC i1 i2 ki ha.1 (frame_flag h2 h hn hD ki hi ?_) j2 j3 j4 j5
      unfold frameStmts
      rcases List.mem_append.mp j1 with e | e <;> simp [e]
  · rw [ffor_ext hn hC i1 i2 ki]
    constructor
    · rintro ⟨f, a, b, rfl⟩
      exact ⟨f, b, rfl, hget f b.1.1 (by have := b.1.2.1; omega) a⟩
    · rintro ⟨f, b, c, _⟩
      refine ⟨f, ?_, b, c⟩
      refine frame_flag h2 h hn hD ki hi ?_
      unfold frameStmts
      by_cases hm : f ∈ (s.stmt i).reqHyp
      · simp [hm]
      · have : f ∈ (s.stmt i).optHyp := by
          refine (F.opt hp f).mpr ⟨b.1, b.2.1, fun v hv hmand => hm ?_⟩
          exact (F.hyp f).mpr ⟨b.1, Or.inr ⟨b.2.1, v, hv, hmand⟩⟩
        simp [this]

/-- **C72**, the proviso holds if no `$a` wanted is below a `$d` that mentions a variable other than its mandatory ones: then the extract can be read. -/
theorem C72_extract_readable (h : Accepted src s) (hD : DbOk D src list)
    (hax : ∀ i, Wanted D list i → kindAt (kinds src) i = .a → ∀ j, Active (kinds src) j i → kindAt (kinds src) j = .d → ∀ nm ∈ symsAt src j, MandName src i nm) :
    ∃ e s', extract D src s list = .val e ∧ Accepted e s' := by
  have hR := (C41_read_accepts_exactly src).mp ⟨s, h⟩
  have hn := nested_of hR
  obtain ⟨keep, h1, h2⟩ := needed_ok h hR hD
  obtain ⟨keep', r', e1, _⟩ := C72_extract_selects h hD
  have hext : extract D src s list = .val (pick keep 1 src ++ unused (lost src s keep)) := by
    unfold extract at e1 ⊢
    rw [h1, Out.bind_val] at e1 ⊢
    by_cases hb : keep (src.length + 1) = true
    · rw [if_pos hb] at e1; cases e1
    · rw [if_neg hb, written_pick]; rfl
  have hdk : DKept src keep := by
    intro i ki hd nm hm
    obtain ⟨t, ht, e⟩ := (tok_of_name h (Or.inl (by rw [hd]; simp))).mp hm
    obtain ⟨_, a, b, c⟩ := decl_active h (j := i) (by rw [hd]; simp) ht
    have hv := ((inv_of h).dShape i hd).2.2 t ht
    refine ⟨(declStmts 1 src).getD t 0, ?_, a, ?_, (tok_of_name h (Or.inr b)).mpr ⟨t, c, e⟩⟩
    · -- why the `$d` was flagged
      have hb := flag_math h (by rw [hd]; simp) ((h2 i).mp ki)
      rcases hb with hb | ⟨j, _, hb⟩ | ⟨j, hj, hb⟩
      · rcases (wanted_ok hD hb).2.2 with e | e <;> rw [hd] at e <;> cases e
      · have := around_kind hb
        rw [hd] at this; simp at this
      · have hja := (wanted_ok hD hj).2.2
        have kj : keep j = true := (h2 j).mpr ((flag_assert h hn hD hja).mpr hj)
        have hact := ((frame_mem h hn hja).2 i hb).1
        rcases hja with ha | hp
        · obtain ⟨v, v1, v2, v3⟩ := name_mand h hn (Or.inl ha) (hax j hj ha i hact hd nm hm)
          have hbd := assert_bound (src := src) (i := j) (Or.inl ha)
          have := name_uniq h hbd.1 (by omega) (tokActive_of h hn (Or.inr hact) (by rw [hd]; simp) ht) v3 (by rw [e, v2])
          subst this
          refine frame_flag h2 h hn hD kj (Or.inl ha) ?_
          unfold frameStmts
          simp only [List.mem_append, List.mem_map]
          exact Or.inl (Or.inl (Or.inl (Or.inr ⟨t, (((inv_of h).frame j (Or.inl ha)).var t).mpr v1, rfl⟩)))
        · exact dkept_thm h hn hD h2 hp kj hact hd ht
    · rcases b with b | b
      · exfalso
        have hl := (nameOf_eq e).1
        obtain ⟨j', _, _, x, y, _⟩ := tok_decl h hl
        have e1 := decl_of_mem h (Or.inl b) c
        have e2 := decl_of_mem h (i := j') (by rw [x]; cases tokIsVar (declToks src) t <;> simp) y
        rw [e1] at e2
        simp only [Option.some.injEq] at e2
        rw [← e2, b, hv] at x
        simp at x
      · exact b
  obtain ⟨s', h'⟩ := (C41_read_accepts_exactly _).mpr (rules_ext hR hn (kept_flag h hn hD h2 hdk) (rest_lost (keep := keep) h))
  exact ⟨_, s', hext, h'⟩

end

section
variable {src : List Src} {s : PState} {look : Look} {M : MM.Match.MEnv} {W : Nat → Nat} {text : Nat → List Char} {textLen : Nat → Nat} {list : List Char}

/-- After READ the database is as C72 asks. -/
theorem C72_db_after_read (h : Accepted src s) (hl : LookOk look) (hM : M.toEnv = envOf look src s)
    (hpar : ∀ p, 1 ≤ p → p ≤ src.length → kindAt (kinds src) p = .p → ∃ r, parseProofText M.toEnv (W p) p (text p) (textLen p) = .val r)
    (ht : ∀ m, 1 ≤ m → m ≤ src.length → ∃ b, isMatch (srcDb M W text textLen) m list = .val b) : DbOk (srcDb M W text textLen) src list := by
  have hn : (srcDb M W text textLen).n = src.length := by
    show M.toEnv.n = _
    rw [hM]; rfl
  refine ⟨hn, fun i => ?_, C51_sane_after_read h hl hM hpar false, fun m h1 h2 => ht m h1 (by omega)⟩
  show (M.toEnv.stmt i).kind = _
  rw [hM, kind_env h]

end
end MM.Extr
