import Verif.Pars.Props
import Verif.Pars.ReadSpec
/-! # READ accepts exactly the sources that obey the rules (C41): lemmas -/
namespace MM.Pars
open MM.Veri MM.Spec

variable {toks : List (Name × Bool)} {done : List Src} {s s' : PState} {x : Src} {y : Stmt}

/-! ## Look-up of symbols -/

theorem bestActive_mono : ∀ {l : List Nat} {b : Option Nat × Int}, b.1.isSome = true → (bestActive s l b).1.isSome = true
  | [], _, h => h
  | j :: l, b, h => by
    unfold bestActive
    apply bestActive_mono
    split
    · rfl
    · exact h

theorem bestActive_found (hsc : ∀ t, s.active t = true → 0 ≤ s.tscope t) :
    ∀ {l : List Nat} {b : Option Nat × Int}, (b.1 = none → b.2 = -1) → (∃ t ∈ l, s.active t = true) → (bestActive s l b).1.isSome = true
  | [], _, _, h => by obtain ⟨t, ht, _⟩ := h; cases ht
  | j :: l, b, hb, h => by
    unfold bestActive
    by_cases hn : b.1 = none
    · by_cases hj : s.active j = true
      · rw [if_pos (by have := hsc j hj; rw [hb hn]; simp [hj]; omega)]
        exact bestActive_mono rfl
      · rw [if_neg (by simp [hj])]
        apply bestActive_found hsc hb
        obtain ⟨t, ht, ha⟩ := h
        rcases List.mem_cons.mp ht with rfl | ht
        · exact absurd ha hj
        · exact ⟨t, ht, ha⟩
    · apply bestActive_mono
      split
      · rfl
      · exact Option.isSome_iff_ne_none.mpr hn

/-- A name with a unique active token is resolved to it. -/
theorem resolve_active {nm : Name} {t : Nat} (hsc : ∀ t, s.active t = true → 0 ≤ s.tscope t)
    (hu : ∀ t t', s.active t = true → s.active t' = true → tokName toks t = tokName toks t' → t = t')
    (ha : s.active t = true) (hl : t < toks.length) (hn : tokName toks t = some nm) : resolve toks s nm = .val (t, s) := by
  have hm : t ∈ sameName toks nm := mem_sameName.mpr ⟨hl, hn⟩
  have hlen : ¬ ∀ p ∈ toks, p.1.length < nm.length := by
    intro hc
    unfold tokName at hn
    cases hg : toks[t]? with
    | none => rw [hg] at hn; cases hn
    | some p =>
      rw [hg] at hn
      simp only [Option.map_some, Option.some.injEq] at hn
      have := hc p (List.mem_of_getElem? hg)
      rw [hn] at this
      omega
  unfold resolve
  rw [if_neg hlen]
  cases hS : sameName toks nm with
  | nil => rw [hS] at hm; cases hm
  | cons a l =>
    cases l with
    | nil =>
      rw [hS] at hm
      have : t = a := by simpa using hm
      subst this
      dsimp only
      rw [if_pos ha]
    | cons b l =>
      dsimp only
      have hf := bestActive_found hsc (l := a :: b :: l) (b := (none, -1)) (fun _ => rfl) ⟨t, by rw [← hS]; exact hm, ha⟩
      cases hb : bestActive s (a :: b :: l) (none, -1) with
      | mk o sc =>
        rw [hb] at hf
        cases o with
        | none => cases hf
        | some j =>
          dsimp only
          rcases bestActive_spec hb with h1 | ⟨h1, h2⟩
          · cases h1
          · rw [← hS, mem_sameName] at h1
            rw [hu j t h2 ha (by rw [h1.2, hn])]

theorem symChecks_of {k : Kind} {pos t : Nat} (h : SymOk toks k pos t) : symChecks toks k pos t s = s := by
  unfold SymOk at h
  unfold symChecks
  by_cases h1 : k = .d
  · rw [if_pos h1] at h ⊢; rw [h]; rfl
  · rw [if_neg h1] at h ⊢
    by_cases h2 : pos = 0
    · rw [if_pos h2] at h ⊢; rw [h]; rfl
    · rw [if_neg h2] at h ⊢
      by_cases h3 : k = .f
      · rw [if_pos h3] at h ⊢
        by_cases h4 : pos = 1
        · rw [if_pos h4] at h ⊢; rw [h]; rfl
        · rw [if_neg h4] at h ⊢; rw [decide_eq_false h]; rfl
      · rw [if_neg h3]

/-- A math string of active symbols that passes the checks is scanned without error. -/
theorem mathScan_of {k : Kind} (hsc : ∀ t, s.active t = true → 0 ≤ s.tscope t)
    (hu : ∀ t t', s.active t = true → s.active t' = true → tokName toks t = tokName toks t' → t = t') :
    ∀ {nms : List Name} {acc ts : List Nat}, ts.map (tokName toks) = nms.map some →
    (∀ t ∈ ts, s.active t = true ∧ t < toks.length) → (∀ p t, ts[p]? = some t → SymOk toks k (acc.length + p) t) →
    mathScan toks k nms acc s = .val (acc ++ ts, s)
  | [], acc, ts, h1, _, _ => by
    simp at h1; subst h1; simp [mathScan]
  | nm :: nms, acc, ts, h1, h2, h3 => by
    cases ts with
    | nil => simp at h1
    | cons t ts =>
      simp only [List.map_cons, List.cons.injEq] at h1
      have ht := h2 t (by simp)
      unfold mathScan
      rw [resolve_active hsc hu ht.1 ht.2 h1.1]
      dsimp only [Out.bind_val]
      rw [symChecks_of (by have := h3 0 t rfl; simpa using this)]
      rw [mathScan_of hsc hu (acc := acc ++ [t]) (ts := ts) h1.2 (fun t ht => h2 t (by simp [ht]))
        (fun p t hp => by
          have := h3 (p + 1) t (by simpa using hp)
          simpa [Nat.add_assoc, Nat.add_comm 1 p] using this)]
      simp

theorem lenChecks_of {k : Kind} {m : List Nat} (h : if k = .d then 2 ≤ m.length else m ≠ [] ∧ (k = .f → 2 ≤ m.length)) :
    lenChecks k m s = s := by
  unfold lenChecks
  split
  · rename_i hd
    rw [if_pos hd] at h
    rw [decide_eq_false (by omega)]; rfl
  · rename_i hd
    rw [if_neg hd] at h
    rw [if_neg (by simpa using h.1)]
    by_cases hf : k = .f
    · have := h.2 hf
      rw [decide_eq_false (by omega)]; simp [PState.errIf]
    · have : (k == Kind.f) = false := by simpa using hf
      rw [this]; rfl

theorem dInner_errs_of {p : Nat} : ∀ {l : List Nat} {s : PState}, p ∉ l → (dInner p l s).errs = s.errs
  | [], _, _ => rfl
  | q :: l, s, h => by
    have hpq : p ≠ q := fun e => h (by simp [e])
    have hl : p ∉ l := fun e => h (by simp [e])
    unfold dInner
    rw [if_neg hpq]
    dsimp only
    split
    · exact dInner_errs_of hl
    · rw [dInner_errs_of hl]

theorem dPairs_errs_of : ∀ {l : List Nat} {s : PState}, l.Nodup → (dPairs l s).errs = s.errs
  | [], _, _ => rfl
  | p :: l, s, h => by
    rw [List.nodup_cons] at h
    unfold dPairs
    rw [dPairs_errs_of h.2, dInner_errs_of h.1]

/-! ## Declarations -/

theorem declOne_errs_of {isV : Bool} {t : Nat} (he : s.errs = [])
    (h : ∀ j, j < toks.length → tokName toks j = some ((toks[t]?.map (·.1)).getD []) → s.active j = false ∧ tokIsVar toks j = isV) :
    (declOne toks isV s t).errs = [] := by
  unfold declOne
  dsimp only
  generalize hnm : (toks[t]?.map (·.1)).getD [] = nm at h ⊢
  have h1 : ((sameName toks nm).filter fun j => s.active j && decide (s.tscope j ≤ s.scope)) = [] := by
    rw [List.filter_eq_nil_iff]
    intro j hj
    have := h j (mem_sameName.mp hj).1 (mem_sameName.mp hj).2
    simp [this.1]
  have h2 : ((sameName toks nm).any fun j => tokIsVar toks j != isV) = false := by
    rw [List.any_eq_false]
    intro j hj
    have := h j (mem_sameName.mp hj).1 (mem_sameName.mp hj).2
    simp [this.2]
  rw [h1, h2]
  cases isV <;> simp [PState.errIf, he]

theorem declOne_active {isV : Bool} {t j : Nat} : (declOne toks isV s t).active j = upd s.active t true j := by
  unfold declOne
  dsimp only
  generalize ((sameName toks ((toks[t]?.map (·.1)).getD [])).any fun j => tokIsVar toks j != isV) = b
  cases b <;> cases isV <;> rfl

theorem declFold_errs_of {isV : Bool} : ∀ {ts : List Nat} {s : PState}, s.errs = [] → (ts.map (tokName toks)).Nodup →
    (∀ t ∈ ts, t < toks.length) →
    (∀ t ∈ ts, ∀ j, j < toks.length → tokName toks j = tokName toks t → s.active j = false ∧ tokIsVar toks j = isV) →
    (ts.foldl (declOne toks isV) s).errs = []
  | [], _, h, _, _, _ => h
  | t :: ts, s, h, hn, hl, hc => by
    rw [List.foldl_cons]
    simp only [List.map_cons, List.nodup_cons] at hn
    have htn : tokName toks t = some ((toks[t]?.map (·.1)).getD []) := by
      unfold tokName
      rw [List.getElem?_eq_getElem (hl t (by simp))]; rfl
    refine declFold_errs_of (declOne_errs_of h ?_) hn.2 (fun t ht => hl t (by simp [ht])) ?_
    · intro j hj hjn
      exact hc t (by simp) j hj (by rw [hjn, htn])
    · intro t' ht' j hj hjn
      have := hc t' (by simp [ht']) j hj hjn
      refine ⟨?_, this.2⟩
      rw [declOne_active]
      unfold upd
      by_cases e : j = t
      · subst e
        exact absurd (List.mem_map.mpr ⟨t', ht', hjn.symm⟩) hn.1
      · rw [if_neg e]; exact this.1

/-! ## Frames -/

theorem fOthers_not2 {tmp : Nat → Nat} {q : Nat} : ∀ {l : List Nat} {fl : Nat → Nat} {z : Nat}, fl z ≠ 2 → (fOthers tmp q l fl).1 z ≠ 2
  | [], _, _, h => h
  | k :: l, fl, z, h => by
    unfold fOthers
    dsimp only
    have h1 : (if fl (tmp k) = 2 then upd fl (tmp k) 1 else fl) z ≠ 2 := by
      split
      · unfold upd; split
        · simp
        · exact h
      · exact h
    generalize (if fl (tmp k) = 2 then upd fl (tmp k) 1 else fl) = fl' at h1 ⊢
    split
    · exact h1
    · exact fOthers_not2 h1

theorem fScan_not2 {tmp : Nat → Nat} : ∀ {fs : List HypEnt} {r : FScan} {z : Nat}, r.fl z ≠ 2 → (fScan tmp fs r).fl z ≠ 2
  | [], _, _, h => h
  | f :: fs, r, z, h => by
    unfold fScan
    split
    · exact fScan_not2 h
    · dsimp only
      split
      · apply fScan_not2
        apply fOthers_not2
        unfold upd; split
        · simp
        · exact h
      · apply fScan_not2
        exact fOthers_not2 h

/-- A variable that has a `$f` on the stack is not left over. -/
theorem fScan_clears {tmp : Nat → Nat} : ∀ {fs : List HypEnt} {r : FScan} {k : Nat}, (∃ h ∈ fs, h.vars = [k]) → (fScan tmp fs r).fl (tmp k) ≠ 2
  | [], _, _, h => by obtain ⟨_, h1, _⟩ := h; cases h1
  | f :: fs, r, k, h => by
    obtain ⟨g, hg, hk⟩ := h
    rcases List.mem_cons.mp hg with rfl | hg
    · unfold fScan
      rw [hk]
      dsimp only [fOthers]
      split
      · apply fScan_not2
        simp [upd]
      · rename_i h0
        apply fScan_not2
        dsimp only
        omega
    · unfold fScan
      split
      · exact fScan_clears ⟨g, hg, hk⟩
      · dsimp only
        split
        · exact fScan_clears ⟨g, hg, hk⟩
        · exact fScan_clears ⟨g, hg, hk⟩

theorem leftOver_none {tmp : Nat → Nat} {n : Nat} : ∀ {m : List Nat} {fl : Nat → Nat} {er : List PErr},
    (∀ k ∈ m, tokIsVar toks k = true → fl (tmp k) ≠ 2) → (leftOver toks tmp n m (fl, er)).2 = er
  | [], _, _, _ => rfl
  | k :: m, fl, er, h => by
    unfold leftOver
    rw [if_neg (by
      have := h k (by simp)
      simpa using this)]
    exact leftOver_none (fun k hk => h k (by simp [hk]))

theorem fCheck_of : ∀ {l dn : List Nat}, (∀ l1 m l2, l = l1 ++ m :: l2 →
    ((s.stmt m).kind ≠ .f → ∀ t ∈ (s.stmt m).math, tokIsVar toks t = true → hasF s (dn ++ l1) t = true) ∧
    ((s.stmt m).kind = .f → (s.stmt m).math.length = 2 → hasF s (dn ++ l1) ((s.stmt m).math.getD 1 0) = false)) →
    fCheck toks s dn l = []
  | [], _, _ => rfl
  | a :: l, dn, h => by
    unfold fCheck
    rw [List.append_eq_nil_iff]
    constructor
    · have := h [] a l rfl
      rw [List.append_nil] at this
      by_cases hk : (s.stmt a).kind = .f
      · rw [if_neg (by simpa using hk), if_neg]
        rintro ⟨h1, h2⟩
        rw [this.2 hk h1] at h2; cases h2
      · rw [if_pos hk, List.map_eq_nil_iff, List.filter_eq_nil_iff]
        intro t ht
        have h1 := this.1 hk t ht
        cases hv : tokIsVar toks t
        · simp
        · rw [h1 hv]; simp
    · apply fCheck_of
      intro l1 m l2 e
      have := h (a :: l1) m l2 (by rw [e]; rfl)
      simpa using this

/-- `$a`, `$p`: no error when the variables are typed. -/
theorem assert_ok (h : PInv toks done s) {k : Kind} (hk : k = .a ∨ k = .p) {m : List Nat}
    (hv : ∀ t ∈ m, tokIsVar toks t = true → ∃ sc ≤ s.scope, (t, sc) ∈ s.vstack)
    (hm : ∀ v ∈ m, tokIsVar toks v = true → ∃ f, Active (kinds done) f s.n ∧ kindAt (kinds done) f = .f ∧ (s.math f).getD 1 0 = v)
    (hE : ∀ e, Active (kinds done) e s.n → kindAt (kinds done) e = .e → ∀ v ∈ s.math e, tokIsVar toks v = true →
      ∃ f < e, Active (kinds done) f s.n ∧ kindAt (kinds done) f = .f ∧ (s.math f).getD 1 0 = v)
    (hU : ∀ f g, f < g → Active (kinds done) f s.n → Active (kinds done) g s.n → kindAt (kinds done) f = .f → kindAt (kinds done) g = .f →
      (s.math f).getD 1 0 = (s.math g).getD 1 0 →
      ((s.math g).getD 1 0 ∈ m ∨ ∃ e, Active (kinds done) e s.n ∧ kindAt (kinds done) e = .e ∧ (s.math g).getD 1 0 ∈ s.math e) → False) :
    ∃ s', doAssert toks k m s = .val s' ∧ s'.errs = [] := by
  have hnn : s.n = (kinds done).length + 1 := by rw [h.len]; simp
  obtain ⟨s', hs'⟩ := doAssert_no_bug h (k := k) hv
  refine ⟨s', hs', ?_⟩
  have F := assertFacts h hv
  dsimp only at F
  unfold doAssert at hs'
  dsimp only at hs'
  generalize (s.estack.reverse.foldl (fun r h => markE s.tmp h.vars r) (markVars toks s.tmp 2 m ([], fun _ => 0))) = r2 at hs' F
  have hfl : ∀ v ∈ m, tokIsVar toks v = true → (fScan s.tmp s.fstack.reverse ⟨[], [], r2.2, []⟩).fl (s.tmp v) ≠ 2 := by
    intro v hvm hvv
    obtain ⟨f, g1, g2, g3⟩ := hm v hvm hvv
    rw [hnn] at g1
    have hent := (h.f _).mpr ⟨f, g1, g2, rfl⟩
    apply fScan_clears
    refine ⟨_, List.mem_reverse.mpr hent, ?_⟩
    obtain ⟨w, hw, _⟩ := h.fVars _ hent
    rw [hw]
    dsimp only at hw
    obtain ⟨c, w', e1, e2, e3⟩ := h.fShape f g2
    rw [e1] at g3
    have : w' = v := by simpa using g3
    subst this
    have hmem : w' ∈ extractVars (toksOf toks) (s.math f) := (mem_extractVars _ _ _).mpr ⟨by rw [e1]; simp, e3⟩
    rw [hw] at hmem
    rw [List.mem_singleton.mp hmem]
  generalize hfs : fScan s.tmp s.fstack.reverse ⟨[], [], r2.2, []⟩ = f at hs' F hfl
  have hlo2 := leftOver_none (n := s.n) (er := []) hfl
  generalize hlo : leftOver toks s.tmp s.n m (f.fl, []) = lo at hs' F hlo2
  split at hs'
  · cases hs'
  simp only [Out.val.injEq] at hs'
  generalize hrh : mergeHyps (s.estack.reverse.map (·.stmt)) f.req = reqHyps at hs'
  have hoX : ∃ st : Stmt, st.kind = k ∧ st.math = m ∧ s'.out = s.out ++ [st] := by
    rw [← hs']; exact ⟨_, rfl, rfl, rfl⟩
  obtain ⟨st, hstk, hstm, ho⟩ := hoX
  have herr : s'.errs = fCheck toks s' [] (reqHyps ++ [s.n]) := by
    rw [← hs']
    dsimp only
    rw [h.errs, F.errs, hlo2]
    simp only [List.append_nil, List.nil_append]
    refine fCheck_out ?_ _ _
    rfl
  rw [herr]
  have hnew : s'.stmt s.n = st := stmt_new ho
  have hold : ∀ j, j ≤ (kinds done).length → s'.stmt j = s.stmt j := fun j hj => stmt_append rfl ho (by omega)
  have hactle : ∀ j, Active (kinds done) j s.n → j ≤ (kinds done).length := fun j hj => by have := hj.2.1; omega
  have hrv : ∀ v, v ∈ r2.1 ↔ tokIsVar toks v = true ∧ (v ∈ m ∨ ∃ e, Active (kinds done) e s.n ∧ kindAt (kinds done) e = .e ∧ v ∈ s.math e) := by
    intro v
    rw [F.mem v]
    constructor
    · rintro (⟨g1, g2⟩ | ⟨g, hg, g1⟩)
      · exact ⟨g2, Or.inl g1⟩
      · obtain ⟨j, g2, g3, g4⟩ := (h.e g).mp hg
        rw [← hnn] at g2
        rw [g4] at g1
        have := (mem_extractVars _ _ _).mp g1
        exact ⟨this.2, Or.inr ⟨j, g2, g3, this.1⟩⟩
    · rintro ⟨g1, g2 | ⟨e, g2, g3, g4⟩⟩
      · exact Or.inl ⟨g2, g1⟩
      · rw [hnn] at g2
        exact Or.inr ⟨_, (h.e _).mpr ⟨e, g2, g3, rfl⟩, (mem_extractVars _ _ _).mpr ⟨g4, g1⟩⟩
  have hreq : ∀ j, j ∈ f.req ↔ Active (kinds done) j s.n ∧ kindAt (kinds done) j = .f ∧ (s.math j).getD 1 0 ∈ r2.1 := by
    intro j
    rw [F.req]
    simp only [List.mem_map, List.mem_filter, List.mem_reverse]
    have key : ∀ j, kindAt (kinds done) j = .f →
        ((extractVars (toksOf toks) (s.math j)).any (· ∈ r2.1) = true ↔ (s.math j).getD 1 0 ∈ r2.1) := by
      intro j hj
      obtain ⟨c, w, e1, e2, e3⟩ := h.fShape j hj
      rw [List.any_eq_true]
      constructor
      · rintro ⟨v, h1, h2⟩
        obtain ⟨h3, h4⟩ := (mem_extractVars _ _ _).mp h1
        rw [e1] at h3 ⊢
        simp at h3
        rcases h3 with rfl | rfl
        · have h4' : tokIsVar toks v = true := h4
          rw [e2] at h4'; cases h4'
        · simpa using h2
      · intro h1
        rw [e1] at h1
        refine ⟨w, (mem_extractVars _ _ _).mpr ⟨by rw [e1]; simp, e3⟩, by simpa using h1⟩
    constructor
    · rintro ⟨g, ⟨hg, hp⟩, rfl⟩
      obtain ⟨j, g2, g3, g4⟩ := (h.f g).mp hg
      rw [← hnn] at g2
      rw [g4] at hp ⊢
      exact ⟨g2, g3, (key j g3).mp hp⟩
    · rintro ⟨g1, g2, g3⟩
      rw [hnn] at g1
      exact ⟨_, ⟨(h.f _).mpr ⟨j, g1, g2, rfl⟩, (key j g2).mpr g3⟩, rfl⟩
  have hemem : ∀ j, j ∈ s.estack.reverse.map (·.stmt) ↔ Active (kinds done) j s.n ∧ kindAt (kinds done) j = .e := by
    intro j
    simp only [List.mem_map, List.mem_reverse]
    constructor
    · rintro ⟨g, hg, rfl⟩
      obtain ⟨j, g2, g3, g4⟩ := (h.e g).mp hg
      rw [← hnn] at g2
      rw [g4]; exact ⟨g2, g3⟩
    · rintro ⟨g1, g2⟩
      rw [hnn] at g1
      exact ⟨_, (h.e _).mpr ⟨j, g1, g2, rfl⟩, rfl⟩
  have hmem : ∀ j, j ∈ reqHyps ↔ Active (kinds done) j s.n ∧
      (kindAt (kinds done) j = .e ∨ (kindAt (kinds done) j = .f ∧ (s.math j).getD 1 0 ∈ r2.1)) := by
    intro j
    rw [← hrh, mergeHyps_mem, hemem, hreq]
    tauto
  have hrsorted : reqHyps.Pairwise (· < ·) := by
    rw [← hrh]
    apply mergeHyps_sorted
    · exact pairwise_rev_map' h.eDec
    · rw [F.req]; exact pairwise_rev_map h.fDec _
    · intro a ha b hb hab
      subst hab
      have h1 := ((hemem a).mp ha).2
      have h2 := ((hreq a).mp hb).2.1
      rw [h1] at h2; cases h2
  have hsorted2 : (reqHyps ++ [s.n]).Pairwise (· < ·) := by
    rw [List.pairwise_append]
    refine ⟨hrsorted, by simp, ?_⟩
    intro a ha b hb
    simp at hb
    have := ((hmem a).mp ha).1.2.1
    omega
  have hin : ∀ l1 m' l2, reqHyps ++ [s.n] = l1 ++ m' :: l2 → ∀ g, g < m' → g ∈ reqHyps → g ∈ l1 := by
    intro l1 m' l2 e g hg hgr
    have h2 : g ∈ reqHyps ++ [s.n] := by simp [hgr]
    rw [e] at h2
    rcases List.mem_append.mp h2 with h3 | h3
    · exact h3
    · exfalso
      rw [e, List.pairwise_append, List.pairwise_cons] at hsorted2
      rcases List.mem_cons.mp h3 with h4 | h4
      · omega
      · have := hsorted2.2.1.1 g h4; omega
  have hbefore : ∀ l1 m' l2, reqHyps ++ [s.n] = l1 ++ m' :: l2 → ∀ g ∈ l1, g < m' ∧ g ∈ reqHyps := by
    intro l1 m' l2 e g hg
    have h1 : g < m' := by
      rw [e, List.pairwise_append] at hsorted2
      exact hsorted2.2.2 g hg m' (by simp)
    refine ⟨h1, ?_⟩
    have h2 : g ∈ reqHyps ++ [s.n] := by rw [e]; simp [hg]
    rcases List.mem_append.mp h2 with h3 | h3
    · exact h3
    · simp at h3
      have h4 : m' ∈ reqHyps ++ [s.n] := by rw [e]; simp
      rcases List.mem_append.mp h4 with h5 | h5
      · have := ((hmem m').mp h5).1.2.1; omega
      · simp at h5; omega
  apply fCheck_of
  intro l1 m' l2 e
  rw [List.nil_append]
  have hm' : m' ∈ reqHyps ++ [s.n] := by rw [e]; simp
  have hff : ∀ f v, v ∈ r2.1 → Active (kinds done) f s.n → kindAt (kinds done) f = .f → (s.math f).getD 1 0 = v → f < m' → hasF s' l1 v = true := by
    intro f v hvr g1 g2 g3 hlt
    have hfr : f ∈ reqHyps := (hmem f).mpr ⟨g1, Or.inr ⟨g2, by rw [g3]; exact hvr⟩⟩
    obtain ⟨c, w, e1, _, _⟩ := h.fShape f g2
    apply hasF_iff.mpr
    refine ⟨f, hin l1 m' l2 e f hlt hfr, ?_, ?_, ?_⟩
    · rw [hold f (hactle f g1), h.kind f]; exact g2
    · rw [hold f (hactle f g1)]; show (s.math f).length = 2; rw [e1]; rfl
    · rw [hold f (hactle f g1)]; exact g3
  rcases List.mem_append.mp hm' with hr | hr
  · obtain ⟨g1, g2⟩ := (hmem m').mp hr
    rw [hold m' (hactle m' g1), h.kind m']
    rcases g2 with g2 | ⟨g2, g3⟩
    · refine ⟨fun _ t ht hvt => ?_, fun hc => by rw [g2] at hc; cases hc⟩
      obtain ⟨f, f1, f2, f3, f4⟩ := hE m' g1 g2 t ht hvt
      exact hff f t ((hrv t).mpr ⟨hvt, Or.inr ⟨m', g1, g2, ht⟩⟩) f2 f3 f4 f1
    · refine ⟨fun hc => absurd g2 hc, fun _ _ => ?_⟩
      cases hb : hasF s' l1 ((s.stmt m').math.getD 1 0) with
      | false => rfl
      | true =>
        exfalso
        obtain ⟨f, f1, f2, f3, f4⟩ := hasF_iff.mp hb
        obtain ⟨f5, f6⟩ := hbefore l1 m' l2 e f f1
        obtain ⟨f7, _⟩ := (hmem f).mp f6
        rw [hold f (hactle f f7)] at f2 f4
        rw [h.kind f] at f2
        exact hU f m' f5 f7 g1 f2 g2 f4 ((hrv _).mp g3).2
  · have hr : m' = s.n := by simpa using hr
    rw [hr, hnew, hstk, hstm]
    refine ⟨fun _ t ht hvt => ?_, fun hc => by rcases hk with rfl | rfl <;> cases hc⟩
    obtain ⟨f, f2, f3, f4⟩ := hm t ht hvt
    exact hff f t ((hrv t).mpr ⟨hvt, Or.inl ht⟩) f2 f3 f4 (by rw [hr]; exact f2.2.1)

end MM.Pars
