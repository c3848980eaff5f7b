import Verif.Pars.Rest
import Mathlib.Data.List.Perm.Basic
/-! # `$a` and `$p` statements: the frame is the one of the specification -/
namespace MM.Pars
open MM.Veri MM.Spec

variable {toks : List (Name × Bool)} {done : List Src} {s s' : PState} {x : Src} {y : Stmt}

theorem fCheck_out {p q : PState} (hpq : p.out = q.out) : ∀ dn l : List Nat, fCheck toks p dn l = fCheck toks q dn l := by
  have hst : p.stmt = q.stmt := by funext i; unfold PState.stmt; rw [hpq]
  have hh : ∀ hs t, hasF p hs t = hasF q hs t := fun hs t => by unfold hasF; rw [hst]
  intro dn l
  induction l generalizing dn with
  | nil => rfl
  | cons a l ih => unfold fCheck; rw [ih]; simp only [hh, hst]

theorem fCheck_nil : ∀ {l dn : List Nat}, fCheck toks s dn l = [] → ∀ l1 m l2, l = l1 ++ m :: l2 →
    ((s.stmt m).kind ≠ .f → ∀ t ∈ (s.stmt m).math, tokIsVar toks t = true → hasF s (dn ++ l1) t = true) ∧
    ((s.stmt m).kind = .f → (s.stmt m).math.length = 2 → hasF s (dn ++ l1) ((s.stmt m).math.getD 1 0) = false)
  | [], _, _, l1, m, l2, e => by simp at e
  | a :: l, dn, h, l1, m, l2, e => by
    unfold fCheck at h
    rw [List.append_eq_nil_iff] at h
    cases l1 with
    | nil =>
      simp only [List.nil_append, List.cons.injEq] at e
      obtain ⟨rfl, rfl⟩ := e
      have h1 := h.1
      constructor
      · intro hk t ht hv
        rw [if_pos hk, List.map_eq_nil_iff, List.filter_eq_nil_iff] at h1
        have := h1 t ht
        simpa [hv] using this
      · intro hk hl
        rw [if_neg (by simp [hk])] at h1
        by_contra hc
        rw [if_pos ⟨hl, by simpa using hc⟩] at h1
        cases h1
    | cons b l1 =>
      simp only [List.cons_append, List.cons.injEq] at e
      obtain ⟨rfl, rfl⟩ := e
      have := fCheck_nil h.2 l1 m l2 rfl
      simpa using this

theorem hasF_iff {hs : List Nat} {t : Nat} : hasF s hs t = true ↔
    ∃ f ∈ hs, (s.stmt f).kind = .f ∧ (s.stmt f).math.length = 2 ∧ (s.stmt f).math.getD 1 0 = t := by
  simp [hasF, and_assoc]

theorem leftOver_flag {tmp : Nat → Nat} {n : Nat} {dom vs : List Nat} (hi : TmpInj tmp dom) :
    ∀ {m : List Nat} {fl : Nat → Nat} {er : List PErr}, (∀ k ∈ m, tokIsVar toks k = true → k ∈ dom) →
    FlagOk tmp dom vs fl → FlagOk tmp dom vs (leftOver toks tmp n m (fl, er)).1
  | [], _, _, _, h => h
  | k :: m, fl, er, hd, h => by
    have hd' : ∀ k ∈ m, tokIsVar toks k = true → k ∈ dom := fun k hk => hd k (by simp [hk])
    unfold leftOver
    split
    · rename_i hc
      simp only [Bool.and_eq_true, beq_iff_eq] at hc
      have hk := hd k (by simp) hc.1
      exact leftOver_flag hi hd' (flagOk_reupd hi h hk ((h k hk).mp (by rw [hc.2]; simp)) (by simp))
    · exact leftOver_flag hi hd' h

/-- Everything `doAssert` computes, in terms of the set of mandatory variables. -/
structure AssertFacts (toks : List (Name × Bool)) (s : PState) (m : List Nat) (rv : List Nat) (fl : Nat → Nat) (f : FScan) : Prop where
  nodup : rv.Nodup
  mem : ∀ v, v ∈ rv ↔ (v ∈ m ∧ tokIsVar toks v = true) ∨ ∃ h ∈ s.estack, v ∈ h.vars
  flag : FlagOk s.tmp (s.vstack.map (·.1)) rv fl
  sub : ∀ v ∈ rv, v ∈ s.vstack.map (·.1)
  req : f.req = (s.fstack.reverse.filter fun h => h.vars.any (· ∈ rv)).map (·.stmt)
  opt : f.opt = (s.fstack.reverse.filter fun h => !h.vars.any (· ∈ rv)).map (·.stmt)
  errs : f.errs = []

theorem assertFacts (h : PInv toks done s) {m : List Nat}
    (hv : ∀ t ∈ m, tokIsVar toks t = true → ∃ sc ≤ s.scope, (t, sc) ∈ s.vstack) :
    let r1 := markVars toks s.tmp 2 m ([], fun _ => 0)
    let r2 := s.estack.reverse.foldl (fun r h => markE s.tmp h.vars r) r1
    let f := fScan s.tmp s.fstack.reverse ⟨[], [], r2.2, []⟩
    let lo := leftOver toks s.tmp s.n m (f.fl, [])
    AssertFacts toks s m r2.1 lo.1 f := by
  intro r1 r2 f lo
  have hmv := markVars_eq h (mark := 2) (by simp) hv
  have hmd : ∀ k ∈ m, tokIsVar toks k = true → k ∈ s.vstack.map (·.1) := fun k hk hvk => by
    obtain ⟨sc, _, h2⟩ := hv k hk hvk; exact List.mem_map.mpr ⟨_, h2, rfl⟩
  have hed : ∀ g ∈ s.estack, ∀ k ∈ g.vars, k ∈ s.vstack.map (·.1) := fun g hg k hk => by
    obtain ⟨sc, _, h2⟩ := h.eVars g hg k hk; exact List.mem_map.mpr ⟨_, h2, rfl⟩
  have hr2 := markEs_spec h.tmpInj (es := s.estack.reverse) (r := r1) (fun g hg => hed g (List.mem_reverse.mp hg))
    (by rw [show r1.1 = _ from hmv.1]; exact hmv.2) (by rw [show r1.1 = _ from hmv.1]; exact nodup_extractVars _ _)
  dsimp only at hr2
  obtain ⟨a1, a2, a3⟩ := hr2
  have hf := fScan_spec h.tmpInj (vs := r2.1) (fs := s.fstack.reverse) (r := ⟨[], [], r2.2, []⟩)
    (fun g hg => by
      obtain ⟨k, hk, sc, _, h2⟩ := h.fVars g (List.mem_reverse.mp hg)
      exact ⟨k, List.mem_map.mpr ⟨_, h2, rfl⟩, hk⟩) a1
  obtain ⟨b1, b2, b3, b4⟩ := hf
  have hmem : ∀ v, v ∈ r2.1 ↔ (v ∈ m ∧ tokIsVar toks v = true) ∨ ∃ h ∈ s.estack, v ∈ h.vars := by
    intro v
    rw [a3 v, show r1.1 = _ from hmv.1, mem_extractVars]
    simp only [List.mem_reverse]; rfl
  refine ⟨a2, hmem, leftOver_flag h.tmpInj hmd b3, ?_, by simpa using b1, by simpa using b2, b4⟩
  intro v hv2
  rcases (hmem v).mp hv2 with h1 | ⟨g, hg, h1⟩
  · exact hmd v h1.1 h1.2
  · exact hed g hg v h1

theorem optVars_mem (h : PInv toks done s) {m rv : List Nat} {fl : Nat → Nat} {f : FScan}
    (hf : AssertFacts toks s m rv fl f) (v : Nat) :
    v ∈ (((List.range s.vstack.length).filter fun i => fl i == 0).map fun i => ((s.vstack.reverse[i]?).map (·.1)).getD 0) ↔
      v ∈ s.vstack.map (·.1) ∧ v ∉ rv := by
  have hfl : ∀ i (hi : i < s.vstack.reverse.length), (fl i = 0) ↔ (s.vstack.reverse[i]).1 ∉ rv := by
    intro i hi
    have hget : s.vstack.reverse[i]? = some (s.vstack.reverse[i]) := List.getElem?_eq_getElem _
    have htmp := h.tmp i _ hget
    have hm : (s.vstack.reverse[i]).1 ∈ s.vstack.map (·.1) :=
      List.mem_map.mpr ⟨_, List.mem_reverse.mp (List.getElem_mem _), rfl⟩
    have := hf.flag _ hm
    rw [htmp] at this
    rw [← this]; exact Decidable.not_not.symm
  constructor
  · intro hv
    obtain ⟨i, hi, rfl⟩ := List.mem_map.mp hv
    obtain ⟨h1, h2⟩ := List.mem_filter.mp hi
    rw [List.mem_range] at h1
    have h1' : i < s.vstack.reverse.length := by simpa using h1
    rw [List.getElem?_eq_getElem h1']
    exact ⟨List.mem_map.mpr ⟨_, List.mem_reverse.mp (List.getElem_mem h1'), rfl⟩, (hfl i h1').mp (by simpa using h2)⟩
  · rintro ⟨h1, h2⟩
    obtain ⟨y, hy, rfl⟩ := List.mem_map.mp h1
    obtain ⟨i, hi, e⟩ := List.getElem_of_mem (List.mem_reverse.mpr hy)
    refine List.mem_map.mpr ⟨i, List.mem_filter.mpr ⟨List.mem_range.mpr (by simpa using hi), ?_⟩, ?_⟩
    · have := (hfl i hi).mpr (by rw [e]; exact h2)
      simpa using this
    · rw [List.getElem?_eq_getElem hi, e]; rfl

theorem optVars_count (h : PInv toks done s) {m rv : List Nat} {fl : Nat → Nat} {f : FScan}
    (hf : AssertFacts toks s m rv fl f) :
    ((List.range s.vstack.length).filter fun i => fl i == 0).length + rv.length = s.vstack.length := by
  have hV : s.vstack.reverse.map (·.1) = (List.range s.vstack.length).map fun i => ((s.vstack.reverse[i]?).map (·.1)).getD 0 := by
    apply List.ext_getElem?
    intro i
    simp only [List.getElem?_map]
    rcases Nat.lt_or_ge i s.vstack.length with hi | hi
    · rw [List.getElem?_range hi, List.getElem?_eq_getElem (by simpa using hi)]
      simp only [Option.map_some]
      rw [List.getElem?_eq_getElem (by simpa using hi)]; rfl
    · rw [List.getElem?_eq_none (by simpa using hi), List.getElem?_eq_none (by simpa using hi)]; rfl
  have hfl : ∀ i ∈ List.range s.vstack.length, (fl i == 0) = decide (((s.vstack.reverse[i]?).map (·.1)).getD 0 ∉ rv) := by
    intro i hi
    rw [List.mem_range] at hi
    have hget : s.vstack.reverse[i]? = some (s.vstack.reverse[i]'(by simpa using hi)) := List.getElem?_eq_getElem _
    have htmp := h.tmp i _ hget
    have hm : (s.vstack.reverse[i]'(by simpa using hi)).1 ∈ s.vstack.map (·.1) :=
      List.mem_map.mpr ⟨_, List.mem_reverse.mp (List.getElem_mem _), rfl⟩
    have := hf.flag _ hm
    rw [htmp] at this
    rw [hget]
    simp only [Option.map_some, Option.getD_some]
    by_cases h0 : fl i = 0
    · have hn : ¬ (s.vstack.reverse[i]'(by simpa using hi)).1 ∈ rv := fun hc => (this.mpr hc) h0
      rw [decide_eq_true hn]; simp [h0]
    · rw [decide_eq_false (fun hn => hn (this.mp h0))]; simp [h0]
  have e1 : ((List.range s.vstack.length).filter fun i => fl i == 0).length =
      ((s.vstack.reverse.map (·.1)).filter fun t => decide (t ∉ rv)).length := by
    rw [hV, List.filter_map, List.length_map]
    congr 1
    exact List.filter_congr hfl
  have e2 : ((s.vstack.reverse.map (·.1)).filter fun t => decide (t ∈ rv)).length = rv.length := by
    apply List.Perm.length_eq
    rw [List.perm_ext_iff_of_nodup]
    · intro v
      simp only [List.mem_filter, decide_eq_true_eq, List.map_reverse, List.mem_reverse]
      exact ⟨fun h => h.2, fun h => ⟨hf.sub v h, h⟩⟩
    · apply List.Nodup.filter
      rw [List.map_reverse]; exact List.nodup_reverse.mpr h.vNodup
    · exact hf.nodup
  have e3 := List.length_eq_length_filter_add (l := s.vstack.reverse.map (·.1)) (fun t => decide (t ∈ rv))
  have e4 : (s.vstack.reverse.map (·.1)).length = s.vstack.length := by simp
  have e5 : ((s.vstack.reverse.map (·.1)).filter fun t => !decide (t ∈ rv)).length =
      ((s.vstack.reverse.map (·.1)).filter fun t => decide (t ∉ rv)).length := by
    congr 1
    apply List.filter_congr
    intro t _
    simp
  omega

theorem pairwise_rev_map {l : List HypEnt} (h : (l.map (·.stmt)).Pairwise (· > ·)) (p : HypEnt → Bool) :
    ((l.reverse.filter p).map (·.stmt)).Pairwise (· < ·) := by
  have h1 : ((l.reverse).map (·.stmt)).Pairwise (· < ·) := by
    rw [List.map_reverse, List.pairwise_reverse]; exact h
  exact h1.sublist ((List.filter_sublist).map _)

theorem pairwise_rev_map' {l : List HypEnt} (h : (l.map (·.stmt)).Pairwise (· > ·)) :
    ((l.reverse).map (·.stmt)).Pairwise (· < ·) := by
  rw [List.map_reverse, List.pairwise_reverse]; exact h

/-- `$a`, `$p` -/
theorem PInv.assert (h : PInv toks done s) {k : Kind} (hk : k = .a ∨ k = .p) (hx : x.kind = k) {m : List Nat} {s1 : PState}
    (hm : mathScan toks k x.syms [] s = .val (m, s1)) {s' : PState}
    (hs' : doAssert toks k m (lenChecks k m s1) = .val s') (he : s'.errs = []) :
    PInv toks (done ++ [x]) s' := by
  have he1 : (lenChecks k m s1).errs = [] := by
    unfold doAssert at hs'
    dsimp only at hs'
    split at hs'
    · cases hs'
    · simp only [Out.val.injEq] at hs'
      rw [← hs'] at he
      simp only [List.append_eq_nil_iff] at he
      exact he.1.1.1
  obtain ⟨b1, b2⟩ := lenChecks_ok he1
  rw [b1] at he1 hs'
  obtain ⟨c1, c2⟩ := mathScan_scanOk hm he1
  subst c1
  have hkd : k ≠ .d := by rcases hk with rfl | rfl <;> simp
  rw [if_neg hkd] at b2
  have hvar := scan_var h c2
  have F := assertFacts h hvar
  dsimp only at F
  unfold doAssert at hs'
  dsimp only at hs'
  generalize (s1.estack.reverse.foldl (fun r h => markE s1.tmp h.vars r) (markVars toks s1.tmp 2 m ([], fun _ => 0))) = r2 at hs' F
  generalize hfs : fScan s1.tmp s1.fstack.reverse ⟨[], [], r2.2, []⟩ = f at hs' F
  generalize hlo : leftOver toks s1.tmp s1.n m (f.fl, []) = lo at hs' F
  split at hs'
  · cases hs'
  simp only [Out.val.injEq] at hs'
  generalize hrh : mergeHyps (s1.estack.reverse.map (·.stmt)) f.req = reqHyps at hs'
  generalize hst : ({ kind := k, math := m, reqHyp := reqHyps, reqVars := r2.1
                      reqDisj := (s1.dstack.reverse.filter fun e : DisjEnt => lo.1 (s1.tmp e.a) != 0 && lo.1 (s1.tmp e.b) != 0).map fun e => (e.a, e.b)
                      optHyp := if k = .p then f.opt else []
                      optDisj := if k = .p then (s1.dstack.reverse.filter fun e => !(lo.1 (s1.tmp e.a) != 0 && lo.1 (s1.tmp e.b) != 0)).map fun e => (e.a, e.b) else []
                      optVars := if k = .p then (((List.range s1.vstack.length).filter fun i => lo.1 i == 0).map
    fun i => ((s1.vstack.reverse[i]?).map (·.1)).getD 0) else []
                      reqDisjStmt := (s1.dstack.reverse.filter fun e : DisjEnt => lo.1 (s1.tmp e.a) != 0 && lo.1 (s1.tmp e.b) != 0).map (·.stmt)
                      optDisjStmt := if k = .p then (s1.dstack.reverse.filter fun e => !(lo.1 (s1.tmp e.a) != 0 && lo.1 (s1.tmp e.b) != 0)).map (·.stmt) else [] } : Stmt) = st at hs'
  have ho : s'.out = s1.out ++ [st] := by rw [← hs']
  have hfc : fCheck toks s' [] (reqHyps ++ [s1.n]) = [] := by
    rw [← hs'] at he
    simp only [List.append_eq_nil_iff] at he
    have := he.2
    rw [← hs']
    refine Eq.trans (fCheck_out ?_ _ _) this
    rfl
  have hstm : st.math = m := by rw [← hst]
  have hstk : st.kind = k := by rw [← hst]
  have hnn : s1.n = (kinds done).length + 1 := by rw [h.len]; simp
  have hnew : s'.stmt s1.n = st := stmt_new ho
  have hold : ∀ j, j ≤ (kinds done).length → s'.stmt j = s1.stmt j := fun j hj => stmt_append rfl ho (by omega)
  have hkold : ∀ j, j ≤ (kinds done).length → kindAt (kinds (done ++ [x])) j = kindAt (kinds done) j := fun j hj => by
    rw [kinds_append, kindAt_append hj]
  have hkn : kindAt (kinds (done ++ [x])) s1.n = k := by rw [kinds_append, hnn, kindAt_last, hx]
  have hact : ∀ j, Active (kinds (done ++ [x])) j s1.n ↔ Active (kinds done) j s1.n := fun j => by
    rw [kinds_append]; exact active_old (by omega)
  have hactle : ∀ j, Active (kinds done) j s1.n → j ≤ (kinds done).length := fun j hj => by have := hj.2.1; omega
  -- mandatory variables
  have hM : ∀ v, Mandatory (tokIsVar toks) (kinds (done ++ [x])) (fun k => (s'.stmt k).math) s1.n v ↔ v ∈ r2.1 := by
    intro v
    rw [F.mem v]
    unfold Mandatory
    dsimp only
    rw [hnew, hstm]
    constructor
    · rintro ⟨hv1, hv2 | ⟨j, g1, g2, g3⟩⟩
      · exact Or.inl ⟨hv2, hv1⟩
      · rw [hact] at g1
        have hj := hactle j g1
        rw [hkold j hj] at g2
        rw [hold j hj] at g3
        refine Or.inr ⟨⟨j, extractVars (toksOf toks) (s1.math j), depth (kinds done) j⟩, ?_, ?_⟩
        · rw [hnn] at g1; exact (h.e _).mpr ⟨j, g1, g2, rfl⟩
        · exact (mem_extractVars _ _ _).mpr ⟨g3, hv1⟩
    · rintro (⟨g1, g2⟩ | ⟨g, hg, g1⟩)
      · exact ⟨g2, Or.inl g1⟩
      · obtain ⟨j, g2, g3, g4⟩ := (h.e g).mp hg
        rw [← hnn] at g2
        have hj := hactle j g2
        rw [g4] at g1
        have := (mem_extractVars _ _ _).mp g1
        refine ⟨this.2, Or.inr ⟨j, (hact j).mpr g2, ?_, ?_⟩⟩
        · rw [hkold j hj]; exact g3
        · rw [hold j hj]; exact this.1
  -- `$f` statements
  have hfmem : ∀ (p : HypEnt → Bool) j, j ∈ ((s1.fstack.reverse.filter p).map (·.stmt)) ↔
      Active (kinds done) j s1.n ∧ kindAt (kinds done) j = .f ∧ p ⟨j, extractVars (toksOf toks) (s1.math j), depth (kinds done) j⟩ = true := by
    intro p j
    simp only [List.mem_map, List.mem_filter, List.mem_reverse]
    constructor
    · rintro ⟨g, ⟨hg, hp⟩, rfl⟩
      obtain ⟨j, g2, g3, g4⟩ := (h.f g).mp hg
      rw [← hnn] at g2
      rw [g4] at hp ⊢
      exact ⟨g2, g3, hp⟩
    · rintro ⟨g1, g2, g3⟩
      rw [hnn] at g1
      exact ⟨_, ⟨(h.f _).mpr ⟨j, g1, g2, rfl⟩, g3⟩, rfl⟩
  have hany : ∀ j, (extractVars (toksOf toks) (s1.math j)).any (· ∈ r2.1) = true ↔ ∃ v ∈ s1.math j, v ∈ r2.1 := by
    intro j
    rw [List.any_eq_true]
    constructor
    · rintro ⟨v, h1, h2⟩; exact ⟨v, ((mem_extractVars _ _ _).mp h1).1, by simpa using h2⟩
    · rintro ⟨v, h1, h2⟩
      refine ⟨v, (mem_extractVars _ _ _).mpr ⟨h1, ?_⟩, by simpa using h2⟩
      exact ((hM v).mpr h2).1
  have hemem : ∀ j, j ∈ s1.estack.reverse.map (·.stmt) ↔ Active (kinds done) j s1.n ∧ kindAt (kinds done) j = .e := by
    intro j
    simp only [List.mem_map, List.mem_reverse]
    constructor
    · rintro ⟨g, hg, rfl⟩
      obtain ⟨j, g2, g3, g4⟩ := (h.e g).mp hg
      rw [← hnn] at g2
      rw [g4]; exact ⟨g2, g3⟩
    · rintro ⟨g1, g2⟩
      rw [hnn] at g1
      exact ⟨_, (h.e _).mpr ⟨j, g1, g2, rfl⟩, rfl⟩
  have hreq : ∀ j, j ∈ f.req ↔ Active (kinds done) j s1.n ∧ kindAt (kinds done) j = .f ∧ ∃ v ∈ s1.math j, v ∈ r2.1 := by
    intro j; rw [F.req, hfmem, hany]
  have hopt : ∀ j, j ∈ f.opt ↔ Active (kinds done) j s1.n ∧ kindAt (kinds done) j = .f ∧ ∀ v ∈ s1.math j, v ∉ r2.1 := by
    intro j; rw [F.opt, hfmem]
    have := hany j
    simp only [Bool.not_eq_true', ← Bool.not_eq_true, this]
    simp only [not_exists, not_and]
  have hrsorted : reqHyps.Pairwise (· < ·) := by
    rw [← hrh]
    apply mergeHyps_sorted
    · exact pairwise_rev_map' h.eDec
    · rw [F.req]; exact pairwise_rev_map h.fDec _
    · intro a ha b hb hab
      subst hab
      have h1 := ((hemem a).mp ha).2
      have h2 := ((hreq a).mp hb).2.1
      rw [h1] at h2; cases h2
  have hrmem : ∀ j, j ∈ reqHyps ↔ MandHyp (tokIsVar toks) (kinds (done ++ [x])) (fun k => (s'.stmt k).math) s1.n j := by
    intro j
    rw [← hrh, mergeHyps_mem, hemem, hreq]
    unfold MandHyp
    dsimp only
    simp only [hM, hact]
    by_cases ha : Active (kinds done) j s1.n
    · have hj := hactle j ha
      rw [hkold j hj, hold j hj]
      simp only [ha, true_and]; rfl
    · simp [ha]
  have hrle : ∀ j ∈ reqHyps, j ≤ (kinds done).length := fun j hj => by
    have := ((hrmem j).mp hj).1
    exact hactle j ((hact j).mp this)
  -- `$d`
  have hdreq : ∀ e ∈ s1.dstack, (lo.1 (s1.tmp e.a) != 0 && lo.1 (s1.tmp e.b) != 0) = true ↔ e.a ∈ r2.1 ∧ e.b ∈ r2.1 := by
    intro e hed
    obtain ⟨⟨sa, _, ga⟩, ⟨sb, _, gb⟩⟩ := h.dVars e hed
    have fa := F.flag e.a (List.mem_map.mpr ⟨_, ga, rfl⟩)
    have fb := F.flag e.b (List.mem_map.mpr ⟨_, gb, rfl⟩)
    simp only [Bool.and_eq_true, bne_iff_ne]
    rw [fa, fb]
  have hdd : ∀ a b, (∃ e ∈ s1.dstack, e.a = a ∧ e.b = b) ↔ a < b ∧ DvDeclared (kinds (done ++ [x])) (fun k => (s'.stmt k).math) s1.n a b := by
    intro a b
    constructor
    · rintro ⟨e, hed, rfl, rfl⟩
      obtain ⟨g1, g2, g3, g4, g5, g6⟩ := h.dSound e hed
      have hj := hactle _ g1
      refine ⟨g4, e.stmt, (hact _).mpr g1, ?_, ?_, ?_⟩
      · rw [hkold _ hj]; exact g2
      · dsimp only; rw [hold _ hj]; exact g5
      · dsimp only; rw [hold _ hj]; exact g6
    · rintro ⟨hab, j, g1, g2, g3, g4⟩
      rw [hact] at g1
      have hj := hactle _ g1
      rw [hkold _ hj] at g2
      dsimp only at g3 g4
      rw [hold _ hj] at g3 g4
      obtain ⟨e, h1, h2, h3, _⟩ := h.dComplete j g1 g2 a g3 b g4 hab
      exact ⟨e, h1, h2, h3⟩
  have hdnod : ∀ p : DisjEnt → Bool, ((s1.dstack.reverse.filter p).map fun e => (e.a, e.b)).Nodup := by
    intro p
    have : (s1.dstack.reverse.map fun e => (e.a, e.b)).Nodup := by
      rw [List.map_reverse]; exact List.nodup_reverse.mpr h.dNodup
    exact this.sublist ((List.filter_sublist).map _)
  -- the `$f` check
  have hsplit : ∀ m' ∈ reqHyps ++ [s1.n], ∃ l1 l2, reqHyps ++ [s1.n] = l1 ++ m' :: l2 := fun m' hm' => List.append_of_mem hm'
  have hsorted2 : (reqHyps ++ [s1.n]).Pairwise (· < ·) := by
    rw [List.pairwise_append]
    refine ⟨hrsorted, by simp, ?_⟩
    intro a ha b hb
    simp at hb
    have := hrle a ha
    omega
  have hbefore : ∀ l1 m' l2, reqHyps ++ [s1.n] = l1 ++ m' :: l2 → ∀ g ∈ l1, g < m' ∧ g ∈ reqHyps := by
    intro l1 m' l2 e g hg
    have h1 : g < m' := by
      rw [e, List.pairwise_append] at hsorted2
      exact hsorted2.2.2 g hg m' (by simp)
    refine ⟨h1, ?_⟩
    have h2 : g ∈ reqHyps ++ [s1.n] := by rw [e]; simp [hg]
    rcases List.mem_append.mp h2 with h3 | h3
    · exact h3
    · simp at h3
      have h4 : m' ∈ reqHyps ++ [s1.n] := by rw [e]; simp
      rcases List.mem_append.mp h4 with h5 | h5
      · have := hrle m' h5; omega
      · simp at h5; omega
  have hkf : ∀ j, (s'.stmt j).kind = kindAt (kinds (done ++ [x])) j := by
    intro j
    rcases Nat.lt_trichotomy j s1.n with hj | rfl | hj
    · rw [hold j (by omega), hkold j (by omega)]; exact h.kind j
    · rw [hnew, hkn, hstk]
    · rw [kindAt_out _ (by simp at hnn ⊢; omega)]
      unfold PState.stmt
      rw [List.getD_eq_default]
      rw [ho]; unfold PState.n at hj; simp; omega
  have hflen : ∀ j ∈ reqHyps, kindAt (kinds (done ++ [x])) j = .f → (s'.stmt j).math.length = 2 := by
    intro j hj hf
    have hj2 := hrle j hj
    rw [hkold j hj2] at hf
    obtain ⟨c, v, e1, _, _⟩ := h.fShape j hf
    rw [hold j hj2]
    show (s1.math j).length = 2
    rw [e1]; rfl
  have hframe : FrameOk (tokIsVar toks) (kinds (done ++ [x])) s'.stmt s1.n := by
    have e_rh : (s'.stmt s1.n).reqHyp = reqHyps := by rw [hnew, ← hst]
    have e_rv : (s'.stmt s1.n).reqVars = r2.1 := by rw [hnew, ← hst]
    have e_rd : (s'.stmt s1.n).reqDisj = (s1.dstack.reverse.filter fun e : DisjEnt => lo.1 (s1.tmp e.a) != 0 && lo.1 (s1.tmp e.b) != 0).map fun e => (e.a, e.b) := by
      rw [hnew, ← hst]
    have e_oh : k = .p → (s'.stmt s1.n).optHyp = f.opt := by intro e; rw [hnew, ← hst]; simp [e]
    have e_od : k = .p → (s'.stmt s1.n).optDisj = (s1.dstack.reverse.filter fun e : DisjEnt => !(lo.1 (s1.tmp e.a) != 0 && lo.1 (s1.tmp e.b) != 0)).map fun e => (e.a, e.b) := by
      intro e; rw [hnew, ← hst]; simp [e]
    have e_os : k = .p → (s'.stmt s1.n).optDisjStmt = (s1.dstack.reverse.filter fun e : DisjEnt => !(lo.1 (s1.tmp e.a) != 0 && lo.1 (s1.tmp e.b) != 0)).map (·.stmt) := by
      intro e; rw [hnew, ← hst]; simp [e]
    have e_rs : (s'.stmt s1.n).reqDisjStmt = (s1.dstack.reverse.filter fun e : DisjEnt => lo.1 (s1.tmp e.a) != 0 && lo.1 (s1.tmp e.b) != 0).map (·.stmt) := by
      rw [hnew, ← hst]
    have e_ov : k = .p → (s'.stmt s1.n).optVars = ((List.range s1.vstack.length).filter fun i => lo.1 i == 0).map
        fun i => ((s1.vstack.reverse[i]?).map (·.1)).getD 0 := by
      intro e; rw [hnew, ← hst]; simp [e]
    have hdst : ∀ q : DisjEnt → Bool, List.Forall₂ (fun (pr : Nat × Nat) j => Active (kinds (done ++ [x])) j s1.n ∧ kindAt (kinds (done ++ [x])) j = .d ∧
        pr.1 ∈ (s'.stmt j).math ∧ pr.2 ∈ (s'.stmt j).math) ((s1.dstack.reverse.filter q).map fun e => (e.a, e.b)) ((s1.dstack.reverse.filter q).map (·.stmt)) := by
      intro q
      rw [List.forall₂_map_left_iff, List.forall₂_map_right_iff, List.forall₂_same]
      intro e he'
      obtain ⟨g1, g2, g3, g4, g5, g6⟩ := h.dSound e (List.mem_reverse.mp (List.mem_filter.mp he').1)
      have hj := hactle _ g1
      refine ⟨(hact _).mpr g1, by rw [hkold _ hj]; exact g2, ?_, ?_⟩
      · rw [hold _ hj]; exact g5
      · rw [hold _ hj]; exact g6
    constructor
    · rw [e_rh]; exact hrsorted
    · intro j; rw [e_rh]; exact hrmem j
    · intro hp; rw [hkn] at hp; rw [e_oh hp, F.opt]; exact pairwise_rev_map h.fDec _
    · intro hp j; rw [hkn] at hp; rw [e_oh hp, hopt]
      unfold OptHyp
      dsimp only
      simp only [hM, hact]
      by_cases ha : Active (kinds done) j s1.n
      · have hj := hactle j ha
        rw [hkold j hj, hold j hj]; rfl
      · simp [ha]
    · rw [e_rv]; exact F.nodup
    · intro v; rw [e_rv, hM]
    · rw [e_rd]; exact hdnod _
    · intro a b
      rw [e_rd, hM, hM]
      simp only [List.mem_map, List.mem_filter, List.mem_reverse, Prod.mk.injEq]
      constructor
      · rintro ⟨e, ⟨h1, h2⟩, rfl, rfl⟩
        have := (hdd e.a e.b).mp ⟨e, h1, rfl, rfl⟩
        have h3 := (hdreq e h1).mp h2
        exact ⟨this.1, h3.1, h3.2, this.2⟩
      · rintro ⟨h1, h2, h3, h4⟩
        obtain ⟨e, h5, rfl, rfl⟩ := (hdd a b).mpr ⟨h1, h4⟩
        exact ⟨e, ⟨h5, (hdreq e h5).mpr ⟨h2, h3⟩⟩, rfl, rfl⟩
    · intro hp; rw [hkn] at hp; rw [e_od hp]; exact hdnod _
    · intro hp a b; rw [hkn] at hp; rw [e_od hp, hM, hM]
      simp only [List.mem_map, List.mem_filter, List.mem_reverse, Prod.mk.injEq]
      constructor
      · rintro ⟨e, ⟨h1, h2⟩, rfl, rfl⟩
        have := (hdd e.a e.b).mp ⟨e, h1, rfl, rfl⟩
        refine ⟨this.1, fun h3 => ?_, this.2⟩
        rw [(hdreq e h1).mpr h3] at h2; cases h2
      · rintro ⟨h1, h2, h4⟩
        obtain ⟨e, h5, rfl, rfl⟩ := (hdd a b).mpr ⟨h1, h4⟩
        refine ⟨e, ⟨h5, ?_⟩, rfl, rfl⟩
        cases hb : (lo.1 (s1.tmp e.a) != 0 && lo.1 (s1.tmp e.b) != 0) with
        | false => rfl
        | true => exact absurd ((hdreq e h5).mp hb) h2
    · intro ha; rw [hkn] at ha; rw [hnew, ← hst]; simp [ha]
    · rw [e_rd, e_rs]; exact hdst _
    · intro hp; rw [hkn] at hp; rw [e_od hp, e_os hp]; exact hdst _
    · intro ha; rw [hkn] at ha; rw [hnew, ← hst]; simp [ha]
    · intro hp v; rw [hkn] at hp; rw [e_ov hp, optVars_mem h F, hM]
      refine and_congr ?_ Iff.rfl
      constructor
      · intro hv
        obtain ⟨y, hy, rfl⟩ := List.mem_map.mp hv
        obtain ⟨j, g1, g2, g3, _⟩ := (h.v y).mp hy
        rw [← hnn] at g1
        have hj := hactle _ g1
        exact ⟨j, (hact j).mpr g1, by rw [hkold _ hj]; exact g2, by rw [hold _ hj]; exact g3⟩
      · rintro ⟨j, g1, g2, g3⟩
        rw [hact] at g1
        have hj := hactle _ g1
        rw [hkold _ hj] at g2
        rw [hold _ hj] at g3
        rw [hnn] at g1
        exact List.mem_map.mpr ⟨(v, depth (kinds done) j), (h.v _).mpr ⟨j, g1, g2, g3, rfl⟩, rfl⟩
    · rw [e_rh]
      have huniq : ∀ f ∈ reqHyps, ∀ g ∈ reqHyps, kindAt (kinds (done ++ [x])) f = .f → kindAt (kinds (done ++ [x])) g = .f →
          (s'.stmt f).math.getD 1 0 = (s'.stmt g).math.getD 1 0 → ¬ f < g := by
        intro f hf g hg hkf1 hkg e hlt
        obtain ⟨l1, l2, hl⟩ := hsplit g (by simp [hg])
        have hc := (fCheck_nil hfc l1 g l2 hl).2 (by rw [hkf]; exact hkg) (hflen g hg hkg)
        rw [List.nil_append] at hc
        have hfl : f ∈ l1 := by
          have h2 : f ∈ reqHyps ++ [s1.n] := by simp [hf]
          rw [hl] at h2
          rcases List.mem_append.mp h2 with h3 | h3
          · exact h3
          · exfalso
            rw [hl, List.pairwise_append, List.pairwise_cons] at hsorted2
            rcases List.mem_cons.mp h3 with h4 | h4
            · omega
            · have := hsorted2.2.1.1 f h4; omega
        have := hasF_iff.mpr ⟨f, hfl, by rw [hkf]; exact hkf1, hflen f hf hkf1, e⟩
        rw [hc] at this; cases this
      intro f hf g hg hkf1 hkg e
      rcases Nat.lt_trichotomy f g with h1 | h1 | h1
      · exact absurd h1 (huniq f hf g hg hkf1 hkg e)
      · exact h1
      · exact absurd h1 (huniq g hg f hf hkg hkf1 e.symm)
    · rw [e_rh]
      intro m' hm' hkm v hv hvv
      obtain ⟨l1, l2, hl⟩ := hsplit m' hm'
      have hc := (fCheck_nil hfc l1 m' l2 hl).1 (by rw [hkf]; exact hkm) v hv hvv
      rw [List.nil_append] at hc
      obtain ⟨f, hf, g1, g2, g3⟩ := hasF_iff.mp hc
      obtain ⟨h1, h2⟩ := hbefore l1 m' l2 hl f hf
      exact ⟨f, h2, h1, by rw [← hkf]; exact g1, g2, g3⟩
  refine h.same (x := x) (y := st) (dnew := []) (by rcases hk with rfl | rfl <;> simp [hx]) ho ?_
    ?_ ?_ ?_ ?_ ?_ ?_ ?_ he ?_ ?_ (by rw [hstm]; exact hvar) ?_ (fun _ => rfl) (by simp) ?_ h.dNodup ?_
  · constructor
    · rw [hstk]; exact hx.symm
    · intro _ _; rw [hstm]; exact c2.names
    · intro _; rw [hstm]; exact scan_acts h c2
    · intro e; exfalso; rw [hx] at e; rcases hk with rfl | rfl <;> simp at e
    · intro e; rw [hstm]; exact scan_shape c2 hkd b2.1
    · intro e; rw [hx] at e; exact absurd e hkd
    · intro _; exact hframe
  · rw [← hs']
  · rw [← hs']
  · rw [← hs']
  · rw [← hs']
  · rw [← hs']
  · rw [← hs']
  · rw [← hs']
  · rw [← hs', hx]; rcases hk with rfl | rfl <;> rfl
  · rw [← hs', hx]; rcases hk with rfl | rfl <;> rfl
  · rw [← hs']; rfl
  · intro e; rw [hx] at e; exact absurd e hkd
  · intro e; rw [hx] at e; exact absurd e hkd

/-- Internal error 1708 cannot happen while no error has been reported. -/
theorem doAssert_no_bug (h : PInv toks done s) {k : Kind} {m : List Nat}
    (hv : ∀ t ∈ m, tokIsVar toks t = true → ∃ sc ≤ s.scope, (t, sc) ∈ s.vstack) :
    ∃ s', doAssert toks k m s = .val s' := by
  have F := assertFacts h hv
  dsimp only at F
  have hc := optVars_count h F
  unfold doAssert
  dsimp only
  split
  · rename_i hne
    exfalso; apply hne
    rw [List.length_map]; exact hc
  · exact ⟨_, rfl⟩

end MM.Pars
