import Verif.Pars.Step
/-! # `$c` and `$v` statements preserve the invariant -/
namespace MM.Pars
open MM.Veri MM.Spec

variable {toks : List (Name × Bool)} {done : List Src} {s s' : PState} {x : Src} {y : Stmt}

/-- State after the tokens `us` of a declaration have been processed, starting from `s0`. -/
structure DeclInv (toks : List (Name × Bool)) (isV : Bool) (s0 : PState) (us : List Nat) (s : PState) : Prop where
  out : s.out = s0.out
  scope : s.scope = s0.scope
  next : s.next = s0.next
  es : s.estack = s0.estack
  fs : s.fstack = s0.fstack
  ds : s.dstack = s0.dstack
  errs : s.errs = []
  cs : s.cstack = if isV then s0.cstack else (us.map (·, s0.scope)).reverse ++ s0.cstack
  vs : s.vstack = if isV then (us.map (·, s0.scope)).reverse ++ s0.vstack else s0.vstack
  act : ∀ t, s.active t = true ↔ s0.active t = true ∨ t ∈ us
  tsc : ∀ t, s.tscope t = if t ∈ us then s0.scope else s0.tscope t
  tmp : ∀ i z, s.vstack.reverse[i]? = some z → s.tmp z.1 = i
  uniq : ∀ t t', s.active t = true → s.active t' = true → tokName toks t = tokName toks t' → t = t'

theorem declOne_errs {isV : Bool} {t : Nat} (h : (declOne toks isV s t).errs = []) :
    s.errs = [] ∧
    (∀ j, j < toks.length → tokName toks j = some ((toks[t]?.map (·.1)).getD []) →
      (s.active j = true → s.scope < s.tscope j) ∧ tokIsVar toks j = isV) ∧
    declOne toks isV s t =
      if isV then { s with active := upd s.active t true, tscope := upd s.tscope t s.scope, tmp := upd s.tmp t s.vstack.length, vstack := (t, s.scope) :: s.vstack }
      else { s with active := upd s.active t true, tscope := upd s.tscope t s.scope, cstack := (t, s.scope) :: s.cstack } := by
  unfold declOne at h ⊢
  dsimp only at h ⊢
  generalize hnm : (toks[t]?.map (·.1)).getD [] = nm at h ⊢
  have h2 : ((PState.errIf { s with errs := s.errs ++ List.replicate ((sameName toks nm).filter fun j => s.active j && decide (s.tscope j ≤ s.scope)).length (PErr.redeclared s.n) }
    ((sameName toks nm).any fun j => tokIsVar toks j != isV) (.conVar s.n))).errs = [] := by
    revert h; cases isV <;> exact id
  obtain ⟨e1, e2⟩ := errIf_nil h2
  rw [e1] at h2 ⊢
  simp only [List.append_eq_nil_iff, List.replicate_eq_nil_iff, List.length_eq_zero_iff] at h2
  obtain ⟨h3, h4⟩ := h2
  refine ⟨h3, ?_, ?_⟩
  · intro j hj hn
    have hm := mem_sameName.mpr ⟨hj, hn⟩
    constructor
    · intro ha
      rcases Int.lt_or_le s.scope (s.tscope j) with h5 | h5
      · exact h5
      · have : j ∈ (sameName toks nm).filter fun j => s.active j && decide (s.tscope j ≤ s.scope) :=
          List.mem_filter.mpr ⟨hm, by simp [ha, h5]⟩
        rw [h4] at this; simp at this
    · have := List.any_eq_false.mp e2 j hm
      simpa using this
  · rw [h4]
    simp only [List.length_nil, List.replicate_zero, List.append_nil]

theorem DeclInv.step {isV : Bool} {s0 : PState} {us : List Nat} {t : Nat} (h : DeclInv toks isV s0 us s)
    (ht : t < toks.length) (hts : ∀ t, s0.active t = true → s0.tscope t ≤ s0.scope)
    (hu : t ∉ us) (hnv : t ∉ s0.vstack.map (·.1))
    (he : (declOne toks isV s t).errs = []) : DeclInv toks isV s0 (us ++ [t]) (declOne toks isV s t) := by
  obtain ⟨e1, e2, e3⟩ := declOne_errs he
  have hscope := h.scope
  have htn : tokName toks t = some ((toks[t]?.map (·.1)).getD []) := by
    unfold tokName; rw [List.getElem?_eq_getElem ht]; rfl
  have hle : ∀ j, s.active j = true → s.tscope j ≤ s.scope := by
    intro j hj
    rw [h.tsc j, hscope]
    split
    · exact Int.le_refl _
    · rename_i hju
      rcases (h.act j).mp hj with h1 | h1
      · exact hts j h1
      · exact absurd h1 hju
  have hnew : ∀ j, s.active j = true → tokName toks j ≠ tokName toks t := by
    intro j hj hn
    rw [htn] at hn
    have hjl : j < toks.length := by
      rcases Nat.lt_or_ge j toks.length with h1 | h1
      · exact h1
      · unfold tokName at hn; rw [List.getElem?_eq_none h1] at hn; simp at hn
    have := (e2 j hjl hn).1 hj
    have := hle j hj
    omega
  have hact : ∀ j, upd s.active t true j = true ↔ s0.active j = true ∨ j ∈ us ++ [t] := by
    intro j
    by_cases hjt : j = t
    · subst hjt; simp
    · rw [upd_other _ _ hjt, h.act j]; simp [hjt]
  have htsc : ∀ j, upd s.tscope t s.scope j = if j ∈ us ++ [t] then s0.scope else s0.tscope j := by
    intro j
    by_cases hjt : j = t
    · subst hjt; simp [hscope]
    · rw [upd_other _ _ hjt, h.tsc j]; simp [hjt]
  have huniq : ∀ j j', upd s.active t true j = true → upd s.active t true j' = true → tokName toks j = tokName toks j' → j = j' := by
    intro j j' h1 h2 h3
    by_cases hjt : j = t
    · by_cases hjt' : j' = t
      · rw [hjt, hjt']
      · rw [upd_other _ _ hjt'] at h2
        rw [hjt] at h3
        exact absurd h3.symm (hnew j' h2)
    · rw [upd_other _ _ hjt] at h1
      by_cases hjt' : j' = t
      · rw [hjt'] at h3
        exact absurd h3 (hnew j h1)
      · rw [upd_other _ _ hjt'] at h2
        exact h.uniq j j' h1 h2 h3
  rw [e3]
  cases isV with
  | true =>
    simp only [if_true] at h ⊢
    have hvs := h.vs
    simp only [if_true] at hvs
    refine ⟨h.out, h.scope, h.next, h.es, h.fs, h.ds, e1, h.cs, ?_, hact, htsc, ?_, huniq⟩
    · simp [hvs, hscope]
    · intro i z hz
      simp only [List.reverse_cons] at hz
      dsimp only
      rcases Nat.lt_or_ge i s.vstack.reverse.length with hi | hi
      · rw [List.getElem?_append_left hi] at hz
        have hmem : z ∈ s.vstack := List.mem_reverse.mp (List.mem_of_getElem? hz)
        have hzt : z.1 ≠ t := by
          rintro rfl
          rw [hvs] at hmem
          rcases List.mem_append.mp hmem with h1 | h1
          · simp at h1
            obtain ⟨a, ha, hb⟩ := h1
            exact hu (by rw [← hb]; exact ha)
          · exact hnv (List.mem_map.mpr ⟨z, h1, rfl⟩)
        rw [upd_other _ _ hzt]
        exact h.tmp i z hz
      · have hlen : i < (s.vstack.reverse ++ [(t, s.scope)]).length := (List.getElem?_eq_some_iff.mp hz).1
        have : i = s.vstack.length := by simp at hlen hi; omega
        subst this
        rw [List.getElem?_append_right hi] at hz
        simp at hz
        rw [← hz]; simp
  | false =>
    have hcs := h.cs
    simp only [Bool.false_eq_true, if_false] at hcs ⊢
    have hvs := h.vs
    refine ⟨h.out, h.scope, h.next, h.es, h.fs, h.ds, e1, ?_, hvs, hact, htsc, h.tmp, huniq⟩
    simp [hcs, hscope]

theorem declFold_errs {isV : Bool} : ∀ {ts : List Nat} {s : PState}, (ts.foldl (declOne toks isV) s).errs = [] → s.errs = []
  | [], _, h => h
  | _ :: ts, _, h => (declOne_errs (declFold_errs (ts := ts) h)).1

theorem DeclInv.fold {isV : Bool} {s0 : PState} : ∀ {ts us : List Nat} {s : PState}, DeclInv toks isV s0 us s →
    (∀ t, s0.active t = true → s0.tscope t ≤ s0.scope) → (us ++ ts).Nodup →
    (∀ t ∈ ts, t < toks.length ∧ t ∉ s0.vstack.map (·.1)) →
    (ts.foldl (declOne toks isV) s).errs = [] → DeclInv toks isV s0 (us ++ ts) (ts.foldl (declOne toks isV) s)
  | [], us, s, h, _, _, _, _ => by simpa using h
  | t :: ts, us, s, h, ha, hn, hd, he => by
    have hn2 : ((us ++ [t]) ++ ts).Nodup := by simpa using hn
    have hu : t ∉ us := by
      intro hm
      rw [List.nodup_append] at hn
      exact hn.2.2 t hm t (by simp) rfl
    have h1 := h.step (hd t (by simp)).1 ha hu (hd t (by simp)).2 (declFold_errs (ts := ts) he)
    have := DeclInv.fold h1 ha hn2 (fun u hm => hd u (by simp [hm])) he
    simpa using this

/-- `$c` and `$v` -/
theorem PInv.decl (h : PInv toks done s) {k : Kind} (hk : k = .c ∨ k = .v) (hx : x.kind = k) {rest : List Src}
    (htoks : toks = declToks (done ++ x :: rest)) (he : (doDecl toks k x.syms s).errs = []) :
    PInv toks (done ++ [x]) (doDecl toks k x.syms s) := by
  have hS := h.toSInv
  unfold doDecl at he ⊢
  dsimp only at he ⊢
  generalize hts : (List.range x.syms.length).map (· + s.next) = ts at he ⊢
  have hf := declFold_errs he
  obtain ⟨e1, e2⟩ := errIf_nil hf
  rw [e1] at hf he ⊢
  obtain ⟨e3, e4⟩ := errIf_nil hf
  rw [e3] at he ⊢
  -- the tokens
  have htk : toks = declToks done ++ (x.syms.map (·, k == .v) ++ declToks rest) := by
    rw [htoks, declToks_append]
    congr 1
    rcases hk with rfl | rfl <;> simp [declToks, hx]
  have hget : ∀ p, p < x.syms.length → toks[s.next + p]? = some (x.syms[p]!, k == .v) := by
    intro p hp
    rw [h.next, htk, List.getElem?_append_right (by omega), List.getElem?_append_left (by simp; omega)]
    simp only [Nat.add_sub_cancel_left, List.getElem?_map, List.getElem?_eq_getElem hp, Option.map_some]
    rw [getElem!_pos x.syms p hp]
  have hmts : ∀ t, t ∈ ts ↔ ∃ p, p < x.syms.length ∧ t = s.next + p := by
    intro t; rw [← hts]; simp only [List.mem_map, List.mem_range]
    constructor
    · rintro ⟨p, hp, rfl⟩; exact ⟨p, hp, by omega⟩
    · rintro ⟨p, hp, rfl⟩; exact ⟨p, hp, by omega⟩
  have hnod : ts.Nodup := by
    rw [← hts]
    exact (List.nodup_range).map (fun a b hab => by omega)
  have hnv : ∀ t ∈ ts, t ∉ s.vstack.map (·.1) := by
    intro t ht hm
    obtain ⟨p, _, rfl⟩ := (hmts t).mp ht
    obtain ⟨z, hz, hz2⟩ := List.mem_map.mp hm
    have := (h.vLt z hz).1; omega
  have hnc : ∀ t ∈ ts, t ∉ s.cstack.map (·.1) := by
    intro t ht hm
    obtain ⟨p, _, rfl⟩ := (hmts t).mp ht
    obtain ⟨z, hz, hz2⟩ := List.mem_map.mp hm
    have := (h.cLt z hz).1; omega
  have hlt : ∀ t ∈ ts, t < toks.length := by
    intro t ht
    obtain ⟨p, hp, rfl⟩ := (hmts t).mp ht
    exact (List.getElem?_eq_some_iff.mp (hget p hp)).1
  have hisv : ∀ t ∈ ts, tokIsVar toks t = (k == .v) := by
    intro t ht
    obtain ⟨p, hp, rfl⟩ := (hmts t).mp ht
    unfold tokIsVar; rw [hget p hp]
  have hactsc : ∀ t, s.active t = true → s.tscope t ≤ s.scope := by
    intro t ht
    rcases (h.act t).mp ht with h1 | h1 <;> obtain ⟨z, hz, rfl⟩ := List.mem_map.mp h1
    · rw [(h.cLt z hz).2.2]; exact h.cSort.bound z hz
    · rw [(h.vLt z hz).2.2]; exact h.vSort.bound z hz
  have hD0 : DeclInv toks (k == .v) s [] s := by
    refine ⟨rfl, rfl, rfl, rfl, rfl, rfl, h.errs, by simp, by simp, by simp, by simp, h.tmp, h.actUniq⟩
  have hD := hD0.fold (ts := ts) hactsc (by simpa using hnod) (fun t ht => ⟨hlt t ht, hnv t ht⟩) he
  rw [List.nil_append] at hD
  generalize ts.foldl (declOne toks (k == .v)) s = s2 at he hD ⊢
  generalize hs' : ({ s2 with next := s.next + x.syms.length, out := s.out ++ [{ kind := k, math := ts }] } : PState) = s'
  have ho : s'.out = s.out ++ [{ kind := k, math := ts }] := by rw [← hs']
  have hsc : s'.scope = s.scope := by rw [← hs']; exact hD.scope
  have hes : s'.estack = s.estack := by rw [← hs']; exact hD.es
  have hfs : s'.fstack = s.fstack := by rw [← hs']; exact hD.fs
  have hds : s'.dstack = s.dstack := by rw [← hs']; exact hD.ds
  have hkb : delta x.kind = 0 := by rcases hk with rfl | rfl <;> rw [hx] <;> rfl
  have hrb : x.kind ≠ .rb := by rcases hk with rfl | rfl <;> rw [hx] <;> simp
  have hlb : x.kind ≠ .lb := by rcases hk with rfl | rfl <;> rw [hx] <;> simp
  have hdd : x.kind ≠ .d := by rcases hk with rfl | rfl <;> rw [hx] <;> simp
  have hvs : s'.vstack = (if k = .v then (ts.map (·, s.scope)).reverse else []) ++ s.vstack := by
    rw [← hs']; show s2.vstack = _; rw [hD.vs]; rcases hk with rfl | rfl <;> simp
  have hcs : s'.cstack = (if k = .c then (ts.map (·, s.scope)).reverse else []) ++ s.cstack := by
    rw [← hs']; show s2.cstack = _; rw [hD.cs]; rcases hk with rfl | rfl <;> simp
  have hvsub : ∀ z, z ∈ s.vstack → z ∈ s'.vstack := fun z hz => by rw [hvs]; simp [hz]
  have hact : ∀ t, s'.active t = true ↔ s.active t = true ∨ t ∈ ts := by rw [← hs']; exact hD.act
  have htsc : ∀ t, s'.tscope t = if t ∈ ts then s.scope else s.tscope t := by rw [← hs']; exact hD.tsc
  have hnext : s'.next = s.next + x.syms.length := by rw [← hs']
  have hsort : ∀ l : List (Nat × Int), ScopeSorted (·.2) s.scope l → ∀ ts : List Nat,
      ScopeSorted (·.2) s.scope ((ts.map (·, s.scope)).reverse ++ l) := by
    intro l hl ts
    have : ∀ q : List (Nat × Int), (∀ z ∈ q, z.2 = s.scope) → ScopeSorted (·.2) s.scope (q ++ l) := by
      intro q
      induction q with
      | nil => intro _; exact hl
      | cons a q ih => intro hq; exact (ih (fun z hz => hq z (by simp [hz]))).push (hq a (by simp))
    apply this
    intro z hz
    simp at hz
    obtain ⟨_, _, rfl⟩ := hz; rfl
  have hkk : ∀ q : Kind, q = .e ∨ q = .f → x.kind ≠ q := by
    intro q hq; rw [hx]; rcases hk with rfl | rfl <;> rcases hq with rfl | rfl <;> simp
  constructor
  · apply hS.step ho
    constructor
    · exact hx.symm
    · intro _ _
      apply List.ext_getElem?
      intro p
      simp only [← hts, List.map_map, List.getElem?_map]
      rcases Nat.lt_or_ge p x.syms.length with hp | hp
      · rw [List.getElem?_range hp, List.getElem?_eq_getElem hp]
        simp only [Option.map_some, Function.comp, Option.some.injEq]
        unfold tokName
        rw [Nat.add_comm, hget p hp, getElem!_pos x.syms p hp]; rfl
      · rw [List.getElem?_eq_none (by simpa using hp), List.getElem?_eq_none hp]; rfl
    · intro hh; exfalso; rw [hx] at hh; rcases hk with rfl | rfl <;> simp at hh
    · intro hh; exfalso; rw [hx] at hh; rcases hk with rfl | rfl <;> simp at hh
    · intro hh; exfalso; rw [hx] at hh; rcases hk with rfl | rfl <;> simp at hh
    · intro hh; exfalso; rw [hx] at hh; rcases hk with rfl | rfl <;> simp at hh
    · intro hh; exfalso; rw [hx] at hh; rcases hk with rfl | rfl <;> simp at hh
  · rw [← hs']; exact hD.errs
  · rw [hsc, h.scope, kinds_append]
    have := depth_last (ks := kinds done) (k := x.kind)
    simp at this ⊢
    rw [this, hkb]; simp
  · rw [hsc]; exact h.nonneg
  · rw [hnext, declToks_append, h.next]
    rcases hk with rfl | rfl <;> simp [declToks, hx]
  · rw [hsc, hcs]; split
    · exact hsort _ h.cSort ts
    · exact h.cSort
  · rw [hsc, hvs]; split
    · exact hsort _ h.vSort ts
    · exact h.vSort
  · rw [hsc, hes]; exact h.eSort
  · rw [hsc, hfs]; exact h.fSort
  · rw [hsc, hds]; exact h.dSort
  · rw [kinds_append, hcs]
    refine h.c.step hrb (fun j hj z => declP_old hS ho hj z) (fun z => ?_)
    rw [declP_new hS ho, hx, ← h.scope]
    split
    · rename_i hkc
      simp only [hkc, true_and, List.mem_reverse, List.mem_map]
      constructor
      · rintro ⟨h1, h2⟩; exact ⟨z.1, h1, by rw [← h2]⟩
      · rintro ⟨a, ha, rfl⟩; exact ⟨ha, rfl⟩
    · rename_i hkc; simp [hkc]
  · rw [kinds_append, hvs]
    refine h.v.step hrb (fun j hj z => declP_old hS ho hj z) (fun z => ?_)
    rw [declP_new hS ho, hx, ← h.scope]
    split
    · rename_i hkc
      simp only [hkc, true_and, List.mem_reverse, List.mem_map]
      constructor
      · rintro ⟨h1, h2⟩; exact ⟨z.1, h1, by rw [← h2]⟩
      · rintro ⟨a, ha, rfl⟩; exact ⟨ha, rfl⟩
    · rename_i hkc; simp [hkc]
  · rw [kinds_append, hes]
    exact h.e.step (new := []) hrb (fun j hj z => hypP_old hS ho hj z) (fun z => by rw [hypP_new hS ho]; simp [hkk])
  · rw [kinds_append, hfs]
    exact h.f.step (new := []) hrb (fun j hj z => hypP_old hS ho hj z) (fun z => by rw [hypP_new hS ho]; simp [hkk])
  · intro z hz
    rw [hcs] at hz
    rw [hnext, htsc]
    rcases List.mem_append.mp hz with h1 | h1
    · split at h1
      · rename_i hkc
        simp at h1
        obtain ⟨a, ha, rfl⟩ := h1
        obtain ⟨p, hp, rfl⟩ := (hmts a).mp ha
        exact ⟨by simp; omega, by rw [hisv _ ha, hkc]; rfl, by simp [ha]⟩
      · simp at h1
    · obtain ⟨a1, a2, a3⟩ := h.cLt z h1
      have : z.1 ∉ ts := fun hm => hnc z.1 hm (List.mem_map.mpr ⟨z, h1, rfl⟩)
      exact ⟨by omega, a2, by rw [if_neg this]; exact a3⟩
  · intro z hz
    rw [hvs] at hz
    rw [hnext, htsc]
    rcases List.mem_append.mp hz with h1 | h1
    · split at h1
      · rename_i hkc
        simp at h1
        obtain ⟨a, ha, rfl⟩ := h1
        obtain ⟨p, hp, rfl⟩ := (hmts a).mp ha
        exact ⟨by simp; omega, by rw [hisv _ ha, hkc]; rfl, by simp [ha]⟩
      · simp at h1
    · obtain ⟨a1, a2, a3⟩ := h.vLt z h1
      have : z.1 ∉ ts := fun hm => hnv z.1 hm (List.mem_map.mpr ⟨z, h1, rfl⟩)
      exact ⟨by omega, a2, by rw [if_neg this]; exact a3⟩
  · rw [hcs]
    split
    · simp only [List.map_append, List.map_reverse, List.map_map, Function.comp_def, List.map_id']
      rw [List.nodup_append]
      exact ⟨List.nodup_reverse.mpr hnod, h.cNodup, fun a ha b hb hab => hnc a (List.mem_reverse.mp ha) (hab ▸ hb)⟩
    · exact h.cNodup
  · rw [hvs]
    split
    · simp only [List.map_append, List.map_reverse, List.map_map, Function.comp_def, List.map_id']
      rw [List.nodup_append]
      exact ⟨List.nodup_reverse.mpr hnod, h.vNodup, fun a ha b hb hab => hnv a (List.mem_reverse.mp ha) (hab ▸ hb)⟩
    · exact h.vNodup
  · intro t
    rw [hact, h.act, hcs, hvs]
    rcases hk with rfl | rfl <;> simp <;> tauto
  · rw [← hs']; exact hD.uniq
  · rw [← hs']; exact hD.tmp
  · rw [hes]; exact h.eDec
  · rw [hfs]; exact h.fDec
  · rw [hes]; intro g hg k hk
    obtain ⟨sc, h1, h2⟩ := h.eVars g hg k hk
    exact ⟨sc, h1, hvsub _ h2⟩
  · rw [hfs]; intro g hg
    obtain ⟨k, hk, sc, h1, h2⟩ := h.fVars g hg
    exact ⟨k, hk, sc, h1, hvsub _ h2⟩
  · rw [hds]; intro g hg
    obtain ⟨⟨sc, h1, h2⟩, ⟨sc', h3, h4⟩⟩ := h.dVars g hg
    exact ⟨⟨sc, h1, hvsub _ h2⟩, ⟨sc', h3, hvsub _ h4⟩⟩
  · rw [hds]; exact (d_keep h ho hdd hrb).1
  · rw [hds]; exact (d_keep h ho hdd hrb).2
  · rw [hds]; exact h.dNodup

end MM.Pars
