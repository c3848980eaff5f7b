import Verif.Pars.Decl
/-! # `$d`, `$e`, `$f`, `$a`, `$p` statements preserve the invariant -/
namespace MM.Pars
open MM.Veri MM.Spec

variable {toks : List (Name × Bool)} {done : List Src} {s s' : PState} {x : Src} {y : Stmt}

theorem PInv.tokActive (h : PInv toks done s) {t : Nat} (ht : s.active t = true) : TokActive (kinds done) s.math s.n t := by
  have hn : s.n = (kinds done).length + 1 := by rw [h.len]; simp
  rcases (h.act t).mp ht with h1 | h1 <;> obtain ⟨z, hz, rfl⟩ := List.mem_map.mp h1
  · obtain ⟨j, h2, h3, h4, _⟩ := (h.c z).mp hz
    exact ⟨j, by rw [hn]; exact h2, Or.inl h3, h4⟩
  · obtain ⟨j, h2, h3, h4, _⟩ := (h.v z).mp hz
    exact ⟨j, by rw [hn]; exact h2, Or.inr h3, h4⟩

/-- Conversely, a token whose declaration is active has its `active` flag set. -/
theorem PInv.active_of (h : PInv toks done s) {t : Nat} (ht : TokActive (kinds done) s.math s.n t) : s.active t = true := by
  have hn : s.n = (kinds done).length + 1 := by rw [h.len]; simp
  obtain ⟨j, h1, h2, h3⟩ := ht
  rw [hn] at h1
  rw [h.act]
  rcases h2 with h2 | h2
  · exact Or.inl (List.mem_map.mpr ⟨(t, depth (kinds done) j), (h.c _).mpr ⟨j, h1, h2, h3, rfl⟩, rfl⟩)
  · exact Or.inr (List.mem_map.mpr ⟨(t, depth (kinds done) j), (h.v _).mpr ⟨j, h1, h2, h3, rfl⟩, rfl⟩)

theorem PInv.var_mem (h : PInv toks done s) {t : Nat} (ht : s.active t = true) (hv : tokIsVar toks t = true) :
    ∃ sc ≤ s.scope, (t, sc) ∈ s.vstack := by
  rcases (h.act t).mp ht with h1 | h1 <;> obtain ⟨z, hz, rfl⟩ := List.mem_map.mp h1
  · rw [(h.cLt z hz).2.1] at hv; cases hv
  · exact ⟨z.2, h.vSort.bound z hz, hz⟩

theorem PInv.tmpInj (h : PInv toks done s) : TmpInj s.tmp (s.vstack.map (·.1)) := by
  intro k hk k' hk' e
  obtain ⟨z, hz, rfl⟩ := List.mem_map.mp hk
  obtain ⟨w, hw, rfl⟩ := List.mem_map.mp hk'
  obtain ⟨i, hi⟩ := List.getElem?_of_mem (List.mem_reverse.mpr hz)
  obtain ⟨j, hj⟩ := List.getElem?_of_mem (List.mem_reverse.mpr hw)
  have h1 := h.tmp i z hi
  have h2 := h.tmp j w hj
  rw [h1, h2] at e
  subst e
  rw [hi] at hj
  cases hj; rfl

/-- A statement that is not a declaration or a block bracket. -/
theorem PInv.same (h : PInv toks done s) (hk : x.kind ∈ [Kind.d, .e, .f, .a, .p]) (ho : s'.out = s.out ++ [y])
    (hn : NewOk toks done s s' x y) (hscope : s'.scope = s.scope) (hnext : s'.next = s.next) (hcs : s'.cstack = s.cstack)
    (hvs : s'.vstack = s.vstack) (hact : s'.active = s.active) (htsc : s'.tscope = s.tscope) (htmp : s'.tmp = s.tmp)
    (herr : s'.errs = [])
    (hes : s'.estack = (if x.kind = .e then [⟨s.n, extractVars (toksOf toks) y.math, s.scope⟩] else []) ++ s.estack)
    (hfs : s'.fstack = (if x.kind = .f then [⟨s.n, extractVars (toksOf toks) y.math, s.scope⟩] else []) ++ s.fstack)
    (hvar : ∀ t ∈ y.math, tokIsVar toks t = true → ∃ sc ≤ s.scope, (t, sc) ∈ s.vstack)
    {dnew : List DisjEnt} (hds : s'.dstack = dnew ++ s.dstack) (hdk : x.kind ≠ .d → dnew = [])
    (hd1 : ∀ e ∈ dnew, e.stmt = s.n ∧ e.scope = s.scope ∧ e.a < e.b ∧ e.a ∈ y.math ∧ e.b ∈ y.math)
    (hd2 : x.kind = .d → ∀ a ∈ y.math, ∀ b ∈ y.math, a < b → ∃ e ∈ dnew ++ s.dstack, e.a = a ∧ e.b = b)
    (hd3 : ((dnew ++ s.dstack).map fun e => (e.a, e.b)).Nodup)
    (hdv : x.kind = .d → ∀ t ∈ y.math, tokIsVar toks t = true) :
    PInv toks (done ++ [x]) s' := by
  have hS := h.toSInv
  have hrb : x.kind ≠ .rb := by intro e; rw [e] at hk; simp at hk
  have hc : x.kind ≠ .c := by intro e; rw [e] at hk; simp at hk
  have hv : x.kind ≠ .v := by intro e; rw [e] at hk; simp at hk
  have hkb : delta x.kind = 0 := by
    simp only [List.mem_cons, List.not_mem_nil, or_false] at hk
    rcases hk with e | e | e | e | e <;> rw [e] <;> rfl
  have hnk : s.n = (kinds done).length + 1 := by rw [h.len]; simp
  have hn' : s'.n = (kinds done).length + 2 := by
    unfold PState.n; rw [ho]; have := h.len; unfold PState.n at this; simp; omega
  have hm : ∀ j ≤ (kinds done).length, s'.math j = s.math j := fun j hj => by
    unfold PState.math; rw [stmt_append rfl ho (by omega)]
  have hmn : s'.math s.n = y.math := by unfold PState.math; rw [stmt_new ho]
  have hdep : depth (kinds done ++ [x.kind]) s.n = s.scope := by
    rw [depth_append (by omega), h.scope, h.len]
  constructor
  · exact hS.step ho hn
  · exact herr
  · rw [hscope, h.scope, kinds_append]
    have := depth_last (ks := kinds done) (k := x.kind)
    simp at this ⊢
    rw [this, hkb]; simp
  · rw [hscope]; exact h.nonneg
  · rw [hnext, declToks_append, h.next]
    simp only [List.mem_cons, List.not_mem_nil, or_false] at hk
    rcases hk with e | e | e | e | e <;> simp [declToks, e]
  · rw [hscope, hcs]; exact h.cSort
  · rw [hscope, hvs]; exact h.vSort
  · rw [hscope, hes]; split
    · exact h.eSort.push rfl
    · exact h.eSort
  · rw [hscope, hfs]; split
    · exact h.fSort.push rfl
    · exact h.fSort
  · rw [hscope, hds]
    have : ∀ q : List DisjEnt, (∀ z ∈ q, z.scope = s.scope) → ScopeSorted (·.scope) s.scope (q ++ s.dstack) := by
      intro q
      induction q with
      | nil => intro _; exact h.dSort
      | cons a q ih => intro hq; exact (ih (fun z hz => hq z (by simp [hz]))).push (hq a (by simp))
    exact this dnew (fun z hz => (hd1 z hz).2.1)
  · rw [kinds_append, hcs]
    exact h.c.step (new := []) hrb (fun j hj z => declP_old hS ho hj z) (fun z => by rw [declP_new hS ho]; simp [hc])
  · rw [kinds_append, hvs]
    exact h.v.step (new := []) hrb (fun j hj z => declP_old hS ho hj z) (fun z => by rw [declP_new hS ho]; simp [hv])
  · rw [kinds_append, hes]
    refine h.e.step hrb (fun j hj z => hypP_old hS ho hj z) (fun z => ?_)
    rw [hypP_new hS ho, ← h.scope]
    split
    · rename_i e; simp [e]
    · rename_i e; simp [e]
  · rw [kinds_append, hfs]
    refine h.f.step hrb (fun j hj z => hypP_old hS ho hj z) (fun z => ?_)
    rw [hypP_new hS ho, ← h.scope]
    split
    · rename_i e; simp [e]
    · rename_i e; simp [e]
  · rw [hcs, hnext, htsc]; exact h.cLt
  · rw [hvs, hnext, htsc]; exact h.vLt
  · rw [hcs]; exact h.cNodup
  · rw [hvs]; exact h.vNodup
  · rw [hact, hcs, hvs]; exact h.act
  · rw [hact]; exact h.actUniq
  · rw [hvs, htmp]; exact h.tmp
  · rw [hes]; split
    · simp only [List.singleton_append, List.map_cons, List.pairwise_cons]
      refine ⟨?_, h.eDec⟩
      intro a ha
      obtain ⟨g, hg, rfl⟩ := List.mem_map.mp ha
      obtain ⟨j, h1, _, h3⟩ := (h.e g).mp hg
      rw [h3]; have := h1.2.1; dsimp only; omega
    · exact h.eDec
  · rw [hfs]; split
    · simp only [List.singleton_append, List.map_cons, List.pairwise_cons]
      refine ⟨?_, h.fDec⟩
      intro a ha
      obtain ⟨g, hg, rfl⟩ := List.mem_map.mp ha
      obtain ⟨j, h1, _, h3⟩ := (h.f g).mp hg
      rw [h3]; have := h1.2.1; dsimp only; omega
    · exact h.fDec
  · intro g hg k hk2
    rw [hes] at hg
    rw [hvs]
    rcases List.mem_append.mp hg with h1 | h1
    · split at h1
      · simp at h1; subst h1
        have := (mem_extractVars _ _ _).mp hk2
        exact hvar k this.1 this.2
      · simp at h1
    · exact h.eVars g h1 k hk2
  · intro g hg
    rw [hfs] at hg
    rw [hvs]
    rcases List.mem_append.mp hg with h1 | h1
    · split at h1
      · rename_i e
        simp at h1; subst h1
        obtain ⟨c, v, e1, e2, e3⟩ := hn.fShape e
        refine ⟨v, ?_, ?_⟩
        · rw [e1]; simp [extractVars, toksOf, e2, e3]
        · exact hvar v (by rw [e1]; simp) e3
      · simp at h1
    · exact h.fVars g h1
  · intro g hg
    rw [hds] at hg
    rw [hvs]
    rcases List.mem_append.mp hg with h1 | h1
    · obtain ⟨_, e2, _, e4, e5⟩ := hd1 g h1
      have hdd : x.kind = .d := by
        by_contra hne
        rw [hdk hne] at h1; simp at h1
      rw [e2]
      exact ⟨hvar _ e4 (hdv hdd _ e4), hvar _ e5 (hdv hdd _ e5)⟩
    · exact h.dVars g h1
  · intro g hg
    rw [hds] at hg
    rw [kinds_append, hn']
    rcases List.mem_append.mp hg with h1 | h1
    · obtain ⟨e1, e2, e3, e4, e5⟩ := hd1 g h1
      have hdd : x.kind = .d := by
        by_contra hne
        rw [hdk hne] at h1; simp at h1
      rw [e1, hdep, hmn]
      refine ⟨active_step.mpr (Or.inl ⟨hnk, hrb⟩), ?_, e2, e3, e4, e5⟩
      rw [hnk, kindAt_last, hdd]
    · obtain ⟨a1, a2, a3, a4, a5, a6⟩ := h.dSound g h1
      have hj : g.stmt ≤ (kinds done).length := by have := a1.2.1; omega
      rw [hnk] at a1
      rw [kindAt_append hj, depth_append (by omega), hm _ hj]
      exact ⟨active_step.mpr (Or.inr ⟨a1, fun e => absurd e hrb⟩), a2, a3, a4, a5, a6⟩
  · intro j h1 h2 a ha b hb hab
    rw [kinds_append, hn'] at h1
    rw [kinds_append] at h2 ⊢
    rw [hds]
    rcases active_step.mp h1 with ⟨e, _⟩ | ⟨h3, _⟩
    · rw [← hnk] at e
      subst e
      rw [hnk, kindAt_last] at h2
      rw [hmn] at ha hb
      rw [hdep]
      obtain ⟨g, hg, g1, g2⟩ := hd2 h2 a ha b hb hab
      refine ⟨g, hg, g1, g2, ?_⟩
      rcases List.mem_append.mp hg with h5 | h5
      · rw [(hd1 g h5).2.1]
      · exact h.dSort.bound g h5
    · have hj : j ≤ (kinds done).length := by have := h3.2.1; omega
      rw [kindAt_append hj] at h2
      rw [hm j hj] at ha hb
      rw [depth_append (by omega)]
      rw [← hnk] at h3
      obtain ⟨g, hg, g1, g2, g3⟩ := h.dComplete j h3 h2 a ha b hb hab
      exact ⟨g, by simp [hg], g1, g2, g3⟩
  · rw [hds]; exact hd3

/-- The parts of `NewOk` that follow from the scan of the math section. -/
theorem scan_var (h : PInv toks done s) {k : Kind} {syms : List Name} {m : List Nat} (hs : ScanOk toks s k syms m) :
    ∀ t ∈ m, tokIsVar toks t = true → ∃ sc ≤ s.scope, (t, sc) ∈ s.vstack :=
  fun t ht hv => h.var_mem (hs.act t ht).1 hv

theorem scan_acts (h : PInv toks done s) {k : Kind} {syms : List Name} {m : List Nat} (hs : ScanOk toks s k syms m) :
    ∀ t ∈ m, t < toks.length ∧ TokActive (kinds done) s.math s.n t :=
  fun t ht => ⟨(hs.act t ht).2, h.tokActive (hs.act t ht).1⟩

theorem scan_shape {k : Kind} {syms : List Name} {m : List Nat} (hs : ScanOk toks s k syms m) (hk : k ≠ .d) (hm : m ≠ []) :
    ∃ c r, m = c :: r ∧ tokIsVar toks c = false := by
  cases m with
  | nil => exact absurd rfl hm
  | cons c r =>
    have := hs.checks 0 c rfl
    unfold SymOk at this
    rw [if_neg hk, if_pos rfl] at this
    exact ⟨c, r, rfl, this⟩

theorem scan_fShape {syms : List Name} {m : List Nat} (hs : ScanOk toks s .f syms m) (hl : 2 ≤ m.length) :
    ∃ c v, m = [c, v] ∧ tokIsVar toks c = false ∧ tokIsVar toks v = true := by
  match m, hl with
  | [c, v], _ =>
    have h0 := hs.checks 0 c rfl
    have h1 := hs.checks 1 v rfl
    simp [SymOk] at h0 h1
    exact ⟨c, v, rfl, h0, h1⟩
  | c :: v :: w :: r, _ =>
    have h2 := hs.checks 2 w rfl
    simp [SymOk] at h2

/-- `$d` -/
theorem PInv.d (h : PInv toks done s) (hx : x.kind = .d) {m : List Nat} {s1 : PState}
    (hm : mathScan toks .d x.syms [] s = .val (m, s1))
    (he : (dPairs m (lenChecks .d m s1)).errs = []) :
    PInv toks (done ++ [x]) { dPairs m (lenChecks .d m s1) with out := (dPairs m (lenChecks .d m s1)).out ++ [{ kind := .d, math := m }] } := by
  obtain ⟨a1, a2, new, a3, a4, a5, a6⟩ := dPairs_spec he
  obtain ⟨b1, b2⟩ := lenChecks_ok a1
  rw [b1] at a1 a3 a4 a5 a6 ⊢
  obtain ⟨c1, c2⟩ := mathScan_scanOk hm a1
  subst c1
  simp only [if_true] at b2
  have hdv : ∀ t ∈ m, tokIsVar toks t = true := by
    intro t ht
    obtain ⟨p, hp⟩ := List.getElem?_of_mem ht
    have := c2.checks p t hp
    simpa [SymOk] using this
  rw [a3]
  refine h.same (x := x) (y := { kind := .d, math := m }) (dnew := new) (by simp [hx]) rfl ?_ rfl rfl rfl rfl rfl rfl rfl h.errs
    (by simp [hx]) (by simp [hx]) (scan_var h c2) rfl (fun e => absurd hx e) a4 (fun _ => a5) (a6 h.dNodup) (fun _ => hdv)
  constructor
  · exact hx.symm
  · intro _ _; exact c2.names
  · intro _; exact scan_acts h c2
  · intro e; rw [hx] at e; cases e
  · intro e; rw [hx] at e; simp at e
  · intro _; exact ⟨b2, a2, hdv⟩
  · rintro (e | e) <;> rw [hx] at e <;> cases e

/-- The variables listed for a `$e`/`$f`. -/
theorem markVars_eq (h : PInv toks done s) {m : List Nat} {mark : Nat} (hmk : mark ≠ 0)
    (hv : ∀ t ∈ m, tokIsVar toks t = true → ∃ sc ≤ s.scope, (t, sc) ∈ s.vstack) :
    (markVars toks s.tmp mark m ([], fun _ => 0)).1 = extractVars (toksOf toks) m ∧
    FlagOk s.tmp (s.vstack.map (·.1)) (extractVars (toksOf toks) m) (markVars toks s.tmp mark m ([], fun _ => 0)).2 := by
  have := markVars_spec (toks := toks) (T := toksOf toks) rfl hmk h.tmpInj (m := m) (vs := []) (fl := fun _ => 0)
    (fun k hk hvk => by obtain ⟨sc, _, h2⟩ := hv k hk hvk; exact List.mem_map.mpr ⟨_, h2, rfl⟩)
    (fun k _ => by simp)
  refine ⟨this.1, ?_⟩
  have h2 := this.2
  rw [this.1] at h2
  exact h2

/-- `$e`, `$f` -/
theorem PInv.hyp (h : PInv toks done s) {k : Kind} (hk : k = .e ∨ k = .f) (hx : x.kind = k) {m : List Nat} {s1 : PState}
    (hm : mathScan toks k x.syms [] s = .val (m, s1))
    (he : (doHyp toks k m (lenChecks k m s1)).errs = []) :
    PInv toks (done ++ [x]) (doHyp toks k m (lenChecks k m s1)) := by
  have he1 : (lenChecks k m s1).errs = [] := by
    unfold doHyp at he; rcases hk with rfl | rfl <;> exact he
  obtain ⟨b1, b2⟩ := lenChecks_ok he1
  rw [b1] at he1 ⊢
  obtain ⟨c1, c2⟩ := mathScan_scanOk hm he1
  subst c1
  have hkd : k ≠ .d := by rcases hk with rfl | rfl <;> simp
  rw [if_neg hkd] at b2
  have hmv := (markVars_eq h (mark := 1) (by simp) (scan_var h c2)).1
  refine h.same (x := x) (y := { kind := k, math := m }) (dnew := []) (by rcases hk with rfl | rfl <;> simp [hx]) ?_ ?_
    ?_ ?_ ?_ ?_ ?_ ?_ ?_ ?_ ?_ ?_ (scan_var h c2) ?_ (fun _ => rfl) (by simp) ?_ h.dNodup ?_
  · unfold doHyp; rcases hk with rfl | rfl <;> rfl
  · constructor
    · exact hx.symm
    · intro _ _; exact c2.names
    · intro _; exact scan_acts h c2
    · intro e; rw [hx] at e; subst e; exact scan_fShape c2 (b2.2 rfl)
    · intro e; exact scan_shape c2 hkd b2.1
    · intro e; rw [hx] at e; exact absurd e hkd
    · intro e; exfalso; rw [hx] at e; rcases hk with rfl | rfl <;> simp at e
  · unfold doHyp; rcases hk with rfl | rfl <;> rfl
  · unfold doHyp; rcases hk with rfl | rfl <;> rfl
  · unfold doHyp; rcases hk with rfl | rfl <;> rfl
  · unfold doHyp; rcases hk with rfl | rfl <;> rfl
  · unfold doHyp; rcases hk with rfl | rfl <;> rfl
  · unfold doHyp; rcases hk with rfl | rfl <;> rfl
  · unfold doHyp; rcases hk with rfl | rfl <;> rfl
  · unfold doHyp; rcases hk with rfl | rfl <;> exact h.errs
  · unfold doHyp; rw [hmv]; rcases hk with rfl | rfl <;> simp [hx]
  · unfold doHyp; rw [hmv]; rcases hk with rfl | rfl <;> simp [hx]
  · unfold doHyp; rcases hk with rfl | rfl <;> rfl
  · intro e; rw [hx] at e; exact absurd e hkd
  · intro e; rw [hx] at e; exact absurd e hkd

end MM.Pars
