import Verif.Pars.ReadIff
import Verif.Pars.Example
/-! # READ accepts exactly the sources that obey the rules (C41): the theorem -/
namespace MM.Pars
open MM.Veri MM.Spec

variable {toks : List (Name × Bool)} {done rest src : List Src} {s s' : PState} {x : Src} {y : Stmt}

theorem rules_kind {i : Nat} {k : Kind} (hk : kindAt (kinds src) i = k) (h0 : k = .lb ∨ (k = .rb ∧ 1 ≤ depth (kinds src) i)) :
    StmtRules src i := by
  rcases h0 with rfl | ⟨rfl, hd⟩
  · constructor <;> intro e <;> rw [hk] at e <;> simp at e
  · constructor <;> intro e
    case rb => exact hd
    all_goals (rw [hk] at e; simp at e)

/-- `$d` -/
theorem d_iff (h : PInv toks done s) (hp : DepthPos done) (hsrc : src = done ++ x :: rest) (hx : x.kind = .d) :
    (∃ s', doStmt toks s x = .val s' ∧ s'.errs = []) ↔ StmtRules src s.n := by
  have hcur : kindAt (kinds src) s.n = .d := by rw [h.len, kindAt_cur hsrc, hx]
  have hsym : symsAt src s.n = x.syms := by rw [h.len, symsAt_cur hsrc]
  unfold doStmt
  rw [hx]
  dsimp only
  constructor
  · rintro ⟨s', hs', he⟩
    cases hm : mathScan toks .d x.syms [] s with
    | val r =>
      rw [hm] at hs'
      simp only [Out.bind_val, Out.val.injEq] at hs'
      have he2 : (dPairs r.1 (lenChecks .d r.1 r.2)).errs = [] := by rw [← hs'] at he; exact he
      obtain ⟨a1, a2, _⟩ := dPairs_spec he2
      obtain ⟨b1, b2⟩ := lenChecks_ok a1
      rw [b1] at a1
      obtain ⟨c1, c2⟩ := mathScan_scanOk (m := r.1) (s' := r.2) hm a1
      rw [if_pos rfl] at b2
      constructor <;> intro e
      case used => rw [hsym]; exact scan_used h hsrc c2
      case d =>
        rw [hsym, ← c2.len]
        refine ⟨b2, (nodup_iff h c2.names (fun t ht => (c2.act t ht).1)).mp a2, ?_⟩
        intro nm hnm
        obtain ⟨t, h1, h2⟩ := (mem_syms c2.names).mp hnm
        obtain ⟨p, hp2⟩ := List.getElem?_of_mem h1
        have := c2.checks p t hp2
        exact (tok_v h hsrc (c2.act t h1).1 h2).mpr this
      all_goals (rw [hcur] at e; simp at e)
    | ub => rw [hm] at hs'; cases hs'
    | bug n => rw [hm] at hs'; cases hs'
    | fuel => rw [hm] at hs'; cases hs'
  · intro R
    obtain ⟨d1, d2, d3⟩ := R.d hcur
    rw [hsym] at d1 d2 d3
    obtain ⟨m, hm, c2⟩ := scan_of h hp hsrc (k := .d) (fun nm hnm => Or.inr (d3 nm hnm))
      (by
        rintro p t _ ha ⟨nm, hn1, hn2⟩
        exact (tok_v h hsrc ha hn2).mp (d3 nm (List.mem_of_getElem? hn1)))
    rw [hm]
    refine ⟨_, rfl, ?_⟩
    show (dPairs m (lenChecks .d m s)).errs = []
    rw [lenChecks_of (by rw [if_pos rfl, c2.len]; exact d1),
      dPairs_errs_of ((nodup_iff h c2.names (fun t ht => (c2.act t ht).1)).mpr d2), h.errs]

/-- `$e` -/
theorem e_iff (h : PInv toks done s) (hp : DepthPos done) (hsrc : src = done ++ x :: rest) (hx : x.kind = .e) :
    (∃ s', doStmt toks s x = .val s' ∧ s'.errs = []) ↔ StmtRules src s.n := by
  have hcur : kindAt (kinds src) s.n = .e := by rw [h.len, kindAt_cur hsrc, hx]
  have hsym : symsAt src s.n = x.syms := by rw [h.len, symsAt_cur hsrc]
  unfold doStmt
  rw [hx]
  dsimp only
  constructor
  · rintro ⟨s', hs', he⟩
    cases hm : mathScan toks .e x.syms [] s with
    | val r =>
      rw [hm] at hs'
      simp only [Out.bind_val, Out.val.injEq] at hs'
      have a1 : (lenChecks .e r.1 r.2).errs = [] := by rw [← hs'] at he; exact he
      obtain ⟨b1, b2⟩ := lenChecks_ok a1
      rw [b1] at a1
      obtain ⟨c1, c2⟩ := mathScan_scanOk (m := r.1) (s' := r.2) hm a1
      rw [if_neg (by simp)] at b2
      constructor <;> intro e
      case used => rw [hsym]; exact scan_used h hsrc c2
      case first =>
        rw [hsym]
        obtain ⟨c, q, e1, e2⟩ := scan_shape c2 (by simp) b2.1
        obtain ⟨nm, n1, n2⟩ := getElem_syms c2.names (p := 0) (t := c) (by rw [e1]; rfl)
        exact ⟨nm, n1, (tok_c h hsrc (c2.act c (by rw [e1]; simp)).1 n2).mpr e2⟩
      all_goals (rw [hcur] at e; simp at e)
    | ub => rw [hm] at hs'; cases hs'
    | bug n => rw [hm] at hs'; cases hs'
    | fuel => rw [hm] at hs'; cases hs'
  · intro R
    have hu := R.used (by rw [hcur]; simp)
    obtain ⟨c, f1, f2⟩ := R.first (by rw [hcur]; simp)
    rw [hsym] at hu f1
    obtain ⟨m, hm, c2⟩ := scan_of h hp hsrc (k := .e) hu
      (by
        rintro p t _ ha ⟨nm, hn1, hn2⟩
        unfold SymOk
        rw [if_neg (by simp)]
        by_cases h0 : p = 0
        · subst h0
          rw [f1] at hn1
          simp only [Option.some.injEq] at hn1
          subst hn1
          rw [if_pos rfl]; exact (tok_c h hsrc ha hn2).mp f2
        · rw [if_neg h0, if_neg (by simp)]; trivial)
    rw [hm]
    refine ⟨_, rfl, ?_⟩
    show (lenChecks .e m s).errs = []
    have hne : m ≠ [] := by
      rintro rfl
      have := c2.len
      have hz : x.syms = [] := by simpa using this.symm
      rw [hz] at f1; cases f1
    rw [lenChecks_of (by rw [if_neg (by simp)]; exact ⟨hne, fun e => by cases e⟩)]
    exact h.errs

/-- `$f` -/
theorem f_iff (h : PInv toks done s) (hp : DepthPos done) (hsrc : src = done ++ x :: rest) (hx : x.kind = .f) :
    (∃ s', doStmt toks s x = .val s' ∧ s'.errs = []) ↔ StmtRules src s.n := by
  have hcur : kindAt (kinds src) s.n = .f := by rw [h.len, kindAt_cur hsrc, hx]
  have hsym : symsAt src s.n = x.syms := by rw [h.len, symsAt_cur hsrc]
  unfold doStmt
  rw [hx]
  dsimp only
  constructor
  · rintro ⟨s', hs', he⟩
    cases hm : mathScan toks .f x.syms [] s with
    | val r =>
      rw [hm] at hs'
      simp only [Out.bind_val, Out.val.injEq] at hs'
      have a1 : (lenChecks .f r.1 r.2).errs = [] := by rw [← hs'] at he; exact he
      obtain ⟨b1, b2⟩ := lenChecks_ok a1
      rw [b1] at a1
      obtain ⟨c1, c2⟩ := mathScan_scanOk (m := r.1) (s' := r.2) hm a1
      rw [if_neg (by simp)] at b2
      constructor <;> intro e
      case used => rw [hsym]; exact scan_used h hsrc c2
      case f =>
        rw [hsym]
        obtain ⟨c, v, e1, e2, e3⟩ := scan_fShape c2 (b2.2 rfl)
        obtain ⟨nc, n1, n2⟩ := getElem_syms c2.names (p := 0) (t := c) (by rw [e1]; rfl)
        obtain ⟨nv, n3, n4⟩ := getElem_syms c2.names (p := 1) (t := v) (by rw [e1]; rfl)
        have hl := c2.len
        rw [e1] at hl
        have hsy : x.syms = [nc, nv] := by
          cases hxs : x.syms with
          | nil => rw [hxs] at hl; cases hl
          | cons a l =>
            cases l with
            | nil => rw [hxs] at hl; cases hl
            | cons b l =>
              cases l with
              | nil => rw [hxs] at n1 n3; simp at n1 n3; rw [n1, n3]
              | cons d l => rw [hxs] at hl; simp at hl
        exact ⟨nc, nv, hsy, (tok_c h hsrc (c2.act c (by rw [e1]; simp)).1 n2).mpr e2,
          (tok_v h hsrc (c2.act v (by rw [e1]; simp)).1 n4).mpr e3⟩
      all_goals (rw [hcur] at e; simp at e)
    | ub => rw [hm] at hs'; cases hs'
    | bug n => rw [hm] at hs'; cases hs'
    | fuel => rw [hm] at hs'; cases hs'
  · intro R
    have hu := R.used (by rw [hcur]; simp)
    obtain ⟨c, v, f1, f2, f3⟩ := R.f hcur
    rw [hsym] at hu f1
    obtain ⟨m, hm, c2⟩ := scan_of h hp hsrc (k := .f) hu
      (by
        rintro p t _ ha ⟨nm, hn1, hn2⟩
        unfold SymOk
        rw [if_neg (by simp)]
        rw [f1] at hn1
        by_cases h0 : p = 0
        · subst h0
          simp only [List.getElem?_cons_zero, Option.some.injEq] at hn1
          subst hn1
          rw [if_pos rfl]; exact (tok_c h hsrc ha hn2).mp f2
        · rw [if_neg h0, if_pos rfl]
          by_cases h1 : p = 1
          · subst h1
            simp only [List.getElem?_cons_succ, List.getElem?_cons_zero, Option.some.injEq] at hn1
            subst hn1
            rw [if_pos rfl]; exact (tok_v h hsrc ha hn2).mp f3
          · rw [if_neg h1]
            rintro rfl
            simp at hn1)
    rw [hm]
    refine ⟨_, rfl, ?_⟩
    show (lenChecks .f m s).errs = []
    have hl : m.length = 2 := by rw [c2.len, f1]; rfl
    rw [lenChecks_of (by rw [if_neg (by simp)]; exact ⟨(by rintro rfl; cases hl), fun _ => by omega⟩)]
    exact h.errs

/-- Tokens of an earlier (or the current) statement that is active now are active now. -/
theorem math_active (h : PInv toks done s) {j : Nat} (hj : Active (kinds done) j s.n)
    (hk : kindAt (kinds done) j ∈ [Kind.d, .e, .f, .a, .p]) : ∀ t ∈ s.math j, s.active t = true := by
  intro t ht
  obtain ⟨_, q, q1, q2, q3⟩ := h.acts j hk t ht
  exact h.active_of ⟨q, q1.trans hj, q2, q3⟩

/-- `$a`, `$p` -/
theorem assert_iff (h : PInv toks done s) (hp : DepthPos done) (hsrc : src = done ++ x :: rest) (ht : toks = declToks src)
    {k : Kind} (hk : k = .a ∨ k = .p) (hx : x.kind = k) :
    (∃ s', doStmt toks s x = .val s' ∧ s'.errs = []) ↔ StmtRules src s.n := by
  have hcur : kindAt (kinds src) s.n = k := by rw [h.len, kindAt_cur hsrc, hx]
  have hsym : symsAt src s.n = x.syms := by rw [h.len, symsAt_cur hsrc]
  have hnn : s.n = done.length + 1 := h.len
  have hdo : doStmt toks s x = (do let (m, s1) ← mathScan toks k x.syms [] s; doAssert toks k m (lenChecks k m s1)) := by
    unfold doStmt
    rcases hk with rfl | rfl <;> rw [hx]
  have hkd : k ≠ .d := by rcases hk with rfl | rfl <;> simp
  have hkf : k ≠ .f := by rcases hk with rfl | rfl <;> simp
  -- the `$f` statements
  have hF : ∀ f, Active (kinds done) f s.n → kindAt (kinds done) f = .f → ∀ nm, (symsAt done f)[1]? = some nm →
      ∃ w, (s.math f).getD 1 0 = w ∧ w ∈ s.math f ∧ tokName toks w = some nm ∧ tokIsVar toks w = true ∧ s.active w = true := by
    intro f f1 f2 nm hnm
    have hn := names_at h.toSInv (j := f) (by simp [f2]) (by simp [f2]) (by simp [f2])
    obtain ⟨w, w1, w2⟩ := getElem_math hn hnm
    obtain ⟨c, v, e1, e2, e3⟩ := h.fShape f f2
    have hv : v = w := by rw [e1] at w1; simpa using w1
    subst hv
    exact ⟨v, by rw [e1]; rfl, by rw [e1]; simp, w2, e3, math_active h f1 (by simp [f2]) v (by rw [e1]; simp)⟩
  have hF2 : ∀ f, Active (kinds done) f s.n → kindAt (kinds done) f = .f → ∃ nm, (symsAt done f)[1]? = some nm ∧
      tokName toks ((s.math f).getD 1 0) = some nm := by
    intro f f1 f2
    have hn := names_at h.toSInv (j := f) (by simp [f2]) (by simp [f2]) (by simp [f2])
    obtain ⟨c, v, e1, e2, e3⟩ := h.fShape f f2
    obtain ⟨nm, n1, n2⟩ := getElem_syms hn (p := 1) (t := v) (by rw [e1]; rfl)
    exact ⟨nm, n1, by rw [e1]; exact n2⟩
  have hFF : ∀ f nm, FFor src s.n f nm ↔ Active (kinds done) f s.n ∧ kindAt (kinds done) f = .f ∧ (symsAt done f)[1]? = some nm := by
    intro f nm
    unfold FFor
    rw [active_src hsrc (by omega)]
    constructor
    · rintro ⟨a, b, c⟩
      have hf : f ≤ done.length := by have := a.2.1; omega
      rw [kindAt_src hsrc hf] at b; rw [symsAt_src hsrc hf] at c
      exact ⟨a, b, c⟩
    · rintro ⟨a, b, c⟩
      have hf : f ≤ done.length := by have := a.2.1; omega
      exact ⟨a, by rw [kindAt_src hsrc hf]; exact b, by rw [symsAt_src hsrc hf]; exact c⟩
  have hEE : ∀ e, (Active (kinds src) e s.n ∧ kindAt (kinds src) e = .e) ↔ Active (kinds done) e s.n ∧ kindAt (kinds done) e = .e := by
    intro e
    rw [active_src hsrc (by omega)]
    constructor
    · rintro ⟨a, b⟩
      have hf : e ≤ done.length := by have := a.2.1; omega
      rw [kindAt_src hsrc hf] at b
      exact ⟨a, b⟩
    · rintro ⟨a, b⟩
      have hf : e ≤ done.length := by have := a.2.1; omega
      exact ⟨a, by rw [kindAt_src hsrc hf]; exact b⟩
  have hEs : ∀ e, Active (kinds done) e s.n → kindAt (kinds done) e = .e → ∀ nm, nm ∈ symsAt src e ↔
      ∃ t ∈ s.math e, tokName toks t = some nm := by
    intro e e1 e2 nm
    rw [symsAt_src hsrc (by have := e1.2.1; omega)]
    exact mem_syms (names_at h.toSInv (j := e) (by simp [e2]) (by simp [e2]) (by simp [e2]))
  rw [hdo]
  constructor
  · rintro ⟨s', hs', he⟩
    have hI := h.stmt (rest := rest) (by rw [ht, hsrc]) (by rw [hdo]; exact hs') he
    cases hm : mathScan toks k x.syms [] s with
    | val r =>
      rw [hm] at hs'
      simp only [Out.bind_val] at hs'
      have a1 := doAssert_errs hs' he
      obtain ⟨b1, b2⟩ := lenChecks_ok a1
      rw [b1] at a1
      obtain ⟨c1, c2⟩ := mathScan_scanOk (m := r.1) (s' := r.2) hm a1
      rw [if_neg hkd] at b2
      have hout : ∃ st : Stmt, st.kind = k ∧ st.math = r.1 ∧ s'.out = s.out ++ [st] := by
        rw [b1, c1] at hs'
        unfold doAssert at hs'
        dsimp only at hs'
        split at hs'
        · cases hs'
        · simp only [Out.val.injEq] at hs'
          rw [← hs']; exact ⟨_, rfl, rfl, rfl⟩
      obtain ⟨st, hstk, hstm, ho⟩ := hout
      have hmn : s'.math s.n = r.1 := by unfold PState.math; rw [stmt_new ho, hstm]
      have hmo : ∀ j, j ≤ done.length → s'.math j = s.math j := fun j hj => by
        unfold PState.math; rw [stmt_append rfl ho (by omega)]
      have hka : kindAt (kinds (done ++ [x])) s.n = k := by
        rw [hnn, kinds_append, show done.length = (kinds done).length by simp, kindAt_last, hx]
      have hko : ∀ j, j ≤ done.length → kindAt (kinds (done ++ [x])) j = kindAt (kinds done) j := fun j hj => by
        rw [kinds_append, kindAt_append (by simpa using hj)]
      have hao : ∀ j, Active (kinds (done ++ [x])) j s.n ↔ Active (kinds done) j s.n := fun j => by
        rw [kinds_append]; exact active_old (by rw [kinds_length, hnn])
      have Fr := hI.frame s.n (by rw [hka]; exact hk)
      have htok : ∀ m', m' = s.n ∨ (Active (kinds src) m' s.n ∧ kindAt (kinds src) m' = .e) → ∀ nm ∈ symsAt src m',
          ∃ t ∈ s'.math m', tokName toks t = some nm ∧ s.active t = true := by
        rintro m' (rfl | hm') nm hnm
        · rw [hsym] at hnm
          obtain ⟨t, t1, t2⟩ := (mem_syms c2.names).mp hnm
          exact ⟨t, by rw [hmn]; exact t1, t2, (c2.act t t1).1⟩
        · obtain ⟨e1, e2⟩ := (hEE m').mp hm'
          obtain ⟨t, t1, t2⟩ := (hEs m' e1 e2 nm).mp hnm
          exact ⟨t, by rw [hmo m' (by have := e1.2.1; omega)]; exact t1, t2, math_active h e1 (by simp [e2]) t t1⟩
      constructor <;> intro e
      case used => rw [hsym]; exact scan_used h hsrc c2
      case first =>
        rw [hsym]
        obtain ⟨c, q, e1, e2⟩ := scan_shape c2 hkd b2.1
        obtain ⟨nm, n1, n2⟩ := getElem_syms c2.names (p := 0) (t := c) (by rw [e1]; rfl)
        exact ⟨nm, n1, (tok_c h hsrc (c2.act c (by rw [e1]; simp)).1 n2).mpr e2⟩
      case typed =>
        intro m' hm' nm hnm hdv
        obtain ⟨t, t1, t2, t3⟩ := htok m' hm' nm hnm
        have hvt := (tok_v h hsrc t3 t2).mp hdv
        have hmem : m' ∈ (s'.stmt s.n).reqHyp ++ [s.n] := by
          rcases hm' with rfl | hm'
          · simp
          · obtain ⟨e1, e2⟩ := (hEE m').mp hm'
            apply List.mem_append.mpr
            left
            refine (Fr.hyp m').mpr ⟨(hao m').mpr e1, Or.inl ?_⟩
            rw [hko m' (by have := e1.2.1; omega)]; exact e2
        have hnf : kindAt (kinds (done ++ [x])) m' ≠ .f := by
          rcases hm' with rfl | hm'
          · rw [hka]; exact hkf
          · obtain ⟨e1, e2⟩ := (hEE m').mp hm'
            rw [hko m' (by have := e1.2.1; omega), e2]; simp
        obtain ⟨f, f1, f2, f3, f4, f5⟩ := Fr.fUse m' hmem hnf t t1 hvt
        have f6 := (hao f).mp ((Fr.hyp f).mp f1).1
        have hfl : f ≤ done.length := by have := f6.2.1; omega
        rw [hko f hfl] at f3
        obtain ⟨nm', g1, g2⟩ := hF2 f f6 f3
        refine ⟨f, f2, (hFF f nm).mpr ⟨f6, f3, ?_⟩⟩
        have : (s.math f).getD 1 0 = t := by rw [← hmo f hfl]; exact f5
        rw [this, t2] at g2
        rw [g1, g2]
      case single =>
        rintro nm ⟨hdv, hocc⟩ f g hf hg
        obtain ⟨f1, f2, f3⟩ := (hFF f nm).mp hf
        obtain ⟨g1, g2, g3⟩ := (hFF g nm).mp hg
        obtain ⟨w, w1, w2, w3, w4, w5⟩ := hF f f1 f2 nm f3
        obtain ⟨u, u1, u2, u3, u4, u5⟩ := hF g g1 g2 nm g3
        have huw := h.actUniq w u w5 u5 (by rw [w3, u3])
        subst huw
        have hfl : f ≤ done.length := by have := f1.2.1; omega
        have hgl : g ≤ done.length := by have := g1.2.1; omega
        have hmand : Mandatory (tokIsVar toks) (kinds (done ++ [x])) (fun k => (s'.stmt k).math) s.n w := by
          refine ⟨w4, ?_⟩
          rcases hocc with ho1 | ⟨j, j1, j2, j3⟩
          · obtain ⟨t, t1, t2, t3⟩ := htok s.n (Or.inl rfl) nm ho1
            rw [h.actUniq w t w5 t3 (by rw [w3, t2])]
            exact Or.inl t1
          · obtain ⟨t, t1, t2, t3⟩ := htok j (Or.inr ⟨j1, j2⟩) nm j3
            obtain ⟨e1, e2⟩ := (hEE j).mp ⟨j1, j2⟩
            rw [h.actUniq w t w5 t3 (by rw [w3, t2])]
            exact Or.inr ⟨j, (hao j).mpr e1, by rw [hko j (by have := e1.2.1; omega)]; exact e2, t1⟩
        refine Fr.fUniq f ?_ g ?_ (by rw [hko f hfl]; exact f2) (by rw [hko g hgl]; exact g2) ?_
        · refine (Fr.hyp f).mpr ⟨(hao f).mpr f1, Or.inr ⟨by rw [hko f hfl]; exact f2, w, ?_, hmand⟩⟩
          show w ∈ s'.math f
          rw [hmo f hfl]; exact w2
        · refine (Fr.hyp g).mpr ⟨(hao g).mpr g1, Or.inr ⟨by rw [hko g hgl]; exact g2, w, ?_, hmand⟩⟩
          show w ∈ s'.math g
          rw [hmo g hgl]; exact u2
        · show (s'.math f).getD 1 0 = (s'.math g).getD 1 0
          rw [hmo f hfl, hmo g hgl, w1, u1]
      all_goals (rw [hcur] at e; rcases hk with rfl | rfl <;> simp at e)
    | ub => rw [hm] at hs'; cases hs'
    | bug n => rw [hm] at hs'; cases hs'
    | fuel => rw [hm] at hs'; cases hs'
  · intro R
    have hka : kindAt (kinds src) s.n = .a ∨ kindAt (kinds src) s.n = .p := by rw [hcur]; exact hk
    have hu := R.used (by rw [hcur]; rcases hk with rfl | rfl <;> simp)
    obtain ⟨c, f1, f2⟩ := R.first (by rw [hcur]; rcases hk with rfl | rfl <;> simp)
    have hty := R.typed hka
    have hsi := R.single hka
    rw [hsym] at hu f1
    obtain ⟨m, hm, c2⟩ := scan_of h hp hsrc (k := k) hu
      (by
        rintro p t _ ha ⟨nm, hn1, hn2⟩
        unfold SymOk
        rw [if_neg hkd]
        by_cases h0 : p = 0
        · subst h0
          rw [f1] at hn1
          simp only [Option.some.injEq] at hn1
          subst hn1
          rw [if_pos rfl]; exact (tok_c h hsrc ha hn2).mp f2
        · rw [if_neg h0, if_neg hkf]; trivial)
    rw [hm]
    simp only [Out.bind_val]
    have hne : m ≠ [] := by
      rintro rfl
      have := c2.len
      have hz : x.syms = [] := by simpa using this.symm
      rw [hz] at f1; cases f1
    rw [lenChecks_of (by rw [if_neg hkd]; exact ⟨hne, fun e => absurd e hkf⟩)]
    have hname : ∀ t, t < toks.length → ∃ nm, tokName toks t = some nm := by
      intro t htl; unfold tokName; rw [List.getElem?_eq_getElem htl]; exact ⟨_, rfl⟩
    have hFtok : ∀ f nm t, FFor src s.n f nm → tokName toks t = some nm → s.active t = true →
        Active (kinds done) f s.n ∧ kindAt (kinds done) f = .f ∧ (s.math f).getD 1 0 = t := by
      intro f nm t hf hn ha
      obtain ⟨g1, g2, g3⟩ := (hFF f nm).mp hf
      obtain ⟨w, w1, _, w3, _, w5⟩ := hF f g1 g2 nm g3
      exact ⟨g1, g2, by rw [w1]; exact h.actUniq w t w5 ha (by rw [w3, hn])⟩
    refine assert_ok h hk (scan_var h c2) ?_ ?_ ?_
    · intro v hv hvv
      obtain ⟨ha, hl⟩ := c2.act v hv
      obtain ⟨nm, hn⟩ := hname v hl
      have hmem : nm ∈ symsAt src s.n := by rw [hsym]; exact (mem_syms c2.names).mpr ⟨v, hv, hn⟩
      obtain ⟨f, _, hf⟩ := hty s.n (Or.inl rfl) nm hmem ((tok_v h hsrc ha hn).mpr hvv)
      exact ⟨f, hFtok f nm v hf hn ha⟩
    · intro e e1 e2 v hv hvv
      have ha := math_active h e1 (by simp [e2]) v hv
      obtain ⟨nm, hn⟩ := hname v (h.acts e (by simp [e2]) v hv).1
      have hmem : nm ∈ symsAt src e := (hEs e e1 e2 nm).mpr ⟨v, hv, hn⟩
      obtain ⟨f, hlt, hf⟩ := hty e (Or.inr ((hEE e).mpr ⟨e1, e2⟩)) nm hmem ((tok_v h hsrc ha hn).mpr hvv)
      exact ⟨f, hlt, hFtok f nm v hf hn ha⟩
    · intro f g hlt f1 g1 f2 g2 heq hocc
      obtain ⟨nf, a1, a2⟩ := hF2 f f1 f2
      obtain ⟨ng, b1, b2⟩ := hF2 g g1 g2
      obtain ⟨w, w1, w2, w3, w4, w5⟩ := hF g g1 g2 ng b1
      have : nf = ng := by rw [heq, b2] at a2; simpa using a2.symm
      subst this
      have := hsi nf ⟨(tok_v h hsrc w5 w3).mpr w4, ?_⟩ f g ((hFF f nf).mpr ⟨f1, f2, a1⟩) ((hFF g nf).mpr ⟨g1, g2, b1⟩)
      · omega
      · rcases hocc with ho | ⟨e, e1, e2, e3⟩
        · left; rw [hsym]; exact (mem_syms c2.names).mpr ⟨_, ho, b2⟩
        · right
          obtain ⟨e4, e5⟩ := (hEE e).mpr ⟨e1, e2⟩
          exact ⟨e, e4, e5, (hEs e e1 e2 nf).mpr ⟨_, e3, b2⟩⟩

/-- One statement is processed without error iff it obeys the rules. -/
theorem step_iff (h : PInv toks done s) (hp : DepthPos done) (hsrc : src = done ++ x :: rest) (ht : toks = declToks src) :
    (∃ s', doStmt toks s x = .val s' ∧ s'.errs = []) ↔ StmtRules src s.n ∧ NoClash src s.n := by
  have hcur : kindAt (kinds src) s.n = x.kind := by rw [h.len, kindAt_cur hsrc]
  have hsym : symsAt src s.n = x.syms := by rw [h.len, symsAt_cur hsrc]
  have hnc : x.kind ≠ .c → x.kind ≠ .v → NoClash src s.n := by
    intro h1 h2 j nm _ _
    rw [hcur]; exact ⟨fun e => absurd e h1, fun e => absurd e h2⟩
  have hdep : depth (kinds src) s.n = s.scope := by rw [h.len, depth_src hsrc, h.scope]
  have hdecl : ∀ k, (k = .c ∨ k = .v) → x.kind = k → (∃ s', Out.val (doDecl toks k x.syms s) = .val s' ∧ s'.errs = []) →
      StmtRules src s.n ∧ NoClash src s.n := by
    rintro k hk hx ⟨s', hs', he⟩
    simp only [Out.val.injEq] at hs'
    rw [← hs', decl_iff h hsrc ht hk hx] at he
    obtain ⟨a1, a2, a3, a4, a5⟩ := he
    refine ⟨?_, a5⟩
    constructor <;> intro e
    case outer => rw [hdep]; rw [hcur, hx] at e; exact a3 e
    case decl => rw [hsym]; exact ⟨a1, a2, a4⟩
    all_goals (rw [hcur, hx] at e; rcases hk with rfl | rfl <;> simp at e)
  have hdecl2 : ∀ k, (k = .c ∨ k = .v) → x.kind = k → StmtRules src s.n → NoClash src s.n →
      (∃ s', Out.val (doDecl toks k x.syms s) = .val s' ∧ s'.errs = []) := by
    intro k hk hx R N
    refine ⟨_, rfl, (decl_iff h hsrc ht hk hx).mpr ?_⟩
    have := R.decl (by rw [hcur, hx]; exact hk)
    rw [hsym] at this
    exact ⟨this.1, this.2.1, fun e => by rw [← hdep]; exact R.outer (by rw [hcur, hx, e]), this.2.2, N⟩
  cases hk : x.kind
  case c =>
    rw [show doStmt toks s x = .val (doDecl toks .c x.syms s) by unfold doStmt; rw [hk]]
    exact ⟨hdecl .c (Or.inl rfl) hk, fun ⟨a, b⟩ => hdecl2 .c (Or.inl rfl) hk a b⟩
  case v =>
    rw [show doStmt toks s x = .val (doDecl toks .v x.syms s) by unfold doStmt; rw [hk]]
    exact ⟨hdecl .v (Or.inr rfl) hk, fun ⟨a, b⟩ => hdecl2 .v (Or.inr rfl) hk a b⟩
  case lb =>
    rw [show doStmt toks s x = .val (doLb s) by unfold doStmt; rw [hk]]
    exact ⟨fun _ => ⟨rules_kind (hcur.trans hk) (Or.inl rfl), hnc (by simp [hk]) (by simp [hk])⟩,
      fun _ => ⟨_, rfl, h.errs⟩⟩
  case rb =>
    rw [show doStmt toks s x = .val (doRb s) by unfold doStmt; rw [hk]]
    constructor
    · rintro ⟨s', hs', he⟩
      refine ⟨rules_kind (hcur.trans hk) (Or.inr ⟨rfl, ?_⟩), hnc (by simp [hk]) (by simp [hk])⟩
      simp only [Out.val.injEq] at hs'
      rw [← hs'] at he
      unfold doRb at he
      dsimp only at he
      obtain ⟨_, e2⟩ := errIf_nil he
      rw [hdep]
      simp at e2
      omega
    · rintro ⟨R, _⟩
      have h1 := R.rb (hcur.trans hk)
      rw [hdep] at h1
      refine ⟨_, rfl, ?_⟩
      unfold doRb
      dsimp only
      rw [decide_eq_false (by omega)]
      exact h.errs
  case none =>
    rw [show doStmt toks s x = .bug 1707 by unfold doStmt; rw [hk]]
    constructor
    · rintro ⟨s', hs', _⟩; cases hs'
    · rintro ⟨R, _⟩; exact absurd (hcur.trans hk) R.kind
  case d => rw [d_iff h hp hsrc hk]; exact ⟨fun R => ⟨R, hnc (by simp [hk]) (by simp [hk])⟩, fun R => R.1⟩
  case e => rw [e_iff h hp hsrc hk]; exact ⟨fun R => ⟨R, hnc (by simp [hk]) (by simp [hk])⟩, fun R => R.1⟩
  case f => rw [f_iff h hp hsrc hk]; exact ⟨fun R => ⟨R, hnc (by simp [hk]) (by simp [hk])⟩, fun R => R.1⟩
  case a => rw [assert_iff h hp hsrc ht (Or.inl rfl) hk]; exact ⟨fun R => ⟨R, hnc (by simp [hk]) (by simp [hk])⟩, fun R => R.1⟩
  case p => rw [assert_iff h hp hsrc ht (Or.inr rfl) hk]; exact ⟨fun R => ⟨R, hnc (by simp [hk]) (by simp [hk])⟩, fun R => R.1⟩

theorem DepthPos.step (hp : DepthPos done) (h : PInv toks (done ++ [x]) s) : DepthPos (done ++ [x]) := by
  intro j hj
  rcases Nat.lt_or_ge j (done.length + 2) with hlt | hge
  · rw [kinds_append, depth_append (by rw [kinds_length]; omega)]
    exact hp j (by omega)
  · have : j = (done ++ [x]).length + 1 := by simp at hj ⊢; omega
    rw [this, ← h.scope]; exact h.nonneg

/-- The run over the remaining statements. -/
theorem stmts_iff (ht : toks = declToks src) : ∀ {xs done : List Src} {s : PState}, PInv toks done s → DepthPos done →
    src = done ++ xs → ((∃ s', doStmts toks xs s = .val s' ∧ s'.errs = []) ↔
      ∀ i, done.length < i → i ≤ src.length → StmtRules src i ∧ NoClash src i)
  | [], done, s, h, _, hsrc => by
    simp only [List.append_nil] at hsrc
    subst hsrc
    constructor
    · rintro _ i h1 h2; omega
    · intro _; exact ⟨s, rfl, h.errs⟩
  | x :: xs, done, s, h, hp, hsrc => by
    have hst := step_iff h hp hsrc ht
    have hl : src.length = done.length + 1 + xs.length := by rw [hsrc]; simp; omega
    constructor
    · rintro ⟨s', hs', he⟩
      rw [doStmts] at hs'
      cases hx : doStmt toks s x with
      | val s1 =>
        rw [hx, Out.bind_val] at hs'
        have he1 := doStmts_errs hs' he
        have h1 := h.stmt (rest := xs) (by rw [ht, hsrc]) hx he1
        have ih := (stmts_iff ht h1 (hp.step h1) (by rw [hsrc]; simp)).mp ⟨s', hs', he⟩
        intro i hi hi2
        rcases Nat.lt_or_ge (done.length + 1) i with hc | hc
        · exact ih i (by simpa using hc) hi2
        · have : i = s.n := by rw [h.len]; omega
          rw [this]
          exact hst.mp ⟨s1, hx, he1⟩
      | ub => rw [hx] at hs'; cases hs'
      | bug n => rw [hx] at hs'; cases hs'
      | fuel => rw [hx] at hs'; cases hs'
    · intro hR
      obtain ⟨s1, hx, he1⟩ := hst.mpr (by rw [h.len]; exact hR _ (by omega) (by omega))
      have h1 := h.stmt (rest := xs) (by rw [ht, hsrc]) hx he1
      obtain ⟨s', hs', he⟩ := (stmts_iff ht (xs := xs) h1 (hp.step h1) (by rw [hsrc]; simp)).mpr
        (fun i hi hi2 => hR i (by simp at hi; omega) hi2)
      exact ⟨s', by rw [doStmts, hx, Out.bind_val]; exact hs', he⟩

/-- **C41** READ accepts a source, without any error message about its statements, if and only if the source obeys the
rules of the language about declarations, scopes and types of variables. -/
theorem C41_read_accepts_exactly (src : List Src) : (∃ s, Accepted src s) ↔ ReadRules src := by
  have hp0 : DepthPos [] := by
    intro j hj
    unfold depth kinds
    simp
  have key := stmts_iff (toks := declToks src) rfl (PInv.init (declToks src)) hp0 (src := src) (xs := src) (by simp)
  constructor
  · rintro ⟨s, h1, h2⟩
    obtain ⟨hI, hsc⟩ := parse_inv h1 h2
    have hex : ∃ s', doStmts (declToks src) src {} = .val s' ∧ s'.errs = [] := by
      unfold parseStatements at h1
      cases hd : doStmts (declToks src) src {} with
      | val s1 =>
        rw [hd] at h1
        simp only [Out.bind_val, Out.val.injEq] at h1
        rw [← h1] at h2
        exact ⟨s1, rfl, errIf_errs_nil h2⟩
      | ub => rw [hd] at h1; cases h1
      | bug n => rw [hd] at h1; cases h1
      | fuel => rw [hd] at h1; cases h1
    have hR := key.mp hex
    refine ⟨fun i i1 i2 => (hR i i1 i2).1, by rw [← hI.scope, hsc], ?_⟩
    intro i j nm hi hj hni hnj
    have hpos : 1 ≤ i ∧ i ≤ src.length := by
      constructor
      · by_contra hc
        have : i = 0 := by omega
        rw [this] at hi; cases hi
      · by_contra hc
        rw [kindAt_out _ (by rw [kinds_length]; omega)] at hi; cases hi
    exact ((hR i hpos.1 hpos.2).2 j nm hni hnj).1 hi hj
  · intro R
    obtain ⟨s, hs, he⟩ := key.mpr (fun i i1 i2 => ⟨R.stmt i i1 i2, fun j nm h1 h2 =>
      ⟨fun a b => R.conVar i j nm a b h1 h2, fun a b => R.conVar j i nm b a h2 h1⟩⟩)
    have hI := (PInv.init (declToks src)).stmts (rest := []) (by simp) hs he
    rw [List.nil_append] at hI
    refine ⟨s, ?_, he⟩
    unfold parseStatements
    rw [hs, Out.bind_val]
    have : s.scope = 0 := by rw [hI.scope, R.closed]
    rw [this]; rfl

/-- The rules can be met: the source of `Verif/Pars/Example.lean` (nested blocks, `$d`, `$e`, optional and mandatory
hypotheses) meets them. -/
theorem exSrc_rules : ReadRules exSrc := (C41_read_accepts_exactly exSrc).mp (exSrc_accepted.imp fun _ h => h.1)

/-- A source in which a variable is declared twice, in two blocks one after the other, and in which a block is nested in
another. -/
def twice : List Src :=
  [st .c "" ['W'], st .lb "" [], st .v "" ['p'], st .f "f" ['W', 'p'], st .lb "" [], st .e "e" ['W', 'p'],
   st .a "a" ['W', 'p'], st .rb "" [], st .rb "" [], st .lb "" [], st .v "" ['p'], st .f "g" ['W', 'p'], st .a "b" ['W', 'p', 'p'],
   st .rb "" []]

example : ReadRules twice := (C41_read_accepts_exactly twice).mp
  ((accepted_of_result (o := ((result twice).map (·.1)).getD []) (by decide +kernel)).imp fun _ h => h.1)

/-- A symbol used after the block that declares it has been closed breaks the rules, so it is reported. -/
example : ¬ ∃ s, Accepted [st .c "" ['W'], st .lb "" [], st .v "" ['p'], st .rb "" [], st .f "g" ['W', 'p']] s := by
  rw [C41_read_accepts_exactly]
  intro R
  rcases (R.stmt 5 (by decide) (by decide)).used (by decide) ['p'] (by decide) with ⟨j, h1, h2, h3⟩ | ⟨j, h1, h2, h3⟩
  · have hj := h1.2.1
    have : j = 0 ∨ j = 1 ∨ j = 2 ∨ j = 3 ∨ j = 4 := by omega
    rcases this with rfl | rfl | rfl | rfl | rfl <;> revert h2 h3 <;> decide
  · have hj := h1.2.1
    have : j = 0 ∨ j = 1 ∨ j = 2 ∨ j = 3 ∨ j = 4 := by omega
    rcases this with rfl | rfl | rfl | rfl | rfl
    all_goals try (revert h2 h3; decide)
    have := h1.2.2 5 (by omega) (by omega)
    revert this; decide

end MM.Pars
