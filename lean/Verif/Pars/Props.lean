import Verif.Pars.Run
import Verif.Veri.Props
/-!
# Properties of READ (C12–C15, C37)

`parseStatements src = .val s` with `s.errs = []` says that READ accepts the statements `src` without any error message.
The specification (`Verif/Spec/Scope.lean`) speaks of the kinds of the statements (`kinds src`) and of their
math strings.
-/
namespace MM.Pars
open MM.Veri MM.Spec

/-- READ accepts `src` and stores `s`. -/
def Accepted (src : List Src) (s : PState) : Prop := parseStatements src = .val s ∧ s.errs = []

/-- Is the token a variable? -/
abbrev isVarOf (src : List Src) : Nat → Bool := tokIsVar (declToks src)

/-- The statement is a `$a` or `$p`. -/
def IsAssert (src : List Src) (i : Nat) : Prop := kindAt (kinds src) i = .a ∨ kindAt (kinds src) i = .p

/-- **C12** The mandatory hypotheses of every `$a`/`$p` are, in order of appearance, the active `$e` statements and the
active `$f` statements of mandatory variables; the optional hypotheses of a `$p` are the other active `$f` statements. -/
theorem C12_mandatory_hyps {src : List Src} {s : PState} (h : Accepted src s) {i : Nat} (hi : IsAssert src i) :
    (s.stmt i).reqHyp.Pairwise (· < ·) ∧
    (∀ j, j ∈ (s.stmt i).reqHyp ↔ MandHyp (isVarOf src) (kinds src) s.math i j) ∧
    (kindAt (kinds src) i = .p → (s.stmt i).optHyp.Pairwise (· < ·) ∧
      ∀ j, j ∈ (s.stmt i).optHyp ↔ OptHyp (isVarOf src) (kinds src) s.math i j) := by
  have F := (parse_inv h.1 h.2).1.frame i hi
  exact ⟨F.hypSorted, F.hyp, fun hp => ⟨F.optSorted hp, F.opt hp⟩⟩

/-- **C12**, variables: the mandatory variables are stored once each. -/
theorem C12_mandatory_vars {src : List Src} {s : PState} (h : Accepted src s) {i : Nat} (hi : IsAssert src i) :
    (s.stmt i).reqVars.Nodup ∧ ∀ v, v ∈ (s.stmt i).reqVars ↔ Mandatory (isVarOf src) (kinds src) s.math i v := by
  have F := (parse_inv h.1 h.2).1.frame i hi
  exact ⟨F.varNodup, F.var⟩

/-- **C13** Mandatory and optional `$d` pairs. -/
theorem C13_disjoint_pairs {src : List Src} {s : PState} (h : Accepted src s) {i : Nat} (hi : IsAssert src i) :
    (s.stmt i).reqDisj.Nodup ∧
    (∀ a b, (a, b) ∈ (s.stmt i).reqDisj ↔ a < b ∧ Mandatory (isVarOf src) (kinds src) s.math i a ∧
      Mandatory (isVarOf src) (kinds src) s.math i b ∧ DvDeclared (kinds src) s.math i a b) ∧
    (kindAt (kinds src) i = .p → (s.stmt i).optDisj.Nodup ∧
      ∀ a b, (a, b) ∈ (s.stmt i).optDisj ↔ a < b ∧
        ¬ (Mandatory (isVarOf src) (kinds src) s.math i a ∧ Mandatory (isVarOf src) (kinds src) s.math i b) ∧
        DvDeclared (kinds src) s.math i a b) := by
  have F := (parse_inv h.1 h.2).1.frame i hi
  exact ⟨F.dNodup, F.d, fun hp => ⟨F.odNodup hp, F.od hp⟩⟩

/-- **C15** Every variable `v` of the assertion or of a mandatory `$e` hypothesis (statement `m`) has exactly one
mandatory `$f` hypothesis, and it comes before `m`. -/
theorem C15_f_discipline {src : List Src} {s : PState} (h : Accepted src s) {i : Nat} (hi : IsAssert src i)
    {m : Nat} (hm : m = i ∨ (m ∈ (s.stmt i).reqHyp ∧ kindAt (kinds src) m = .e)) {v : Nat} (hv : v ∈ s.math m)
    (hvar : isVarOf src v = true) :
    ∃ f, (f ∈ (s.stmt i).reqHyp ∧ kindAt (kinds src) f = .f ∧ (∃ c, s.math f = [c, v] ∧ isVarOf src c = false) ∧ f < m) ∧
      ∀ g ∈ (s.stmt i).reqHyp, kindAt (kinds src) g = .f → v ∈ s.math g → g = f := by
  have I := (parse_inv h.1 h.2).1
  have F := I.frame i hi
  have hmk : kindAt (kinds src) m ≠ .f := by
    rcases hm with rfl | ⟨_, hk⟩
    · rcases hi with hi | hi <;> rw [hi] <;> simp
    · rw [hk]; simp
  have hmem : m ∈ (s.stmt i).reqHyp ++ [i] := by
    rcases hm with rfl | ⟨hk, _⟩ <;> simp [*]
  obtain ⟨f, h1, h2, h3, h4, h5⟩ := F.fUse m hmem hmk v hv hvar
  have key : ∀ g, kindAt (kinds src) g = .f → v ∈ s.math g → ∃ c, s.math g = [c, v] ∧ isVarOf src c = false := by
    intro g hg hvg
    obtain ⟨c, w, e1, e2, e3⟩ := I.fShape g hg
    rw [e1] at hvg
    simp at hvg
    rcases hvg with rfl | rfl
    · have hv' : tokIsVar (declToks src) v = true := hvar
      rw [e2] at hv'; cases hv'
    · exact ⟨c, e1, e2⟩
  have hf : ∃ c, s.math f = [c, v] ∧ isVarOf src c = false := by
    obtain ⟨c, w, e1, e2, e3⟩ := I.fShape f h3
    have : w = v := by
      have := h5
      rw [show (s.stmt f).math = s.math f from rfl, e1] at this
      simpa using this
    subst this
    exact ⟨c, e1, e2⟩
  refine ⟨f, ⟨h1, h3, hf, h2⟩, ?_⟩
  intro g hg hgk hvg
  apply F.fUniq g hg f h1 hgk h3
  obtain ⟨c, e1, _⟩ := key g hgk hvg
  obtain ⟨c', e1', _⟩ := hf
  rw [show (s.stmt f).math = s.math f from rfl, show (s.stmt g).math = s.math g from rfl, e1, e1']
  rfl

/-- Growth over a balanced sequence; a block restores the stacks exactly. -/
theorem balanced_ext {toks : List (Name × Bool)} {ks : List Kind} (hb : Balanced ks) :
    ∀ {xs done : List Src}, xs.map (·.kind) = ks → ∀ {s s' : PState} {rest}, PInv toks done s → toks = declToks (done ++ xs ++ rest) →
    doStmts toks xs s = .val s' → s'.errs = [] → Ext s s' := by
  induction hb with
  | nil =>
    intro xs done hk s s' rest _ _ hs _
    simp at hk; subst hk
    simp only [doStmts, Out.val.injEq] at hs; subst hs
    exact Ext.refl _
  | stmt h1 h2 _ ih =>
    intro xs done hk s s' rest hI ht hs he
    cases xs with
    | nil => simp at hk
    | cons x xs =>
      simp only [List.map_cons, List.cons.injEq] at hk
      rw [doStmts] at hs
      cases hx : doStmt toks s x with
      | val s1 =>
        rw [hx, Out.bind_val] at hs
        have he1 := doStmts_errs hs he
        have hI1 := hI.stmt (rest := xs ++ rest) (by rw [ht]; simp) hx he1
        exact (doStmt_ext (by rw [hk.1]; exact h1) (by rw [hk.1]; exact h2) hx he1).trans
          (ih hk.2 hI1 (rest := rest) (by rw [ht]; simp) hs he)
      | ub => rw [hx] at hs; cases hs
      | bug n => rw [hx] at hs; cases hs
      | fuel => rw [hx] at hs; cases hs
  | @block as bs ha hb iha ihb =>
    intro xs done hk s s' rest hI ht hs he
    rw [List.map_eq_append_iff] at hk
    obtain ⟨l1, l2, rfl, hk1, hk2⟩ := hk
    obtain ⟨x, l1', rfl, hx, hk1'⟩ := List.map_eq_cons_iff.mp hk1
    obtain ⟨z, l2', rfl, hz, hk2'⟩ := List.map_eq_cons_iff.mp hk2
    obtain ⟨s2, hs2, hs3⟩ := doStmts_append hs
    rw [doStmts] at hs2 hs3
    have hdx : doStmt toks s x = .val (doLb s) := by unfold doStmt; rw [hx]
    have hdz : doStmt toks s2 z = .val (doRb s2) := by unfold doStmt; rw [hz]
    rw [hdx, Out.bind_val] at hs2
    rw [hdz, Out.bind_val] at hs3
    have he3 := doStmts_errs hs3 he
    have he2 := doStmt_errs hdz he3
    have he1 := doStmts_errs hs2 he2
    have hI1 := hI.stmt (rest := l1' ++ z :: l2' ++ rest) (by rw [ht]; simp) hdx he1
    have hE := iha hk1' hI1 (rest := z :: l2' ++ rest) (by rw [ht]; simp) hs2 he2
    have hI2 := hI1.stmts (rest := z :: l2' ++ rest) (by rw [ht]; simp) hs2 he2
    have hI3 := hI2.stmt (rest := l2' ++ rest) (by rw [ht]; simp) hdz he3
    have hE2 : Ext s (doRb s2) := by
      unfold doRb at he3 ⊢
      dsimp only at he3 ⊢
      obtain ⟨e1, _⟩ := errIf_nil he3
      rw [e1]
      have hsc : s2.scope = s.scope + 1 := hE.scope
      refine ⟨by dsimp only; omega, ?_, ?_, ?_, ?_, ?_⟩ <;> dsimp only <;> rw [hsc]
      · have hc : popScope (·.2) (s.scope + 1) s2.cstack = s.cstack :=
          popScope_grown hE.c (fun w hw => by have := hI.cSort.bound w hw; show w.2 < s.scope + 1; omega)
        rw [hc]; exact .refl _ _ _
      · have hc : popScope (·.2) (s.scope + 1) s2.vstack = s.vstack :=
          popScope_grown hE.v (fun w hw => by have := hI.vSort.bound w hw; show w.2 < s.scope + 1; omega)
        rw [hc]; exact .refl _ _ _
      · have hc : popScope (·.scope) (s.scope + 1) s2.estack = s.estack :=
          popScope_grown hE.e (fun w hw => by have := hI.eSort.bound w hw; show w.scope < s.scope + 1; omega)
        rw [hc]; exact .refl _ _ _
      · have hc : popScope (·.scope) (s.scope + 1) s2.fstack = s.fstack :=
          popScope_grown hE.f (fun w hw => by have := hI.fSort.bound w hw; show w.scope < s.scope + 1; omega)
        rw [hc]; exact .refl _ _ _
      · have hc : popScope (·.scope) (s.scope + 1) s2.dstack = s.dstack :=
          popScope_grown hE.d (fun w hw => by have := hI.dSort.bound w hw; show w.scope < s.scope + 1; omega)
        rw [hc]; exact .refl _ _ _
    exact hE2.trans (ihb hk2' hI3 (rest := rest) (by rw [ht]; simp) hs3 he)

/-- **C14** A closed block leaves no trace: after `${ body $}` the active symbols and the stacks of active variables, constants,
`$e`, `$f` and `$d` hypotheses are what they were before the block. -/
theorem C14_block_leaves_no_trace {pre body post : List Src} {lb rb : Src} (hlb : lb.kind = .lb) (hrb : rb.kind = .rb)
    (hb : Balanced (kinds body)) {s s' : PState} {toks : List (Name × Bool)}
    (ht : toks = declToks (pre ++ lb :: body ++ rb :: post))
    (hs : doStmts toks pre {} = .val s) (hs' : doStmts toks (pre ++ lb :: body ++ [rb]) {} = .val s') (he : s'.errs = []) :
    s'.scope = s.scope ∧ s'.active = s.active ∧ s'.cstack = s.cstack ∧ s'.vstack = s.vstack ∧ s'.estack = s.estack ∧
      s'.fstack = s.fstack ∧ s'.dstack = s.dstack := by
  rw [List.append_assoc] at hs'
  obtain ⟨s0, h1, h2⟩ := doStmts_append hs'
  rw [h1, Out.val.injEq] at hs
  subst hs
  rw [List.cons_append, doStmts] at h2
  have hdx : doStmt toks s0 lb = .val (doLb s0) := by unfold doStmt; rw [hlb]
  rw [hdx, Out.bind_val] at h2
  obtain ⟨s2, h3, h4⟩ := doStmts_append h2
  have hdz : doStmt toks s2 rb = .val (doRb s2) := by unfold doStmt; rw [hrb]
  rw [doStmts, hdz, Out.bind_val, doStmts, Out.val.injEq] at h4
  subst h4
  have he2 := doStmt_errs hdz he
  have he1 := doStmts_errs h3 he2
  have he0 := doStmt_errs hdx he1
  have hI := (PInv.init toks).stmts (rest := lb :: body ++ rb :: post) (by rw [ht]; simp) h1 he0
  rw [List.nil_append] at hI
  have hI1 := hI.stmt (rest := body ++ rb :: post) (by rw [ht]; simp) hdx he1
  have hE := balanced_ext hb (xs := body) rfl hI1 (rest := rb :: post) (by rw [ht]; simp) h3 he2
  have hI2 := hI1.stmts (rest := rb :: post) (by rw [ht]; simp) h3 he2
  have hI3 := hI2.stmt (rest := post) (by rw [ht]; simp) hdz he
  have hsc : s2.scope = s0.scope + 1 := hE.scope
  have key : (doRb s2).scope = s0.scope ∧ (doRb s2).cstack = s0.cstack ∧ (doRb s2).vstack = s0.vstack ∧ (doRb s2).estack = s0.estack ∧
      (doRb s2).fstack = s0.fstack ∧ (doRb s2).dstack = s0.dstack := by
    unfold doRb at he ⊢
    dsimp only at he ⊢
    obtain ⟨e1, _⟩ := errIf_nil he
    rw [e1]
    refine ⟨by dsimp only; omega, ?_, ?_, ?_, ?_, ?_⟩ <;> dsimp only <;> rw [hsc]
    · exact popScope_grown hE.c (fun w hw => by have := hI.cSort.bound w hw; show w.2 < s0.scope + 1; omega)
    · exact popScope_grown hE.v (fun w hw => by have := hI.vSort.bound w hw; show w.2 < s0.scope + 1; omega)
    · exact popScope_grown hE.e (fun w hw => by have := hI.eSort.bound w hw; show w.scope < s0.scope + 1; omega)
    · exact popScope_grown hE.f (fun w hw => by have := hI.fSort.bound w hw; show w.scope < s0.scope + 1; omega)
    · exact popScope_grown hE.d (fun w hw => by have := hI.dSort.bound w hw; show w.scope < s0.scope + 1; omega)
  refine ⟨key.1, ?_, key.2⟩
  funext t
  have a1 := hI3.act t
  have a2 := hI.act t
  rw [key.2.1, key.2.2.1] at a1
  have : (doRb s2).active t = true ↔ s0.active t = true := a1.trans a2.symm
  cases h5 : (doRb s2).active t <;> cases h6 : s0.active t <;> simp [h5, h6] at this ⊢

/-- **C37** Every symbol of a math string is resolved to *the* active declaration of that name: the stored token
has the symbol's name, its declaration is active, and no other active token has that name. -/
theorem C37_symbols_resolved {src : List Src} {s : PState} (h : Accepted src s) {i : Nat} {x : Src} (hx : src[i]? = some x)
    (hk : x.kind ∈ [Kind.d, .e, .f, .a, .p]) :
    (s.math (i + 1)).map (tokName (declToks src)) = x.syms.map some ∧
    ∀ t ∈ s.math (i + 1), TokActive (kinds src) s.math (i + 1) t := by
  have I := (parse_inv h.1 h.2).1
  have hlb : x.kind ≠ .lb := by intro e; rw [e] at hk; simp at hk
  have hrb : x.kind ≠ .rb := by intro e; rw [e] at hk; simp at hk
  refine ⟨I.names i x hx hlb hrb, fun t ht => ?_⟩
  have : kindAt (kinds src) (i + 1) = x.kind := by
    unfold kindAt
    simp [kinds, List.getD, hx]
  exact (I.acts (i + 1) (by rw [this]; exact hk) t ht).2

/-- **C37**, uniqueness: at every point of an accepted source no two active tokens have the same name. -/
theorem C37_active_names_unique {src pre post : List Src} {s : PState} (h : Accepted src s) (hsrc : src = pre ++ post)
    {t t' : Nat} (h1 : TokActive (kinds src) s.math (pre.length + 1) t) (h2 : TokActive (kinds src) s.math (pre.length + 1) t')
    (hn : tokName (declToks src) t = tokName (declToks src) t') : t = t' := by
  have I := (parse_inv h.1 h.2).1
  have hp := h.1
  unfold parseStatements at hp
  cases hd : doStmts (declToks src) src {} with
  | val s1 =>
    rw [hd] at hp
    simp only [Out.bind_val, Out.val.injEq] at hp
    have he := h.2
    rw [← hp] at he
    obtain ⟨e1, _⟩ := errIf_nil he
    rw [e1] at he hp
    subst hp
    have hd2 := hd
    rw [hsrc] at hd2
    obtain ⟨s0, g1, g2⟩ := doStmts_append hd2
    rw [← hsrc] at g1 g2
    have he0 := doStmts_errs g2 he
    have hI := (PInv.init (declToks src)).stmts (rest := post) (by rw [hsrc]; simp) g1 he0
    rw [List.nil_append] at hI
    -- the statements before are stored identically
    have hpre : ∀ (xs : List Src) (a b : PState), doStmts (declToks src) xs a = .val b → ∀ dn, PInv (declToks src) dn a →
        (∃ rest, declToks src = declToks (dn ++ xs ++ rest)) → b.errs = [] → ∀ j < a.n, b.math j = a.math j := by
      intro xs
      induction xs with
      | nil => intro a b hab dn _ _ _ j _; simp only [doStmts, Out.val.injEq] at hab; rw [hab]
      | cons x xs ih =>
        intro a b hab dn hIa ⟨rest, hr⟩ hb j hj
        rw [doStmts] at hab
        cases hx : doStmt (declToks src) a x with
        | val c =>
          rw [hx, Out.bind_val] at hab
          have hc := doStmts_errs hab hb
          have hIc := hIa.stmt (rest := xs ++ rest) (by rw [hr]; simp) hx hc
          have hcn : a.n < c.n := by rw [hIa.len, hIc.len]; simp
          rw [ih c b hab (dn ++ [x]) hIc ⟨rest, by rw [hr]; simp⟩ hb j (by omega)]
          -- one statement appends to `out`
          have hout : ∃ y, c.out = a.out ++ [y] := by
            have hlen : ∀ {k : Kind} {syms m q}, mathScan (declToks src) k syms [] a = .val (m, q) → (lenChecks k m q).errs = [] → lenChecks k m q = a := by
              intro k syms m q h1 h2
              have := (lenChecks_ok h2).1
              rw [this] at h2 ⊢
              exact (mathScan_scanOk h1 h2).1
            have hasrt : ∀ k m q, doAssert (declToks src) k m q = .val c → ∃ y, c.out = q.out ++ [y] := by
              intro k m q hd
              unfold doAssert at hd
              dsimp only at hd
              split at hd
              · cases hd
              · simp only [Out.val.injEq] at hd
                rw [← hd]; exact ⟨_, rfl⟩
            unfold doStmt at hx
            cases hk : x.kind <;> rw [hk] at hx <;> dsimp only at hx
            case c | v | lb => simp only [Out.val.injEq] at hx; rw [← hx]; exact ⟨_, rfl⟩
            case rb => simp only [Out.val.injEq] at hx; rw [← hx]; exact ⟨_, rfl⟩
            case none => cases hx
            case d =>
              cases hm : mathScan (declToks src) .d x.syms [] a with
              | val r =>
                rw [hm] at hx
                simp only [Out.bind_val, Out.val.injEq] at hx
                rw [← hx] at hc ⊢
                have hc2 : (dPairs r.1 (lenChecks .d r.1 r.2)).errs = [] := hc
                obtain ⟨a1, _, new, a3, _⟩ := dPairs_spec hc2
                have := hlen hm a1
                rw [a3, this]; exact ⟨_, rfl⟩
              | ub => rw [hm] at hx; cases hx
              | bug n => rw [hm] at hx; cases hx
              | fuel => rw [hm] at hx; cases hx
            case e =>
              cases hm : mathScan (declToks src) .e x.syms [] a with
              | val r =>
                rw [hm] at hx
                simp only [Out.bind_val, Out.val.injEq] at hx
                rw [← hx] at hc ⊢
                have := hlen hm hc
                rw [this]; exact ⟨_, rfl⟩
              | ub => rw [hm] at hx; cases hx
              | bug n => rw [hm] at hx; cases hx
              | fuel => rw [hm] at hx; cases hx
            case f =>
              cases hm : mathScan (declToks src) .f x.syms [] a with
              | val r =>
                rw [hm] at hx
                simp only [Out.bind_val, Out.val.injEq] at hx
                rw [← hx] at hc ⊢
                have := hlen hm hc
                rw [this]; exact ⟨_, rfl⟩
              | ub => rw [hm] at hx; cases hx
              | bug n => rw [hm] at hx; cases hx
              | fuel => rw [hm] at hx; cases hx
            case a =>
              cases hm : mathScan (declToks src) .a x.syms [] a with
              | val r =>
                rw [hm] at hx
                simp only [Out.bind_val] at hx
                rw [hlen hm (doAssert_errs hx hc)] at hx
                exact hasrt _ _ _ hx
              | ub => rw [hm] at hx; cases hx
              | bug n => rw [hm] at hx; cases hx
              | fuel => rw [hm] at hx; cases hx
            case p =>
              cases hm : mathScan (declToks src) .p x.syms [] a with
              | val r =>
                rw [hm] at hx
                simp only [Out.bind_val] at hx
                rw [hlen hm (doAssert_errs hx hc)] at hx
                exact hasrt _ _ _ hx
              | ub => rw [hm] at hx; cases hx
              | bug n => rw [hm] at hx; cases hx
              | fuel => rw [hm] at hx; cases hx
          obtain ⟨y, hy⟩ := hout
          unfold PState.math
          rw [stmt_append rfl hy hj]
        | ub => rw [hx] at hab; cases hab
        | bug n => rw [hx] at hab; cases hab
        | fuel => rw [hx] at hab; cases hab
    have hm0 := hpre post s0 s1 g2 pre hI ⟨[], by rw [hsrc]; simp⟩ he
    have conv : ∀ u, TokActive (kinds src) s1.math (pre.length + 1) u → TokActive (kinds pre) s0.math s0.n u := by
      rintro u ⟨j, a1, a2, a3⟩
      have hks : kinds src = kinds pre ++ kinds post := by rw [hsrc]; simp [kinds]
      rw [hks] at a1 a2
      rw [active_prefix (by simp)] at a1
      have hj : j < s0.n := by rw [hI.len]; exact a1.2.1
      refine ⟨j, by rw [hI.len]; exact a1, ?_, by rw [← hm0 j hj]; exact a3⟩
      have hjl : j ≤ pre.length := by have := a1.2.1; omega
      have hj1 := a1.1
      have : kindAt (kinds pre ++ kinds post) j = kindAt (kinds pre) j := by
        unfold kindAt
        rw [if_neg (by omega), if_neg (by omega), List.getD_append _ _ _ _ (by simp; omega)]
      rw [this] at a2; exact a2
    exact hI.actUniq t t' (hI.active_of (conv t h1)) (hI.active_of (conv t' h2)) hn
  | ub => rw [hd] at hp; cases hp
  | bug n => rw [hd] at hp; cases hp
  | fuel => rw [hd] at hp; cases hp

/-! ## What the verifier needs -/

theorem tok_sep {src : List Src} {s : PState} : (toDb src s).isVar (toDb src s).sep = false := by
  simp [toDb, tokIsVar]

theorem goodHyp_of_parse {src : List Src} {s : PState} (h : Accepted src s) {i : Nat}
    (hk : kindAt (kinds src) i = .e ∨ kindAt (kinds src) i = .f) : GoodHyp (toDb src s) i := by
  have I := (parse_inv h.1 h.2).1
  constructor
  · show s.math i ≠ []
    rcases hk with hk | hk
    · obtain ⟨c, m, e, _⟩ := I.shape i (by rw [hk]; simp)
      rw [e]; simp
    · obtain ⟨c, v, e, _⟩ := I.fShape i hk
      rw [e]; simp
  · intro hm
    have := (I.acts i (by rcases hk with hk | hk <;> rw [hk] <;> simp) _ hm).1
    exact Nat.lt_irrefl _ this

theorem goodAss_of_parse {src : List Src} {s : PState} (h : Accepted src s) {i : Nat} (hi : IsAssert src i) :
    GoodAss (toDb src s) i := by
  have I := (parse_inv h.1 h.2).1
  have F := I.frame i hi
  have hreq : ∀ j ∈ (s.stmt i).reqHyp, kindAt (kinds src) j = .e ∨ kindAt (kinds src) j = .f := fun j hj => by
    rcases ((F.hyp j).mp hj).2 with h1 | ⟨h1, _⟩
    · exact Or.inl h1
    · exact Or.inr h1
  have hhyps : ∀ e ∈ hypsOf (toDb src s) i, ∃ j ∈ (s.stmt i).reqHyp, e = s.math j := by
    intro e he
    simp only [hypsOf, List.mem_map] at he
    obtain ⟨j, hj, rfl⟩ := he
    exact ⟨j, hj, rfl⟩
  have hmem : ∀ j ∈ (s.stmt i).reqHyp, s.math j ∈ hypsOf (toDb src s) i := fun j hj =>
    List.mem_map.mpr ⟨j, hj, rfl⟩
  have hfree : ∀ j, kindAt (kinds src) j ∈ [Kind.d, .e, .f, .a, .p] → (toDb src s).sep ∉ s.math j := by
    intro j hj hm
    exact Nat.lt_irrefl _ (I.acts j hj _ hm).1
  constructor
  · constructor
    · intro e he
      obtain ⟨j, hj, rfl⟩ := hhyps e he
      exact hfree j (by rcases hreq j hj with h1 | h1 <;> rw [h1] <;> simp)
    · intro e he
      obtain ⟨j, hj, rfl⟩ := hhyps e he
      exact (goodHyp_of_parse h (hreq j hj)).ne
    · exact I.shape i (by rcases hi with h1 | h1 <;> rw [h1] <;> simp)
    · exact hfree i (by rcases hi with h1 | h1 <;> rw [h1] <;> simp)
    · exact F.varNodup
    · intro t
      show t ∈ (s.stmt i).reqVars ↔ _
      rw [F.var t]
      unfold VarIn
      constructor
      · rintro ⟨hv, ht⟩
        refine ⟨hv, ?_⟩
        -- a mandatory variable has a mandatory `$f`
        have key : ∀ m ∈ (s.stmt i).reqHyp ++ [i], kindAt (kinds src) m ≠ .f → t ∈ (s.stmt m).math → ∃ h ∈ hypsOf (toDb src s) i, t ∈ h := by
          intro m hm hk htm
          obtain ⟨f, h1, h2, h3, h4, h5⟩ := F.fUse m hm hk t htm hv
          obtain ⟨c, w, e1, _, _⟩ := I.fShape f h3
          refine ⟨_, hmem f h1, ?_⟩
          rw [show (s.stmt f).math = s.math f from rfl, e1] at h5
          simp at h5
          rw [e1, h5]; simp
        rcases ht with ht | ⟨j, h1, h2, h3⟩
        · exact key i (by simp) (by rcases hi with h1 | h1 <;> rw [h1] <;> simp) ht
        · exact key j (by
            have := (F.hyp j).mpr ⟨h1, Or.inl h2⟩
            simp [this]) (by rw [h2]; simp) h3
      · rintro ⟨hv, ⟨e, he, hte⟩⟩
        obtain ⟨j, hj, rfl⟩ := hhyps e he
        obtain ⟨h1, h2 | ⟨h2, v, h3, h4⟩⟩ := (F.hyp j).mp hj
        · exact ⟨hv, Or.inr ⟨j, h1, h2, hte⟩⟩
        · obtain ⟨c, w, e1, e2, e3⟩ := I.fShape j h2
          have hvw : v = w := by
            have h3' : v ∈ s.math j := h3
            rw [e1] at h3'
            simp at h3'
            rcases h3' with rfl | rfl
            · have := h4.1; rw [e2] at this; cases this
            · rfl
          have htw : t = w := by
            rw [e1] at hte
            simp at hte
            rcases hte with rfl | rfl
            · have hv' : tokIsVar (declToks src) t = true := hv
              rw [e2] at hv'; cases hv'
            · rfl
          rw [htw, ← hvw]; exact h4
    · intro t ht hv
      exact (F.var t).mpr ⟨hv, Or.inl ht⟩
    · intro pr hpr
      have := (F.d pr.1 pr.2).mp hpr
      exact ⟨(F.var _).mpr this.2.1, (F.var _).mpr this.2.2.1⟩
  · -- `$f` discipline
    intro hs e rest heq v hve hv
    have heq2 : (s.stmt i).reqHyp.map s.math = hs ++ e :: rest := heq
    obtain ⟨l1, l2, hl, hl1, hl2⟩ := List.map_eq_append_iff.mp heq2
    obtain ⟨m, l2', rfl, hm, _⟩ := List.map_eq_cons_iff.mp hl2
    have hmr : m ∈ (s.stmt i).reqHyp := by rw [hl]; simp
    by_cases hk : kindAt (kinds src) m = .f
    · obtain ⟨c, w, e1, e2, e3⟩ := I.fShape m hk
      rw [← hm, e1] at hve
      refine ⟨c, e2, Or.inl ?_⟩
      simp at hve
      rcases hve with rfl | rfl
      · have hv' : tokIsVar (declToks src) v = true := hv
        rw [e2] at hv'; cases hv'
      · rw [← hm, e1]
    · obtain ⟨f, h1, h2, h3, h4, h5⟩ := F.fUse m (by simp [hmr]) hk v (by rw [← hm] at hve; exact hve) hv
      obtain ⟨c, w, e1, e2, e3⟩ := I.fShape f h3
      rw [show (s.stmt f).math = s.math f from rfl, e1] at h5
      simp at h5
      subst h5
      refine ⟨c, e2, Or.inr ?_⟩
      rw [← hl1, ← e1]
      apply List.mem_map_of_mem
      have hsort := F.hypSorted
      rw [hl] at h1 hsort
      rcases List.mem_append.mp h1 with h6 | h6
      · exact h6
      · exfalso
        rw [List.pairwise_append, List.pairwise_cons] at hsort
        rcases List.mem_cons.mp h6 with h7 | h7
        · omega
        · have := hsort.2.1.1 f h7; omega

theorem kind_toDb {src : List Src} {s : PState} (h : Accepted src s) (i : Nat) :
    ((toDb src s).stmt i).kind = kindAt (kinds src) i := (parse_inv h.1 h.2).1.kind i

theorem goodRef_of_parse {src : List Src} {s : PState} (h : Accepted src s) (ps : Int) : GoodRef (toDb src s) ps := by
  intro _
  have hk := kind_toDb h ps.toNat
  cases hc : kindAt (kinds src) ps.toNat <;> rw [hc] at hk <;> rw [hk] <;> dsimp only
  · exact goodHyp_of_parse h (Or.inl hc)
  · exact goodHyp_of_parse h (Or.inr hc)
  · exact goodAss_of_parse h (Or.inl hc)
  · exact goodAss_of_parse h (Or.inr hc)

theorem dvOrdered_of_parse {src : List Src} {s : PState} (h : Accepted src s) {i : Nat} (hi : kindAt (kinds src) i = .p) :
    DvOrdered (toDb src s) i := by
  have F := (parse_inv h.1 h.2).1.frame i (Or.inr hi)
  intro pr hpr
  rcases List.mem_append.mp hpr with h1 | h1
  · exact ((F.d pr.1 pr.2).mp h1).1
  · exact ((F.od hi pr.1 pr.2).mp h1).1

end MM.Pars
