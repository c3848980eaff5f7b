import Verif.Pars.Lemmas
/-! # The invariant of `parseStatements` while no error has been reported -/
namespace MM.Pars
open MM.Veri MM.Spec

/-- Kinds of the statements. -/
abbrev kinds (src : List Src) : List Kind := src.map (·.kind)

/-- The math string stored for statement `i`. -/
def PState.math (s : PState) (i : Nat) : List Nat := (s.stmt i).math

theorem stmt_append {s : PState} {x : Stmt} {o : List Stmt} (ho : o = s.out ++ [x]) {s' : PState} (hs : s'.out = o) {i : Nat}
    (hi : i < s.n) : s'.stmt i = s.stmt i := by
  unfold PState.stmt PState.n at *
  rw [hs, ho, List.getD_append _ _ _ _ hi]

theorem stmt_new {s s' : PState} {x : Stmt} (hs : s'.out = s.out ++ [x]) : s'.stmt s.n = x := by
  unfold PState.stmt PState.n
  rw [hs]; simp

/-- `l` holds exactly the entries contributed (`P j x`) by the statements active after the statements `ks`. -/
def Tracks {α : Type} (ks : List Kind) (P : Nat → α → Prop) (l : List α) : Prop :=
  ∀ x, x ∈ l ↔ ∃ j, Active ks j (ks.length + 1) ∧ P j x

theorem Tracks.step {α : Type} {ks : List Kind} {k : Kind} {P P' : Nat → α → Prop} {l new : List α}
    (h : Tracks ks P l) (hk : k ≠ .rb) (hP : ∀ j, j ≤ ks.length → ∀ x, P' j x ↔ P j x)
    (hn : ∀ x, P' (ks.length + 1) x ↔ x ∈ new) : Tracks (ks ++ [k]) P' (new ++ l) := by
  intro x
  rw [List.mem_append, h x, List.length_append, List.length_singleton]
  constructor
  · rintro (h1 | ⟨j, h1, h2⟩)
    · exact ⟨ks.length + 1, active_step.mpr (Or.inl ⟨rfl, hk⟩), (hn x).mpr h1⟩
    · exact ⟨j, active_step.mpr (Or.inr ⟨h1, fun e => absurd e hk⟩), (hP j (by have := h1.2.1; omega) x).mpr h2⟩
  · rintro ⟨j, h1, h2⟩
    rcases active_step.mp h1 with ⟨rfl, _⟩ | ⟨h3, _⟩
    · exact Or.inl ((hn x).mp h2)
    · exact Or.inr ⟨j, h3, (hP j (by have := h3.2.1; omega) x).mp h2⟩

theorem Tracks.pop {α : Type} {ks : List Kind} {P P' : Nat → α → Prop} {l : List α} {sc : α → Int}
    (h : Tracks ks P l) (hs : ScopeSorted sc (depth ks (ks.length + 1)) l)
    (hP : ∀ j, j ≤ ks.length → ∀ x, P' j x ↔ P j x)
    (hsc : ∀ j, j ≤ ks.length → ∀ x, P j x → sc x = depth ks j) :
    Tracks (ks ++ [.rb]) P' (popScope sc (depth ks (ks.length + 1)) l) := by
  intro x
  rw [mem_popScope hs.sorted, h x, List.length_append, List.length_singleton]
  constructor
  · rintro ⟨⟨j, h1, h2⟩, h3⟩
    have hj : j ≤ ks.length := by have := h1.2.1; omega
    rw [hsc j hj x h2] at h3
    exact ⟨j, active_step.mpr (Or.inr ⟨h1, fun _ => h3⟩), (hP j hj x).mpr h2⟩
  · rintro ⟨j, h1, h2⟩
    rcases active_step.mp h1 with ⟨_, h3⟩ | ⟨h3, h4⟩
    · exact absurd rfl h3
    · have hj : j ≤ ks.length := by have := h3.2.1; omega
      have h5 := (hP j hj x).mp h2
      exact ⟨⟨j, h3, h5⟩, by rw [hsc j hj x h5]; exact h4 rfl⟩

/-- What statement `j` puts on the variable (`k = v`) or constant (`k = c`) stack. -/
def DeclP (k : Kind) (ks : List Kind) (math : Nat → List Nat) (j : Nat) (x : Nat × Int) : Prop :=
  kindAt ks j = k ∧ x.1 ∈ math j ∧ x.2 = depth ks j

/-- What statement `j` puts on the `$e` or `$f` stack. -/
def HypP (k : Kind) (T : Toks) (ks : List Kind) (math : Nat → List Nat) (j : Nat) (h : HypEnt) : Prop :=
  kindAt ks j = k ∧ h = ⟨j, extractVars T (math j), depth ks j⟩

/-- The token table as the verifier sees it. -/
def toksOf (toks : List (Name × Bool)) : Toks := ⟨tokIsVar toks, toks.length⟩

/-- The frame stored for assertion `i` is the one of the specification. -/
structure FrameOk (isVar : Nat → Bool) (ks : List Kind) (st : Nat → Stmt) (i : Nat) : Prop where
  hypSorted : (st i).reqHyp.Pairwise (· < ·)
  hyp : ∀ j, j ∈ (st i).reqHyp ↔ MandHyp isVar ks (fun k => (st k).math) i j
  optSorted : kindAt ks i = .p → (st i).optHyp.Pairwise (· < ·)
  opt : kindAt ks i = .p → ∀ j, j ∈ (st i).optHyp ↔ OptHyp isVar ks (fun k => (st k).math) i j
  varNodup : (st i).reqVars.Nodup
  var : ∀ v, v ∈ (st i).reqVars ↔ Mandatory isVar ks (fun k => (st k).math) i v
  dNodup : (st i).reqDisj.Nodup
  d : ∀ a b, (a, b) ∈ (st i).reqDisj ↔ a < b ∧ Mandatory isVar ks (fun k => (st k).math) i a ∧
    Mandatory isVar ks (fun k => (st k).math) i b ∧ DvDeclared ks (fun k => (st k).math) i a b
  odNodup : kindAt ks i = .p → (st i).optDisj.Nodup
  od : kindAt ks i = .p → ∀ a b, (a, b) ∈ (st i).optDisj ↔ a < b ∧
    ¬ (Mandatory isVar ks (fun k => (st k).math) i a ∧ Mandatory isVar ks (fun k => (st k).math) i b) ∧
    DvDeclared ks (fun k => (st k).math) i a b
  aOpt : kindAt ks i = .a → (st i).optHyp = [] ∧ (st i).optDisj = []
  dStmt : List.Forall₂ (fun (pr : Nat × Nat) j => Active ks j i ∧ kindAt ks j = .d ∧ pr.1 ∈ (st j).math ∧ pr.2 ∈ (st j).math) (st i).reqDisj (st i).reqDisjStmt
  odStmt : kindAt ks i = .p → List.Forall₂ (fun (pr : Nat × Nat) j => Active ks j i ∧ kindAt ks j = .d ∧ pr.1 ∈ (st j).math ∧ pr.2 ∈ (st j).math)
    (st i).optDisj (st i).optDisjStmt
  aOptS : kindAt ks i = .a → (st i).optVars = [] ∧ (st i).optDisjStmt = []
  oVar : kindAt ks i = .p → ∀ v, v ∈ (st i).optVars ↔ (∃ j, Active ks j i ∧ kindAt ks j = .v ∧ v ∈ (st j).math) ∧
    ¬ Mandatory isVar ks (fun k => (st k).math) i v
  fUniq : ∀ f ∈ (st i).reqHyp, ∀ g ∈ (st i).reqHyp, kindAt ks f = .f → kindAt ks g = .f →
    (st f).math.getD 1 0 = (st g).math.getD 1 0 → f = g
  fUse : ∀ m ∈ (st i).reqHyp ++ [i], kindAt ks m ≠ .f → ∀ v ∈ (st m).math, isVar v = true →
    ∃ f ∈ (st i).reqHyp, f < m ∧ kindAt ks f = .f ∧ (st f).math.length = 2 ∧ (st f).math.getD 1 0 = v

/-- The stored statements are right: `done` are the statements processed so far, without error. -/
structure SInv (toks : List (Name × Bool)) (done : List Src) (s : PState) : Prop where
  len : s.n = done.length + 1
  zero : s.stmt 0 = {}
  kind : ∀ i, (s.stmt i).kind = kindAt (kinds done) i
  names : ∀ i x, done[i]? = some x → x.kind ≠ .lb → x.kind ≠ .rb → (s.math (i + 1)).map (tokName toks) = x.syms.map some
  acts : ∀ i, kindAt (kinds done) i ∈ [Kind.d, .e, .f, .a, .p] → ∀ t ∈ s.math i,
    t < toks.length ∧ TokActive (kinds done) s.math i t
  fShape : ∀ i, kindAt (kinds done) i = .f → ∃ c v, s.math i = [c, v] ∧ tokIsVar toks c = false ∧ tokIsVar toks v = true
  shape : ∀ i, kindAt (kinds done) i ∈ [Kind.e, .a, .p] → ∃ c m, s.math i = c :: m ∧ tokIsVar toks c = false
  dShape : ∀ i, kindAt (kinds done) i = .d → 2 ≤ (s.math i).length ∧ (s.math i).Nodup ∧ ∀ t ∈ s.math i, tokIsVar toks t = true
  frame : ∀ i, kindAt (kinds done) i = .a ∨ kindAt (kinds done) i = .p → FrameOk (tokIsVar toks) (kinds done) s.stmt i

/-- What has to be shown of a new statement `y` made from `x`. -/
structure NewOk (toks : List (Name × Bool)) (done : List Src) (s s' : PState) (x : Src) (y : Stmt) : Prop where
  kind : y.kind = x.kind
  names : x.kind ≠ .lb → x.kind ≠ .rb → y.math.map (tokName toks) = x.syms.map some
  acts : x.kind ∈ [Kind.d, .e, .f, .a, .p] → ∀ t ∈ y.math, t < toks.length ∧ TokActive (kinds done) s.math s.n t
  fShape : x.kind = .f → ∃ c v, y.math = [c, v] ∧ tokIsVar toks c = false ∧ tokIsVar toks v = true
  shape : x.kind ∈ [Kind.e, .a, .p] → ∃ c m, y.math = c :: m ∧ tokIsVar toks c = false
  dShape : x.kind = .d → 2 ≤ y.math.length ∧ y.math.Nodup ∧ ∀ t ∈ y.math, tokIsVar toks t = true
  frame : x.kind = .a ∨ x.kind = .p → FrameOk (tokIsVar toks) (kinds (done ++ [x])) s'.stmt s.n

/-- The invariant: `done` are the statements processed so far, without error. -/
structure PInv (toks : List (Name × Bool)) (done : List Src) (s : PState) : Prop extends SInv toks done s where
  errs : s.errs = []
  scope : s.scope = depth (kinds done) (done.length + 1)
  nonneg : 0 ≤ s.scope
  next : s.next = (declToks done).length
  cSort : ScopeSorted (·.2) s.scope s.cstack
  vSort : ScopeSorted (·.2) s.scope s.vstack
  eSort : ScopeSorted (·.scope) s.scope s.estack
  fSort : ScopeSorted (·.scope) s.scope s.fstack
  dSort : ScopeSorted (·.scope) s.scope s.dstack
  c : Tracks (kinds done) (DeclP .c (kinds done) s.math) s.cstack
  v : Tracks (kinds done) (DeclP .v (kinds done) s.math) s.vstack
  e : Tracks (kinds done) (HypP .e (toksOf toks) (kinds done) s.math) s.estack
  f : Tracks (kinds done) (HypP .f (toksOf toks) (kinds done) s.math) s.fstack
  cLt : ∀ x ∈ s.cstack, x.1 < s.next ∧ tokIsVar toks x.1 = false ∧ s.tscope x.1 = x.2
  vLt : ∀ x ∈ s.vstack, x.1 < s.next ∧ tokIsVar toks x.1 = true ∧ s.tscope x.1 = x.2
  cNodup : (s.cstack.map (·.1)).Nodup
  vNodup : (s.vstack.map (·.1)).Nodup
  act : ∀ t, s.active t = true ↔ t ∈ s.cstack.map (·.1) ∨ t ∈ s.vstack.map (·.1)
  actUniq : ∀ t t', s.active t = true → s.active t' = true → tokName toks t = tokName toks t' → t = t'
  tmp : ∀ i x, s.vstack.reverse[i]? = some x → s.tmp x.1 = i
  eDec : (s.estack.map (·.stmt)).Pairwise (· > ·)
  fDec : (s.fstack.map (·.stmt)).Pairwise (· > ·)
  eVars : ∀ h ∈ s.estack, ∀ k ∈ h.vars, ∃ sc ≤ h.scope, (k, sc) ∈ s.vstack
  fVars : ∀ h ∈ s.fstack, ∃ k, h.vars = [k] ∧ ∃ sc ≤ h.scope, (k, sc) ∈ s.vstack
  dVars : ∀ h ∈ s.dstack, (∃ sc ≤ h.scope, (h.a, sc) ∈ s.vstack) ∧ ∃ sc ≤ h.scope, (h.b, sc) ∈ s.vstack
  dSound : ∀ h ∈ s.dstack, Active (kinds done) h.stmt s.n ∧ kindAt (kinds done) h.stmt = .d ∧
    h.scope = depth (kinds done) h.stmt ∧ h.a < h.b ∧ h.a ∈ s.math h.stmt ∧ h.b ∈ s.math h.stmt
  dComplete : ∀ j, Active (kinds done) j s.n → kindAt (kinds done) j = .d → ∀ a ∈ s.math j, ∀ b ∈ s.math j, a < b →
    ∃ h ∈ s.dstack, h.a = a ∧ h.b = b ∧ h.scope ≤ depth (kinds done) j
  dNodup : (s.dstack.map fun e => (e.a, e.b)).Nodup

theorem declToks_append (a b : List Src) : declToks (a ++ b) = declToks a ++ declToks b := by
  induction a with
  | nil => rfl
  | cons x a ih => simp [declToks, ih]

/-! ## Transfer of facts about earlier statements -/

theorem kinds_append (done : List Src) (x : Src) : kinds (done ++ [x]) = kinds done ++ [x.kind] := by simp [kinds]

section transfer
variable {isVar : Nat → Bool} {ks : List Kind} {k : Kind} {st st' : Nat → Stmt} {i : Nat}

theorem active_old {j : Nat} (hi : i ≤ ks.length + 1) : Active (ks ++ [k]) j i ↔ Active ks j i := active_prefix hi

theorem mandatory_old {m m' : Nat → List Nat} (hi : i ≤ ks.length) (hm : ∀ j ≤ ks.length, m' j = m j) {v : Nat} :
    Mandatory isVar (ks ++ [k]) m' i v ↔ Mandatory isVar ks m i v := by
  unfold Mandatory
  rw [hm i hi]
  constructor
  · rintro ⟨h1, h2 | ⟨j, h2, h3, h4⟩⟩
    · exact ⟨h1, Or.inl h2⟩
    · have hj : j ≤ ks.length := by have := h2.2.1; omega
      rw [hm j hj] at h4
      rw [kindAt_append hj] at h3
      exact ⟨h1, Or.inr ⟨j, (active_old (by omega)).mp h2, h3, h4⟩⟩
  · rintro ⟨h1, h2 | ⟨j, h2, h3, h4⟩⟩
    · exact ⟨h1, Or.inl h2⟩
    · have hj : j ≤ ks.length := by have := h2.2.1; omega
      exact ⟨h1, Or.inr ⟨j, (active_old (by omega)).mpr h2, by rw [kindAt_append hj]; exact h3, by rw [hm j hj]; exact h4⟩⟩

theorem mandHyp_old {m m' : Nat → List Nat} (hi : i ≤ ks.length) (hm : ∀ j ≤ ks.length, m' j = m j) {j : Nat} :
    MandHyp isVar (ks ++ [k]) m' i j ↔ MandHyp isVar ks m i j := by
  unfold MandHyp
  rw [active_old (by omega)]
  by_cases ha : Active ks j i
  · have hj : j ≤ ks.length := by have := ha.2.1; omega
    simp only [kindAt_append hj, hm j hj, mandatory_old hi hm]
  · simp [ha]

theorem optHyp_old {m m' : Nat → List Nat} (hi : i ≤ ks.length) (hm : ∀ j ≤ ks.length, m' j = m j) {j : Nat} :
    OptHyp isVar (ks ++ [k]) m' i j ↔ OptHyp isVar ks m i j := by
  unfold OptHyp
  rw [active_old (by omega)]
  by_cases ha : Active ks j i
  · have hj : j ≤ ks.length := by have := ha.2.1; omega
    simp only [kindAt_append hj, hm j hj, mandatory_old hi hm]
  · simp [ha]

theorem dvDeclared_old {m m' : Nat → List Nat} (hi : i ≤ ks.length) (hm : ∀ j ≤ ks.length, m' j = m j) {a b : Nat} :
    DvDeclared (ks ++ [k]) m' i a b ↔ DvDeclared ks m i a b := by
  unfold DvDeclared
  apply exists_congr
  intro j
  rw [active_old (by omega)]
  by_cases ha : Active ks j i
  · have hj : j ≤ ks.length := by have := ha.2.1; omega
    simp only [kindAt_append hj, hm j hj]
  · simp [ha]

theorem tokActive_old {m m' : Nat → List Nat} (hi : i ≤ ks.length) (hm : ∀ j ≤ ks.length, m' j = m j) {t : Nat} :
    TokActive (ks ++ [k]) m' i t ↔ TokActive ks m i t := by
  unfold TokActive
  apply exists_congr
  intro j
  rw [active_old (by omega)]
  by_cases ha : Active ks j i
  · have hj : j ≤ ks.length := by have := ha.2.1; omega
    simp only [kindAt_append hj, hm j hj]
  · simp [ha]

theorem FrameOk.old (h : FrameOk isVar ks st i) (hi : i ≤ ks.length) (hst : ∀ j ≤ ks.length, st' j = st j) :
    FrameOk isVar (ks ++ [k]) st' i := by
  have hm : ∀ j ≤ ks.length, (st' j).math = (st j).math := fun j hj => by rw [hst j hj]
  have e1 := hst i hi
  have hk : kindAt (ks ++ [k]) i = kindAt ks i := kindAt_append hi
  have hr : ∀ j ∈ (st i).reqHyp, j ≤ ks.length := fun j hj => by
    have := ((h.hyp j).mp hj).1.2.1; omega
  have hM : ∀ v, Mandatory isVar (ks ++ [k]) (fun k => (st' k).math) i v ↔ Mandatory isVar ks (fun k => (st k).math) i v :=
    fun v => mandatory_old (m := fun k => (st k).math) (m' := fun k => (st' k).math) hi hm
  have hD : ∀ a b, DvDeclared (ks ++ [k]) (fun k => (st' k).math) i a b ↔ DvDeclared ks (fun k => (st k).math) i a b :=
    fun a b => dvDeclared_old (m := fun k => (st k).math) (m' := fun k => (st' k).math) hi hm
  have hdj : ∀ (pr : Nat × Nat) j, Active ks j i ∧ kindAt ks j = .d ∧ pr.1 ∈ (st j).math ∧ pr.2 ∈ (st j).math →
      Active (ks ++ [k]) j i ∧ kindAt (ks ++ [k]) j = .d ∧ pr.1 ∈ (st' j).math ∧ pr.2 ∈ (st' j).math := by
    intro pr j ⟨a1, a2, a3, a4⟩
    have hj : j ≤ ks.length := by have := a1.2.1; omega
    rw [hst j hj, kindAt_append hj]
    exact ⟨(active_old (by omega)).mpr a1, a2, a3, a4⟩
  constructor
  · rw [e1]; exact h.hypSorted
  · intro j; rw [e1, h.hyp j]
    exact (mandHyp_old (m := fun k => (st k).math) (m' := fun k => (st' k).math) hi hm).symm
  · rw [e1, hk]; exact h.optSorted
  · rw [e1, hk]; intro hp j; rw [h.opt hp j]
    exact (optHyp_old (m := fun k => (st k).math) (m' := fun k => (st' k).math) hi hm).symm
  · rw [e1]; exact h.varNodup
  · intro v; rw [e1, h.var v, hM]
  · rw [e1]; exact h.dNodup
  · intro a b; rw [e1, h.d a b, hM, hM, hD]
  · rw [e1, hk]; exact h.odNodup
  · rw [e1, hk]; intro hp a b; rw [h.od hp a b, hM, hM, hD]
  · rw [e1, hk]; exact h.aOpt
  · rw [e1]; exact h.dStmt.imp fun pr j hj => hdj pr j hj
  · rw [e1, hk]; intro hp; exact (h.odStmt hp).imp fun pr j hj => hdj pr j hj
  · rw [e1, hk]; exact h.aOptS
  · rw [e1, hk]; intro hp v; rw [h.oVar hp v, hM]
    refine and_congr (exists_congr fun j => ?_) Iff.rfl
    rw [active_old (by omega)]
    by_cases ha : Active ks j i
    · have hj : j ≤ ks.length := by have := ha.2.1; omega
      rw [kindAt_append hj, hst j hj]
    · simp [ha]
  · rw [e1]
    intro f hf g hg
    rw [kindAt_append (hr f hf), kindAt_append (hr g hg), hst f (hr f hf), hst g (hr g hg)]
    exact h.fUniq f hf g hg
  · rw [e1]
    intro m hm2
    have hml : m ≤ ks.length := by
      rcases List.mem_append.mp hm2 with h1 | h1
      · exact hr m h1
      · simp at h1; omega
    rw [kindAt_append hml, hst m hml]
    intro a v b c
    obtain ⟨f, hf, x1, x2, x3, x4⟩ := h.fUse m hm2 a v b c
    exact ⟨f, hf, x1, by rw [kindAt_append (hr f hf)]; exact x2, by rw [hst f (hr f hf)]; exact x3,
      by rw [hst f (hr f hf)]; exact x4⟩

end transfer

end MM.Pars
