import Verif.Pfas.Forest
import Verif.Spec.Subst

/-!
# The operations on proofs in progress, as operations on trees
-/
namespace MM.Pfas
open MM.Veri MM.Proof MM.Data MM.Tree AF Cx

variable {E : Env} {P Q : Node → List (List Nat) → Prop}

theorem getF_at {a b : List (List Nat)} {m : List Nat} : getF (a ++ m :: b) a.length = .val m := by
  unfold getF
  rw [if_pos ⟨by omega, by simp⟩]
  simp

theorem getF_at' {a b : List (List Nat)} {m : List Nat} {i : Int} (h : i = a.length) : getF (a ++ m :: b) i = .val m := by subst h; exact getF_at

theorem setF_at {a b : List (List Nat)} {m m' : List Nat} {i : Int} (h : i = a.length) : setF (a ++ m :: b) i m' = .val (a ++ m' :: b) := by
  subst h
  unfold setF
  rw [if_pos ⟨by omega, by simp⟩]
  simp

theorem pntrLeft_at {a b : List (List Nat)} {i : Int} (h : i = a.length) : pntrLeft (a ++ b) i = .val a := by
  subst h
  unfold pntrLeft
  rw [if_pos (by simp)]
  simp

theorem nmbrLeft_at {a b : List Int} {i : Int} (h : i = a.length) : nmbrLeft (a ++ b) i = .val a := by
  subst h
  unfold nmbrLeft
  rw [if_pos (by simp)]
  simp

theorem pntrRight_at {a b : List (List Nat)} {i : Int} (h : i = a.length + 1) : pntrRight (a ++ b) i = b := by
  subst h
  unfold pntrRight
  have : (max ((a.length : Int) + 1) 1 - 1).toNat = a.length := by omega
  rw [this]
  simp

theorem nmbrRight_at {a b : List Int} {i : Int} (h : i = a.length + 1) : nmbrRight (a ++ b) i = b := by
  subst h
  unfold nmbrRight
  have : (max ((a.length : Int) + 1) 1 - 1).toNat = a.length := by omega
  rw [this]
  simp

theorem rdN_at' {a b : List Int} {x : Int} {i : Int} (h : i = a.length) : rdN (a ++ x :: b) i = .val x := by subst h; exact rdN_at

/-- The strings of a proof in progress around a tree. -/
theorem Rep.at {p : Pip} {c : Cx} {x : Node} {f : AF} (h : Rep p (c.plug x f)) :
    p.proof = (c.pre.map Node.stmt ++ f.flat.map Node.stmt) ++ x.stmt :: c.post.map Node.stmt ∧
    p.target = (c.pre.map Node.tgt ++ f.flat.map Node.tgt) ++ x.tgt :: c.post.map Node.tgt ∧
    p.source = (c.pre.map Node.src ++ f.flat.map Node.src) ++ x.src :: c.post.map Node.src ∧
    p.user = (c.pre.map Node.usr ++ f.flat.map Node.usr) ++ x.usr :: c.post.map Node.usr := by
  refine ⟨?_, ?_, ?_, ?_⟩
  · rw [h.proof, flat_plug]; simp
  · rw [h.target, flat_plug]; simp
  · rw [h.source, flat_plug]; simp
  · rw [h.user, flat_plug]; simp

/-- The number of the root of a tree. -/
def pos (c : Cx) (f : AF) : Nat := c.pre.length + f.flat.length

/-- Strings not assigned yet. -/
def Blank (f : AF) : Prop := ∀ x ∈ f.flat, x.tgt = [] ∧ x.src = [] ∧ x.usr = []

theorem map_blank {f : AF} {g : Node → List Nat} (h : ∀ x ∈ f.flat, g x = []) : f.flat.map g = List.replicate f.flat.length [] :=
  List.eq_replicate_iff.mpr ⟨by simp, by
    intro b hb
    obtain ⟨x, hx, rfl⟩ := List.mem_map.mp hb
    exact h x hx⟩

theorem addSubProof_rep {p : Pip} {c : Cx} {x : Node} (h : Rep p (c.plug x nil)) (hx : x.stmt = unk) (hs : x.src = []) {g : AF} (hg : Blank g) (y : Int) :
    ∃ q, addSubProof p (g.flat.map Node.stmt ++ [y]) c.pre.length = .val q ∧ Rep q (c.plug ⟨y, x.tgt, [], x.usr⟩ g) := by
  obtain ⟨e1, e2, e3, e4⟩ := h.at
  simp only [AF.flat, List.map_nil, List.append_nil] at e1 e2 e3 e4
  unfold addSubProof
  rw [e1, rdN_at' (by simp), Out.bind_val, if_neg (by simp [hx]), if_neg (by simp), nmbrLeft_at (by simp), Out.bind_val, e2, pntrLeft_at (by simp), Out.bind_val, e3,
    getF_at' (by simp), Out.bind_val, if_neg (by simp [hs]), pntrLeft_at (by simp), Out.bind_val, e4, pntrLeft_at (by simp), Out.bind_val]
  refine ⟨_, rfl, ?_⟩
  have e5 : List.map Node.stmt c.pre ++ x.stmt :: List.map Node.stmt c.post = (List.map Node.stmt c.pre ++ [x.stmt]) ++ List.map Node.stmt c.post := by simp
  rw [e5, nmbrRight_at (by simp; omega), pntrRight_at (by simp), pntrRight_at (by simp), pntrRight_at (by simp)]
  have hl : (List.map Node.stmt g.flat ++ [y]).length - 1 = g.flat.length := by simp
  rw [hl, ← map_blank (g := Node.tgt) (fun x hx => (hg x hx).1)]
  constructor
  · rw [flat_plug]; simp
  · rw [flat_plug]; simp
  · rw [map_blank (g := Node.tgt) (fun x hx => (hg x hx).1), ← map_blank (g := Node.src) (fun x hx => (hg x hx).2.1), flat_plug]; simp [hs]
  · rw [map_blank (g := Node.tgt) (fun x hx => (hg x hx).1), ← map_blank (g := Node.usr) (fun x hx => (hg x hx).2.2), flat_plug]; simp

theorem deleteSubProof_rep {p : Pip} {c : Cx} {x : Node} {f : AF} (h : Rep p (c.plug x f)) (hf : All (Shape E) f) (hx : Shape E x f.tgts) (hne : x.stmt ≠ unk) :
    ∃ q, deleteSubProof E p (pos c f) = .val q ∧ Rep q (c.plug ⟨unk, x.tgt, [], x.usr⟩ nil) := by
  obtain ⟨e1, e2, e3, e4⟩ := h.at
  unfold deleteSubProof
  have hsp := subproofLen_at hf hx (proof := p.proof) (pre := c.pre.map Node.stmt) (post := c.post.map Node.stmt) (by rw [e1]; simp)
  rw [List.length_map] at hsp
  have e0 : rdN p.proof (pos c f) = .val x.stmt := by rw [e1]; exact rdN_at' (by simp [pos])
  rw [e0, Out.bind_val, if_neg hne]
  simp only [pos]
  rw [hsp, Out.bind_val]
  have ep : ((c.pre.length + f.flat.length : Nat) : Int) - ((f.flat.length : Int) + 1) + 1 = c.pre.length := by omega
  rw [ep]
  have e6 : p.proof = c.pre.map Node.stmt ++ (f.flat.map Node.stmt ++ x.stmt :: c.post.map Node.stmt) := by rw [e1]; simp
  have e7 : p.proof = (c.pre.map Node.stmt ++ f.flat.map Node.stmt ++ [x.stmt]) ++ c.post.map Node.stmt := by rw [e1]; simp
  have e8 : setF p.source ((c.pre.length + f.flat.length : Nat) : Int) [] =
      .val ((c.pre.map Node.src ++ f.flat.map Node.src) ++ [] :: c.post.map Node.src) := by rw [e3]; exact setF_at (by simp)
  have en : nmbrLeft p.proof c.pre.length = .val (c.pre.map Node.stmt) := by rw [e6]; exact nmbrLeft_at (by simp)
  have et : pntrLeft p.target c.pre.length = .val (c.pre.map Node.tgt) := by rw [e2, List.append_assoc]; exact pntrLeft_at (by simp)
  have eu : pntrLeft p.user c.pre.length = .val (c.pre.map Node.usr) := by rw [e4, List.append_assoc]; exact pntrLeft_at (by simp)
  have es : pntrLeft (c.pre.map Node.src ++ f.flat.map Node.src ++ [] :: c.post.map Node.src) c.pre.length = .val (c.pre.map Node.src) := by
    rw [List.append_assoc]; exact pntrLeft_at (by simp)
  rw [en, Out.bind_val, e8, Out.bind_val, et, Out.bind_val, es, Out.bind_val, eu, Out.bind_val]
  refine ⟨_, rfl, ?_⟩
  have r1 : nmbrRight p.proof (((c.pre.length + f.flat.length : Nat) : Int) + 2) = c.post.map Node.stmt := by rw [e7]; exact nmbrRight_at (by simp; omega)
  have r2 : pntrRight p.target (((c.pre.length + f.flat.length : Nat) : Int) + 1) = x.tgt :: c.post.map Node.tgt := by rw [e2]; exact pntrRight_at (by simp)
  have r3 : pntrRight (c.pre.map Node.src ++ f.flat.map Node.src ++ [] :: c.post.map Node.src) (((c.pre.length + f.flat.length : Nat) : Int) + 1) =
      [] :: c.post.map Node.src := pntrRight_at (by simp)
  have r4 : pntrRight p.user (((c.pre.length + f.flat.length : Nat) : Int) + 1) = x.usr :: c.post.map Node.usr := by rw [e4]; exact pntrRight_at (by simp)
  rw [r1, r2, r3, r4]
  constructor
  · rw [flat_plug]; simp [AF.flat]
  · rw [flat_plug]; simp [AF.flat]
  · rw [flat_plug]; simp [AF.flat]
  · rw [flat_plug]; simp [AF.flat]

/-- A step that is not an assertion has no children. -/
theorem Shape.nil {x : Node} {f : AF} (h : Shape E x f.tgts) (hx : x.stmt < 0 ∨ (E.stmt x.stmt.toNat).kind = .e ∨ (E.stmt x.stmt.toNat).kind = .f) : f = AF.nil := by
  have h0 : arity E x.stmt = 0 := by
    unfold arity
    rw [if_neg]
    rintro ⟨h1, h2⟩
    rcases hx with hx | hx | hx
    · omega
    · rw [hx] at h2; simp at h2
    · rw [hx] at h2; simp at h2
  have h1 := h.2.1
  cases f with
  | nil => rfl
  | snoc l nd ch => rw [h0] at h1; simp [AF.tgts] at h1

/-! ### New dummy variables -/

/-- A token with the variables changed to dummy variables. -/
def ren (E : Env) (d : Nat) (vars : List Nat) (t : Nat) : Nat := if E.isVar t then E.sep + 1 + d + vars.idxOf t else t

/-- The substitution of dummy variables. -/
def dsub (E : Env) (d : Nat) (vars : List Nat) (t : Nat) : List Nat := [E.sep + 1 + d + vars.idxOf t]

theorem toDummies_val {d : Nat} {vars : List Nat} : ∀ {m : List Nat}, (∀ t ∈ m, E.isVar t = true → t ∈ vars) → toDummies E d vars m = .val (m.map (ren E d vars))
  | [], _ => rfl
  | t :: m, h => by
    rw [toDummies, toDummies_val (fun t ht => h t (List.mem_cons_of_mem _ ht))]
    have : dummyOf E d vars t = .val (ren E d vars t) := by
      unfold dummyOf ren
      by_cases hv : E.isVar t = true
      · rw [if_pos hv, if_pos hv, if_pos (h t List.mem_cons_self hv)]
      · rw [if_neg hv, if_neg hv]
    rw [this]
    rfl

theorem ren_subst {d : Nat} {vars : List Nat} {m : List Nat} : m.map (ren E d vars) = MM.Spec.subst E.isVar (dsub E d vars) m := by
  induction m with
  | nil => rfl
  | cons t m ih =>
    rw [List.map_cons, ih, MM.Spec.subst_cons]
    unfold ren dsub
    by_cases hv : E.isVar t = true <;> simp [hv]

/-- The numbers of the roots of the trees, last one first. -/
def rootPos (a : Nat) : AF → List Int
  | nil => []
  | snoc l _ ch => ((a + l.flat.length + ch.flat.length : Nat) : Int) :: rootPos a l

theorem setR_flat : ∀ (f : AF) (ts : List (List Nat)), (f.setR ts).flat.length = f.flat.length ∧ (f.setR ts).flat.map Node.stmt = f.flat.map Node.stmt ∧
    (f.setR ts).flat.map Node.src = f.flat.map Node.src ∧ (f.setR ts).flat.map Node.usr = f.flat.map Node.usr
  | nil, ts => by simp [setR, AF.flat]
  | snoc l nd ch, [] => by simp [setR]
  | snoc l nd ch, t :: ts => by
    obtain ⟨h1, h2, h3, h4⟩ := setR_flat l ts
    simp [setR, AF.flat, h1, h2, h3, h4]

theorem setR_tgts : ∀ {f : AF} {ts : List (List Nat)}, ts.length = f.count → (f.setR ts).tgts = ts.reverse
  | nil, [], _ => rfl
  | nil, _ :: _, h => by simp [AF.count] at h
  | snoc l nd ch, [], h => by simp [AF.count] at h
  | snoc l nd ch, t :: ts, h => by
    simp only [setR, tgts, List.reverse_cons]
    rw [setR_tgts (by simpa [AF.count] using h)]

theorem rootPos_setR (a : Nat) : ∀ (f : AF) (ts : List (List Nat)), rootPos a (f.setR ts) = rootPos a f
  | nil, _ => rfl
  | snoc _ _ _, [] => rfl
  | snoc l nd ch, t :: ts => by
    rw [setR, rootPos, rootPos, rootPos_setR a l ts, (setR_flat l ts).1]

/-- The property does not depend on the target of the step itself. -/
def TgtFree (P : Node → List (List Nat) → Prop) : Prop := ∀ x ts t, P x ts → P { x with tgt := t } ts

theorem all_setR (hP : TgtFree P) : ∀ {f : AF} {ts : List (List Nat)}, All P f → All P (f.setR ts)
  | nil, _, _ => trivial
  | snoc _ _ _, [], h => h
  | snoc _ _ _, _ :: _, h => ⟨all_setR hP h.1, h.2.1, hP _ _ _ h.2.2⟩

theorem setHyps_rep : ∀ {f : AF} {hs : List Nat} (_ : All (Shape E) f) (_ : hs.length = f.count) {proof : List Int} {a b : List Int}
    (_ : proof = a ++ f.flat.map Node.stmt ++ b) {A B : List (List Nat)} (_ : A.length = a.length),
    setHyps E proof hs (((a.length + f.flat.length : Nat) : Int) - 1) (A ++ f.flat.map Node.tgt ++ B) =
      .val (A ++ (f.setR (hs.map fun h => (E.stmt h).math)).flat.map Node.tgt ++ B, rootPos a.length f)
  | nil, [], _, _, proof, a, b, _, A, B, _ => rfl
  | nil, _ :: _, _, h, _, _, _, _, _, _, _ => by simp [AF.count] at h
  | snoc l nd ch, [], _, h, _, _, _, _, _, _, _ => by simp [AF.count] at h
  | snoc l nd ch, h :: hs, hA, hl, proof, a, b, hp, A, B, hAa => by
    obtain ⟨h1, h2, h3⟩ := hA
    rw [setHyps]
    have epos : (((a.length + (snoc l nd ch).flat.length : Nat) : Int) - 1) = ((a.length + l.flat.length + ch.flat.length : Nat) : Int) := by
      simp only [AF.flat, List.length_append, List.length_singleton]; omega
    rw [epos]
    have e1 : A ++ (snoc l nd ch).flat.map Node.tgt ++ B = (A ++ l.flat.map Node.tgt ++ ch.flat.map Node.tgt) ++ nd.tgt :: B := by simp [AF.flat]
    rw [e1, setF_at (by simp; omega), Out.bind_val]
    have hsp := subproofLen_at h2 h3 (proof := proof) (pre := a ++ l.flat.map Node.stmt) (post := b) (by rw [hp]; simp [AF.flat])
    have e2 : (a ++ l.flat.map Node.stmt).length = a.length + l.flat.length := by simp
    rw [e2] at hsp
    have ih := fun B => setHyps_rep (f := l) (hs := hs) h1 (by simpa [AF.count] using hl) (proof := proof) (a := a) (b := (ch.flat.map Node.stmt ++ [nd.stmt]) ++ b)
      (by rw [hp]; simp [AF.flat]) (A := A) (B := B) hAa
    by_cases hn : hs = []
    · rw [if_pos hn, Out.bind_val]
      subst hn
      have hl0 : l = nil := by
        cases l with
        | nil => rfl
        | snoc _ _ _ => simp [AF.count] at hl
      subst hl0
      simp [setHyps, setR, AF.flat, rootPos]
    · rw [if_neg hn, hsp, Out.bind_val, Out.bind_val]
      have e3 : ((a.length + l.flat.length + ch.flat.length : Nat) : Int) - ((ch.flat.length : Int) + 1) = ((a.length + l.flat.length : Nat) : Int) - 1 := by omega
      have e4 : A ++ l.flat.map Node.tgt ++ ch.flat.map Node.tgt ++ (E.stmt h).math :: B = A ++ l.flat.map Node.tgt ++ (ch.flat.map Node.tgt ++ (E.stmt h).math :: B) := by simp
      rw [e3, e4, ih, Out.bind_val]
      simp [setR, AF.flat, rootPos]

theorem renHyps_rep {d : Nat} {vars : List Nat} : ∀ {f : AF} (_ : ∀ m ∈ f.tgts, ∀ t ∈ m, E.isVar t = true → t ∈ vars) {A B : List (List Nat)},
    renHyps E d vars (rootPos A.length f) (A ++ f.flat.map Node.tgt ++ B) =
      .val (A ++ (f.setR (f.tgts.reverse.map fun m => m.map (ren E d vars))).flat.map Node.tgt ++ B)
  | nil, _, A, B => by simp [rootPos, renHyps, setR]
  | snoc l nd ch, h, A, B => by
    rw [rootPos, renHyps]
    have e1 : A ++ (snoc l nd ch).flat.map Node.tgt ++ B = (A ++ l.flat.map Node.tgt ++ ch.flat.map Node.tgt) ++ nd.tgt :: B := by simp [AF.flat]
    rw [e1, getF_at' (by simp; omega), Out.bind_val, toDummies_val (h _ (by simp [tgts])), Out.bind_val, setF_at (by simp; omega), Out.bind_val]
    have e4 : A ++ l.flat.map Node.tgt ++ ch.flat.map Node.tgt ++ nd.tgt.map (ren E d vars) :: B = A ++ l.flat.map Node.tgt ++ (ch.flat.map Node.tgt ++ nd.tgt.map (ren E d vars) :: B) := by simp
    rw [e4, renHyps_rep (fun m hm => h m (by simp [tgts, hm]))]
    simp [setR, AF.flat, tgts]

theorem setR_setR : ∀ (f : AF) (ts us : List (List Nat)), ts.length = f.count → us.length = f.count → (f.setR ts).setR us = f.setR us
  | nil, _, _, _, _ => rfl
  | snoc l nd ch, [], _, h, _ => by simp [AF.count] at h
  | snoc l nd ch, _ :: _, [], _, h => by simp [AF.count] at h
  | snoc l nd ch, t :: ts, u :: us, h1, h2 => by
    simp only [setR]
    rw [setR_setR l ts us (by simpa [AF.count] using h1) (by simpa [AF.count] using h2)]

/-- The new targets of the hypotheses, first one first. -/
def hypSubs (E : Env) (i : Nat) (σ : Nat → List Nat) : List (List Nat) := (E.stmt i).reqHyp.map fun h => MM.Spec.subst E.isVar σ (E.stmt h).math

theorem initStep_unk {p : Pip} {d : Nat} {c : Cx} {x : Node} {f : AF} (h : Rep p (c.plug x f)) (hx : x.stmt = unk) :
    ∃ q, initStep E p d (pos c f) = .val (q, d) ∧ Rep q (c.plug { x with src := [] } f) := by
  obtain ⟨e1, e2, e3, e4⟩ := h.at
  have e0 : rdN p.proof (pos c f) = .val x.stmt := by rw [e1]; exact rdN_at' (by simp [pos])
  have es : setF p.source (pos c f) [] = .val ((c.pre.map Node.src ++ f.flat.map Node.src) ++ [] :: c.post.map Node.src) := by rw [e3]; exact setF_at (by simp [pos])
  unfold initStep
  rw [e0, Out.bind_val, if_pos (by rw [hx]; decide), if_pos hx, es, Out.bind_val]
  refine ⟨_, rfl, ?_, ?_, ?_, ?_⟩
  · rw [flat_plug, e1]; simp
  · rw [flat_plug, e2]; simp
  · rw [flat_plug]; simp
  · rw [flat_plug, e4]; simp

theorem initStep_hyp {p : Pip} {d : Nat} {c : Cx} {x : Node} {f : AF} (h : Rep p (c.plug x f)) (hs : StepOk E x.stmt) (h0 : 0 ≤ x.stmt)
    (hx : (E.stmt x.stmt.toNat).kind = .e ∨ (E.stmt x.stmt.toNat).kind = .f) :
    ∃ q, initStep E p d (pos c f) = .val (q, d) ∧ Rep q (c.plug { x with src := (E.stmt x.stmt.toNat).math } f) := by
  obtain ⟨e1, e2, e3, e4⟩ := h.at
  have e0 : rdN p.proof (pos c f) = .val x.stmt := by rw [e1]; exact rdN_at' (by simp [pos])
  have es : setF p.source (pos c f) (E.stmt x.stmt.toNat).math = .val ((c.pre.map Node.src ++ f.flat.map Node.src) ++ (E.stmt x.stmt.toNat).math :: c.post.map Node.src) := by
    rw [e3]; exact setF_at (by simp [pos])
  unfold initStep
  rw [e0, Out.bind_val, if_neg (by omega), stmtAt_ok hs h0, Out.bind_val, if_pos hx, es, Out.bind_val]
  refine ⟨_, rfl, ?_, ?_, ?_, ?_⟩
  · rw [flat_plug, e1]; simp
  · rw [flat_plug, e2]; simp
  · rw [flat_plug]; simp
  · rw [flat_plug, e4]; simp

theorem initStep_ass {p : Pip} {d : Nat} {c : Cx} {x : Node} {f : AF} (h : Rep p (c.plug x f)) (hf : All (Shape E) f) (hs : Shape E x f.tgts) (h0 : 0 ≤ x.stmt)
    (hx : (E.stmt x.stmt.toNat).kind = .a ∨ (E.stmt x.stmt.toNat).kind = .p)
    (hv : ∀ t ∈ (E.stmt x.stmt.toNat).math, E.isVar t = true → t ∈ (E.stmt x.stmt.toNat).reqVars)
    (hh : ∀ j ∈ (E.stmt x.stmt.toNat).reqHyp, ∀ t ∈ (E.stmt j).math, E.isVar t = true → t ∈ (E.stmt x.stmt.toNat).reqVars) :
    ∃ q, initStep E p d (pos c f) = .val (q, d + (E.stmt x.stmt.toNat).reqVars.length) ∧
      Rep q (c.plug { x with src := MM.Spec.subst E.isVar (dsub E d (E.stmt x.stmt.toNat).reqVars) (E.stmt x.stmt.toNat).math }
        (f.setR (hypSubs E x.stmt.toNat (dsub E d (E.stmt x.stmt.toNat).reqVars)).reverse)) := by
  obtain ⟨e1, e2, e3, e4⟩ := h.at
  have har : (E.stmt x.stmt.toNat).reqHyp.length = f.count := by
    rw [← tgts_length, ← hs.2.1]
    unfold arity
    rw [if_pos]
    refine ⟨?_, hx⟩
    rcases hs.1 with h1 | h1 | h1
    · rw [h1] at h0; exact absurd h0 (by decide)
    · omega
    · exact h1.1
  generalize hA : E.stmt x.stmt.toNat = A at *
  have e0 : rdN p.proof (pos c f) = .val x.stmt := by rw [e1]; exact rdN_at' (by simp [pos])
  have es : ∀ m, setF p.source (pos c f) m = .val ((c.pre.map Node.src ++ f.flat.map Node.src) ++ m :: c.post.map Node.src) := by
    intro m; rw [e3]; exact setF_at (by simp [pos])
  unfold initStep
  rw [e0, Out.bind_val, if_neg (by omega), stmtAt_ok hs.1 h0, Out.bind_val, hA, if_neg (by rcases hx with hx | hx <;> rw [hx] <;> simp), es, Out.bind_val]
  have hsh := setHyps_rep (E := E) (f := f) (hs := A.reqHyp.reverse) hf (by simp [har]) (proof := p.proof) (a := c.pre.map Node.stmt) (b := x.stmt :: c.post.map Node.stmt)
    (by rw [e1]) (A := c.pre.map Node.tgt) (B := x.tgt :: c.post.map Node.tgt) (by simp)
  simp only [List.length_map] at hsh
  have et : p.target = c.pre.map Node.tgt ++ f.flat.map Node.tgt ++ x.tgt :: c.post.map Node.tgt := e2
  rw [et]
  unfold pos
  rw [hsh, Out.bind_val, getF_at' (by simp), Out.bind_val, toDummies_val hv, Out.bind_val, setF_at (by simp), Out.bind_val]
  dsimp only
  have htg : (f.setR (A.reqHyp.reverse.map fun h => (E.stmt h).math)).tgts = A.reqHyp.map fun h => (E.stmt h).math := by
    rw [setR_tgts (by simp [har])]; simp
  have hrn := renHyps_rep (E := E) (d := d) (vars := A.reqVars) (f := f.setR (A.reqHyp.reverse.map fun h => (E.stmt h).math)) (by
      rw [htg]
      intro m hm
      obtain ⟨j, hj, rfl⟩ := List.mem_map.mp hm
      exact hh j hj) (A := c.pre.map Node.tgt) (B := x.tgt :: c.post.map Node.tgt)
  rw [rootPos_setR, List.length_map] at hrn
  rw [hrn, Out.bind_val]
  refine ⟨_, rfl, ?_⟩
  rw [htg, setR_setR _ _ _ (by simp [har]) (by simp [har])]
  have hfin : ((A.reqHyp.map fun h => (E.stmt h).math).reverse.map fun m => m.map (ren E d A.reqVars)) = (hypSubs E x.stmt.toNat (dsub E d A.reqVars)).reverse := by
    unfold hypSubs
    rw [hA, List.map_reverse, List.map_map]
    congr 1
    exact List.map_congr_left fun j _ => ren_subst
  rw [hfin, ren_subst]
  obtain ⟨s1, s2, s3, s4⟩ := setR_flat f (hypSubs E x.stmt.toNat (dsub E d A.reqVars)).reverse
  constructor
  · rw [flat_plug, e1]; simp [s2]
  · rw [flat_plug]; simp
  · rw [flat_plug]; simp [s3]
  · rw [flat_plug, e4]; simp [s4]

end MM.Pfas
