import Verif.Pfas.Ops
import Verif.Veri.Verify

/-!
# The invariant of proofs in progress
-/
namespace MM.Pfas
open MM.Veri MM.Proof MM.Data MM.Tree AF Cx
open MM.Spec (subst)

/-- What READ guarantees of the database when it reports no error (`goodEnv_of_parse`). -/
structure GoodEnv (E : Env) : Prop where
  sepConst : E.isVar E.sep = false
  toks : ∀ i, (E.stmt i).kind = .f ∨ (E.stmt i).kind = .e ∨ (E.stmt i).kind = .a ∨ (E.stmt i).kind = .p → ∀ t ∈ (E.stmt i).math, t < E.sep
  ass : ∀ i, (E.stmt i).kind = .a ∨ (E.stmt i).kind = .p → GoodAss E.toDb i
  hypKind : ∀ i, (E.stmt i).kind = .a ∨ (E.stmt i).kind = .p → ∀ h ∈ (E.stmt i).reqHyp, (E.stmt h).kind = .f ∨ (E.stmt h).kind = .e
  hypNone : ∀ i, (E.stmt i).kind = .f ∨ (E.stmt i).kind = .e → (E.stmt i).reqHyp = []
  hypHead : ∀ i, (E.stmt i).kind = .f ∨ (E.stmt i).kind = .e → ∃ k m, (E.stmt i).math = k :: m ∧ E.isVar k = false

variable {E : Env} {P Q : Node → List (List Nat) → Prop}

/-- An unknown step has no source, a hypothesis has its own statement as source, and the source of an assertion and the targets of its hypotheses are instances of the
assertion and its hypotheses under one substitution. -/
def NodeOk (E : Env) (x : Node) (ts : List (List Nat)) : Prop :=
  Shape E x ts ∧ (x.stmt = unk → x.src = []) ∧
  (0 ≤ x.stmt → (E.stmt x.stmt.toNat).kind = .e ∨ (E.stmt x.stmt.toNat).kind = .f → x.src = (E.stmt x.stmt.toNat).math) ∧
  (0 ≤ x.stmt → (E.stmt x.stmt.toNat).kind = .a ∨ (E.stmt x.stmt.toNat).kind = .p →
    ∃ σ, x.src = subst E.isVar σ (E.stmt x.stmt.toNat).math ∧ ts = hypSubs E x.stmt.toNat σ)

theorem NodeOk.shape {x : Node} {ts : List (List Nat)} (h : NodeOk E x ts) : Shape E x ts := h.1

theorem nodeOk_tgtFree : TgtFree (NodeOk E) := fun _ _ _ h => h

theorem shape_tgtFree : TgtFree (Shape E) := fun _ _ _ h => h

/-- A proper step is unknown, a hypothesis or an assertion. -/
theorem Shape.cases {x : Node} {ts : List (List Nat)} (h : Shape E x ts) :
    (x.stmt = unk ∧ ts = []) ∨ (1 ≤ x.stmt ∧ ((E.stmt x.stmt.toNat).kind = .e ∨ (E.stmt x.stmt.toNat).kind = .f) ∧ ts = []) ∨
    (1 ≤ x.stmt ∧ ((E.stmt x.stmt.toNat).kind = .a ∨ (E.stmt x.stmt.toNat).kind = .p) ∧ ts.length = (E.stmt x.stmt.toNat).reqHyp.length) := by
  obtain ⟨h1, h2, h3⟩ := h
  unfold arity at h2
  rcases h1 with h1 | h1 | ⟨h1, _, h4⟩
  · refine Or.inl ⟨h1, ?_⟩
    rw [if_neg (by rw [h1]; simp [unk])] at h2
    exact List.length_eq_zero_iff.mp h2.symm
  · omega
  · refine Or.inr ?_
    rcases h4 with h4 | h4 | h4 | h4
    · refine Or.inl ⟨h1, Or.inr h4, ?_⟩
      rw [if_neg (by simp [h4])] at h2
      exact List.length_eq_zero_iff.mp h2.symm
    · refine Or.inl ⟨h1, Or.inl h4, ?_⟩
      rw [if_neg (by simp [h4])] at h2
      exact List.length_eq_zero_iff.mp h2.symm
    · rw [if_pos ⟨h1, Or.inl h4⟩] at h2
      exact Or.inr ⟨h1, Or.inl h4, h2.symm⟩
    · rw [if_pos ⟨h1, Or.inr h4⟩] at h2
      exact Or.inr ⟨h1, Or.inr h4, h2.symm⟩

theorem tgts_nil {f : AF} (h : f.tgts = []) : f = AF.nil := by
  cases f with
  | nil => rfl
  | snoc _ _ _ => simp [tgts] at h

theorem GoodEnv.vars (G : GoodEnv E) {i : Nat} (hi : (E.stmt i).kind = .a ∨ (E.stmt i).kind = .p) :
    (∀ t ∈ (E.stmt i).math, E.isVar t = true → t ∈ (E.stmt i).reqVars) ∧
    (∀ j ∈ (E.stmt i).reqHyp, ∀ t ∈ (E.stmt j).math, E.isVar t = true → t ∈ (E.stmt i).reqVars) :=
  ⟨(G.ass i hi).mathVars, fun j hj t ht hv => ((G.ass i hi).vars t).mpr ⟨hv, (E.stmt j).math, by
    unfold Veri.hypsOf
    exact List.mem_map.mpr ⟨j, hj, rfl⟩, ht⟩⟩

theorem hypSubs_length {i : Nat} {σ : Nat → List Nat} : (hypSubs E i σ).length = (E.stmt i).reqHyp.length := by simp [hypSubs]

/-- `initStep` on any step: the tree below it keeps its shape, and the step satisfies the invariant. -/
theorem initStep_rep (G : GoodEnv E) {p : Pip} {d : Nat} {c : Cx} {x : Node} {f : AF} (h : Rep p (c.plug x f)) (hf : All (Shape E) f) (hs : Shape E x f.tgts) :
    ∃ q d' x' ts, initStep E p d (pos c f) = .val (q, d') ∧ Rep q (c.plug x' (f.setR ts)) ∧ x'.stmt = x.stmt ∧ x'.tgt = x.tgt ∧ NodeOk E x' (f.setR ts).tgts := by
  rcases hs.cases with ⟨h1, h2⟩ | ⟨h0, h1, h2⟩ | ⟨h0, h1, h2⟩
  · obtain ⟨q, e, hr⟩ := initStep_unk (E := E) (d := d) h h1
    have hn := tgts_nil h2
    subst hn
    refine ⟨q, d, _, [], e, hr, rfl, rfl, hs, fun _ => rfl, fun h3 => ?_, fun h3 => ?_⟩ <;> simp only [h1, unk] at h3 <;> omega
  · obtain ⟨q, e, hr⟩ := initStep_hyp (E := E) (d := d) h hs.1 (by omega) h1
    have hn := tgts_nil h2
    subst hn
    refine ⟨q, d, _, [], e, hr, rfl, rfl, hs, fun h3 => ?_, fun _ _ => rfl, fun _ h4 => ?_⟩
    · simp only [unk] at h3; omega
    · rcases h1 with h1 | h1 <;> dsimp only at h4 <;> rw [h1] at h4 <;> simp at h4
  · obtain ⟨q, e, hr⟩ := initStep_ass (d := d) h hf hs (by omega) h1 (G.vars h1).1 (G.vars h1).2
    refine ⟨q, _, _, _, e, hr, rfl, rfl, ?_⟩
    have ht : (f.setR (hypSubs E x.stmt.toNat (dsub E d (E.stmt x.stmt.toNat).reqVars)).reverse).tgts = hypSubs E x.stmt.toNat (dsub E d (E.stmt x.stmt.toNat).reqVars) := by
      rw [setR_tgts (by simp [hypSubs_length, ← tgts_length, h2])]; simp
    refine ⟨⟨hs.1, ?_, hs.2.2⟩, fun h3 => ?_, fun _ h4 => ?_, fun _ _ => ⟨_, rfl, ht⟩⟩
    · rw [ht, hypSubs_length, ← h2]; exact hs.2.1
    · simp only [unk] at h3; omega
    · rcases h1 with h1 | h1 <;> dsimp only at h4 <;> rw [h1] at h4 <;> simp at h4

/-- `initStep` preserves every property that the invariant of a node implies. -/
theorem initStep_all (G : GoodEnv E) {p : Pip} {d : Nat} {c : Cx} {x : Node} {f : AF} (h : Rep p (c.plug x f)) (hP : TgtFree P) (hN : ∀ x ts, NodeOk E x ts → P x ts)
    (hS : ∀ x ts, P x ts → Shape E x ts) (hA : All P (c.plug x f)) :
    ∃ q d' x' ts, initStep E p d (pos c f) = .val (q, d') ∧ Rep q (c.plug x' (f.setR ts)) ∧ x'.stmt = x.stmt ∧ x'.tgt = x.tgt ∧ All P (c.plug x' (f.setR ts)) ∧
      NodeOk E x' (f.setR ts).tgts := by
  obtain ⟨hf, hx⟩ := all_plug hA
  obtain ⟨q, d', x', ts, e, hr, h1, h2, h3⟩ := initStep_rep G (d := d) h (hf.mono hS) (hS _ _ hx)
  exact ⟨q, d', x', ts, e, hr, h1, h2, all_replug hA h2 (all_setR hP hf) (hN _ _ h3), h3⟩

/-! ### Substitutions in all strings -/

/-- All strings changed. -/
def AF.map (g : List Nat → List Nat) : AF → AF
  | nil => nil
  | snoc l x ch => snoc (AF.map g l) ⟨x.stmt, g x.tgt, g x.src, g x.usr⟩ (AF.map g ch)

theorem AF.map_flat {g : List Nat → List Nat} : ∀ f : AF, (f.map g).flat = f.flat.map fun x => ⟨x.stmt, g x.tgt, g x.src, g x.usr⟩
  | nil => rfl
  | snoc l x ch => by simp [AF.map, AF.flat, AF.map_flat l, AF.map_flat ch]

theorem AF.map_tgts {g : List Nat → List Nat} : ∀ f : AF, (f.map g).tgts = f.tgts.map g
  | nil => rfl
  | snoc l x ch => by simp [AF.map, tgts, AF.map_tgts l]

theorem all_map {g : List Nat → List Nat} (hPQ : ∀ x ts, P x ts → Q ⟨x.stmt, g x.tgt, g x.src, g x.usr⟩ (ts.map g)) : ∀ {f : AF}, All P f → All Q (f.map g)
  | nil, _ => trivial
  | snoc _ _ ch, h => ⟨all_map hPQ h.1, all_map hPQ h.2.1, by rw [AF.map_tgts ch]; exact hPQ _ _ h.2.2⟩

theorem inst_subst (τ σ : Nat → List Nat) {m : List Nat} (h : ∀ t ∈ m, t < E.sep) : inst E τ (subst E.isVar σ m) = subst E.isVar (fun t => inst E τ (σ t)) m := by
  induction m with
  | nil => rfl
  | cons t m ih =>
    have h1 := h t List.mem_cons_self
    have ih := ih fun t ht => h t (List.mem_cons_of_mem _ ht)
    rw [MM.Spec.subst_cons, MM.Spec.subst_cons, ← ih]
    unfold inst MM.Unif.inst
    rw [List.flatMap_append]
    congr 1
    by_cases hv : E.isVar t = true
    · rw [if_pos hv, if_pos hv]
    · rw [if_neg hv, if_neg hv]
      simp [Nat.not_lt.mpr (Nat.le_of_lt h1)]

theorem inst_id (τ : Nat → List Nat) {m : List Nat} (h : ∀ t ∈ m, t < E.sep) : inst E τ m = m := by
  induction m with
  | nil => rfl
  | cons t m ih =>
    have h1 := h t List.mem_cons_self
    have ih := ih fun t ht => h t (List.mem_cons_of_mem _ ht)
    unfold inst MM.Unif.inst at *
    rw [List.flatMap_cons, ih, if_neg (by omega)]
    rfl

theorem nodeOk_inst (G : GoodEnv E) (τ : Nat → List Nat) {x : Node} {ts : List (List Nat)} (h : NodeOk E x ts) :
    NodeOk E ⟨x.stmt, inst E τ x.tgt, inst E τ x.src, inst E τ x.usr⟩ (ts.map (inst E τ)) := by
  obtain ⟨h1, h2, h3, h4⟩ := h
  refine ⟨⟨h1.1, by simpa using h1.2.1, h1.2.2⟩, fun h => ?_, fun h0 hk => ?_, fun h0 hk => ?_⟩
  · rw [h2 h]; rfl
  · dsimp only at *
    rw [h3 h0 hk]
    exact inst_id τ (G.toks _ (by rcases hk with hk | hk <;> simp [hk]))
  · dsimp only at *
    obtain ⟨σ, e1, e2⟩ := h4 h0 hk
    refine ⟨fun t => inst E τ (σ t), ?_, ?_⟩
    · rw [e1]; exact inst_subst τ σ (G.toks _ (by rcases hk with hk | hk <;> simp [hk]))
    · rw [e2]
      unfold hypSubs
      rw [List.map_map]
      refine List.map_congr_left fun j hj => ?_
      exact inst_subst τ σ (G.toks _ (by rcases G.hypKind _ hk j hj with hk | hk <;> simp [hk]))

theorem makeSubstAll_rep (τ : Nat → List Nat) {p : Pip} {f : AF} (h : Rep p f) : Rep (makeSubstAll E τ p) (f.map (inst E τ)) := by
  have e : (fun m : List Nat => if m ≠ [] then inst E τ m else m) = inst E τ := by
    funext m
    by_cases hm : m = []
    · subst hm; rfl
    · rw [if_pos hm]
  unfold makeSubstAll
  rw [e]
  constructor
  · rw [AF.map_flat, h.proof]; simp
  · rw [AF.map_flat, h.target]; simp
  · rw [AF.map_flat, h.source]; simp
  · rw [AF.map_flat, h.user]; simp

theorem replSyms_spec (v : Nat) (m : List Nat) : ∀ (k : Nat) (a b : List Nat) (n : Nat), a.length = k →
    (replSyms v m k (a ++ b) n).1 = a.flatMap (fun t => if t = v then m else [t]) ++ b
  | 0, a, b, n, h => by
    have := List.length_eq_zero_iff.mp h
    subst this
    rfl
  | k + 1, a, b, n, h => by
    obtain ⟨a, t, rfl⟩ : ∃ a' t, a = a' ++ [t] := by
      refine ⟨a.dropLast, a.getLast (by rintro rfl; simp at h), (List.dropLast_append_getLast _).symm⟩
    have h' : a.length = k := by simpa using h
    subst h'
    rw [replSyms]
    have e1 : (a ++ [t] ++ b).getD a.length 0 = t := by simp
    rw [e1]
    by_cases hv : t = v
    · rw [if_pos hv]
      have e2 : (a ++ [t] ++ b).take a.length ++ m ++ (a ++ [t] ++ b).drop (a.length + 1) = a ++ (m ++ b) := by
        simp [List.drop_append]
      rw [e2, replSyms_spec v m a.length a _ _ rfl]
      simp [hv]
    · rw [if_neg hv, List.append_assoc, replSyms_spec v m a.length a _ _ rfl]
      simp [hv]

theorem replStr_spec (v : Nat) (m l : List Nat) : (replStr v m l).1 = l.flatMap fun t => if t = v then m else [t] := by
  have := replSyms_spec v m l.length l [] 0 rfl
  rw [List.append_nil, List.append_nil] at this
  exact this

/-- `replaceDummyVar` is the substitution of one dummy variable. -/
theorem replaceDummyVar_eq {n : Nat} (hn : 1 ≤ n) (m l : List Nat) :
    (replStr (n + E.sep) m l).1 = inst E (fun y => if y = n + E.sep then m else [y]) l := by
  rw [replStr_spec]
  unfold inst MM.Unif.inst
  congr 1
  funext t
  by_cases h1 : t = n + E.sep
  · rw [if_pos h1, if_pos (by omega)]; simp [h1]
  · rw [if_neg h1]; simp [h1]

theorem replaceDummyVar_rep {n : Nat} (hn : 1 ≤ n) (m : List Nat) {p : Pip} {f : AF} (h : Rep p f) :
    Rep (replaceDummyVar E p n m).1 (f.map (inst E (fun y => if y = n + E.sep then m else [y]))) := by
  unfold replaceDummyVar
  dsimp only
  have e : (fun l => (replStr (n + E.sep) m l).1) = inst E (fun y => if y = n + E.sep then m else [y]) := funext fun l => replaceDummyVar_eq hn m l
  rw [e]
  constructor
  · rw [AF.map_flat, h.proof]; simp
  · rw [AF.map_flat, h.target]; simp
  · rw [AF.map_flat, h.source]; simp
  · rw [AF.map_flat, h.user]; simp

end MM.Pfas
