import Verif.Pfas.Steps
import Verif.Pfas.Session

/-!
# `autoUnify` and the forests of well-formed proofs
-/
namespace MM.Pfas
open MM.Veri MM.Proof MM.Data MM.Tree MM.Spec AF
variable {P : Node → List (List Nat) → Prop} {E : Env} {U : Unifier}

/-! ## Well-formed proofs are trees -/

theorem split_last : ∀ (a : Nat) {g : AF}, a ≤ g.count → ∃ l ch : AF, l.count + a = g.count ∧ ch.count = a ∧ g.flat = l.flat ++ ch.flat ∧
    (All P g → All P l ∧ All P ch)
  | 0, g, _ => ⟨g, nil, rfl, rfl, by simp [AF.flat], fun h => ⟨h, trivial⟩⟩
  | a + 1, nil, h => by simp [AF.count] at h
  | a + 1, snoc l nd c, h => by
    obtain ⟨l', ch', h1, h2, h3, h4⟩ := split_last a (g := l) (by simpa [AF.count] using h)
    refine ⟨l', snoc ch' nd c, by simp [AF.count]; omega, by simp [AF.count, h2], by simp [AF.flat, h3], fun hA => ?_⟩
    exact ⟨(h4 hA.1).1, (h4 hA.1).2, hA.2⟩

theorem legal_step {prove : Nat} {x : Int} (h : Legal E prove x) : StepOk E x ∧ -1000 < x := by
  rcases h with h | ⟨h1, h2, h3⟩
  · exact ⟨Or.inl h, by rw [h]; decide⟩
  · refine ⟨Or.inr (Or.inr ⟨h1, h2, ?_⟩), by omega⟩
    rcases h3 with ⟨_, h3 | h3⟩ | ⟨_, h3 | h3⟩ <;> simp [h3]

theorem rpn_forest {prove : Nat} : ∀ (l : List Int) {g : AF} {m : Nat}, rpnCount E l g.count = some m → (∀ x ∈ l, Legal E prove x) → All (Shape E) g → Blank g →
    ∃ f : AF, f.count = m ∧ f.flat.map Node.stmt = g.flat.map Node.stmt ++ l ∧ All (Shape E) f ∧ Blank f
  | [], g, m, h, _, hS, hB => by
    simp only [rpnCount, Option.some.injEq] at h
    exact ⟨g, h, by simp, hS, hB⟩
  | x :: l, g, m, h, hL, hS, hB => by
    have e : rpnCount E (x :: l) g.count = if arity E x ≤ g.count then rpnCount E l (g.count - arity E x + 1) else none := rfl
    rw [e] at h
    by_cases ha : arity E x ≤ g.count
    · rw [if_pos ha] at h
      obtain ⟨l', ch, h1, h2, h3, h4⟩ := split_last (P := Shape E) (arity E x) ha
      have hx := legal_step (hL x List.mem_cons_self)
      have hB' : Blank (snoc l' ⟨x, [], [], []⟩ ch) := by
        intro y hy
        simp only [AF.flat, List.mem_append, List.mem_singleton] at hy
        rcases hy with hy | rfl
        · exact hB y (by rw [h3]; simpa using hy)
        · exact ⟨rfl, rfl, rfl⟩
      obtain ⟨f, f1, f2, f3, f4⟩ := rpn_forest (prove := prove) l (g := snoc l' ⟨x, [], [], []⟩ ch) (m := m) (by
          rw [← h]
          congr 1
          simp only [AF.count]
          omega) (fun y hy => hL y (List.mem_cons_of_mem _ hy)) ⟨(h4 hS).1, (h4 hS).2, hx.1, by rw [tgts_length, h2], hx.2⟩ hB'
      exact ⟨f, f1, by rw [f2, h3]; simp [AF.flat], f3, f4⟩
    · rw [if_neg ha] at h; cases h

theorem count_one {f : AF} (h : f.count = 1) : ∃ x ch, f = snoc nil x ch := by
  cases f with
  | nil => simp [AF.count] at h
  | snoc l x ch =>
    cases l with
    | nil => exact ⟨x, ch, rfl⟩
    | snoc _ _ _ => simp [AF.count] at h

/-- A well-formed proof is a tree. -/
theorem formed_forest {prove : Nat} {l : List Int} (h : Formed E prove l) :
    ∃ (x : Int) (ch : AF), l = ch.flat.map Node.stmt ++ [x] ∧ All (Shape E) ch ∧ Blank ch ∧ StepOk E x ∧ arity E x = ch.tgts.length ∧ -1000 < x := by
  obtain ⟨f, f1, f2, f3, f4⟩ := rpn_forest (E := E) (prove := prove) l (g := nil) (m := 1) h.1 h.2 trivial (by intro x hx; simp [AF.flat] at hx)
  obtain ⟨x, ch, rfl⟩ := count_one f1
  refine ⟨x.stmt, ch, ?_, f3.2.1, ?_, f3.2.2.1, f3.2.2.2.1, f3.2.2.2.2⟩
  · simpa [AF.flat] using f2.symm
  · intro y hy
    exact f4 y (by simp [AF.flat, hy])

/-! ## `autoUnify` -/

/-- The property is kept by substitutions of dummy variables. -/
def InstClosed (E : Env) (P : Node → List (List Nat) → Prop) : Prop :=
  ∀ (τ : Nat → List Nat) (x : Node) (ts : List (List Nat)), P x ts → P ⟨x.stmt, inst E τ x.tgt, inst E τ x.src, inst E τ x.usr⟩ (ts.map (inst E τ))

theorem instClosed_nodeOk (G : GoodEnv E) : InstClosed E (NodeOk E) := fun τ _ _ h => nodeOk_inst G τ h

theorem instClosed_basic : InstClosed E (Basic E) := fun τ x ts h => ⟨⟨h.1.1, by simpa using h.1.2.1, h.1.2.2⟩, fun hu => by
  have := h.2 hu
  dsimp only
  rw [this]; rfl⟩

theorem map_stmt {g : List Nat → List Nat} (f : AF) : (f.map g).flat.map Node.stmt = f.flat.map Node.stmt := by rw [AF.map_flat, List.map_map]; rfl

theorem map_id_tgts {τ : Nat → List Nat} {ts : List (List Nat)} (h : ∀ m ∈ ts, ∀ t ∈ m, t < E.sep) : ts.map (inst E τ) = ts := by
  induction ts with
  | nil => rfl
  | cons m ts ih => rw [List.map_cons, inst_id τ (h m List.mem_cons_self), ih fun m hm => h m (List.mem_cons_of_mem _ hm)]

/-- The two strings of a pass agree, if both are there. -/
def Agree (p : Pip) (x : Nat × Nat) : Prop := ∀ ab, auPair p x.1 x.2 = .val ab → ab.1 ≠ [] → ab.2 ≠ [] → ab.1 = ab.2

theorem auPair_val {p : Pip} {f : AF} (hr : Rep p f) {i : Nat} (hi : i < f.flat.length) (k : Nat) : ∃ ab, auPair p i k = .val ab := by
  have h1 : getF p.target i = .val (p.target.getD i []) := getF_val (by rw [hr.target]; simpa using hi)
  have h2 : getF p.source i = .val (p.source.getD i []) := getF_val (by rw [hr.source]; simpa using hi)
  have h3 : getF p.user i = .val (p.user.getD i []) := getF_val (by rw [hr.user]; simpa using hi)
  unfold auPair
  by_cases hk : k = 0
  · rw [if_pos hk, h1, Out.bind_val, h3, Out.bind_val]; exact ⟨_, rfl⟩
  · by_cases hk1 : k = 1
    · rw [if_neg hk, if_pos hk1, h2, Out.bind_val, h3, Out.bind_val]; exact ⟨_, rfl⟩
    · rw [if_neg hk, if_neg hk1, h1, Out.bind_val, h2, Out.bind_val]; exact ⟨_, rfl⟩

theorem auOne_rep (hI : InstClosed E P) {s : AU} {f : AF} (hr : Rep s.pip f) (hA : All P f) (ht : ∀ m ∈ f.tgts, ∀ t ∈ m, t < E.sep) {x : Nat × Nat} (hx : x.1 < f.flat.length) :
    ∃ s' f', auOne E U s x = .val s' ∧ Rep s'.pip f' ∧ All P f' ∧ f'.tgts = f.tgts ∧ f'.flat.map Node.stmt = f.flat.map Node.stmt ∧
      (s'.changed = false → s.changed = false ∧ s'.pip = s.pip) ∧ (s'.bad = false → s.bad = false) ∧ (s'.changed = false → s'.bad = false → Agree s'.pip x) := by
  obtain ⟨ab, hab⟩ := auPair_val hr hx x.2
  unfold auOne
  rw [hab, Out.bind_val]
  by_cases h1 : ab.1 ≠ [] ∧ ab.2 ≠ [] ∧ ab.1 ≠ ab.2
  · rw [if_pos h1]
    by_cases h2 : (U.uniq ab.1 ab.2).1 = 1
    · rw [if_pos h2]
      refine ⟨_, f.map (inst E (U.uniq ab.1 ab.2).2), rfl, makeSubstAll_rep _ hr, all_map (fun x ts h => hI _ x ts h) hA, ?_, map_stmt f, nofun, id, nofun⟩
      rw [AF.map_tgts, map_id_tgts ht]
    · rw [if_neg h2]
      exact ⟨_, f, rfl, hr, hA, rfl, rfl, fun h => ⟨h, rfl⟩, nofun, fun _ h => by cases h⟩
  · rw [if_neg h1]
    refine ⟨s, f, rfl, hr, hA, rfl, rfl, fun h => ⟨h, rfl⟩, id, fun _ _ ab' h h3 h4 => ?_⟩
    rw [hab] at h
    cases h
    exact Classical.byContradiction fun hc => h1 ⟨h3, h4, hc⟩

theorem auPass_rep (hI : InstClosed E P) : ∀ (xs : List (Nat × Nat)) {s : AU} {f : AF}, Rep s.pip f → All P f → (∀ m ∈ f.tgts, ∀ t ∈ m, t < E.sep) →
    (∀ x ∈ xs, x.1 < f.flat.length) →
    ∃ s' f', auPass E U xs s = .val s' ∧ Rep s'.pip f' ∧ All P f' ∧ f'.tgts = f.tgts ∧ f'.flat.map Node.stmt = f.flat.map Node.stmt ∧
      (s'.changed = false → s.changed = false ∧ s'.pip = s.pip) ∧ (s'.bad = false → s.bad = false) ∧ (s'.changed = false → s'.bad = false → ∀ x ∈ xs, Agree s'.pip x)
  | [], s, f, hr, hA, _, _ => ⟨s, f, rfl, hr, hA, rfl, rfl, fun h => ⟨h, rfl⟩, id, fun _ _ x hx => by simp at hx⟩
  | x :: xs, s, f, hr, hA, ht, hl => by
    obtain ⟨s1, f1, h1, h2, h3, h4, h5, h6, h7, h8⟩ := auOne_rep (U := U) hI hr hA ht (hl x List.mem_cons_self)
    have hlen : f1.flat.length = f.flat.length := by simpa using congrArg List.length h5
    obtain ⟨s2, f2, k1, k2, k3, k4, k5, k6, k7, k8⟩ := auPass_rep hI xs h2 h3 (by rw [h4]; exact ht) (fun y hy => by rw [hlen]; exact hl y (List.mem_cons_of_mem _ hy))
    refine ⟨s2, f2, by rw [auPass, h1, Out.bind_val, k1], k2, k3, k4.trans h4, k5.trans h5, fun h => ?_, fun h => h7 (k7 h), fun hc hb y hy => ?_⟩
    · obtain ⟨a, b⟩ := k6 h
      obtain ⟨c, d⟩ := h6 a
      exact ⟨c, b.trans d⟩
    · rcases List.mem_cons.mp hy with rfl | hy
      · rw [(k6 hc).2]
        exact h8 (k6 hc).1 (k7 hb)
      · exact k8 hc hb y hy

theorem auPairs_lt {n : Nat} : ∀ x ∈ auPairs n, x.1 < n := by
  intro x hx
  obtain ⟨i, hi, h⟩ := List.mem_flatMap.mp hx
  simp at h
  rcases h with rfl | rfl | rfl <;> simpa using hi

theorem auLoop_rep (hI : InstClosed E P) : ∀ (n : Nat) {s : AU} {f : AF}, Rep s.pip f → All P f → (∀ m ∈ f.tgts, ∀ t ∈ m, t < E.sep) →
    auLoop E U f.flat.length n s = .fuel ∨
    ∃ s' f', auLoop E U f.flat.length n s = .val s' ∧ Rep s'.pip f' ∧ All P f' ∧ f'.tgts = f.tgts ∧ f'.flat.map Node.stmt = f.flat.map Node.stmt ∧
      (s'.bad = false → ∀ x ∈ auPairs f.flat.length, Agree s'.pip x)
  | 0, _, _, _, _, _ => Or.inl rfl
  | n + 1, s, f, hr, hA, ht => by
    obtain ⟨s1, f1, h1, h2, h3, h4, h5, h6, h7, h8⟩ := auPass_rep (U := U) hI (auPairs f.flat.length) (s := { s with changed := false }) hr hA ht auPairs_lt
    have hlen : f1.flat.length = f.flat.length := by simpa using congrArg List.length h5
    rw [auLoop, h1, Out.bind_val]
    cases hc : s1.changed with
    | false =>
      right
      exact ⟨s1, f1, rfl, h2, h3, h4, h5, h8 hc⟩
    | true =>
      rw [if_pos rfl, ← hlen]
      rcases auLoop_rep hI n h2 h3 (by rw [h4]; exact ht) with h | ⟨s2, f2, k1, k2, k3, k4, k5, k6⟩
      · exact Or.inl h
      · exact Or.inr ⟨s2, f2, k1, k2, k3, k4.trans h4, k5.trans h5, k6⟩

/-- `autoUnify` keeps the shape and the properties of the proof; congratulations mean that every target is the source. -/
theorem autoUnify_rep (hI : InstClosed E P) {n : Nat} {p : Pip} {f : AF} (hr : Rep p f) (hA : All P f) (ht : ∀ m ∈ f.tgts, ∀ t ∈ m, t < E.sep) (b : Bool) :
    autoUnify n E U p b = .fuel ∨
    ∃ q b' g, autoUnify n E U p b = .val (q, b') ∧ Rep q g ∧ All P g ∧ g.tgts = f.tgts ∧ g.flat.map Node.stmt = f.flat.map Node.stmt ∧
      (b' = true → (∀ x ∈ g.flat, x.stmt ≠ unk) ∧ ∀ x ∈ g.flat, x.tgt ≠ [] → x.src ≠ [] → x.tgt = x.src) := by
  have hl : p.proof.length = f.flat.length := by rw [hr.proof, List.length_map]
  unfold autoUnify
  rw [hl]
  rcases auLoop_rep (U := U) hI n (s := ⟨p, true, false⟩) hr hA ht with h | ⟨s', g, h1, h2, h3, h4, h5, h6⟩
  · rw [h]; exact Or.inl rfl
  · right
    rw [h1, Out.bind_val]
    refine ⟨_, _, g, rfl, h2, h3, h4, h5, fun hb => ?_⟩
    simp only [Bool.and_eq_true, Bool.not_eq_true', decide_eq_true_eq] at hb
    obtain ⟨⟨_, hb⟩, hu⟩ := hb
    have hlen : g.flat.length = f.flat.length := by simpa using congrArg List.length h5
    refine ⟨fun x hx he => hu (by rw [h2.proof, ← he]; exact List.mem_map.mpr ⟨x, hx, rfl⟩), fun x hx h7 h8 => ?_⟩
    obtain ⟨i, hi, rfl⟩ := List.mem_iff_getElem.mp hx
    have hag := h6 hb (i, 2) (List.mem_flatMap.mpr ⟨i, by simpa [← hlen] using hi, by simp⟩)
    have e1 : getF s'.pip.target i = .val (g.flat[i]).tgt := by
      rw [getF_val (by rw [h2.target]; simpa using hi), h2.target]
      simp [List.getD_eq_getElem?_getD, hi]
    have e2 : getF s'.pip.source i = .val (g.flat[i]).src := by
      rw [getF_val (by rw [h2.source]; simpa using hi), h2.source]
      simp [List.getD_eq_getElem?_getD, hi]
    exact hag (_, _) (by unfold auPair; rw [if_neg nofun, if_neg nofun, e1, Out.bind_val, e2, Out.bind_val]) h7 h8

end MM.Pfas
