import Verif.Tree.Classify
/-!
# The stack machine of packed proofs and proof trees
-/
namespace MM.Tree
open MM.Veri MM.Proof MM.Data Forest

variable {E : Env}

/-- What step `x` stands for, given the proofs of the earlier steps. -/
def exp1 (ρ : List (List Int)) (x : Int) : List Int := if x ≤ -1000 then ρ.getD (-1000 - x).toNat [] else [x]

def expL (ρ : List (List Int)) (l : List Int) : List Int := l.flatMap (exp1 ρ)

def entries (ρ : List (List Int)) : Forest → List (List Int)
  | nil => []
  | snoc l x ch => expL ρ (ch.flat ++ [x]) :: entries ρ l

/-- The references in `l` are to steps before `n`. -/
def RefsLt (n : Nat) (l : List Int) : Prop := ∀ x ∈ l, x ≤ -1000 → (-1000 - x).toNat < n

theorem expL_append (ρ : List (List Int)) (a b : List Int) : expL ρ (a ++ b) = expL ρ a ++ expL ρ b := List.flatMap_append
theorem expL_single (ρ : List (List Int)) (x : Int) : expL ρ [x] = exp1 ρ x := by simp [expL]

theorem exp1_congr {ρ σ : List (List Int)} {x : Int} (hp : ρ <+: σ) (h : x ≤ -1000 → (-1000 - x).toNat < ρ.length) : exp1 ρ x = exp1 σ x := by
  obtain ⟨t, rfl⟩ := hp
  unfold exp1
  by_cases hx : x ≤ -1000
  · rw [if_pos hx, if_pos hx, List.getD_append _ _ _ _ (h hx)]
  · rw [if_neg hx, if_neg hx]

theorem expL_congr {ρ σ : List (List Int)} (hp : ρ <+: σ) : ∀ {l : List Int}, RefsLt ρ.length l → expL ρ l = expL σ l
  | [], _ => rfl
  | x :: l, h => by
    have e1 := exp1_congr hp (h x (by simp))
    have e2 := expL_congr hp (l := l) (fun y hy => h y (by simp [hy]))
    simp only [expL, List.flatMap_cons] at e2 ⊢
    rw [e1, e2]

theorem RefsLt.left {n : Nat} {a b : List Int} (h : RefsLt n (a ++ b)) : RefsLt n a := fun x hx => h x (by simp [hx])
theorem RefsLt.right {n : Nat} {a b : List Int} (h : RefsLt n (a ++ b)) : RefsLt n b := fun x hx => h x (by simp [hx])
theorem RefsLt.mono {n m : Nat} {a : List Int} (h : RefsLt n a) (hm : n ≤ m) : RefsLt m a := fun x hx hr => lt_of_lt_of_le (h x hx hr) hm
theorem RefsLt.app {n : Nat} {a b : List Int} (h : RefsLt n a) (h' : RefsLt n b) : RefsLt n (a ++ b) := by
  intro x hx
  rcases List.mem_append.1 hx with hx | hx
  · exact h x hx
  · exact h' x hx

theorem entries_congr {ρ σ : List (List Int)} (hp : ρ <+: σ) : ∀ {f : Forest}, RefsLt ρ.length f.flat → entries ρ f = entries σ f
  | nil, _ => rfl
  | snoc l x ch, h => by
    have h' : RefsLt ρ.length (l.flat ++ (ch.flat ++ [x])) := by simpa [flat] using h
    rw [entries, entries, entries_congr hp h'.left, expL_congr hp h'.right]

theorem entries_flatten (ρ : List (List Int)) : ∀ (f : Forest), (entries ρ f).reverse.flatten = expL ρ f.flat
  | nil => rfl
  | snoc l x ch => by
    rw [entries, List.reverse_cons, List.flatten_append, entries_flatten ρ l, flat, List.append_assoc, expL_append ρ l.flat]; simp

theorem entries_length (ρ : List (List Int)) : ∀ (f : Forest), (entries ρ f).length = f.count
  | nil => rfl
  | snoc l x ch => by rw [entries, List.length_cons, entries_length ρ l, count]

/-- The trees of both forests. -/
def app (l : Forest) : Forest → Forest
  | nil => l
  | snoc r x ch => snoc (app l r) x ch

theorem app_flat (l : Forest) : ∀ r, (app l r).flat = l.flat ++ r.flat
  | nil => by simp [app, flat]
  | snoc r x ch => by simp [app, flat, app_flat l r]

theorem app_wf {l : Forest} (hl : l.Wf E) : ∀ {r : Forest}, r.Wf E → (app l r).Wf E
  | nil, _ => hl
  | snoc _ _ _, ⟨h1, h2⟩ => ⟨app_wf hl h1, h2⟩

theorem app_entries (ρ : List (List Int)) (l : Forest) : ∀ r, entries ρ (app l r) = entries ρ r ++ entries ρ l
  | nil => rfl
  | snoc r x ch => by simp [app, entries, app_entries ρ l r]

/-- The last `k` trees. -/
theorem split_last : ∀ {f : Forest} {k : Nat}, f.Wf E → k ≤ f.count → ∃ l ch, f = app l ch ∧ l.Wf E ∧ ch.Wf E ∧ ch.count = k
  | f, 0, hw, _ => ⟨f, nil, rfl, hw, trivial, rfl⟩
  | nil, k + 1, _, h => by simp [count] at h
  | snoc r x c, k + 1, hw, h => by
    obtain ⟨l, ch, rfl, h1, h2, h3⟩ := split_last (k := k) hw.1 (by simpa [count] using h)
    exact ⟨l, snoc ch x c, rfl, h1, ⟨h2, hw.2⟩, by simp [count, h3]⟩

/-- Every beginning of the steps of a forest is the steps of a forest. -/
theorem prefix_flat : ∀ {f : Forest}, f.Wf E → ∀ {u v : List Int}, f.flat = u ++ v → ∃ g : Forest, g.Wf E ∧ g.flat = u
  | nil, _, u, v, h => by
    have : u = [] := by
      simp only [flat] at h
      exact (List.append_eq_nil_iff.1 h.symm).1
    exact ⟨nil, trivial, by simp [flat, this]⟩
  | snoc l x ch, hw, u, v, h => by
    rw [flat, List.append_assoc] at h
    rcases List.append_eq_append_iff.1 h with ⟨c, hc1, hc2⟩ | ⟨c, hc1, hc2⟩
    · -- `u` reaches into the last tree
      rcases List.append_eq_append_iff.1 hc2 with ⟨d, hd1, hd2⟩ | ⟨d, hd1, hd2⟩
      · cases d with
        | nil =>
          refine ⟨app l ch, app_wf hw.1 hw.2.1, ?_⟩
          rw [app_flat, hc1, hd1]; simp
        | cons y d =>
          have hnil : d = [] ∧ v = [] := by
            have := congrArg List.length hd2
            simp only [List.length_append, List.length_cons, List.length_nil] at this
            exact ⟨List.length_eq_zero_iff.1 (by omega), List.length_eq_zero_iff.1 (by omega)⟩
          obtain ⟨rfl, rfl⟩ := hnil
          refine ⟨snoc l x ch, hw, ?_⟩
          rw [flat, hc1, hd1]
          have : x = y := by simpa using hd2
          rw [this]; simp
      · obtain ⟨g, hg1, hg2⟩ := prefix_flat hw.2.1 (u := c) (v := d) hd1
        exact ⟨app l g, app_wf hw.1 hg1, by rw [app_flat, hg2, hc1]⟩
    · obtain ⟨g, hg1, hg2⟩ := prefix_flat hw.1 (u := u) (v := c) hc1
      exact ⟨g, hg1, hg2⟩

/-! ### Runs -/

theorem run_append : ∀ (a b : List Int) (st : List (List Int) × List (List Int)), expandRun E (a ++ b) st = (expandRun E a st).bind (expandRun E b)
  | [], b, st => rfl
  | x :: a, b, st => by
    rw [List.cons_append, expandRun, expandRun]
    cases h : expandStep E st x with
    | none => rfl
    | some st' => exact run_append a b st'

theorem run_split {a b : List Int} {st fin : List (List Int) × List (List Int)} (h : expandRun E (a ++ b) st = some fin) :
    ∃ mid, expandRun E a st = some mid ∧ expandRun E b mid = some fin := by
  rw [run_append] at h
  cases ha : expandRun E a st with
  | none => rw [ha] at h; cases h
  | some mid => rw [ha] at h; exact ⟨mid, rfl, h⟩

theorem run_join {a b : List Int} {st mid fin : List (List Int) × List (List Int)} (h1 : expandRun E a st = some mid) (h2 : expandRun E b mid = some fin) :
    expandRun E (a ++ b) st = some fin := by rw [run_append, h1]; exact h2

theorem run_one {x : Int} {st : List (List Int) × List (List Int)} : expandRun E [x] st = expandStep E st x := by
  simp only [expandRun]
  cases expandStep E st x <;> rfl

theorem step_ref {st : List (List Int) × List (List Int)} {x : Int} (hx : x ≤ -1000) {fin} (h : expandStep E st x = some fin) :
    (-1000 - x).toNat < st.2.length ∧ fin = (st.2.getD (-1000 - x).toNat [] :: st.1, st.2 ++ [st.2.getD (-1000 - x).toNat []]) := by
  unfold expandStep at h
  rw [if_pos hx] at h
  cases hg : st.2[(-1000 - x).toNat]? with
  | none => rw [hg] at h; cases h
  | some b =>
    rw [hg] at h
    have hlt := (List.getElem?_eq_some_iff.1 hg).1
    refine ⟨hlt, ?_⟩
    have : st.2.getD (-1000 - x).toNat [] = b := by rw [List.getD_eq_getElem?_getD, hg]; rfl
    rw [this]
    cases h; rfl

theorem step_ref_ok {st : List (List Int) × List (List Int)} {x : Int} (hx : x ≤ -1000) (h : (-1000 - x).toNat < st.2.length) :
    expandStep E st x = some (st.2.getD (-1000 - x).toNat [] :: st.1, st.2 ++ [st.2.getD (-1000 - x).toNat []]) := by
  unfold expandStep
  rw [if_pos hx, List.getElem?_eq_getElem h]
  have : st.2.getD (-1000 - x).toNat [] = st.2[(-1000 - x).toNat] := by rw [List.getD_eq_getElem?_getD, List.getElem?_eq_getElem h]; rfl
  rw [this]

theorem step_stmt {st : List (List Int) × List (List Int)} {x : Int} (hx : -1000 < x) {fin} (h : expandStep E st x = some fin) :
    arity E x ≤ st.1.length ∧ fin = (((st.1.take (arity E x)).reverse.flatten ++ [x]) :: st.1.drop (arity E x), st.2 ++ [(st.1.take (arity E x)).reverse.flatten ++ [x]]) := by
  unfold expandStep at h
  rw [if_neg (by omega)] at h
  by_cases hl : arity E x ≤ st.1.length
  · rw [if_pos hl] at h
    exact ⟨hl, by cases h; rfl⟩
  · rw [if_neg hl] at h; cases h

theorem step_stmt_ok {st : List (List Int) × List (List Int)} {x : Int} (hx : -1000 < x) (h : arity E x ≤ st.1.length) :
    expandStep E st x = some (((st.1.take (arity E x)).reverse.flatten ++ [x]) :: st.1.drop (arity E x), st.2 ++ [(st.1.take (arity E x)).reverse.flatten ++ [x]]) := by
  unfold expandStep
  rw [if_neg (by omega), if_pos h]

/-- A step adds its proof both to the stack and to the record. -/
theorem step_push {st fin : List (List Int) × List (List Int)} {x : Int} (h : expandStep E st x = some fin) :
    ∃ b st', fin = (b :: st', st.2 ++ [b]) := by
  by_cases hx : x ≤ -1000
  · obtain ⟨_, rfl⟩ := step_ref hx h; exact ⟨_, _, rfl⟩
  · obtain ⟨_, rfl⟩ := step_stmt (by omega) h; exact ⟨_, _, rfl⟩

theorem run_record : ∀ {l : List Int} {st fin : List (List Int) × List (List Int)}, expandRun E l st = some fin → ∃ m, fin.2 = st.2 ++ m ∧ m.length = l.length
  | [], st, fin, h => by cases h; exact ⟨[], by simp, rfl⟩
  | x :: l, st, fin, h => by
    rw [expandRun] at h
    cases hs : expandStep E st x with
    | none => rw [hs] at h; cases h
    | some st' =>
      rw [hs] at h
      obtain ⟨b, st1, rfl⟩ := step_push hs
      obtain ⟨m, hm, hl⟩ := run_record (st := (b :: st1, st.2 ++ [b])) h
      exact ⟨b :: m, by rw [hm]; simp, by simp [hl]⟩

theorem run_prefix {l : List Int} {st fin : List (List Int) × List (List Int)} (h : expandRun E l st = some fin) : st.2 <+: fin.2 := by
  obtain ⟨m, hm, _⟩ := run_record h; exact ⟨m, hm.symm⟩

/-- The references of a successful run are to recorded steps. -/
theorem run_refs : ∀ {l : List Int} {st fin : List (List Int) × List (List Int)}, expandRun E l st = some fin → RefsLt (st.2.length + l.length) l
  | [], st, fin, h => by intro x hx; cases hx
  | x :: l, st, fin, h => by
    rw [expandRun] at h
    cases hs : expandStep E st x with
    | none => rw [hs] at h; cases h
    | some st' =>
      rw [hs] at h
      have h2 := run_refs (st := st') h
      intro y hy hr
      rcases List.mem_cons.1 hy with rfl | hy
      · have := (step_ref hr hs).1
        simp only [List.length_cons]; omega
      · have := h2 y hy hr
        obtain ⟨b, st1, rfl⟩ := step_push hs
        simp only [List.length_append, List.length_cons, List.length_nil] at this ⊢; omega

theorem take_entries (ρ : List (List Int)) (st : List (List Int)) (f : Forest) : (entries ρ f ++ st).take f.count = entries ρ f ∧ (entries ρ f ++ st).drop f.count = st := by
  rw [← entries_length ρ f]; simp

theorem arity_ref {x : Int} (h : x ≤ -1000) : arity E x = 0 := by unfold arity; rw [if_neg (by omega)]

/-- Running the steps of a forest pushes the proofs of its trees. -/
theorem run_ok : ∀ {f : Forest} {st sv : List (List Int)}, f.Wf E → RefsLt sv.length f.flat → ∃ m, expandRun E f.flat (st, sv) = some (entries sv f ++ st, sv ++ m)
  | nil, st, sv, _, _ => ⟨[], by simp [flat, expandRun, entries]⟩
  | snoc l x ch, st, sv, ⟨hl, hc, hx, ha⟩, hr => by
    rw [flat] at hr ⊢
    obtain ⟨m1, h1⟩ := run_ok (st := st) hl hr.left.left
    obtain ⟨m2, h2⟩ := run_ok (st := entries sv l ++ st) (sv := sv ++ m1) hc (hr.left.right.mono (by simp))
    have e2 : entries (sv ++ m1) ch = entries sv ch := (entries_congr ⟨m1, rfl⟩ hr.left.right).symm
    rw [e2] at h2
    have h12 := run_join h1 h2
    by_cases hx1 : x ≤ -1000
    · have hn := count_zero (ha.symm.trans (arity_ref hx1))
      subst hn
      have hlt := hr x (by simp) hx1
      have h3 := step_ref_ok (E := E) (st := (entries sv nil ++ (entries sv l ++ st), sv ++ m1 ++ m2)) hx1 (by simp only [List.length_append]; omega)
      refine ⟨m1 ++ (m2 ++ [exp1 sv x]), (run_join h12 (run_one.trans h3)).trans ?_⟩
      have e : (sv ++ m1 ++ m2).getD (-1000 - x).toNat [] = exp1 sv x := by
        unfold exp1; rw [if_pos hx1, List.append_assoc, List.getD_append _ _ _ _ hlt]
      rw [e, List.append_assoc, List.append_assoc]
      simp [entries, expL, flat]
    · have h3 := step_stmt_ok (E := E) (st := (entries sv ch ++ (entries sv l ++ st), sv ++ m1 ++ m2)) (x := x) (by omega)
        (by simp only [List.length_append, entries_length]; omega)
      refine ⟨m1 ++ (m2 ++ [expL sv ch.flat ++ [x]]), (run_join h12 (run_one.trans h3)).trans ?_⟩
      rw [ha, (take_entries _ _ _).1, (take_entries _ _ _).2, entries_flatten, entries, expL_append, expL_single]
      have : exp1 sv x = [x] := by unfold exp1; rw [if_neg hx1]
      rw [this, List.append_assoc, List.append_assoc]
      rfl

/-- Whatever the references, a successful run of the steps of a forest pushes the proofs of its trees. -/
theorem run_entries : ∀ {f : Forest} {st sv st2 sv2 ρ : List (List Int)}, f.Wf E → expandRun E f.flat (st, sv) = some (st2, sv2) → sv2 <+: ρ → st2 = entries ρ f ++ st
  | nil, st, sv, st2, sv2, ρ, _, h, _ => by simp only [flat, expandRun] at h; cases h; simp [entries]
  | snoc l x ch, st, sv, st2, sv2, ρ, ⟨hl, hc, hx, ha⟩, h, hp => by
    rw [flat] at h
    obtain ⟨⟨st1, sv1⟩, h12, h3⟩ := run_split h
    obtain ⟨⟨st0, sv0⟩, h1, h2⟩ := run_split h12
    rw [run_one] at h3
    have p3 : sv1 <+: ρ := by
      obtain ⟨b, s', e⟩ := step_push h3
      have : sv2 = sv1 ++ [b] := congrArg Prod.snd e
      rw [this] at hp; exact (List.prefix_append _ _).trans hp
    have e1 := run_entries hl h1 ((run_prefix h2).trans p3)
    have e2 := run_entries hc h2 p3
    subst e1 e2
    by_cases hx1 : x ≤ -1000
    · have hn := count_zero (ha.symm.trans (arity_ref hx1))
      subst hn
      obtain ⟨hlt, e⟩ := step_ref hx1 h3
      cases e
      have : exp1 ρ x = sv1.getD (-1000 - x).toNat [] := by
        rw [← exp1_congr p3 (fun _ => hlt)]; unfold exp1; rw [if_pos hx1]
      simp [entries, expL, flat, this]
    · obtain ⟨_, e⟩ := step_stmt (by omega) h3
      cases e
      have : exp1 ρ x = [x] := by unfold exp1; rw [if_neg hx1]
      rw [ha, (take_entries _ _ _).1, (take_entries _ _ _).2, entries_flatten, entries, expL_append, expL_single, this]
      rfl

/-- The record of another run with the same beginning gives the same stack. -/
theorem run_congr {ρ : List (List Int)} : ∀ {l : List Int} {st sv sv' : List (List Int)} {fin}, RefsLt ρ.length l → ρ <+: sv → ρ <+: sv' → expandRun E l (st, sv) = some fin →
    ∃ m, fin.2 = sv ++ m ∧ expandRun E l (st, sv') = some (fin.1, sv' ++ m)
  | [], st, sv, sv', fin, _, _, _, h => by cases h; exact ⟨[], by simp [expandRun]⟩
  | x :: l, st, sv, sv', fin, hr, h1, h2, h => by
    rw [expandRun] at h ⊢
    cases hs : expandStep E (st, sv) x with
    | none => rw [hs] at h; cases h
    | some st' =>
      rw [hs] at h
      obtain ⟨b, st1, rfl⟩ := step_push hs
      have hs' : expandStep E (st, sv') x = some (b :: st1, sv' ++ [b]) := by
        by_cases hx : x ≤ -1000
        · obtain ⟨hlt, e⟩ := step_ref hx hs
          have hlt0 := hr x (by simp) hx
          have g1 : sv.getD (-1000 - x).toNat [] = ρ.getD (-1000 - x).toNat [] := by obtain ⟨t, rfl⟩ := h1; rw [List.getD_append _ _ _ _ hlt0]
          have g2 : sv'.getD (-1000 - x).toNat [] = ρ.getD (-1000 - x).toNat [] := by obtain ⟨t, rfl⟩ := h2; rw [List.getD_append _ _ _ _ hlt0]
          have hlt' : (-1000 - x).toNat < (st, sv').2.length := lt_of_lt_of_le hlt0 h2.length_le
          rw [step_ref_ok hx hlt']
          simp only [Prod.mk.injEq, List.cons.injEq] at e
          simp only at g1 g2 e ⊢
          rw [g2, ← g1, ← e.1.1, ← e.1.2]
        · obtain ⟨hlt, e⟩ := step_stmt (by omega) hs
          rw [step_stmt_ok (by omega) (by exact hlt)]
          simp only [Prod.mk.injEq, List.cons.injEq] at e
          simp only at e ⊢
          rw [← e.1.1, ← e.1.2]
      rw [hs']
      obtain ⟨m, hm0, hm⟩ := run_congr (l := l) (st := b :: st1) (sv := sv ++ [b]) (sv' := sv' ++ [b]) (fun y hy => hr y (by simp [hy])) (h1.trans (List.prefix_append _ _))
        (h2.trans (List.prefix_append _ _)) h
      exact ⟨b :: m, by rw [hm0]; simp, by show expandRun E l _ = _; rw [hm]; simp⟩

/-- A successful run from the empty stack: the steps are those of a forest. -/
theorem run_forest : ∀ {l : List Int} {f : Forest} {st sv : List (List Int)} {fin}, f.Wf E → (∀ x ∈ l, StepOk E x) → (∀ ρ, sv <+: ρ → st = entries ρ f) →
    expandRun E l (st, sv) = some fin → ∃ g : Forest, g.Wf E ∧ g.flat = f.flat ++ l ∧ fin.1 = entries fin.2 g
  | [], f, st, sv, fin, hw, _, he, h => by cases h; exact ⟨f, hw, by simp, he sv (List.prefix_refl _)⟩
  | x :: l, f, st, sv, fin, hw, hs, he, h => by
    rw [expandRun] at h
    cases hst : expandStep E (st, sv) x with
    | none => rw [hst] at h; cases h
    | some st' =>
      rw [hst] at h
      have hx := hs x (by simp)
      by_cases hx1 : x ≤ -1000
      · obtain ⟨hlt, rfl⟩ := step_ref hx1 hst
        obtain ⟨g, h1, h2, h3⟩ := run_forest (l := l) (f := snoc f x nil) ⟨hw, trivial, hx, arity_ref hx1⟩ (fun y hy => hs y (by simp [hy])) (by
          intro ρ hp
          have hp' : sv <+: ρ := (List.prefix_append _ _).trans hp
          rw [entries, ← he ρ hp']
          have : exp1 ρ x = sv.getD (-1000 - x).toNat [] := by
            rw [← exp1_congr hp' (fun _ => hlt)]; unfold exp1; rw [if_pos hx1]
          simp [expL, flat, this]) h
        exact ⟨g, h1, by rw [h2]; simp [flat], h3⟩
      · obtain ⟨hlt, rfl⟩ := step_stmt (by omega) hst
        have hc : arity E x ≤ f.count := by
          have := he sv (List.prefix_refl _)
          rw [← entries_length sv f, ← this]; exact hlt
        obtain ⟨l0, ch, rfl, hl0, hch, hcc⟩ := split_last hw hc
        obtain ⟨g, h1, h2, h3⟩ := run_forest (l := l) (f := snoc l0 x ch) ⟨hl0, hch, hx, hcc.symm⟩ (fun y hy => hs y (by simp [hy])) (by
          intro ρ hp
          have hp' : sv <+: ρ := (List.prefix_append _ _).trans hp
          have hst' := he ρ hp'
          rw [app_entries] at hst'
          subst hst'
          have : exp1 ρ x = [x] := by unfold exp1; rw [if_neg hx1]
          simp only
          rw [← hcc, (take_entries _ _ _).1, (take_entries _ _ _).2, entries_flatten, entries, expL_append, expL_single, this]) h
        exact ⟨g, h1, by rw [h2, app_flat]; simp [flat], h3⟩

theorem run_len {l : List Int} {st sv : List (List Int)} (h : expandRun E l ([], []) = some (st, sv)) : sv.length = l.length := by
  obtain ⟨m, h1, h2⟩ := run_record h
  have : sv = m := by simpa using h1
  rw [this, h2]

theorem run_refs' {l : List Int} {st sv : List (List Int)} (h : expandRun E l ([], []) = some (st, sv)) : RefsLt l.length l := by
  have := run_refs h; simpa using this

/-- The subproof that ends at a step of a successful run, and its record. -/
theorem block_at {Q R : List Int} {y : Int} {st sv : List (List Int)} (hok : ∀ x ∈ Q ++ y :: R, StepOk E x) (hy : -1000 < y)
    (h : expandRun E (Q ++ y :: R) ([], []) = some (st, sv)) : ∃ l ch, (tree y ch).Wf E ∧ Q = l ++ ch.flat ∧ sv.getD Q.length [] = expL sv ch.flat ++ [y] := by
  rw [show Q ++ y :: R = (Q ++ [y]) ++ R by simp] at h hok
  obtain ⟨⟨st1, sv1⟩, r1, r2⟩ := run_split h
  obtain ⟨g, hg, hgf, hge⟩ := run_forest (E := E) (l := Q ++ [y]) (f := nil) (st := []) (sv := []) trivial (fun x hx => hok x (by
    rcases List.mem_append.1 hx with h1 | h1 <;> simp [h1] <;> simp_all)) (fun _ _ => rfl) r1
  rw [flat, List.nil_append] at hgf
  cases g with
  | nil => simp [flat] at hgf
  | snoc l z ch =>
    rw [flat] at hgf
    have := List.append_inj' hgf rfl
    have hz : z = y := by simpa using this.2
    subst hz
    refine ⟨l.flat, ch, ⟨trivial, hg.2⟩, this.1.symm, ?_⟩
    obtain ⟨⟨st0, sv0⟩, r0, rx⟩ := run_split r1
    rw [run_one] at rx
    obtain ⟨b, st', e⟩ := step_push rx
    cases e
    have hl0 := run_len r0
    have hp : sv0 ++ [b] <+: sv := run_prefix r2
    simp only [entries, List.cons.injEq] at hge
    have hget : sv.getD Q.length [] = b := by
      obtain ⟨t, rfl⟩ := hp
      rw [← hl0]; simp [List.getD]
    rw [hget, hge.1, expL_append, expL_single]
    have e1 : exp1 (sv0 ++ [b]) z = [z] := by unfold exp1; rw [if_neg (by omega)]
    have hrl : RefsLt (sv0 ++ [b]).length ch.flat := by
      have := run_refs' r0
      intro x hx hr
      have hxQ : x ∈ Q := by rw [← (List.append_inj' hgf rfl).1]; simp [hx]
      have := this x hxQ hr
      simp only [List.length_append, List.length_singleton]; omega
    rw [e1, expL_congr hp hrl]

/-! ### Proofs without references -/

theorem wf_ok : ∀ {f : Forest}, f.Wf E → ∀ x ∈ f.flat, StepOk E x
  | nil, _, x, h => by cases h
  | snoc l y ch, ⟨h1, h2, h3, _⟩, x, h => by
    simp only [flat, List.mem_append, List.mem_singleton] at h
    rcases h with (h | h) | rfl
    · exact wf_ok h1 x h
    · exact wf_ok h2 x h
    · exact h3

theorem forest_of : ∀ {bs : List (List Int)}, (∀ b ∈ bs, NormalProof E b) → ∃ f : Forest, f.Wf E ∧ f.flat = bs.reverse.flatten ∧ f.count = bs.length ∧ ∀ y ∈ f.flat, -1000 < y
  | [], _ => ⟨nil, trivial, rfl, rfl, by simp [flat]⟩
  | b :: bs, h => by
    obtain ⟨f, h1, h2, h3, h4⟩ := forest_of (bs := bs) (fun c hc => h c (by simp [hc]))
    obtain ⟨x, ch, hw, hb, hn⟩ := h b (by simp)
    refine ⟨snoc f x ch, ⟨h1, hw.2⟩, ?_, by simp [count, h3], ?_⟩
    · rw [List.reverse_cons, List.flatten_append, ← h2, ← hb]; simp [flat, tree]
    · intro y hy
      rw [flat, List.append_assoc] at hy
      rcases List.mem_append.1 hy with hy | hy
      · exact h4 y hy
      · exact hn y (by rw [← hb]; simpa [tree, flat] using hy)

/-- The machine only handles proofs without references. -/
theorem run_normal : ∀ {l : List Int} {st fin : List (List Int) × List (List Int)}, (∀ x ∈ l, StepOk E x) → (∀ b ∈ st.1, NormalProof E b) → (∀ b ∈ st.2, NormalProof E b) →
    expandRun E l st = some fin → (∀ b ∈ fin.1, NormalProof E b) ∧ ∀ b ∈ fin.2, NormalProof E b
  | [], st, fin, _, h1, h2, h => by cases h; exact ⟨h1, h2⟩
  | x :: l, st, fin, hok, h1, h2, h => by
    rw [expandRun] at h
    cases hs : expandStep E st x with
    | none => rw [hs] at h; cases h
    | some st' =>
      rw [hs] at h
      have hx := hok x (by simp)
      have key : (∀ b ∈ st'.1, NormalProof E b) ∧ ∀ b ∈ st'.2, NormalProof E b := by
        by_cases hr : x ≤ -1000
        · obtain ⟨hlt, rfl⟩ := step_ref hr hs
          have hb : NormalProof E (st.2.getD (-1000 - x).toNat []) := by
            rw [List.getD_eq_getElem?_getD, List.getElem?_eq_getElem hlt]; exact h2 _ (List.getElem_mem hlt)
          constructor
          · intro b hbm
            rcases List.mem_cons.1 hbm with rfl | hbm
            · exact hb
            · exact h1 b hbm
          · intro b hbm
            rcases List.mem_append.1 hbm with hbm | hbm
            · exact h2 b hbm
            · rw [List.mem_singleton.1 hbm]; exact hb
        · obtain ⟨hle, rfl⟩ := step_stmt (by omega) hs
          have hb : NormalProof E ((st.1.take (arity E x)).reverse.flatten ++ [x]) := by
            obtain ⟨f, g1, g2, g3, g4⟩ := forest_of (E := E) (bs := st.1.take (arity E x)) (fun b hb => h1 b (List.mem_of_mem_take hb))
            refine ⟨x, f, ⟨trivial, g1, hx, by rw [g3, List.length_take]; omega⟩, by rw [← g2]; simp [tree, flat], ?_⟩
            intro y hy
            rcases List.mem_append.1 hy with hy | hy
            · exact g4 y (by rw [g2]; exact hy)
            · rw [List.mem_singleton.1 hy]; omega
          constructor
          · intro b hbm
            rcases List.mem_cons.1 hbm with rfl | hbm
            · exact hb
            · exact h1 b (List.mem_of_mem_drop hbm)
          · intro b hbm
            rcases List.mem_append.1 hbm with hbm | hbm
            · exact h2 b hbm
            · rw [List.mem_singleton.1 hbm]; exact hb
      exact run_normal (fun y hy => hok y (by simp [hy])) key.1 key.2 h

/-- The last tree of a list of steps is determined by the list. -/
theorem tree_suffix {u v r : List Int} {x y : Int} {c d : Forest} (h1 : (tree x c).Wf E) (h2 : (tree y d).Wf E)
    (h : u ++ c.flat ++ x :: r = v ++ d.flat ++ y :: r) : u = v ∧ c.flat = d.flat ∧ x = y := by
  have hl := congrArg List.length h
  simp only [List.length_append, List.length_cons] at hl
  have s1 := subLen_tree (E := E) (A := u ++ c.flat ++ x :: r) h1 rfl
  have s2 := subLen_tree (E := E) (A := u ++ c.flat ++ x :: r) h2 h
  rw [show (v.length : Int) + d.flat.length = (u.length : Int) + c.flat.length by omega, s1] at s2
  have hcd : c.flat.length = d.flat.length := by
    have := Out.val.inj s2; omega
  obtain ⟨e1, e2⟩ := List.append_inj h (by simp only [List.length_append]; omega)
  obtain ⟨e3, e4⟩ := List.append_inj e1 (by omega)
  exact ⟨e3, e4, by simpa using e2⟩

theorem normal_suffix {u v a b : List Int} (h1 : NormalProof E a) (h2 : NormalProof E b) (h : u ++ a = v ++ b) : u = v ∧ a = b := by
  obtain ⟨x, c, w1, rfl, _⟩ := h1
  obtain ⟨y, d, w2, rfl, _⟩ := h2
  obtain ⟨e1, e2, e3⟩ := tree_suffix (r := []) w1 w2 (by simpa [tree, flat] using h)
  subst e1 e3
  exact ⟨rfl, by simp [tree, flat, e2]⟩

theorem entries_normal {f : Forest} {ρ : List (List Int)} (hw : f.Wf E) (hr : RefsLt ρ.length f.flat) (hρ : ∀ b ∈ ρ, NormalProof E b) : ∀ b ∈ entries ρ f, NormalProof E b := by
  obtain ⟨m, hm⟩ := run_ok (E := E) (st := []) hw hr
  have := (run_normal (wf_ok hw) (st := ([], ρ)) (by simp) hρ hm).1
  simpa using this

end MM.Tree
