import Verif.Unif.Tree
/-!
# Matching: the search finds every matcher
-/
namespace MM.Unif

variable {C : Cfg} {A0 B0 : List Nat} {θ : Nat → List Nat}

@[simp] theorem inst_append (m : Nat) (σ : Nat → List Nat) (l r : List Nat) : inst m σ (l ++ r) = inst m σ l ++ inst m σ r := by simp [inst]

theorem inst_cons (m : Nat) (σ : Nat → List Nat) (c : Nat) (t : List Nat) : inst m σ (c :: t) = (if m < c then σ c else [c]) ++ inst m σ t := by simp [inst]

theorem inst_known {m : Nat} {σ : Nat → List Nat} : ∀ {l : List Nat}, (∀ y ∈ l, y ≤ m) → inst m σ l = l
  | [], _ => rfl
  | c :: t, h => by
    rw [inst_cons, if_neg (by have := h c (by simp); omega), inst_known (fun y hy => h y (by simp [hy]))]
    rfl

theorem inst_sub1 {m x : Nat} {v : List Nat} (hx : m < x) (hv : θ x = v) (hk : ∀ y ∈ v, y ≤ m) : ∀ l : List Nat, inst m θ (sub1 x v l) = inst m θ l
  | [] => rfl
  | c :: t => by
    rw [sub1_cons, inst_append, inst_sub1 hx hv hk t, inst_cons]
    by_cases h : c = x
    · rw [if_pos h, h, if_pos hx, hv, inst_known hk]
    · rw [if_neg h, inst_cons]; simp [inst]

/-- The substitution looked for is still possible; `inB` tells which scheme is known. -/
structure Goal (C : Cfg) (θ : Nat → List Nat) (inB : Bool) (vs : List Nat) (seg : List (Nat × Nat)) (A B : List Nat) : Prop where
  eq : inst C.mt θ A = inst C.mt θ B
  known : ∀ y ∈ (if inB then B else A), y ≤ C.mt
  vals : ∀ e ∈ binds vs seg A, e.2 = θ e.1

/-- The conditions on a substitution that `unify` is to find. -/
structure Wanted (C : Cfg) (A0 B0 : List Nat) (θ : Nat → List Nat) : Prop where
  sep : ∀ y, Unknown C A0 B0 y → C.mt ∉ θ y
  min : ∀ y, Unknown C A0 B0 y → C.min ≤ (θ y).length
  pass : ∀ y, Unknown C A0 B0 y → passes C (θ y) = true

/-- Found. -/
def Good (C : Cfg) (A0 B0 : List Nat) (θ : Nat → List Nat) (x : Lbl × St) : Prop :=
  x.1 = .timeout ∨ (x.1 = .done ∧ Ans C A0 B0 x.2 ∧ ∃ inB, Goal C θ inB (vars x.2.stk) x.2.seg x.2.A x.2.B)

theorem mem_binds_vals {vs : List Nat} {seg : List (Nat × Nat)} {A : List Nat} {e} (h : e ∈ binds vs seg A) : ∃ g ∈ seg, e.2 = slice A g := by
  obtain ⟨g, h1, h2⟩ := List.mem_map.1 (List.of_mem_zip h).2
  exact ⟨g, h1, h2.symm⟩

/-- After the right choice the goal is still possible. -/
theorem Goal.next {inB : Bool} {f fs a ta tb ca cb len segs} (h : Act C A0 B0 f fs a ta tb ca cb len segs) (hG : Goal C θ inB (vars fs) segs f.A f.B) {v : List Nat}
    (hv : θ f.var = v) (hk : ∀ y ∈ v, y ≤ C.mt)
    (hpre : ∃ R, sub1 f.var v f.A = sub1 f.var v a ++ (v ++ R)) :
    Goal C θ inB (f.var :: vars fs) (((sub1 f.var v a).length, v.length) :: segs.map (cur f.var v a)) (sub1 f.var v f.A) (sub1 f.var v f.B) := by
  have hu := h.unk
  have hone : ∀ y ∈ a, y ≤ C.mt := by
    intro y hy
    apply hG.known
    cases inB
    · rw [if_neg (by simp), h.hA]; simp [hy]
    · rw [if_pos rfl, h.hB]; simp [hy]
  refine ⟨by rw [inst_sub1 hu hv hk, inst_sub1 hu hv hk]; exact hG.eq, ?_, ?_⟩
  · intro y hy
    have key : ∀ l, (∀ z ∈ l, z ≤ C.mt) → y ∈ sub1 f.var v l → y ≤ C.mt := by
      intro l hl h1
      rcases mem_sub1.1 h1 with ⟨h2, _⟩ | ⟨h2, _⟩
      · exact hl y h2
      · exact hk y h2
    have hkn := hG.known
    cases inB
    · rw [if_neg (by simp)] at hy hkn; exact key _ hkn hy
    · rw [if_pos rfl] at hy hkn; exact key _ hkn hy
  · obtain ⟨R, hR⟩ := hpre
    have eb : binds (f.var :: vars fs) (((sub1 f.var v a).length, v.length) :: segs.map (cur f.var v a)) (sub1 f.var v f.A) = (f.var, v) :: binds (vars fs) segs f.A := by
      unfold binds
      rw [List.map_cons, List.zip_cons_cons]
      congr 2
      · unfold slice; dsimp only; rw [hR, List.drop_left, List.take_left]
      · rw [List.map_map]
        apply List.map_congr_left
        intro e he
        have hb := (h.core.segs e he).1
        rw [Function.comp_apply, hR, slice_cur (r := ca :: ta) hb, ← h.hA]
        apply sub1_none
        intro hm
        have hsl : slice f.A e = slice a e := by
          rw [h.hA]
          unfold slice
          rw [List.drop_append_of_le_length (by omega), List.take_append_of_le_length (by simp; omega)]
        rw [hsl] at hm
        have := hone _ (List.mem_of_mem_drop (List.mem_of_mem_take hm))
        omega
    rw [eb]
    intro e he
    rcases List.mem_cons.1 he with rfl | he
    · exact hv.symm
    · exact hG.vals e he

/-- At a stack entry, the substitution looked for makes the rest of the known scheme start with the value of the variable. -/
theorem Goal.prefix {inB : Bool} {f fs a ta tb ca cb len segs} (h : Act C A0 B0 f fs a ta tb ca cb len segs) (hG : Goal C θ inB (vars fs) segs f.A f.B) :
    ∃ t, (if f.var = ca then cb :: tb else ca :: ta) = θ f.var ++ t ∧ (∀ y ∈ (if f.var = ca then cb :: tb else ca :: ta), y ≤ C.mt) := by
  have heq := hG.eq
  rw [h.hA, h.hB, inst_append, inst_append] at heq
  have heq := List.append_cancel_left heq
  have hu := h.unk
  have hkn := hG.known
  cases inB
  · rw [if_neg (by simp), h.hA] at hkn
    have hka : ∀ y ∈ ca :: ta, y ≤ C.mt := fun y hy => hkn y (List.mem_append_right _ hy)
    have hca : f.var ≠ ca := by have := hka ca (by simp); omega
    have hcb : f.var = cb := by rcases h.side with h' | h'; exact absurd h'.1 hca; exact h'.1
    rw [if_neg hca]
    rw [inst_known hka, inst_cons, if_pos (by omega), ← hcb] at heq
    exact ⟨_, heq, hka⟩
  · rw [if_pos rfl, h.hB] at hkn
    have hkb : ∀ y ∈ cb :: tb, y ≤ C.mt := fun y hy => hkn y (List.mem_append_right _ hy)
    have hcb : f.var ≠ cb := by have := hkb cb (by simp); omega
    have hca : f.var = ca := by rcases h.side with h' | h'; exact h'.1; exact absurd h'.1 hcb
    rw [if_pos hca]
    rw [inst_known hkb, inst_cons, if_pos (by omega), ← hca] at heq
    exact ⟨_, heq.symm, hkb⟩

/-- Trying the lengths up to that of the value looked for. -/
theorem goal_active (hP : Proper C A0 B0) (hW : Wanted C A0 B0 θ) {inB : Bool} {fs : List Frame} (hfs : StkOk C A0 B0 fs)
    (ih : ∀ s, Fresh C A0 B0 s → s.stk.length = fs.length + 1 → Goal C θ inB (vars s.stk) s.seg s.A s.B → Tree C A0 B0 (Ans C A0 B0) (Good C A0 B0 θ) (.scan, s)) :
    ∀ (m : Nat) {s y f a ta tb ca cb len segs}, (θ f.var).length - len = m → len ≤ (θ f.var).length → Act C A0 B0 f fs a ta tb ca cb len segs → Active s f fs a →
      Goal C θ inB (vars fs) segs f.A f.B → choose C (decide (f.var = ca)) f.var s = .val y → Tree C A0 B0 (Ans C A0 B0) (Good C A0 B0 θ) y := by
  intro m
  induction m with
  | zero =>
    intro s y f a ta tb ca cb len segs hm hle h hs hG hy
    obtain ⟨t, ht, hk⟩ := hG.prefix h
    have hlen : len = (θ f.var).length := by omega
    have hv : (if f.var = ca then cb :: tb else ca :: ta).take len = θ f.var := by rw [ht, hlen, List.take_left]
    have hkv : ∀ y ∈ θ f.var, y ≤ C.mt := by intro y hy; apply hk; rw [ht]; simp [hy]
    have hu := h.unk
    have hun : Unknown C A0 B0 f.var := ⟨hu, h.core.toks _ hu (by
      rcases h.side with h' | h'
      · left; rw [h'.1]; exact h.mem.1
      · right; rw [h'.1]; exact h.mem.2)⟩
    have hch := choose_ok hP h hs
    dsimp only at hch
    rw [hv] at hch
    rcases hch with ⟨_, g2⟩ | ⟨s2, g1, g2, g3, _, g5, g6, g7, g8, g9, g10⟩
    · exfalso
      rcases g2 with g2 | g2
      · have := hkv _ g2; omega
      · rw [hW.pass _ hun] at g2; cases g2
    · rw [g1] at hy
      cases hy
      have hst : s2.stk = f :: fs := by rw [g2, hs.stk]
      refine ih s2 ⟨g5, by rw [hst]; exact ⟨⟨a, ta, tb, ca, cb, len, segs, h⟩, hfs⟩, g3⟩ (by rw [hst]; rfl) ?_
      rw [hst, g10, g8, g9, hs.A, hs.B]
      refine hG.next h rfl hkv ?_
      rw [h.hA, sub1_append]
      by_cases hca : f.var = ca
      · rw [← hca, sub1_cons_eq]; exact ⟨_, rfl⟩
      · rw [if_neg hca] at ht
        rw [ht, sub1_append, sub1_none _ g6]; exact ⟨_, rfl⟩
  | succ m ihm =>
    intro s y f a ta tb ca cb len segs hm hle h hs hG hy
    obtain ⟨t, ht, hk⟩ := hG.prefix h
    have hu := h.unk
    have hun : Unknown C A0 B0 f.var := ⟨hu, h.core.toks _ hu (by
      rcases h.side with h' | h'
      · left; rw [h'.1]; exact h.mem.1
      · right; rw [h'.1]; exact h.mem.2)⟩
    have hno : C.mt ∉ (if f.var = ca then cb :: tb else ca :: ta).take (len + 1) := by
      rw [ht, List.take_append_of_le_length (by omega)]
      intro h'; exact hW.sep _ hun (List.mem_of_mem_take h')
    have key : ∀ s', s'.stk = f :: fs → OnOk s' → Tree C A0 B0 (Ans C A0 B0) (Good C A0 B0 θ) (.back, s') := by
      intro s' hstk hon
      rcases back_ok hP h hstk hon (unkVars C A0 B0).length with ⟨s1, h1, _⟩ | ⟨s1, h1, h2, h3, h4, h5⟩ | ⟨s1, f', len', h1, h2, h3, h4, h5, h6, h7⟩
      · exact .steps h1 (.leaf (Or.inl rfl))
      · exfalso
        rcases h.side with ⟨e, _⟩ | ⟨e, _⟩
        · rw [if_pos e] at hno; exact hno (h4 e)
        · rw [if_neg (by rw [e]; exact fun h' => h.ne h'.symm)] at hno; exact hno (h5 e)
      · rcases h7 with ⟨e1, e2⟩ | ⟨e1, e2⟩
        · refine .steps h1 ?_
          have e := active_ok h2 h3 (unkVars C A0 B0).length
          have hval : ∃ y', choose C (decide (f'.var = ca)) f'.var s1 = .val y' := by
            rcases choose_ok hP h2 h3 with ⟨g1, _⟩ | ⟨s2, g1, _⟩
            · exact ⟨_, g1⟩
            · exact ⟨_, g1⟩
          obtain ⟨y', hy'⟩ := hval
          refine .step (goes_scan (by rw [step_scan, e, hy'])) ?_
          exact ihm (by rw [e1]; omega) (by rw [e1]; omega) h2 h3 (by rw [h5, h6]; exact hG) hy'
        · exfalso
          rw [if_pos e1] at hk
          have := hk cb (by simp)
          omega
    rcases choose_ok hP h hs with ⟨g1, _⟩ | ⟨s2, g1, g2, g3, _, g5, _⟩
    · rw [g1] at hy
      cases hy
      exact key s hs.stk hs.on
    · rw [g1] at hy
      cases hy
      have hst : s2.stk = f :: fs := by rw [g2, hs.stk]
      refine (tree_scan hP (unkVars C A0 B0).length s2 ⟨g5, by rw [hst]; exact ⟨⟨a, ta, tb, ca, cb, len, segs, h⟩, hfs⟩, g3⟩ (by omega)).bind ?_
      rintro ⟨l, z⟩ (hy | ⟨hy1, hy2, hy3⟩)
      · exact .leaf (Or.inl hy)
      · dsimp only at hy1 hy2 hy3
        subst hy1
        exact key z (by rw [hy2, hst]) hy3

theorem inst_ne {v t r : List Nat} {m : Nat} (h : v ++ t = m :: r) (hm : m ∉ v) (h1 : 1 ≤ v.length) : False := by
  cases v with
  | nil => simp at h1
  | cons c v => simp at h hm; exact hm.1 h.1.symm

/-- From a position where the substitution is still possible, the search finds it. -/
theorem goal_scan (hP : Proper C A0 B0) (hW : Wanted C A0 B0 θ) {inB : Bool} : ∀ (k : Nat) (s : St), Fresh C A0 B0 s → (unkVars C A0 B0).length + 1 ≤ s.stk.length + k →
    Goal C θ inB (vars s.stk) s.seg s.A s.B → Tree C A0 B0 (Ans C A0 B0) (Good C A0 B0 θ) (.scan, s) := by
  intro k
  induction k with
  | zero =>
    intro s hs hk hG
    have := room_ok hs.core.nodup hs.core.unk
    simp [vars] at this
    omega
  | succ k ih =>
    intro s hs hk hG
    rcases fresh_ok hP hs with ⟨q, h1, h2⟩ | ⟨s', h1, _, _, a, ta, tb, ca, cb, h2, h3, h4, h5⟩ | ⟨s', f, a, ta, tb, ca, cb, h1, h2, h3, h4, h5, _⟩
    · exact .step (goes_scan h1) (.leaf (Or.inr ⟨rfl, ⟨h2, ⟨s.p, hs.core⟩, hs.ok⟩, inB, hG⟩))
    · exfalso
      have heq := hG.eq
      rw [h2, h3, inst_append, inst_append] at heq
      have heq := List.append_cancel_left heq
      rw [inst_cons, inst_cons] at heq
      rcases h5 with ⟨g1, g2⟩ | ⟨g1, g2, g3⟩ | ⟨g1, g2, g3⟩
      · rw [if_neg (by omega), if_neg (by omega)] at heq
        simp at heq
        exact h4 heq.1
      · have hun : Unknown C A0 B0 ca := ⟨g1, hs.core.toks _ g1 (Or.inl (by rw [h2]; simp))⟩
        rw [if_pos g1, if_neg (by omega), g2] at heq
        exact inst_ne heq (hW.sep _ hun) (by have := hW.min _ hun; omega)
      · have hun : Unknown C A0 B0 cb := ⟨g1, hs.core.toks _ g1 (Or.inr (by rw [h3]; simp))⟩
        rw [if_pos g1, if_neg (by omega), g2] at heq
        exact inst_ne heq.symm (hW.sep _ hun) (by have := hW.min _ hun; omega)
    · have hval : ∃ y', choose C (decide (f.var = ca)) f.var s' = .val y' := by
        rcases choose_ok hP h2 h3 with ⟨g1, _⟩ | ⟨s2, g1, _⟩
        · exact ⟨_, g1⟩
        · exact ⟨_, g1⟩
      obtain ⟨y', hy'⟩ := hval
      refine .step (goes_scan (by rw [step_scan, h1, hy'])) ?_
      have hu := h2.unk
      have hun : Unknown C A0 B0 f.var := ⟨hu, h2.core.toks _ hu (by
        rcases h2.side with h' | h'
        · left; rw [h'.1]; exact h2.mem.1
        · right; rw [h'.1]; exact h2.mem.2)⟩
      exact goal_active hP hW hs.ok (fun s1 hs1 hl hg => ih s1 hs1 (by omega) hg) _ rfl (hW.min _ hun) h2 h3 (by rw [h4, h5]; exact hG) hy'

theorem goal_start (hP : Proper C A0 B0) (hW : Wanted C A0 B0 θ) (hk : (∀ y ∈ A0, y ≤ C.mt) ∨ (∀ y ∈ B0, y ≤ C.mt)) (he : inst C.mt θ A0 = inst C.mt θ B0) (n : Nat) :
    Tree C A0 B0 (Ans C A0 B0) (Good C A0 B0 θ) (.scan, start C A0 B0 n) := by
  have hk' : ∃ inB : Bool, ∀ y ∈ (if inB then B0 else A0), y ≤ C.mt := by
    rcases hk with h | h
    · exact ⟨false, h⟩
    · exact ⟨true, h⟩
  obtain ⟨inB, hk'⟩ := hk'
  refine goal_scan hP hW (inB := inB) _ _ (fresh_start C A0 B0 n) (Nat.le_add_left _ _) ⟨?_, ?_, ?_⟩
  · simp only [start]; rw [inst_append, inst_append, he]
  · intro y hy
    simp only [start] at hy
    cases inB
    · rw [if_neg (by simp)] at hy hk'
      rcases List.mem_append.1 hy with hy | hy
      · exact hk' y hy
      · simp at hy; omega
    · rw [if_pos rfl] at hy hk'
      rcases List.mem_append.1 hy with hy | hy
      · exact hk' y hy
      · simp at hy; omega
  · intro e he; simp [start, vars, binds] at he

end MM.Unif
