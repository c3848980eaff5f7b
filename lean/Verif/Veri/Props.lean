import Verif.Veri.Step
/-!
# Properties C01–C08: the proof verifier

`verifyStep` is one iteration of the loop of `verifyProof`; `argsOf st m` are the formulas of the top `m`
entries of the RPN stack in hypothesis order (the empty string stands for an unknown step).
-/
namespace MM.Veri
open MM.Spec

/-- `a` and `b` are declared disjoint, in either order, by a mandatory or optional `$d` pair of
statement `i`. -/
def Declared (db : Db) (i a b : Nat) : Prop :=
  (a, b) ∈ (db.stmt i).reqDisj ++ (db.stmt i).optDisj ∨ (b, a) ∈ (db.stmt i).reqDisj ++ (db.stmt i).optDisj

/-- The `$d` pairs of statement `i` are stored with the smaller token number first (READ does so: C13). -/
def DvOrdered (db : Db) (i : Nat) : Prop :=
  ∀ p ∈ (db.stmt i).reqDisj ++ (db.stmt i).optDisj, p.1 < p.2

theorem covered_iff_declared {db : Db} {i a b : Nat} (h : DvOrdered db i) (hab : a ≠ b) :
    Covered (db.stmt i).reqDisj (db.stmt i).optDisj a b ↔ Declared db i a b := by
  unfold Covered Declared
  rcases Nat.lt_or_gt_of_ne hab with hlt | hgt
  · rw [Nat.min_eq_left (Nat.le_of_lt hlt), Nat.max_eq_right (Nat.le_of_lt hlt)]
    constructor
    · exact Or.inl
    · rintro (h1 | h1)
      · exact h1
      · have := h _ h1; dsimp only at this; omega
  · rw [Nat.min_eq_right (Nat.le_of_lt hgt), Nat.max_eq_left (Nat.le_of_lt hgt)]
    constructor
    · exact Or.inr
    · rintro (h1 | h1)
      · have := h _ h1; dsimp only at this; omega
      · exact h1

/-- The messages printed by the step from `st` to `st'`. -/
def newMsgs (st st' : VState) : List Msg := st'.msgs.drop st.msgs.length

theorem argsOf_sepFree {db : Db} {st : VState} (h : SepFree db.sep st.math) (m : Nat) :
    SepFree db.sep (argsOf st m) := by
  intro x hx
  simp only [argsOf, List.mem_map] at hx
  obtain ⟨k, _, rfl⟩ := hx
  rw [List.getD_eq_getElem?_getD]
  cases hk : st.math[k]? with
  | none => simp
  | some y => exact h y (List.mem_of_getElem? hk)

theorem argsOf_length {st : VState} {m : Nat} (h : m ≤ st.stack.length) : (argsOf st m).length = m := by
  simp [argsOf, h]

theorem unifies_known {isVar : Nat → Bool} {σ} {hyps insts : List (List Nat)} (hl : hyps.length = insts.length)
    (hk : [] ∉ insts) : UnifiesKnown isVar σ hyps insts ↔ Unifies isVar σ hyps insts := by
  rw [← unifies_schemeHyps hl, schemeHyps_known hl]
  rintro i hi rfl; exact hk hi

theorem newMsgs_append {st : VState} {r : Nat} {e : Nat} {m : List Msg} {s : List Nat} {ma : List (List Nat)} :
    newMsgs st ⟨r, e, st.msgs ++ m, s, ma⟩ = m := by simp [newMsgs]

theorem any_nil_iff {insts : List (List Nat)} : insts.any (fun i => i = []) = false ↔ [] ∉ insts := by
  rw [List.any_eq_false]
  constructor
  · intro h hm; simpa using h _ hm
  · intro h x hx hc
    simp at hc; subst hc; exact h hx

/-- A successful assertion step had enough entries on the stack. -/
theorem step_stack {db : Db} {proved n : Nat} {st st' : VState} {i : Nat}
    (hk : (db.stmt i).kind = .a ∨ (db.stmt i).kind = .p)
    (hv : verifyStep db proved n st (i : Int) = .val st') : (hypsOf db i).length ≤ st.stack.length := by
  rw [verifyStep_ass hk] at hv
  by_contra hcon
  rw [if_pos (by omega)] at hv
  cases hv

/-- **C01**.  A formula given to a step that cites an assertion is the assertion under one simultaneous
substitution that turns each mandatory hypothesis (whose step is known) into the formula on the corresponding
stack position; the step is left without a formula only if no such substitution exists or a
hypothesis is unknown. -/
theorem C01_step_is_substitution_instance {db : Db} {proved n : Nat} {st st' : VState} {i : Nat}
    (hs : db.isVar db.sep = false) (hk : (db.stmt i).kind = .a ∨ (db.stmt i).kind = .p)
    (hg : GoodFrame db i) (hf : SepFree db.sep st.math)
    (hv : verifyStep db proved n st (i : Int) = .val st') :
    ∃ f, st'.math = st.math ++ [f] ∧
      st'.stack = st.math.length :: st.stack.drop (hypsOf db i).length ∧
      ((∃ σ, UnifiesKnown db.isVar σ (hypsOf db i) (argsOf st (hypsOf db i).length) ∧
          f = subst db.isVar σ (db.stmt i).math) ∨
       (f = [] ∧ ([] ∈ argsOf st (hypsOf db i).length ∨
          ∀ σ, ¬ UnifiesKnown db.isVar σ (hypsOf db i) (argsOf st (hypsOf db i).length)))) := by
  have hst := step_stack hk hv
  rw [verifyStep_ass hk, if_neg (by omega)] at hv
  have hl := argsOf_length hst
  have hspec := hg.assignUnk hs (argsOf_sepFree hf (hypsOf db i).length) hl.symm proved st.math.length st.ec
  have hsc := fun σ => unifies_schemeHyps (isVar := db.isVar) (σ := σ) hl.symm
  generalize hu : (argsOf st (hypsOf db i).length).any (fun i => i = []) = u at hspec hv
  generalize hr : assignVar db _ _ i proved st.math.length u st.ec = r at hspec hv
  have hun : u = true → [] ∈ argsOf st (hypsOf db i).length := by
    rintro rfl
    simpa using hu
  rcases hspec with ⟨h1, h2⟩ | ⟨_, h2⟩
  · rw [h2] at hv
    simp only [Out.bind_val, Out.val.injEq] at hv
    subst hv
    exact ⟨[], rfl, rfl, Or.inr ⟨rfl, Or.inl (hun h1)⟩⟩
  · cases h2 with
    | noneFits h3 =>
      simp only [Out.bind_val, Out.val.injEq] at hv
      subst hv
      exact ⟨[], rfl, rfl, Or.inr ⟨rfl, Or.inr fun σ h => h3 σ ((hsc σ).mpr h)⟩⟩
    | one σ h3 =>
      simp only [Out.bind_val, Out.val.injEq] at hv
      subst hv
      exact ⟨_, rfl, rfl, Or.inl ⟨σ, (hsc σ).mp h3, rfl⟩⟩
    | many σ τ h3 h4 =>
      simp only [Out.bind_val, Out.val.injEq] at hv
      subst hv
      by_cases hb : u = true
      · exact ⟨[], by simp [hb], rfl, Or.inr ⟨rfl, Or.inl (hun hb)⟩⟩
      · exact ⟨_, by simp [hb], rfl, Or.inl ⟨τ, (hsc τ).mp h4, rfl⟩⟩
    | bug2110 h3 => cases hv

/-- Case analysis of an assertion step with all hypotheses known and no earlier error. -/
theorem step_known_cases {db : Db} {proved n : Nat} {st st' : VState} {i : Nat}
    (hs : db.isVar db.sep = false) (hk : (db.stmt i).kind = .a ∨ (db.stmt i).kind = .p)
    (hg : GoodFrame db i) (hf : SepFree db.sep st.math) (hec : st.ec = 0)
    (hkn : [] ∉ argsOf st (hypsOf db i).length)
    (hv : verifyStep db proved n st (i : Int) = .val st') :
    ((∀ σ, ¬ Unifies db.isVar σ (hypsOf db i) (argsOf st (hypsOf db i).length)) ∧
        newMsgs st st' = [.noUnify st.math.length i] ∧ st'.ret = 2) ∨
    (∃ σ, Unifies db.isVar σ (hypsOf db i) (argsOf st (hypsOf db i).length) ∧
        (∀ τ, Unifies db.isVar τ (hypsOf db i) (argsOf st (hypsOf db i).length) →
          ∀ t, VarIn db.isVar (hypsOf db i) t → τ t = σ t) ∧
        newMsgs st st' = disjMsgs db.toToks (db.stmt proved).reqDisj (db.stmt proved).optDisj
          st.math.length (db.stmt i).reqDisj σ) ∨
    (∃ σ τ, Unifies db.isVar σ (hypsOf db i) (argsOf st (hypsOf db i).length) ∧
        Unifies db.isVar τ (hypsOf db i) (argsOf st (hypsOf db i).length) ∧
        (∃ t, VarIn db.isVar (hypsOf db i) t ∧ σ t ≠ τ t) ∧
        newMsgs st st' = disjMsgs db.toToks (db.stmt proved).reqDisj (db.stmt proved).optDisj
          st.math.length (db.stmt i).reqDisj σ ++
            [.notUnique st.math.length (subst db.isVar σ (db.stmt i).math)
              (subst db.isVar τ (db.stmt i).math)]) := by
  have hst := step_stack hk hv
  rw [verifyStep_ass hk, if_neg (by omega)] at hv
  have hl := argsOf_length hst
  have hspec := hg.assign hs (argsOf_sepFree hf (hypsOf db i).length) hl.symm proved st.math.length false st.ec
  rw [schemeHyps_known hl.symm (by rintro x hx rfl; exact hkn hx), any_nil_iff.mpr hkn] at hv
  generalize assignVar db _ _ i proved st.math.length false st.ec = r at hspec hv
  rw [hec] at hspec
  cases hspec with
  | noneFits h3 =>
    simp only [Out.bind_val, Out.val.injEq] at hv
    subst hv
    exact Or.inl ⟨h3, by rw [newMsgs_append]; simp [gate], by simp⟩
  | one σ h3 h4 h5 =>
    simp only [Out.bind_val, Out.val.injEq] at hv
    subst hv
    exact Or.inr (Or.inl ⟨σ, h3, h5, by rw [newMsgs_append]; simp [gate]⟩)
  | many σ τ h3 h4 h5 h6 =>
    simp only [Out.bind_val, Out.val.injEq] at hv
    subst hv
    obtain ⟨t, ht, hne⟩ := h6
    exact Or.inr (Or.inr ⟨σ, τ, h3, h4, ⟨t, ht, fun e => hne e.symm⟩, by
      rw [newMsgs_append]; simp [gate]⟩)
  | bug2110 h3 => cases hv

theorem noUnify_notMem_disjMsgs {T : Toks} {R O req σ step a b} :
    Msg.noUnify a b ∉ disjMsgs T R O step req σ := by
  intro h
  obtain ⟨_, _, _, _, h, _⟩ := mem_disjMsgs.mp h
  cases h

theorem notUnique_notMem_disjMsgs {T : Toks} {R O req σ step a b c} :
    Msg.notUnique a b c ∉ disjMsgs T R O step req σ := by
  intro h
  obtain ⟨_, _, _, _, h, _⟩ := mem_disjMsgs.mp h
  cases h

/-- **C02**.  With all hypothesis steps known and no earlier error in this proof, a step prints "cannot be
unified" exactly when no substitution turns the mandatory hypotheses into the formulas on the
stack (and then `verifyProof`'s return code becomes 2). -/
theorem C02_cannot_unify_iff {db : Db} {proved n : Nat} {st st' : VState} {i : Nat}
    (hs : db.isVar db.sep = false) (hk : (db.stmt i).kind = .a ∨ (db.stmt i).kind = .p)
    (hg : GoodFrame db i) (hf : SepFree db.sep st.math) (hec : st.ec = 0)
    (hkn : [] ∉ argsOf st (hypsOf db i).length)
    (hv : verifyStep db proved n st (i : Int) = .val st') :
    Msg.noUnify st.math.length i ∈ newMsgs st st' ↔
      ¬ ∃ σ, Unifies db.isVar σ (hypsOf db i) (argsOf st (hypsOf db i).length) := by
  rcases step_known_cases hs hk hg hf hec hkn hv with ⟨h1, h2, _⟩ | ⟨σ, h1, _, h2⟩ | ⟨σ, τ, h1, _, _, h2⟩
  · rw [h2]; simp [h1]
  · rw [h2]; simp [noUnify_notMem_disjMsgs]; exact ⟨σ, h1⟩
  · rw [h2]; simp [noUnify_notMem_disjMsgs]; exact ⟨σ, h1⟩

/-- **C02**, with unknown hypothesis steps: the message is printed only if the known hypotheses have no
unifier. -/
theorem C02_cannot_unify_unknown {db : Db} {proved n : Nat} {st st' : VState} {i : Nat}
    (hs : db.isVar db.sep = false) (hk : (db.stmt i).kind = .a ∨ (db.stmt i).kind = .p)
    (hg : GoodFrame db i) (hf : SepFree db.sep st.math)
    (hv : verifyStep db proved n st (i : Int) = .val st')
    (hm : Msg.noUnify st.math.length i ∈ newMsgs st st') (σ : Nat → List Nat) :
    ¬ UnifiesKnown db.isVar σ (hypsOf db i) (argsOf st (hypsOf db i).length) := by
  have hst := step_stack hk hv
  rw [verifyStep_ass hk, if_neg (by omega)] at hv
  have hl := argsOf_length hst
  have hspec := hg.assignUnk hs (argsOf_sepFree hf (hypsOf db i).length) hl.symm proved st.math.length st.ec
  have hsc := fun σ => unifies_schemeHyps (isVar := db.isVar) (σ := σ) hl.symm
  generalize (argsOf st (hypsOf db i).length).any (fun i => i = []) = u at hspec hv
  generalize hr : assignVar db _ _ i proved st.math.length u st.ec = r at hspec hv
  rcases hspec with ⟨_, h2⟩ | ⟨_, h2⟩
  · rw [h2] at hv
    simp only [Out.bind_val, Out.val.injEq] at hv
    subst hv
    simp [newMsgs] at hm
  · cases h2 with
    | noneFits h3 => intro h; exact h3 σ ((hsc σ).mpr h)
    | one σ h3 =>
      simp only [Out.bind_val, Out.val.injEq] at hv
      subst hv
      rw [newMsgs_append] at hm
      unfold gate at hm
      split at hm
      · exact absurd hm noUnify_notMem_disjMsgs
      · simp at hm
    | many σ τ h3 h4 =>
      simp only [Out.bind_val, Out.val.injEq] at hv
      subst hv
      rw [newMsgs_append] at hm
      unfold gate at hm
      split at hm <;> split at hm <;> simp [noUnify_notMem_disjMsgs] at hm
    | bug2110 h3 => cases hv

/-- **C03**.  A step prints "the unification is not unique" exactly when two substitutions that differ on
a variable of the mandatory hypotheses both match. -/
theorem C03_not_unique_iff {db : Db} {proved n : Nat} {st st' : VState} {i : Nat}
    (hs : db.isVar db.sep = false) (hk : (db.stmt i).kind = .a ∨ (db.stmt i).kind = .p)
    (hg : GoodFrame db i) (hf : SepFree db.sep st.math) (hec : st.ec = 0)
    (hkn : [] ∉ argsOf st (hypsOf db i).length)
    (hv : verifyStep db proved n st (i : Int) = .val st') :
    (∃ r r', Msg.notUnique st.math.length r r' ∈ newMsgs st st') ↔
      ∃ σ τ, Unifies db.isVar σ (hypsOf db i) (argsOf st (hypsOf db i).length) ∧
        Unifies db.isVar τ (hypsOf db i) (argsOf st (hypsOf db i).length) ∧
        ∃ t, VarIn db.isVar (hypsOf db i) t ∧ σ t ≠ τ t := by
  rcases step_known_cases hs hk hg hf hec hkn hv with ⟨h1, h2, _⟩ | ⟨σ, h1, h3, h2⟩ | ⟨σ, τ, h1, h3, h4, h2⟩
  · rw [h2]; simp
    intro σ h; exact absurd h (h1 σ)
  · rw [h2]
    constructor
    · rintro ⟨_, _, h⟩; exact absurd h notUnique_notMem_disjMsgs
    · rintro ⟨a, b, ha, hb, t, ht, hne⟩
      exact absurd ((h3 a ha t ht).trans (h3 b hb t ht).symm) hne
  · rw [h2]
    exact ⟨fun _ => ⟨σ, τ, h1, h3, h4⟩, fun _ => ⟨_, _, List.mem_append_right _ (List.mem_singleton_self _)⟩⟩

/-- **C03**, second half.  It is never printed for an assertion all of whose variables are introduced by
`$f` hypotheses. -/
theorem C03_never_ambiguous_with_f {db : Db} {proved n : Nat} {st st' : VState} {i : Nat}
    (hs : db.isVar db.sep = false) (hk : (db.stmt i).kind = .a ∨ (db.stmt i).kind = .p)
    (hg : GoodAss db i) (hf : SepFree db.sep st.math)
    (hv : verifyStep db proved n st (i : Int) = .val st') (r r' : List Nat) :
    Msg.notUnique st.math.length r r' ∉ newMsgs st st' := by
  intro hm
  have hst := step_stack hk hv
  rw [verifyStep_ass hk, if_neg (by omega)] at hv
  have hl := argsOf_length hst
  have hspec := hg.toGoodFrame.assignUnk hs (argsOf_sepFree hf (hypsOf db i).length) hl.symm proved
    st.math.length st.ec
  generalize hu : (argsOf st (hypsOf db i).length).any (fun i => i = []) = u at hspec hv
  generalize hr : assignVar db _ _ i proved st.math.length u st.ec = r at hspec hv
  rcases hspec with ⟨_, h2⟩ | ⟨_, h2⟩
  · rw [h2] at hv
    simp only [Out.bind_val, Out.val.injEq] at hv
    subst hv
    simp [newMsgs] at hm
  · cases h2 with
    | noneFits h3 =>
      simp only [Out.bind_val, Out.val.injEq] at hv
      subst hv
      rw [newMsgs_append] at hm
      unfold gate at hm
      split at hm <;> simp at hm
    | one σ h3 =>
      simp only [Out.bind_val, Out.val.injEq] at hv
      subst hv
      rw [newMsgs_append] at hm
      unfold gate at hm
      split at hm
      · exact absurd hm notUnique_notMem_disjMsgs
      · simp at hm
    | many σ τ h3 h4 h5 h6 =>
      cases u with
      | true =>
        simp only [Out.bind_val, Out.val.injEq] at hv
        subst hv
        rw [newMsgs_append] at hm
        unfold gate at hm
        simp at hm
        exact absurd hm.2 notUnique_notMem_disjMsgs
      | false =>
        rw [schemeHyps_known hl.symm (by rintro x hx rfl; exact any_nil_iff.mp hu hx)] at h3 h4 h6
        obtain ⟨t, ht, hne⟩ := h6
        exact hne (hg.fdisc.unique h4 h3 t ht)
    | bug2110 h3 => cases hv

/-- **C04**.  The matching loop of `assignVar` terminates from its initial state: there is a number of
iterations from which on the result no longer depends on the bound.  (`Pre`: both strings end with
the separator constant and contain it equally often, which `verifyProof` ensures.) -/
theorem C04_matching_terminates {c : Ctx} (hc : Pre c) :
    ∃ N, ∀ n, N ≤ n → scan c n Scan.init = scan c N Scan.init ∧ scan c n Scan.init ≠ .fuel := by
  refine ⟨meas c Scan.init + 1, fun n hn => ?_⟩
  have key : ∀ n (s : Scan), Inv c s → meas c s < n → scan c n s ≠ .fuel ∧
      ∀ m, n ≤ m → scan c m s = scan c n s := by
    intro n
    induction n with
    | zero => intro s _ h; omega
    | succ n ih =>
      intro s hi hm
      have hs := scanStep_spec hc hi
      unfold scan
      cases hst : scanStep c s with
      | cont s' =>
        rw [hst] at hs
        dsimp only at hs ⊢
        obtain ⟨h1, h2⟩ := ih s' hs.1 (by omega)
        refine ⟨h1, fun m hm => ?_⟩
        cases m with
        | zero => omega
        | succ m => dsimp only [scan]; rw [hst]; exact h2 m (by omega)
      | _ =>
        refine ⟨by simp, fun m hm => ?_⟩
        cases m with
        | zero => omega
        | succ m => dsimp only [scan]; rw [hst]
  obtain ⟨h1, h2⟩ := key _ _ (inv_init hc) (Nat.lt_succ_self _)
  exact ⟨h2 n hn, by rw [h2 n hn]; exact h1⟩

/-- **C04**, for a whole assertion step including the second run for the uniqueness check: the iteration
bound of the model is never the reason for stopping. -/
theorem C04_step_terminates {db : Db} {proved n : Nat} {st : VState} {i : Nat}
    (hs : db.isVar db.sep = false) (hk : (db.stmt i).kind = .a ∨ (db.stmt i).kind = .p)
    (hg : GoodFrame db i) (hf : SepFree db.sep st.math) :
    verifyStep db proved n st (i : Int) ≠ .fuel := by
  rw [verifyStep_ass hk]
  split
  · simp
  · rename_i hst
    have hl := argsOf_length (m := (hypsOf db i).length) (st := st) (by omega)
    have hspec := hg.assignUnk hs (argsOf_sepFree hf (hypsOf db i).length) hl.symm proved st.math.length st.ec
    rcases hspec with ⟨_, h2⟩ | ⟨_, h2⟩
    · rw [h2]; simp
    · generalize assignVar db _ _ i proved st.math.length _ st.ec = r at h2
      cases h2 <;> simp

/-- **C05**.  For an accepted assertion and a stack that is deep enough, the step neither reads outside an
array nor calls `bug`, except that bug 2110 is possible; and even that not when all hypotheses are known. -/
theorem C05_step_safe_partial {db : Db} {proved n : Nat} {st : VState} {i : Nat}
    (hs : db.isVar db.sep = false) (hk : (db.stmt i).kind = .a ∨ (db.stmt i).kind = .p)
    (hg : GoodAss db i) (hf : SepFree db.sep st.math) (hst : (hypsOf db i).length ≤ st.stack.length) :
    (∃ st', verifyStep db proved n st (i : Int) = .val st') ∨
    (verifyStep db proved n st (i : Int) = .bug 2110 ∧ [] ∈ argsOf st (hypsOf db i).length) := by
  rw [verifyStep_ass hk, if_neg (by omega)]
  have hl := argsOf_length hst
  have hspec := hg.toGoodFrame.assignUnk hs (argsOf_sepFree hf (hypsOf db i).length) hl.symm proved
    st.math.length st.ec
  generalize hu : (argsOf st (hypsOf db i).length).any (fun i => i = []) = u at hspec
  rcases hspec with ⟨_, h2⟩ | ⟨_, h2⟩
  · rw [h2]; exact Or.inl ⟨_, rfl⟩
  · generalize hr : assignVar db _ _ i proved st.math.length u st.ec = r at h2
    cases h2 with
    | bug2110 h3 =>
      right
      refine ⟨rfl, ?_⟩
      by_contra hcon
      rw [schemeHyps_known hl.symm (by rintro x hx rfl; exact hcon hx)] at h3
      exact h3 hg.fdisc.lastOne
    | _ => exact Or.inl ⟨_, rfl⟩

/-- **C06**.  With all hypotheses known and no earlier error, a step that cites an accepted assertion reports a
disjoint-variable violation between `a` and `b`, for the assertion's `$d` pair `x y`, exactly when the
substitution that unifies the hypotheses puts `a` into `x` and `b` into `y` and `a`, `b` are the same
variable or not declared disjoint in the statement being proved. -/
theorem C06_disjoint_violation_iff {db : Db} {proved n : Nat} {st st' : VState} {i : Nat}
    (hs : db.isVar db.sep = false) (hk : (db.stmt i).kind = .a ∨ (db.stmt i).kind = .p)
    (hg : GoodAss db i) (hf : SepFree db.sep st.math) (hec : st.ec = 0)
    (hkn : [] ∉ argsOf st (hypsOf db i).length) (hord : DvOrdered db proved)
    (hv : verifyStep db proved n st (i : Int) = .val st') (x y a b : Nat) :
    Msg.disj st.math.length x y a b ∈ newMsgs st st' ↔
      ∃ σ, Unifies db.isVar σ (hypsOf db i) (argsOf st (hypsOf db i).length) ∧
        DisjViolation db.isVar σ (db.stmt i).reqDisj (Declared db proved) x y a b := by
  have hviol : ∀ σ, DisjViolation db.isVar σ (db.stmt i).reqDisj
      (Covered (db.stmt proved).reqDisj (db.stmt proved).optDisj) x y a b ↔
      DisjViolation db.isVar σ (db.stmt i).reqDisj (Declared db proved) x y a b := by
    intro σ
    unfold DisjViolation
    by_cases hab : a = b
    · simp [hab]
    · simp [hab, covered_iff_declared hord hab]
  rcases step_known_cases hs hk hg.toGoodFrame hf hec hkn hv with ⟨h1, h2, _⟩ | ⟨σ, h1, h3, h2⟩ |
    ⟨σ, τ, h1, h3, ⟨t, ht, hne⟩, h2⟩
  · rw [h2]; simp
    intro σ h; exact absurd h (h1 σ)
  · rw [h2, mem_disjMsgs]
    constructor
    · rintro ⟨x', y', a', b', he, hd⟩
      simp only [Msg.disj.injEq, true_and] at he
      obtain ⟨rfl, rfl, rfl, rfl⟩ := he
      exact ⟨σ, h1, (hviol σ).mp hd⟩
    · rintro ⟨τ, ht, hd⟩
      refine ⟨x, y, a, b, rfl, ?_⟩
      obtain ⟨hxy, ha, hb, hrest⟩ := (hviol τ).mpr hd
      have hx := (hg.vars x).mp (hg.disjVars _ hxy).1
      have hy := (hg.vars y).mp (hg.disjVars _ hxy).2
      rw [h3 τ ht x hx] at ha
      rw [h3 τ ht y hy] at hb
      exact ⟨hxy, ha, hb, hrest⟩
  · exact absurd (hg.fdisc.unique h1 h3 t ht) hne

/-! ## Whole proofs -/

/-- The strings a proof of `proved` may use as hypotheses: its mandatory and optional hypotheses. -/
def IsHyp (db : Db) (proved : Nat) (e : List Nat) : Prop :=
  ∃ k ∈ (db.stmt proved).reqHyp ++ (db.stmt proved).optHyp, e = (db.stmt k).math

/-- The assertions (with their frames) preceding statement `proved`. -/
def Precedes (db : Db) (proved : Nat) (A : Assertion) : Prop :=
  ∃ i < proved, ((db.stmt i).kind = .a ∨ (db.stmt i).kind = .p) ∧
    A = ⟨(db.stmt i).reqDisj, (db.stmt i).reqHyp.map (fun k => (db.stmt k).math), (db.stmt i).math⟩

/-- What `parseProof` guarantees of the proof string of `proved` when it reports no error (C11): a reference is to
an active hypothesis or to an earlier assertion. -/
def LegalRefs (db : Db) (proved : Nat) (proof : List Int) : Prop :=
  ∀ ps ∈ proof, 0 ≤ ps →
    (ps.toNat ∈ (db.stmt proved).reqHyp ++ (db.stmt proved).optHyp ∧
      ((db.stmt ps.toNat).kind = .e ∨ (db.stmt ps.toNat).kind = .f)) ∨
    (ps.toNat < proved ∧ ((db.stmt ps.toNat).kind = .a ∨ (db.stmt ps.toNat).kind = .p))

theorem DvOk.mono {isVar : Nat → Bool} {d d' : Nat → Nat → Prop} {A σ}
    (h : ∀ a b, a ≠ b → d a b → d' a b) (hd : DvOk isVar d A σ) : DvOk isVar d' A σ :=
  fun x y hxy a ha b hb va vb =>
    let ⟨h1, h2⟩ := hd x y hxy a ha b hb va vb
    ⟨h1, h a b h1 h2⟩

theorem RPN.mono {isVar : Nat → Bool} {d d' : Nat → Nat → Prop} (h : ∀ a b, a ≠ b → d a b → d' a b)
    {steps hist stack} (hr : RPN isVar d steps hist stack) : RPN isVar d' steps hist stack := by
  induction hr with
  | nil => exact .nil
  | hyp e _ ih => exact .hyp e ih
  | back i e _ hi ih => exact .back i e ih hi
  | use A σ _ hdv ih => exact .use A σ ih (DvOk.mono h hdv)

theorem proves_declared {db : Db} {proved : Nat} (hord : DvOrdered db proved) {steps f} :
    Proves db.isVar (dvOf db proved) steps f ↔ Proves db.isVar (Declared db proved) steps f := by
  constructor
  · rintro ⟨hist, h⟩
    exact ⟨hist, RPN.mono (fun a b hab hc => (covered_iff_declared hord hab).mp hc) h⟩
  · rintro ⟨hist, h⟩
    exact ⟨hist, RPN.mono (fun a b hab hc => (covered_iff_declared hord hab).mpr hc) h⟩

/-- **C07** (soundness of `verifyProof`).  If the verifier returns 0 and prints nothing, the statement is
derivable, in the sense of the Metamath specification, from its own hypotheses and the
assertions preceding it, respecting the `$d` conditions. -/
theorem C07_verified_is_derivable {db : Db} (hs : db.isVar db.sep = false) {proved : Nat} {proof : List Int}
    {sev : Nat} (hp : (db.stmt proved).kind = .p) (hsev : sev ≤ 2) (hord : DvOrdered db proved)
    (hg : ∀ ps ∈ proof, GoodRef db ps) (hb : BackOk 0 proof) (hlegal : LegalRefs db proved proof)
    {out : VerifyOut} (hv : verifyProof db proved proof sev 0 = .val out) (hret : out.ret = 0)
    (hmsgs : out.msgs = []) :
    Derivable db.isVar (IsHyp db proved) (Precedes db proved) (Declared db proved) (db.stmt proved).math := by
  have hne : proof ≠ [] := by
    rintro rfl
    unfold verifyProof at hv
    rw [if_neg (by simp [hp]), if_neg (by omega), if_pos List.length_nil] at hv
    cases hv; cases hret
  obtain ⟨steps, hd, hpr⟩ := (verify_iff hs hp hsev hne hg hb).mp ⟨out, hv, hret, hmsgs⟩
  rw [proves_declared hord] at hpr
  have hdec : ∀ s ∈ steps, ∃ ps ∈ proof, decode db ps = some s := by
    intro s hs'
    have : some s ∈ proof.map (decode db) := by rw [hd]; exact List.mem_map_of_mem hs'
    simpa using this
  apply hpr.derivable
  · intro e he
    obtain ⟨ps, hps, hde⟩ := hdec _ he
    obtain ⟨h1, h2, h3⟩ := decode_hyp hde
    rcases hlegal ps hps h1 with ⟨h4, h5⟩ | ⟨_, h5⟩
    · exact ⟨_, h4, h3⟩
    · rcases h2 with h2 | h2 <;> rcases h5 with h5 | h5 <;> rw [h2] at h5 <;> cases h5
  · intro A hA
    obtain ⟨ps, hps, hde⟩ := hdec _ hA
    obtain ⟨h1, h2, h3⟩ := decode_use hde
    rcases hlegal ps hps h1 with ⟨h4, h5⟩ | ⟨h4, h5⟩
    · rcases h2 with h2 | h2 <;> rcases h5 with h5 | h5 <;> rw [h2] at h5 <;> cases h5
    · exact ⟨_, h4, h5, h3⟩

/-- **C08** (completeness of `verifyProof`).  If the proof string decodes to steps that form a correct RPN
proof of the statement in the sense of the specification, the verifier returns 0 and prints nothing. -/
theorem C08_correct_is_verified {db : Db} (hs : db.isVar db.sep = false) {proved : Nat} {proof : List Int}
    {sev : Nat} (hp : (db.stmt proved).kind = .p) (hsev : sev ≤ 2) (hord : DvOrdered db proved)
    (hg : ∀ ps ∈ proof, GoodRef db ps) (hb : BackOk 0 proof)
    {steps : List Step} (hd : proof.map (decode db) = steps.map some)
    (hpr : Proves db.isVar (Declared db proved) steps (db.stmt proved).math) :
    ∃ out, verifyProof db proved proof sev 0 = .val out ∧ out.ret = 0 ∧ out.msgs = [] := by
  have hne : proof ≠ [] := by
    rintro rfl
    have : steps = [] := by simpa using hd.symm
    subst this
    obtain ⟨hist, hr⟩ := hpr
    generalize hst : [(db.stmt proved).math] = stk at hr
    generalize hsp : ([] : List Step) = sp at hr
    cases hr <;> simp at hst hsp
  exact (verify_iff hs hp hsev hne hg hb).mpr ⟨steps, hd, (proves_declared hord).mpr hpr⟩

end MM.Veri
