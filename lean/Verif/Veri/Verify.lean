import Verif.Veri.Assign
import Verif.Spec.Deriv
/-! # `verifyProof` against the specification of RPN proofs -/
namespace MM.Veri
open MM.Spec

/-- Mandatory hypotheses of statement `i`, as strings. -/
def hypsOf (db : Db) (i : Nat) : List (List Nat) := (db.stmt i).reqHyp.map fun k => (db.stmt k).math

/-- Statement `i` as an assertion of the specification. -/
def frameOf (db : Db) (i : Nat) : Assertion where
  dv := (db.stmt i).reqDisj
  hyps := hypsOf db i
  concl := (db.stmt i).math

/-- Every variable of the list is introduced by a hypothesis `[constant, variable]` (a `$f`) no later
than the hypothesis that uses it. -/
def FDiscipline (isVar : Nat → Bool) (hyps : List (List Nat)) : Prop :=
  ∀ hs h rest, hyps = hs ++ h :: rest → ∀ x ∈ h, isVar x = true →
    ∃ k, isVar k = false ∧ (h = [k, x] ∨ [k, x] ∈ hs)

/-- What READ guarantees for an assertion when it reports no error (proved of the parser
model in `Verif/Pars`). -/
structure GoodFrame (db : Db) (i : Nat) : Prop where
  hypFree : SepFree db.sep (hypsOf db i)
  hypNe : ∀ h ∈ hypsOf db i, h ≠ []
  concl : ∃ k m, (db.stmt i).math = k :: m ∧ db.isVar k = false
  mathFree : db.sep ∉ (db.stmt i).math
  varsNodup : (db.stmt i).reqVars.Nodup
  vars : ∀ t, t ∈ (db.stmt i).reqVars ↔ VarIn db.isVar (hypsOf db i) t
  mathVars : ∀ t ∈ (db.stmt i).math, db.isVar t = true → t ∈ (db.stmt i).reqVars
  disjVars : ∀ pr ∈ (db.stmt i).reqDisj, pr.1 ∈ (db.stmt i).reqVars ∧ pr.2 ∈ (db.stmt i).reqVars

/-- ... including the `$f` discipline. -/
structure GoodAss (db : Db) (i : Nat) : Prop extends GoodFrame db i where
  fdisc : FDiscipline db.isVar (hypsOf db i)

/-- Hypotheses are non-empty strings of ordinary tokens. -/
structure GoodHyp (db : Db) (i : Nat) : Prop where
  ne : (db.stmt i).math ≠ []
  free : db.sep ∉ (db.stmt i).math

/-- Decoding of one element of the proof string: `'?'` and malformed codes decode to nothing. -/
def decode (db : Db) (ps : Int) : Option Step :=
  if ps = -63 then none
  else if ps < 0 then if ps > -1000 then none else some (.back (-1000 - ps).toNat)
  else match (db.stmt ps.toNat).kind with
    | .e | .f => some (.hyp (db.stmt ps.toNat).math)
    | .a | .p => some (.use (frameOf db ps.toNat))
    | _ => none

/-- The declared disjoint pairs of the statement being proved. -/
def dvOf (db : Db) (proved : Nat) : Nat → Nat → Prop :=
  Covered (db.stmt proved).reqDisj (db.stmt proved).optDisj

theorem FDiscipline.unique {isVar : Nat → Bool} {hyps insts} (h : FDiscipline isVar hyps) {σ τ}
    (hs : Unifies isVar σ hyps insts) (ht : Unifies isVar τ hyps insts) :
    ∀ t, VarIn isVar hyps t → σ t = τ t := by
  rintro t ⟨hv, g, hg, htg⟩
  obtain ⟨A, B, rfl⟩ := List.append_of_mem hg
  obtain ⟨k, hk, hor⟩ := h A g B rfl t htg hv
  have hmem : [k, t] ∈ A ++ g :: B := by
    rcases hor with rfl | h1
    · simp
    · simp [h1]
  unfold Unifies at hs ht
  rw [← ht] at hs
  have := (List.map_inj_left.mp hs) _ hmem
  simpa [subst, hk, hv] using this

theorem FDiscipline.lastOne {isVar : Nat → Bool} {hyps} (h : FDiscipline isVar hyps) :
    LastIntroducesOne isVar hyps := by
  rintro hs g rfl x hx y hy hvx hvy hnx hny
  obtain ⟨k, hk, hor⟩ := h hs g [] rfl x hx hvx
  obtain ⟨k', hk', hor'⟩ := h hs g [] rfl y hy hvy
  have h1 : g = [k, x] := hor.resolve_right (fun hh => hnx _ hh (by simp))
  have h2 : g = [k', y] := hor'.resolve_right (fun hh => hny _ hh (by simp))
  rw [h1] at h2
  simp at h2
  exact h2.2

/-- No step is unknown: the scheme is used as it is. -/
theorem schemeHyps_known : ∀ {hyps insts : List (List Nat)}, hyps.length = insts.length →
    (∀ i ∈ insts, i ≠ []) → schemeHyps hyps insts = hyps
  | [], [], _, _ => rfl
  | h :: hs, i :: is, hl, hk => by
    rw [schemeHyps, if_neg (hk i (by simp)),
      schemeHyps_known (by simpa using hl) (fun x hx => hk x (by simp [hx]))]

theorem GoodFrame.varsLen {db : Db} {i : Nat} (h : GoodFrame db i) {insts}
    (hb : BigPre db.toToks (hypsOf db i) insts) :
    (mkCtx db.toToks (hypsOf db i) insts).vars.length = (db.stmt i).reqVars.length := by
  apply List.Perm.length_eq
  refine (List.perm_ext_iff_of_nodup (nodup_extractVars _ _) h.varsNodup).mpr ?_
  intro t
  rw [h.vars, ← mem_vars_iff hb]
  rfl

theorem GoodFrame.bigPre {db : Db} {i : Nat} (h : GoodFrame db i) (hs : db.isVar db.sep = false) {insts}
    (hf : SepFree db.sep insts) (hl : (hypsOf db i).length = insts.length) :
    BigPre db.toToks (hypsOf db i) insts := ⟨hs, h.hypFree, hf, hl⟩

/-- `assignVar` on an assertion that READ accepted, no step unknown. -/
theorem GoodFrame.assign {db : Db} {i : Nat} (h : GoodFrame db i) (hs : db.isVar db.sep = false) {insts}
    (hf : SepFree db.sep insts) (hl : (hypsOf db i).length = insts.length) (proved step : Nat)
    (unk : Bool) (ec : Nat) :
    AssignSpec db (hypsOf db i) insts i proved step unk ec
      (assignVar db (bigStr db.sep (hypsOf db i)) (bigStr db.sep insts) i proved step unk ec) := by
  have hb := h.bigPre hs hf hl
  apply assignVar_spec hb
  · exact h.varsLen hb
  · intro t ht hv; exact (h.vars t).mp (h.mathVars t ht hv)
  · intro pr hp; exact ⟨(h.vars _).mp (h.disjVars pr hp).1, (h.vars _).mp (h.disjVars pr hp).2⟩

theorem disjMsgs_nil_iff {T : Toks} {R O : List (Nat × Nat)} {step : Nat} {req : List (Nat × Nat)}
    {σ : Nat → List Nat} : disjMsgs T R O step req σ = [] ↔
      ∀ x y, (x, y) ∈ req → ∀ a ∈ σ x, ∀ b ∈ σ y, T.isVar a = true → T.isVar b = true →
        a ≠ b ∧ Covered R O a b := by
  rw [List.eq_nil_iff_forall_not_mem]
  constructor
  · intro h x y hxy a ha b hb hva hvb
    by_contra hcon
    have hcon' : a = b ∨ ¬ Covered R O a b := by
      by_contra h2; push Not at h2; exact hcon h2
    exact h (.disj step x y a b) (mem_disjMsgs.mpr ⟨x, y, a, b, rfl, hxy, ha, hb, hva, hvb, hcon'⟩)
  · intro h m hm
    obtain ⟨x, y, a, b, _, hxy, ha, hb, hva, hvb, hor⟩ := mem_disjMsgs.mp hm
    have := h x y hxy a ha b hb hva hvb
    rcases hor with e | e
    · exact this.1 e
    · exact e this.2

theorem subst_sepFree {isVar : Nat → Bool} {sep : Nat} {σ : Nat → List Nat} {m : List Nat}
    (hm : sep ∉ m) (hs : ∀ t ∈ m, isVar t = true → sep ∉ σ t) : sep ∉ subst isVar σ m := by
  intro h
  simp only [subst, List.mem_flatMap] at h
  obtain ⟨t, ht, hh⟩ := h
  split at hh
  · rename_i hv; exact hs t ht hv hh
  · simp at hh; subst hh; exact hm ht

/-- The state of the verifier after a correct prefix. -/
structure VInv (db : Db) (proved : Nat) (steps : List Step) (st : VState) (stack : List (List Nat)) : Prop where
  ret : st.ret = 0
  ec : st.ec = 0
  msgs : st.msgs = []
  rpn : RPN db.isVar (dvOf db proved) steps st.math stack
  idx : ∀ k ∈ st.stack, k < st.math.length
  stk : st.stack.map (fun k => st.math.getD k []) = stack
  ne : ∀ e ∈ st.math, e ≠ []
  free : ∀ e ∈ st.math, db.sep ∉ e

/-- Pushing one more result. -/
theorem VInv.push {db proved steps st stack} (h : VInv db proved steps st stack) {e : List Nat} {s' : Step}
    (rest : List Nat) (stack' : List (List Nat)) (hrest : ∀ k ∈ rest, k < st.math.length)
    (hrs : rest.map (fun k => st.math.getD k []) = stack')
    (hr : RPN db.isVar (dvOf db proved) (steps ++ [s']) (st.math ++ [e]) (e :: stack'))
    (hne : e ≠ []) (hf : db.sep ∉ e) (ret ec : Nat) (msgs : List Msg) (hret : ret = 0) (hec : ec = 0)
    (hmsgs : msgs = []) :
    VInv db proved (steps ++ [s']) ⟨ret, ec, msgs, st.math.length :: rest, st.math ++ [e]⟩ (e :: stack') where
  ret := hret
  ec := hec
  msgs := hmsgs
  rpn := hr
  idx := by
    intro k hk
    simp only [List.mem_cons] at hk
    simp only [List.length_append, List.length_singleton]
    rcases hk with rfl | hk
    · omega
    · have := hrest k hk; omega
  stk := by
    simp only [List.map_cons]
    congr 1
    · simp
    · rw [← hrs]
      apply List.map_congr_left
      intro k hk
      exact List.getD_append _ _ _ _ (hrest k hk)
  ne := by
    intro x hx
    simp at hx
    rcases hx with hx | rfl
    · exact h.ne x hx
    · exact hne
  free := by
    intro x hx
    simp at hx
    rcases hx with hx | rfl
    · exact h.free x hx
    · exact hf

/-- The requirements on the statements a proof string refers to. -/
def GoodRef (db : Db) (ps : Int) : Prop :=
  0 ≤ ps → match (db.stmt ps.toNat).kind with
    | .e | .f => GoodHyp db ps.toNat
    | .a | .p => GoodAss db ps.toNat
    | _ => True

theorem getElem?_getD {l : List (List Nat)} {i : Nat} {e : List Nat} (h : l[i]? = some e) :
    l.getD i [] = e := by
  simp [List.getD, h]

/-- Anything can be said about a step: if the verifier is still clean afterwards, the step was
correct. -/
theorem step_sound {db : Db} (hs : db.isVar db.sep = false) {proved n : Nat} {steps st stack}
    (h : VInv db proved steps st stack) {ps : Int} (hg : GoodRef db ps) {st' : VState}
    (hst : verifyStep db proved n st ps = .val st') (hret : st'.ret = 0) (hmsgs : st'.msgs = [])
    (hback : ps ≤ -1000 → (-1000 - ps).toNat < st.math.length) :
    ∃ s' stack', decode db ps = some s' ∧ VInv db proved (steps ++ [s']) st' stack' := by
  unfold verifyStep at hst
  dsimp only at hst
  by_cases h63 : ps = -63
  · rw [if_pos h63] at hst
    simp only [Out.val.injEq] at hst
    subst hst
    simp at hret
  rw [if_neg h63] at hst
  by_cases hneg : ps < 0
  · rw [if_pos hneg] at hst
    by_cases h1000 : ps > -1000
    · rw [if_pos h1000] at hst; cases hst
    rw [if_neg h1000] at hst
    split at hst
    · simp only [Out.val.injEq] at hst
      have hb := hback (by omega)
      refine ⟨.back (-1000 - ps).toNat, st.math.getD (-1000 - ps).toNat [] :: stack, ?_, ?_⟩
      · unfold decode; rw [if_neg h63, if_pos hneg, if_neg h1000]
      · subst hst
        have hget : st.math[(-1000 - ps).toNat]? = some (st.math.getD (-1000 - ps).toNat []) := by
          rw [List.getD_eq_getElem _ _ hb, List.getElem?_eq_getElem hb]
        exact h.push st.stack stack h.idx h.stk (.back _ _ h.rpn hget) (h.ne _ (List.mem_of_getElem? hget))
          (h.free _ (List.mem_of_getElem? hget)) _ _ _ h.ret h.ec h.msgs
    · cases hst
  · rw [if_neg hneg] at hst
    have hpos : 0 ≤ ps := by omega
    have hg' := hg hpos
    have hdec : decode db ps = match (db.stmt ps.toNat).kind with
        | .e | .f => some (.hyp (db.stmt ps.toNat).math)
        | .a | .p => some (.use (frameOf db ps.toNat))
        | _ => none := by
      unfold decode; rw [if_neg h63, if_neg hneg]
    have hhyp : (db.stmt ps.toNat).kind = .e ∨ (db.stmt ps.toNat).kind = .f →
        ∃ s' stack', decode db ps = some s' ∧ VInv db proved (steps ++ [s']) st' stack' := by
      intro hk
      have hgh : GoodHyp db ps.toNat := by
        rcases hk with hk | hk <;> rw [hk] at hg' <;> exact hg'
      have hst2 : st' = { st with stack := st.math.length :: st.stack, math := st.math ++ [(db.stmt ps.toNat).math] } := by
        rcases hk with hk | hk <;> rw [hk] at hst <;> exact (Out.val.inj hst).symm
      refine ⟨.hyp (db.stmt ps.toNat).math, (db.stmt ps.toNat).math :: stack, ?_, ?_⟩
      · rw [hdec]; rcases hk with hk | hk <;> rw [hk]
      · subst hst2
        exact h.push st.stack stack h.idx h.stk (.hyp _ h.rpn) hgh.ne hgh.free _ _ _ h.ret h.ec h.msgs
    have hass : (db.stmt ps.toNat).kind = .a ∨ (db.stmt ps.toNat).kind = .p →
        ∃ s' stack', decode db ps = some s' ∧ VInv db proved (steps ++ [s']) st' stack' := by
      intro hk
      have hga : GoodAss db ps.toNat := by
        rcases hk with hk | hk <;> rw [hk] at hg' <;> exact hg'
      set A := db.stmt ps.toNat with hA
      set m := A.reqHyp.length with hm
      set insts := (st.stack.take m).reverse.map (fun k => st.math.getD k []) with hinsts
      have hst2 : (if m > st.stack.length then (.ub : Out VState) else do
          let r ← assignVar db (bigStr db.sep (schemeHyps (hypsOf db ps.toNat) insts)) (bigStr db.sep insts)
                  ps.toNat proved st.math.length (insts.any (fun i => i = [])) st.ec
          .val { ret := if r.result = [] ∧ insts.any (fun i => i = []) = false then 2 else st.ret
                 ec := r.ec
                 msgs := st.msgs ++ r.msgs
                 stack := st.math.length :: st.stack.drop m
                 math := st.math ++ [r.result] }) = .val st' := by
        rcases hk with hk | hk <;> rw [hk] at hst <;> exact hst
      by_cases hun : m > st.stack.length
      · rw [if_pos hun] at hst2; cases hst2
      rw [if_neg hun] at hst2
      have hlen : (hypsOf db ps.toNat).length = insts.length := by
        simp [hypsOf, hinsts, ← hA, ← hm]; omega
      have hmem : ∀ i ∈ insts, i ∈ st.math := by
        intro i hi
        obtain ⟨k, hk1, rfl⟩ := List.mem_map.mp hi
        have hk2 := h.idx k (List.mem_of_mem_take (List.mem_reverse.mp hk1))
        rw [List.getD_eq_getElem _ _ hk2]; exact List.getElem_mem hk2
      have hknown : ∀ i ∈ insts, i ≠ [] := fun i hi => h.ne i (hmem i hi)
      have hunk : insts.any (fun i => i = []) = false := by
        rw [List.any_eq_false]; intro i hi; simpa using hknown i hi
      rw [schemeHyps_known hlen hknown, hunk, h.ec] at hst2
      have hspec := hga.assign hs (insts := insts) (fun i hi => h.free i (hmem i hi)) hlen proved
        st.math.length false 0
      generalize assignVar db (bigStr db.sep (hypsOf db ps.toNat)) (bigStr db.sep insts) ps.toNat proved
        st.math.length false 0 = o at hst2 hspec
      cases hspec with
      | noneFits hno =>
        simp only [Out.bind_val, Out.val.injEq] at hst2
        subst hst2
        simp [gate] at hmsgs
      | many σ τ _ _ _ _ =>
        simp only [Out.bind_val, Out.val.injEq] at hst2
        subst hst2
        simp [gate] at hmsgs
      | bug2110 _ => cases hst2
      | one σ hu hsf hun2 =>
        simp only [Out.bind_val, Out.val.injEq] at hst2
        have hdm : disjMsgs db.toToks (db.stmt proved).reqDisj (db.stmt proved).optDisj st.math.length
            A.reqDisj σ = [] := by
          subst hst2
          simp [gate] at hmsgs
          exact hmsgs.2
        rw [disjMsgs_nil_iff] at hdm
        refine ⟨.use (frameOf db ps.toNat), subst db.isVar σ A.math :: (st.stack.drop m).map (fun k => st.math.getD k []), ?_, ?_⟩
        · rw [hdec]; rcases hk with hk | hk <;> rw [hk]
        · obtain ⟨k0, m0, hkm, hk0⟩ := hga.concl
          have hne : subst db.isVar σ A.math ≠ [] := by
            rw [hA, hkm, subst_cons]; simp [hk0]
          have hfree : db.sep ∉ subst db.isVar σ A.math :=
            subst_sepFree hga.mathFree
              (fun t ht hv => hsf t ((hga.vars t).mp (hga.mathVars t ht hv)))
          have hstk : stack = ((frameOf db ps.toNat).hyps.map (subst db.isVar σ)).reverse ++
              (st.stack.drop m).map (fun k => st.math.getD k []) := by
            have hu' : (hypsOf db ps.toNat).map (subst db.isVar σ) = insts := hu
            show stack = ((hypsOf db ps.toNat).map (subst db.isVar σ)).reverse ++ _
            rw [hu', hinsts, ← List.map_reverse, List.reverse_reverse, ← List.map_append,
              List.take_append_drop, h.stk]
          have hrpn := h.rpn
          rw [hstk] at hrpn
          subst hst2
          refine h.push (st.stack.drop m) _ (fun k hk => h.idx k (List.mem_of_mem_drop hk)) rfl
            (.use (frameOf db ps.toNat) σ hrpn hdm) hne hfree _ _ _ ?_ rfl hmsgs
          simp only [and_true]
          rw [if_neg hne]; exact h.ret
    cases hk : (db.stmt ps.toNat).kind with
    | e => exact hhyp (Or.inl hk)
    | f => exact hhyp (Or.inr hk)
    | a => exact hass (Or.inl hk)
    | p => exact hass (Or.inr hk)
    | c => rw [hk] at hst; cases hst
    | v => rw [hk] at hst; cases hst
    | d => rw [hk] at hst; cases hst
    | lb => rw [hk] at hst; cases hst
    | rb => rw [hk] at hst; cases hst
    | none => rw [hk] at hst; cases hst

/-- The return code and the messages only accumulate. -/
theorem step_mono {db : Db} {proved n : Nat} {st st' : VState} {ps : Int}
    (hst : verifyStep db proved n st ps = .val st') :
    (st'.ret = 0 → st.ret = 0) ∧ (∃ m, st'.msgs = st.msgs ++ m) ∧
      st'.math.length = st.math.length + 1 := by
  unfold verifyStep at hst
  dsimp only at hst
  split at hst
  · cases hst
    exact ⟨fun h => by simp at h, ⟨[], by simp⟩, by simp⟩
  split at hst
  · split at hst
    · cases hst
    split at hst
    · cases hst; exact ⟨fun h => h, ⟨[], by simp⟩, by simp⟩
    · cases hst
  split at hst
  · cases hst; exact ⟨fun h => h, ⟨[], by simp⟩, by simp⟩
  · cases hst; exact ⟨fun h => h, ⟨[], by simp⟩, by simp⟩
  all_goals first
    | (split at hst
       · cases hst
       · rename_i hn
         revert hst
         generalize assignVar db _ _ _ _ _ _ _ = o
         intro hst
         cases o with
         | val r =>
           simp only [Out.bind_val, Out.val.injEq] at hst
           subst hst
           refine ⟨?_, ⟨_, rfl⟩, by simp⟩
           intro h
           dsimp only at h
           split at h
           · cases h
           · exact h
         | ub => cases hst
         | bug k => cases hst
         | fuel => cases hst)
    | cases hst

theorem steps_mono {db : Db} {proved n : Nat} : ∀ {proof : List Int} {st st' : VState},
    verifySteps db proved n proof st = .val st' →
    (st'.ret = 0 → st.ret = 0) ∧ (∃ m, st'.msgs = st.msgs ++ m)
  | [], st, st', h => by
    cases h; exact ⟨fun h => h, [], by simp⟩
  | p :: ps, st, st', h => by
    unfold verifySteps at h
    cases hs : verifyStep db proved n st p with
    | val s1 =>
      rw [hs] at h
      obtain ⟨h1, ⟨m1, h2⟩, _⟩ := step_mono hs
      obtain ⟨h3, ⟨m2, h4⟩⟩ := steps_mono (proof := ps) h
      exact ⟨fun hh => h1 (h3 hh), m1 ++ m2, by rw [h4, h2, List.append_assoc]⟩
    | ub => rw [hs] at h; cases h
    | bug k => rw [hs] at h; cases h
    | fuel => rw [hs] at h; cases h

/-- Local references point to earlier steps (checked by `parseProof`). `off` is the number
of the first step of the list. -/
def BackOk : Nat → List Int → Prop
  | _, [] => True
  | off, ps :: rest => (ps ≤ -1000 → (-1000 - ps).toNat < off) ∧ BackOk (off + 1) rest

theorem steps_sound {db : Db} (hs : db.isVar db.sep = false) {proved n : Nat} :
    ∀ {proof : List Int} {steps st stack}, VInv db proved steps st stack →
    (∀ ps ∈ proof, GoodRef db ps) → BackOk st.math.length proof →
    ∀ {st' : VState}, verifySteps db proved n proof st = .val st' → st'.ret = 0 → st'.msgs = [] →
    ∃ more stack', proof.map (decode db) = more.map some ∧
      VInv db proved (steps ++ more) st' stack'
  | [], steps, st, stack, h, _, _, st', hst, _, _ => by
    cases hst; exact ⟨[], stack, rfl, by simpa using h⟩
  | p :: ps, steps, st, stack, h, hg, hb, st', hst, hret, hmsgs => by
    unfold verifySteps at hst
    cases hs1 : verifyStep db proved n st p with
    | val s1 =>
      rw [hs1] at hst
      dsimp only [Out.bind_val] at hst
      obtain ⟨h3, ⟨m2, h4⟩⟩ := steps_mono (proof := ps) hst
      have hm1 : s1.msgs = [] := by
        rw [hmsgs] at h4; exact (List.append_eq_nil_iff.mp h4.symm).1
      obtain ⟨s', stack', hd, hv⟩ := step_sound hs h (hg p (by simp)) hs1 (h3 hret) hm1 hb.1
      have hlen := (step_mono hs1).2.2
      obtain ⟨more, stack'', hd2, hv2⟩ := steps_sound hs hv (fun q hq => hg q (by simp [hq]))
        (by rw [hlen]; exact hb.2) hst hret hmsgs
      exact ⟨s' :: more, stack'', by simp [hd, hd2], by simpa using hv2⟩
    | ub => rw [hs1] at hst; cases hst
    | bug k => rw [hs1] at hst; cases hst
    | fuel => rw [hs1] at hst; cases hst

theorem rpn_len {isVar dv steps hist stack} (h : RPN isVar dv steps hist stack) :
    hist.length = steps.length := by
  induction h <;> simp_all

theorem verifySteps_append {db : Db} {proved n : Nat} : ∀ {a b : List Int} {st : VState},
    verifySteps db proved n (a ++ b) st =
      (verifySteps db proved n a st >>= verifySteps db proved n b)
  | [], b, st => rfl
  | x :: a, b, st => by
    simp only [List.cons_append, verifySteps]
    cases verifyStep db proved n st x with
    | val s1 => simp only [Out.bind_val]; exact verifySteps_append
    | ub => rfl
    | bug k => rfl
    | fuel => rfl

theorem decode_hyp {db : Db} {ps : Int} {e} (h : decode db ps = some (.hyp e)) :
    0 ≤ ps ∧ ((db.stmt ps.toNat).kind = .e ∨ (db.stmt ps.toNat).kind = .f) ∧
      e = (db.stmt ps.toNat).math := by
  unfold decode at h
  split at h
  · cases h
  split at h
  · split at h <;> cases h
  split at h <;> simp at h
  · rename_i hk; exact ⟨by omega, Or.inl hk, h.symm⟩
  · rename_i hk; exact ⟨by omega, Or.inr hk, h.symm⟩

theorem decode_use {db : Db} {ps : Int} {A} (h : decode db ps = some (.use A)) :
    0 ≤ ps ∧ ((db.stmt ps.toNat).kind = .a ∨ (db.stmt ps.toNat).kind = .p) ∧
      A = frameOf db ps.toNat := by
  unfold decode at h
  split at h
  · cases h
  split at h
  · split at h <;> cases h
  split at h <;> simp at h
  · rename_i hk; exact ⟨by omega, Or.inl hk, h.symm⟩
  · rename_i hk; exact ⟨by omega, Or.inr hk, h.symm⟩

theorem decode_back {db : Db} {ps : Int} {i} (h : decode db ps = some (.back i)) :
    ps ≤ -1000 ∧ i = (-1000 - ps).toNat := by
  unfold decode at h
  split at h
  · cases h
  split at h
  · split at h
    · cases h
    · simp at h; exact ⟨by omega, h.symm⟩
  split at h <;> simp at h

/-- A correct assertion step is accepted. -/
theorem use_complete {db : Db} (hs : db.isVar db.sep = false) {proved n : Nat} {steps st stack}
    {ps : Int} {σ : Nat → List Nat} (hpos : 0 ≤ ps)
    (hk : (db.stmt ps.toNat).kind = .a ∨ (db.stmt ps.toNat).kind = .p)
    (hga : GoodAss db ps.toNat)
    (h : VInv db proved steps st (((hypsOf db ps.toNat).map (subst db.isVar σ)).reverse ++ stack))
    (hdv : DvOk db.isVar (dvOf db proved) (frameOf db ps.toNat) σ) :
    ∃ st', verifyStep db proved n st ps = .val st' ∧
      VInv db proved (steps ++ [.use (frameOf db ps.toNat)]) st'
        (subst db.isVar σ (db.stmt ps.toNat).math :: stack) ∧
      st'.math = st.math ++ [subst db.isVar σ (db.stmt ps.toNat).math] := by
  have hstk := h.stk
  set A := db.stmt ps.toNat with hA
  set m := A.reqHyp.length with hm
  have hhl : (hypsOf db ps.toNat).length = m := by simp [hypsOf, ← hA, ← hm]
  have hlenstk := congrArg List.length hstk
  simp only [List.length_map, List.length_append, List.length_reverse, hhl] at hlenstk
  have hrest : (st.stack.drop m).map (fun k => st.math.getD k []) = stack := by
    rw [List.map_drop, hstk, List.drop_append_of_le_length (by simp [hhl]),
      List.drop_eq_nil_of_le (by simp [hhl]), List.nil_append]
  have hins : (st.stack.take m).reverse.map (fun k => st.math.getD k []) =
      (hypsOf db ps.toNat).map (subst db.isVar σ) := by
    rw [List.map_reverse, List.map_take, hstk, List.take_append_of_le_length (by simp [hhl]),
      List.take_of_length_le (by simp [hhl]), List.reverse_reverse]
  set insts := (st.stack.take m).reverse.map (fun k => st.math.getD k []) with hinsts
  have hlen : (hypsOf db ps.toNat).length = insts.length := by rw [hins]; simp
  have hmem : ∀ i ∈ insts, i ∈ st.math := by
    intro i hi
    obtain ⟨k, hk1, rfl⟩ := List.mem_map.mp hi
    have hk2 := h.idx k (List.mem_of_mem_take (List.mem_reverse.mp hk1))
    rw [List.getD_eq_getElem _ _ hk2]; exact List.getElem_mem hk2
  have hknown : ∀ i ∈ insts, i ≠ [] := fun i hi => h.ne i (hmem i hi)
  have hunk : insts.any (fun i => i = []) = false := by
    rw [List.any_eq_false]; intro i hi; simpa using hknown i hi
  have hstep : verifyStep db proved n st ps = (if m > st.stack.length then (.ub : Out VState) else do
      let r ← assignVar db (bigStr db.sep (schemeHyps (hypsOf db ps.toNat) insts)) (bigStr db.sep insts)
              ps.toNat proved st.math.length (insts.any (fun i => i = [])) st.ec
      .val { ret := if r.result = [] ∧ insts.any (fun i => i = []) = false then 2 else st.ret
             ec := r.ec
             msgs := st.msgs ++ r.msgs
             stack := st.math.length :: st.stack.drop m
             math := st.math ++ [r.result] }) := by
    unfold verifyStep
    dsimp only
    rw [if_neg (by omega), if_neg (by omega)]
    rcases hk with hk | hk <;> rw [← hA, hk] <;> rfl
  rw [if_neg (by omega), schemeHyps_known hlen hknown, hunk, h.ec] at hstep
  have hspec := hga.assign hs (insts := insts) (fun i hi => h.free i (hmem i hi)) hlen proved
    st.math.length false 0
  generalize assignVar db (bigStr db.sep (hypsOf db ps.toNat)) (bigStr db.sep insts) ps.toNat proved
    st.math.length false 0 = o at hstep hspec
  have huσ : Unifies db.isVar σ (hypsOf db ps.toNat) insts := hins.symm
  cases hspec with
  | noneFits hno => exact absurd huσ (hno σ)
  | many ρ τ h1 h2 _ h4 =>
    obtain ⟨t, ht, hne⟩ := h4
    exact absurd (hga.fdisc.unique h2 h1 t ht) hne
  | bug2110 h1 => exact absurd hga.fdisc.lastOne h1
  | one ρ hu hsf hun2 =>
    have heq : ∀ t ∈ A.reqVars, ρ t = σ t := fun t ht => hga.fdisc.unique hu huσ t ((hga.vars t).mp ht)
    have hsub : subst db.isVar ρ A.math = subst db.isVar σ A.math :=
      subst_congr (fun t ht hv => heq t (hga.mathVars t ht hv))
    have hdm : disjMsgs db.toToks (db.stmt proved).reqDisj (db.stmt proved).optDisj st.math.length
        A.reqDisj ρ = [] := by
      rw [disjMsgs_nil_iff]
      intro x y hxy
      have := hga.disjVars (x, y) hxy
      rw [heq x this.1, heq y this.2]
      exact hdv x y hxy
    rw [hdm, hsub] at hstep
    obtain ⟨k0, m0, hkm, hk0⟩ := hga.concl
    have hne : subst db.isVar σ A.math ≠ [] := by
      rw [hA, hkm, subst_cons]; simp [hk0]
    have hfree : db.sep ∉ subst db.isVar σ A.math := by
      rw [← hsub]
      exact subst_sepFree hga.mathFree
        (fun t ht hv => hsf t ((hga.vars t).mp (hga.mathVars t ht hv)))
    refine ⟨_, hstep, ?_, rfl⟩
    refine h.push (st.stack.drop m) stack (fun k hk => h.idx k (List.mem_of_mem_drop hk)) hrest
      (.use (frameOf db ps.toNat) σ h.rpn hdv) hne hfree _ _ _ ?_ rfl (by simp [gate, h.msgs])
    simp only [and_true]
    rw [if_neg hne]; exact h.ret

theorem steps_complete {db : Db} (hs : db.isVar db.sep = false) {proved n : Nat} {steps hist stack}
    (h : RPN db.isVar (dvOf db proved) steps hist stack) :
    ∀ proof : List Int, proof.length ≤ n → proof.map (decode db) = steps.map some →
    (∀ ps ∈ proof, GoodRef db ps) →
    ∃ st', verifySteps db proved n proof ⟨0, 0, [], [], []⟩ = .val st' ∧
      VInv db proved steps st' stack ∧ st'.math = hist := by
  induction h with
  | nil =>
    intro proof _ hd _
    have : proof = [] := by simpa using hd
    subst this
    exact ⟨_, rfl, ⟨rfl, rfl, rfl, .nil, by simp, rfl, by simp, by simp⟩, rfl⟩
  | @hyp s hi st e hr ih =>
    intro proof hn hd hg
    rw [List.map_append] at hd
    obtain ⟨pa, pb, rfl, ha, hb⟩ := List.map_eq_append_iff.mp hd
    obtain ⟨p, rfl, hp⟩ : ∃ p, pb = [p] ∧ decode db p = some (.hyp e) := by
      cases pb with
      | nil => simp at hb
      | cons p pb => cases pb <;> simp at hb; exact ⟨p, rfl, hb⟩
    obtain ⟨st1, h1, h2, h3⟩ := ih pa (by simp at hn; omega) ha (fun q hq => hg q (by simp [hq]))
    obtain ⟨q1, q2, rfl⟩ := decode_hyp hp
    have hgh : GoodHyp db p.toNat := by
      have := hg p (by simp) q1
      rcases q2 with hk | hk <;> rw [hk] at this <;> exact this
    have hst : verifyStep db proved n st1 p = .val { st1 with stack := st1.math.length :: st1.stack, math := st1.math ++ [(db.stmt p.toNat).math] } := by
      unfold verifyStep
      dsimp only
      rw [if_neg (by omega), if_neg (by omega)]
      rcases q2 with hk | hk <;> rw [hk]
    refine ⟨_, ?_, h2.push st1.stack st h2.idx h2.stk (.hyp _ h2.rpn) hgh.ne hgh.free _ _ _ h2.ret h2.ec h2.msgs, ?_⟩
    · rw [verifySteps_append, h1]; simp only [Out.bind_val, verifySteps, hst]
    · simp [h3]
  | @back s hi st i e hr hie ih =>
    intro proof hn hd hg
    rw [List.map_append] at hd
    obtain ⟨pa, pb, rfl, ha, hb⟩ := List.map_eq_append_iff.mp hd
    obtain ⟨p, rfl, hp⟩ : ∃ p, pb = [p] ∧ decode db p = some (.back i) := by
      cases pb with
      | nil => simp at hb
      | cons p pb => cases pb <;> simp at hb; exact ⟨p, rfl, hb⟩
    obtain ⟨st1, h1, h2, h3⟩ := ih pa (by simp at hn; omega) ha (fun q hq => hg q (by simp [hq]))
    obtain ⟨q1, rfl⟩ := decode_back hp
    have hlen : st1.math.length = pa.length := by
      have := congrArg List.length ha
      simp at this
      rw [h3, rpn_len hr, this]
    have hi_lt : (-1000 - p).toNat < st1.math.length := by
      rw [h3]
      by_contra hcon
      rw [List.getElem?_eq_none (by omega)] at hie; cases hie
    have hst : verifyStep db proved n st1 p = .val { st1 with stack := st1.math.length :: st1.stack, math := st1.math ++ [e] } := by
      unfold verifyStep
      dsimp only
      rw [if_neg (by omega), if_pos (by omega), if_neg (by omega), if_pos (by simp at hn; omega),
        getElem?_getD (by rw [h3]; exact hie)]
    rw [← h3] at hie
    refine ⟨_, ?_, h2.push st1.stack st h2.idx h2.stk (.back _ _ h2.rpn hie) (h2.ne _ (List.mem_of_getElem? hie))
      (h2.free _ (List.mem_of_getElem? hie)) _ _ _ h2.ret h2.ec h2.msgs, ?_⟩
    · rw [verifySteps_append, h1]; simp only [Out.bind_val, verifySteps, hst]
    · simp [h3]
  | @use s hi st A σ hr hdv ih =>
    intro proof hn hd hg
    rw [List.map_append] at hd
    obtain ⟨pa, pb, rfl, ha, hb⟩ := List.map_eq_append_iff.mp hd
    obtain ⟨p, rfl, hp⟩ : ∃ p, pb = [p] ∧ decode db p = some (.use A) := by
      cases pb with
      | nil => simp at hb
      | cons p pb => cases pb <;> simp at hb; exact ⟨p, rfl, hb⟩
    obtain ⟨st1, h1, h2, h3⟩ := ih pa (by simp at hn; omega) ha (fun q hq => hg q (by simp [hq]))
    obtain ⟨q1, q2, rfl⟩ := decode_use hp
    have hga : GoodAss db p.toNat := by
      have := hg p (by simp) q1
      rcases q2 with hk | hk <;> rw [hk] at this <;> exact this
    obtain ⟨st2, g1, g2, g3⟩ := use_complete hs (n := n) q1 q2 hga h2 hdv
    refine ⟨st2, ?_, g2, ?_⟩
    · rw [verifySteps_append, h1]; simp only [Out.bind_val, verifySteps, g1]
    · rw [g3, h3]; rfl

/-- The last result is on top of the stack. -/
theorem rpn_top {isVar dv steps hist f rest} (h : RPN isVar dv steps hist (f :: rest)) :
    hist.getD (steps.length - 1) [] = f := by
  have hl := rpn_len h
  cases h <;> simp at hl ⊢ <;> rw [← hl] <;> simp


/-- Exactness of the verifier on proofs without unknown steps: it finishes cleanly iff the proof string
decodes to a correct proof of the statement. -/
theorem verify_iff {db : Db} (hs : db.isVar db.sep = false) {proved : Nat} {proof : List Int} {sev : Nat}
    (hp : (db.stmt proved).kind = .p) (hsev : sev ≤ 2) (hne : proof ≠ [])
    (hg : ∀ ps ∈ proof, GoodRef db ps) (hb : BackOk 0 proof) :
    (∃ out, verifyProof db proved proof sev 0 = .val out ∧ out.ret = 0 ∧ out.msgs = []) ↔
    ∃ steps, proof.map (decode db) = steps.map some ∧
      Proves db.isVar (dvOf db proved) steps (db.stmt proved).math := by
  have hl : proof.length ≠ 0 := by simpa using hne
  unfold verifyProof
  rw [if_neg (by simp [hp]), if_neg (by omega), if_neg hl]
  constructor
  · rintro ⟨out, hout, hret, hmsgs⟩
    cases hv : verifySteps db proved proof.length proof ⟨0, 0, [], [], []⟩ with
    | ub => rw [hv] at hout; cases hout
    | bug k => rw [hv] at hout; cases hout
    | fuel => rw [hv] at hout; cases hout
    | val st =>
      rw [hv] at hout
      dsimp only [Out.bind_val] at hout
      split at hout
      · cases hout
      · rename_i hsl
        split at hout
        · simp only [Out.val.injEq] at hout
          subst hout
          rename_i hcond
          dsimp only at hmsgs hret
          have h1 := (List.append_eq_nil_iff.mp hmsgs)
          have hinit : VInv db proved [] ⟨0, 0, [], [], []⟩ [] :=
            ⟨rfl, rfl, rfl, .nil, by simp, rfl, by simp, by simp⟩
          obtain ⟨more, stack', _, hV⟩ := steps_sound hs hinit hg hb hv hret h1.1
          rw [hV.ec] at h1
          simp [gate] at h1
        · simp only [Out.val.injEq] at hout
          subst hout
          rename_i hcond
          dsimp only at hmsgs hret
          have hinit : VInv db proved [] ⟨0, 0, [], [], []⟩ [] :=
            ⟨rfl, rfl, rfl, .nil, by simp, rfl, by simp, by simp⟩
          obtain ⟨more, stack', hd, hV⟩ := steps_sound hs hinit hg hb hv hret hmsgs
          refine ⟨more, hd, st.math, ?_⟩
          have hstk := hV.stk
          have hsl' : st.stack.length = 1 := by simpa using hsl
          have hrpn := hV.rpn
          rw [List.nil_append] at hrpn
          have hlen : stack'.length = 1 := by rw [← hstk]; simpa using hsl'
          obtain ⟨f, rfl⟩ := List.length_eq_one_iff.mp hlen
          have htop := rpn_top hrpn
          have hpl : proof.length = more.length := by simpa using congrArg List.length hd
          rw [hpl] at hcond
          have : (db.stmt proved).math = f := by
            by_contra hcon
            exact hcond ⟨hret, by rw [htop]; exact hcon⟩
          rw [this]; exact hrpn
  · rintro ⟨steps, hd, hist, hr⟩
    obtain ⟨st, h1, h2, h3⟩ := steps_complete hs hr proof (Nat.le_refl _) hd hg
    rw [h1]
    dsimp only [Out.bind_val]
    have hsl : st.stack.length = 1 := by
      have := congrArg List.length h2.stk
      simpa using this
    rw [if_neg (by simp [hsl])]
    have hpl : proof.length = steps.length := by simpa using congrArg List.length hd
    have htop := rpn_top hr
    rw [← h3, ← hpl] at htop
    rw [if_neg (by rw [htop]; simp)]
    exact ⟨_, rfl, h2.ret, h2.msgs⟩

end MM.Veri
