import Verif.Tree.SaveRead
/-!
# C47: packing and unpacking a proof does not change the verdict of the verifier
-/
namespace MM.Tree
open MM.Veri MM.Pars MM.Spec MM.Proof MM.Data Forest

variable {src : List Src} {s : PState} {look : Look} {p : Nat} {db : Db} {dv : Nat → Nat → Prop} {E : Env}

/-- One step of the stack machine of the specification (`RPN`) on an element of a proof string: from the results `h` and the stack `st` to the new result `f` on the stack `st1`. -/
inductive StepI (db : Db) (dv : Nat → Nat → Prop) (x : Int) (h st : List (List Nat)) : List Nat → List (List Nat) → Prop
  | hyp (e) : decode db x = some (.hyp e) → StepI db dv x h st e st
  | back (i e) : decode db x = some (.back i) → h[i]? = some e → StepI db dv x h st e st
  | use (A σ st1) : decode db x = some (.use A) → st = (A.hyps.map (subst db.isVar σ)).reverse ++ st1 → DvOk db.isVar dv A σ → StepI db dv x h st (subst db.isVar σ A.concl) st1

/-- The machine on a proof string. -/
inductive Go (db : Db) (dv : Nat → Nat → Prop) : List Int → List (List Nat) → List (List Nat) → List (List Nat) → List (List Nat) → Prop
  | nil (h st) : Go db dv [] h st h st
  | cons {x xs h st f st1 h' st'} : StepI db dv x h st f st1 → Go db dv xs (h ++ [f]) (f :: st1) h' st' → Go db dv (x :: xs) h st h' st'

theorem Go.append : ∀ {a b : List Int} {h st h1 st1 h2 st2}, Go db dv a h st h1 st1 → Go db dv b h1 st1 h2 st2 → Go db dv (a ++ b) h st h2 st2
  | [], _, _, _, _, _, _, _, .nil _ _, g => g
  | _ :: _, _, _, _, _, _, _, _, .cons s g1, g2 => .cons s (Go.append g1 g2)

theorem Go.split : ∀ {a b : List Int} {h st h2 st2}, Go db dv (a ++ b) h st h2 st2 → ∃ h1 st1, Go db dv a h st h1 st1 ∧ Go db dv b h1 st1 h2 st2
  | [], _, h, st, _, _, g => ⟨h, st, .nil h st, g⟩
  | _ :: _, _, _, _, _, _, .cons s g => by
    obtain ⟨h1, st1, g1, g2⟩ := Go.split g
    exact ⟨h1, st1, .cons s g1, g2⟩

theorem go_of_rpn {steps : List Step} {h st : List (List Nat)} (hr : RPN db.isVar dv steps h st) : ∀ {l : List Int}, l.map (decode db) = steps.map some → Go db dv l [] [] h st := by
  have snoc : ∀ {l : List Int} {st : List Step} {x : Step}, l.map (decode db) = (st ++ [x]).map some → ∃ l' y, l = l' ++ [y] ∧ l'.map (decode db) = st.map some ∧ decode db y = some x := by
    intro l st x hl
    rcases List.eq_nil_or_concat l with rfl | ⟨l', y, rfl⟩
    · simp at hl
    · rw [List.concat_eq_append, List.map_append, List.map_append] at hl
      obtain ⟨h1, h2⟩ := List.append_inj' hl (by simp)
      exact ⟨l', y, by rw [List.concat_eq_append], h1, by simpa using h2⟩
  induction hr with
  | nil => intro l hl; simp at hl; subst hl; exact .nil _ _
  | hyp e _ ih =>
    intro l hl
    obtain ⟨l', y, rfl, h1, h2⟩ := snoc hl
    exact (ih h1).append (.cons (.hyp e h2) (.nil _ _))
  | back i e _ hi ih =>
    intro l hl
    obtain ⟨l', y, rfl, h1, h2⟩ := snoc hl
    exact (ih h1).append (.cons (.back i e h2 hi) (.nil _ _))
  | use A σ _ hd ih =>
    intro l hl
    obtain ⟨l', y, rfl, h1, h2⟩ := snoc hl
    exact (ih h1).append (.cons (.use A σ _ h2 rfl hd) (.nil _ _))

theorem rpn_of_go {l : List Int} {h st h' st' : List (List Nat)} (g : Go db dv l h st h' st') : ∀ {steps : List Step}, RPN db.isVar dv steps h st →
    ∃ steps', l.map (decode db) = steps'.map some ∧ RPN db.isVar dv (steps ++ steps') h' st' := by
  induction g with
  | nil => intro steps hr; exact ⟨[], rfl, by simpa using hr⟩
  | cons hs _ ih =>
    intro steps hr
    cases hs with
    | hyp _ hd =>
      rename_i f _ _ _
      obtain ⟨st', h1, h2⟩ := ih (RPN.hyp _ hr)
      exact ⟨.hyp f :: st', by simp [hd, h1], by simpa using h2⟩
    | back i _ hd hi =>
      obtain ⟨st', h1, h2⟩ := ih (RPN.back i _ hr hi)
      exact ⟨.back i :: st', by simp [hd, h1], by simpa using h2⟩
    | use A σ st1 hd he hdv =>
      subst he
      obtain ⟨st', h1, h2⟩ := ih (RPN.use A σ hr hdv)
      exact ⟨.use A :: st', by simp [hd, h1], by simpa using h2⟩

theorem proves_iff_go {l : List Int} {f : List Nat} : (∃ steps, l.map (decode db) = steps.map some ∧ Proves db.isVar dv steps f) ↔ ∃ h, Go db dv l [] [] h [f] := by
  constructor
  · rintro ⟨steps, h1, hist, h2⟩
    exact ⟨hist, go_of_rpn h2 h1⟩
  · rintro ⟨h, g⟩
    obtain ⟨steps, h1, h2⟩ := rpn_of_go g .nil
    exact ⟨steps, h1, h, by simpa using h2⟩

theorem decode_ref {x : Int} {i : Nat} (h : decode db x = some (.back i)) : x = -1000 - (i : Int) := by
  unfold decode at h
  split at h
  · cases h
  · split at h
    · split at h
      · cases h
      · injection h with h; injection h with h; omega
    · split at h <;> cases h

theorem decode_is_ref {x : Int} (h : x ≤ -1000) : decode db x = some (.back (-1000 - x).toNat) := by
  unfold decode
  rw [if_neg (by omega), if_pos (by omega), if_neg (by omega)]

/-- Steps that are not references do not depend on the earlier results. -/
theorem StepI.hist {x : Int} (hx : -1000 < x) {h st f st1} (g : StepI db dv x h st f st1) (k : List (List Nat)) : StepI db dv x k st f st1 := by
  cases g with
  | hyp _ hd => exact .hyp _ hd
  | back i e hd hi => have := decode_ref hd; omega
  | use A σ st1 hd he hdv => exact .use A σ st1 hd he hdv

/-- The block `b` proves `f` from any stack. -/
def Yields (db : Db) (dv : Nat → Nat → Prop) (b : List Int) (f : List Nat) : Prop := ∀ h st, ∃ h', Go db dv b h st h' (f :: st)

theorem yields_flatten : ∀ {bs : List (List Int)} {fs : List (List Nat)}, List.Forall₂ (Yields db dv) bs fs → ∀ h st, ∃ h', Go db dv bs.reverse.flatten h st h' (fs ++ st)
  | [], _, .nil, h, st => ⟨h, .nil h st⟩
  | b :: bs, _, .cons (b := f) (l₂ := fs) h1 h2, h, st => by
    obtain ⟨k, g⟩ := yields_flatten h2 h st
    obtain ⟨k', g'⟩ := h1 k (fs ++ st)
    refine ⟨k', ?_⟩
    rw [List.reverse_cons, List.flatten_append]
    simpa using g.append g'

theorem forall₂_get {bs : List (List Int)} {fs : List (List Nat)} (h : List.Forall₂ (Yields db dv) bs fs) {i : Nat} {b : List Int} {f : List Nat} (hb : bs[i]? = some b) (hf : fs[i]? = some f) :
    Yields db dv b f := by
  induction h generalizing i with
  | nil => simp at hb
  | cons h1 _ ih =>
    cases i with
    | zero => simp at hb hf; subst hb hf; exact h1
    | succ i => exact ih (by simpa using hb) (by simpa using hf)

theorem arity_decode_hyp {E : Env} {x : Int} {e : List Nat} (h : decode E.toDb x = some (.hyp e)) : arity E x = 0 := by
  obtain ⟨h1, h2, _⟩ := decode_hyp h
  exact arity_hyp (Or.inr (by rcases h2 with h2 | h2 <;> [right; left] <;> exact h2))

theorem arity_decode_use {E : Env} {x : Int} {A : Assertion} (hx : StepOk E x) (h : decode E.toDb x = some (.use A)) : arity E x = A.hyps.length ∧ A = frameOf E.toDb x.toNat := by
  obtain ⟨h1, h2, h3⟩ := decode_use h
  obtain ⟨_, _, _, h4⟩ := arity_ap (E := E) hx (by omega) (by
    have h2' : (E.stmt x.toNat).kind = .a ∨ (E.stmt x.toNat).kind = .p := h2
    rcases h2' with h2' | h2' <;> rw [h2'] <;> simp)
  refine ⟨?_, h3⟩
  rw [h4, h3]
  simp [frameOf, Veri.hypsOf]

/-- A step on formulas and the same step on blocks: the new block proves the new formula. -/
theorem step_yields {E : Env} {x : Int} (hx : StepOk E x) {h st f st1} {bs rec : List (List Int)} {fin : List (List Int) × List (List Int)}
    (g : StepI E.toDb dv x h st f st1) (he : expandStep E (bs, rec) x = some fin) (h1 : List.Forall₂ (Yields E.toDb dv) bs st) (h2 : List.Forall₂ (Yields E.toDb dv) rec h) :
    List.Forall₂ (Yields E.toDb dv) fin.1 (f :: st1) ∧ List.Forall₂ (Yields E.toDb dv) fin.2 (h ++ [f]) := by
  have app : ∀ {b}, Yields E.toDb dv b f → List.Forall₂ (Yields E.toDb dv) (rec ++ [b]) (h ++ [f]) := fun hb => List.rel_append h2 (.cons hb .nil)
  cases g with
  | hyp e hd =>
    have hx1 : -1000 < x := by have := (decode_hyp hd).1; omega
    obtain ⟨_, rfl⟩ := step_stmt hx1 he
    rw [arity_decode_hyp hd]
    have hy : Yields E.toDb dv [x] f := fun h st => ⟨_, .cons (.hyp f hd) (.nil _ _)⟩
    exact ⟨.cons (by simpa using hy) (by simpa using h1), app (by simpa using hy)⟩
  | back i e hd hi =>
    have hx1 := decode_ref hd
    obtain ⟨hlt, rfl⟩ := step_ref (by omega) he
    have e1 : (-1000 - x).toNat = i := by omega
    have hy : Yields E.toDb dv (rec.getD (-1000 - x).toNat []) f := by
      rw [e1]
      simp only [e1] at hlt
      exact forall₂_get h2 (by rw [List.getD_eq_getElem _ _ hlt]; exact List.getElem?_eq_getElem hlt) hi
    exact ⟨.cons hy h1, app hy⟩
  | use A σ st1 hd hst hdv =>
    have hx1 : -1000 < x := by have := (decode_use hd).1; omega
    obtain ⟨har, _⟩ := arity_decode_use hx hd
    obtain ⟨_, rfl⟩ := step_stmt hx1 he
    rw [har]
    subst hst
    have hl : (A.hyps.map (subst E.isVar σ)).reverse.length = A.hyps.length := by simp
    have ha : List.Forall₂ (Yields E.toDb dv) (bs.take A.hyps.length) (A.hyps.map (subst E.isVar σ)).reverse := by
      have := List.forall₂_take A.hyps.length h1
      rwa [List.take_left' hl] at this
    have hb : List.Forall₂ (Yields E.toDb dv) (bs.drop A.hyps.length) st1 := by
      have := List.forall₂_drop A.hyps.length h1
      rwa [List.drop_left' hl] at this
    have hy : Yields E.toDb dv ((bs.take A.hyps.length).reverse.flatten ++ [x]) (subst E.isVar σ A.concl) := by
      intro k st
      obtain ⟨k', g⟩ := yields_flatten ha k st
      exact ⟨_, g.append (.cons (.use A σ st hd rfl hdv) (.nil _ _))⟩
    exact ⟨.cons hy hb, app hy⟩

/-- If the packed proof is correct, so is the proof it stands for. -/
theorem go_expand {E : Env} : ∀ {q : List Int} {h st h' st'} {bs rec : List (List Int)} {fin : List (List Int) × List (List Int)}, (∀ x ∈ q, StepOk E x) →
    Go E.toDb dv q h st h' st' → expandRun E q (bs, rec) = some fin → List.Forall₂ (Yields E.toDb dv) bs st → List.Forall₂ (Yields E.toDb dv) rec h →
    List.Forall₂ (Yields E.toDb dv) fin.1 st'
  | [], _, _, _, _, _, _, _, _, .nil _ _, he, h1, _ => by simp only [expandRun, Option.some.injEq] at he; subst he; exact h1
  | x :: q, _, _, _, _, bs, rec, fin, hok, .cons hs g, he, h1, h2 => by
    rw [expandRun] at he
    obtain ⟨mid, hm, he⟩ := Option.bind_eq_some_iff.1 he
    obtain ⟨h3, h4⟩ := step_yields (hok x (by simp)) hs hm h1 h2
    exact go_expand (bs := mid.1) (rec := mid.2) (fun y hy => hok y (by simp [hy])) g he h3 h4

/-- Assertions determine the substitution. -/
theorem StepI.unique {x : Int} (hg : GoodRef db x) {h k st f st1 f' st1'} (hx : -1000 < x) (a : StepI db dv x h st f st1) (b : StepI db dv x k st f' st1') : f = f' ∧ st1 = st1' := by
  cases a with
  | hyp e hd =>
    cases b with
    | hyp e' hd' => rw [hd] at hd'; cases hd'; exact ⟨rfl, rfl⟩
    | back i e' hd' => rw [hd] at hd'; cases hd'
    | use A σ st1 hd' => rw [hd] at hd'; cases hd'
  | back i e hd hi => have := decode_ref hd; omega
  | use A σ st1 hd he hdv =>
    cases b with
    | hyp e' hd' => rw [hd] at hd'; cases hd'
    | back i e' hd' => rw [hd] at hd'; cases hd'
    | use A' τ st1' hd' he' hdv' =>
      rw [hd] at hd'; cases hd'
      obtain ⟨h0, hk, hA⟩ := decode_use hd
      have hga : GoodAss db x.toNat := by
        have := hg h0
        rcases hk with hk | hk <;> rw [hk] at this <;> exact this
      have e := he.symm.trans he'
      obtain ⟨e1, e2⟩ := List.append_inj e (by simp)
      refine ⟨?_, e2⟩
      have e3 := List.reverse_injective e1
      have hu := hga.fdisc.unique (insts := A.hyps.map (subst db.isVar τ)) (by rw [hA] at e3 ⊢; exact e3) (by rw [hA]; rfl)
      rw [hA]
      apply subst_congr
      intro t ht hv
      exact hu t ((hga.vars t).1 (hga.mathVars t ht hv))

theorem Go.unique : ∀ {l : List Int} {h k st h1 st1 h2 st2}, (∀ x ∈ l, GoodRef db x) → (∀ x ∈ l, -1000 < x) → Go db dv l h st h1 st1 → Go db dv l k st h2 st2 → st1 = st2
  | [], _, _, _, _, _, _, _, _, _, .nil _ _, .nil _ _ => rfl
  | x :: l, _, _, _, _, _, _, _, hg, hx, .cons s1 g1, .cons s2 g2 => by
    obtain ⟨rfl, rfl⟩ := s1.unique (hg x (by simp)) (hx x (by simp)) s2
    exact Go.unique (fun y hy => hg y (by simp [hy])) (fun y hy => hx y (by simp [hy])) g1 g2

/-- If the proof that a packed proof stands for is correct, so is the packed proof. -/
theorem go_pack {E : Env} (hg : ∀ x, GoodRef E.toDb x) : ∀ {q : List Int} {h hh st H fs} {bs rec : List (List Int)} {fin : List (List Int) × List (List Int)}, (∀ x ∈ q, StepOk E x) →
    expandRun E q (bs, rec) = some fin → (∀ b ∈ fin.2, ∀ y ∈ b, -1000 < y) → List.Forall₂ (Yields E.toDb dv) bs st → List.Forall₂ (Yields E.toDb dv) rec h →
    Go E.toDb dv (expL fin.2 q) hh st H fs → ∃ h', Go E.toDb dv q h st h' fs
  | [], h, _, st, _, _, _, _, _, _, _, _, _, _, .nil _ _ => ⟨h, .nil h st⟩
  | x :: q, h, hh, st, H, fs, bs, rec, fin, hok, he, hfree, h1, h2, g => by
    rw [expandRun] at he
    obtain ⟨mid, hm, he⟩ := Option.bind_eq_some_iff.1 he
    have hx := hok x (by simp)
    rw [show expL fin.2 (x :: q) = exp1 fin.2 x ++ expL fin.2 q from List.flatMap_cons] at g
    by_cases hr : x ≤ -1000
    · obtain ⟨hlt, hmid⟩ := step_ref hr hm
      simp only at hlt hmid
      have hpre : rec <+: fin.2 := by
        have := run_prefix he
        rw [hmid] at this
        exact (List.prefix_append _ _).trans this
      have hlen : rec.length = h.length := h2.length_eq
      have hf : h[(-1000 - x).toNat]? = some (h.getD (-1000 - x).toNat []) := by
        rw [List.getD_eq_getElem _ _ (by omega)]; exact List.getElem?_eq_getElem (by omega)
      have hb : rec[(-1000 - x).toNat]? = some (rec.getD (-1000 - x).toNat []) := by
        rw [List.getD_eq_getElem _ _ hlt]; exact List.getElem?_eq_getElem hlt
      have hy := forall₂_get h2 hb hf
      have hs : StepI E.toDb dv x h st (h.getD (-1000 - x).toNat []) st := .back _ _ (decode_is_ref hr) hf
      have e1 : exp1 fin.2 x = rec.getD (-1000 - x).toNat [] := by
        rw [← exp1_congr hpre (fun _ => hlt)]
        unfold exp1; rw [if_pos hr]
      rw [e1] at g
      obtain ⟨k, st1, g1, g2⟩ := g.split
      obtain ⟨k', g3⟩ := hy hh st
      have hmem : rec.getD (-1000 - x).toNat [] ∈ fin.2 := hpre.subset (List.mem_of_getElem? hb)
      have e2 := Go.unique (fun y _ => hg y) (hfree _ hmem) g1 g3
      subst e2
      obtain ⟨h3, h4⟩ := step_yields hx hs hm h1 h2
      obtain ⟨h', g4⟩ := go_pack hg (bs := mid.1) (rec := mid.2) (fun y hy => hok y (by simp [hy])) he hfree h3 h4 g2
      exact ⟨h', .cons hs g4⟩
    · have e1 : exp1 fin.2 x = [x] := by unfold exp1; rw [if_neg hr]
      rw [e1] at g
      cases g with
      | cons s g2 =>
        have hs := s.hist (by omega) h
        obtain ⟨h3, h4⟩ := step_yields hx hs hm h1 h2
        obtain ⟨h', g4⟩ := go_pack hg (bs := mid.1) (rec := mid.2) (fun y hy => hok y (by simp [hy])) he hfree h3 h4 g2
        exact ⟨h', .cons hs g4⟩

/-- A packed proof is correct exactly if the proof it stands for is correct. -/
theorem packed_proves_iff {E : Env} (hg : ∀ x, GoodRef E.toDb x) {q l : List Int} (hok : ∀ x ∈ q, StepOk E x) (he : Expands E q l) {f : List Nat} :
    (∃ h, Go E.toDb dv q [] [] h [f]) ↔ ∃ h, Go E.toDb dv l [] [] h [f] := by
  obtain ⟨rec, hrun⟩ := he
  constructor
  · rintro ⟨h, g⟩
    have := go_expand hok g hrun .nil .nil
    cases this with
    | cons h1 _ =>
      obtain ⟨h', g'⟩ := h1 [] []
      exact ⟨h', g'⟩
  · rintro ⟨h, g⟩
    obtain ⟨F, hF, hFf, hFe⟩ := run_forest (E := E) (l := q) (f := nil) (st := []) (sv := []) trivial hok (fun _ _ => rfl) hrun
    have hp : expL rec q = l := by
      have := entries_flatten rec F
      simp only at hFe
      rw [← hFe, hFf] at this
      simpa [flat] using this.symm
    have hn := run_normal hok (by simp) (by simp) hrun
    refine go_pack hg hok hrun ?_ .nil .nil (by simp only; rw [hp]; exact g)
    intro b hb y hy
    obtain ⟨_, _, _, hfl, hlt⟩ := hn.2 b hb
    exact hlt y hy

/-- The verifier accepts the proof of `p`: it returns 0 and prints nothing. -/
def Verified (db : Db) (p : Nat) (proof : List Int) : Prop := ∃ out, verifyProof db p proof 0 0 = .val out ∧ out.ret = 0 ∧ out.msgs = []

theorem backOk_get : ∀ {l : List Int} {off : Nat}, (∀ (k : Nat) (x : Int), l[k]? = some x → x ≤ -1000 → (-1000 - x).toNat < off + k) → BackOk off l
  | [], _, _ => trivial
  | y :: l, off, h => ⟨fun hc => by simpa using h 0 y rfl hc, backOk_get (fun k x hk hx => by have := h (k + 1) x (by simpa using hk) hx; omega)⟩

theorem verified_iff (h : Accepted src s) (hp : kindAt (kinds src) p = .p) {l : List Int} (hne : l ≠ []) (hb : BackOk 0 l) :
    Verified (toDb src s) p l ↔ ∃ k, Go (toDb src s) (dvOf (toDb src s) p) l [] [] k [s.math p] := by
  have := verify_iff (db := toDb src s) (proved := p) (proof := l) (sev := 0) tok_sep (by rw [kind_toDb h]; exact hp) (by omega) hne (fun ps _ => goodRef_of_parse h ps) hb
  unfold Verified
  rw [this, proves_iff_go]
  rfl

/-- **C47** Packing does not change the verdict: the verifier accepts the packed form of a normal proof exactly if it accepts the normal proof. -/
theorem C47_packing_keeps_verdict (h : Accepted src s) (hp : kindAt (kinds src) p = .p) {steps : List Nat} (hP : PlainProof src s p steps) :
    ∃ q, squish (envOf look src s) (steps.map Int.ofNat) = .val q ∧ (Verified (toDb src s) p q ↔ Verified (toDb src s) p (steps.map Int.ofNat)) := by
  have hN := normal_of_plain (look := look) h hP
  obtain ⟨q, h1, h2, h3, h4, h5⟩ := C21_pack_keeps_meaning hN
  refine ⟨q, h1, ?_⟩
  have hne : steps.map Int.ofNat ≠ [] := by
    obtain ⟨x, ch, _, e, _⟩ := hN
    rw [← e]; simp [tree, flat]
  have hq : q ≠ [] := by
    rintro rfl
    obtain ⟨rec, hr⟩ := h3
    simp [expandRun] at hr
  rw [verified_iff h hp hq, verified_iff h hp hne]
  · exact packed_proves_iff (E := envOf look src s) (goodRef_of_parse h) h5 h3
  · apply backOk_get
    intro k x hk hx
    obtain ⟨j, _, rfl⟩ := List.mem_map.1 (List.mem_of_getElem? hk)
    simp only [Int.ofNat_eq_natCast] at hx; omega
  · apply backOk_get
    intro k x hk hx
    obtain ⟨i, y, h6, h7, _⟩ := h4 k x hk hx
    omega

/-- **C47** with C18: a normal proof that the verifier accepts is packed and written in compressed form; the text is read and verified without any message. -/
theorem C47_saved_proof_is_accepted (h : Accepted src s) (hl : LookOk look) (hL : SrcLabels src)
    (hLC : ∀ i, 1 ≤ i → i ≤ src.length → ∀ c ∈ srcLabel src i, LabelChar c)
    (hp : kindAt (kinds src) p = .p) {steps : List Nat} (hP : PlainProof src s p steps) (hv : Verified (toDb src s) p (steps.map Int.ofNat))
    (hreq : ∀ hs, MandList src s p hs → hs.length ≤ 120) {old : Bool} {width : Int} {indent fuel : Nat} (hroom : old = true ∨ 1 ≤ width - indent) :
    ∃ q, squish (envOf look src s) (steps.map Int.ofNat) = .val q ∧
      ∀ out, compressProof (envOf look src s) p q old width indent fuel = .val out →
        ∀ (W : Nat), (∀ hs, MandList src s p hs → hs.length + out.length ≤ W) → W ≤ 2 ^ 63 → ∀ r : List Char,
          ∃ res v, parseProofText (envOf look src s) W p (out ++ '$' :: '.' :: r) out.length = .val res ∧ res.ret = 0 ∧ res.ec = 0 ∧
            verifyProof (toDb src s) p res.proof res.ret res.ec = .val v ∧ v.ret = 0 ∧ v.msgs = [] := by
  have hN := normal_of_plain (look := look) h hP
  obtain ⟨q0, k1, k2⟩ := C47_packing_keeps_verdict (look := look) h hp hP
  obtain ⟨q, h1, _, h3, h4, h5⟩ := C21_pack_keeps_meaning hN
  rw [k1] at h1
  injection h1 with h1
  subst h1
  obtain ⟨refs, rfl, hPk⟩ := packed_of_expands h hP h5 h4 h3
  refine ⟨_, k1, ?_⟩
  intro out hrun W hW hW2 r
  obtain ⟨v, v1, v2, v3⟩ := k2.2 hv
  exact ⟨_, v, C18_compressed_round_trip h hl hL hLC hp hPk hroom hreq hrun hW hW2 r, rfl, rfl, v1, v2, v3⟩

end MM.Tree
