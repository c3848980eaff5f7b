import Verif.Byrep.Known
import Verif.Byrep.Spec
import Verif.Repl.EndProps
/-!
# C90: IMPROVE / 2
-/
namespace MM.Byrep
open MM.Veri MM.Proof MM.Data MM.Tree MM.Pfas MM.Impr MM.Repl MM.Spec MM.Pars
open MM.Pfas.AF MM.Pfas.Cx
open MM.Unif (bind_inv)

variable {X : Impr.Ctx} {src : List Src} {s : PState} {look : Look} {U : Unifier} {n : Nat} {cnt : Nat → Nat → Nat}

/-- IMPROVE / 2 is called in the session: the database was read without error, SET EMPTY_SUBSTITUTION is off, and the unifications are those of mmunif.c. -/
structure Improve2 (src : List Src) (s : PState) (look : Look) (X : Impr.Ctx) (U : Unifier) : Prop where
  set : Setting src s look X
  min : X.C.min = 1
  unif : U.Ok X.E
  real : Realises X.C U

variable {N : Nat} {a : MM.Pfas.St}

theorem Improve2.fits (h : Improve2 src s look X U) : Fits X.C X.E := ⟨(ready_of_setting h.set).mt, h.min, (ready_of_setting h.set).con⟩

theorem Improve2.math (h : Improve2 src s look X U) : (∀ t ∈ (X.E.stmt X.prove).math, t < X.E.sep) ∧ (X.E.stmt X.prove).math ≠ [] := by
  have := math_of_parse (look := look) h.set.read h.set.prove
  rw [← h.set.env] at this
  exact this

theorem rdy (h : Improve2 src s look X U) (ha : Here X U N a) : Rdy (at' X a) := rdy_of h.set h.min (C75_no_separator h.set h.min h.real ha.run)

theorem pip (h : Improve2 src s look X U) (ha : Here X U N a) : PipOk (at' X a) := pip_of h.set h.unif ha.run.reach ha.unified

theorem forest (h : Improve2 src s look X U) (ha : Here X U N a) : (∃ f, Rep a.pip f ∧ All (Shape X.E) f ∧ f.count = 1) ∧ ∀ m ∈ a.pip.target, m ≠ [] := by
  have hY := ready_of_setting h.set
  obtain ⟨hI, _⟩ := run_clean hY.env h.real h.fits h.math.1 ha.run
  obtain ⟨f, hr, hA, ht, _⟩ := hI.2 ha.unified.1
  refine ⟨⟨f, hr, hA.mono fun _ _ => NodeOk.shape, ?_⟩, fun m hm => ?_⟩
  · rw [← tgts_length, ht]; rfl
  rw [hr.target] at hm
  obtain ⟨x, hx, rfl⟩ := List.mem_map.mp hm
  refine full_forest hY.env hA ?_ x hx
  rw [ht]
  intro t h1
  rw [List.mem_singleton.mp h1]; exact h.math.2

/-! ### Subproofs -/

theorem rpn_af {E : Env} : ∀ {f : AF}, All (Shape E) f → ∀ (rest : List Int) (k : Nat), rpnCount E (f.flat.map Node.stmt ++ rest) k = rpnCount E rest (k + f.count)
  | .nil, _, _, _ => rfl
  | .snoc l x ch, ⟨hl, hc, hx⟩, rest, k => by
    have e : (AF.snoc l x ch).flat.map Node.stmt ++ rest = l.flat.map Node.stmt ++ (ch.flat.map Node.stmt ++ (x.stmt :: rest)) := by simp [AF.flat]
    rw [e, rpn_af hl, rpn_af hc]
    have e2 : rpnCount E (x.stmt :: rest) (k + l.count + ch.count) = if arity E x.stmt ≤ k + l.count + ch.count then rpnCount E rest (k + l.count + ch.count - arity E x.stmt + 1) else none := rfl
    have := hx.2.1
    rw [tgts_length] at this
    rw [e2, if_pos (by omega)]
    congr 1
    simp only [AF.count]
    omega

theorem rpn_append {E : Env} : ∀ (x y : List Int) (k : Nat), rpnCount E (x ++ y) k = (rpnCount E x k).bind (rpnCount E y)
  | [], _, _ => rfl
  | z :: x, y, k => by
    rw [List.cons_append, rpnCount, rpnCount]
    generalize (if 1 ≤ z ∧ ((E.stmt z.toNat).kind = .a ∨ (E.stmt z.toNat).kind = .p) then (E.stmt z.toNat).reqHyp.length else 0) = r
    by_cases c : r ≤ k
    · rw [if_pos c, if_pos c, rpn_append x y]
    · rw [if_neg c, if_neg c]; rfl

theorem rpn_shift {E : Env} : ∀ (x : List Int) (k m i : Nat), rpnCount E x k = some m → rpnCount E x (k + i) = some (m + i)
  | [], k, m, i, h => by rw [rpnCount] at h ⊢; rw [Option.some.inj h]
  | z :: x, k, m, i, h => by
    rw [rpnCount] at h ⊢
    generalize (if 1 ≤ z ∧ ((E.stmt z.toNat).kind = .a ∨ (E.stmt z.toNat).kind = .p) then (E.stmt z.toNat).reqHyp.length else 0) = r at h ⊢
    by_cases c : r ≤ k
    · rw [if_pos c] at h
      rw [if_pos (by omega), show k + i - r + 1 = (k - r + 1) + i by omega]
      exact rpn_shift x _ m i h
    · rw [if_neg c] at h; cases h

theorem rpn_pos {E : Env} : ∀ (x : List Int) (k m : Nat), rpnCount E x k = some m → 0 < k ∨ x ≠ [] → 0 < m
  | [], k, m, h, hk => by
    rw [rpnCount] at h
    rw [← Option.some.inj h]
    exact hk.resolve_right (fun h => h rfl)
  | z :: x, k, m, h, _ => by
    rw [rpnCount] at h
    generalize (if 1 ≤ z ∧ ((E.stmt z.toNat).kind = .a ∨ (E.stmt z.toNat).kind = .p) then (E.stmt z.toNat).reqHyp.length else 0) = r at h
    split at h
    · exact rpn_pos x _ m h (Or.inl (by omega))
    · cases h

/-- A step has one subproof. -/
theorem isSub_unique {E : Env} {proof : List Int} {b c j : Nat} (hb : IsSub E proof b j) (hc : IsSub E proof c j) : b = c := by
  have key : ∀ {b c}, IsSub E proof b j → IsSub E proof c j → ¬ b < c := by
    intro b c ⟨b1, b2, b3⟩ ⟨c1, c2, c3⟩ hlt
    have e : seg proof b j = (seg proof b j).take (c - b) ++ seg proof c j := by
      have : seg proof c j = (seg proof b j).drop (c - b) := by
        unfold seg
        rw [List.drop_drop]
        congr 1
        omega
      rw [this, List.take_append_drop]
    rw [e, rpn_append] at b3
    cases h : rpnCount E ((seg proof b j).take (c - b)) 0 with
    | none => rw [h] at b3; cases b3
    | some m =>
      rw [h] at b3
      have b3 : rpnCount E (seg proof c j) m = some 1 := b3
      have := rpn_shift _ 0 1 m c3
      rw [Nat.zero_add, b3] at this
      have h0 := Option.some.inj this
      have := rpn_pos _ 0 m h (Or.inr (fun e => by
        have := congrArg List.length e
        unfold seg at this
        simp only [List.length_take, List.length_drop, List.length_nil] at this
        omega))
      omega
  have h1 := key hb hc
  have h2 := key hc hb
  omega

theorem isSub_len {E : Env} {p : Pip} {f : AF} (hr : Rep p f) (hA : All (Shape E) f) {len : Nat → Nat} (hL : Lens E p.proof len) {j : Nat} (hj : j < p.proof.length) :
    IsSub E p.proof (j + 1 - len j) j := by
  obtain ⟨l1, l2⟩ := hL.pos j hj
  refine ⟨by omega, hj, ?_⟩
  obtain ⟨c, x, ch, e, hi⟩ := locate f (i := j) (by rw [hr.proof] at hj; simpa using hj)
  obtain ⟨h1, h2⟩ := all_plug (e ▸ hA)
  have hlen := hL.val j hj
  have := subproofLen_at h1 h2 (proof := p.proof) (pre := c.pre.map Node.stmt) (post := c.post.map Node.stmt) (by rw [hr.proof, e, flat_plug]; simp)
  rw [List.length_map, ← hi, hlen] at this
  have := Out.val.inj this
  have hs : seg p.proof (j + 1 - len j) j = (AF.snoc .nil x ch).flat.map Node.stmt ++ [] := by
    unfold seg
    rw [hr.proof, e, flat_plug, show j + 1 - len j = c.pre.length by omega]
    have e4 : (c.pre ++ ch.flat ++ [x] ++ c.post).map Node.stmt = (c.pre.map Node.stmt ++ (ch.flat.map Node.stmt ++ [x.stmt])) ++ c.post.map Node.stmt := by simp
    rw [e4, List.take_left' (by simp; omega), List.drop_left' (by simp)]
    simp [AF.flat]
  rw [hs, rpn_af (f := .snoc .nil x ch) ⟨trivial, h1, h2⟩]
  simp [AF.count, rpnCount]

/-- C90: `getIndepKnownSteps` ends without an internal error, and offers exactly the steps that may be used again. -/
theorem C90_steps_offered (h : Improve2 src s look X U) (ha : Here X U N a) (ref : Nat) :
    ∃ l, getIndepKnownSteps X.E a.pip ref = .val l ∧ l.length = a.pip.proof.length ∧
      ∀ j < a.pip.proof.length, ∃ b, IsSub X.E a.pip.proof b j ∧ (∀ c, IsSub X.E a.pip.proof c j → c = b) ∧ (l.getD j false = true ↔ Reusable X.E a.pip ref b j) := by
  obtain ⟨⟨f, hr, hA, hc⟩, hF⟩ := forest h ha
  obtain ⟨len, l, hL, l1, l2, l3⟩ := indepKnown_val hr hA hc hF ref
  refine ⟨l, l1, l2, fun j hj => ?_⟩
  have hs := isSub_len hr hA hL hj
  refine ⟨j + 1 - len j, hs, fun c hc => isSub_unique hc hs, ?_⟩
  rw [l3 j hj]
  obtain ⟨p1, p2⟩ := hL.pos j hj
  have hsep : a.pip.target.getD j [] ∈ a.pip.target := by
    have : j < a.pip.target.length := by rw [hr.target, List.length_map]; rw [hr.proof, List.length_map] at hj; exact hj
    rw [List.getD_eq_getElem _ _ this]
    exact List.getElem_mem this
  have hns := (rdy h ha).ns _ hsep
  unfold Offered Reusable Has seg
  constructor
  · rintro ⟨h1, h2, h3, h4, h5, h6⟩
    refine ⟨h1, fun h => h2 ⟨by omega, h.2⟩, h3, h4, fun t ht => ?_, h6⟩
    have h7 := h5 t ht
    have h8 : t ≠ X.E.sep := fun e => hns (e ▸ ht)
    omega
  · rintro ⟨h1, h2, h3, h4, h5, h6⟩
    exact ⟨h1, fun h => h2 ⟨by omega, h.2⟩, h3, h4, fun t ht => Nat.le_of_lt (h5 t ht), h6⟩

/-- C90: `getKnownSubProofs` ends without an internal error, and tells for every step whether its subproof has an unknown step. -/
theorem C90_known_subproofs (h : Improve2 src s look X U) (ha : Here X U N a) :
    ∃ l, getKnownSubProofs X.E a.pip = .val l ∧ l.length = a.pip.proof.length ∧
      ∀ b j, IsSub X.E a.pip.proof b j → (l.getD j false = true ↔ unk ∉ seg a.pip.proof b j) := by
  obtain ⟨⟨f, hr, hA, hc⟩, hF⟩ := forest h ha
  refine ⟨flags f, known_val hA hc hr, by rw [flags_length, hr.proof, List.length_map], fun b j hb => ?_⟩
  obtain ⟨len, hL, hlen⟩ := lens_forest hA hr.proof
  have hj := hb.2.1
  obtain rfl := isSub_unique hb (isSub_len hr hA hL hj)
  obtain ⟨c, x, ch, e, hi⟩ := locate f (i := j) (by rw [hr.proof] at hj; simpa using hj)
  have hlj : len j = ch.flat.length + 1 := by rw [hi]; exact hlen c x ch e
  have hs : seg a.pip.proof (j + 1 - len j) j = ch.flat.map Node.stmt ++ [x.stmt] := by
    unfold seg
    rw [hlj, hr.proof, e, flat_plug, show j + 1 - (ch.flat.length + 1) = c.pre.length by omega]
    have e4 : (c.pre ++ ch.flat ++ [x] ++ c.post).map Node.stmt = (c.pre.map Node.stmt ++ (ch.flat.map Node.stmt ++ [x.stmt])) ++ c.post.map Node.stmt := by simp
    rw [e4, List.take_left' (by simp; omega), List.drop_left' (by simp)]
  have hfa : (flags f).getD j false = kt x ch := by rw [hi, e]; exact flag_at c x ch
  rw [hfa, hs]
  unfold kt kn
  rw [Bool.and_eq_true, List.all_eq_true, decide_eq_true_eq]
  constructor
  · rintro ⟨h1, h2⟩ h
    rcases List.mem_append.mp h with h | h
    · obtain ⟨y, hy, e⟩ := List.mem_map.mp h
      have := h1 y hy
      rw [decide_eq_true_eq] at this
      exact this e
    · exact h2 (List.mem_singleton.mp h).symm
  · intro h
    exact ⟨fun y hy => decide_eq_true fun e => h (List.mem_append_left _ (List.mem_map.mpr ⟨y, hy, e⟩)), fun e => h (List.mem_append_right _ (List.mem_singleton.mpr e.symm))⟩

/-! ### The search -/

theorem known_whole (h : Improve2 src s look X U) (ha : Here X U N a) {ref : Nat} {l : List Bool} (hl : getIndepKnownSteps X.E a.pip ref = .val l) : Known (at' X a) (wholeRange a.pip l) := by
  obtain ⟨⟨f, hr, hA, hc⟩, hF⟩ := forest h ha
  obtain ⟨len, l', hL, l1, l2, l3⟩ := indepKnown_val hr hA hc hF ref
  rw [hl] at l1
  obtain rfl := Out.val.inj l1
  intro k q hk hb hq hu
  have hR := (rdy h ha).ready
  unfold testProof at hq
  by_cases c : k < ((at' X a).E.stmt (at' X a).prove).reqHyp.length
  · rw [if_pos c] at hq
    obtain rfl := (Out.val.inj hq).symm
    have := List.mem_singleton.mp hu
    unfold unk at this
    omega
  · rw [if_neg c] at hq
    unfold barred at hb
    rw [decide_eq_true (by omega), Bool.true_and, Bool.not_eq_false'] at hb
    unfold wholeRange at hb hq hk
    dsimp only at hb hq
    rw [Nat.zero_add] at hb hq
    generalize hjd : k - ((at' X a).E.stmt (at' X a).prove).reqHyp.length = j at hb hq
    have hj : j < a.pip.proof.length := by
      apply Classical.byContradiction
      intro hn
      rw [List.getD_eq_default _ _ (by omega)] at hb
      cases hb
    have hO := (l3 j hj).mp hb
    obtain ⟨cx, x, ch, e, hi⟩ := locate f (i := j) (by rw [hr.proof] at hj; simpa using hj)
    have hr' : Rep a.pip (cx.plug x ch) := e ▸ hr
    have hA' : All (Shape (at' X a).E) (cx.plug x ch) := e ▸ hA
    obtain ⟨len', s1, s2⟩ := seg_at (X := at' X a) hr' hA'
    rw [← hi] at s1 s2
    have hq : (subproofLen X.E a.pip.proof j >>= fun len => nmbrSeg a.pip.proof ((j : Int) - len + 2) ((j : Int) + 1)) = .val q := hq
    have s1 : subproofLen X.E a.pip.proof j = .val len' := s1
    rw [s1, Out.bind_val, s2] at hq
    obtain rfl := Out.val.inj hq
    rw [hL.val j hj] at s1
    have hlen := Out.val.inj s1
    obtain ⟨h1, h2⟩ := all_plug hA'
    have := subproofLen_at h1 h2 (proof := a.pip.proof) (pre := cx.pre.map Node.stmt) (post := cx.post.map Node.stmt) (by rw [hr'.proof, flat_plug]; simp)
    rw [List.length_map, ← hi] at this
    have this : subproofLen X.E a.pip.proof (j : Int) = .val ((ch.flat.length : Int) + 1) := this
    rw [hL.val j hj] at this
    have := Out.val.inj this
    refine hO.2.2.2.2.2 ?_
    rw [hr'.proof, flat_plug, show j + 1 - len j = cx.pre.length by omega]
    have e4 : (cx.pre ++ ch.flat ++ [x] ++ cx.post).map Node.stmt = (cx.pre.map Node.stmt ++ (ch.flat.map Node.stmt ++ [x.stmt])) ++ cx.post.map Node.stmt := by simp
    rw [e4, List.take_left' (by simp; omega), List.drop_left' (by simp)]
    simpa [AF.flat] using hu

/-- What the loop over the statements returns is what it got for one of them; the earlier ones gave nothing. -/
theorem trialLoop_inv {X : Impr.Ctx} {step : Nat} {m : List Nat} : ∀ {c i : Nat} {q : List Int}, trialLoop X n cnt step m c i = .val q → q ≠ [] →
    ∃ k, i ≤ k ∧ k < i + c ∧ trial X n (cnt k) step m k = .val q ∧ ∀ j, i ≤ j → j < k → trial X n (cnt j) step m j = .val []
  | 0, i, q, h, hne => absurd (Out.val.inj h).symm hne
  | c + 1, i, q, h, hne => by
    rw [trialLoop] at h
    obtain ⟨r, r1, h⟩ := bind_inv h
    by_cases e : r = []
    · rw [if_pos e] at h
      obtain ⟨k, h1, h2, h3, h4⟩ := trialLoop_inv h hne
      refine ⟨k, by omega, by omega, h3, fun j j1 j2 => ?_⟩
      by_cases ej : j = i
      · rw [ej, r1, e]
      · exact h4 j (by omega) j2
    · rw [if_neg e] at h
      obtain rfl := Out.val.inj h
      exact ⟨i, Nat.le_refl _, by omega, r1, fun j j1 j2 => by omega⟩

theorem trial_inv {X : Impr.Ctx} {c : Nat → Nat} {step i : Nat} {m : List Nat} {q : List Int} (h : trial X n c step m i = .val q) (hne : q ≠ []) :
    quick X.E i m = .val true ∧ ¬ (X.override = 0 ∧ X.disc i = true) ∧ X.other i = false ∧ (X.noDist = true → (X.E.stmt i).reqDisj = []) ∧
    ∃ l, getIndepKnownSteps X.E X.pip step = .val l ∧ replaceStatement X n (wholeRange X.pip l) c i step = .val q := by
  unfold trial at h
  obtain ⟨b, b1, h⟩ := bind_inv h
  by_cases c1 : b = false
  · rw [if_pos c1] at h; exact absurd (Out.val.inj h).symm hne
  rw [if_neg c1] at h
  by_cases c2 : X.override = 0 ∧ X.disc i = true
  · rw [if_pos c2] at h; exact absurd (Out.val.inj h).symm hne
  rw [if_neg c2] at h
  by_cases c3 : X.other i = true
  · rw [if_pos c3] at h; exact absurd (Out.val.inj h).symm hne
  rw [if_neg c3] at h
  by_cases c4 : X.noDist = true ∧ (X.E.stmt i).reqDisj ≠ []
  · rw [if_pos c4] at h; exact absurd (Out.val.inj h).symm hne
  rw [if_neg c4] at h
  obtain ⟨l, l1, h⟩ := bind_inv h
  exact ⟨by rw [b1]; simpa using c1, c2, by simpa using c3, fun e => Classical.byContradiction fun hn => c4 ⟨e, hn⟩, l, l1, h⟩

theorem target_val {p : Pip} {step : Nat} {m : List Nat} (ht : p.target[step]? = some m) : getF p.target step = .val m := by
  obtain ⟨h1, h2⟩ := List.getElem?_eq_some_iff.mp ht
  unfold getF
  rw [if_pos ⟨by omega, by simpa using h1⟩]
  congr 1
  rw [Int.toNat_natCast, List.getD_eq_getElem _ _ h1]
  exact h2

theorem good_found (h : Improve2 src s look X U) (ha : Here X U N a) {step : Nat} {m : List Nat} (ht : a.pip.target[step]? = some m) (hm : Formula src m) {q : List Int}
    (hq : proveByReplacement (at' X a) n cnt step = .val q) (hne : q ≠ []) : Good (at' X a) (fun _ _ => False) m q := by
  have ht' := target_val ht
  unfold proveByReplacement at hq
  rw [show (at' X a).pip.target = a.pip.target from rfl, ht', Out.bind_val] at hq
  obtain ⟨k, k1, k2, k3, _⟩ := trialLoop_inv hq hne
  obtain ⟨_, _, _, hd, l, hl, hr⟩ := trial_inv k3 hne
  refine replace_sound (rdy h ha) (pip h ha) ⟨k1, ?_⟩ hd ht' ⟨hm.1, fun t htm => ?_⟩ hr hne (Or.inr (known_whole h ha hl))
  · show k < X.prove
    have k2 : k < 1 + (X.prove - 1) := k2
    omega
  · show t < X.E.sep
    rw [h.set.env]; exact hm.2 t htm

/-- C90 (partial): what IMPROVE / 2 finds for a step is a complete proof of its target, correct but for the disjoint-variable conditions. -/
theorem C90_improve2_sound_partial (h : Improve2 src s look X U) (ha : Here X U N a) {step : Nat} {m : List Nat} (ht : a.pip.target[step]? = some m) (hm : Formula src m) {q : List Int}
    (hq : proveByReplacement (at' X a) n cnt step = .val q) (hne : q ≠ []) : Found src s X m q := by
  have hg := good_found h ha ht hm hq hne
  obtain ⟨steps, s1, s2⟩ := good_proves hg
  obtain ⟨hL, _⟩ := hg
  have hL : ∀ x ∈ q, Legal X.E X.prove x ∧ x ≠ unk := hL
  have s1 : q.map (decode X.E.toDb) = steps.map some := s1
  have s2 : Proves X.E.isVar (fun _ _ => False) (steps.map noDv) m := s2
  rw [h.set.env] at hL s1 s2
  refine ⟨fun hu => (hL _ hu).2 rfl, ?_, steps, s1, s2⟩
  intro ps hps _
  rcases (hL ps hps).1 with hu | ⟨_, _, hl⟩
  · exact absurd hu (hL ps hps).2
  · exact hl

/-- C90 (partial): with NO_DISTINCT it is correct without reservation, if the current proof cites no assertion with `$d` requirements. -/
theorem C90_no_distinct_partial (h : Improve2 src s look X U) (ha : Here X U N a) (hn : X.noDist = true)
    (hd : ∀ x ∈ a.pip.proof, kindAt (kinds src) x.toNat = .a ∨ kindAt (kinds src) x.toNat = .p → (s.stmt x.toNat).reqDisj = []) {step : Nat} {m : List Nat}
    (ht : a.pip.target[step]? = some m) (hm : Formula src m) {q : List Int} (hq : proveByReplacement (at' X a) n cnt step = .val q) (hne : q ≠ []) :
    ∃ steps : List Step, q.map (decode (toDb src s)) = steps.map some ∧ Proves (isVarOf src) (fun _ _ => False) steps m := by
  have hg := good_found h ha ht hm hq hne
  obtain ⟨steps, s1, s2⟩ := good_proves hg
  have hk := fun i => kind_env (look := look) h.set.read i
  have hnd := hg.2.1 hn fun x hx hkx => by
    have hkx : (X.E.stmt x.toNat).kind = .a ∨ (X.E.stmt x.toNat).kind = .p := hkx
    show (X.E.stmt x.toNat).reqDisj = []
    rw [h.set.env] at hkx ⊢
    rw [hk] at hkx
    exact hd x hx hkx
  rw [noDv_id s1 hnd] at s2
  have s1 : q.map (decode X.E.toDb) = steps.map some := s1
  have s2 : Proves X.E.isVar (fun _ _ => False) steps m := s2
  rw [h.set.env] at s1 s2
  exact ⟨steps, s1, s2⟩

/-- C90: it may be inserted in the current proof. -/
theorem C90_found_inserts (h : Improve2 src s look X U) (ha : Here X U N a) {step : Nat} {m : List Nat} (ht : a.pip.target[step]? = some m) (hm : Formula src m) {q : List Int}
    (hq : proveByReplacement (at' X a) n cnt step = .val q) (hne : q ≠ []) : PAct.Ok X.E X.prove (.insert q step) :=
  good_formed (X := at' X a) (good_found h ha ht hm hq hne)

theorem mainLoop_last {X : Impr.Ctx} {R : Range} {i : Nat} {A m : List Nat} {ord : List Nat} {nE : Nat} {hs : List (List Nat)} : ∀ {f : Nat} {c : Nat → Nat} {r : MM.Unif.ResH}
    {σ : Nat → Repl.Slot} {q : List Int}, mainLoop X n R i A m ord nE hs f c r σ = .val q → q ≠ [] → q.getLast? = some (i : Int)
  | 0, _, _, _, _, h, _ => by cases h
  | _ + 1, _, .none, _, q, h, hne => absurd (Out.val.inj h).symm hne
  | _ + 1, _, .timeout, _, q, h, hne => absurd (Out.val.inj h).symm hne
  | f + 1, c, .found v, σ, q, h, hne => by
    rw [mainLoop] at h
    obtain ⟨r, r1, h⟩ := bind_inv h
    by_cases c1 : r.1 = true
    · rw [if_pos c1] at h
      split at h
      · cases h
      · rw [← Out.val.inj h]; simp
    · rw [if_neg c1] at h
      obtain ⟨r', _, h⟩ := bind_inv h
      exact mainLoop_last h hne

theorem replace_last {X : Impr.Ctx} {R : Range} {c : Nat → Nat} {i step : Nat} {q : List Int} (h : replaceStatement X n R c i step = .val q) (hne : q ≠ []) :
    q.getLast? = some (i : Int) := by
  unfold replaceStatement at h
  split at h
  · cases h
  obtain ⟨m, _, h⟩ := bind_inv h
  split at h
  · cases h
  obtain ⟨A, _, h⟩ := bind_inv h
  obtain ⟨hs, _, h⟩ := bind_inv h
  obtain ⟨r, _, h⟩ := bind_inv h
  exact mainLoop_last h hne

/-- C90: the proof found ends with an assertion before the theorem that the qualifiers permit: not one whose usage is discouraged without / OVERRIDE, not one of another mathbox, and
with NO_DISTINCT none with `$d` requirements. -/
theorem C90_permitted {X : Impr.Ctx} {step : Nat} {q : List Int} (hq : proveByReplacement X n cnt step = .val q) (hne : q ≠ []) :
    ∃ i, 1 ≤ i ∧ i < X.prove ∧ q.getLast? = some (i : Int) ∧ ((X.E.stmt i).kind = .a ∨ (X.E.stmt i).kind = .p) ∧ (X.disc i = true → X.override ≠ 0) ∧ X.other i = false ∧
      (X.noDist = true → (X.E.stmt i).reqDisj = []) := by
  unfold proveByReplacement at hq
  obtain ⟨m, _, hq⟩ := bind_inv hq
  obtain ⟨k, k1, k2, k3, _⟩ := trialLoop_inv hq hne
  obtain ⟨hqk, ho, hot, hd, l, hl, hr⟩ := trial_inv k3 hne
  refine ⟨k, k1, by omega, replace_last hr hne, ?_, fun h1 h2 => ho ⟨h2, h1⟩, hot, hd⟩
  unfold quick at hqk
  by_cases c : (X.E.stmt k).kind ≠ .p ∧ (X.E.stmt k).kind ≠ .a
  · rw [if_pos c] at hqk; cases Out.val.inj hqk
  · by_cases e : (X.E.stmt k).kind = .a
    · exact Or.inl e
    · exact Or.inr (Classical.byContradiction fun e2 => c ⟨e2, e⟩)

theorem quick_ends (h : Improve2 src s look X U) {i : Nat} {m : List Nat} (hm : m ≠ []) : ∃ b, quick X.E i m = .val b ∧ (b = true → (X.E.stmt i).kind = .a ∨ (X.E.stmt i).kind = .p) := by
  unfold quick
  by_cases c : (X.E.stmt i).kind ≠ .p ∧ (X.E.stmt i).kind ≠ .a
  · rw [if_pos c]; exact ⟨false, rfl, fun h => by cases h⟩
  have hk : (X.E.stmt i).kind = .a ∨ (X.E.stmt i).kind = .p := by
    by_cases e : (X.E.stmt i).kind = .a
    · exact Or.inl e
    · exact Or.inr (Classical.byContradiction fun e2 => c ⟨e2, e⟩)
  rw [if_neg c]
  obtain ⟨k0, l0, ec, _⟩ := ((ready_of_setting h.set).env.ass i hk).concl
  have ec : (X.E.stmt i).math = k0 :: l0 := ec
  rw [if_neg (by rintro (h | h); exact hm h; rw [ec] at h; cases h)]
  split
  · exact ⟨_, rfl, fun _ => hk⟩
  · exact ⟨_, rfl, fun _ => hk⟩

theorem trial_ends (h : Improve2 src s look X U) (ha : Here X U N a) {step : Nat} {m : List Nat} (ht : a.pip.target[step]? = some m) (hm : Formula src m) (c : Nat → Nat) (i : Nat) :
    ∃ M q, ∀ n, M ≤ n → trial (at' X a) n c step m i = .val q := by
  obtain ⟨b, b1, b2⟩ := quick_ends (i := i) h hm.1
  have b1 : quick (at' X a).E i m = .val b := b1
  have e : ∀ n, trial (at' X a) n c step m i = if b = false then .val []
      else if X.override = 0 ∧ X.disc i = true then .val []
      else if X.other i = true then .val []
      else if X.noDist = true ∧ (X.E.stmt i).reqDisj ≠ [] then .val []
      else getIndepKnownSteps X.E a.pip step >>= fun l => replaceStatement (at' X a) n (wholeRange a.pip l) c i step := by
    intro n
    unfold trial
    rw [b1]
    rfl
  by_cases c1 : b = false
  · exact ⟨0, [], fun n _ => by rw [e, if_pos c1]⟩
  by_cases c2 : X.override = 0 ∧ X.disc i = true
  · exact ⟨0, [], fun n _ => by rw [e, if_neg c1, if_pos c2]⟩
  by_cases c3 : X.other i = true
  · exact ⟨0, [], fun n _ => by rw [e, if_neg c1, if_neg c2, if_pos c3]⟩
  by_cases c4 : X.noDist = true ∧ (X.E.stmt i).reqDisj ≠ []
  · exact ⟨0, [], fun n _ => by rw [e, if_neg c1, if_neg c2, if_neg c3, if_pos c4]⟩
  obtain ⟨l, l1, _⟩ := C90_steps_offered h ha step
  have hR := rdy h ha
  have hT : Try (at' X a) (wholeRange a.pip l) := try_of hR.ready (pip h ha) (forest h ha).2 (by show a.pip.proof.length - 1 ≤ a.pip.proof.length; omega)
  obtain ⟨M, q, hM⟩ := replace_ends hR (pip h ha) hT (b2 (by simpa using c1)) c2 c (target_val ht) ⟨hm.1, fun t htm => by
    show t < X.E.sep
    rw [h.set.env]; exact hm.2 t htm⟩
  exact ⟨M, q, fun n hn => by rw [e, if_neg c1, if_neg c2, if_neg c3, if_neg c4, l1, Out.bind_val]; exact hM n hn⟩

theorem trialLoop_ends (h : Improve2 src s look X U) (ha : Here X U N a) {step : Nat} {m : List Nat} (ht : a.pip.target[step]? = some m) (hm : Formula src m) :
    ∀ c i, ∃ M q, ∀ n, M ≤ n → trialLoop (at' X a) n cnt step m c i = .val q
  | 0, i => ⟨0, [], fun _ _ => rfl⟩
  | c + 1, i => by
    obtain ⟨M, q, hM⟩ := trial_ends h ha ht hm (cnt i) i
    by_cases e : q = []
    · obtain ⟨M', q', hM'⟩ := trialLoop_ends h ha ht hm c (i + 1)
      exact ⟨max M M', q', fun n hn => by rw [trialLoop, hM n (by omega), Out.bind_val, if_pos e]; exact hM' n (by omega)⟩
    · exact ⟨M, q, fun n hn => by rw [trialLoop, hM n hn, Out.bind_val, if_neg e]⟩

/-- C90: it ends, without a crash or an internal error; `q` may be "no proof". -/
theorem C90_improve2_ends (h : Improve2 src s look X U) (ha : Here X U N a) {step : Nat} {m : List Nat} (ht : a.pip.target[step]? = some m) (hm : Formula src m) :
    ∃ M q, ∀ n, M ≤ n → proveByReplacement (at' X a) n cnt step = .val q := by
  obtain ⟨M, q, hM⟩ := trialLoop_ends (cnt := cnt) h ha ht hm (X.prove - 1) 1
  refine ⟨M, q, fun n hn => ?_⟩
  unfold proveByReplacement
  rw [show (at' X a).pip.target = a.pip.target from rfl, target_val ht, Out.bind_val]
  exact hM n hn

theorem trialLoop_tries {X : Impr.Ctx} {step : Nat} {m : List Nat} : ∀ {c i : Nat} {q : List Int}, trialLoop X n cnt step m c i = .val q →
    ∀ j, i ≤ j → j < i + c → (∃ p, trial X n (cnt j) step m j = .val p ∧ (p = [] ∨ p = q)) ∨ ∃ k < j, trial X n (cnt k) step m k = .val q ∧ q ≠ []
  | 0, _, _, _, j, _, _ => by omega
  | c + 1, i, q, h, j, h1, h2 => by
    rw [trialLoop] at h
    obtain ⟨r, r1, h⟩ := bind_inv h
    by_cases e : r = []
    · rw [if_pos e] at h
      by_cases ej : j = i
      · exact Or.inl ⟨r, by rw [ej]; exact r1, Or.inl e⟩
      · exact trialLoop_tries h j (by omega) (by omega)
    · rw [if_neg e] at h
      obtain rfl := Out.val.inj h
      by_cases ej : j = i
      · exact Or.inl ⟨r, by rw [ej]; exact r1, Or.inr rfl⟩
      · exact Or.inr ⟨i, by omega, r1, e⟩

/-- C90: no permitted assertion before the theorem is left out: unless a proof with an earlier assertion at its end was found, every one that some substitution makes the formula is tried
with the steps that are offered, and if it gives a proof, that is the answer. -/
theorem C90_in_order (h : Improve2 src s look X U) {step : Nat} {m : List Nat} (ht : a.pip.target[step]? = some m) (hm : Formula src m) {q : List Int}
    (hq : proveByReplacement (at' X a) n cnt step = .val q) {i : Nat} (h1 : 1 ≤ i) (h2 : i < X.prove) (hk : (X.E.stmt i).kind = .a ∨ (X.E.stmt i).kind = .p)
    (hd : X.disc i = true → X.override ≠ 0) (ho : X.other i = false) (hn : X.noDist = true → (X.E.stmt i).reqDisj = [])
    {σ : Nat → List Nat} (hσ : subst X.E.isVar σ (X.E.stmt i).math = m) :
    (∃ k < i, q.getLast? = some (k : Int)) ∨
      ∃ l p, getIndepKnownSteps X.E a.pip step = .val l ∧ replaceStatement (at' X a) n (wholeRange a.pip l) (cnt i) i step = .val p ∧ (p = [] ∨ p = q) := by
  unfold proveByReplacement at hq
  rw [show (at' X a).pip.target = a.pip.target from rfl, target_val ht, Out.bind_val] at hq
  rcases trialLoop_tries hq i h1 (by show i < 1 + (X.prove - 1); omega) with ⟨p, hp, e⟩ | ⟨k, hk1, hk2, hne⟩
  · obtain ⟨b, b1, _⟩ := quick_ends (i := i) h hm.1
    have hb : b = true := by
      cases b with
      | true => rfl
      | false => exact absurd hσ (MM.Impr.C74_quick_filter b1 hk σ)
    have b1 : quick (at' X a).E i m = .val b := b1
    unfold trial at hp
    rw [b1, Out.bind_val, if_neg (by rw [hb]; decide), if_neg (by rintro ⟨e1, e2⟩; exact hd e2 e1), if_neg (by show ¬ X.other i = true; rw [ho]; decide),
      if_neg (by rintro ⟨e1, e2⟩; exact e2 (hn e1))] at hp
    obtain ⟨l, l1, hp⟩ := bind_inv hp
    exact Or.inr ⟨l, p, l1, hp, e⟩
  · obtain ⟨_, _, _, _, l, _, hr⟩ := trial_inv hk2 hne
    exact Or.inl ⟨k, hk1, replace_last hr hne⟩

end MM.Byrep
