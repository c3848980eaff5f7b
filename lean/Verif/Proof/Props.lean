import Verif.Proof.Sound
import Verif.Pars.Props
/-!
# Properties C07, C08, C10, C11, C39: from the source text to the verdict

A source accepted by READ (`Accepted src s`), and the tokens of the proof section of its `$p` statement number `p`.
`look` stands for the table search of the C library (`LookOk`).
-/
namespace MM.Proof
open MM.Veri MM.Pars MM.Spec

/-- Label of statement `i`; empty if it has none. -/
def srcLabel (src : List Src) (i : Nat) : Name := if i = 0 then [] else ((src.map Src.label).getD (i - 1) [])

/-- What `parseProof` sees after READ. -/
def envOf (look : Look) (src : List Src) (s : PState) : Env := { toDb src s with lab := srcLabel src, n := src.length, look := look }

/-- What a step of a proof refers to. -/
inductive Ref where
  /-- statement `j` -/
  | stmt (j : Nat)
  /-- the result of the earlier step `i` (counted from 0) -/
  | step (i : Nat)
deriving Repr, DecidableEq

/-- How the program stores it in the proof string. -/
def Ref.code : Ref → Int
  | .stmt j => j
  | .step i => -1000 - i

/-- The token of step `k` of a proof of `p` names the thing: an active hypothesis of `p` with that label, an earlier step for which that local
label was declared, or an assertion before `p` with that label. -/
inductive Names (src : List Src) (p : Nat) (items : List Item) (k : Nat) (tok : Name) : Ref → Prop
  | hyp (j : Nat) : Active (kinds src) j p → kindAt (kinds src) j = .e ∨ kindAt (kinds src) j = .f → srcLabel src j = tok →
      Names src p items k tok (.stmt j)
  | step (i : Nat) (x : Item) : i < k → items[i]? = some x → tok ∈ x.labels → Names src p items k tok (.step i)
  | use (j : Nat) : j < p → IsAssert src j → srcLabel src j = tok → Names src p items k tok (.stmt j)

variable {src : List Src} {s : PState} {look : Look} {p : Nat}

theorem kindAt_pos {ks : List Kind} {i : Nat} (h : kindAt ks i ≠ .none) : 1 ≤ i ∧ i ≤ ks.length := by
  unfold kindAt at h
  split at h
  · exact absurd rfl h
  · refine ⟨by omega, ?_⟩
    by_contra hc
    rw [List.getD_eq_default _ _ (by omega)] at h
    exact h rfl

theorem mem_hyps_iff (h : Accepted src s) (hp : kindAt (kinds src) p = .p) (j : Nat) :
    j ∈ ((envOf look src s).stmt p).reqHyp ++ ((envOf look src s).stmt p).optHyp ↔
      Active (kinds src) j p ∧ (kindAt (kinds src) j = .e ∨ kindAt (kinds src) j = .f) := by
  obtain ⟨_, h2, h3⟩ := C12_mandatory_hyps h (i := p) (Or.inr hp)
  obtain ⟨_, h4⟩ := h3 hp
  have e1 : ((envOf look src s).stmt p).reqHyp = (s.stmt p).reqHyp := rfl
  have e2 : ((envOf look src s).stmt p).optHyp = (s.stmt p).optHyp := rfl
  rw [List.mem_append, e1, e2, h2 j, h4 j]
  unfold MandHyp OptHyp
  by_cases hm : ∃ v ∈ s.math j, Mandatory (isVarOf src) (kinds src) s.math p v
  · have : ¬ ∀ v ∈ s.math j, ¬ Mandatory (isVarOf src) (kinds src) s.math p v := fun hc => by
      obtain ⟨v, h1, h2⟩ := hm; exact hc v h1 h2
    simp only [hm, this, and_true, and_false, or_false]
  · have : ∀ v ∈ s.math j, ¬ Mandatory (isVarOf src) (kinds src) s.math p v := fun v hv hc => hm ⟨v, hv, hc⟩
    rw [eq_true this, eq_false hm]
    tauto

theorem kind_env (h : Accepted src s) (i : Nat) : ((envOf look src s).stmt i).kind = kindAt (kinds src) i := kind_toDb h i

theorem hypKinds_of_parse (h : Accepted src s) (hp : kindAt (kinds src) p = .p) : HypKinds (envOf look src s).toDb p := by
  intro j hj
  obtain ⟨h1, h2⟩ := (mem_hyps_iff (look := look) h hp j).mp hj
  exact ⟨h1.1, by rw [kind_env h]; exact h2⟩

/-- **C11** A proof that `parseProof` accepts (return code 0, or 1 for an incomplete proof) cites only hypotheses active for the statement and
assertions that strictly precede it. -/
theorem C11_cites_only_earlier (h : Accepted src s) (hl : LookOk look) (hp : kindAt (kinds src) p = .p)
    {toks : List Name} {r : Parsed} (hr : parseProof (envOf look src s) p toks = .val r) (hret : r.ret < 2) :
    ∀ ps ∈ r.proof, 0 ≤ ps → (Active (kinds src) ps.toNat p ∧ (kindAt (kinds src) ps.toNat = .e ∨ kindAt (kinds src) ps.toNat = .f)) ∨
      (ps.toNat < p ∧ IsAssert src ps.toNat) := by
  intro ps hps h0
  have := (parseProof_ok (E := envOf look src s) hl (hypKinds_of_parse h hp) hr hret).1 ps hps h0
  rcases this with ⟨h1, _⟩ | ⟨h1, h2⟩
  · exact Or.inl ((mem_hyps_iff (look := look) h hp _).mp h1)
  · refine Or.inr ⟨h1, ?_⟩
    rw [kind_env h] at h2
    exact h2

/-- The citation graph of the proofs `prf`, one for each `$p` statement: `a` is cited in the proof of `b`. -/
def CitedBy (src : List Src) (prf : Nat → List Int) (a b : Nat) : Prop :=
  kindAt (kinds src) b = .p ∧ IsAssert src a ∧ (a : Int) ∈ prf b

/-- **C11**, acyclicity: if every proof was accepted, no statement is, directly or indirectly, used in its own proof. -/
theorem C11_acyclic (h : Accepted src s) (hl : LookOk look) {toks : Nat → List Name} {prf : Nat → List Int}
    (hr : ∀ p, kindAt (kinds src) p = .p → ∃ r, parseProof (envOf look src s) p (toks p) = .val r ∧ r.ret < 2 ∧ prf p = r.proof) (a : Nat) :
    ¬ Relation.TransGen (CitedBy src prf) a a := by
  have key : ∀ a b, Relation.TransGen (CitedBy src prf) a b → a < b := by
    intro a b hab
    have one : ∀ a b, CitedBy src prf a b → a < b := by
      rintro a b ⟨hb, ha, hm⟩
      obtain ⟨r, h1, h2, h3⟩ := hr b hb
      rw [h3] at hm
      rcases C11_cites_only_earlier h hl hb h1 h2 _ hm (by omega) with ⟨_, h4⟩ | ⟨h4, _⟩
      · rw [Int.toNat_natCast] at h4
        rcases ha with ha | ha <;> rcases h4 with h4 | h4 <;> rw [ha] at h4 <;> cases h4
      · simpa using h4
    induction hab with
    | single h => exact one _ _ h
    | tail _ h ih => exact Nat.lt_trans ih (one _ _ h)
  intro hc
  exact Nat.lt_irrefl _ (key a a hc)

/-- **C10**, parser part: a proof with an unknown step never gets return code 0. -/
theorem C10_unknown_step_is_flagged (hl : LookOk look) {toks : List Name} (hc : Colons toks) {r : Parsed}
    (hr : parseProof (envOf look src s) p toks = .val r) (hq : ∃ t ∈ toks, t.head? = some '?') : 1 ≤ r.ret := by
  by_contra hcon
  obtain ⟨items, h1, h2, h3, h4⟩ := parseProof_refers (E := envOf look src s) hl hc hr (by omega)
  obtain ⟨t, ht, hq⟩ := hq
  rw [h1] at ht
  obtain ⟨x, hx, htx⟩ := List.mem_flatMap.mp ht
  have hlegal : legalLabelChar '?' = false := by decide
  rcases List.mem_append.mp htx with h5 | h5
  · obtain ⟨l, hl1, hl2⟩ := List.mem_flatMap.mp h5
    simp only [List.mem_cons, List.not_mem_nil, or_false] at hl2
    rcases hl2 with rfl | rfl
    · have := ((h3 x hx).1 t hl1).1
      cases t with
      | nil => cases hq
      | cons c cs =>
        simp at hq; subst hq
        have := this '?' (by simp)
        rw [hlegal] at this; cases this
    · cases hq
  · rw [List.mem_singleton] at h5
    subst h5
    obtain ⟨k, hk⟩ := List.mem_iff_getElem?.mp hx
    have hkl : k < r.proof.length := by
      rw [← h2]; by_contra hc; rw [List.getElem?_eq_none (by omega)] at hk; cases hk
    exact (h4 k x _ hk (List.getElem?_eq_getElem hkl)).2.2 hq

/-- **C39** What the tokens of an accepted proof mean.  If `parseProof` returns 0, the tokens are a sequence of steps with local label
declarations (`text items`), and every step is stored as the statement or earlier step its token names. Local labels are declared for
assertion steps only. -/
theorem C39_tokens_resolved (h : Accepted src s) (hl : LookOk look) (hp : kindAt (kinds src) p = .p) {toks : List Name} (hc : Colons toks)
    {r : Parsed} (hr : parseProof (envOf look src s) p toks = .val r) (hret : r.ret = 0) :
    ∃ (items : List Item) (refs : List Ref), toks = text items ∧ r.proof = refs.map Ref.code ∧ refs.length = items.length ∧
      ∀ k x ref, items[k]? = some x → refs[k]? = some ref → Names src p items k x.tok ref ∧
        (x.labels ≠ [] → ∃ j, ref = .stmt j ∧ IsAssert src j) := by
  obtain ⟨items, h1, h2, h3, h4⟩ := parseProof_refers (E := envOf look src s) hl hc hr hret
  have hstep : ∀ k x ps, items[k]? = some x → r.proof[k]? = some ps → ∃ ref : Ref, ref.code = ps ∧ Names src p items k x.tok ref ∧
      (x.labels ≠ [] → ∃ j, ref = .stmt j ∧ IsAssert src j) := by
    intro k x ps hx hps
    obtain ⟨h5, h6, _⟩ := h4 k x ps hx hps
    cases h5 with
    | hyp j hj hjl =>
      obtain ⟨h7, h8⟩ := (mem_hyps_iff (look := look) h hp j).mp hj
      refine ⟨.stmt j, rfl, .hyp j h7 h8 hjl, fun hn => ⟨j, rfl, ?_⟩⟩
      have := (h6 hn).2
      rw [Int.toNat_natCast, kind_env h] at this
      exact this
    | back i y hik hy hyl =>
      refine ⟨.step i, rfl, .step i y hik hy hyl, fun hn => ?_⟩
      have := (h6 hn).1
      omega
    | use j hj1 hj2 hj3 hj4 hj5 =>
      rw [kind_env h] at hj3
      exact ⟨.stmt j, rfl, .use j hj2 hj3 hj4, fun _ => ⟨j, rfl, hj3⟩⟩
  -- choose the references
  have hex : ∀ k, ∃ ref : Ref, ∀ x ps, items[k]? = some x → r.proof[k]? = some ps → ref.code = ps ∧ Names src p items k x.tok ref ∧
      (x.labels ≠ [] → ∃ j, ref = .stmt j ∧ IsAssert src j) := by
    intro k
    cases hx : items[k]? with
    | none => exact ⟨.step 0, fun x ps h => by cases h⟩
    | some x =>
      have hk : k < r.proof.length := by
        rw [← h2]; by_contra hc; rw [List.getElem?_eq_none (by omega)] at hx; cases hx
      obtain ⟨ref, hr⟩ := hstep k x _ hx (List.getElem?_eq_getElem hk)
      exact ⟨ref, fun y ps hy hps => by cases hy; rw [List.getElem?_eq_getElem hk] at hps; cases hps; exact hr⟩
  choose f hf using hex
  have hget : ∀ k ref, ((List.range items.length).map f)[k]? = some ref → k < items.length ∧ ref = f k := by
    intro k ref hk
    rw [List.getElem?_map] at hk
    rcases Nat.lt_or_ge k items.length with hlt | hge
    · rw [List.getElem?_range hlt] at hk
      exact ⟨hlt, by simpa using hk.symm⟩
    · rw [List.getElem?_eq_none (by simpa using hge)] at hk; cases hk
  refine ⟨items, (List.range items.length).map f, h1, ?_, by simp, ?_⟩
  · apply List.ext_getElem?
    intro k
    rw [List.getElem?_map, List.getElem?_map]
    rcases Nat.lt_or_ge k items.length with hlt | hge
    · rw [List.getElem?_range hlt, List.getElem?_eq_getElem (by omega)]
      have := (hf k _ _ (List.getElem?_eq_getElem hlt) (List.getElem?_eq_getElem (l := r.proof) (by omega))).1
      simp [this]
    · rw [List.getElem?_eq_none (by omega), List.getElem?_eq_none (l := List.range items.length) (by simpa using hge)]
      rfl
  · intro k x ref hx hk
    obtain ⟨hlt, rfl⟩ := hget k ref hk
    exact (hf k x _ hx (List.getElem?_eq_getElem (l := r.proof) (by omega))).2

/-! ## Soundness, from source text to derivability -/

/-- The string is the math string of an active hypothesis of statement `p`. -/
def ActiveHyp (src : List Src) (s : PState) (p : Nat) (e : List Nat) : Prop :=
  ∃ j, Active (kinds src) j p ∧ (kindAt (kinds src) j = .e ∨ kindAt (kinds src) j = .f) ∧ e = s.math j

/-- `A` is an assertion, with its mandatory frame according to the specification, made by a statement before `p`. -/
def EarlierAssertion (src : List Src) (s : PState) (p : Nat) (A : Assertion) : Prop :=
  ∃ i, i < p ∧ IsAssertion (isVarOf src) (kinds src) s.math i A

theorem isAssertion_frame (h : Accepted src s) {i : Nat} (hi : IsAssert src i) :
    IsAssertion (isVarOf src) (kinds src) s.math i (frameOf (toDb src s) i) := by
  obtain ⟨h1, h2, _⟩ := C12_mandatory_hyps h hi
  obtain ⟨_, h4, _⟩ := C13_disjoint_pairs h hi
  exact ⟨hi, rfl, ⟨_, h1, h2, rfl⟩, h4⟩

theorem declared_iff (h : Accepted src s) (hp : kindAt (kinds src) p = .p) (a b : Nat) (hab : a ≠ b) :
    Declared (toDb src s) p a b ↔ DvDeclared (kinds src) s.math p a b := by
  obtain ⟨_, h2, h3⟩ := C13_disjoint_pairs h (i := p) (Or.inr hp)
  obtain ⟨_, h4⟩ := h3 hp
  have key : ∀ a b, (a, b) ∈ ((toDb src s).stmt p).reqDisj ++ ((toDb src s).stmt p).optDisj ↔ a < b ∧ DvDeclared (kinds src) s.math p a b := by
    intro a b
    have e1 : ((toDb src s).stmt p).reqDisj = (s.stmt p).reqDisj := rfl
    have e2 : ((toDb src s).stmt p).optDisj = (s.stmt p).optDisj := rfl
    rw [List.mem_append, e1, e2, h2 a b, h4 a b]
    tauto
  have hsym : DvDeclared (kinds src) s.math p b a ↔ DvDeclared (kinds src) s.math p a b := by
    unfold DvDeclared
    constructor <;> rintro ⟨j, h1, h2, h3, h4⟩ <;> exact ⟨j, h1, h2, h4, h3⟩
  unfold Declared
  rw [key, key, hsym]
  constructor
  · rintro (h | h) <;> exact h.2
  · intro h
    rcases Nat.lt_or_gt_of_ne hab with h1 | h1
    · exact Or.inl ⟨h1, h⟩
    · exact Or.inr ⟨h1, h⟩

theorem Derivable.mono {isVar : Nat → Bool} {H H' : List Nat → Prop} {Ax Ax' : Assertion → Prop} {dv dv' : Nat → Nat → Prop} {f : List Nat}
    (hd : Derivable isVar H Ax dv f) (h1 : ∀ e, H e → H' e) (h2 : ∀ A, Ax A → Ax' A) (h3 : ∀ a b, a ≠ b → dv a b → dv' a b) :
    Derivable isVar H' Ax' dv' f := by
  induction hd with
  | hyp e he => exact .hyp e (h1 e he)
  | app A σ hA hdv _ ih => exact .app A σ (h2 A hA) (DvOk.mono h3 hdv) ih

/-- **C07** Soundness.  READ accepted the source, and neither parsing nor verifying the proof of statement `p` printed a message, and the
verifier's return code is 0 (so there is no unknown step).  Then the statement is derivable, in the sense of the Metamath
specification, from its active hypotheses and the earlier assertions, under the disjointness declared by the active `$d` statements. -/
theorem C07_accepted_is_derivable (h : Accepted src s) (hl : LookOk look) (hp : kindAt (kinds src) p = .p) {toks : List Name} {r : Parsed}
    (hr : parseProof (envOf look src s) p toks = .val r) (hquiet : r.ec = 0)
    {out : VerifyOut} (hv : verifyProof (toDb src s) p r.proof r.ret r.ec = .val out) (hret : out.ret = 0) (hmsgs : out.msgs = []) :
    Derivable (isVarOf src) (ActiveHyp src s p) (EarlierAssertion src s p) (DvDeclared (kinds src) s.math p) (s.math p) := by
  have hr1 := parseProof_quiet hr hquiet
  obtain ⟨h1, h2, _, _⟩ := parseProof_ok (E := envOf look src s) hl (hypKinds_of_parse h hp) hr (by omega)
  rw [hquiet] at hv
  have hd := C07_verified_is_derivable (db := toDb src s) tok_sep (by rw [kind_toDb h]; exact hp) (by omega) (dvOrdered_of_parse h hp)
    (fun ps _ => goodRef_of_parse h ps) h2 h1 hv hret hmsgs
  refine Derivable.mono hd ?_ ?_ (fun a b hab => (declared_iff h hp a b hab).mp)
  · rintro e ⟨k, hk, rfl⟩
    obtain ⟨h3, h4⟩ := (mem_hyps_iff (look := look) h hp k).mp hk
    exact ⟨k, h3, h4, rfl⟩
  · rintro A ⟨i, hi, hk, rfl⟩
    rw [kind_toDb h] at hk
    exact ⟨i, hi, isAssertion_frame h hk⟩

/-! ## Completeness, from source text to the verdict -/

/-- Labels of the source: no two statements share one, and exactly the `$e`, `$f`, `$a` and `$p` statements have one.  (READ reports an error
otherwise: C16.) -/
structure SrcLabels (src : List Src) : Prop where
  uniq : ∀ i j, 1 ≤ i → i ≤ src.length → 1 ≤ j → j ≤ src.length → srcLabel src i ≠ [] → srcLabel src i = srcLabel src j → i = j
  kinds : ∀ i, 1 ≤ i → i ≤ src.length → (srcLabel src i ≠ [] ↔ kindAt (kinds src) i = .e ∨ kindAt (kinds src) i = .f ∨ IsAssert src i)

/-- The characters allowed in labels: letters, digits, `-`, `_` and `.`. -/
def LabelChar (c : Char) : Prop := ('A' ≤ c ∧ c ≤ 'Z') ∨ ('a' ≤ c ∧ c ≤ 'z') ∨ ('0' ≤ c ∧ c ≤ '9') ∨ c = '-' ∨ c = '_' ∨ c = '.'

instance : DecidablePred LabelChar := fun c => by unfold LabelChar; infer_instance

theorem labelChar_iff (c : Char) : legalLabelChar c = true ↔ LabelChar c := by
  unfold legalLabelChar LabelChar Char.isAlphanum Char.isAlpha Char.isUpper Char.isLower Char.isDigit
  simp only [Bool.or_eq_true, Bool.and_eq_true, decide_eq_true_eq, beq_iff_eq, Char.le_def, ge_iff_le, or_assoc]

/-- A well-formed proof text: local labels consist of legal characters, are pairwise distinct and differ from the labels of all statements
up to `p`; the tokens do not start with `?` or `:`. -/
structure GoodText (src : List Src) (p : Nat) (items : List Item) : Prop where
  legal : ∀ x ∈ items, ∀ l ∈ x.labels, l ≠ [] ∧ ∀ c ∈ l, LabelChar c
  fresh : ∀ x ∈ items, ∀ l ∈ x.labels, ∀ j, 1 ≤ j → j ≤ p → srcLabel src j ≠ l
  nodup : (items.flatMap Item.labels).Nodup
  toks : ∀ x ∈ items, x.tok.head? ≠ some ':' ∧ x.tok.head? ≠ some '?'

/-- What a reference means as a step of the specification. -/
inductive Means (src : List Src) (s : PState) : Ref → Step → Prop
  | hyp (j : Nat) : kindAt (kinds src) j = .e ∨ kindAt (kinds src) j = .f → Means src s (.stmt j) (.hyp (s.math j))
  | use (j : Nat) (A : Assertion) : IsAssertion (isVarOf src) (kinds src) s.math j A → Means src s (.stmt j) (.use A)
  | back (i : Nat) : Means src s (.step i) (.back i)

theorem labelsOk_of (h : Accepted src s) (hL : SrcLabels src) : LabelsOk (envOf look src s) where
  uniq := hL.uniq
  kinds := by
    intro i h1 h2
    rw [kind_env h]
    exact hL.kinds i h1 h2

theorem hypsOk_of (h : Accepted src s) (hp : kindAt (kinds src) p = .p) : HypsOk (envOf look src s) p where
  range := by
    have := (kindAt_pos (ks := kinds src) (i := p) (by rw [hp]; simp)).2
    simpa [kinds, envOf] using this
  mem := by
    intro j hj
    obtain ⟨h1, h2⟩ := (mem_hyps_iff (look := look) h hp j).mp hj
    exact ⟨h1.1, h1.2.1, by rw [kind_env h]; exact h2⟩
  nodup := by
    obtain ⟨h1, h2, h3⟩ := C12_mandatory_hyps h (i := p) (Or.inr hp)
    obtain ⟨h4, h5⟩ := h3 hp
    have e1 : ((envOf look src s).stmt p).reqHyp = (s.stmt p).reqHyp := rfl
    have e2 : ((envOf look src s).stmt p).optHyp = (s.stmt p).optHyp := rfl
    rw [e1, e2, List.nodup_append]
    refine ⟨h1.imp (fun h => Nat.ne_of_lt h), h4.imp (fun h => Nat.ne_of_lt h), ?_⟩
    intro a ha b hb hab
    subst hab
    obtain ⟨_, h6⟩ := (h2 a).mp ha
    obtain ⟨_, h7, h8⟩ := (h5 a).mp hb
    rcases h6 with h6 | ⟨_, v, hv, hm⟩
    · rw [h6] at h7; cases h7
    · exact h8 v hv hm

/-- Two frames of the same statement are the same up to the order of the `$d` pairs. -/
theorem isAssertion_unique {isVar : Nat → Bool} {ks : List Kind} {math : Nat → List Nat} {i : Nat} {A B : Assertion}
    (hA : IsAssertion isVar ks math i A) (hB : IsAssertion isVar ks math i B) :
    A.hyps = B.hyps ∧ A.concl = B.concl ∧ ∀ a b, (a, b) ∈ A.dv ↔ (a, b) ∈ B.dv := by
  obtain ⟨_, a2, ⟨hs, a3, a4, a5⟩, a6⟩ := hA
  obtain ⟨_, b2, ⟨ht, b3, b4, b5⟩, b6⟩ := hB
  refine ⟨?_, by rw [a2, b2], fun a b => by rw [a6, b6]⟩
  have : hs = ht := by
    apply List.Perm.eq_of_pairwise (le := (· < ·))
    · intro a b _ _ h1 h2; omega
    · exact a3
    · exact b3
    · rw [List.perm_ext_iff_of_nodup (a3.imp (fun h => Nat.ne_of_lt h)) (b3.imp (fun h => Nat.ne_of_lt h))]
      intro a; rw [a4, b4]
  rw [a5, b5, this]

/-- References and their meaning as steps, decoded. -/
theorem rpn_decode (h : Accepted src s) {dv : Nat → Nat → Prop} {steps : List Step} {hist stack : List (List Nat)}
    (hr : RPN (isVarOf src) dv steps hist stack) : ∀ {refs : List Ref}, List.Forall₂ (Means src s) refs steps →
    ∃ steps', (refs.map Ref.code).map (decode (toDb src s)) = steps'.map some ∧ RPN (isVarOf src) dv steps' hist stack ∧
      Depth (toDb src s) (refs.map Ref.code) stack.length := by
  have snoc : ∀ {refs : List Ref} {st : List Step} {x : Step}, List.Forall₂ (Means src s) refs (st ++ [x]) →
      ∃ rs r, refs = rs ++ [r] ∧ List.Forall₂ (Means src s) rs st ∧ Means src s r x := by
    intro refs st
    induction st generalizing refs with
    | nil =>
      intro x hf
      cases hf with
      | cons h1 h2 => cases h2; exact ⟨[], _, rfl, .nil, h1⟩
    | cons y ys ih =>
      intro x hf
      cases hf with
      | cons h1 h2 =>
        obtain ⟨rs, r, rfl, h3, h4⟩ := ih h2
        exact ⟨_ :: rs, r, rfl, .cons h1 h3, h4⟩
  induction hr with
  | nil =>
    intro refs hf
    cases hf
    exact ⟨[], rfl, .nil, .nil⟩
  | @hyp st hi sk e _ ih =>
    intro refs hf
    obtain ⟨rs, r, rfl, h1, h2⟩ := snoc hf
    obtain ⟨steps', h3, h4, h5⟩ := ih h1
    cases h2 with
    | hyp j hj =>
      have hk := kind_toDb h j
      refine ⟨steps' ++ [.hyp (s.math j)], ?_, .hyp _ h4, ?_⟩
      · simp only [List.map_append, h3, List.map_cons, List.map_nil, Ref.code]
        congr 2
        unfold decode
        rw [if_neg (by omega), if_neg (by omega), Int.toNat_natCast, hk]
        rcases hj with hj | hj <;> rw [hj] <;> rfl
      · simp only [List.map_append, List.map_cons, List.map_nil, List.length_cons]
        refine .push h5 (Or.inr (Or.inr ⟨by simp [Ref.code], ?_⟩))
        simp only [Ref.code, Int.toNat_natCast, hk]
        exact hj
  | @back st hi sk i e _ hie ih =>
    intro refs hf
    obtain ⟨rs, r, rfl, h1, h2⟩ := snoc hf
    obtain ⟨steps', h3, h4, h5⟩ := ih h1
    cases h2 with
    | back i =>
      refine ⟨steps' ++ [.back i], ?_, .back _ _ h4 hie, ?_⟩
      · simp only [List.map_append, h3, List.map_cons, List.map_nil, Ref.code]
        congr 2
        unfold decode
        rw [if_neg (by omega), if_pos (by omega), if_neg (by omega)]
        congr 2; omega
      · simp only [List.map_append, List.map_cons, List.map_nil, List.length_cons]
        exact .push h5 (Or.inr (Or.inl (by simp only [Ref.code]; omega)))
  | @use st hi sk A σ _ hdv ih =>
    intro refs hf
    obtain ⟨rs, r, rfl, h1, h2⟩ := snoc hf
    obtain ⟨steps', h3, h4, h5⟩ := ih h1
    cases h2 with
    | use j A hj =>
      have hk := kind_toDb h j
      have hjk : IsAssert src j := hj.1
      obtain ⟨e1, e2, e3⟩ := isAssertion_unique hj (isAssertion_frame h hjk)
      rw [e1] at h4
      rw [e2]
      refine ⟨steps' ++ [.use (frameOf (toDb src s) j)], ?_, ?_, ?_⟩
      · simp only [List.map_append, h3, List.map_cons, List.map_nil, Ref.code]
        congr 2
        unfold decode
        rw [if_neg (by omega), if_neg (by omega), Int.toNat_natCast, hk]
        rcases hjk with hj | hj <;> rw [hj]
      · exact .use _ σ h4 (fun x y hxy => hdv x y ((e3 x y).mpr hxy))
      · have hlen : A.hyps.length = ((toDb src s).stmt j).reqHyp.length := by rw [e1]; simp [frameOf, hypsOf]
        simp only [List.map_append, List.map_cons, List.map_nil, List.length_cons]
        simp only [List.length_append, List.length_reverse, List.length_map] at h5
        have := Depth.use (a := (Ref.stmt j).code) h5 (by simp [Ref.code]) (by simp only [Ref.code, Int.toNat_natCast, hk]; exact hjk)
          (by simp only [Ref.code, Int.toNat_natCast]; omega)
        have e : A.hyps.length + sk.length - ((toDb src s).stmt (Ref.stmt j).code.toNat).reqHyp.length + 1 = sk.length + 1 := by
          simp only [Ref.code, Int.toNat_natCast]; omega
        rw [e] at this
        exact this

theorem backOk_of : ∀ {refs : List Ref} {off : Nat}, (∀ k i, refs[k]? = some (.step i) → i < off + k) → BackOk off (refs.map Ref.code)
  | [], _, _ => trivial
  | r :: rs, off, h => by
    refine ⟨?_, backOk_of (fun k i hk => by have := h (k + 1) i (by simpa using hk); omega)⟩
    intro hc
    cases r with
    | stmt j => simp only [Ref.code] at hc; omega
    | step i =>
      have := h 0 i rfl
      simp only [Ref.code]; omega

/-- **C08** Completeness.  READ accepted the source and its labels are in order.  If the text of the proof is well formed, every token names a
thing (`refs`), and these things form a correct RPN proof of the statement in the sense of the specification, then parsing
and verifying it prints no message and both return 0. -/
theorem C08_correct_is_accepted (h : Accepted src s) (hl : LookOk look) (hL : SrcLabels src) (hp : kindAt (kinds src) p = .p)
    {items : List Item} (hT : GoodText src p items) {refs : List Ref} (hlen : refs.length = items.length)
    (hn : ∀ k x ref, items[k]? = some x → refs[k]? = some ref → Names src p items k x.tok ref ∧
        (x.labels ≠ [] → ∃ j, ref = .stmt j ∧ IsAssert src j))
    {steps : List Step} (hm : List.Forall₂ (Means src s) refs steps)
    (hpr : Proves (isVarOf src) (DvDeclared (kinds src) s.math p) steps (s.math p)) :
    ∃ r out, parseProof (envOf look src s) p (text items) = .val r ∧ r.ret = 0 ∧ r.ec = 0 ∧
      verifyProof (toDb src s) p r.proof r.ret r.ec = .val out ∧ out.ret = 0 ∧ out.msgs = [] := by
  obtain ⟨hist, hrpn⟩ := hpr
  obtain ⟨steps', h1, h2, h3⟩ := rpn_decode h hrpn hm
  have hTE : TextOk (envOf look src s) p items :=
    ⟨fun x hx l hl => ⟨(hT.legal x hx l hl).1, fun c hc => (labelChar_iff c).2 ((hT.legal x hx l hl).2 c hc)⟩, fun x hx l hl j h1 h2 he => absurd he (hT.fresh x hx l hl j h1 h2), hT.nodup, hT.toks⟩
  have hLE := labelsOk_of (look := look) h hL
  have hparse := parseProof_complete (E := envOf look src s) hl hLE (hypsOk_of h hp) hTE (proof := refs.map Ref.code) (by simpa using hlen) h3 (by
    intro k x ps hx hps
    rw [List.getElem?_map] at hps
    cases href : refs[k]? with
    | none => rw [href] at hps; cases hps
    | some ref =>
      rw [href] at hps
      simp only [Option.map_some, Option.some.injEq] at hps
      subst hps
      obtain ⟨h4, h5⟩ := hn k x ref hx href
      constructor
      · cases h4 with
        | hyp j hj1 hj2 hj3 => exact .hyp j ((mem_hyps_iff (look := look) h hp j).mpr ⟨hj1, hj2⟩) hj3
        | step i y hi1 hi2 hi3 => exact .back i y hi1 hi2 hi3
        | use j hj1 hj2 hj3 =>
          have hpos := kindAt_pos (ks := kinds src) (i := j) (by rcases hj2 with e | e <;> rw [e] <;> simp)
          have hle : j ≤ src.length := by have := hpos.2; simpa [kinds] using this
          refine .use j hpos.1 hj1 (by rw [kind_env h]; exact hj2) hj3 ?_
          rw [← hj3]
          exact (hL.kinds j hpos.1 hle).mpr (Or.inr (Or.inr hj2))
      · intro hne
        obtain ⟨j, rfl, hj⟩ := h5 hne
        simp only [Ref.code, Int.toNat_natCast]
        exact ⟨by omega, by rw [kind_env h]; exact hj⟩)
  have hback : BackOk 0 (refs.map Ref.code) := by
    apply backOk_of
    intro k i hk
    have hkl : k < items.length := by
      rw [← hlen]; by_contra hc; rw [List.getElem?_eq_none (by omega)] at hk; cases hk
    have := (hn k _ _ (List.getElem?_eq_getElem hkl) hk).1
    cases this; omega
  have hpr' : Proves (toDb src s).isVar (Declared (toDb src s) p) steps' ((toDb src s).stmt p).math :=
    ⟨hist, RPN.mono (fun a b hab => (declared_iff h hp a b hab).mpr) h2⟩
  obtain ⟨out, o1, o2, o3⟩ := C08_correct_is_verified (db := toDb src s) tok_sep (sev := 0) (by rw [kind_toDb h]; exact hp) (by omega)
    (dvOrdered_of_parse h hp) (fun ps _ => goodRef_of_parse h ps) hback h1 hpr'
  exact ⟨_, out, hparse, rfl, rfl, o1, o2, o3⟩

end MM.Proof
