import Verif.Lex.Labels
import Verif.Proof.Props
/-!
# READ from the source text to the stored statements
-/
namespace MM.Lex
open MM.Veri MM.Pars MM.Proof MM.Spec

/-- The math symbols of one statement; `${` and `$}` have none. -/
def symsOf1 (x : KStmt) : Out (List Name) := if x.kind = .lb ∨ x.kind = .rb then .val [] else mathToks x.math

/-- The math symbols of the statements: `parseMathDecl` (mmpars.c 599–620) for `$c`, `$v`, `parseStatements` (mmpars.c 1078–1100) for the others. -/
def symsOf : List KStmt → Out (List (List Name))
  | [] => .val []
  | x :: xs => do
    let m ← symsOf1 x
    let r ← symsOf xs
    .val (m :: r)

/-- The statements with label, symbols and proof section. -/
def mkSrc : List KStmt → List Name → List (List Name) → List Src
  | x :: xs, l :: ls, m :: ms => { kind := x.kind, label := l, syms := m, proof := x.proof.take x.proofLen } :: mkSrc xs ls ms
  | _, _, _ => []

/-- "This label has the same name as the math token" (mmpars.c 664–692): one message for every declared symbol that is a label.  (The lookup
with `bsearch` succeeds iff the name is among the labels.) -/
def tokenLabelErrs (src : List Src) : Nat := ((declToks src).filter fun t => decide (t.1 ∈ (src.map Src.label).filter (· ≠ []))).length

/-- What READ stores, and the number of its error messages. -/
structure ReadOut where
  stmts : List KStmt
  src : List Src
  state : PState
  errs : Nat

/-- The READ command after the expansion of include files (`readRawSource`, `parseKeywords`, `parseLabels`, `parseMathDecl`, `parseStatements`, called in
this order from mmcmds.c `readInput` / metamath.c READ). -/
def readSource (sort : List (Name × Nat) → List (Name × Nat)) (text : List Char) : Out ReadOut := do
  let k := parseKeywords text
  let l ← parseLabels sort k.stmts k.start
  let ms ← symsOf k.stmts
  let src := mkSrc k.stmts l.labels ms
  let s ← parseStatements src
  .val ⟨k.stmts, src, s, rawErrs false false text + k.errs + l.errs + tokenLabelErrs src + s.errs.length⟩

/-! ### Specification -/

/-- A statement is stored as its sections say: the label is the only word of the label section, the symbols are the words of the math section. -/
structure Stored (x : Sections) (y : Src) : Prop where
  kind : y.kind = x.kind
  label : ∃ u, Blank x.label u ∧ words u = if y.label = [] then [] else [y.label]
  legal : ∀ c ∈ y.label, LabelChar c
  labelled : y.label ≠ [] ↔ (y.kind = .e ∨ y.kind = .f ∨ y.kind = .a ∨ y.kind = .p)
  syms : y.kind ≠ .lb → y.kind ≠ .rb → ∃ u, Blank x.math u ∧ words u = y.syms
  proof : y.kind = .p → y.proof = x.proof ∧ ∃ u, Blank x.proof u

/-! ### Proof -/

theorem mathToks_unfold {p : List Char} {ws : List Name} (h : mathToks p = .val ws) :
    ∃ q, skipWs .ws p = .val q ∧ ((tokenLen q = 0 ∧ ws = []) ∨ (tokenLen q ≠ 0 ∧ ∃ q2, skipWs .ws (q.drop (tokenLen q)) = .val q2 ∧
      ∃ ts, ws = q.take (tokenLen q) :: ts ∧ (tokenLen q2 = 0 ↔ ts = []))) := by
  unfold mathToks at h
  rw [readToks] at h
  cases hq : skipWs .ws p with
  | val q =>
    rw [hq, Out.bind_val] at h
    refine ⟨q, rfl, ?_⟩
    by_cases h0 : tokenLen q = 0
    · rw [if_pos h0] at h
      cases h
      exact Or.inl ⟨h0, rfl⟩
    · rw [if_neg h0] at h
      right
      refine ⟨h0, ?_⟩
      cases p with
      | nil => simp [skipWs] at hq; subst hq; simp [tokenLen] at h0
      | cons c p =>
        rw [List.length_cons, readToks] at h
        cases hq2 : skipWs .ws (q.drop (tokenLen q)) with
        | val q2 =>
          rw [hq2, Out.bind_val] at h
          refine ⟨q2, rfl, ?_⟩
          by_cases h2 : tokenLen q2 = 0
          · rw [if_pos h2, Out.bind_val] at h
            cases h
            exact ⟨[], rfl, by simp [h2]⟩
          · rw [if_neg h2] at h
            cases hr : readToks tokenLen p.length (q2.drop (tokenLen q2)) with
            | val ts =>
              rw [hr, Out.bind_val, Out.bind_val] at h
              cases h
              exact ⟨_, rfl, by simp [h2]⟩
            | ub => rw [hr] at h; cases h
            | bug n => rw [hr] at h; cases h
            | fuel => rw [hr] at h; cases h
        | ub => rw [hq2] at h; cases h
        | bug n => rw [hq2] at h; cases h
        | fuel => rw [hq2] at h; cases h
  | ub => rw [hq] at h; cases h
  | bug n => rw [hq] at h; cases h
  | fuel => rw [hq] at h; cases h

theorem secOk_toks {ptr : List Char} {len : Nat} (h : SecOk ptr len) : ∃ u, Blank (ptr.take len) u ∧ mathToks ptr = .val (words u) := by
  obtain ⟨_, ⟨u, hu⟩, he⟩ := h
  refine ⟨u, hu, ?_⟩
  have := C23_math_tokens hu he
  rwa [List.take_append_drop] at this

theorem words_ne_nil {u : List Char} : ∀ w ∈ words u, w ≠ [] := by
  intro w hw
  rw [words_eq] at hw
  have := (List.mem_filter.1 hw).2
  simpa using this

/-- The label of a statement. -/
theorem labelOf_spec {x : KStmt} (hx : x.Ok) : ∃ u r, Blank (x.label.take x.labelLen) u ∧ labelOf x = .val r ∧
    (r.2 = 0 → (words u = if r.1 = [] then [] else [r.1]) ∧ (∀ c ∈ r.1, legalLabelChar c = true) ∧
      (r.1 ≠ [] ↔ (x.kind = .e ∨ x.kind = .f ∨ x.kind = .a ∨ x.kind = .p))) := by
  obtain ⟨u, hu, ht⟩ := secOk_toks hx.label
  obtain ⟨q, hq, h⟩ := mathToks_unfold ht
  have hkind := hx.kind
  unfold labelOf
  rw [hq, Out.bind_val]
  dsimp only
  rcases h with ⟨h0, h1⟩ | ⟨h0, q2, hq2, ts, h1, h2⟩
  · rw [if_neg (by simp [h0])]
    refine ⟨u, _, hu, rfl, ?_⟩
    intro h
    simp only [ne_eq, not_true_eq_false, false_iff, if_true, List.not_mem_nil, false_implies, implies_true, true_and]
    refine ⟨h1, ?_⟩
    intro hk
    simp [hk] at h
  · rw [if_pos h0, hq2, Out.bind_val]
    refine ⟨u, _, hu, rfl, ?_⟩
    intro h
    dsimp only at h ⊢
    have hne : q.take (tokenLen q) ≠ [] := words_ne_nil (u := u) _ (by rw [h1]; simp)
    have e1 : (q.take (tokenLen q)).any (fun c => !legalLabelChar c) = false := by
      by_contra hc; simp only [Bool.not_eq_false] at hc; rw [if_pos hc] at h; omega
    have e2 : ¬ (x.kind = .d ∨ x.kind = .rb ∨ x.kind = .lb ∨ x.kind = .v ∨ x.kind = .c) := by
      intro hc; rw [if_pos hc] at h; omega
    have e3 : tokenLen q2 = 0 := by
      by_contra hc; rw [if_pos hc] at h; omega
    refine ⟨?_, ?_, ?_⟩
    · rw [if_neg hne, h1, h2.1 e3]
    · intro c hc
      by_contra hl
      have := List.any_eq_false.1 e1 c hc
      simp [hl] at this
    · simp only [hne, ne_eq, not_false_eq_true, true_iff]
      cases hk : x.kind <;> simp_all

theorem labelsOf_spec : ∀ {xs : List KStmt}, (∀ x ∈ xs, x.Ok) → ∃ r, labelsOf xs = .val r ∧ r.1.length = xs.length ∧
    (r.2 = 0 → ∀ (i : Nat) (x : KStmt) (l : Name), xs[i]? = some x → r.1[i]? = some l → ∃ u, Blank (x.label.take x.labelLen) u ∧ (words u = if l = [] then [] else [l]) ∧
      (∀ c ∈ l, legalLabelChar c = true) ∧ (l ≠ [] ↔ (x.kind = .e ∨ x.kind = .f ∨ x.kind = .a ∨ x.kind = .p))) := by
  intro xs
  induction xs with
  | nil => intro _; exact ⟨([], 0), rfl, rfl, by simp⟩
  | cons x xs ih =>
    intro h
    obtain ⟨u, r, h1, h2, h3⟩ := labelOf_spec (h x (by simp))
    obtain ⟨rs, g1, g2, g3⟩ := ih (fun y hy => h y (by simp [hy]))
    refine ⟨(r.1 :: rs.1, r.2 + rs.2), ?_, by simp [g2], ?_⟩
    · rw [labelsOf, h2, Out.bind_val, g1, Out.bind_val]
    · intro h0 i y l hy hl
      simp only at h0
      cases i with
      | zero =>
        simp at hy hl
        subst hy; subst hl
        exact ⟨u, h1, h3 (by omega)⟩
      | succ i =>
        simp at hy hl
        exact g3 (by omega) i y l hy hl

theorem symsOf_spec : ∀ {xs : List KStmt}, (∀ x ∈ xs, x.Ok) → ∃ r, symsOf xs = .val r ∧ r.length = xs.length ∧
    (∀ (i : Nat) (x : KStmt) (m : List Name), xs[i]? = some x → r[i]? = some m → x.kind ≠ .lb → x.kind ≠ .rb → ∃ u, Blank (x.math.take x.mathLen) u ∧ words u = m) := by
  intro xs
  induction xs with
  | nil => intro _; exact ⟨[], rfl, rfl, by simp⟩
  | cons x xs ih =>
    intro h
    obtain ⟨rs, g1, g2, g3⟩ := ih (fun y hy => h y (by simp [hy]))
    have hm : ∃ m, symsOf1 x = .val m ∧
        (x.kind ≠ .lb → x.kind ≠ .rb → ∃ u, Blank (x.math.take x.mathLen) u ∧ words u = m) := by
      unfold symsOf1
      by_cases hb : x.kind = .lb ∨ x.kind = .rb
      · rw [if_pos hb]; exact ⟨[], rfl, by intro a b; tauto⟩
      · rw [if_neg hb]
        push Not at hb
        obtain ⟨u, hu, ht⟩ := secOk_toks ((h x (by simp)).math hb.1 hb.2)
        exact ⟨words u, ht, fun _ _ => ⟨u, hu, rfl⟩⟩
    obtain ⟨m, hm1, hm2⟩ := hm
    refine ⟨m :: rs, ?_, by simp [g2], ?_⟩
    · rw [symsOf, hm1, Out.bind_val, g1, Out.bind_val]
    · intro i y l hy hl
      cases i with
      | zero =>
        simp at hy hl
        subst hy; subst hl
        exact hm2
      | succ i =>
        simp at hy hl
        exact g3 i y l hy hl

theorem mkSrc_get : ∀ {xs : List KStmt} {ls : List Name} {ms : List (List Name)}, ls.length = xs.length → ms.length = xs.length →
    (mkSrc xs ls ms).length = xs.length ∧ ∀ (i : Nat) x, xs[i]? = some x → ∃ l m, ls[i]? = some l ∧ ms[i]? = some m ∧
      (mkSrc xs ls ms)[i]? = some { kind := x.kind, label := l, syms := m, proof := x.proof.take x.proofLen } := by
  intro xs
  induction xs with
  | nil => intro ls ms _ _; simp [mkSrc]
  | cons x xs ih =>
    intro ls ms h1 h2
    cases ls with
    | nil => simp at h1
    | cons l ls =>
      cases ms with
      | nil => simp at h2
      | cons m ms =>
        obtain ⟨k1, k2⟩ := ih (ls := ls) (ms := ms) (by simpa using h1) (by simpa using h2)
        refine ⟨by simp [mkSrc, k1], ?_⟩
        intro i y hy
        cases i with
        | zero => simp at hy; subst hy; exact ⟨l, m, rfl, rfl, rfl⟩
        | succ i =>
          simp at hy
          obtain ⟨l', m', g1, g2, g3⟩ := k2 i y hy
          exact ⟨l', m', by simpa using g1, by simpa using g2, by simpa [mkSrc] using g3⟩

theorem forall2_of_get {α β : Type} {R : α → β → Prop} : ∀ {as : List α} {bs : List β}, as.length = bs.length →
    (∀ (i : Nat) a b, as[i]? = some a → bs[i]? = some b → R a b) → List.Forall₂ R as bs := by
  intro as
  induction as with
  | nil => intro bs h _; cases bs with
    | nil => exact .nil
    | cons b bs => simp at h
  | cons a as ih =>
    intro bs h hr
    cases bs with
    | nil => simp at h
    | cons b bs =>
      exact .cons (hr 0 a b rfl rfl) (ih (by simpa using h) (fun i x y hx hy => hr (i + 1) x y (by simpa using hx) (by simpa using hy)))

/-- C42 for the sections as they are stored. -/
theorem stored_sections {sort : List (Name × Nat) → List (Name × Nat)} (hsort : SortOk sort) {text : List Char} {o : ReadOut}
    (h : readSource sort text = .val o) (he : o.errs = 0) :
    (text = (o.stmts.map KStmt.sections).flatMap Sections.render ++ (parseKeywords text).start ∧ (∃ u, Blank (parseKeywords text).start u ∧ words u = []) ∧
      List.Forall₂ Stored (o.stmts.map KStmt.sections) o.src) ∧ Accepted o.src o.state ∧ SrcLabels o.src ∧
      ∀ t ∈ declToks o.src, ∀ x ∈ o.src, x.label ≠ [] → t.1 ≠ x.label := by
  unfold readSource at h
  dsimp only at h
  cases hl : parseLabels sort (parseKeywords text).stmts (parseKeywords text).start with
  | val l =>
    rw [hl, Out.bind_val] at h
    cases hm : symsOf (parseKeywords text).stmts with
    | val ms =>
      rw [hm, Out.bind_val] at h
      cases hs : parseStatements (mkSrc (parseKeywords text).stmts l.labels ms) with
      | val s =>
        rw [hs, Out.bind_val] at h
        cases h
        simp only at he ⊢
        have hk0 : (parseKeywords text).errs = 0 := by omega
        have hr0 : rawErrs false false text = 0 := by omega
        have hl0 : l.errs = 0 := by omega
        have hs0 : s.errs = [] := List.length_eq_zero_iff.1 (by omega)
        have ht0 : tokenLabelErrs (mkSrc (parseKeywords text).stmts l.labels ms) = 0 := by omega
        obtain ⟨hok, ulast, hlast⟩ := C24_sections_clean hk0 hr0
        have hpart := C24_sections_partition_source hk0
        generalize hK : (parseKeywords text).stmts = ks at *
        obtain ⟨r, f1, f2, f3⟩ := labelsOf_spec hok
        obtain ⟨ms', f4, f5, f6⟩ := symsOf_spec hok
        rw [hm] at f4
        cases f4
        have hl2 := hl
        unfold parseLabels at hl
        rw [f1, Out.bind_val] at hl
        cases hq : skipWs .ws (parseKeywords text).start with
        | val q =>
          rw [hq, Out.bind_val] at hl
          cases hl
          simp only at hl0 hs ht0 hs0 ⊢
          have hr2 : r.2 = 0 := by omega
          have hd0 : dupLoop none false (sort (labelled r.1)) = [] := List.length_eq_zero_iff.1 (by omega)
          have hq0 : tokenLen q = 0 := by
            by_contra hc; rw [if_pos hc] at hl0; omega
          obtain ⟨g1, g2⟩ := mkSrc_get (xs := ks) (ls := r.1) (ms := ms) f2 f5
          have hget : ∀ (i : Nat) y, (mkSrc ks r.1 ms)[i]? = some y → ∃ x l m, ks[i]? = some x ∧ r.1[i]? = some l ∧ ms[i]? = some m ∧
              y = { kind := x.kind, label := l, syms := m, proof := x.proof.take x.proofLen } := by
            intro i y hy
            have hi : i < ks.length := by
              rw [← g1]; exact (List.getElem?_eq_some_iff.1 hy).1
            obtain ⟨l, m, k1, k2, k3⟩ := g2 i ks[i] (List.getElem?_eq_getElem hi)
            rw [k3] at hy
            cases hy
            exact ⟨_, l, m, List.getElem?_eq_getElem hi, k1, k2, rfl⟩
          have hlabel : ∀ i, srcLabel (mkSrc ks r.1 ms) (i + 1) = r.1.getD i [] := by
            intro i
            unfold srcLabel
            rw [if_neg (by omega), Nat.add_sub_cancel, List.getD_eq_getElem?_getD, List.getD_eq_getElem?_getD, List.getElem?_map]
            cases hy : (mkSrc ks r.1 ms)[i]? with
            | none =>
              have : r.1[i]? = none := by
                rw [List.getElem?_eq_none_iff] at hy ⊢
                omega
              rw [this]; rfl
            | some y =>
              obtain ⟨x, l, m, _, k2, _, rfl⟩ := hget i y hy
              rw [k2]; rfl
          have hstored : ∀ (i : Nat) y, (mkSrc ks r.1 ms)[i]? = some y → ∃ x, ks[i]? = some x ∧ Stored x.sections y := by
            intro i y hy
            obtain ⟨x, l, m, k1, k2, k3, rfl⟩ := hget i y hy
            obtain ⟨u, b1, b2, b3, b4⟩ := f3 hr2 i x l k1 k2
            have hx := hok x (List.mem_of_getElem? k1)
            refine ⟨x, k1, rfl, ⟨u, b1, b2⟩, fun c hc => (labelChar_iff c).1 (b3 c hc), b4, fun a b => f6 i x m k1 k3 a b, fun hp => ⟨rfl, ?_⟩⟩
            exact (hx.proof hp).2.1
          refine ⟨⟨?_, ?_, ?_⟩, ⟨hs, hs0⟩, ⟨?_, ?_⟩, ?_⟩
          · rw [List.flatMap_map]; exact hpart
          · refine ⟨ulast, hlast, ?_⟩
            have := C23_math_tokens hlast (Or.inl rfl)
            rw [List.append_nil] at this
            obtain ⟨q', hq', hh⟩ := mathToks_unfold this
            rw [hq] at hq'
            cases hq'
            rcases hh with ⟨_, h⟩ | ⟨h, _⟩
            · exact h
            · exact absurd hq0 h
          · refine forall2_of_get (by rw [List.length_map, g1]) ?_
            intro i a b ha hb
            obtain ⟨x, hx, hst⟩ := hstored i b hb
            rw [List.getElem?_map, hx] at ha
            cases ha
            exact hst
          · intro i j hi1 hi2 hj1 hj2 hne heq
            obtain ⟨i, rfl⟩ : ∃ i', i = i' + 1 := ⟨i - 1, by omega⟩
            obtain ⟨j, rfl⟩ : ∃ j', j = j' + 1 := ⟨j - 1, by omega⟩
            rw [hlabel] at hne heq
            rw [hlabel] at heq
            by_contra hij
            rw [g1] at hi2 hj2
            have hgi : r.1[i]? = some (r.1.getD i []) := by
              rw [List.getD_eq_getElem?_getD, List.getElem?_eq_getElem (by omega)]; rfl
            have hgj : r.1[j]? = some (r.1.getD j []) := by
              rw [List.getD_eq_getElem?_getD, List.getElem?_eq_getElem (by omega)]; rfl
            have := (C16_duplicates_reported hsort hl2 (i + 1)).2 ⟨r.1.getD i [], hne, by omega, by simpa using hgi, j + 1, by omega, by omega, by
              rw [heq]; simpa using hgj⟩
            simp only at this
            rw [hd0] at this
            cases this
          · intro i hi1 hi2
            obtain ⟨i, rfl⟩ : ∃ i', i = i' + 1 := ⟨i - 1, by omega⟩
            obtain ⟨x, hx, hst⟩ := hstored i _ (List.getElem?_eq_getElem (by omega))
            have hlk : (mkSrc ks r.1 ms)[i].label = r.1.getD i [] := by
              rw [← hlabel]
              unfold srcLabel
              rw [if_neg (by omega), Nat.add_sub_cancel, List.getD_eq_getElem?_getD, List.getElem?_map, List.getElem?_eq_getElem (by omega)]
              rfl
            have hkk : kindAt (kinds (mkSrc ks r.1 ms)) (i + 1) = (mkSrc ks r.1 ms)[i].kind := by
              unfold kindAt kinds
              rw [if_neg (by omega), Nat.add_sub_cancel, List.getD_eq_getElem?_getD, List.getElem?_map, List.getElem?_eq_getElem (by omega)]
              rfl
            rw [hlabel, ← hlk, IsAssert, hkk]
            exact hst.labelled
          · intro t ht x hx hne heq
            have h0 := List.length_eq_zero_iff.1 ht0
            rw [List.filter_eq_nil_iff] at h0
            apply h0 t ht
            simp only [decide_eq_true_eq, List.mem_filter, List.mem_map]
            exact ⟨⟨x, hx, heq.symm⟩, by rw [heq]; simpa using hne⟩
        | ub => rw [hq] at hl; cases hl
        | bug n => rw [hq] at hl; cases hl
        | fuel => rw [hq] at hl; cases hl
      | ub => rw [hs] at h; cases h
      | bug n => rw [hs] at h; cases h
      | fuel => rw [hs] at h; cases h
    | ub => rw [hm] at h; cases h
    | bug n => rw [hm] at h; cases h
    | fuel => rw [hm] at h; cases h
  | ub => rw [hl] at h; cases h
  | bug n => rw [hl] at h; cases h
  | fuel => rw [hl] at h; cases h

/-- C42: when READ reports no error, the source text is the sequence of its statements, and each statement is stored as its sections say; the
statements are accepted by `parseStatements`, labels are unique and different from all math symbols. -/
theorem C42_read_stores_source {sort : List (Name × Nat) → List (Name × Nat)} (hsort : SortOk sort) {text : List Char} {o : ReadOut}
    (h : readSource sort text = .val o) (he : o.errs = 0) :
    (∃ (secs : List Sections) (last : List Char), text = secs.flatMap Sections.render ++ last ∧ (∃ u, Blank last u ∧ words u = []) ∧
      List.Forall₂ Stored secs o.src) ∧ Accepted o.src o.state ∧ SrcLabels o.src ∧
      ∀ t ∈ declToks o.src, ∀ x ∈ o.src, x.label ≠ [] → t.1 ≠ x.label := by
  obtain ⟨⟨h1, h2, h3⟩, h4⟩ := stored_sections hsort h he
  exact ⟨⟨_, _, h1, h2, h3⟩, h4⟩

end MM.Lex
