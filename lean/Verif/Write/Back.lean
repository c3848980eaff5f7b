import Verif.Write.Place
/-!
# READ of a changed text

A text whose statements have the same words in their label and math sections is read as the same statements.
-/
namespace MM.Write
open MM.Veri MM.Pars MM.Lex MM.Proof

/-- The sections `x` without those the statement does not have. -/
def norm (x : Sections) : Sections :=
  { x with math := if x.kind = .lb ∨ x.kind = .rb then [] else x.math, proof := if x.kind = .p then x.proof else [] }

theorem norm_render (x : Sections) : (norm x).render = x.render := by
  unfold norm Sections.render
  by_cases hb : x.kind = .lb ∨ x.kind = .rb
  · simp [hb]
  · by_cases hp : x.kind = .p
    · simp [hp]
    · simp [hb, hp]

theorem norm_good {x : KStmt} (hx : x.Ok) : Good (norm x.sections) := by
  refine ⟨hx.kind, hx.label.2.1, ?_, ?_, ?_, ?_⟩
  · by_cases hb : x.kind = .lb ∨ x.kind = .rb
    · exact ⟨[], by unfold norm; rw [if_pos (show x.sections.kind = .lb ∨ x.sections.kind = .rb from hb)]; exact .nil⟩
    · unfold norm
      rw [if_neg (show ¬ (x.sections.kind = .lb ∨ x.sections.kind = .rb) from hb)]
      exact (hx.math (by tauto) (by tauto)).2.1
  · by_cases hp : x.kind = .p
    · unfold norm
      rw [if_pos (show x.sections.kind = .p from hp)]
      exact (hx.proof hp).2.1
    · exact ⟨[], by unfold norm; rw [if_neg (show ¬ x.sections.kind = .p from hp)]; exact .nil⟩
  · intro h
    unfold norm at h ⊢
    rw [if_pos h]
  · intro h
    unfold norm at h ⊢
    rw [if_neg h]

/-- **What READ found**: the sections, and where they are. -/
theorem read_good {text : List Char} (h : (parseKeywords text).errs = 0) (hr : rawErrs false false text = 0) :
    ∃ xs last, text = xs.flatMap Sections.render ++ last ∧ (∀ x ∈ xs, Good x) ∧ (∃ u, Blank last u) ∧
      (parseKeywords text).stmts = place xs last ∧ (parseKeywords text).start = last := by
  obtain ⟨hok, hl⟩ := C24_sections_clean h hr
  have hp := C24_sections_partition_source h
  generalize hK : (parseKeywords text).stmts = ks at *
  generalize hS : (parseKeywords text).start = last at *
  have htext : text = (ks.map (fun x => norm x.sections)).flatMap Sections.render ++ last := by
    rw [List.flatMap_map]
    simp only [norm_render]
    exact hp
  have hg : ∀ x ∈ ks.map (fun x => norm x.sections), Good x := by
    intro x hx
    obtain ⟨y, hy, rfl⟩ := List.mem_map.1 hx
    exact norm_good (hok y hy)
  refine ⟨_, last, htext, hg, hl, ?_, rfl⟩
  have := (kw_place _ last { start := text } hg hl rfl rfl htext).1
  rw [← htext] at this
  have h2 : (parseKeywords text).stmts = place (ks.map (fun x => norm x.sections)) last := by
    unfold parseKeywords
    rw [this]
    rfl
  rw [hK] at h2
  exact h2

/-! ### The messages of `readRawSource` -/

/-- A section after a keyword starts with white space. -/
def SpStart (t : List Char) : Prop := t ≠ [] ∧ t.head?.any isGraph = false

theorem spStart_iff (t r : List Char) : (t ++ '$' :: r).head?.any isGraph = false ↔ SpStart t := by
  unfold SpStart
  cases t with
  | nil => simp [isGraph_dollar]
  | cons c t => simp

/-- No message about this statement. -/
structure QuietStmt (prev : Bool) (x : Sections) : Prop where
  label : Quiet prev x.label
  math : ¬ (x.kind = .lb ∨ x.kind = .rb) → SpStart x.math ∧ Quiet true x.math
  proof : x.kind = .p → SpStart x.proof ∧ Quiet true x.proof

def QuietAll : Bool → List Sections → List Char → Prop
  | prev, [], last => rawErrs prev false last = 0
  | prev, x :: xs, last => QuietStmt prev x ∧ (xs.flatMap Sections.render ++ last).head?.any isGraph = false ∧ QuietAll true xs last

theorem raw_stmt {x : Sections} (hx : Good x) (prev : Bool) (rest : List Char) :
    rawErrs prev false (x.render ++ rest) = 0 ↔ QuietStmt prev x ∧ rest.head?.any isGraph = false ∧ rawErrs true false rest = 0 := by
  obtain ⟨ul, hul⟩ := hx.label
  obtain ⟨um, hum⟩ := hx.math
  obtain ⟨up, hup⟩ := hx.proof
  have hk := kwChar_ok hx.kind
  by_cases hb : x.kind = .lb ∨ x.kind = .rb
  · rw [render_brace hb]
    constructor
    · intro h
      obtain ⟨h1, h2, h3⟩ := quiet_of hul hk h
      exact ⟨⟨h1, fun h => absurd hb h, fun h => by rcases hb with hb | hb <;> rw [hb] at h <;> cases h⟩, h2, h3⟩
    · rintro ⟨h1, h2, h3⟩
      exact quiet_use h1.label hk h2 h3
  · by_cases hp : x.kind = .p
    · rw [render_p hp]
      constructor
      · intro h
        obtain ⟨h1, h2, h3⟩ := quiet_of hul hk h
        obtain ⟨h4, h5, h6⟩ := quiet_of hum eq_ok h3
        obtain ⟨h7, h8, h9⟩ := quiet_of hup dot_ok h6
        exact ⟨⟨h1, fun _ => ⟨(spStart_iff _ _).1 h2, h4⟩, fun _ => ⟨(spStart_iff _ _).1 h5, h7⟩⟩, h8, h9⟩
      · rintro ⟨h1, h2, h3⟩
        obtain ⟨a, b⟩ := h1.math hb
        obtain ⟨c, d⟩ := h1.proof hp
        exact quiet_use h1.label hk ((spStart_iff _ _).2 a) (quiet_use b eq_ok ((spStart_iff _ _).2 c) (quiet_use d dot_ok h2 h3))
    · rw [render_other hb hp]
      constructor
      · intro h
        obtain ⟨h1, h2, h3⟩ := quiet_of hul hk h
        obtain ⟨h4, h5, h6⟩ := quiet_of hum dot_ok h3
        exact ⟨⟨h1, fun _ => ⟨(spStart_iff _ _).1 h2, h4⟩, fun h => absurd h hp⟩, h5, h6⟩
      · rintro ⟨h1, h2, h3⟩
        obtain ⟨a, b⟩ := h1.math hb
        exact quiet_use h1.label hk ((spStart_iff _ _).2 a) (quiet_use b dot_ok h2 h3)

/-- The messages of `readRawSource` about a text that is put together from sections. -/
theorem raw_iff : ∀ (xs : List Sections) (prev : Bool) (last : List Char), (∀ x ∈ xs, Good x) →
    (rawErrs prev false (xs.flatMap Sections.render ++ last) = 0 ↔ QuietAll prev xs last)
  | [], _, _, _ => by rw [List.flatMap_nil, List.nil_append]; exact Iff.rfl
  | x :: xs, prev, last, h => by
    rw [List.flatMap_cons, List.append_assoc, raw_stmt (h x (by simp)), raw_iff xs true last (fun y hy => h y (by simp [hy]))]
    exact Iff.rfl

/-! ### Labels and symbols -/

/-- Same words, comments being blank. -/
def SameWords (s t : List Char) : Prop := ∃ u v, Blank s u ∧ Blank t v ∧ words u = words v

/-- The statements have the same type and the same words in the label and math sections. -/
structure Alike (x y : Sections) : Prop where
  kind : x.kind = y.kind
  label : SameWords x.label y.label
  math : SameWords x.math y.math

/-- What `parseLabels` makes of a label section with these words. -/
def labelFn (k : Kind) : List Name → Name × Nat
  | [] => ([], if k = .e ∨ k = .f ∨ k = .a ∨ k = .p then 1 else 0)
  | w :: ws => (w, (if w.any (fun c => !legalLabelChar c) then 1 else 0) + (if k = .d ∨ k = .rb ∨ k = .lb ∨ k = .v ∨ k = .c then 1 else 0) + (if ws ≠ [] then 1 else 0))

theorem labelOf_words {x : KStmt} {u : List Char} (h : mathToks x.label = .val (words u)) : labelOf x = .val (labelFn x.kind (words u)) := by
  obtain ⟨q, hq, h⟩ := mathToks_unfold h
  unfold labelOf
  rw [hq, Out.bind_val]
  dsimp only
  rcases h with ⟨h0, h1⟩ | ⟨h0, q2, hq2, ts, h1, h2⟩
  · rw [if_neg (by simp [h0]), h1]; rfl
  · rw [if_pos h0, hq2, Out.bind_val, h1]
    unfold labelFn
    dsimp only
    have : (if tokenLen q2 ≠ 0 then 1 else 0) = (if ts ≠ [] then 1 else 0) := by
      by_cases ht : tokenLen q2 = 0
      · rw [if_neg (fun hc => hc ht), if_neg (fun hc => hc (h2.1 ht))]
      · rw [if_pos ht, if_pos (fun hc => ht (h2.2 hc))]
    rw [this]

theorem secOk_words {ptr : List Char} {len : Nat} (h : SecOk ptr len) {u : List Char} (hu : Blank (ptr.take len) u) : mathToks ptr = .val (words u) := by
  have := C23_math_tokens hu h.2.2
  rwa [List.take_append_drop] at this

theorem labels_alike : ∀ {xs ys : List Sections} (last last' : List Char), (∀ x ∈ xs, Good x) → (∀ y ∈ ys, Good y) → List.Forall₂ Alike xs ys →
    labelsOf (place xs last) = labelsOf (place ys last') ∧ symsOf (place xs last) = symsOf (place ys last')
  | _, _, _, _, _, _, .nil => ⟨rfl, rfl⟩
  | x :: xs, y :: ys, last, last', hx, hy, .cons h hs => by
    obtain ⟨i1, i2⟩ := labels_alike last last' (fun z hz => hx z (by simp [hz])) (fun z hz => hy z (by simp [hz])) hs
    have gx := hx x (by simp)
    have gy := hy y (by simp)
    have okx := placed_ok gx (xs.flatMap Sections.render ++ last)
    have oky := placed_ok gy (ys.flatMap Sections.render ++ last')
    have sx := placed_sections gx (xs.flatMap Sections.render ++ last)
    have sy := placed_sections gy (ys.flatMap Sections.render ++ last')
    unfold place
    generalize placed x (xs.flatMap Sections.render ++ last) = px at *
    generalize placed y (ys.flatMap Sections.render ++ last') = py at *
    subst sx
    subst sy
    obtain ⟨u, v, hu, hv, huv⟩ := h.label
    obtain ⟨u', v', hu', hv', huv'⟩ := h.math
    have hk : px.kind = py.kind := h.kind
    constructor
    · unfold labelsOf
      rw [labelOf_words (secOk_words okx.label hu), labelOf_words (secOk_words oky.label hv), huv, hk, i1]
    · unfold symsOf
      have : symsOf1 px = symsOf1 py := by
        unfold symsOf1
        by_cases hb : px.kind = .lb ∨ px.kind = .rb
        · rw [if_pos hb, if_pos (by rw [← hk]; exact hb)]
        · rw [if_neg hb, if_neg (by rw [← hk]; exact hb)]
          have hb' : ¬ (py.kind = .lb ∨ py.kind = .rb) := by rw [← hk]; exact hb
          rw [secOk_words (okx.math (by tauto) (by tauto)) hu', secOk_words (oky.math (by tauto) (by tauto)) hv', huv']
      rw [this, i2]

/-! ### `parseStatements` does not look at the proofs -/

def noProofs (src : List Src) : List Src := src.map fun x => { x with proof := [] }

theorem declToks_noProofs : ∀ src : List Src, declToks (noProofs src) = declToks src
  | [] => rfl
  | x :: xs => by
    have := declToks_noProofs xs
    unfold noProofs at this ⊢
    rw [List.map_cons, declToks, declToks, this]

theorem doStmts_noProofs (toks : List (Name × Bool)) : ∀ (src : List Src) (s : PState), doStmts toks (noProofs src) s = doStmts toks src s
  | [], _ => rfl
  | x :: xs, s => by
    have ih := doStmts_noProofs toks xs
    unfold noProofs at ih ⊢
    rw [List.map_cons, doStmts, doStmts]
    have : doStmt toks s { x with proof := [] } = doStmt toks s x := rfl
    rw [this]
    cases doStmt toks s x <;> simp [ih]

theorem parse_noProofs (src : List Src) : parseStatements (noProofs src) = parseStatements src := by
  unfold parseStatements
  rw [declToks_noProofs, doStmts_noProofs]

theorem tokenLabelErrs_noProofs (src : List Src) : tokenLabelErrs (noProofs src) = tokenLabelErrs src := by
  have : (noProofs src).map Src.label = src.map Src.label := by
    unfold noProofs
    rw [List.map_map]
    rfl
  unfold tokenLabelErrs
  rw [declToks_noProofs, this]

theorem mkSrc_noProofs : ∀ {xs ys : List Sections} (last last' : List Char) (ls : List Name) (ms : List (List Name)), (∀ x ∈ xs, Good x) → (∀ y ∈ ys, Good y) →
    List.Forall₂ Alike xs ys → noProofs (mkSrc (place xs last) ls ms) = noProofs (mkSrc (place ys last') ls ms)
  | _, _, _, _, _, _, _, _, .nil => rfl
  | x :: xs, y :: ys, last, last', ls, ms, hx, hy, .cons h hs => by
    have sx := congrArg Sections.kind (placed_sections (hx x (by simp)) (xs.flatMap Sections.render ++ last))
    have sy := congrArg Sections.kind (placed_sections (hy y (by simp)) (ys.flatMap Sections.render ++ last'))
    cases ls with
    | nil => rfl
    | cons l ls =>
      cases ms with
      | nil => rfl
      | cons m ms =>
        have ih := mkSrc_noProofs last last' ls ms (fun z hz => hx z (by simp [hz])) (fun z hz => hy z (by simp [hz])) hs
        unfold noProofs at ih ⊢
        rw [place, place, mkSrc, mkSrc, List.map_cons, List.map_cons, ih]
        have : (placed x (xs.flatMap Sections.render ++ last)).kind = (placed y (ys.flatMap Sections.render ++ last')).kind :=
          sx.trans (h.kind.trans sy.symm)
        simp only [this]

theorem mkSrc_proofs : ∀ {xs : List Sections} (last : List Char) (ls : List Name) (ms : List (List Name)), (∀ x ∈ xs, Good x) → ls.length = xs.length → ms.length = xs.length →
    (mkSrc (place xs last) ls ms).map Src.proof = xs.map Sections.proof
  | [], _, _, _, _, _, _ => rfl
  | x :: xs, last, l :: ls, m :: ms, h, h1, h2 => by
    have ih := mkSrc_proofs (xs := xs) last ls ms (fun z hz => h z (by simp [hz])) (by simpa using h1) (by simpa using h2)
    have := congrArg Sections.proof (placed_sections (h x (by simp)) (xs.flatMap Sections.render ++ last))
    rw [place, mkSrc, List.map_cons, List.map_cons, ih]
    congr 1

theorem place_length : ∀ (xs : List Sections) (last : List Char), (place xs last).length = xs.length
  | [], _ => rfl
  | x :: xs, last => by rw [place, List.length_cons, List.length_cons, place_length xs last]

theorem labelsOf_length : ∀ {xs : List KStmt} {r}, labelsOf xs = .val r → r.1.length = xs.length
  | [], r, h => by cases h; rfl
  | x :: xs, r, h => by
    unfold labelsOf at h
    cases h1 : labelOf x <;> rw [h1] at h
    all_goals try cases h
    rw [Out.bind_val] at h
    cases h2 : labelsOf xs <;> rw [h2] at h
    all_goals try cases h
    simp [labelsOf_length h2]

theorem symsOf_length : ∀ {xs : List KStmt} {r}, symsOf xs = .val r → r.length = xs.length
  | [], r, h => by cases h; rfl
  | x :: xs, r, h => by
    unfold symsOf at h
    cases h1 : symsOf1 x <;> rw [h1] at h
    all_goals try cases h
    rw [Out.bind_val] at h
    cases h2 : symsOf xs <;> rw [h2] at h
    all_goals try cases h
    simp [symsOf_length h2]

/-- **READ of a changed text**: if READ accepts the text of the sections `xs`, it accepts the text of the sections `ys` with the same words in the label and
math sections, provided `readRawSource` has no objection; it stores the same statements, with the proofs of `ys`. -/
theorem read_alike {sort : List (Name × Nat) → List (Name × Nat)} {xs ys : List Sections} {last : List Char} (hx : ∀ x ∈ xs, Good x) (hy : ∀ y ∈ ys, Good y)
    (hl : ∃ u, Blank last u) (ha : List.Forall₂ Alike xs ys) (hq : QuietAll false ys last) {o : ReadOut}
    (h : readSource sort (xs.flatMap Sections.render ++ last) = .val o) (he : o.errs = 0) :
    ∃ o', readSource sort (ys.flatMap Sections.render ++ last) = .val o' ∧ o'.errs = 0 ∧ o'.state = o.state ∧ o'.stmts = place ys last ∧
      noProofs o'.src = noProofs o.src ∧ o'.src.map Src.proof = ys.map Sections.proof := by
  obtain ⟨kx1, kx2, kx3⟩ := kw_place xs last { start := xs.flatMap Sections.render ++ last } hx hl rfl rfl rfl
  obtain ⟨ky1, ky2, ky3⟩ := kw_place ys last { start := ys.flatMap Sections.render ++ last } hy hl rfl rfl rfl
  have kx : (parseKeywords (xs.flatMap Sections.render ++ last)).stmts = place xs last := by unfold parseKeywords; rw [kx1]; rfl
  have ky : (parseKeywords (ys.flatMap Sections.render ++ last)).stmts = place ys last := by unfold parseKeywords; rw [ky1]; rfl
  have kxs : (parseKeywords (xs.flatMap Sections.render ++ last)).start = last := kx2
  have kys : (parseKeywords (ys.flatMap Sections.render ++ last)).start = last := ky2
  have kye : (parseKeywords (ys.flatMap Sections.render ++ last)).errs = 0 := ky3
  obtain ⟨hlab, hsym⟩ := labels_alike last last hx hy ha
  have hpl : parseLabels sort (place ys last) last = parseLabels sort (place xs last) last := by unfold parseLabels; rw [hlab]
  unfold readSource at h ⊢
  dsimp only at h ⊢
  rw [kx, kxs] at h
  rw [ky, kys, kye, hpl, ← hsym]
  cases hp : parseLabels sort (place xs last) last <;> rw [hp] at h
  all_goals try cases h
  rename_i l
  rw [Out.bind_val] at h ⊢
  cases hs : symsOf (place xs last) <;> rw [hs] at h
  all_goals try cases h
  rename_i ms
  rw [Out.bind_val] at h ⊢
  have hn := mkSrc_noProofs last last l.labels ms hx hy ha
  have hps : parseStatements (mkSrc (place ys last) l.labels ms) = parseStatements (mkSrc (place xs last) l.labels ms) := by
    rw [← parse_noProofs, ← hn, parse_noProofs]
  have hte : tokenLabelErrs (mkSrc (place ys last) l.labels ms) = tokenLabelErrs (mkSrc (place xs last) l.labels ms) := by
    rw [← tokenLabelErrs_noProofs, ← hn, tokenLabelErrs_noProofs]
  rw [hps, hte]
  cases hst : parseStatements (mkSrc (place xs last) l.labels ms) <;> rw [hst] at h
  all_goals try cases h
  rename_i s
  rw [Out.bind_val]
  dsimp only at he
  have hlen1 : l.labels.length = ys.length := by
    unfold parseLabels at hp
    cases hl1 : labelsOf (place xs last) <;> rw [hl1] at hp
    all_goals try cases hp
    rename_i r
    rw [Out.bind_val] at hp
    cases hq1 : skipWs .ws last <;> rw [hq1] at hp
    all_goals try cases hp
    dsimp only
    rw [labelsOf_length hl1, place_length]
    exact ha.length_eq
  have hlen2 : ms.length = ys.length := by
    rw [symsOf_length hs, place_length]
    exact ha.length_eq
  refine ⟨_, rfl, ?_, rfl, rfl, hn.symm, mkSrc_proofs last l.labels ms hy hlen1 hlen2⟩
  dsimp only
  rw [(raw_iff ys false last hy).2 hq]
  omega

end MM.Write
