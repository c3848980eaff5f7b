import Verif.Fmt.Assert
import Verif.Write.Main
/-!
# WRITE SOURCE / FORMAT and / REWRAP: one statement
-/
namespace MM.Fmt
open MM.Veri MM.Pars MM.Lex MM.Vstr MM.Long MM.Write MM.Incl

/-- The comment that is added to a `$a` or `$p` that has none. -/
def dummyCom : Str := "$( PLEASE PUT DESCRIPTION HERE. $)".toList

/-- `y` is `x` reformatted; `R m C`: the text `C` can replace the comment `$(`*m*`$)`. -/
structure Kept (R : Str → Str → Prop) (x y : Sections) : Prop where
  kind : y.kind = x.kind
  proof : y.proof = x.proof
  math : words y.math = words x.math
  label : words y.label = words x.label ∨ ((x.kind = .a ∨ x.kind = .p) ∧ ∃ p m C name, R m C ∧ words y.label = words p ++ words C ++ [name] ∧
    (words x.label = words p ++ words (com m) ++ [name] ∨ (¬ ['$', '('] <:+: x.label ∧ words x.label = [name] ∧ p = [] ∧ com m = dummyCom)))

/-- What is assumed of a statement: `prev`, it is not the first; `y`, as READ stored it. -/
structure StmtIn (f : FCfg) (prev : Bool) (x : Sections) (y : Src) : Prop where
  kind : x.kind = y.kind
  some : x.kind ≠ .none
  labelled : y.label ≠ [] ↔ (y.kind = .e ∨ y.kind = .f ∨ y.kind = .a ∨ y.kind = .p)
  graph : ∀ c ∈ y.label, isGraph c = true
  label : Clean prev x.label (if y.label = [] then [] else [y.label])
  math : ¬ (x.kind = .lb ∨ x.kind = .rb) → Clean true x.math y.syms
  noMath : x.kind = .lb ∨ x.kind = .rb → x.math = []
  first : y.label ≠ [] → prev = true
  hyp : y.kind = .e ∨ y.kind = .f → HypConv y.label x.label
  asrt : y.kind = .a ∨ y.kind = .p → AssertConv y.label x.label
  tabs : TabsOk f.g x.label ∧ TabsOk f.g x.math
  cr : '\r' ∉ x.label ∧ '\r' ∉ x.math ∧ '\r' ∉ x.proof

/-- What the printing of comments gives. -/
def ComFn (f : FCfg) (R : Str → Str → Prop) : Prop := ∀ i m, ComText m → '\r' ∉ com m →
  (f.rewrap = true ∧ comOut f i (com m) = .bug 1730) ∨ ∃ C, comOut f i (com m) = .val C ∧ ComOk C ∧ R m C ∧ '\r' ∉ C

/-- The label section. -/
theorem label_ok {f : FCfg} {R : Str → Str → Prop} (hF : ComFn f R) {stmt : Nat} (st : FState) {k : Kind} (indent mlen : Nat) {prev : Bool} {name lab : Str}
    (hk : k ≠ .none) (hlab : name ≠ [] ↔ (k = .e ∨ k = .f ∨ k = .a ∨ k = .p)) (hn : ∀ c ∈ name, isGraph c = true)
    (hc : Clean prev lab (if name = [] then [] else [name])) (hst : prev = true ↔ stmt > 1) (hf : name ≠ [] → prev = true)
    (hh : k = .e ∨ k = .f → HypConv name lab) (ha : k = .a ∨ k = .p → AssertConv name lab) (hcr : '\r' ∉ lab) :
    (f.rewrap = true ∧ labelSec f stmt st k indent name lab mlen = .bug 1730) ∨
    ∃ r, labelSec f stmt st k indent name lab mlen = .val r ∧ Clean prev r.1 (if name = [] then [] else [name]) ∧ '\r' ∉ r.1 ∧
      (words r.1 = words lab ∨ ((k = .a ∨ k = .p) ∧ ∃ p m C, R m C ∧ words r.1 = words p ++ words C ++ [name] ∧
        (words lab = words p ++ words (com m) ++ [name] ∨ (¬ ['$', '('] <:+: lab ∧ words lab = [name] ∧ p = [] ∧ com m = dummyCom)))) := by
  unfold labelSec
  rw [if_neg hk]
  by_cases h1 : k = .a ∨ k = .p
  · rw [if_pos h1]
    have hne : name ≠ [] := hlab.2 (by tauto)
    rw [if_neg hne] at hc ⊢
    obtain ⟨p, m, e1, e2, e3, e4, e5, e6, e7, e8, e9⟩ := assert_parts hn hne hc (hf hne) (ha h1)
    obtain ⟨q, q1, q2⟩ := assert_chain f (stmt := stmt) st.prev indent (prev := prev) name e1 e2 e3 (fun _ => e4) hst (hf hne) e6
    rw [q2]
    have hd := hc.dollar name (by simp)
    rcases hF indent m e7 (e8 hcr).2 with ⟨hr, hb⟩ | ⟨C, hC, k1, k2, k3⟩
    · left
      rw [hb]
      exact ⟨hr, rfl⟩
    · right
      obtain ⟨L, l1, l2, l3, l4⟩ := assert_core (prev := prev) (q := q) indent hn hne hd e5 q1 k1
      rw [hC, Out.bind_val, l1, Out.bind_val]
      exact ⟨_, rfl, l2, l4 (e8 hcr).1 k3 (fun h => absurd (hn _ h) (by decide)), Or.inr ⟨h1, p, m, C, k2, l3, e9⟩⟩
  · rw [if_neg h1]
    right
    by_cases h2 : k = .e ∨ k = .f
    · rw [if_pos h2]
      have hne : name ≠ [] := hlab.2 (by tauto)
      rw [if_neg hne] at hc ⊢
      obtain ⟨L, l1, l2, l3, l4⟩ := hyp_ok f (stmt := stmt) st.prev indent hn hne hc hst (hf hne) (hh h2)
      rw [l1, Out.bind_val]
      exact ⟨_, rfl, l2, l4 hcr, Or.inl l3⟩
    · rw [if_neg h2]
      obtain ⟨L, l1, l2⟩ := brace_ok f.g k st.prev indent hc
      rw [l1, Out.bind_val]
      have hcL := l2.clean hc
      by_cases h3 : k = .d
      · rw [if_pos h3]
        obtain ⟨b, b1, b2⟩ := edit6_blank (g := f.g) (legal_nonul hcL.legal)
        rw [b1, Out.bind_val]
        have := dGroup_ok f.width st.prev st.dpos indent mlen hcL b2
        exact ⟨_, rfl, this.clean hcL, this.cr (l2.cr hcr), Or.inl (by rw [this.words, l2.words])⟩
      · rw [if_neg h3]
        exact ⟨_, rfl, hcL, l2.cr hcr, Or.inl l2.words⟩

theorem Re.cr {s t : Str} (h : Re s t) (hs : '\r' ∉ s) : '\r' ∉ t := fun hc => by
  rcases h.mem hc with h | h
  · exact hs h
  · cases h

theorem getSec_eq {p : List Char} {n : Nat} (h : n ≤ p.length) : getSec p n = .val (p.take n) := by unfold getSec; rw [if_neg (by omega)]

theorem store_fit {x : KStmt} {lab math : Str} (hx : Fit x) (hm : x.kind = .lb ∨ x.kind = .rb → math = []) :
    Fit (storeSecs x lab math) ∧ (storeSecs x lab math).sections = { x.sections with label := lab, math := math } := by
  unfold storeSecs
  have key : ∀ z : KStmt, Fit z → z.kind = x.kind → z.proof = x.proof → z.proofLen = x.proofLen → z.label.take z.labelLen = lab →
      Fit (if math ≠ z.math.take z.mathLen then { z with math := math, mathLen := math.length } else z) ∧
      (if math ≠ z.math.take z.mathLen then { z with math := math, mathLen := math.length } else z).sections = { x.sections with label := lab, math := math } := by
    intro z hz hk hp hpl hl
    by_cases h : math ≠ z.math.take z.mathLen
    · rw [if_pos h]
      refine ⟨⟨hz.kind, hz.label, Nat.le_refl _, hz.proof, fun hb => ?_, hz.noProof⟩, ?_⟩
      · show math.length = 0
        rw [hm (by rw [← hk]; exact hb)]; rfl
      · unfold KStmt.sections
        simp [hk, hp, hpl, hl]
    · rw [if_neg h]
      have h := Decidable.not_not.1 h
      refine ⟨hz, ?_⟩
      unfold KStmt.sections
      rw [hk, hp, hpl, hl, ← h]
  by_cases h : lab ≠ x.label.take x.labelLen
  · dsimp only
    rw [if_pos h]
    exact key _ ⟨hx.kind, Nat.le_refl _, hx.math, hx.proof, hx.noMath, hx.noProof⟩ rfl rfl rfl (by simp)
  · dsimp only
    rw [if_neg h]
    exact key x hx rfl rfl rfl (Decidable.not_not.1 h).symm

/-- What is known of a reformatted statement. -/
structure StmtOut (prev : Bool) (x : Sections) (y : Src) : Prop where
  label : Clean prev x.label (if y.label = [] then [] else [y.label])
  math : ¬ (x.kind = .lb ∨ x.kind = .rb) → Clean true x.math y.syms
  noMath : x.kind = .lb ∨ x.kind = .rb → x.math = []

theorem kw_cr (k : Kind) : kwChar k ≠ '\r' := by cases k <;> decide

theorem stmt_ok {f : FCfg} {R : Str → Str → Prop} (hF : ComFn f R) {stmt : Nat} (st : FState) (scope : Nat) {prev : Bool} {x : KStmt} {y : Src} (hx : Fit x)
    (hi : StmtIn f prev x.sections y) (hst : prev = true ↔ stmt > 1) :
    (f.rewrap = true ∧ formatStmt f stmt st x y.label scope = .bug 1730) ∨
    ∃ r, formatStmt f stmt st x y.label scope = .val r ∧ Fit r.2 ∧ Kept R x.sections r.2.sections ∧ StmtOut prev r.2.sections y := by
  unfold formatStmt
  rw [getSec_eq hx.label, Out.bind_val, getSec_eq hx.math, Out.bind_val, getSec_eq hx.proof, Out.bind_val]
  have hk : x.kind = y.kind := hi.kind
  have hlm : Legal (x.math.take x.mathLen) := by
    by_cases hb : x.kind = .lb ∨ x.kind = .rb
    · have : x.math.take x.mathLen = [] := hi.noMath hb
      rw [this]
      exact fun c hc => by cases hc
    · exact (hi.math hb).legal
  obtain ⟨lab, e1, r1, _⟩ := tidy_re (show Legal (x.label.take x.labelLen) from hi.label.legal) hi.tabs.1
  obtain ⟨m1, e2, r2, _⟩ := untabIf_re (legal_nonul hlm) hi.tabs.2
  obtain ⟨m2, e3, r3⟩ := dMath_re f.g x.kind (r2.legal hlm)
  obtain ⟨m3, e4, r4⟩ := mathOf_re m2
  have rm := r2.trans (r3.trans r4)
  rw [e1, Out.bind_val, e2, Out.bind_val, e3, Out.bind_val]
  have hlab := label_ok hF (stmt := stmt) (if stmt = 1 then {} else st) (k := x.kind) (indentOf x.kind scope) m2.length (prev := prev) (name := y.label) (lab := lab) hi.some
    (by rw [hk]; exact hi.labelled) hi.graph (r1.clean hi.label) hst hi.first
    (fun h => (hi.hyp (by rw [← hk]; exact h)).re hi.graph (hi.labelled.2 (by rw [← hk]; tauto)) r1)
    (fun h => (hi.asrt (by rw [← hk]; exact h)).re hi.graph (hi.labelled.2 (by rw [← hk]; tauto)) r1) (r1.cr hi.cr.1)
  rcases hlab with ⟨h1, h2⟩ | ⟨r, l1, l2, l3, l4⟩
  · left
    rw [h2]
    exact ⟨h1, rfl⟩
  · rw [l1, Out.bind_val, e4, Out.bind_val]
    have hout : '\r' ∉ outText x r.1 m3 (x.proof.take x.proofLen) := by
      intro hm
      have a1 := l3
      have a2 := rm.cr hi.cr.2.1
      have a3 : '\r' ∉ x.proof.take x.proofLen := hi.cr.2.2
      unfold outText at hm
      simp only [List.mem_append, List.mem_cons, List.not_mem_nil, or_false] at hm
      have a4 : ¬ '\r' = kwChar x.kind := fun h => kw_cr x.kind h.symm
      rcases hm with (hm | hm | hm) | hm
      · exact a1 hm
      · cases hm
      · exact a4 hm
      · by_cases hz : x.mathLen ≠ 0
        · rw [if_pos hz] at hm
          by_cases hp : x.kind = .p
          · rw [if_pos hp] at hm
            simp only [List.mem_append, List.mem_cons, List.not_mem_nil, or_false] at hm
            rcases hm with (hm | (hm | hm) | hm) | hm | hm
            · exact a2 hm
            · cases hm
            · cases hm
            · exact a3 hm
            · cases hm
            · cases hm
          · rw [if_neg hp] at hm
            simp only [List.mem_append, List.mem_cons, List.not_mem_nil, or_false] at hm
            rcases hm with hm | hm | hm
            · exact a2 hm
            · cases hm
            · cases hm
        · rw [if_neg hz] at hm; cases hm
    have hnm : x.kind = .lb ∨ x.kind = .rb → m3 = [] := by
      intro hb
      have : x.math.take x.mathLen = [] := hi.noMath hb
      exact rm.nil_iff.1 this
    · rw [if_neg hout]
      right
      obtain ⟨s1, s2⟩ := store_fit (lab := r.1) hx hnm
      refine ⟨_, rfl, s1, ?_, ?_⟩
      · show Kept R x.sections (storeSecs x r.1 m3).sections
        rw [s2]
        refine ⟨rfl, rfl, rm.words, ?_⟩
        have hw : words lab = words x.sections.label := r1.words
        rw [← hw]
        rcases l4 with h | ⟨h, p, m, C, c1, c2, c3⟩
        · exact Or.inl h
        · refine Or.inr ⟨h, p, m, C, y.label, c1, c2, ?_⟩
          rcases c3 with c3 | ⟨c3, c4⟩
          · exact Or.inl c3
          · exact Or.inr ⟨fun hi' => c3 (infix_words (by decide) (by simp) (by rw [hw]) hi'), c4⟩
      · show StmtOut prev (storeSecs x r.1 m3).sections y
        rw [s2]
        exact ⟨l2, fun hb => rm.clean (hi.math hb), hnm⟩

/-- The assumptions about all statements. -/
def StmtsIn (f : FCfg) : Bool → List Sections → List Src → Prop
  | _, [], [] => True
  | prev, x :: xs, y :: ys => StmtIn f prev x y ∧ StmtsIn f true xs ys
  | _, _, _ => False

def StmtsOut : Bool → List Sections → List Src → Prop
  | _, [], [] => True
  | prev, x :: xs, y :: ys => StmtOut prev x y ∧ StmtsOut true xs ys
  | _, _, _ => False

theorem loop_ok {f : FCfg} {R : Str → Str → Prop} (hF : ComFn f R) (d : KStmt) : ∀ (ks : List KStmt) (srcs : List Src) (scs : List Nat) (stmt : Nat) (st : FState) (prev : Bool),
    scs.length = srcs.length → (prev = true ↔ stmt > 1) → 1 ≤ stmt → (∀ x ∈ ks, Fit x) → StmtsIn f prev (ks.map KStmt.sections) srcs →
    (f.rewrap = true ∧ formatLoop f stmt st (ks ++ [d]) ((srcs.map Src.label).zip scs) = .bug 1730) ∨
    ∃ ks', formatLoop f stmt st (ks ++ [d]) ((srcs.map Src.label).zip scs) = .val (ks' ++ [d]) ∧ (∀ x ∈ ks', Fit x) ∧
      List.Forall₂ (Kept R) (ks.map KStmt.sections) (ks'.map KStmt.sections) ∧ StmtsOut prev (ks'.map KStmt.sections) srcs
  | [], [], [], stmt, st, prev, _, _, _, _, _ => Or.inr ⟨[], rfl, (fun x hx => by cases hx), .nil, trivial⟩
  | [], y :: ys, _, _, _, _, _, _, _, _, hi => hi.elim
  | x :: xs, [], _, _, _, _, _, _, _, _, hi => hi.elim
  | [], [], s :: ss, _, _, _, hl, _, _, _, _ => by simp at hl
  | x :: xs, y :: ys, [], _, _, _, hl, _, _, _, _ => by simp at hl
  | x :: xs, y :: ys, s :: ss, stmt, st, prev, hl, hst, hst1, hf, hi => by
    obtain ⟨i1, i2⟩ := hi
    have hfx := hf x (by simp)
    rw [List.map_cons, List.zip_cons_cons, List.cons_append, formatLoop]
    rcases stmt_ok hF st s hfx i1 hst with ⟨h1, h2⟩ | ⟨r, h1, h2, h3, h4⟩
    · left
      rw [h2]
      exact ⟨h1, rfl⟩
    · have ih := loop_ok hF d xs ys ss (stmt + 1) r.1 true (by simpa using hl) (by simp; omega) (by omega) (fun z hz => hf z (by simp [hz])) i2
      rw [h1, Out.bind_val]
      rcases ih with ⟨j1, j2⟩ | ⟨ks', j1, j2, j3, j4⟩
      · left
        rw [j2]
        exact ⟨j1, rfl⟩
      · right
        rw [j1, Out.bind_val]
        refine ⟨r.2 :: ks', rfl, ?_, .cons h3 j3, ⟨h4, j4⟩⟩
        intro z hz
        rcases List.mem_cons.1 hz with rfl | hz
        · exact h2
        · exact j2 z hz

theorem scopes_length : ∀ (ks : List Kind) (n : Nat), (scopes ks n).length = ks.length
  | [], _ => rfl
  | k :: ks, n => by rw [scopes, List.length_cons, List.length_cons, scopes_length]

/-- The reformatted statements are like the old ones for READ. -/
theorem alike {f : FCfg} {R : Str → Str → Prop} {last : List Char} (hlast : ∃ u, Blank last u) : ∀ (xs ys : List Sections) (srcs : List Src) (prev : Bool), (∀ x ∈ xs, Good x) → QuietAll prev xs last →
    StmtsIn f prev xs srcs → List.Forall₂ (Kept R) xs ys → StmtsOut prev ys srcs →
    (∀ y ∈ ys, Good y) ∧ List.Forall₂ Alike xs ys ∧ QuietAll prev ys last
  | [], _, [], prev, _, hq, _, .nil, _ => ⟨(fun y hy => by cases hy), .nil, hq⟩
  | x :: xs, y :: ys, s :: ss, prev, hg, hq, hi, .cons hk hks, ho => by
    obtain ⟨q1, q2, q3⟩ := hq
    obtain ⟨i1, i2⟩ := hi
    obtain ⟨o1, o2⟩ := ho
    obtain ⟨a1, a2, a3⟩ := alike hlast xs ys ss true (fun z hz => hg z (by simp [hz])) q3 i2 hks o2
    have gx := hg x (by simp)
    obtain ⟨⟨u, u1, u2⟩, u3⟩ := clean_to o1.label
    obtain ⟨⟨v, v1, v2⟩, _⟩ := clean_to i1.label
    have hmath : (∃ w, Blank y.math w) ∧ SameWords x.math y.math := by
      by_cases hb : y.kind = .lb ∨ y.kind = .rb
      · rw [o1.noMath hb, i1.noMath (by rw [← hk.kind]; exact hb)]
        exact ⟨⟨[], .nil⟩, [], [], .nil, .nil, rfl⟩
      · obtain ⟨⟨w, w1, w2⟩, _⟩ := clean_to (o1.math hb)
        obtain ⟨⟨w', w1', w2'⟩, _⟩ := clean_to (i1.math (by rw [← hk.kind]; exact hb))
        exact ⟨⟨w, w1⟩, w', w, w1', w1, by rw [w2, w2']⟩
    refine ⟨?_, .cons ⟨hk.kind.symm, ⟨v, u, v1, u1, by rw [u2, v2]⟩, hmath.2⟩ a2, ⟨u3, ?_, ?_⟩, ?_, a3⟩
    · intro z hz
      rcases List.mem_cons.1 hz with rfl | hz
      · refine ⟨by rw [hk.kind]; exact gx.kind, ⟨u, u1⟩, hmath.1, by rw [hk.proof]; exact gx.proof, o1.noMath, fun h => ?_⟩
        rw [hk.proof]
        exact gx.noProof (by rw [← hk.kind]; exact h)
      · exact a1 z hz
    · intro hb
      have := o1.math hb
      refine ⟨⟨(this.start rfl).2, ?_⟩, (clean_to this).2⟩
      cases hm : y.math with
      | nil => rfl
      | cons c t => have := (this.start rfl).1 c (by rw [hm]; rfl); simp [this]
    · intro hp
      rw [hk.proof]
      exact q1.proof (by rw [← hk.kind]; exact hp)
    · cases ys with
      | nil =>
        cases hks
        exact q2
      | cons z ys =>
        cases ss with
        | nil => exact o2.elim
        | cons s' ss =>
          have := o2.1.label.start rfl
          rw [List.flatMap_cons]
          unfold Sections.render
          cases hz : z.label with
          | nil => exact absurd hz this.2
          | cons c t => simp [this.1 c (by rw [hz]; rfl)]

end MM.Fmt
