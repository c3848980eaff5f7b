import Verif.Fmt.Stmt
import Verif.Pars.ReadProps
/-!
# C70: WRITE SOURCE / FORMAT
-/
namespace MM.Fmt
open MM.Veri MM.Pars MM.Lex MM.Vstr MM.Long MM.Write MM.Incl MM.Spec

/-- The layout of a statement (`x`, its source; `y`, as READ stored it) that the reformatting relies on:
* a `$e` or `$f` has nothing but white space between its label and the keyword, and if the text before the label has more than one line, then nothing but white space
  is on the line of the label before it;
* a `$a` or `$p` has no comment, or its last comment comes before its label with only white space in between; and that comment starts on a line of its own unless it has
  `<HTML>` (or there is no line break before it at all);
* there are not too many tabs for `edit` (`TabsOk`, see C36). -/
structure Laid (f : FCfg) (x : Sections) (y : Src) : Prop where
  hyp : y.kind = .e ∨ y.kind = .f → HypConv y.label x.label
  asrt : y.kind = .a ∨ y.kind = .p → AssertConv y.label x.label
  tabs : TabsOk f.g x.label ∧ TabsOk f.g x.math

theorem first_stmt {src : List Src} {s : PState} (h : Accepted src s) {y : Src} {ys : List Src} (e : src = y :: ys) : ¬ (y.kind = .e ∨ y.kind = .f ∨ y.kind = .a ∨ y.kind = .p) := by
  have R := ((C41_read_accepts_exactly src).1 ⟨s, h⟩).stmt 1 (by omega) (by rw [e]; simp)
  have hk : kindAt (kinds src) 1 = y.kind := by rw [e]; rfl
  have hno : ∀ k c, ¬ Declared src k 1 c := by rintro k c ⟨j, h1, _⟩; have := h1.1; have := h1.2.1; omega
  intro hc
  by_cases hf : y.kind = .f
  · obtain ⟨c, v, _, h1, _⟩ := R.f (by rw [hk]; exact hf)
    exact hno _ _ h1
  · obtain ⟨c, _, h1⟩ := R.first (by rw [hk]; rcases hc with h | h | h | h <;> simp [h] <;> exact absurd h hf)
    exact hno _ _ h1

theorem label_graph {c : Char} (h : MM.Proof.LabelChar c) : isGraph c = true := by
  unfold MM.Proof.LabelChar at h
  unfold isGraph
  rcases h with ⟨h1, h2⟩ | ⟨h1, h2⟩ | ⟨h1, h2⟩ | rfl | rfl | rfl
  · have h1 : 65 ≤ c.toNat := h1; have h2 : c.toNat ≤ 90 := h2; simp; omega
  · have h1 : 97 ≤ c.toNat := h1; have h2 : c.toNat ≤ 122 := h2; simp; omega
  · have h1 : 48 ≤ c.toNat := h1; have h2 : c.toNat ≤ 57 := h2; simp; omega
  all_goals decide

theorem stmts_in {f : FCfg} {last : List Char} : ∀ (xs : List Sections) (srcs : List Src) (prev : Bool), (∀ x ∈ xs, Good x) → QuietAll prev xs last →
    (prev = true → (xs.flatMap Sections.render ++ last).head?.any isGraph = false) → List.Forall₂ Stored xs srcs → List.Forall₂ (Laid f) xs srcs →
    '\r' ∉ xs.flatMap Sections.render ++ last → (prev = false → ∀ y ys, srcs = y :: ys → ¬ (y.kind = .e ∨ y.kind = .f ∨ y.kind = .a ∨ y.kind = .p)) →
    StmtsIn f prev xs srcs
  | [], [], _, _, _, _, .nil, _, _, _ => trivial
  | x :: xs, y :: ys, prev, hg, hq, hh, .cons hs hss, .cons hl hls, hcr, hf => by
    obtain ⟨q1, q2, q3⟩ := hq
    have gx := hg x (by simp)
    rw [List.flatMap_cons, List.append_assoc] at hcr
    have ih := stmts_in xs ys true (fun z hz => hg z (by simp [hz])) q3 (fun _ => q2) hss hls (fun h => hcr (by simp only [List.mem_append] at h ⊢; tauto)) (fun h => by cases h)
    refine ⟨⟨hs.kind.symm, gx.kind, hs.labelled, fun c hc => label_graph (hs.legal c hc), ?_, ?_, gx.noMath, ?_, hl.hyp, hl.asrt, hl.tabs, ?_⟩, ih⟩
    · obtain ⟨u, u1, u2⟩ := hs.label
      rw [← u2]
      refine clean_of u1 q1.label ?_
      intro hp c hc
      have := hh hp
      rw [List.flatMap_cons] at this
      unfold Sections.render at this
      cases hlab : x.label with
      | nil => rw [hlab] at hc; cases hc
      | cons d t =>
        rw [hlab] at hc this
        cases hc
        simpa using this
    · intro hb
      obtain ⟨u, u1, u2⟩ := hs.syms (fun h => hb (Or.inl (by rw [← hs.kind]; exact h))) (fun h => hb (Or.inr (by rw [← hs.kind]; exact h)))
      rw [← u2]
      obtain ⟨m1, m2⟩ := q1.math hb
      refine clean_of u1 m2 fun _ c hc => ?_
      have := m1.2
      rw [hc] at this
      simpa using this
    · intro hn
      cases prev with
      | true => rfl
      | false => exact absurd (hs.labelled.1 hn) (hf rfl y ys rfl)
    · unfold Sections.render at hcr
      refine ⟨fun h => hcr (by simp [h]), fun h => ?_, fun h => ?_⟩
      · by_cases hb : x.kind = .lb ∨ x.kind = .rb
        · rw [gx.noMath hb] at h; cases h
        · exact hcr (by rw [if_neg hb]; simp [h])
      · by_cases hp : x.kind = .p
        · exact hcr (by rw [if_neg (by rw [hp]; simp), if_pos hp]; simp [h])
        · rw [gx.noProof hp] at h; cases h

theorem blank_same {t : List Char} (h : ∃ u, Blank t u) : SameWords t t := by obtain ⟨u, h⟩ := h; exact ⟨u, u, h, h, rfl⟩

theorem src_eq : ∀ {A B : List Src}, noProofs A = noProofs B → A.map Src.proof = B.map Src.proof → A = B
  | [], [], _, _ => rfl
  | [], b :: B, h, _ => by cases h
  | a :: A, [], h, _ => by cases h
  | a :: A, b :: B, h1, h2 => by
    unfold noProofs at h1
    rw [List.map_cons, List.map_cons, List.cons.injEq] at h1 h2
    rw [src_eq (A := A) (B := B) h1.2 h2.2]
    congr 1
    obtain ⟨h1, _⟩ := h1
    obtain ⟨h2, _⟩ := h2
    cases a
    cases b
    simp at h1 h2 ⊢
    simp [h1, h2]

/-- Both commands. -/
theorem format_general {f : FCfg} {R : Str → Str → Prop} (hF : ComFn f R) {sort : List (Name × Nat) → List (Name × Nat)} (hsort : SortOk sort) {text : List Char} {o : ReadOut}
    (h : readSource sort text = .val o) (he : o.errs = 0) (hl : List.Forall₂ (Laid f) (o.stmts.map KStmt.sections) o.src) (hcr : '\r' ∉ text) :
    (f.rewrap = true ∧ writeFormatted f text o = .bug 1730) ∨
    ∃ out ys last o', writeFormatted f text o = .val out ∧ text = (o.stmts.map KStmt.sections).flatMap Sections.render ++ last ∧ out = ys.flatMap Sections.render ++ last ∧
      List.Forall₂ (Kept R) (o.stmts.map KStmt.sections) ys ∧ StmtsOut false ys o.src ∧
      readSource sort out = .val o' ∧ o'.errs = 0 ∧ o'.state = o.state ∧ o'.src = o.src ∧ o'.stmts.map KStmt.sections = ys := by
  obtain ⟨c1, c2, c3⟩ := read_clean h he
  obtain ⟨xs, last, h1, h2, h3, h4, h5⟩ := read_good c1 c2
  obtain ⟨⟨_, _, hst⟩, hacc, _⟩ := stored_sections hsort h he
  have hxs : o.stmts.map KStmt.sections = xs := by rw [c3, h4, place_sections xs last h2]
  rw [hxs] at hst hl ⊢
  have hq : QuietAll false xs last := by rw [← raw_iff xs false last h2, ← h1]; exact c2
  have hin : StmtsIn f false xs o.src := stmts_in xs o.src false h2 hq (fun h => by cases h) hst hl (by rw [← h1]; exact hcr) (fun _ y ys e => first_stmt hacc e)
  have hstm : statements text = place xs last ++ [dummyStmt last] := by unfold statements; rw [h4, h5]
  have key := loop_ok hF (dummyStmt last) (place xs last) o.src (scopes (o.src.map Src.kind) 0) 1 {} false (by rw [scopes_length, List.length_map]) (by simp) (by omega)
    (fit_place xs last h2) (by rw [place_sections xs last h2]; exact hin)
  unfold writeFormatted
  rw [hstm]
  rcases key with ⟨k1, k2⟩ | ⟨ks', k1, k2, k3, k4⟩
  · left
    rw [k2]
    exact ⟨k1, rfl⟩
  · right
    rw [place_sections xs last h2] at k3
    obtain ⟨a1, a2, a3⟩ := alike h3 xs (ks'.map KStmt.sections) o.src false h2 hq hin k3 k4
    rw [h1] at h
    obtain ⟨o', r1, r2, r3, r4, r5, r6⟩ := read_alike h2 a1 h3 a2 a3 h he
    have hrefl : List.Forall₂ Alike xs xs := by
      have : ∀ l : List Sections, (∀ x ∈ l, Good x) → List.Forall₂ Alike l l := by
        intro l
        induction l with
        | nil => intro _; exact .nil
        | cons z l ih =>
          intro hz
          have gz := hz z (by simp)
          exact .cons ⟨rfl, blank_same gz.label, blank_same gz.math⟩ (ih fun w hw => hz w (by simp [hw]))
      exact this xs h2
    obtain ⟨o2, s1, _, _, _, _, s6⟩ := read_alike h2 h2 h3 hrefl hq h he
    have : o2 = o := by rw [s1] at h; exact Out.val.inj h
    rw [this] at s6
    have hp : xs.map Sections.proof = (ks'.map KStmt.sections).map Sections.proof := by
      have : ∀ (l l' : List Sections), List.Forall₂ (Kept R) l l' → l.map Sections.proof = l'.map Sections.proof := by
        intro l l' hll
        induction hll with
        | nil => rfl
        | cons hk _ ih => rw [List.map_cons, List.map_cons, ih, hk.proof]
      exact this _ _ k3
    rw [k1, Out.bind_val]
    refine ⟨_, ks'.map KStmt.sections, last, o', write_eq last k2, h1, rfl, k3, k4, r1, r2, r3, ?_, ?_⟩
    · exact src_eq r5 (by rw [r6, s6, hp])
    · rw [r4, place_sections _ _ a1]

theorem com_ok {m : Str} (h : ComText m) {C : Str} (hw : words C = words (com m)) (hl : Legal C) (he : EndsGap C) : ComOk C := ⟨hl, he, by rw [hw]; exact h.toks⟩

theorem com_legal {m : Str} (h : ComText m) : Legal (com m) := by
  intro c hc
  unfold com at hc
  simp only [List.mem_cons, List.mem_append, List.not_mem_nil, or_false] at hc
  rcases hc with rfl | rfl | hc | rfl | rfl
  · exact Or.inl (by decide)
  · exact Or.inl (by decide)
  · exact h.legal c hc
  · exact Or.inl (by decide)
  · exact Or.inl (by decide)

theorem com_nl {m : Str} (h : ComText m) : words (com m ++ ['\n']) = words (com m) ∧ Legal (com m ++ ['\n']) ∧ EndsGap (com m ++ ['\n']) := by
  refine ⟨words_tail (by decide), ?_, endsGap_append (endsGap_gap (by decide)) (by simp)⟩
  intro c hc
  rcases List.mem_append.1 hc with hc | hc
  · exact com_legal h c hc
  · exact Or.inr (by simp at hc; subst hc; decide)

theorem comFn_format {f : FCfg} (hW : 5 ≤ f.width) (hr : f.rewrap = false) : ComFn f fun m C => words C = words (com m) := by
  intro i m hm hcr
  right
  unfold comOut
  by_cases hh : htmlTag <:+: com m
  · rw [if_pos hh]
    obtain ⟨h1, h2, h3⟩ := com_nl hm
    exact ⟨_, rfl, com_ok hm h1 h2 h3, h1, fun hc => by simp at hc; exact hcr hc⟩
  · rw [if_neg hh]
    obtain ⟨C, h1, h2, h3, h4, h5⟩ := wrap_format f hW hr i (by simp [com]) (com_legal hm)
    exact ⟨C, h1, com_ok hm h2 h3 h4, h2, h5 hcr⟩

/-- What WRITE SOURCE / FORMAT may do to a statement: nothing but white space is changed, in the label section (with its comments) and the math section; the proof is not
touched at all; and a `$a` or `$p` without a comment gets the comment `$( PLEASE PUT DESCRIPTION HERE. $)`. -/
structure Formatted (x y : Sections) : Prop where
  kind : y.kind = x.kind
  proof : y.proof = x.proof
  math : words y.math = words x.math
  label : words y.label = words x.label ∨
    ((x.kind = .a ∨ x.kind = .p) ∧ ¬ ['$', '('] <:+: x.label ∧ words y.label = words dummyCom ++ words x.label)

/-- **C70** (partial: for statements laid out as `Laid` says): WRITE SOURCE / FORMAT does not fail, changes nothing but white space (and adds missing comments), and READ accepts what it writes
without errors and stores the same database. -/
theorem C70_format_keeps_database_partial {f : FCfg} (hW : 5 ≤ f.width) (hr : f.rewrap = false) {sort : List (Name × Nat) → List (Name × Nat)} (hsort : SortOk sort) {text : List Char} {o : ReadOut}
    (h : readSource sort text = .val o) (he : o.errs = 0) (hl : List.Forall₂ (Laid f) (o.stmts.map KStmt.sections) o.src) (hcr : '\r' ∉ text) :
    ∃ out ys last o', writeFormatted f text o = .val out ∧ text = (o.stmts.map KStmt.sections).flatMap Sections.render ++ last ∧ out = ys.flatMap Sections.render ++ last ∧
      List.Forall₂ Formatted (o.stmts.map KStmt.sections) ys ∧
      readSource sort out = .val o' ∧ o'.errs = 0 ∧ o'.state = o.state ∧ o'.src = o.src ∧ o'.stmts.map KStmt.sections = ys := by
  rcases format_general (comFn_format hW hr) hsort h he hl hcr with ⟨h1, _⟩ | ⟨out, ys, last, o', h1, h2, h3, h4, hso, h5⟩
  · rw [hr] at h1; cases h1
  · refine ⟨out, ys, last, o', h1, h2, h3, ?_, h5⟩
    have key : ∀ x y, Kept (fun m C => words C = words (com m)) x y → Formatted x y := by
      intro x y hk
      refine ⟨hk.kind, hk.proof, hk.math, ?_⟩
      rcases hk.label with hk | ⟨ha, p, m, C, name, c1, c2, c3⟩
      · exact Or.inl hk
      · rcases c3 with c3 | ⟨c3, c4, c5, c6⟩
        · exact Or.inl (by rw [c2, c3, c1])
        · refine Or.inr ⟨ha, c3, ?_⟩
          rw [c2, c4, c5, c1, c6, words_nil]
          rfl
    generalize o.stmts.map KStmt.sections = xs at *
    clear h2 h3 h5 hl hso
    induction h4 with
    | nil => exact .nil
    | cons hk _ ih => exact .cons (key _ _ hk) ih

end MM.Fmt
