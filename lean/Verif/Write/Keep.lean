import Verif.Write.Props
/-!
# SAVE PROOF keeps the source readable
-/
namespace MM.Write
open MM.Veri MM.Pars MM.Lex

theorem space_not_graph {c : Char} (h : isSpace c = true) : isGraph c = false := by
  cases hg : isGraph c
  · rfl
  · exfalso
    unfold isSpace at h
    unfold isGraph at hg
    simp only [Bool.and_eq_true, Bool.or_eq_true, decide_eq_true_eq] at h hg
    omega

theorem text_blank : ∀ {t : List Char}, (∀ c ∈ t, c ≠ '$') → Blank t t
  | [], _ => .nil
  | c :: t, h => .char c (h c (by simp)) (text_blank fun d hd => h d (by simp [hd]))

theorem blank_append {t t' u u' : List Char} (h : Blank t u) (h' : Blank t' u') : Blank (t ++ t') (u ++ u') := by
  induction h with
  | nil => exact h'
  | char c hc _ ih => exact .char c hc ih
  | @comment t u b hb _ ih =>
    have : ('$' :: '(' :: (b ++ '$' :: ')' :: t)) ++ t' = '$' :: '(' :: (b ++ '$' :: ')' :: (t ++ t')) := by simp
    rw [this]
    exact .comment hb ih

theorem raw_text {com : Bool} : ∀ (t : List Char) (c : Char) (prev : Bool) (z : List Char), (∀ d ∈ t ++ [c], TextChar d) →
    rawErrs prev com (t ++ c :: z) = rawErrs (isGraph c) com z
  | [], c, prev, z, h => by
    obtain ⟨h1, h2⟩ := h c (by simp)
    rw [List.nil_append, rawErrs_char h2, if_pos (by rcases h1 with h1 | h1 <;> simp [h1])]
    simp
  | d :: t, c, prev, z, h => by
    obtain ⟨h1, h2⟩ := h d (by simp)
    rw [List.cons_append, rawErrs_char h2, if_pos (by rcases h1 with h1 | h1 <;> simp [h1]), raw_text t c _ z (fun e he => h e (by simp at he ⊢; tauto))]
    simp

/-- The errors in a comment text with something after it. -/
theorem raw_inside : ∀ (b : List Char) (prev : Bool), CommentText b → ∃ n, ∀ z, rawErrs prev true (b ++ z) = n + rawErrs (if b = [] then prev else false) true z
  | [], prev, _ => ⟨0, fun z => by simp⟩
  | c :: b, prev, h => by
    have hb : CommentText b := ⟨not_infix_cons h.1, fun d hd => h.2 d (by cases b with | nil => simp at hd | cons e b => simpa using hd)⟩
    by_cases hc : c = '$'
    · subst hc
      obtain ⟨n, e⟩ := raw_inside b true hb
      cases b with
      | nil =>
        exact absurd (h.2 '$' (by simp)) (by decide)
      | cons d b =>
        have hd : d ≠ ')' := by rintro rfl; exact h.1 ⟨[], b, rfl⟩
        refine ⟨n + (if d = '(' then 1 else 0), fun z => ?_⟩
        have e' := e z
        rw [List.cons_append] at e'
        rw [List.cons_append, List.cons_append, rawErrs_dollar]
        by_cases hd2 : d = '('
        · rw [if_pos hd2, if_pos hd2, if_pos rfl, e']
          simp [hd]; omega
        · rw [if_neg hd2, if_neg hd2, if_neg hd, if_pos rfl, e']
          simp [hd]
    · obtain ⟨n, e⟩ := raw_inside b (isGraph c) hb
      refine ⟨(if isGraph c || isSpace c then 0 else 1) + n, fun z => ?_⟩
      rw [List.cons_append, rawErrs_char hc, e, if_neg (c := c :: b = []) (by simp)]
      cases b with
      | nil =>
        have := h.2 c (by simp)
        rw [printable_eq] at this
        simp [this]; omega
      | cons d b => simp; omega

/-- The last comment of a section. -/
theorem last_comment {t u : List Char} (h : Blank t u) : (¬ ['$', ')'] <:+: t) ∨ ∃ a c b ua ub, t = a ++ '$' :: '(' :: (c ++ '$' :: ')' :: b) ∧
    u = ua ++ ' ' :: ub ∧ Blank a ua ∧ CommentText c ∧ Blank b ub ∧ ¬ ['$', ')'] <:+: b := by
  induction h with
  | nil => left; rintro ⟨a, b, h⟩; simp at h
  | @char t u c hc hb ih =>
    rcases ih with ih | ⟨a, k, b, ua, ub, h1, h2, h3, h4, h5, h6⟩
    · left
      rintro ⟨a, b, h⟩
      cases a with
      | nil => simp at h; exact hc h.1.symm
      | cons d a => simp at h; exact ih ⟨a, b, by simpa using h.2⟩
    · right
      exact ⟨c :: a, k, b, c :: ua, ub, by rw [h1]; rfl, by rw [h2]; rfl, .char c hc h3, h4, h5, h6⟩
  | @comment t u k hk hb ih =>
    right
    rcases ih with ih | ⟨a, c, b, ua, ub, h1, h2, h3, h4, h5, h6⟩
    · exact ⟨[], k, t, [], u, rfl, rfl, .nil, hk, hb, ih⟩
    · exact ⟨'$' :: '(' :: (k ++ '$' :: ')' :: a), c, b, ' ' :: ua, ub, by rw [h1]; simp, by rw [h2]; rfl, .comment hk h3, h4, h5, h6⟩

theorem ite_le_one (p : Prop) [Decidable p] : (if p then (1 : Nat) else 0) ≤ 1 := by split <;> omega

/-- The label section with the note: the same words, no message, and the same first character. -/
theorem note_keeps {n l l' u : List Char} (hn : NoteOk n) (h : NoteAdded (some n) l l') (hb : Blank l u) :
    Blank l' u ∧ (∀ prev r, rawErrs prev false (l' ++ '$' :: r) ≤ rawErrs prev false (l ++ '$' :: r)) ∧ l'.head? = l.head? := by
  rcases h with ⟨_, rfl⟩ | ⟨x, y, hxy, hy, rfl⟩
  · exact ⟨hb, fun _ _ => Nat.le_refl _, rfl⟩
  rcases last_comment hb with hno | ⟨a, c, b, ua, ub, h1, h2, h3, h4, h5, h6⟩
  · exact absurd ⟨x, y, hxy.symm⟩ hno
  have hE : x ++ ['$', ')'] ++ y = (a ++ '$' :: '(' :: c) ++ ['$', ')'] ++ b := by rw [← hxy, h1]; simp
  obtain ⟨rfl, rfl⟩ := last_unique hE hy h6
  obtain ⟨nf, nt, hnf, hns⟩ := hn.first
  obtain ⟨mt, mc, hmt, hms⟩ := hn.last
  have hnd : ∀ d ∈ n, d ≠ '$' := fun d hd => (hn.chars d hd).2
  have hct : CommentText (c ++ n) := by
    constructor
    · rintro ⟨p, q, hpq⟩
      have : p ++ ['$', ')'] ++ q = c ++ n := hpq
      rw [List.append_assoc, List.append_eq_append_iff] at this
      rcases this with ⟨d, e1, e2⟩ | ⟨d, e1, e2⟩
      · cases d with
        | nil => simp at e2; exact hnd '$' (by rw [← e2]; simp) rfl
        | cons e d =>
          cases d with
          | nil =>
            simp at e2
            have := h4.2 e (by rw [e1]; simp)
            rw [← e2.1] at this
            revert this; decide
          | cons f d =>
            simp at e2
            obtain ⟨rfl, rfl, e2⟩ := e2
            exact h4.1 ⟨p, d, by rw [e1]; simp⟩
      · exact hnd '$' (by rw [e2]; simp) rfl
    · intro d hd
      rw [hmt] at hd
      rw [← List.append_assoc, List.getLast?_append] at hd
      simp at hd
      rw [← hd, printable_eq]
      exact space_not_graph hms
  have el : (a ++ '$' :: '(' :: c) ++ n ++ ['$', ')'] ++ y = a ++ '$' :: '(' :: ((c ++ n) ++ '$' :: ')' :: y) := by simp
  rw [el]
  refine ⟨?_, ?_, ?_⟩
  · rw [h2]
    exact blank_append h3 (.comment hct h5)
  · intro prev r
    obtain ⟨n1, p1, e1⟩ := raw_section h3 prev
    have el2 : l ++ '$' :: r = a ++ '$' :: '(' :: (c ++ '$' :: ')' :: (y ++ '$' :: r)) := by rw [hxy]; simp
    have el3 : a ++ '$' :: '(' :: (c ++ n ++ '$' :: ')' :: y) ++ '$' :: r = a ++ '$' :: '(' :: (c ++ n ++ '$' :: ')' :: y ++ '$' :: r) := by simp
    rw [el2, el3, e1, e1]
    have : rawErrs p1 false ('$' :: '(' :: (c ++ n ++ '$' :: ')' :: y ++ '$' :: r)) ≤ rawErrs p1 false ('$' :: '(' :: (c ++ '$' :: ')' :: (y ++ '$' :: r))) := by
      obtain ⟨n2, e2⟩ := raw_inside c true h4
      have g1 : isGraph '(' = true := by decide
      have g2 : isGraph ')' = true := by decide
      rw [rawErrs_dollar, rawErrs_dollar, if_pos (c := '(' = '(') rfl, if_pos (c := '(' = '(') rfl, rawErrs_char (by decide), rawErrs_char (by decide), g1]
      rw [List.append_assoc, List.append_assoc, e2, e2, hmt]
      rw [List.append_assoc, List.cons_append, List.nil_append, raw_text mt mc _ _ (by rw [← hmt]; exact hn.chars), space_not_graph hms]
      have q1 : ∀ p z, rawErrs false true ('$' :: ')' :: z) ≤ rawErrs p true ('$' :: ')' :: z) := by
        intro p z
        rw [rawErrs_dollar, rawErrs_dollar]
        simp
      have q2 := q1 (if c = [] then true else false) (y ++ '$' :: r)
      rw [List.cons_append, List.cons_append]
      have q3 : (if isGraph (c.head?.getD (mt.head?.getD mc)) = true then (1 : Nat) else 0) ≤ (if isGraph (c.head?.getD '$') = true then 1 else 0) := by
        cases c with
        | cons d c => exact Nat.le_refl _
        | nil => simp only [List.head?_nil, Option.getD_none, isGraph_dollar, if_true]; exact ite_le_one _
      simp
      split
      · simp at q2; omega
      · simp at q2; omega
    omega
  · rw [hxy]; cases a <;> simp

/-! ### Lists of statements -/

theorem quiet_note {n l l' u : List Char} {prev : Bool} (hn : NoteOk n) (h : NoteAdded (some n) l l') (hb : Blank l u) (hq : Quiet prev l) : Quiet prev l' := by
  obtain ⟨h1, h2, _⟩ := note_keeps hn h hb
  have h3 := h2 prev ['.']
  rw [quiet_use hq dot_ok rfl rfl] at h3
  exact (quiet_of h1 dot_ok (Nat.le_zero.1 h3)).1

theorem noteOpt_keeps {s : Save} {kinds : List Kind} (hs : s.Ok kinds) {l l' u : List Char} (h : NoteAdded s.note l l') (hb : Blank l u) :
    Blank l' u ∧ (∀ prev, Quiet prev l → Quiet prev l') ∧ l'.head? = l.head? := by
  cases hn : s.note with
  | none => rw [hn] at h; cases h; exact ⟨hb, fun _ h => h, rfl⟩
  | some n =>
    rw [hn] at h
    obtain ⟨h1, h2, h3⟩ := note_keeps (hs.note n hn) h hb
    exact ⟨h1, fun prev hq => quiet_note (hs.note n hn) h hb hq, h3⟩

theorem proof_text {body : List Char} (h : ∀ c ∈ body, TextChar c) : ∀ c ∈ '\n' :: body ++ [' '], TextChar c := by
  intro c hc
  simp at hc
  rcases hc with rfl | hc | rfl
  · exact ⟨Or.inr (by decide), by decide⟩
  · exact h c hc
  · exact ⟨Or.inr (by decide), by decide⟩

theorem proof_quiet {body : List Char} (h : ∀ c ∈ body, TextChar c) : SpStart ('\n' :: body ++ [' ']) ∧ Quiet true ('\n' :: body ++ [' ']) := by
  refine ⟨⟨by simp, rfl⟩, fun r => ?_⟩
  have := raw_text (com := false) ('\n' :: body) ' ' true ('$' :: r) (proof_text h)
  rw [show ('\n' :: body ++ [' ']) ++ '$' :: r = ('\n' :: body) ++ ' ' :: '$' :: r by simp, this]
  rfl

theorem render_head {x : Sections} (rest : List Char) : (x.render ++ rest).head? = (x.label ++ ['$']).head? := by
  unfold Sections.render
  cases x.label <;> simp

theorem head_append {l l' : List Char} (h : l'.head? = l.head?) (m : List Char) : (l' ++ m).head? = (l ++ m).head? := by
  cases l <;> cases l' <;> simp at h <;> simp [h]

theorem quietAll_set {x y : Sections} {b : List Sections} {last : List Char} (hh : y.label.head? = x.label.head?) (hq : ∀ prev, QuietStmt prev x → QuietStmt prev y) :
    ∀ (a : List Sections) (prev : Bool), QuietAll prev (a ++ x :: b) last → QuietAll prev (a ++ y :: b) last
  | [], prev, ⟨h1, h2, h3⟩ => ⟨hq prev h1, h2, h3⟩
  | z :: a, prev, ⟨h1, h2, h3⟩ => by
    refine ⟨h1, ?_, quietAll_set hh hq a true h3⟩
    have e : ((a ++ y :: b).flatMap Sections.render ++ last).head? = ((a ++ x :: b).flatMap Sections.render ++ last).head? := by
      cases a with
      | nil =>
        simp only [List.nil_append, List.flatMap_cons, List.append_assoc]
        rw [render_head, render_head]
        exact head_append hh _
      | cons w a =>
        simp only [List.cons_append, List.flatMap_cons, List.append_assoc]
        rw [render_head, render_head]
    exact (congrArg (Option.any isGraph) e).trans h2

theorem sameWords_refl {t u : List Char} (h : Blank t u) : SameWords t t := ⟨u, u, h, h, rfl⟩

theorem blank_unique {t u : List Char} (h : Blank t u) : ∀ {v}, Blank t v → words u = words v := by
  intro v hv
  have h1 := C23_math_tokens h (Or.inl rfl)
  have h2 := C23_math_tokens hv (Or.inl rfl)
  rw [h1] at h2
  exact Out.val.inj h2

theorem sameWords_trans {r s t : List Char} (h1 : SameWords r s) (h2 : SameWords s t) : SameWords r t := by
  obtain ⟨u, v, hu, hv, huv⟩ := h1
  obtain ⟨v', w, hv', hw, hvw⟩ := h2
  exact ⟨u, w, hu, hw, huv.trans ((blank_unique hv hv').trans hvw)⟩

theorem alike_refl {x : Sections} (h : Good x) : Alike x x := ⟨rfl, sameWords_refl h.label.choose_spec, sameWords_refl h.math.choose_spec⟩

theorem alike_trans {x y z : Sections} (h1 : Alike x y) (h2 : Alike y z) : Alike x z :=
  ⟨h1.kind.trans h2.kind, sameWords_trans h1.label h2.label, sameWords_trans h1.math h2.math⟩

theorem forall2_refl : ∀ {xs : List Sections}, (∀ x ∈ xs, Good x) → List.Forall₂ Alike xs xs
  | [], _ => .nil
  | _ :: _, h => .cons (alike_refl (h _ (by simp))) (forall2_refl fun y hy => h y (by simp [hy]))

theorem forall2_set {x y : Sections} {b : List Sections} (h : Alike x y) (hb : ∀ z ∈ b, Good z) :
    ∀ {a : List Sections}, (∀ z ∈ a, Good z) → List.Forall₂ Alike (a ++ x :: b) (a ++ y :: b)
  | [], _ => .cons h (forall2_refl hb)
  | _ :: _, ha => .cons (alike_refl (ha _ (by simp))) (forall2_set h hb fun z hz => ha z (by simp [hz]))

theorem forall2_trans : ∀ {xs ys zs : List Sections}, List.Forall₂ Alike xs ys → List.Forall₂ Alike ys zs → List.Forall₂ Alike xs zs
  | _, _, _, .nil, .nil => .nil
  | _, _, _, .cons h hs, .cons g gs => .cons (alike_trans h g) (forall2_trans hs gs)

/-- The sections after one SAVE PROOF. -/
theorem saved_keeps {s : Save} {xs ys : List Sections} {last : List Char} (hs : s.Ok (xs.map Sections.kind)) (h : Saved s xs ys) (hg : ∀ x ∈ xs, Good x)
    (hq : QuietAll false xs last) :
    (∀ y ∈ ys, Good y) ∧ List.Forall₂ Alike xs ys ∧ QuietAll false ys last ∧ ys.map Sections.kind = xs.map Sections.kind := by
  obtain ⟨a, x, b, y, body, rfl, rfl, h1, h2, hk, hm, hpr, hn⟩ := h
  obtain ⟨n, e1, e2⟩ := hs.isP
  have hna : n = a.length := by omega
  subst hna
  have hxp : x.kind = .p := by simpa using e2
  obtain ⟨body', h3, h4⟩ := hs.printed
  have hbb : body' = body := by
    rw [h2] at h3
    exact (List.append_inj_left' h3 rfl).symm
  subst hbb
  have gx := hg x (by simp)
  obtain ⟨u, hu⟩ := gx.label
  obtain ⟨k1, k2, k3⟩ := noteOpt_keeps hs hn hu
  have gy : Good y := by
    refine ⟨by rw [hk]; exact gx.kind, ⟨u, k1⟩, by rw [hm]; exact gx.math, ⟨_, by rw [hpr]; exact text_blank fun c hc => (proof_text h4 c hc).2⟩, ?_, ?_⟩
    · rw [hk, hxp]; intro h; simp at h
    · rw [hk, hxp]; intro h; simp at h
  refine ⟨?_, ?_, ?_, ?_⟩
  · intro z hz
    simp at hz
    rcases hz with hz | rfl | hz
    · exact hg z (by simp [hz])
    · exact gy
    · exact hg z (by simp [hz])
  · exact forall2_set ⟨hk.symm, ⟨u, u, hu, k1, rfl⟩, by rw [hm]; exact sameWords_refl gx.math.choose_spec⟩ (fun z hz => hg z (by simp [hz]))
      (fun z hz => hg z (by simp [hz]))
  · refine quietAll_set k3 ?_ a false hq
    intro prev hx
    refine ⟨k2 prev hx.label, fun _ => by rw [hm]; exact hx.math (by rw [hxp]; simp), fun _ => by rw [hpr]; exact proof_quiet h4⟩
  · simp [hk]

theorem savedAll_keeps {last : List Char} : ∀ {ss : List Save} {xs ys : List Sections}, SavedAll ss xs ys → (∀ s ∈ ss, s.Ok (xs.map Sections.kind)) →
    (∀ x ∈ xs, Good x) → QuietAll false xs last → (∀ y ∈ ys, Good y) ∧ List.Forall₂ Alike xs ys ∧ QuietAll false ys last
  | _, _, _, .nil xs, _, hg, hq => ⟨hg, forall2_refl hg, hq⟩
  | _, _, _, .cons h hs, hok, hg, hq => by
    obtain ⟨a, b, c, d⟩ := saved_keeps (hok _ (by simp)) h hg hq
    obtain ⟨e, f, g⟩ := savedAll_keeps hs (fun s hs => by rw [d]; exact hok s (by simp [hs])) a c
    exact ⟨e, forall2_trans b f, g⟩

end MM.Write
