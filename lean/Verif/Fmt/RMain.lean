import Verif.Fmt.RC
/-!
# C71: WRITE SOURCE / REWRAP
-/
namespace MM.Fmt
open MM.Veri MM.Pars MM.Lex MM.Vstr MM.Long MM.Write MM.Incl

/-- A comment rewrapped: its letters are the same, or a period was added after a lower case letter. -/
def Reword (m C : Str) : Prop := C.filter isGraph = (com m).filter isGraph ∨
  ((∃ c, (m.filter isGraph).getLast? = some c ∧ isLower c = true) ∧ C.filter isGraph = '$' :: '(' :: (m.filter isGraph ++ ['.', '$', ')']))

theorem com_filter (m : Str) : (com m).filter isGraph = '$' :: '(' :: (m.filter isGraph ++ ['$', ')']) := by
  unfold com
  rw [List.filter_cons_of_pos (by decide), List.filter_cons_of_pos (by decide), List.filter_append]
  rfl

theorem com_solid (m : Str) : (com m).filter solid = '$' :: '(' :: (m.filter solid ++ ['$', ')']) := by
  unfold com
  rw [List.filter_cons_of_pos (by decide), List.filter_cons_of_pos (by decide), List.filter_append]
  rfl

theorem space_solid (n : Nat) : (space n).filter solid = [] := by
  rw [List.filter_eq_nil_iff]
  intro d hd
  rw [List.eq_of_mem_replicate hd]
  decide

theorem ct_of {m : Str} (h : ComText m) (hcr : '\r' ∉ com m) : CT (m.filter isGraph) m := by
  refine ⟨h.ne, h.start, h.stop, h.open_, h.close, ?_, rfl⟩
  intro d hd
  refine ⟨by rcases h.legal d hd with h | h; exact Or.inl h; exact Or.inr (Or.inl h), ?_⟩
  rintro rfl
  exact hcr (by unfold com; simp [hd])

theorem CT.toks {l m : Str} (h : CT l m) : uncomment false (words (com m)) = some [] := by
  rw [words_com h.start h.stop h.ne, uncomment, if_pos rfl, uncomment_com (no_mark h.open_ h.close)]
  rfl

theorem CT.comChars {l m : Str} (h : CT l m) : ∀ d ∈ com m, (isGraph d = true ∨ isSpace d = true ∨ d = A4) ∧ d ≠ '\r' := by
  intro d hd
  unfold com at hd
  simp only [List.mem_cons, List.mem_append, List.not_mem_nil, or_false] at hd
  rcases hd with rfl | rfl | hd | rfl | rfl
  · exact ⟨Or.inl (by decide), by decide⟩
  · exact ⟨Or.inl (by decide), by decide⟩
  · exact h.chars d hd
  · exact ⟨Or.inl (by decide), by decide⟩
  · exact ⟨Or.inl (by decide), by decide⟩

theorem restore_mem {s : Str} {d : Char} (h : d ∈ restore s) : d ∈ s ∨ d = ' ' := by
  unfold restore at h
  rw [List.mem_mapIdx] at h
  obtain ⟨i, hi, rfl⟩ := h
  split
  · exact Or.inr rfl
  · exact Or.inl (List.getElem_mem _)

/-- `wrapComment` with `rewrap`. -/
theorem wrap_rewrap (f : FCfg) (hW : 5 ≤ f.width) (hr : f.rewrap = true) (indent : Nat) {m : Str} (hm : ComText m) (hcr : '\r' ∉ com m) :
    wrapComment f indent (com m) = .bug 1730 ∨ ∃ C, wrapComment f indent (com m) = .val C ∧ ComOk C ∧ Reword m C ∧ '\r' ∉ C := by
  unfold wrapComment
  rw [hr, if_pos rfl]
  rcases rewrap_ok f.pm f.um f.g ⟨m, rfl, ct_of hm hcr⟩ with h | ⟨t, l', h1, h2, h3⟩
  · left; rw [h]; rfl
  right
  rw [h1, Out.bind_val]
  obtain ⟨u, e1, r1⟩ := indentLoop_ok (indent + 3) (t.length + 1) 0 t (by have := List.count_le_length (a := '\n') (l := t); simp; omega)
  obtain ⟨m', rfl, hm'⟩ := rc_re h2 r1
  rw [e1, Out.bind_val]
  have hch : ∀ d ∈ space indent ++ com m', (isGraph d = true ∨ isSpace d = true ∨ d = A4) ∧ d ≠ '\r' := by
    intro d hd
    rcases List.mem_append.1 hd with hd | hd
    · rw [List.eq_of_mem_replicate hd]; exact ⟨Or.inr (Or.inl rfl), by decide⟩
    · exact hm'.comChars d hd
  have hnul : NUL ∉ space indent ++ com m' := fun h => by
    rcases (hch _ h).1 with h | h | h <;> revert h <;> decide
  have hne : space indent ++ com m' ≠ [] := by simp [com]
  obtain ⟨ls, e2, e3, e4, e5⟩ := print_ok hW (indent + 3) hne hnul
  obtain ⟨s1, s2⟩ := print_solid hW (indent + 3) hne hnul e2
  rw [List.filter_append, space_solid, List.nil_append, com_solid] at s1
  rw [e2, Out.bind_val]
  have hno : A4 ∉ restore (printed ls) := by
    obtain ⟨x, s2 | s2⟩ := s2
    · rw [s2] at s1 ⊢; exact restore_no4 s1
    · rw [s2] at s1; cases s1
  have hw : words (restore (printed ls)) = words (com m') := by
    rw [words_pointwise _ (Nat.le_refl _) (restore_f2 _), e3, words_app (Or.inl (endsGap_gap (space_space _))), words_gap fun c hc => space_graph (space_space _ c hc), List.nil_append]
  have hgap : EndsGap (restore (printed ls)) := by
    intro c hc
    have h2 := restore_f2 (printed ls)
    have hc2 : c ∈ (restore (printed ls)).getLast? := hc
    rcases List.eq_nil_or_concat (printed ls) with hp | ⟨x, z, hp⟩
    · rw [hp] at hc; cases hc
    · have hz : isGraph z = false := e5 z (by rw [hp]; simp)
      rw [hp, List.concat_eq_append] at h2 hc
      obtain ⟨c1, c2, g1, g2, g3⟩ := f2_append_inv h2
      cases g3 with
      | cons g4 g5 =>
        cases g5
        rw [g1] at hc
        simp at hc
        subst hc
        rcases g4 with g4 | g4
        · rw [g4]; exact hz
        · exact g4.2
  refine ⟨_, rfl, ⟨?_, hgap, by rw [hw]; exact hm'.toks⟩, ?_, ?_⟩
  · intro d hd
    rcases restore_mem hd with h | rfl
    · rcases e4 d h with h | rfl | rfl
      · rcases (hch d h).1 with h | h | h
        · exact Or.inl h
        · exact Or.inr h
        · exact absurd hd (by rw [h]; exact hno)
      · exact Or.inr rfl
      · exact Or.inr rfl
    · exact Or.inr rfl
  · unfold Reword
    rw [← MM.Proof.words_flatten (restore (printed ls)), hw, MM.Proof.words_flatten, com_filter, com_filter, hm'.letters]
    rcases h3 with h3 | ⟨h3, h4⟩
    · left; rw [h3]
    · right; refine ⟨h4, ?_⟩; rw [h3]; simp
  · intro hd
    rcases restore_mem hd with h | h
    · rcases e4 _ h with h | h | h
      · exact (hch _ h).2 rfl
      · cases h
      · cases h
    · cases h

theorem comFn_rewrap {f : FCfg} (hW : 5 ≤ f.width) (hr : f.rewrap = true) : ComFn f Reword := by
  intro i m hm hcr
  unfold comOut
  by_cases hh : htmlTag <:+: com m
  · rw [if_pos hh]
    obtain ⟨h1, h2, h3⟩ := com_nl hm
    exact Or.inr ⟨_, rfl, com_ok hm h1 h2 h3, Or.inl (by rw [← MM.Proof.words_flatten, h1, MM.Proof.words_flatten]), fun hc => by simp at hc; exact hcr hc⟩
  · rw [if_neg hh]
    rcases wrap_rewrap f hW hr i hm hcr with h | h
    · exact Or.inl ⟨hr, h⟩
    · exact Or.inr h

/-- What WRITE SOURCE / REWRAP may do to a statement: the proof is not touched, the words of the math section are the same, and the printing characters of the label section (the label and
the comments before it) are the same, except that
* a period may be added to the last comment of a `$a` or `$p`, just before its `$)`, if the text before it ends with a lower case letter;
* a `$a` or `$p` without a comment gets the comment `$( PLEASE PUT DESCRIPTION HERE. $)`. -/
structure Rewrapped (x y : Sections) : Prop where
  kind : y.kind = x.kind
  proof : y.proof = x.proof
  math : words y.math = words x.math
  label : y.label.filter isGraph = x.label.filter isGraph ∨
    ((x.kind = .a ∨ x.kind = .p) ∧ ∃ a c name, isLower c = true ∧ (words x.label).getLast? = some name ∧ x.label.filter isGraph = a ++ [c] ++ ['$', ')'] ++ name ∧
      y.label.filter isGraph = a ++ [c] ++ ['.', '$', ')'] ++ name) ∨
    ((x.kind = .a ∨ x.kind = .p) ∧ ¬ ['$', '('] <:+: x.label ∧ y.label.filter isGraph = dummyCom.filter isGraph ++ x.label.filter isGraph)

theorem dummy_last {m : Str} (h : com m = dummyCom) : ¬ ∃ c, (m.filter isGraph).getLast? = some c ∧ isLower c = true := by
  have hm : m = " PLEASE PUT DESCRIPTION HERE. ".toList := by
    have : com m = com " PLEASE PUT DESCRIPTION HERE. ".toList := by rw [h]; rfl
    unfold com at this
    exact List.append_cancel_right (List.cons.inj (List.cons.inj this).2).2
  rw [hm]
  rintro ⟨c, h1, h2⟩
  have h3 : (" PLEASE PUT DESCRIPTION HERE. ".toList.filter isGraph).getLast? = some '.' := by decide +kernel
  rw [h3] at h1
  cases h1
  revert h2; decide

theorem rewrapped_of {x y : Sections} (hk : Kept Reword x y) : Rewrapped x y := by
  refine ⟨hk.kind, hk.proof, hk.math, ?_⟩
  rcases hk.label with hk | ⟨ha, p, m, C, name, c1, c2, c3⟩
  · exact Or.inl (by rw [← MM.Proof.words_flatten, hk, MM.Proof.words_flatten])
  · have hy : y.label.filter isGraph = p.filter isGraph ++ C.filter isGraph ++ name := by
      rw [← MM.Proof.words_flatten, c2, List.flatten_append, List.flatten_append, MM.Proof.words_flatten, MM.Proof.words_flatten]; simp
    rcases c3 with c3 | ⟨c3, c4, c5, c6⟩
    · have hx : x.label.filter isGraph = p.filter isGraph ++ (com m).filter isGraph ++ name := by
        rw [← MM.Proof.words_flatten, c3, List.flatten_append, List.flatten_append, MM.Proof.words_flatten, MM.Proof.words_flatten]; simp
      rcases c1 with c1 | ⟨⟨c, c1, c7⟩, c8⟩
      · exact Or.inl (by rw [hy, hx, c1])
      · obtain ⟨u, hu⟩ := List.getLast?_eq_some_iff.1 c1
        refine Or.inr (Or.inl ⟨ha, p.filter isGraph ++ '$' :: '(' :: u, c, name, c7, by rw [c3]; simp, ?_, ?_⟩)
        · rw [hx, com_filter, hu]; simp
        · rw [hy, c8, hu]; simp
    · refine Or.inr (Or.inr ⟨ha, c3, ?_⟩)
      have hx : x.label.filter isGraph = name := by rw [← MM.Proof.words_flatten, c4]; simp
      rw [hy, c5, hx, ← c6]
      rcases c1 with c1 | ⟨c1, _⟩
      · rw [c1]; rfl
      · exact absurd c1 (dummy_last c6)

/-- **C71** (partial: for statements laid out as `Laid` says, and unless it stops with bug 1730): what WRITE SOURCE / REWRAP writes is accepted by READ without errors and stores the same database;
every statement is changed as `Rewrapped` says at most. -/
theorem C71_rewrap_keeps_database_partial {f : FCfg} (hW : 5 ≤ f.width) (hr : f.rewrap = true) {sort : List (Name × Nat) → List (Name × Nat)} (hsort : SortOk sort) {text : List Char} {o : ReadOut}
    (h : readSource sort text = .val o) (he : o.errs = 0) (hl : List.Forall₂ (Laid f) (o.stmts.map KStmt.sections) o.src) (hcr : '\r' ∉ text) :
    writeFormatted f text o = .bug 1730 ∨
    ∃ out ys last o', writeFormatted f text o = .val out ∧ text = (o.stmts.map KStmt.sections).flatMap Sections.render ++ last ∧ out = ys.flatMap Sections.render ++ last ∧
      List.Forall₂ Rewrapped (o.stmts.map KStmt.sections) ys ∧
      readSource sort out = .val o' ∧ o'.errs = 0 ∧ o'.state = o.state ∧ o'.src = o.src ∧ o'.stmts.map KStmt.sections = ys := by
  rcases format_general (comFn_rewrap hW hr) hsort h he hl hcr with ⟨_, h1⟩ | ⟨out, ys, last, o', h1, h2, h3, h4, hso, h5⟩
  · exact Or.inl h1
  · exact Or.inr ⟨out, ys, last, o', h1, h2, h3, f2_imp (fun _ _ => rewrapped_of) h4, h5⟩

end MM.Fmt
