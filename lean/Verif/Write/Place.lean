import Verif.Write.Raw
/-!
# Reading back a text that is put together from sections
-/
namespace MM.Write
open MM.Veri MM.Pars MM.Lex MM.Proof

/-- The sections are texts with comments, and those that the statement does not have are empty. -/
structure Good (x : Sections) : Prop where
  kind : x.kind ≠ .none
  label : ∃ u, Blank x.label u
  math : ∃ u, Blank x.math u
  proof : ∃ u, Blank x.proof u
  noMath : x.kind = .lb ∨ x.kind = .rb → x.math = []
  noProof : x.kind ≠ .p → x.proof = []

/-- The statement `parseKeywords` stores for the sections `x` when `rest` follows. -/
def placed (x : Sections) (rest : List Char) : KStmt :=
  if x.kind = .lb ∨ x.kind = .rb then { kind := x.kind, label := x.render ++ rest, labelLen := x.label.length }
  else if x.kind = .p then
    { kind := x.kind, label := x.render ++ rest, labelLen := x.label.length, math := x.math ++ '$' :: '=' :: (x.proof ++ '$' :: '.' :: rest)
      mathLen := x.math.length, proof := x.proof ++ '$' :: '.' :: rest, proofLen := x.proof.length }
  else { kind := x.kind, label := x.render ++ rest, labelLen := x.label.length, math := x.math ++ '$' :: '.' :: rest, mathLen := x.math.length }

def place : List Sections → List Char → List KStmt
  | [], _ => []
  | x :: xs, last => placed x (xs.flatMap Sections.render ++ last) :: place xs last

theorem render_brace {x : Sections} (h : x.kind = .lb ∨ x.kind = .rb) (rest : List Char) : x.render ++ rest = x.label ++ '$' :: kwChar x.kind :: rest := by
  unfold Sections.render; rw [if_pos h]; simp
theorem render_p {x : Sections} (h : x.kind = .p) (rest : List Char) :
    x.render ++ rest = x.label ++ '$' :: kwChar x.kind :: (x.math ++ '$' :: '=' :: (x.proof ++ '$' :: '.' :: rest)) := by
  unfold Sections.render; rw [if_neg (by rw [h]; decide), if_pos h]; simp
theorem render_other {x : Sections} (h : ¬ (x.kind = .lb ∨ x.kind = .rb)) (hp : x.kind ≠ .p) (rest : List Char) :
    x.render ++ rest = x.label ++ '$' :: kwChar x.kind :: (x.math ++ '$' :: '.' :: rest) := by
  unfold Sections.render; rw [if_neg h, if_neg hp]; simp

theorem kw_dollar {d : Char} (h : d ≠ '$' ∧ d ≠ '(' ∧ d ≠ ')' ∧ d ≠ '[' ∧ d ≠ ']' ∧ isGraph d = true) (r : List Char) (s : KState) (hs : s.com = false) :
    kwLoop ('$' :: d :: r) s = kwLoop r (kwStep (some d) (d :: r) s) := by
  rw [kwLoop_dollar, if_neg h.1, if_neg h.2.1, if_neg h.2.2.1, if_neg (by rw [hs]; simp)]

/-- `parseKeywords` over one statement. -/
theorem kw_stmt {x : Sections} (hx : Good x) (rest : List Char) (s : KState) (hm : s.mode = 0) (hc : s.com = false) (hst : s.start = x.render ++ rest) :
    kwLoop (x.render ++ rest) s = kwLoop rest { s with stmts := s.stmts ++ [placed x rest], start := rest, type := x.kind, mode := 0 } := by
  obtain ⟨ul, hul⟩ := hx.label
  obtain ⟨um, hum⟩ := hx.math
  obtain ⟨up, hup⟩ := hx.proof
  have step1 : ∀ r, s.start = x.label ++ '$' :: kwChar x.kind :: r → kwStep (some (kwChar x.kind)) (kwChar x.kind :: r) s = { s with
      type := x.kind, stmts := s.stmts ++ [{ kind := x.kind, label := s.start, labelLen := x.label.length }]
      start := r, mode := if x.kind ≠ .lb ∧ x.kind ≠ .rb then 1 else 0 } := by
    intro r hr
    unfold kwStep
    rw [kwKind_char hx.kind]
    dsimp only
    rw [if_neg (by rw [hm]; simp)]
    congr 4
    rw [hr, len_sub]
  by_cases hb : x.kind = .lb ∨ x.kind = .rb
  · have e := render_brace hb rest
    rw [e] at hst
    conv => lhs; rw [e, kw_blank hul _ _ hc, kw_dollar (kwChar_ok hx.kind) _ _ hc, step1 rest hst]
    congr 1
    unfold placed
    rw [if_pos hb, hst, ← e, if_neg (by tauto)]
  · by_cases hp : x.kind = .p
    · have e := render_p hp rest
      rw [e] at hst
      conv => lhs; rw [e, kw_blank hul _ _ hc, kw_dollar (kwChar_ok hx.kind) _ _ hc, step1 _ hst, kw_blank hum _ _ (by exact hc), kw_dollar eq_ok _ _ (by exact hc)]
      have step2 : ∀ s' : KState, s'.mode = 1 → s'.type = .p → s'.start = x.math ++ '$' :: '=' :: (x.proof ++ '$' :: '.' :: rest) →
          kwStep (some '=') ('=' :: (x.proof ++ '$' :: '.' :: rest)) s' = { s' with
            stmts := modLast s'.stmts fun y => { y with math := s'.start, mathLen := x.math.length }
            start := x.proof ++ '$' :: '.' :: rest, mode := 2 } := by
        intro s' h1 h2 h3
        have hk : kwKind (some '=') = none := by decide
        unfold kwStep
        rw [hk]
        dsimp only
        rw [if_neg (by rw [h1]; simp), if_pos h1, if_neg (by rw [h2]; simp), if_pos ⟨h2, by simp⟩]
        simp only [h2, decide_true, ne_eq, not_true_eq_false, decide_false, Bool.and_false, Bool.false_eq_true, if_false, Nat.add_zero, List.tail_cons]
        rw [h3, len_sub]
      rw [step2 _ (by dsimp only; rw [if_pos (by rw [hp]; decide)]) hp rfl]
      conv => lhs; rw [kw_blank hup _ _ (by exact hc), kw_dollar dot_ok _ _ (by exact hc)]
      have step3 : ∀ s' : KState, s'.mode = 2 → s'.start = x.proof ++ '$' :: '.' :: rest →
          kwStep (some '.') ('.' :: rest) s' = { s' with
            stmts := modLast s'.stmts fun y => { y with proof := s'.start, proofLen := x.proof.length }
            start := rest, mode := 0 } := by
        intro s' h1 h3
        have hk : kwKind (some '.') = none := by decide
        unfold kwStep
        rw [hk]
        dsimp only
        rw [if_neg (by rw [h1]; simp), if_neg (by rw [h1]; simp), if_neg (by simp)]
        rw [h3, len_sub]
        rfl
      rw [step3 _ rfl rfl]
      congr 1
      dsimp only
      rw [modLast_append, modLast_append]
      unfold placed
      rw [if_neg hb, if_pos hp, hst, ← e]
    · have e := render_other hb hp rest
      rw [e] at hst
      conv => lhs; rw [e, kw_blank hul _ _ hc, kw_dollar (kwChar_ok hx.kind) _ _ hc, step1 _ hst, kw_blank hum _ _ (by exact hc), kw_dollar dot_ok _ _ (by exact hc)]
      have step2 : ∀ s' : KState, s'.mode = 1 → s'.type ≠ .p → s'.start = x.math ++ '$' :: '.' :: rest →
          kwStep (some '.') ('.' :: rest) s' = { s' with
            stmts := modLast s'.stmts fun y => { y with math := s'.start, mathLen := x.math.length }
            start := rest, mode := 0 } := by
        intro s' h1 h2 h3
        have hk : kwKind (some '.') = none := by decide
        unfold kwStep
        rw [hk]
        dsimp only
        rw [if_neg (by rw [h1]; simp), if_pos h1, if_neg (by simp), if_neg (by tauto)]
        simp only [h2, decide_false, Bool.false_and, Bool.false_eq_true, if_false, Nat.add_zero, List.tail_cons]
        rw [h3, len_sub]
      rw [step2 _ (by dsimp only; rw [if_pos (by tauto)]) hp rfl]
      congr 1
      dsimp only
      rw [modLast_append]
      unfold placed
      rw [if_neg hb, if_neg hp, hst, ← e]

/-- **What `parseKeywords` makes of a text that is put together from sections.** -/
theorem kw_place : ∀ (xs : List Sections) (last : List Char) (s : KState), (∀ x ∈ xs, Good x) → (∃ u, Blank last u) → s.mode = 0 → s.com = false →
    s.start = xs.flatMap Sections.render ++ last →
    (kwLoop (xs.flatMap Sections.render ++ last) s).stmts = s.stmts ++ place xs last ∧ (kwLoop (xs.flatMap Sections.render ++ last) s).start = last ∧
    (kwLoop (xs.flatMap Sections.render ++ last) s).errs = s.errs
  | [], last, s, _, ⟨u, hu⟩, hm, hc, hst => by
    have e : kwLoop [] s = s := by rw [kwLoop]; simp [hm]
    have := kw_blank hu [] s hc
    rw [List.append_nil, e] at this
    rw [List.flatMap_nil, List.nil_append, this]
    exact ⟨by simp [place], hst, rfl⟩
  | x :: xs, last, s, hg, hl, hm, hc, hst => by
    rw [List.flatMap_cons, List.append_assoc] at hst ⊢
    rw [kw_stmt (hg x (by simp)) _ s hm hc hst]
    obtain ⟨h1, h2, h3⟩ := kw_place xs last { s with stmts := s.stmts ++ [placed x (xs.flatMap Sections.render ++ last)], start := xs.flatMap Sections.render ++ last, type := x.kind, mode := 0 }
      (fun y hy => hg y (by simp [hy])) hl rfl hc rfl
    exact ⟨by rw [h1]; simp [place], h2, h3⟩

theorem placed_sections {x : Sections} (hx : Good x) (rest : List Char) : (placed x rest).sections = x := by
  have hl : (x.render ++ rest).take x.label.length = x.label := by
    unfold Sections.render; simp
  unfold placed
  split
  next h =>
    unfold KStmt.sections
    simp only [hl, List.take_zero]
    have := hx.noMath h
    have := hx.noProof (by rcases h with h | h <;> rw [h] <;> decide)
    cases x; simp_all
  next h =>
    split
    next hp =>
      unfold KStmt.sections
      simp only [hl, List.take_left']
    next hp =>
      unfold KStmt.sections
      simp only [hl, List.take_left', List.take_zero]
      have := hx.noProof hp
      cases x; simp_all

theorem placed_ok {x : Sections} (hx : Good x) (rest : List Char) : (placed x rest).Ok := by
  obtain ⟨ul, hul⟩ := hx.label
  have hlab : SecOk (x.render ++ rest) x.label.length := by
    have : ∃ r, x.render ++ rest = x.label ++ '$' :: kwChar x.kind :: r := by
      by_cases hb : x.kind = .lb ∨ x.kind = .rb
      · exact ⟨_, render_brace hb rest⟩
      · by_cases hp : x.kind = .p
        · exact ⟨_, render_p hp rest⟩
        · exact ⟨_, render_other hb hp rest⟩
    obtain ⟨r, e⟩ := this
    rw [e]
    exact secOk_of hx.label (stop_kw hx.kind r)
  unfold placed
  split
  next h => exact ⟨hx.kind, hlab, fun h1 h2 => by dsimp only at h1 h2; tauto, fun hp => by dsimp only at hp; rcases h with h | h <;> rw [h] at hp <;> cases hp⟩
  next h =>
    split
    next hp => exact ⟨hx.kind, hlab, fun _ _ => secOk_of hx.math (stop_eq _), fun _ => secOk_of hx.proof (stop_dot _)⟩
    next hp => exact ⟨hx.kind, hlab, fun _ _ => secOk_of hx.math (stop_dot _), fun h => absurd h hp⟩

theorem place_sections : ∀ (xs : List Sections) (last : List Char), (∀ x ∈ xs, Good x) → (place xs last).map KStmt.sections = xs
  | [], _, _ => rfl
  | x :: xs, last, h => by
    rw [place, List.map_cons, placed_sections (h x (by simp)), place_sections xs last (fun y hy => h y (by simp [hy]))]

theorem place_ok : ∀ (xs : List Sections) (last : List Char), (∀ x ∈ xs, Good x) → ∀ y ∈ place xs last, y.Ok
  | [], _, _, y, hy => by cases hy
  | x :: xs, last, h, y, hy => by
    rcases List.mem_cons.1 hy with rfl | hy
    · exact placed_ok (h x (by simp)) _
    · exact place_ok xs last (fun z hz => h z (by simp [hz])) y hy

end MM.Write
