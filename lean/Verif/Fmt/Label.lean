import Verif.Fmt.Re
/-!
# The label sections after formatting
-/
namespace MM.Fmt
open MM.Veri MM.Pars MM.Lex MM.Vstr MM.Long MM.Write MM.Incl

/-! ### Words and comment marks -/

theorem mark_word : ∀ {ws ts : List Name} {com : Bool}, uncomment com ws = some ts → ∀ w ∈ ws, hasMark w = true → w = ['$', '('] ∨ w = ['$', ')']
  | [], _, _, _, w, hw, _ => by cases hw
  | v :: ws, ts, false, h, w, hw, hm => by
    rw [uncomment] at h
    by_cases h1 : v = ['$', '(']
    · rw [if_pos h1] at h
      rcases List.mem_cons.1 hw with rfl | hw
      · exact Or.inl h1
      · exact mark_word h w hw hm
    · rw [if_neg h1] at h
      by_cases h2 : hasMark v = true
      · rw [if_pos h2] at h; cases h
      · rw [if_neg h2, Option.map_eq_some_iff] at h
        obtain ⟨x, h, _⟩ := h
        rcases List.mem_cons.1 hw with rfl | hw
        · exact absurd hm h2
        · exact mark_word h w hw hm
  | v :: ws, ts, true, h, w, hw, hm => by
    rw [uncomment] at h
    by_cases h1 : v = ['$', ')']
    · rw [if_pos h1] at h
      rcases List.mem_cons.1 hw with rfl | hw
      · exact Or.inr h1
      · exact mark_word h w hw hm
    · rw [if_neg h1] at h
      by_cases h2 : hasMark v = true
      · rw [if_pos h2] at h; cases h
      · rw [if_neg h2] at h
        rcases List.mem_cons.1 hw with rfl | hw
        · exact absurd hm h2
        · exact mark_word h w hw hm

theorem mark_gaps {p r : Str} {d : Char} {ts : List Name} (hd : d = '(' ∨ d = ')') (h : tokens (p ++ '$' :: d :: r) = some ts) : EndsGap p ∧ AtGap r := by
  have hdg : isGraph d = true := by rcases hd with rfl | rfl <;> decide
  have key : ∀ x : Str, (∀ c ∈ x, isGraph c = true) → ['$', d] <:+: x → x <:+: p ++ '$' :: d :: r → x.length ≤ 2 := by
    intro x h1 h2 h3
    obtain ⟨w, hw, hx⟩ := graph_infix h1 (by rintro rfl; simp at h2) h3
    have hm : hasMark w = true := by
      unfold hasMark
      rcases hd with rfl | rfl
      · rw [decide_eq_true (h2.trans hx)]; rfl
      · rw [decide_eq_true (h2.trans hx), Bool.or_true]
    have := hx.length_le
    rcases mark_word h w hw hm with rfl | rfl <;> simpa using this
  refine ⟨?_, ?_⟩
  · intro c hc
    cases hg : isGraph c
    · rfl
    · exfalso
      obtain ⟨p0, rfl⟩ : ∃ p0, p = p0 ++ [c] := by
        have := List.getLast?_eq_some_iff.1 hc
        exact this
      have := key [c, '$', d] (by simp [hg, hdg, isGraph_dollar]) ⟨[c], [], by simp⟩ ⟨p0, r, by simp⟩
      simp at this
  · intro c hc
    cases hg : isGraph c
    · rfl
    · exfalso
      cases r with
      | nil => cases hc
      | cons e r =>
        simp at hc
        subst hc
        have := key ['$', d, e] (by simp [hg, hdg, isGraph_dollar]) ⟨[], [e], by simp⟩ ⟨p, r, by simp⟩
        simp at this

theorem uncomment_open : ∀ {ws vs ts : List Name}, uncomment false (ws ++ ['$', '('] :: vs) = some ts → ∃ x, uncomment false ws = some x ∧ (uncomment true vs).map (x ++ ·) = some ts := by
  have key : ∀ (ws vs ts : List Name) (com : Bool), uncomment com (ws ++ ['$', '('] :: vs) = some ts → ∃ x, uncomment com ws = some x ∧ (uncomment true vs).map (x ++ ·) = some ts := by
    intro ws
    induction ws with
    | nil =>
      intro vs ts com h
      cases com with
      | false =>
        rw [List.nil_append, uncomment, if_pos rfl] at h
        exact ⟨[], rfl, by rw [h]; rfl⟩
      | true =>
        rw [List.nil_append, uncomment, if_neg (by decide), if_pos (by decide)] at h
        cases h
    | cons w ws ih =>
      intro vs ts com h
      cases com with
      | false =>
        rw [List.cons_append, uncomment] at h
        rw [uncomment]
        by_cases h1 : w = ['$', '(']
        · rw [if_pos h1] at h ⊢; exact ih _ _ _ h
        · rw [if_neg h1] at h ⊢
          by_cases h2 : hasMark w = true
          · rw [if_pos h2] at h; cases h
          · rw [if_neg h2, Option.map_eq_some_iff] at h
            obtain ⟨y, h, rfl⟩ := h
            obtain ⟨x, g1, g2⟩ := ih _ _ _ h
            rw [if_neg h2, g1]
            refine ⟨w :: x, rfl, ?_⟩
            rw [Option.map_eq_some_iff] at g2 ⊢
            obtain ⟨z, g2, rfl⟩ := g2
            exact ⟨z, g2, rfl⟩
      | true =>
        rw [List.cons_append, uncomment] at h
        rw [uncomment]
        by_cases h1 : w = ['$', ')']
        · rw [if_pos h1] at h ⊢; exact ih _ _ _ h
        · rw [if_neg h1] at h ⊢
          by_cases h2 : hasMark w = true
          · rw [if_pos h2] at h; cases h
          · rw [if_neg h2] at h ⊢; exact ih _ _ _ h
  intro ws vs ts h
  exact key _ _ _ _ h

/-! ### Text before something -/

theorem edit128_ok (g : Nat → Char) {s : Str} (hs : NoNul s) : ∃ r b, edit 128 g s = .val r ∧ s = r ++ b ∧ ∀ c ∈ b, isSpace c = true := by
  refine ⟨_, (s.reverse.takeWhile isBlank).reverse, C36_code128 g hs, ?_, ?_⟩
  · have : (fun c : Char => c == ' ' || c == '\t') = isBlank := rfl
    rw [this, ← List.reverse_append, List.takeWhile_append_dropWhile, List.reverse_reverse]
  · intro c hc
    rw [List.mem_reverse] at hc
    exact (blank_space (List.mem_takeWhile_imp hc)).1

theorem words_tail {r b : Str} (hb : ∀ c ∈ b, isSpace c = true) : words (r ++ b) = words r := by
  rw [words_app (Or.inr fun c hc => space_graph (hb c (List.mem_of_mem_head? hc))), words_gap fun c hc => space_graph (hb c hc), List.append_nil]

/-- `q` can replace `p`. -/
structure Pre (prev : Bool) (p q : Str) : Prop where
  legal : Legal q
  start : prev = true → AtGap q ∧ q ≠ []
  stop : EndsGap q
  words : words q = words p
  cr : '\r' ∉ p → '\r' ∉ q

theorem pre_tail {prev : Bool} {p r b w : Str} (hl : Legal p) (hs : prev = true → AtGap p ∧ p ≠ []) (e : p = r ++ b) (hb : ∀ c ∈ b, isSpace c = true)
    (hw : ∀ c ∈ w, isSpace c = true) (hm : '\r' ∉ w) (hne : w ≠ [] ∨ (r ≠ [] ∧ EndsGap r)) : Pre prev p (r ++ w) := by
  refine ⟨?_, ?_, ?_, by rw [e, words_tail hb, words_tail hw], ?_⟩
  · intro c hc
    rcases List.mem_append.1 hc with h | h
    · exact hl c (by rw [e]; simp [h])
    · exact Or.inr (hw c h)
  · intro hp
    refine ⟨?_, by rcases hne with h | h <;> simp [h]⟩
    intro c hc
    cases r with
    | nil => exact space_graph (hw c (List.mem_of_mem_head? hc))
    | cons d r => exact (hs hp).1 c (by rw [e]; simpa using hc)
  · by_cases h : w = []
    · rw [h, List.append_nil]; exact (hne.resolve_left (fun h' => h' h)).2
    · exact endsGap_append (endsGap_gap hw) h
  · intro h hc
    rcases List.mem_append.1 hc with h' | h'
    · exact h (by rw [e]; simp [h'])
    · exact hm h'

theorem Pre.clean {prev : Bool} {p q : Str} {ts : List Name} (h : Pre prev p q) (hc : Clean prev p ts) : Clean prev q ts := hc.same h.words h.legal h.start h.stop

theorem rinstr_nl (p : Str) : ∃ pos, rinstr (p.length + 1) p ['\n'] = .val pos ∧ ((pos = 0 ∧ '\n' ∉ p) ∨ ∃ a b, p = a ++ '\n' :: b ∧ '\n' ∉ b ∧ pos = a.length + 1) := by
  obtain ⟨r, h1, h2⟩ := C26_rinstr p ['\n'] (by simp)
  refine ⟨r, h1 _ (by omega), ?_⟩
  rcases h2 with ⟨h2, h3⟩ | ⟨⟨a, b, h2, h3⟩, h4⟩
  · refine Or.inl ⟨h2, fun h => ?_⟩
    obtain ⟨a, b, rfl⟩ := List.append_of_mem h
    exact h3 (a.length + 1) ⟨a, b, by simp, rfl⟩
  · refine Or.inr ⟨a, b, by rw [h2]; simp, fun h => ?_, h3⟩
    obtain ⟨x, y, rfl⟩ := List.append_of_mem h
    have := h4 ((a ++ ['\n'] ++ x).length + 1) ⟨a ++ ['\n'] ++ x, y, by rw [h2]; simp, rfl⟩
    simp at this
    omega

theorem pre_ok (g : Nat → Char) {stmt : Nat} (k : Kind) {prev : Bool} {p : Str} (hl : Legal p) (he : EndsGap p) (hs : prev = true → AtGap p ∧ p ≠ [])
    (hst : prev = true ↔ stmt > 1) (hf : prev = false → '\n' ∈ p ∨ ∀ c ∈ p, isGraph c = false) :
    ∃ pos r q, rinstr (p.length + 1) p ['\n'] = .val pos ∧ (dropBlank k p pos >>= fun r => needNl g stmt r.1 r.2) = .val r ∧ Pre prev p r.1 ∧
      left r.1 r.2 = .val q ∧ (OwnLine p → Pre prev p q) := by
  have hp0 : Pre prev p p := ⟨hl, hs, he, rfl, fun h => h⟩
  obtain ⟨pos, h1, h2⟩ := rinstr_nl p
  refine ⟨pos, ?_⟩
  unfold dropBlank needNl
  rcases h2 with ⟨rfl, h2⟩ | ⟨a, b, e, hb, rfl⟩
  · rw [if_neg (by omega), Out.bind_val]
    dsimp only
    by_cases hst' : stmt > 1
    · rw [if_pos ⟨rfl, hst'⟩]
      obtain ⟨r0, b0, e1, e2, e3⟩ := edit128_ok g (legal_nonul hl)
      rw [e1, Out.bind_val]
      have hpre := pre_tail hl hs e2 e3 (w := ['\n']) (by decide) (by decide) (Or.inl (by simp))
      refine ⟨_, r0 ++ ['\n'], h1, rfl, hpre, ?_, fun _ => hpre⟩
      rw [left_nat (r0.length + 2) rfl, List.take_of_length_le (by simp)]
    · rw [if_neg (by omega)]
      refine ⟨_, [], h1, rfl, hp0, rfl, fun _ => ?_⟩
      have hpf : prev = false := by cases prev; rfl; exact absurd (hst.1 rfl) hst'
      have hw := (hf hpf).resolve_left h2
      exact ⟨(fun c hc => by cases hc), (fun h => by rw [hpf] at h; cases h), (fun c hc => by cases hc), by rw [words_gap hw, words_nil], (fun _ hc => by cases hc)⟩
  · have hcut : OwnLine p → Pre prev p (a ++ ['\n']) := by
      intro ho
      have hbw := ho a b e hb
      have hbs : ∀ c ∈ '\n' :: b, isSpace c = true := by
        intro c hc
        rcases List.mem_cons.1 hc with rfl | hc
        · rfl
        · exact (hl c (by rw [e]; simp [hc])).resolve_left (by rw [hbw c hc]; simp)
      exact pre_tail hl hs e hbs (by decide) (by decide) (Or.inl (by simp))
    by_cases hd : k = .e ∧ a.length + 1 = 2 ∧ p.head? = some '\n'
    · rw [if_pos hd, right_nat 1 (by omega), Out.bind_val, Out.bind_val]
      obtain ⟨_, ha, hh⟩ := hd
      have ha1 : a = ['\n'] := by
        cases a with
        | nil => simp at ha
        | cons x a =>
          cases a with
          | nil => rw [e] at hh; simp at hh; rw [hh]
          | cons y a => simp at ha
      subst ha1
      have e2 : p.drop 1 = '\n' :: b := by rw [e]; rfl
      dsimp only
      rw [if_neg (by omega), e2]
      have hwd : words ('\n' :: b) = words p := by rw [e]; exact (words_blank (u := '\n' :: b) (by decide)).symm
      have heb : EndsGap ('\n' :: b) := fun c hc => he c (by rw [e, List.getLast?_append, hc]; rfl)
      refine ⟨_, ['\n'], h1, rfl, ⟨fun c hc => hl c (by rw [e]; simp at hc ⊢; tauto), fun _ => ⟨fun c hc => by simp at hc; subst hc; decide, by simp⟩, heb, hwd, ?_⟩, ?_, ?_⟩
      · intro h hc; refine h ?_; rw [e]; simp at hc ⊢; tauto
      · rw [left_nat 1 rfl]; rfl
      · intro ho
        have := hcut ho
        refine ⟨fun c hc => by simp at hc; subst hc; exact Or.inr rfl, fun _ => ⟨fun c hc => by simp at hc; subst hc; decide, by simp⟩, fun c hc => by simp at hc; subst hc; decide, ?_, fun _ hc => by simp at hc⟩
        rw [← this.words]
        exact (words_blank (u := ['\n']) (by decide)).symm
    · rw [if_neg hd, Out.bind_val]
      dsimp only
      rw [if_neg (by omega)]
      refine ⟨_, a ++ ['\n'], h1, rfl, hp0, ?_, hcut⟩
      rw [left_nat (a.length + 1) rfl, e, show a ++ '\n' :: b = (a ++ ['\n']) ++ b by simp]
      congr 1
      exact take_at _ _ _ (by simp)

/-! ### `${`, `$}`, `$c`, `$v`, `$d` -/

theorem space_space (n : Nat) : ∀ c ∈ space n, isSpace c = true := fun c hc => by rw [List.eq_of_mem_replicate hc]; rfl
theorem space_cr (n : Nat) : '\r' ∉ space n := fun h => by have := List.eq_of_mem_replicate h; cases this

theorem nl_end {s : Str} (h : s.getLast? = some '\n') : EndsGap s := fun c hc => by rw [h] at hc; cases hc; decide

theorem brace_ok (g : Nat → Char) (k pk : Kind) (indent : Nat) {prev : Bool} {lab : Str} {ts : List Name} (hc : Clean prev lab ts) :
    ∃ L, braceLabel g k pk indent lab = .val L ∧ Pre prev lab L := by
  obtain ⟨r, b, e1, e2, e3⟩ := edit128_ok g (legal_nonul hc.legal)
  unfold braceLabel
  rw [e1, Out.bind_val]
  refine ⟨_, rfl, ?_⟩
  have key : ∃ w : Str, addIndent indent (blankLine k pk (addNl r)) = r ++ w ∧ (∀ c ∈ w, c = ' ' ∨ c = '\n') ∧ (w ≠ [] ∨ (r ≠ [] ∧ EndsGap r)) := by
    have hsp : ∀ c ∈ space indent, c = ' ' ∨ c = '\n' := fun c hc => Or.inl (List.eq_of_mem_replicate hc)
    by_cases hr : r = []
    · subst hr
      have : addNl [] = [] := rfl
      rw [this]
      unfold blankLine
      by_cases h1 : k = .lb ∧ pk = .rb
      · rw [if_pos h1, if_pos rfl]
        refine ⟨['\n', '\n'] ++ space indent, rfl, ?_, Or.inl (by simp)⟩
        intro c hc
        rcases List.mem_append.1 hc with h | h
        · right; simpa using h
        · exact hsp c h
      · rw [if_neg h1]
        exact ⟨[' ', ' '], rfl, by simp, Or.inl (by simp)⟩
    · have a1 : ∃ w : Str, addNl r = r ++ w ∧ (∀ c ∈ w, c = '\n') ∧ (w = [] → EndsGap r) := by
        unfold addNl
        by_cases h : r ≠ [] ∧ r.getLast? ≠ some '\n'
        · rw [if_pos h]; exact ⟨['\n'], rfl, by simp, fun h => by cases h⟩
        · rw [if_neg h]
          refine ⟨[], by simp, by simp, fun _ => nl_end ?_⟩
          cases hh : r.getLast? with
          | none => exact absurd (List.getLast?_eq_none_iff.1 hh) hr
          | some d =>
            by_cases hd : d = '\n'
            · rw [hd]
            · exact absurd ⟨hr, by rw [hh]; simpa using hd⟩ h
      obtain ⟨w1, h1, h2, h3⟩ := a1
      have a2 : ∃ w : Str, blankLine k pk (addNl r) = r ++ w ∧ (∀ c ∈ w, c = '\n') ∧ (w = [] → EndsGap r) := by
        unfold blankLine
        have hne : addNl r ≠ [] := by rw [h1]; simp [hr]
        by_cases h4 : k = .lb ∧ pk = .rb
        · rw [if_pos h4, if_neg hne]
          by_cases h5 : instr 1 (addNl r) ['\n', '\n'] = 0
          · rw [if_pos h5, h1]
            refine ⟨w1 ++ ['\n'], by simp, ?_, fun h => by simp at h⟩
            intro c hc
            rcases List.mem_append.1 hc with h | h
            · exact h2 c h
            · simpa using h
          · rw [if_neg h5]; exact ⟨w1, h1, h2, h3⟩
        · rw [if_neg h4]; exact ⟨w1, h1, h2, h3⟩
      obtain ⟨w2, h4, h5, h6⟩ := a2
      unfold addIndent
      rw [if_neg (by rw [h4]; simp [hr]), h4]
      refine ⟨w2 ++ space indent, by simp, ?_, ?_⟩
      · intro c hc
        rcases List.mem_append.1 hc with h | h
        · exact Or.inr (h5 c h)
        · exact hsp c h
      · by_cases h : w2 = []
        · exact Or.inr ⟨hr, h6 h⟩
        · left; simp [h]
  obtain ⟨w, h1, h2, h3⟩ := key
  rw [h1]
  refine pre_tail hc.legal hc.start e2 e3 ?_ ?_ h3
  · intro c hc; rcases h2 c hc with rfl | rfl <;> rfl
  · intro hc; rcases h2 _ hc with h | h <;> cases h

theorem edit6_blank {g : Nat → Char} {s : Str} (hs : NoNul s) : ∃ b, isBlankLabel g s = .val b ∧ (b = true → ∀ c ∈ s, isGraph c = false) := by
  unfold isBlankLabel
  rw [C36_edit_plain (by decide) (by decide), Out.bind_val]
  refine ⟨_, rfl, ?_⟩
  intro h c hc
  have h := of_decide_eq_true h
  have h : editLoop 6 false s = [] := h
  rw [editLoop_noquote (by decide), List.filterMap_eq_nil_iff] at h
  have h := h c hc
  have e : editChar 6 c = if isBlank c = true then none else if c.toNat = 0 then none else if isCtrl c = true then none else some c := rfl
  rw [e] at h
  by_cases h1 : isBlank c = true
  · exact space_graph (blank_space h1).1
  · rw [if_neg h1, if_neg (hs c hc)] at h
    by_cases h2 : isCtrl c = true
    · unfold isCtrl at h2
      unfold isGraph
      simp at h2 ⊢
      omega
    · rw [if_neg h2] at h; cases h

theorem dGroup_ok (width : Int) (pk : Kind) (dpos : Int) (indent len : Nat) {b : Bool} {prev : Bool} {lab : Str} {ts : List Name} (hc : Clean prev lab ts)
    (hb : b = true → ∀ c ∈ lab, isGraph c = false) : Pre prev lab (dGroup width pk dpos indent len b lab).1 := by
  unfold dGroup
  by_cases h : b = true ∧ pk = .d
  · rw [if_pos h]
    have hw : words lab = [] := words_gap (hb h.1)
    have key : ∀ q : Str, (∀ c ∈ q, isSpace c = true) → '\r' ∉ q → q ≠ [] → Pre prev lab q := by
      intro q h1 h2 h3
      exact ⟨fun c hc => Or.inr (h1 c hc), fun _ => ⟨fun c hc => space_graph (h1 c (List.mem_of_mem_head? hc)), h3⟩, endsGap_gap h1,
        by rw [hw]; exact words_gap fun c hc => space_graph (h1 c hc), fun _ => h2⟩
    by_cases h2 : dpos + 2 + len + 4 ≤ width
    · rw [if_pos h2]; exact key [' ', ' '] (by decide) (by decide) (by simp)
    · rw [if_neg h2]
      refine key _ ?_ ?_ (by simp)
      · intro c hc
        rcases List.mem_cons.1 hc with rfl | hc
        · rfl
        · exact space_space _ c hc
      · intro hc
        rcases List.mem_cons.1 hc with h | h
        · cases h
        · exact space_cr _ h
  · rw [if_neg h]; exact ⟨hc.legal, hc.start, hc.stop, rfl, fun h => h⟩

/-! ### The label -/

theorem finish {prev : Bool} {q name : Str} (indent : Nat) (hl : Legal q) (hs : prev = true → AtGap q ∧ q ≠ []) (he : EndsGap q)
    (hn : ∀ c ∈ name, isGraph c = true) (hne : name ≠ []) :
    Legal (q ++ space indent ++ name ++ [' ']) ∧ (prev = true → AtGap (q ++ space indent ++ name ++ [' ']) ∧ q ++ space indent ++ name ++ [' '] ≠ []) ∧
      EndsGap (q ++ space indent ++ name ++ [' ']) ∧ words (q ++ space indent ++ name ++ [' ']) = words q ++ [name] := by
  refine ⟨?_, ?_, endsGap_append (endsGap_gap (by decide)) (by simp), ?_⟩
  · intro c hc
    simp only [List.mem_append, List.mem_singleton] at hc
    rcases hc with ((h | h) | h) | h
    · exact hl c h
    · exact Or.inr (space_space _ c h)
    · exact Or.inl (hn c h)
    · subst h; exact Or.inr rfl
  · intro hp
    refine ⟨?_, by simp⟩
    intro c hc
    cases q with
    | nil => exact absurd rfl (hs hp).2
    | cons d q => exact (hs hp).1 c (by simpa using hc)
  · rw [List.append_assoc, List.append_assoc, words_app (Or.inl he)]
    congr 1
    rw [words_app (Or.inl (endsGap_gap (space_space _))), words_gap fun c hc => space_graph (space_space _ c hc), List.nil_append,
      words_word hn hne (fun c hc => by simp at hc; subst hc; decide)]
    rfl

theorem uncomment_none : ∀ {ws ts : List Name}, uncomment false ws = some ts → ['$', '('] ∉ ws → ts = ws
  | [], ts, h, _ => by cases h; rfl
  | w :: ws, ts, h, hn => by
    simp at hn
    rw [uncomment, if_neg (fun e => hn.1 e.symm)] at h
    by_cases h2 : hasMark w = true
    · rw [if_pos h2] at h; cases h
    · rw [if_neg h2, Option.map_eq_some_iff] at h
      obtain ⟨x, h, rfl⟩ := h
      rw [uncomment_none h (by simpa using hn.2)]

theorem rinstr_word {p name ws : Str} (hn : ∀ c ∈ name, isGraph c = true) (hne : name ≠ []) (hw : ∀ c ∈ ws, isGraph c = false) :
    rinstr ((p ++ name ++ ws).length + 1) (p ++ name ++ ws) name = .val (p.length + 1) := by
  obtain ⟨r, h1, h2⟩ := C26_rinstr (p ++ name ++ ws) name hne
  rw [h1 _ (by omega)]
  congr 1
  rcases h2 with ⟨_, h3⟩ | ⟨⟨a, b, h2, h3⟩, h4⟩
  · exact absurd ⟨p, ws, rfl, rfl⟩ (h3 (p.length + 1))
  · have h5 := h4 (p.length + 1) ⟨p, ws, rfl, rfl⟩
    rcases List.append_eq_append_iff.1 h2 with ⟨x, e1, e2⟩ | ⟨x, e1, e2⟩
    · by_cases hx : x = []
      · subst hx
        have := congrArg List.length e1
        simp at this
        omega
      · exfalso
        have l1 : (a ++ name).getLast? = name.getLast? := by rw [List.getLast?_append]; cases h : name.getLast? with | none => exact absurd (List.getLast?_eq_none_iff.1 h) hne | some d => rfl
        have l2 : (a ++ name).getLast? = x.getLast? := by rw [e1, List.getLast?_append]; cases h : x.getLast? with | none => exact absurd (List.getLast?_eq_none_iff.1 h) hx | some d => rfl
        obtain ⟨d, hd⟩ : ∃ d, x.getLast? = some d := by cases h : x.getLast? with | none => exact absurd (List.getLast?_eq_none_iff.1 h) hx | some d => exact ⟨d, rfl⟩
        have m1 := hn d (List.mem_of_getLast? (by rw [← l1, l2, hd]))
        have m2 := hw d (by rw [e2]; simp [List.mem_of_getLast? hd])
        rw [m2] at m1; cases m1
    · have := congrArg List.length e1
      simp at this
      omega

/-- The label of a `$e` or `$f` is the last word, and the only one on its line. -/
def HypConv (name lab : Str) : Prop := ∃ p ws, lab = p ++ name ++ ws ∧ EndsGap p ∧ OwnLine p ∧ ∀ c ∈ ws, isGraph c = false

theorem HypConv.re {name lab lab' : Str} (hn : ∀ c ∈ name, isGraph c = true) (hne : name ≠ []) (h : HypConv name lab) (hr : Re lab lab') : HypConv name lab' := by
  obtain ⟨p, ws, rfl, h1, h2, h3⟩ := h
  have hg : ∃ c r, name ++ ws = c :: r ∧ isGraph c = true := by
    cases name with
    | nil => exact absurd rfl hne
    | cons c r => exact ⟨c, r ++ ws, rfl, hn c (by simp)⟩
  obtain ⟨p', q', e, r1, r2, _⟩ := hr.split (List.append_assoc _ _ _) hg
  obtain ⟨ws', e2, r3⟩ := r2.word hn rfl
  refine ⟨p', ws', by rw [e, e2]; simp, r1.endsGap h1, r1.ownLine h2, ?_⟩
  intro c hc
  rcases r3.mem hc with h | rfl
  · exact h3 c h
  · rfl

theorem hyp_ok (f : FCfg) {stmt : Nat} (pk : Kind) (indent : Nat) {prev : Bool} {name lab : Str} (hn : ∀ c ∈ name, isGraph c = true) (hne : name ≠ [])
    (hc : Clean prev lab [name]) (hst : prev = true ↔ stmt > 1) (hf : prev = true) (hv : HypConv name lab) :
    ∃ L, hypLabel f stmt pk indent name lab = .val L ∧ Clean prev L [name] ∧ words L = words lab ∧ ('\r' ∉ lab → '\r' ∉ L) := by
  obtain ⟨p, ws, rfl, h1, h2, h3⟩ := hv
  have hwd : words (p ++ name ++ ws) = words p ++ [name] := by
    rw [List.append_assoc, words_app (Or.inl h1), words_word hn hne (fun c hc => h3 c (List.mem_of_mem_head? hc)), words_gap h3]
  have hlp : Legal p := fun c hc' => hc.legal c (by simp [hc'])
  have hsp : prev = true → AtGap p ∧ p ≠ [] := by
    intro hp
    obtain ⟨g1, g2⟩ := hc.start hp
    cases p with
    | nil =>
      exfalso
      cases name with
      | nil => exact hne rfl
      | cons c name => have := g1 c (by simp); rw [hn c (by simp)] at this; cases this
    | cons c p => exact ⟨fun d hd => g1 d (by simpa using hd), by simp⟩
  obtain ⟨pos, r, q, e1, e2, e3, e4, e5⟩ := pre_ok f.g (stmt := stmt) .none (prev := prev) hlp h1 hsp hst (fun h => by rw [hf] at h; cases h)
  have e5 := e5 h2
  have hd : dropBlank .none p pos = .val (p, pos) := by unfold dropBlank; rw [if_neg (by rintro ⟨h, _⟩; cases h)]
  rw [hd, Out.bind_val] at e2
  have hleft : left (p ++ name ++ ws) (((p.length + 1 : Nat) : Int) - 1) = .val p := by
    rw [left_nat p.length (by omega), List.append_assoc, take_at _ _ _ rfl]
  unfold hypLabel
  rw [rinstr_word hn hne h3, Out.bind_val, hleft, Out.bind_val, e1, Out.bind_val, e2, Out.bind_val, e4, Out.bind_val]
  refine ⟨_, rfl, ?_⟩
  have key : ∀ q', Pre prev p q' → Clean prev (q' ++ space indent ++ name ++ [' ']) [name] ∧ words (q' ++ space indent ++ name ++ [' ']) = words (p ++ name ++ ws) ∧
      ('\r' ∉ p ++ name ++ ws → '\r' ∉ q' ++ space indent ++ name ++ [' ']) := by
    intro q' hq
    obtain ⟨f1, f2, f3, f4⟩ := finish indent hq.legal hq.start hq.stop hn hne
    have hw2 : words (q' ++ space indent ++ name ++ [' ']) = words (p ++ name ++ ws) := by rw [f4, hwd, hq.words]
    refine ⟨hc.same hw2 f1 f2 f3, hw2, ?_⟩
    intro hcr hm
    simp only [List.mem_append, not_or] at hcr hm
    rcases hm with ((h | h) | h) | h
    · exact hq.cr hcr.1.1 h
    · exact space_cr _ h
    · exact hcr.1.2 h
    · simp at h
  by_cases hd : (pk = .d ∨ pk = .e) ∧ instr 1 q ['$', '('] = 0
  · rw [if_pos hd]
    refine key _ ?_
    have hno : ['$', '('] ∉ words p := by
      intro hm
      rw [← e5.words] at hm
      obtain ⟨a, b, e⟩ := mem_words_infix _ q (Nat.le_refl _) _ hm
      rcases C26_instr 1 q ['$', '('] (by simp) with ⟨_, g⟩ | ⟨g, _⟩
      · exact g (a.length + 1) (by omega) ⟨a, b, e.symm, rfl⟩
      · rw [hd.2] at g; omega
    have ht := hc.toks
    unfold tokens at ht
    rw [hwd] at ht
    have hcn : ['$', '('] ∉ words p ++ [name] := by
      intro hm
      rcases List.mem_append.1 hm with h | h
      · exact hno h
      · simp at h
        exact hc.dollar name (by simp) (by rw [← h]; simp)
    have := uncomment_none ht hcn
    have hp0 : words p = [] := by
      simpa using this
    exact ⟨fun c hc => Or.inr (by simp at hc; subst hc; rfl), fun _ => ⟨fun c hc => by simp at hc; subst hc; decide, by simp⟩, fun c hc => by simp at hc; subst hc; decide,
      by rw [hp0]; exact (words_blank (by decide)).trans words_nil, fun _ hm => by simp at hm⟩
  · rw [if_neg hd]; exact key q e5

end MM.Fmt
