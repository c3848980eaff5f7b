import Verif.Fmt.Clean
import Verif.Fmt.Model
import Verif.Vstr.Untab
import Verif.Vstr.EditProps
/-!
# Texts that differ in their spacing only
-/
namespace MM.Fmt
open MM.Veri MM.Pars MM.Lex MM.Vstr MM.Long MM.Write MM.Incl

/-- `t` is `s` with white space replaced by white space, without joining lines to others or breaking lines. -/
inductive Re : Str → Str → Prop
  | refl (s : Str) : Re s s
  | step (x g g' y : Str) : (∀ c ∈ g, isSpace c = true) → (∀ c ∈ g', c ∈ g ∨ c = ' ') → g ≠ [] → g' ≠ [] → ('\n' ∈ g ↔ '\n' ∈ g') → Re (x ++ (g ++ y)) (x ++ (g' ++ y))
  | trans {s t u : Str} : Re s t → Re t u → Re s u

theorem space_graph {c : Char} (h : isSpace c = true) : isGraph c = false := by
  unfold isSpace at h
  unfold isGraph
  simp at h ⊢
  omega

theorem gap_of {g g' : Str} (h : ∀ c ∈ g, isSpace c = true) (h' : ∀ c ∈ g', c ∈ g ∨ c = ' ') : ∀ c ∈ g', isSpace c = true := by
  intro c hc
  rcases h' c hc with h1 | rfl
  · exact h c h1
  · rfl

theorem white_of {g : Str} (h : ∀ c ∈ g, isSpace c = true) : White g := fun c hc => by rw [printable_eq]; exact space_graph (h c hc)

theorem Re.words {s t : Str} (h : Re s t) : words t = words s := by
  induction h with
  | refl => rfl
  | step x g g' y h1 h2 h3 h4 _ =>
    rw [← List.append_assoc, ← List.append_assoc, words_fn.white' (white_of h1) x y h3, words_fn.white' (white_of (gap_of h1 h2)) x y h4]
  | trans _ _ i1 i2 => rw [i2, i1]

theorem Re.legal {s t : Str} (h : Re s t) (hl : Legal s) : Legal t := by
  induction h with
  | refl => exact hl
  | step x g g' y h1 h2 h3 h4 _ =>
    intro c hc
    simp only [List.mem_append] at hc
    rcases hc with hc | hc | hc
    · exact hl c (by simp [hc])
    · exact Or.inr (gap_of h1 h2 c hc)
    · exact hl c (by simp [hc])
  | trans _ _ i1 i2 => exact i2 (i1 hl)

theorem Re.mem {s t : Str} (h : Re s t) {c : Char} (hc : c ∈ t) : c ∈ s ∨ c = ' ' := by
  induction h with
  | refl => exact Or.inl hc
  | step x g g' y h1 h2 h3 h4 _ =>
    simp only [List.mem_append] at hc ⊢
    rcases hc with hc | hc | hc
    · simp [hc]
    · rcases h2 c hc with h | h <;> simp [h]
    · simp [hc]
  | trans _ _ i1 i2 =>
    rcases i2 hc with h | h
    · exact i1 h
    · exact Or.inr h

theorem Re.nil_iff {s t : Str} (h : Re s t) : s = [] ↔ t = [] := by
  induction h with
  | refl => rfl
  | step x g g' y h1 h2 h3 h4 _ => simp [h3, h4]
  | trans _ _ i1 i2 => exact i1.trans i2

theorem Re.atGap {s t : Str} (h : Re s t) (hs : AtGap s) : AtGap t := by
  induction h with
  | refl => exact hs
  | step x g g' y h1 h2 h3 h4 _ =>
    intro c hc
    cases x with
    | nil =>
      cases g' with
      | nil => exact absurd rfl h4
      | cons d g' => simp at hc; subst hc; exact space_graph (gap_of h1 h2 _ (by simp))
    | cons d x => exact hs c (by simpa using hc)
  | trans _ _ i1 i2 => exact i2 (i1 hs)

theorem endsGap_gap {g : Str} (h : ∀ c ∈ g, isSpace c = true) : EndsGap g := fun c hc => space_graph (h c (List.mem_of_getLast? hc))

theorem Re.endsGap {s t : Str} (h : Re s t) (hs : EndsGap s) : EndsGap t := by
  induction h with
  | refl => exact hs
  | step x g g' y h1 h2 h3 h4 _ =>
    by_cases hy : y = []
    · subst hy
      rw [List.append_nil]
      exact endsGap_append (endsGap_gap (gap_of h1 h2)) h4
    · rw [← List.append_assoc]
      refine endsGap_append ?_ hy
      intro c hc
      refine hs c ?_
      rw [← List.append_assoc, List.getLast?_append, hc]
      rfl
  | trans _ _ i1 i2 => exact i2 (i1 hs)

theorem Re.clean {s t : Str} (h : Re s t) {prev : Bool} {ts : List Name} (hc : Clean prev s ts) : Clean prev t ts :=
  hc.same h.words (h.legal hc.legal) (fun hp => ⟨h.atGap (hc.start hp).1, fun e => (hc.start hp).2 (h.nil_iff.2 e)⟩) (h.endsGap hc.stop)

theorem Re.left (x : Str) {s t : Str} (h : Re s t) : Re (x ++ s) (x ++ t) := by
  induction h with
  | refl => exact .refl _
  | step z g g' y h1 h2 h3 h4 h5 =>
    have := Re.step (x ++ z) g g' y h1 h2 h3 h4 h5
    rwa [List.append_assoc, List.append_assoc] at this
  | trans _ _ i1 i2 => exact i1.trans i2

theorem Re.cons (c : Char) {s t : Str} (h : Re s t) : Re (c :: s) (c :: t) := h.left [c]

/-- The part up to a word. -/
theorem Re.split {s t : Str} (h : Re s t) : ∀ {p q : Str}, s = p ++ q → (∃ c r, q = c :: r ∧ isGraph c = true) →
    ∃ p' q', t = p' ++ q' ∧ Re p p' ∧ Re q q' ∧ ∃ c r, q' = c :: r ∧ isGraph c = true := by
  induction h with
  | refl => intro p q e hq; exact ⟨p, q, e, .refl _, .refl _, hq⟩
  | step x g g' y h1 h2 h3 h4 h5 =>
    intro p q e hq
    obtain ⟨c, r, rfl, hc⟩ := hq
    rcases List.append_eq_append_iff.1 e with ⟨a, e1, e2⟩ | ⟨a, e1, e2⟩
    · rcases List.append_eq_append_iff.1 e2 with ⟨b, e3, e4⟩ | ⟨b, e3, e4⟩
      · subst e1 e3
        refine ⟨x ++ (g' ++ b), c :: r, by rw [e4]; simp, ?_, .refl _, c, r, rfl, hc⟩
        exact .step x g g' b h1 h2 h3 h4 h5
      · cases b with
        | nil =>
          simp at e3 e4
          subst e3
          refine ⟨x ++ g', c :: r, by rw [e4]; simp, ?_, .refl _, c, r, rfl, hc⟩
          have := Re.step x g g' [] h1 h2 h3 h4 h5
          rw [e1]
          simpa using this
        | cons d b =>
          simp at e4
          have := h1 d (by rw [e3]; simp)
          rw [← e4.1] at this
          rw [space_graph this] at hc; cases hc
    · cases a with
      | nil =>
        simp at e1 e2
        cases g with
        | nil => exact absurd rfl h3
        | cons d g =>
          simp at e2
          have := h1 d (by simp)
          rw [← e2.1] at this
          rw [space_graph this] at hc; cases hc
      | cons d a =>
        simp at e2
        obtain ⟨rfl, e2⟩ := e2
        refine ⟨p, c :: a ++ (g' ++ y), by rw [e1]; simp, .refl _, ?_, c, _, rfl, hc⟩
        have := Re.step (c :: a) g g' y h1 h2 h3 h4 h5
        rw [e2]
        exact this
  | trans _ _ i1 i2 =>
    intro p q e hq
    obtain ⟨p1, q1, e1, r1, r2, hq1⟩ := i1 e hq
    obtain ⟨p2, q2, e2, r3, r4, hq2⟩ := i2 e1 hq1
    exact ⟨p2, q2, e2, r1.trans r3, r2.trans r4, hq2⟩

/-- A word is kept. -/
theorem Re.word {w : Str} (hw : ∀ c ∈ w, isGraph c = true) {s t : Str} (h : Re s t) : ∀ {r}, s = w ++ r → ∃ r', t = w ++ r' ∧ Re r r' := by
  induction h with
  | refl => intro r e; exact ⟨r, e, .refl _⟩
  | step x g g' y h1 h2 h3 h4 h5 =>
    intro r e
    rcases List.append_eq_append_iff.1 e with ⟨a, e1, e2⟩ | ⟨a, e1, e2⟩
    · cases a with
      | nil => simp at e1 e2; subst e1; exact ⟨g' ++ y, rfl, by rw [← e2]; exact .step [] g g' y h1 h2 h3 h4 h5⟩
      | cons d a =>
        cases g with
        | nil => exact absurd rfl h3
        | cons b g =>
          simp at e2
          have := hw d (by rw [e1]; simp)
          rw [← e2.1, space_graph (h1 b (by simp))] at this
          cases this
    · subst e1
      refine ⟨a ++ (g' ++ y), by simp, ?_⟩
      rw [e2]
      exact .step a g g' y h1 h2 h3 h4 h5
  | trans _ _ i1 i2 =>
    intro r e
    obtain ⟨r1, e1, s1⟩ := i1 e
    obtain ⟨r2, e2, s2⟩ := i2 e1
    exact ⟨r2, e2, s1.trans s2⟩

/-! ### The last line -/

/-- There is nothing but white space after the last line break, if there is one. -/
def OwnLine (p : Str) : Prop := ∀ a b, p = a ++ '\n' :: b → '\n' ∉ b → ∀ c ∈ b, isGraph c = false

theorem last_nl {s : Str} (h : '\n' ∈ s) : ∃ a b, s = a ++ '\n' :: b ∧ '\n' ∉ b := by
  induction s with
  | nil => cases h
  | cons c s ih =>
    by_cases hs : '\n' ∈ s
    · obtain ⟨a, b, rfl, hb⟩ := ih hs
      exact ⟨c :: a, b, rfl, hb⟩
    · rcases List.mem_cons.1 h with h | h
      · exact ⟨[], s, by rw [h]; rfl, hs⟩
      · exact absurd h hs

theorem last_nl_uniq {a b a' b' : Str} (h : a ++ '\n' :: b = a' ++ '\n' :: b') (hb : '\n' ∉ b) (hb' : '\n' ∉ b') : a = a' ∧ b = b' := by
  rcases List.append_eq_append_iff.1 h with ⟨c, e1, e2⟩ | ⟨c, e1, e2⟩
  · cases c with
    | nil => simp at e1 e2; exact ⟨e1.symm, e2⟩
    | cons d c => simp at e2; exact absurd (by rw [e2.2]; simp) hb
  · cases c with
    | nil => simp at e1 e2; exact ⟨e1, e2.symm⟩
    | cons d c => simp at e2; exact absurd (by rw [e2.2]; simp) hb'

theorem Re.ownLine {s t : Str} (h : Re s t) (hs : OwnLine s) : OwnLine t := by
  induction h with
  | refl => exact hs
  | step x g g' y h1 h2 h3 h4 h5 =>
    intro a b e hb
    by_cases hy : '\n' ∈ y
    · obtain ⟨y1, y2, rfl, hy2⟩ := last_nl hy
      have := (last_nl_uniq (a := x ++ (g' ++ y1)) (b := y2) (by rw [← e]; simp) hy2 hb).2
      rw [← this]
      exact hs (x ++ (g ++ y1)) y2 (by simp) hy2
    · by_cases hg : '\n' ∈ g'
      · obtain ⟨g1, g2, e1, hg2⟩ := last_nl hg
        have := (last_nl_uniq (a := x ++ g1) (b := g2 ++ y) (by rw [← e, e1]; simp) (by simp [hg2, hy]) hb).2
        obtain ⟨g3, g4, e3, hg4⟩ := last_nl (h5.2 hg)
        have key := hs (x ++ g3) (g4 ++ y) (by rw [e3]; simp) (by simp [hg4, hy])
        rw [← this]
        intro c hc
        rcases List.mem_append.1 hc with hc | hc
        · exact space_graph (gap_of h1 h2 c (by rw [e1]; simp [hc]))
        · exact key c (by simp [hc])
      · have hg0 : '\n' ∉ g := fun h => hg (h5.1 h)
        have hx : '\n' ∈ x := by
          have : '\n' ∈ x ++ (g' ++ y) := by rw [e]; simp
          simpa [hg, hy] using this
        obtain ⟨x1, x2, rfl, hx2⟩ := last_nl hx
        have := (last_nl_uniq (a := x1) (b := x2 ++ (g' ++ y)) (by rw [← e]; simp) (by simp [hx2, hg, hy]) hb).2
        have key := hs x1 (x2 ++ (g ++ y)) (by simp) (by simp [hx2, hg0, hy])
        rw [← this]
        intro c hc
        simp only [List.mem_append] at hc
        rcases hc with hc | hc | hc
        · exact key c (by simp [hc])
        · exact space_graph (gap_of h1 h2 c hc)
        · exact key c (by simp [hc])
  | trans _ _ i1 i2 => exact i2 (i1 hs)

/-! ### The loops -/

theorem take_at (a b : Str) (n : Nat) (h : n = a.length) : (a ++ b).take n = a := by rw [h]; exact List.take_left
theorem drop_at (a b : Str) (n : Nat) (h : n = a.length) : (a ++ b).drop n = b := by rw [h]; exact List.drop_left

theorem right_nat {s : Str} {n : Int} (m : Nat) (h : n = (m : Int) + 1) : right s n = .val (s.drop m) := by
  have := right_eq (s := s) (n := m + 1) (by omega)
  rw [h]
  simpa using this

theorem left_nat {s : Str} {n : Int} (m : Nat) (h : n = (m : Int)) : left s n = .val (s.take m) := by rw [left_eq, h]; rfl

theorem cutLoop_ok {pat : Str} {k : Nat} (hk : k < pat.length) (hsp : ∀ c ∈ pat, isSpace c = true) (hne : pat.eraseIdx k ≠ []) (hnl : '\n' ∈ pat ↔ '\n' ∈ pat.eraseIdx k) :
    ∀ (n : Nat) (s : Str), s.length < n → ∃ t, cutLoop pat k n s = .val t ∧ Re s t
  | 0, _, h => absurd h (by omega)
  | n + 1, s, h => by
    have hp : pat ≠ [] := fun e => by rw [e] at hk; simp at hk
    rw [cutLoop]
    rcases C26_instr 1 s pat hp with ⟨h1, _⟩ | ⟨h1, ⟨a, b, e1, e2⟩, _⟩
    · rw [if_pos h1]; exact ⟨s, rfl, .refl _⟩
    · rw [if_neg (by omega), e2, left_nat (a.length + k) (by omega), Out.bind_val, right_nat (a.length + k + 1) (by omega), Out.bind_val]
      have e3 : s.take (a.length + k) = a ++ pat.take k := by
        rw [e1, List.append_assoc, List.take_append, List.take_of_length_le (by omega), Nat.add_sub_cancel_left, List.take_append_of_le_length (by omega)]
      have e4 : s.drop (a.length + k + 1) = pat.drop (k + 1) ++ b := by
        rw [e1, List.append_assoc, Nat.add_assoc, List.drop_append, List.drop_of_length_le (by omega), Nat.add_sub_cancel_left, List.nil_append, List.drop_append_of_le_length (by omega)]
      have e5 : s.take (a.length + k) ++ s.drop (a.length + k + 1) = a ++ (pat.eraseIdx k ++ b) := by
        rw [e3, e4, List.eraseIdx_eq_take_drop_succ]; simp
      have hlen : (s.take (a.length + k) ++ s.drop (a.length + k + 1)).length < n := by
        have hs : s.length = a.length + pat.length + b.length := by rw [e1]; simp; omega
        rw [e5, List.length_append, List.length_append, List.length_eraseIdx_of_lt hk]
        omega
      obtain ⟨t, h2, h3⟩ := cutLoop_ok hk hsp hne hnl n _ hlen
      refine ⟨t, h2, .trans ?_ h3⟩
      rw [e5, e1, List.append_assoc]
      exact .step a pat (pat.eraseIdx k) b hsp (fun c hc => Or.inl (List.mem_of_mem_eraseIdx hc)) hp hne hnl

theorem Re.untabbed : ∀ (s : Str) (col : Nat), Re s (Vstr.expand col s)
  | [], _ => .refl _
  | c :: t, col => by
    rw [Vstr.expand]
    by_cases h1 : c = '\n'
    · rw [if_pos h1, h1]; exact (Re.untabbed t 0).cons _
    · rw [if_neg h1]
      by_cases h2 : c = '\t'
      · rw [if_pos h2, h2]
        refine ((Re.untabbed t (col + (8 - col % 8))).cons '\t').trans ?_
        have hk : 8 - col % 8 ≠ 0 := by omega
        exact .step [] ['\t'] (List.replicate (8 - col % 8) ' ') _ (by decide) (fun c hc => Or.inr (List.eq_of_mem_replicate hc)) (by simp) (by simp [hk]) (by simp)
      · rw [if_neg h2]; exact (Re.untabbed t _).cons _

theorem blank_space {c : Char} (h : isBlank c = true) : isSpace c = true ∧ c ≠ '\n' := by
  unfold isBlank at h
  simp at h
  rcases h with rfl | rfl <;> decide

theorem Re.reduce : ∀ (s : Str), Re s (reduce false s) ∧ ∀ g, (∀ c ∈ g, isBlank c = true) → g ≠ [] → Re (g ++ s) (' ' :: Vstr.reduce true s)
  | [] => ⟨.refl _, fun g hg hne => by
      have := Re.step [] g [' '] [] (fun c hc => (blank_space (hg c hc)).1) (by simp) hne (by simp) (by
        constructor
        · intro h; exact absurd rfl (blank_space (hg _ h)).2
        · intro h; simp at h)
      simpa [Vstr.reduce] using this⟩
  | c :: t => by
    obtain ⟨i1, i2⟩ := Re.reduce t
    by_cases hc : isBlank c = true
    · refine ⟨?_, ?_⟩
      · rw [Vstr.reduce, if_pos hc, if_neg (by simp)]
        exact i2 [c] (by simpa using hc) (by simp)
      · intro g hg hne
        rw [Vstr.reduce, if_pos hc, if_pos rfl]
        have := i2 (g ++ [c]) (by intro d hd; rcases List.mem_append.1 hd with h | h; exact hg d h; simp at h; rw [h]; exact hc) (by simp)
        simpa using this
    · refine ⟨?_, ?_⟩
      · rw [Vstr.reduce, if_neg hc]; exact i1.cons c
      · intro g hg hne
        rw [Vstr.reduce, if_neg hc]
        refine ((i1.cons c).left g).trans ?_
        exact .step [] g [' '] _ (fun c hc => (blank_space (hg c hc)).1) (by simp) hne (by simp) (by
          constructor
          · intro h; exact absurd rfl (blank_space (hg _ h)).2
          · intro h; simp at h)

theorem edit16_re (g : Nat → Char) {s : Str} (hs : NoNul s) : ∃ t, edit 16 g s = .val t ∧ Re s t := by
  refine ⟨Vstr.reduce false s, ?_, (Re.reduce s).1⟩
  rw [C36_edit_plain (by decide) (by decide)]
  show Out.val (Vstr.reduce false (editLoop 16 false s)) = _
  rw [editLoop_noquote (by decide), filterMap_id]
  intro c hc
  have h0 := hs c hc
  show (if c.toNat = 0 then none else some c) = some c
  rw [if_neg h0]

theorem two_spaces (a b : Str) : Re (a ++ [' ', ' '] ++ b) (a ++ ' ' :: b) := by
  have := Re.step a [' ', ' '] [' '] b (by decide) (by simp) (by simp) (by simp) (by decide)
  simpa using this

theorem spaceLoop_ok : ∀ (n pos : Nat) (s : Str), pos ≤ s.length → 2 * s.length + 1 ≤ n + pos → ∃ t, spaceLoop n pos s = .val t ∧ Re s t
  | 0, pos, s, h1, h => by omega
  | n + 1, pos, s, h1, h => by
    rw [spaceLoop]
    rcases C26_instr ((pos : Int) + 1) s [' ', ' '] (by simp) with ⟨h2, _⟩ | ⟨h2, ⟨a, b, e1, e2⟩, _⟩
    · rw [if_pos h2]; exact ⟨s, rfl, .refl _⟩
    · generalize instr ((pos : Int) + 1) s [' ', ' '] = q at *
      have hl : s.length = a.length + 2 + b.length := by rw [e1]; simp; omega
      rw [if_neg (by omega)]
      by_cases hq : q > 1
      · rw [if_pos hq]
        obtain ⟨d, hd⟩ := ch_le (s := s) (i := q - 2) (by omega)
        rw [hd, Out.bind_val]
        by_cases hc : d ≠ '\n' ∧ d ≠ ' '
        · have e3 : s.take q = a ++ [' '] := by rw [e1, e2, show a ++ [' ', ' '] ++ b = (a ++ [' ']) ++ (' ' :: b) by simp]; exact take_at _ _ _ (by simp)
          have e4 : s.drop (q + 1) = b := by rw [e1, e2]; exact drop_at _ _ _ (by simp)
          rw [if_pos hc, left_nat q rfl, Out.bind_val, right_nat (q + 1) (by omega), Out.bind_val, e3, e4, show a ++ [' '] ++ b = a ++ ' ' :: b by simp]
          obtain ⟨t, g1, g2⟩ := spaceLoop_ok n (q - 1) (a ++ ' ' :: b) (by simp; omega) (by simp; omega)
          refine ⟨t, g1, .trans ?_ g2⟩
          rw [e1]
          exact two_spaces a b
        · rw [if_neg hc]; exact spaceLoop_ok n q s (by omega) (by omega)
      · rw [if_neg hq]; exact spaceLoop_ok n q s (by omega) (by omega)

theorem trail_step (a b : Str) : Re (a ++ [' ', '\n'] ++ b) (a ++ '\n' :: b) := by
  have := Re.step a [' ', '\n'] ['\n'] b (by decide) (by simp) (by simp) (by simp) (by decide)
  simpa using this

theorem trailLoop_ok : ∀ (n pos : Nat) (s : Str), s.length < n → ∃ t, trailLoop n pos s = .val t ∧ Re s t
  | 0, pos, s, h => by omega
  | n + 1, pos, s, h => by
    rw [trailLoop]
    rcases C26_instr ((pos : Int) + 1) s [' ', '\n'] (by simp) with ⟨h2, _⟩ | ⟨h2, ⟨a, b, e1, e2⟩, _⟩
    · rw [if_pos h2]; exact ⟨s, rfl, .refl _⟩
    · generalize instr ((pos : Int) + 1) s [' ', '\n'] = q at *
      have hl : s.length = a.length + 2 + b.length := by rw [e1]; simp; omega
      have e3 : s.take (q - 1) = a := by rw [e1, e2, List.append_assoc]; exact take_at _ _ _ (by simp)
      have e4 : s.drop q = '\n' :: b := by rw [e1, e2, show a ++ [' ', '\n'] ++ b = (a ++ [' ']) ++ ('\n' :: b) by simp]; exact drop_at _ _ _ (by simp)
      rw [if_neg (by omega), left_nat (q - 1) (by omega), Out.bind_val, right_nat q (by omega), Out.bind_val, e3, e4]
      obtain ⟨t, g1, g2⟩ := trailLoop_ok n (q - 2) (a ++ '\n' :: b) (by simp; omega)
      refine ⟨t, g1, .trans ?_ g2⟩
      rw [e1]
      exact trail_step a b

/-- The tabs do not overflow the buffer of `edit`, which is not guaranteed (C36). -/
def TabsOk (g : Nat → Char) (s : Str) : Prop := 8 * s.count '\t' ≤ 6 * s.length + 7 ∧ ((∀ p, g p ≠ '\t') ∨ s.count '\t' ≤ 1)

theorem untabIf_re {g : Nat → Char} {s : Str} (hs : NoNul s) (ht : TabsOk g s) : ∃ t, untabIf g s = .val t ∧ Re s t ∧ '\t' ∉ t := by
  unfold untabIf
  by_cases h : '\t' ∈ s
  · rw [if_pos h, C36_untab_partial hs ht.1 ht.2]
    refine ⟨_, rfl, Re.untabbed s 0, ?_⟩
    generalize 0 = n
    clear h ht hs
    induction s generalizing n with
    | nil => simp [Vstr.expand]
    | cons c s ih =>
      rw [Vstr.expand]
      by_cases h1 : c = '\n'
      · rw [if_pos h1]; simp [ih]
      · rw [if_neg h1]
        by_cases h2 : c = '\t'
        · rw [if_pos h2]; simp [ih]
        · rw [if_neg h2]; simp [ih, Ne.symm h2]
  · rw [if_neg h]; exact ⟨s, rfl, .refl _, h⟩

theorem legal_nonul {s : Str} (h : Legal s) : NoNul s := by
  intro c hc e
  rcases h c hc with h | h
  · unfold isGraph at h; simp at h; omega
  · unfold isSpace at h; simp at h; omega

theorem tidy_re {g : Nat → Char} {s : Str} (hl : Legal s) (ht : TabsOk g s) : ∃ t, tidy g s = .val t ∧ Re s t ∧ '\t' ∉ t := by
  obtain ⟨t1, e1, r1, n1⟩ := untabIf_re (legal_nonul hl) ht
  obtain ⟨t2, e2, r2⟩ := cutLoop_ok (pat := [' ', '\n']) (k := 0) (by decide) (by decide) (by decide) (by decide) (t1.length + 1) t1 (by omega)
  obtain ⟨t3, e3, r3⟩ := cutLoop_ok (pat := ['\n', '\n', '\n', '\n']) (k := 0) (by decide) (by decide) (by decide) (by decide) (t2.length + 1) t2 (by omega)
  refine ⟨t3, ?_, r1.trans (r2.trans r3), ?_⟩
  · unfold tidy
    rw [e1, Out.bind_val, e2, Out.bind_val, e3]
  · intro h
    rcases (r2.trans r3).mem h with h | h
    · exact n1 h
    · cases h

theorem mathOf_re (s : Str) : ∃ t, mathOf s = .val t ∧ Re s t := by
  obtain ⟨t1, e1, r1⟩ := cutLoop_ok (pat := ['\n', '\n']) (k := 1) (by decide) (by decide) (by decide) (by decide) (s.length + 1) s (by omega)
  obtain ⟨t2, e2, r2⟩ := spaceLoop_ok (2 * t1.length + 2) 0 t1 (by omega) (by omega)
  exact ⟨t2, by unfold mathOf; rw [e1, Out.bind_val, e2], r1.trans r2⟩

theorem dMath_re (g : Nat → Char) (k : Kind) {s : Str} (hl : Legal s) : ∃ t, dMath g k s = .val t ∧ Re s t := by
  unfold dMath
  by_cases h : k = .d
  · rw [if_pos h]; exact edit16_re g (legal_nonul hl)
  · rw [if_neg h]; exact ⟨s, rfl, .refl _⟩

end MM.Fmt
