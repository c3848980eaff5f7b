import Verif.Fmt.Main
import Verif.Proof.CompProps
/-!
# `printLongLine` and the `ASCII_4` characters
-/
namespace MM.Fmt
open MM.Veri MM.Pars MM.Lex MM.Vstr MM.Long MM.Write MM.Incl

/-- A character of a word, or the space that is not to be broken. -/
def solid (c : Char) : Bool := isGraph c || c == A4

theorem solid_space {c : Char} (h : isSpace c = true) : solid c = false := by
  unfold solid
  rw [space_graph h, Bool.false_or]
  cases h2 : c == A4
  · rfl
  · rw [beq_iff_eq] at h2; subst h2; revert h; decide

theorem solid_lines : ∀ m : Str, (linesOf m).flatMap (fun s => s.filter solid) = m.filter solid
  | [] => rfl
  | d :: t => by
    have ih := solid_lines t
    rw [linesOf]
    by_cases h : d = '\n'
    · rw [if_pos h, List.flatMap_cons, ih, h]; rfl
    · rw [if_neg h, show (d :: t).filter solid = [d].filter solid ++ t.filter solid from List.filter_append (l₁ := [d]) t, ← ih]
      cases linesOf t with
      | nil => simp
      | cons l ls =>
        simp only [List.flatMap_cons]
        rw [← List.append_assoc, ← List.filter_append]
        rfl

theorem solid_wrapped {n : Nat} {W : Int} {first : Bool} {line : Str} {ls : List Str} (h : Wrapped (cfgOf (space n) [' ']) W (space n) first line ls) :
    ls.flatMap (fun s => s.filter solid) = line.filter solid := by
  have hnh : (space n).head? ≠ some '~' := by
    cases n with
    | zero => simp [space]
    | succ n => simp [space, List.replicate_succ]
  have ht : (cfgOf (space n) [' ']).tilde = false := by unfold cfgOf; simp [hnh]
  have hind : ∀ {first : Bool} {line i : Str}, Ind (cfgOf (space n) [' ']) W (space n) first line i → i.filter solid = [] := by
    intro first line i hi
    rw [List.filter_eq_nil_iff]
    intro d hd
    have : d = ' ' := by
      unfold Ind at hi
      split at hi
      · rw [hi] at hd; cases hd
      · rcases hi with ⟨hi, _⟩ | ⟨k, m, _, _, hi⟩
        · rw [hi] at hd; cases hd
        · rw [hi] at hd
          rcases List.mem_append.1 hd with hd | hd
          · exact List.eq_of_mem_replicate (List.mem_of_mem_take hd)
          · exact List.eq_of_mem_replicate hd
    rw [this]; decide
  induction h with
  | last hi => simp [hind hi]
  | @more first a g b i ls hi hg _ ih =>
    have hw : g.filter solid = [] := by
      unfold Gap at hg
      rw [if_neg (by unfold cfgOf; simp)] at hg
      rcases hg with ⟨rfl, _⟩ | rfl | ⟨_, rfl, _⟩ <;> rfl
    rw [List.flatMap_cons, ih, ht]
    simp [hind hi, hw]

theorem solid_unquote (s : Str) : (unquote s).filter solid = s.filter solid := by
  unfold unquote
  induction s with
  | nil => rfl
  | cons d t ih =>
    rw [List.map_cons]
    by_cases h : d = QSP
    · rw [if_pos h, h, List.filter_cons_of_neg (by decide), List.filter_cons_of_neg (by decide), ih]
    · rw [if_neg h, List.filter_cons, List.filter_cons, ih]

theorem print_solid {W : Int} (hW : 5 ≤ W) (n : Nat) {line : Str} (hne : line ≠ []) (hnul : NUL ∉ line) {ls : List Str} (h : printLongLine W line (space n) [' '] = .val ls) :
    (printed ls).filter solid = line.filter solid ∧ ∃ x, printed ls = x ++ ['\n'] ∨ printed ls = [] := by
  have hnh : (space n).head? ≠ some '~' := by
    cases n with
    | zero => simp [space]
    | succ n => simp [space, List.replicate_succ]
  obtain ⟨lss, h3, h4⟩ := C61_wrapped (width := W) (line := line) (next := space n) (bm := [' ']) (by simp [modes]) (by simp) hnul (by rintro ⟨h, _⟩; exact hnh h) hW hne
  have hls : ls = lss.flatten.map unquote := Out.val.inj (h.symm.trans h3)
  have hnext : nextOf (space n) = space n := by unfold nextOf; rw [if_neg hnh]
  have hsh : shown [' '] line = line := rfl
  rw [hnext, hsh] at h4
  constructor
  · have hp : ∀ ls : List Str, (printed ls).filter solid = ls.flatMap fun s => s.filter solid := by
      intro ls
      induction ls with
      | nil => rfl
      | cons l ls ih =>
        have : MM.Long.printed (l :: ls) = l ++ '\n' :: MM.Long.printed ls := by simp [MM.Long.printed]
        rw [this, List.filter_append, List.filter_cons_of_neg (by decide), ih, List.flatMap_cons]
    rw [hp, hls, flatMap_eq_flatten (fun s => s.filter solid) solid_unquote (fun l ls h => solid_wrapped h.1) h4, solid_lines]
  · by_cases hl : ls = []
    · subst hl; exact ⟨[], Or.inr rfl⟩
    · obtain ⟨xs, x, rfl⟩ : ∃ xs x, ls = xs ++ [x] := ⟨ls.dropLast, ls.getLast hl, (List.dropLast_append_getLast hl).symm⟩
      refine ⟨_, Or.inl (?_ : _ = (printed xs ++ x) ++ ['\n'])⟩
      unfold printed
      rw [List.flatMap_append, List.flatMap_cons, List.flatMap_nil, List.append_nil, ← List.append_assoc]

/-- Changing white space to white space, place by place, keeps the words. -/
theorem words_pointwise : ∀ (n : Nat) {s t : Str}, s.length ≤ n → List.Forall₂ (fun c d => d = c ∨ (isGraph c = false ∧ isGraph d = false)) s t → words t = words s := by
  intro n
  induction n with
  | zero =>
    intro s t hn h
    cases h with
    | nil => rfl
    | cons => simp at hn
  | succ n ih =>
    intro s t hn h
    have hsplit : s = s.takeWhile isGraph ++ s.dropWhile isGraph := List.takeWhile_append_dropWhile.symm
    have key : ∀ {s t : Str}, List.Forall₂ (fun c d => d = c ∨ (isGraph c = false ∧ isGraph d = false)) s t →
        ∃ w s' t', s = w ++ s' ∧ t = w ++ t' ∧ (∀ c ∈ w, isGraph c = true) ∧ List.Forall₂ (fun c d => d = c ∨ (isGraph c = false ∧ isGraph d = false)) s' t' ∧
          ((s' = [] ∧ t' = []) ∨ ∃ c d x y, s' = c :: x ∧ t' = d :: y ∧ isGraph c = false ∧ isGraph d = false ∧ List.Forall₂ (fun c d => d = c ∨ (isGraph c = false ∧ isGraph d = false)) x y) := by
      intro s t h
      induction h with
      | nil => exact ⟨[], [], [], rfl, rfl, (fun c hc => by cases hc), .nil, Or.inl ⟨rfl, rfl⟩⟩
      | @cons c d x y hcd hxy ih =>
        cases hg : isGraph c with
        | false =>
          have hd : isGraph d = false := by rcases hcd with rfl | h; exact hg; exact h.2
          exact ⟨[], c :: x, d :: y, rfl, rfl, (fun c hc => by cases hc), .cons hcd hxy, Or.inr ⟨c, d, x, y, rfl, rfl, hg, hd, hxy⟩⟩
        | true =>
          have hd : d = c := by rcases hcd with h | h; exact h; rw [hg] at h; cases h.1
          obtain ⟨w, s', t', e1, e2, e3, e4, e5⟩ := ih
          subst hd
          refine ⟨d :: w, s', t', by rw [e1]; rfl, by rw [e2]; rfl, ?_, e4, e5⟩
          intro z hz
          rcases List.mem_cons.1 hz with rfl | hz
          · exact hg
          · exact e3 z hz
    obtain ⟨w, s', t', rfl, rfl, e3, e4, e5⟩ := key h
    rcases e5 with ⟨rfl, rfl⟩ | ⟨c, d, x, y, rfl, rfl, g1, g2, hxy⟩
    · rfl
    · have hx : words y = words x := ih (by simp at hn; omega) hxy
      rw [words_sep w d y g2, words_sep w c x g1, hx]

theorem restore_f2 (s : Str) : List.Forall₂ (fun c d => d = c ∨ (isGraph c = false ∧ isGraph d = false)) s (restore s) := by
  rw [List.forall₂_iff_get]
  refine ⟨by simp [restore], ?_⟩
  intro i h1 h2
  unfold restore
  simp only [List.get_eq_getElem, List.getElem_mapIdx]
  by_cases h : 2 ≤ i ∧ i + 2 < s.length ∧ s[i] = A4
  · rw [if_pos h]; right; rw [h.2.2]; decide
  · rw [if_neg h]; exact Or.inl rfl

/-- After `restore` there is no `ASCII_4` left. -/
theorem restore_no4 {x u : Str} (h : (x ++ ['\n']).filter solid = '$' :: '(' :: (u ++ ['$', ')'])) : A4 ∉ restore (x ++ ['\n']) := by
  intro hm
  obtain ⟨i, hi, e⟩ := List.getElem_of_mem hm
  have hlen : (restore (x ++ ['\n'])).length = x.length + 1 := by simp [restore]
  have e : (if 2 ≤ i ∧ i + 2 < (x ++ ['\n']).length ∧ (x ++ ['\n'])[i]'(by simp; omega) = A4 then ' ' else (x ++ ['\n'])[i]'(by simp; omega)) = A4 := by
    refine Eq.trans ?_ e
    exact (List.getElem_mapIdx (l := x ++ ['\n']) (f := fun i c => if 2 ≤ i ∧ i + 2 < (x ++ ['\n']).length ∧ c = A4 then ' ' else c) (h := by simpa [restore] using hi)).symm
  have hi' : i < (x ++ ['\n']).length := by simp; omega
  by_cases hc : 2 ≤ i ∧ i + 2 < (x ++ ['\n']).length ∧ (x ++ ['\n'])[i] = A4
  · rw [if_pos hc] at e; revert e; decide
  rw [if_neg hc] at e
  have hc : ¬ (2 ≤ i ∧ i + 2 < (x ++ ['\n']).length) := fun h => hc ⟨h.1, h.2, e⟩
  have s4 : solid A4 = true := by decide
  rcases Nat.lt_or_ge i 2 with h2 | h2
  · have hx := h
    cases x with
    | nil => rw [List.nil_append, show List.filter solid ['\n'] = [] from by decide] at h; cases h
    | cons c x =>
      rcases (by omega : i = 0 ∨ i = 1) with rfl | rfl
      · simp at e
        subst e
        rw [List.cons_append, List.filter_cons_of_pos s4] at h
        have := (List.cons.inj h).1
        revert this; decide
      · cases x with
        | nil => simp at e; revert e; decide
        | cons d x =>
          simp at e
          subst e
          rw [List.cons_append, List.filter_cons] at h
          cases hs : solid c with
          | true =>
            rw [hs, if_pos rfl, List.cons_append, List.filter_cons_of_pos s4] at h
            have := (List.cons.inj (List.cons.inj h).2).1
            revert this; decide
          | false =>
            rw [hs, if_neg (by simp), List.cons_append, List.filter_cons_of_pos s4] at h
            have := (List.cons.inj h).1
            revert this; decide
  · have hlast : i = x.length ∨ i + 1 = x.length := by simp at hc hi'; omega
    rcases hlast with rfl | hl
    · simp at e; revert e; decide
    · have hxe : x = x.dropLast ++ [A4] := by
        have hne : x ≠ [] := by rintro rfl; simp at hl
        have : x.getLast hne = A4 := by
          rw [List.getLast_eq_getElem]
          rw [List.getElem_append_left (by omega)] at e
          rw [← e]
          congr 1
          omega
        rw [← this, List.dropLast_append_getLast]
      rw [hxe, List.filter_append, List.filter_append] at h
      have e1 : List.filter solid ['\n'] = [] := by decide
      have e2 : List.filter solid [A4] = [A4] := by decide
      rw [e1, e2, List.append_nil] at h
      have h3 : List.filter solid x.dropLast ++ [A4] = ('$' :: '(' :: (u ++ ['$'])) ++ [')'] := by rw [h]; simp
      have := (List.append_inj' h3 rfl).2
      revert this; decide

end MM.Fmt
