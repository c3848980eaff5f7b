import Verif.Fmt.Print4
/-!
# `rewrapComment` keeps the comment
-/
namespace MM.Fmt
open MM.Veri MM.Pars MM.Lex MM.Vstr MM.Long MM.Write MM.Incl

/-- The text of a comment while it is rewrapped; `l` are its letters. -/
structure CT (l m : Str) : Prop where
  ne : m ≠ []
  start : AtGap m
  stop : EndsGap m
  open_ : ¬ ['$', '('] <:+: m
  close : ¬ ['$', ')'] <:+: m
  chars : ∀ d ∈ m, (isGraph d = true ∨ isSpace d = true ∨ d = A4) ∧ d ≠ '\r'
  letters : m.filter isGraph = l

def RC (l c : Str) : Prop := ∃ m, c = com m ∧ CT l m

theorem com_length (m : Str) : (com m).length = m.length + 4 := by unfold com; simp

theorem infix_split {d e : Char} {u v : Str} (h1 : e ≠ '$') (h2 : e ≠ d) (h : ['$', d] <:+: u ++ e :: v) : ['$', d] <:+: u ∨ ['$', d] <:+: v := by
  obtain ⟨p, q, h⟩ := h
  rw [List.append_assoc] at h
  rcases List.append_eq_append_iff.1 h with ⟨x, e1, e2⟩ | ⟨x, e1, e2⟩
  · -- u = p ++ x
    cases x with
    | nil => simp at e2; exact absurd e2.1.symm h1
    | cons a x =>
      cases x with
      | nil => simp at e2; exact absurd e2.2.1.symm h2
      | cons b x =>
        simp at e2
        left
        refine ⟨p, x, ?_⟩
        rw [e1, ← e2.1, ← e2.2.1]; simp
  · cases x with
    | nil => simp at e2; exact absurd e2.1 h1
    | cons a x =>
      simp at e2
      right
      exact ⟨x, q, by rw [e2.2]; simp⟩

/-- The character at a place inside. -/
theorem com_at {m : Str} {a b : Str} {e : Char} (h : com m = a ++ e :: b) (he : e ≠ '$' ∧ e ≠ ')') (ha : 2 ≤ a.length) :
    a.length + 3 ≤ (com m).length ∧ ∃ x y, a = '$' :: '(' :: x ∧ b = y ++ ['$', ')'] ∧ m = x ++ e :: y := by
  cases a with
  | nil => simp at ha
  | cons a0 a =>
    cases a with
    | nil => simp at ha
    | cons a1 x =>
      unfold com at h
      simp at h
      obtain ⟨rfl, rfl, h⟩ := h
      rcases List.append_eq_append_iff.1 h with ⟨z, e1, e2⟩ | ⟨z, e1, e2⟩
      · cases z with
        | nil => simp at e2; exact absurd e2.1.symm he.1
        | cons c z =>
          cases z with
          | nil => simp at e2; exact absurd e2.2.1.symm he.2
          | cons c' z => simp at e2
      · cases z with
        | nil => simp at e2; exact absurd e2.1 he.1
        | cons c z =>
          simp at e2
          obtain ⟨rfl, rfl⟩ := e2
          refine ⟨?_, x, z, rfl, rfl, e1⟩
          rw [com_length, e1]
          simp

theorem ct_space {l x y : Str} (h : CT l (x ++ y)) : CT l (x ++ ' ' :: y) := by
  refine ⟨by simp, ?_, ?_, ?_, ?_, ?_, ?_⟩
  · intro c hc
    cases x with
    | nil => cases hc; decide
    | cons d x => exact h.start c (by simpa using hc)
  · intro c hc
    cases y with
    | nil => simp at hc; subst hc; decide
    | cons d y =>
      refine h.stop c ?_
      rw [List.getLast?_append] at hc ⊢
      simpa using hc
  · intro hi
    rcases infix_split (by decide) (by decide) hi with hi | hi
    · exact h.open_ (hi.trans (List.prefix_append x y).isInfix)
    · exact h.open_ (hi.trans (List.suffix_append x y).isInfix)
  · intro hi
    rcases infix_split (by decide) (by decide) hi with hi | hi
    · exact h.close (hi.trans (List.prefix_append x y).isInfix)
    · exact h.close (hi.trans (List.suffix_append x y).isInfix)
  · intro d hd
    simp only [List.mem_append, List.mem_cons] at hd
    rcases hd with hd | rfl | hd
    · exact h.chars d (by simp [hd])
    · exact ⟨Or.inr (Or.inl rfl), by decide⟩
    · exact h.chars d (by simp [hd])
  · rw [← h.letters, List.filter_append, List.filter_append, List.filter_cons_of_neg (by decide)]

theorem putSpace_eq (s : Str) (n : Nat) : putSpace s (n : Int) = .val (s.take n ++ ' ' :: s.drop n) := by
  unfold putSpace
  rw [left_nat n rfl, Out.bind_val, right_nat n rfl, Out.bind_val]

theorem rc_space {l s : Str} {n : Nat} (h : RC l s) (h1 : 2 ≤ n) (h2 : n + 2 ≤ s.length) : RC l (s.take n ++ ' ' :: s.drop n) := by
  obtain ⟨m, rfl, hm⟩ := h
  rw [com_length] at h2
  obtain ⟨k, rfl⟩ : ∃ k, n = k + 2 := ⟨n - 2, by omega⟩
  have hk : k ≤ m.length := by omega
  refine ⟨m.take k ++ ' ' :: m.drop k, ?_, ct_space (by rw [List.take_append_drop]; exact hm)⟩
  unfold com
  rw [List.take_succ_cons, List.take_succ_cons, List.drop_succ_cons, List.drop_succ_cons, List.take_append_of_le_length hk, List.drop_append_of_le_length hk]
  simp

theorem drop_before {s : Str} {n k : Nat} {e : Char} (he : e ≠ ' ') (hk : k ≤ n) (hn : n ≤ s.length) : ((s.take n ++ ' ' :: s.drop n).drop k).count e = (s.drop k).count e := by
  have h1 : s.drop k = (s.take n).drop k ++ s.drop n := by
    conv_lhs => rw [← List.take_append_drop n s]
    rw [List.drop_append_of_le_length (by simp; omega)]
  rw [h1, List.drop_append_of_le_length (by simp; omega), List.count_append, List.count_append, List.count_cons_of_ne (Ne.symm he)]

theorem drop_after {s : Str} {n k : Nat} (hk : n < k) (hn : n ≤ s.length) : (s.take n ++ ' ' :: s.drop n).drop k = s.drop (k - 1) := by
  have hl : (s.take n).length = n := by simp; omega
  rw [List.drop_append, hl, List.drop_eq_nil_of_le (by omega), List.nil_append]
  obtain ⟨j, rfl⟩ : ∃ j, k = n + 1 + j := ⟨k - n - 1, by omega⟩
  rw [show n + 1 + j - n = j + 1 by omega, List.drop_succ_cons, List.drop_drop]
  congr 1; omega

theorem count_next {s a b : Str} {e : Char} {pos : Nat} (h : s = a ++ e :: b) (hp : pos ≤ a.length) : (s.drop (a.length + 1)).count e < (s.drop pos).count e := by
  have h1 : s.drop (a.length + 1) = b := by
    rw [h, ← List.singleton_append, ← List.append_assoc]
    exact drop_at _ _ _ (by simp)
  rw [h1, h, List.drop_append_of_le_length hp, List.count_append, List.count_cons_self]
  omega

/-- Finding a character. -/
theorem find_at (pos : Nat) (s : Str) (e : Char) : instr ((pos : Int) + 1) s [e] = 0 ∨
    ∃ a b, s = a ++ e :: b ∧ instr ((pos : Int) + 1) s [e] = a.length + 1 ∧ pos ≤ a.length := by
  rcases C26_instr ((pos : Int) + 1) s [e] (by simp) with ⟨h, _⟩ | ⟨h1, ⟨a, b, e1, e2⟩, _⟩
  · exact Or.inl h
  · exact Or.inr ⟨a, b, by rw [e1]; simp, e2, by omega⟩

/-- The spaces around a character. -/
theorem pad_ok {l s a b : Str} {e : Char} (he : e ≠ '$' ∧ e ≠ ')' ∧ e ≠ ' ') (h : RC l s) (hs : s = a ++ e :: b) (ha : 2 ≤ a.length) (need : Bool) (p : Char) :
    ∃ t r, padAfter need s (a.length + 1) = .val t ∧ padBefore p t (a.length + 1) = .val r ∧ RC l r.1 ∧ 2 ≤ r.2 ∧ (r.1.drop r.2).count e = (s.drop (a.length + 1)).count e := by
  have hlen : a.length + 3 ≤ s.length := by
    obtain ⟨m, rfl, _⟩ := h
    exact (com_at hs ⟨he.1, he.2.1⟩ ha).1
  obtain ⟨t, t1, t2, t3, t4⟩ : ∃ t, padAfter need s (a.length + 1) = .val t ∧ RC l t ∧ s.length ≤ t.length ∧ (t.drop (a.length + 1)).count e = (s.drop (a.length + 1)).count e := by
    unfold padAfter
    cases need with
    | true =>
      rw [if_pos rfl, putSpace_eq]
      exact ⟨_, rfl, rc_space h (by omega) (by omega), by simp; omega, drop_before he.2.2 (Nat.le_refl _) (by omega)⟩
    | false => rw [if_neg (by simp)]; exact ⟨s, rfl, h, Nat.le_refl _, rfl⟩
  refine ⟨t, ?_⟩
  rw [t1]
  suffices hh : ∃ r, padBefore p t (a.length + 1) = .val r ∧ RC l r.1 ∧ 2 ≤ r.2 ∧ (r.1.drop r.2).count e = (s.drop (a.length + 1)).count e by
    obtain ⟨r, hr⟩ := hh
    exact ⟨r, rfl, hr⟩
  by_cases hp : p ≠ ' '
  · have e0 : padBefore p t (a.length + 1) = putSpace t (((a.length + 1 : Nat) : Int) - 1) >>= fun t => .val (t, a.length + 1 + 1) := by unfold padBefore; rw [if_pos hp]
    rw [e0]
    have : (((a.length + 1 : Nat) : Int) - 1) = ((a.length : Nat) : Int) := by omega
    rw [this, putSpace_eq, Out.bind_val]
    refine ⟨_, rfl, rc_space t2 ha (by omega), by show 2 ≤ a.length + 1 + 1; omega, ?_⟩
    show ((t.take a.length ++ ' ' :: t.drop a.length).drop (a.length + 1 + 1)).count e = _
    rw [drop_after (by omega) (by omega)]
    exact t4
  · have e0 : padBefore p t (a.length + 1) = .val (t, a.length + 1) := by unfold padBefore; rw [if_neg hp]
    rw [e0]
    exact ⟨_, rfl, t2, by show 2 ≤ a.length + 1; omega, t4⟩

theorem quoteLoop_ok {l : Str} : ∀ (n : Nat) (mm : Bool) (pos : Nat) (s : Str), 2 ≤ pos → RC l s → (s.drop pos).count '`' < n → ∃ t, quoteLoop n mm pos s = .val t ∧ RC l t
  | 0, _, _, _, _, _, h => absurd h (by omega)
  | n + 1, mm, pos, s, hp, hs, hn => by
    rw [quoteLoop]
    rcases find_at pos s '`' with h | ⟨a, b, e1, e2, e3⟩
    · rw [if_pos h]; exact ⟨s, rfl, hs⟩
    · rw [e2, if_neg (by omega)]
      have hlen : s.length = a.length + 1 + b.length := by rw [e1]; simp; omega
      obtain ⟨p, hp1⟩ := ch_le (s := s) (i := a.length + 1 - 2) (by omega)
      obtain ⟨q, hq⟩ := ch_le (s := s) (i := a.length + 1) (by omega)
      have hc := count_next e1 e3
      rw [hp1, Out.bind_val, hq, Out.bind_val]
      by_cases hpq : p = '`' ∨ q = '`'
      · rw [if_pos hpq]
        exact quoteLoop_ok n (!mm) (a.length + 1) s (by omega) hs (by omega)
      · rw [if_neg hpq]
        obtain ⟨t, r, t1, t2, t3, t4, t5⟩ := pad_ok (by decide) hs e1 (by omega) (decide (q ≠ ' ' ∧ q ≠ '\n' ∧ ((!mm) = true ∨ (q ≠ '_' ∧ q ≠ '-')))) p
        rw [t1, Out.bind_val, t2, Out.bind_val]
        exact quoteLoop_ok n (!mm) r.2 r.1 t4 t3 (by omega)

theorem tildeLoop_ok {l : Str} : ∀ (n pos : Nat) (s : Str), 2 ≤ pos → RC l s → (s.drop pos).count '~' < n → ∃ t, tildeLoop n pos s = .val t ∧ RC l t
  | 0, _, _, _, _, h => absurd h (by omega)
  | n + 1, pos, s, hp, hs, hn => by
    rw [tildeLoop]
    rcases find_at pos s '~' with h | ⟨a, b, e1, e2, e3⟩
    · rw [if_pos h]; exact ⟨s, rfl, hs⟩
    · rw [e2, if_neg (by omega)]
      have hlen : s.length = a.length + 1 + b.length := by rw [e1]; simp; omega
      obtain ⟨p, hp1⟩ := ch_le (s := s) (i := a.length + 1 - 2) (by omega)
      obtain ⟨q, hq⟩ := ch_le (s := s) (i := a.length + 1) (by omega)
      have hc := count_next e1 e3
      rw [hp1, Out.bind_val, hq, Out.bind_val]
      by_cases hpq : p = '~' ∨ q = '~'
      · rw [if_pos hpq]
        exact tildeLoop_ok n (a.length + 1) s (by omega) hs (by omega)
      · rw [if_neg hpq]
        obtain ⟨t, r, t1, t2, t3, t4, t5⟩ := pad_ok (by decide) hs e1 (by omega) (decide (q ≠ ' ')) p
        rw [t1, Out.bind_val, t2, Out.bind_val]
        exact tildeLoop_ok n r.2 r.1 t4 t3 (by omega)

/-- White space is changed to white space, place by place. -/
def Swap (c d : Char) : Prop := d = c ∨ (isGraph c = false ∧ (isSpace d = true ∨ d = A4) ∧ d ≠ '\r')

theorem Swap.graph {c d : Char} (h : Swap c d) : d = c ∨ (isGraph c = false ∧ isGraph d = false) := by
  rcases h with h | ⟨h1, h2 | h2, _⟩
  · exact Or.inl h
  · exact Or.inr ⟨h1, space_graph h2⟩
  · exact Or.inr ⟨h1, by rw [h2]; decide⟩

theorem f2_append_inv {α β : Type} {R : α → β → Prop} : ∀ {a b : List α} {c : List β}, List.Forall₂ R (a ++ b) c → ∃ c1 c2, c = c1 ++ c2 ∧ List.Forall₂ R a c1 ∧ List.Forall₂ R b c2
  | [], b, c, h => ⟨[], c, rfl, .nil, h⟩
  | x :: a, b, _, .cons h hs => by
    obtain ⟨c1, c2, rfl, h1, h2⟩ := f2_append_inv (a := a) hs
    exact ⟨_ :: c1, c2, rfl, .cons h h1, h2⟩

theorem f2_imp {α β : Type} {R S : α → β → Prop} (h : ∀ a b, R a b → S a b) : ∀ {a : List α} {b : List β}, List.Forall₂ R a b → List.Forall₂ S a b
  | _, _, .nil => .nil
  | _, _, .cons h1 h2 => .cons (h _ _ h1) (f2_imp h h2)

theorem rc_swap {l s t : Str} (h : RC l s) (hf : List.Forall₂ Swap s t) : RC l t := by
  obtain ⟨m, rfl, hm⟩ := h
  unfold com at hf
  cases hf with
  | cons h1 hf =>
    cases hf with
    | cons h2 hf =>
      obtain ⟨m', z, rfl, hf1, hf2⟩ := f2_append_inv hf
      cases hf2 with
      | cons h3 hf2 =>
        cases hf2 with
        | cons h4 hf2 =>
          cases hf2
          have g : ∀ {c d : Char}, Swap c d → isGraph c = true → d = c := by
            intro c d h hc
            rcases h with h | ⟨h, _⟩
            · exact h
            · rw [hc] at h; cases h
          rw [g h1 (by decide), g h2 (by decide), g h3 (by decide), g h4 (by decide)]
          have hw : words m' = words m := words_pointwise _ (Nat.le_refl _) (f2_imp (fun _ _ h => Swap.graph h) hf1)
          refine ⟨m', rfl, ?_, ?_, ?_, ?_, ?_, ?_, ?_⟩
          · rintro rfl; cases hf1; exact hm.ne rfl
          · intro c hc
            cases hf1 with
            | nil => cases hc
            | @cons a b _ _ hab _ =>
              cases hc
              have := hm.start a rfl
              rcases hab.graph with h | h
              · rw [h]; exact this
              · exact h.2
          · intro c hc
            have : ∀ {x y : Str}, List.Forall₂ Swap x y → y.getLast? = some c → ∃ a, x.getLast? = some a ∧ Swap a c := by
              intro x y hxy
              induction hxy with
              | nil => intro h; cases h
              | @cons a b x y hab hxy ih =>
                intro h
                cases hxy with
                | nil => simp at h; exact ⟨a, rfl, by rw [← h]; exact hab⟩
                | cons _ _ =>
                  rw [List.getLast?_cons_cons] at h ⊢
                  exact ih h
            obtain ⟨a, ha, hac⟩ := this hf1 hc
            rcases hac.graph with h | h
            · rw [h]; exact hm.stop a ha
            · exact h.2
          · exact fun hi => hm.open_ (infix_words (by decide) (by simp) hw hi)
          · exact fun hi => hm.close (infix_words (by decide) (by simp) hw hi)
          · intro d hd
            obtain ⟨i, hi, rfl⟩ := List.getElem_of_mem hd
            rw [List.forall₂_iff_get] at hf1
            have hi' : i < m.length := by rw [hf1.1]; exact hi
            have := hf1.2 i hi' hi
            simp only [List.get_eq_getElem] at this
            rcases this with h | ⟨_, h | h, hc⟩
            · rw [h]; exact hm.chars _ (List.getElem_mem _)
            · exact ⟨Or.inr (Or.inl h), hc⟩
            · exact ⟨Or.inr (Or.inr h), hc⟩
          · rw [← MM.Proof.words_flatten, hw, MM.Proof.words_flatten]; exact hm.letters

theorem swap_refl (s : Str) : List.Forall₂ Swap s s := by
  induction s with
  | nil => exact .nil
  | cons c s ih => exact .cons (Or.inl rfl) ih

theorem join_swap (len : Nat) : ∀ (s : Str) (pos : Nat) (prev : Char), List.Forall₂ Swap s (joinLines len pos prev s)
  | [], _, _ => .nil
  | c :: t, pos, prev => by
    rw [joinLines]
    refine .cons ?_ (join_swap len t _ _)
    by_cases h : 2 ≤ pos ∧ pos + 2 < len ∧ c = '\n' ∧ prev ≠ '\n' ∧ t.head? ≠ some '\n'
    · rw [if_pos h, h.2.2.1]; exact Or.inr ⟨by decide, Or.inl rfl, by decide⟩
    · rw [if_neg h]; exact Or.inl rfl

theorem swap4 : Swap ' ' A4 := Or.inr ⟨by decide, Or.inr rfl, by decide⟩

theorem math_swap (len : Nat) : ∀ (s : Str) (pos : Nat) (mm : Bool), List.Forall₂ Swap s (mathSpaces len pos mm s)
  | [], _, _ => .nil
  | c :: t, pos, mm => by
    rw [mathSpaces]
    refine .cons ?_ (math_swap len t _ _)
    generalize (if (decide (3 ≤ pos ∧ pos + 2 < len) && c == '`') = true then !mm else mm) = mm'
    by_cases h : (decide (3 ≤ pos ∧ pos + 2 < len) && mm' && c == ' ') = true
    · rw [if_pos h]
      simp only [Bool.and_eq_true, beq_iff_eq] at h
      rw [h.2]; exact swap4
    · rw [if_neg h]; exact Or.inl rfl

theorem mapIdx_swap {s : Str} {f : Nat → Char → Char} (h : ∀ i (hi : i < s.length), Swap s[i] (f i s[i])) : List.Forall₂ Swap s (s.mapIdx f) := by
  rw [List.forall₂_iff_get]
  refine ⟨by simp, fun i h1 h2 => ?_⟩
  simp only [List.get_eq_getElem, List.getElem_mapIdx]
  exact h i h1

theorem markup_swap (m s : Str) : List.Forall₂ Swap s (markupSpaces m s) := by
  unfold markupSpaces
  dsimp only
  by_cases hp : instr 1 s m ≠ 0
  · rw [if_pos hp]
    refine mapIdx_swap fun i hi => ?_
    by_cases h : instr 1 s m ≤ i ∧ i + 1 < instr 1 s m + m.length ∧ s[i] = ' '
    · rw [if_pos h, h.2.2]; exact swap4
    · rw [if_neg h]; exact Or.inl rfl
  · rw [if_neg hp]; exact swap_refl s

theorem com_last {m : Str} (h : EndsGap m) (hne : m ≠ []) (hi : m.length + 1 < (com m).length) : isGraph ((com m)[m.length + 1]) = false := by
  obtain ⟨x, z, rfl⟩ : ∃ x z, m = x ++ [z] := ⟨m.dropLast, m.getLast hne, (List.dropLast_append_getLast hne).symm⟩
  have : (com (x ++ [z]))[(x ++ [z]).length + 1] = z := by
    unfold com
    simp [List.getElem_append]
  rw [this]
  exact h z (by simp)

theorem template_rc {l s : Str} (h : RC l s) : RC l (template s) := by
  refine rc_swap h ?_
  unfold template
  obtain ⟨m, rfl, hm⟩ := h
  refine mapIdx_swap fun i hi => ?_
  by_cases hc : 3 ≤ i ∧ i + 2 < (com m).length ∧ (((com m)[i] = ' ' ∧ noBreak (com m) i = true) ∨ i + 3 = (com m).length)
  · rw [if_pos hc]
    rcases hc.2.2 with h | h
    · rw [h.1]; exact swap4
    · have h3 : i = m.length + 1 := by rw [com_length] at h; omega
      subst h3
      exact Or.inr ⟨com_last hm.stop hm.ne hi, Or.inr rfl, by decide⟩
  · rw [if_neg hc]; exact Or.inl rfl

theorem rc_re {l s t : Str} (h : RC l s) (hr : Re s t) : RC l t := by
  obtain ⟨m, rfl, hm⟩ := h
  obtain ⟨z1, rfl, r1⟩ := hr.word (w := ['$', '(']) (by decide) (r := m ++ ['$', ')']) rfl
  obtain ⟨m', z2, rfl, r2, r3, _⟩ := r1.split (p := m) (q := ['$', ')'] ++ []) rfl ⟨'$', _, rfl, by decide⟩
  obtain ⟨z3, rfl, r4⟩ := r3.word (w := ['$', ')']) (by decide) rfl
  have : z3 = [] := r4.nil_iff.1 rfl
  subst this
  refine ⟨m', rfl, fun e => hm.ne (r2.nil_iff.2 e), r2.atGap hm.start, r2.endsGap hm.stop, fun hi => hm.open_ (infix_words (by decide) (by simp) r2.words hi),
    fun hi => hm.close (infix_words (by decide) (by simp) r2.words hi), ?_, ?_⟩
  · intro d hd
    rcases r2.mem hd with h | rfl
    · exact hm.chars d h
    · exact ⟨Or.inr (Or.inl rfl), by decide⟩
  · rw [← MM.Proof.words_flatten, r2.words, MM.Proof.words_flatten]; exact hm.letters

theorem rc_nonul {l s : Str} (h : RC l s) : NoNul s := by
  obtain ⟨m, rfl, hm⟩ := h
  intro c hc e
  unfold com at hc
  simp only [List.mem_cons, List.mem_append, List.not_mem_nil, or_false] at hc
  rcases hc with rfl | rfl | hc | rfl | rfl
  · revert e; decide
  · revert e; decide
  · rcases (hm.chars c hc).1 with h | h | h
    · unfold isGraph at h; simp at h; omega
    · unfold isSpace at h; simp at h; omega
    · rw [h] at e; revert e; decide
  · revert e; decide
  · revert e; decide

theorem com_ch3 (x : Str) (z : Char) : ch (com (x ++ [z])) ((com (x ++ [z])).length - 3) = .val z := by
  have hl : (com (x ++ [z])).length = x.length + 5 := by rw [com_length]; simp
  rw [ch_lt (by omega)]
  congr 1
  have : (com (x ++ [z])).length - 3 = x.length + 2 := by omega
  simp only [this]
  unfold com
  simp [List.getElem_append]

theorem com_ch4 (y : Str) (b z : Char) : ch (com (y ++ [b, z])) ((com (y ++ [b, z])).length - 4) = .val b := by
  have hl : (com (y ++ [b, z])).length = y.length + 6 := by rw [com_length]; simp
  rw [ch_lt (by omega)]
  congr 1
  have : (com (y ++ [b, z])).length - 4 = y.length + 2 := by omega
  simp only [this]
  unfold com
  simp [List.getElem_append]

theorem com_ch4' (z : Char) : ch (com [z]) ((com [z]).length - 4) = .val '(' := rfl

theorem infix_pre {x y z : Str} (h : ¬ x <:+: y ++ z) : ¬ x <:+: y := fun hi => h (hi.trans (List.prefix_append y z).isInfix)

theorem endLoop_ok {l : Str} : ∀ (n : Nat) (s : Str), s.length < n → RC l s → endLoop n s = .bug 1730 ∨ ∃ t, endLoop n s = .val t ∧ RC l t
  | 0, _, h, _ => absurd h (by omega)
  | n + 1, s, hn, hs => by
    obtain ⟨m, rfl, hm⟩ := hs
    obtain ⟨x, z, rfl⟩ : ∃ x z, m = x ++ [z] := ⟨m.dropLast, m.getLast hm.ne, (List.dropLast_append_getLast hm.ne).symm⟩
    have hl : (com (x ++ [z])).length = x.length + 5 := by rw [com_length]; simp
    rw [endLoop, if_neg (by omega), com_ch3, Out.bind_val]
    by_cases hz : z ≠ ' '
    · rw [if_pos hz]; exact Or.inl rfl
    have hz : z = ' ' := Decidable.not_not.1 hz
    subst hz
    rw [if_neg (by simp)]
    by_cases hx : x = []
    · subst hx
      rw [List.nil_append, com_ch4', Out.bind_val, if_pos (by decide)]
      exact Or.inr ⟨_, rfl, [' '], rfl, hm⟩
    · obtain ⟨y, b, rfl⟩ : ∃ y b, x = y ++ [b] := ⟨x.dropLast, x.getLast hx, (List.dropLast_append_getLast hx).symm⟩
      have e1 : y ++ [b] ++ [' '] = y ++ [b, ' '] := by simp
      have hl' : (com (y ++ [b, ' '])).length = y.length + 6 := by rw [com_length]; simp
      rw [e1] at hm hn ⊢
      rw [com_ch4, Out.bind_val]
      by_cases hb : b ≠ ' ' ∧ b ≠ '\n'
      · rw [if_pos hb]; exact Or.inr ⟨_, rfl, _, rfl, hm⟩
      · rw [if_neg hb]
        have hbs : isGraph b = false := by
          by_cases h1 : b = ' '
          · rw [h1]; decide
          · by_cases h2 : b = '\n'
            · rw [h2]; decide
            · exact absurd ⟨h1, h2⟩ hb
        rw [left_nat (y.length + 2) (by rw [hl']; omega), Out.bind_val, right_nat (y.length + 3) (by rw [hl']; omega), Out.bind_val]
        have e2 : (com (y ++ [b, ' '])).take (y.length + 2) ++ (com (y ++ [b, ' '])).drop (y.length + 3) = com (y ++ [' ']) := by
          unfold com
          rw [List.take_succ_cons, List.take_succ_cons, List.drop_succ_cons, List.drop_succ_cons]
          simp [List.drop_append]
        rw [e2]
        have hm' : CT l (y ++ [' ']) := by
          refine ⟨by simp, ?_, ?_, ?_, ?_, ?_, ?_⟩
          · intro c hc
            cases y with
            | nil => cases hc; decide
            | cons d y => exact hm.start c (by simpa using hc)
          · intro c hc; simp at hc; subst hc; decide
          · intro hi
            rcases infix_split (by decide) (by decide) hi with hi | hi
            · exact infix_pre hm.open_ hi
            · simp at hi
          · intro hi
            rcases infix_split (by decide) (by decide) hi with hi | hi
            · exact infix_pre hm.close hi
            · simp at hi
          · intro d hd
            simp only [List.mem_append, List.mem_singleton] at hd
            rcases hd with hd | rfl
            · exact hm.chars d (by simp [hd])
            · exact ⟨Or.inr (Or.inl rfl), by decide⟩
          · have := hm.letters
            rw [List.filter_append] at this ⊢
            rw [← this, List.filter_cons_of_neg (a := b) (by simp [hbs])]
        exact endLoop_ok n _ (by rw [com_length] at hn ⊢; simp at hn ⊢; omega) ⟨_, rfl, hm'⟩

theorem lower_graph {c : Char} (h : isLower c = true) : isGraph c = true := by
  unfold isLower at h
  have h := of_decide_eq_true h
  have h1 : 97 ≤ c.toNat := h.1
  have h2 : c.toNat ≤ 122 := h.2
  unfold isGraph
  simp; omega

/-- A period is added, or nothing. -/
theorem period_ok {l s : Str} (h : RC l s) : ∃ t l', period s = .val t ∧ RC l' t ∧ (l' = l ∨ (l' = l ++ ['.'] ∧ ∃ c, l.getLast? = some c ∧ isLower c = true)) := by
  obtain ⟨m, rfl, hm⟩ := h
  obtain ⟨x, z, rfl⟩ : ∃ x z, m = x ++ [z] := ⟨m.dropLast, m.getLast hm.ne, (List.dropLast_append_getLast hm.ne).symm⟩
  have hl : (com (x ++ [z])).length = x.length + 5 := by rw [com_length]; simp
  unfold period
  rw [if_neg (by omega)]
  by_cases hx : x = []
  · subst hx
    rw [List.nil_append, com_ch4', Out.bind_val, if_neg (by decide)]
    exact ⟨_, l, rfl, ⟨[z], rfl, hm⟩, Or.inl rfl⟩
  · obtain ⟨y, b, rfl⟩ : ∃ y b, x = y ++ [b] := ⟨x.dropLast, x.getLast hx, (List.dropLast_append_getLast hx).symm⟩
    have e1 : y ++ [b] ++ [z] = y ++ [b, z] := by simp
    have hl' : (com (y ++ [b, z])).length = y.length + 6 := by rw [com_length]; simp
    rw [e1] at hm ⊢
    rw [com_ch4, Out.bind_val]
    by_cases hb : isLower b = true
    · rw [if_pos hb, left_nat (y.length + 3) (by rw [hl']; omega), Out.bind_val]
      have e2 : (com (y ++ [b, z])).take (y.length + 3) ++ ['.', ' ', '$', ')'] = com ((y ++ [b]) ++ ['.', ' ']) := by
        unfold com
        rw [List.take_succ_cons, List.take_succ_cons]
        simp [List.take_append]
      rw [e2]
      have hz : isGraph z = false := hm.stop z (by simp)
      refine ⟨_, l ++ ['.'], rfl, ⟨_, rfl, by simp, ?_, ?_, ?_, ?_, ?_, ?_⟩, Or.inr ⟨rfl, b, ?_, hb⟩⟩
      · intro c hc
        refine hm.start c ?_
        cases y with
        | nil => simpa using hc
        | cons d y => simpa using hc
      · intro c hc
        rw [List.getLast?_append] at hc
        cases hc; decide
      · intro hi
        rcases infix_split (by decide) (by decide) hi with hi | hi
        · exact infix_pre (z := [z]) (by rw [e1]; exact hm.open_) hi
        · revert hi; decide
      · intro hi
        rcases infix_split (by decide) (by decide) hi with hi | hi
        · exact infix_pre (z := [z]) (by rw [e1]; exact hm.close) hi
        · revert hi; decide
      · intro d hd
        simp only [List.mem_append, List.mem_cons, List.not_mem_nil, or_false] at hd
        rcases hd with (hd | rfl) | rfl | rfl
        · exact hm.chars d (by simp [hd])
        · exact hm.chars d (by simp)
        · exact ⟨Or.inl (by decide), by decide⟩
        · exact ⟨Or.inr (Or.inl rfl), by decide⟩
      · have := hm.letters
        rw [← e1, List.filter_append] at this
        rw [List.filter_append, ← this, List.filter_cons_of_neg (l := []) (by simp [hz])]
        simp
        decide
      · rw [← hm.letters, List.filter_append, List.filter_cons_of_pos (lower_graph hb), List.filter_cons_of_neg (by simp [hz])]
        simp
    · rw [if_neg hb]
      exact ⟨_, l, rfl, ⟨_, rfl, hm⟩, Or.inl rfl⟩

theorem sentencePad_ok {l s : Str} {pos : Nat} (h : RC l s) (hp : 2 ≤ pos) (hl : pos ≤ s.length) {e : Char} (he : e ≠ ' ') :
    ∃ t, sentencePad s pos = .val t ∧ RC l t ∧ (t.drop pos).count e = (s.drop pos).count e := by
  unfold sentencePad
  obtain ⟨c, hc⟩ := ch_le hl
  rw [hc, Out.bind_val]
  by_cases h1 : c ≠ ' '
  · rw [if_pos h1]; exact ⟨s, rfl, h, rfl⟩
  · rw [if_neg h1]
    have h1 := Decidable.not_not.1 h1
    subst h1
    have hlt : pos < s.length := by
      rcases Nat.lt_or_ge pos s.length with h | h
      · exact h
      · unfold ch at hc
        rw [dif_neg (by omega), if_pos (by omega)] at hc
        have hn : NUL = ' ' := Out.val.inj hc
        exact absurd hn (by decide)
    have hs : s = s.take pos ++ ' ' :: s.drop (pos + 1) := by
      rw [ch_lt hlt] at hc
      rw [← Out.val.inj hc]
      simp
    have hlen : pos + 3 ≤ s.length := by
      obtain ⟨m, rfl, _⟩ := h
      have := (com_at hs (by decide) (by simp; omega)).1
      simp only [List.length_take] at this
      omega
    obtain ⟨d, hd⟩ := ch_le (s := s) (i := pos + 1) (by omega)
    rw [hd, Out.bind_val]
    by_cases h2 : (isUpper d || inSet opening d) = true
    · rw [if_pos h2]
      have : ((pos : Int) + 1) = ((pos + 1 : Nat) : Int) := by omega
      rw [this, putSpace_eq]
      exact ⟨_, rfl, rc_space h (by omega) (by omega), drop_before he (by omega) (by omega)⟩
    · rw [if_neg h2]; exact ⟨s, rfl, h, rfl⟩

theorem sentenceLoop_ok {l : Str} {e : Char} (he : e ≠ '$' ∧ e ≠ ')' ∧ e ≠ ' ') : ∀ (n pos : Nat) (s : Str), 2 ≤ pos → RC l s → (s.drop pos).count e < n →
    ∃ t, sentenceLoop e n pos s = .val t ∧ RC l t
  | 0, _, _, _, _, h => absurd h (by omega)
  | n + 1, pos, s, hp, hs, hn => by
    rw [sentenceLoop]
    rcases find_at pos s e with h | ⟨a, b, e1, e2, e3⟩
    · rw [if_pos h]; exact ⟨s, rfl, hs⟩
    · rw [e2, if_neg (by omega)]
      have hlen : a.length + 3 ≤ s.length := by
        obtain ⟨m, rfl, _⟩ := hs
        exact (com_at e1 ⟨he.1, he.2.1⟩ (by omega)).1
      obtain ⟨p, hp1⟩ := ch_le (s := s) (i := a.length + 1 - 2) (by omega)
      obtain ⟨q, hq⟩ := ch_le (s := s) (i := a.length + 1) (by omega)
      have hc := count_next e1 e3
      dsimp only
      rw [hp1, Out.bind_val]
      by_cases h1 : e = '.' ∧ isUpper p = true
      · rw [if_pos h1]
        exact sentenceLoop_ok he n (a.length + 1) s (by omega) hs (by omega)
      · rw [if_neg h1, hq, Out.bind_val]
        have hle : (s.drop (if inSet sentenceEnd q = true then a.length + 1 + 1 else a.length + 1)).count e ≤ (s.drop (a.length + 1)).count e := by
          by_cases h2 : inSet sentenceEnd q = true
          · rw [if_pos h2]
            exact ((List.drop_suffix_drop_left s (by omega)).sublist).count_le e
          · rw [if_neg h2]
        have hb : 2 ≤ (if inSet sentenceEnd q = true then a.length + 1 + 1 else a.length + 1) ∧ (if inSet sentenceEnd q = true then a.length + 1 + 1 else a.length + 1) ≤ s.length := by
          by_cases h2 : inSet sentenceEnd q = true
          · rw [if_pos h2]; omega
          · rw [if_neg h2]; omega
        generalize (if inSet sentenceEnd q = true then a.length + 1 + 1 else a.length + 1) = pos' at *
        obtain ⟨t, t1, t2, t3⟩ := sentencePad_ok hs hb.1 hb.2 he.2.2
        rw [t1, Out.bind_val]
        exact sentenceLoop_ok he n pos' t hb.1 t2 (by omega)

theorem tildes_ok {l s : Str} (h : RC l s) : ∃ t, tildes s = .val t ∧ RC l t := by
  unfold tildes
  by_cases hq : instr 2 s ['`'] = 0
  · rw [if_pos hq]
    exact tildeLoop_ok _ 2 s (by omega) h (by have := List.count_le_length (a := '~') (l := s.drop 2); simp at this; omega)
  · rw [if_neg hq]; exact ⟨s, rfl, h⟩

/-- `rewrapComment` changes white space only, and adds a period. -/
theorem rewrap_ok (pm um : Str) (g : Nat → Char) {l s : Str} (h : RC l s) :
    rewrapComment pm um g s = .bug 1730 ∨ ∃ t l', rewrapComment pm um g s = .val t ∧ RC l' t ∧ (l' = l ∨ (l' = l ++ ['.'] ∧ ∃ c, l.getLast? = some c ∧ isLower c = true)) := by
  have cnt : ∀ (e : Char) (s : Str) (k : Nat), (s.drop k).count e < s.length + 1 := fun e s k => by
    have := List.count_le_length (a := e) (l := s.drop k); simp at this; omega
  unfold rewrapComment
  obtain ⟨s1, e1, h1⟩ := quoteLoop_ok (s.length + 1) false 2 s (by omega) h (cnt _ _ _)
  obtain ⟨s2, e2, h2⟩ := tildes_ok h1
  have h3 := rc_swap h2 (join_swap s2.length s2 0 NUL)
  obtain ⟨s3, e3, r3⟩ := edit16_re g (rc_nonul h3)
  have h4 := rc_re h3 r3
  rw [e1, Out.bind_val, e2, Out.bind_val, e3, Out.bind_val]
  rcases endLoop_ok (s3.length + 1) s3 (by omega) h4 with hb | ⟨s5, e5, h5⟩
  · left; rw [hb]; rfl
  · right
    obtain ⟨t, l', e6, h6, hl⟩ := period_ok h5
    rw [e5, Out.bind_val, e6, Out.bind_val]
    have h7 := rc_swap (rc_swap (rc_swap h6 (math_swap s5.length t 0 false)) (markup_swap pm _)) (markup_swap um _)
    dsimp only
    generalize markupSpaces um (markupSpaces pm (mathSpaces s5.length 0 false t)) = t7 at *
    obtain ⟨t8, e8, h8⟩ := sentenceLoop_ok (e := '.') (by decide) (t7.length + 1) 2 t7 (by omega) h7 (cnt _ _ _)
    obtain ⟨t9, e9, h9⟩ := sentenceLoop_ok (e := '?') (by decide) (t8.length + 1) 2 t8 (by omega) h8 (cnt _ _ _)
    obtain ⟨t10, e10, h10⟩ := sentenceLoop_ok (e := '!') (by decide) (t9.length + 1) 2 t9 (by omega) h9 (cnt _ _ _)
    obtain ⟨t11, e11, h11⟩ := sentenceLoop_ok (e := ':') (by decide) (t10.length + 1) 2 t10 (by omega) h10 (cnt _ _ _)
    rw [e8, Out.bind_val, e9, Out.bind_val, e10, Out.bind_val, e11, Out.bind_val]
    exact ⟨_, l', rfl, template_rc h11, hl⟩

end MM.Fmt
