import Verif.Cmdl.KeyProps
/-!
# C78: a command in full is the same command
-/
namespace MM.Cmdl
open MM.Vstr MM.Date

theorem bind_inv {α β : Type} {o : Out α} {f : α → Out β} {b : β} (h : (o >>= f) = .val b) : ∃ a, o = .val a ∧ f a = .val b := by
  cases o with
  | val a => exact ⟨a, rfl, h⟩
  | _ => cases h

/-- What all calls of `getFullArg` in the program keep to: a list of choices is in capital letters, without an empty choice; if `$` is among them there are others; the default is
`$` only then; and the default of an argument that can be FIRST, LAST or ALL is not an abbreviation of these. -/
def Sane (cmd : Str) : Prop :=
  (cmd.head? = some '*' → ∀ d t, defaultOf cmd = .val d → unbracket d = .val t → orWords cmd t = t) ∧
  (cmd.head? ≠ some '#' → cmd.head? ≠ some '*' → cmd.head? ≠ some '&' →
    (∀ k ∈ (choices cmd).1, k ≠ [] ∧ (k = nothingWord ∨ editBase 32 k = k)) ∧ (nothingWord ∈ (choices cmd).1 → 2 ≤ (choices cmd).1.length) ∧
    (unbracket (choices cmd).2 = .val nothingWord → (choices cmd).1.getLastD [] = nothingWord))

variable {W W2 : World} {cmd d w K : Str} {arg : Nat} {s s2 t : St}

theorem finish_inv {kw : Str} (h : finish s arg kw d = .val (none, t)) :
    t = { s with full := s.full ++ [kw] } ∧ s.full.length = arg ∧ (kw = [] → arg < s.raw.length → d = ['<', '>']) := by
  unfold finish at h
  split at h
  · cases h
  rename_i h1
  split at h
  · cases h
  rename_i h2
  refine ⟨(Prod.mk.inj (Out.val.inj h)).2.symm, Classical.not_not.mp h2, ?_⟩
  intro h3 h4
  exact Classical.byContradiction fun h5 => h1 ⟨h3, h4, h5⟩

theorem finish_ok {kw : Str} (hf : s.full.length = arg) (h : kw = [] → d = ['<', '>']) : finish s arg kw d = .val (none, { s with full := s.full ++ [kw] }) := by
  unfold finish
  rw [if_neg (fun hx => hx.2.2 (h hx.1)), if_neg (by omega)]

theorem askArg_inv {bug : Nat} (h : askArg W d bug arg s = .val t) : ∃ a, t = { s with raw := s.raw ++ [a], query := true, asked := s.asked + 1 } ∧ arg ≤ s.raw.length := by
  unfold askArg at h
  split at h
  · cases h
  · obtain ⟨a, _, h2⟩ := bind_inv h
    exact ⟨a, (Out.val.inj h2).symm, by omega⟩

/-- What a call that is accepted does, and what it does with the keyword it found. -/
structure Again (W2 : World) (cmd : Str) (arg : Nat) (s t : St) (K : Str) : Prop where
  full : t.full = s.full ++ [K]
  raw : s.raw.length ≤ t.raw.length
  push : s.raw.length < arg → t.raw.length = s.raw.length
  again : (arg < t.raw.length ∧ ∀ s2 : St, s2.full.length = arg → s2.raw[arg]? = some K → getFullArg W2 cmd arg s2 = .val (none, { s2 with full := s2.full ++ [K] })) ∨
    (t.raw.length ≤ arg ∧ ∀ s2 : St, s2.full.length = arg → s2.raw.length ≤ arg → s2.query = false → getFullArg W2 cmd arg s2 = .val (none, { s2 with full := s2.full ++ [K] }))

/-! ### Numbers -/

theorem valGo_zeros : ∀ (k : Nat) (v p : Int) (sgn : Bool) {r : Int}, valGo (List.replicate k '0') v p sgn = .val r → r = if sgn then -v else v
  | 0, _, _, _, _, h => (Out.val.inj h).symm
  | k + 1, v, p, sgn, r, h => by
    rw [List.replicate_succ, valGo, if_neg (by decide), if_neg (by decide), if_pos (by decide)] at h
    split at h
    · cases h
    · have := valGo_zeros k _ _ _ h
      rw [this]
      simp

theorem valGo_prefix (k : Nat) : ∀ (x : List Char) (v p : Int) (sgn : Bool) {r : Int}, valGo (x ++ List.replicate k '0') v p sgn = .val r → valGo x v p sgn = .val r
  | [], v, p, sgn, r, h => by
    rw [valGo, valGo_zeros k v p sgn h]
  | c :: x, v, p, sgn, r, h => by
    rw [List.cons_append, valGo] at h
    rw [valGo]
    split
    · rename_i hc; rw [if_pos hc] at h; cases h
    · rename_i hc
      rw [if_neg hc] at h
      split
      · rename_i hc; rw [if_pos hc] at h; exact valGo_prefix k x _ _ _ h
      · rename_i hc
        rw [if_neg hc] at h
        split
        · rename_i hc
          rw [if_pos hc] at h
          split
          · rename_i hc; rw [if_pos hc] at h; cases h
          · rename_i hc; rw [if_neg hc] at h; exact valGo_prefix k x _ _ _ h
        · rename_i hc
          rw [if_neg hc] at h
          exact valGo_prefix k x _ _ _ h

theorem val_strip {k : Nat} {l : Str} {v : Int} (h : val (List.replicate k '0' ++ l) = .val v) : val l = .val v := by
  unfold val at h ⊢
  rw [List.reverse_append, List.reverse_replicate] at h
  exact valGo_prefix k _ _ _ _ h

theorem num_again (hc : cmd.head? = some '#') (h : getFullArg W cmd arg s = .val (none, t)) : ∃ K, Again W2 cmd arg s t K := by
  rw [getFullArg_num hc] at h
  unfold numArg at h
  obtain ⟨d, hd, h⟩ := bind_inv h
  obtain ⟨s1, h1, h⟩ := bind_inv h
  obtain ⟨a, _, h⟩ := bind_inv h
  obtain ⟨v, hv, h⟩ := bind_inv h
  split at h
  · cases h
  rename_i hz
  have hz := Classical.not_not.mp hz
  obtain ⟨rfl, hf, _⟩ := finish_inv h
  have hs : s1.full = s.full ∧ s.raw.length ≤ s1.raw.length ∧ (s.raw.length < arg → s1.raw.length = s.raw.length) ∧ arg < s1.raw.length := by
    by_cases hr : s.raw.length ≤ arg
    · rw [if_pos hr] at h1
      obtain ⟨a, rfl, h2⟩ := askArg_inv h1
      refine ⟨rfl, by simp, fun h => by omega, by simp; omega⟩
    · rw [if_neg hr] at h1
      obtain rfl := Out.val.inj h1
      exact ⟨rfl, Nat.le_refl _, fun _ => rfl, by omega⟩
  refine ⟨str v, by rw [← hs.1], hs.2.1, hs.2.2.1, Or.inl ⟨hs.2.2.2, ?_⟩⟩
  intro s2 hf2 hr2
  obtain ⟨d', e⟩ := num_given (W := W2) hc hr2 (str_ne v)
  have hv' : val (str v) = .val v := by
    rw [← hz] at hv
    unfold string at hv
    exact val_strip hv
  rw [e, hv', Out.bind_val, if_neg (by simp [string]), finish_ok hf2 (fun h => absurd h (str_ne v))]

/-! ### Strings and files -/

theorem orWords_cases (cmd w : Str) : orWords cmd w = w ∨ orWords cmd w = ['F', 'I', 'R', 'S', 'T'] ∨ orWords cmd w = ['L', 'A', 'S', 'T'] ∨ orWords cmd w = ['A', 'L', 'L'] := by
  have h : ∀ c1 c2 word kw, orWord cmd c1 c2 word kw = word ∨ orWord cmd c1 c2 word kw = kw := by
    intro c1 c2 word kw
    unfold orWord
    split
    · exact Or.inl rfl
    · exact Or.inr rfl
  unfold orWords
  rcases h 'a' 'A' ['A', 'L', 'L'] (orWord cmd 'l' 'L' ['L', 'A', 'S', 'T'] (orWord cmd 'f' 'F' ['F', 'I', 'R', 'S', 'T'] w)) with e | e
  · exact Or.inr (Or.inr (Or.inr e))
  rw [e]
  rcases h 'l' 'L' ['L', 'A', 'S', 'T'] (orWord cmd 'f' 'F' ['F', 'I', 'R', 'S', 'T'] w) with e | e
  · exact Or.inr (Or.inr (Or.inl e))
  rw [e]
  rcases h 'f' 'F' ['F', 'I', 'R', 'S', 'T'] w with e | e
  · exact Or.inr (Or.inl e)
  · exact Or.inl e

theorem orWord_other {c1 c2 : Char} {word kw : Str} (h1 : kw.head? ≠ some c1) (h2 : kw.head? ≠ some c2) : orWord cmd c1 c2 word kw = kw := by
  unfold orWord
  rw [if_neg (fun h => h.1.elim h1 h2)]

theorem orWord_self {c1 c2 : Char} {word : Str} : orWord cmd c1 c2 word word = word := by
  unfold orWord
  split <;> rfl

theorem orWords_again (cmd w : Str) : orWords cmd (orWords cmd w) = orWords cmd w := by
  rcases orWords_cases cmd w with e | e | e | e
  · rw [e, e]
  all_goals
    rw [e]
    unfold orWords
  · rw [orWord_self, orWord_other (c1 := 'l') (by decide) (by decide), orWord_other (c1 := 'a') (by decide) (by decide)]
  · rw [orWord_other (c1 := 'f') (by decide) (by decide), orWord_self, orWord_other (by decide) (by decide)]
  · rw [orWord_other (c1 := 'f') (by decide) (by decide), orWord_other (c1 := 'l') (by decide) (by decide), orWord_self]

theorem any_eq (hc : cmd.head? = some '*' ∨ cmd.head? = some '&') : getFullArg W cmd arg s = anyArg W cmd arg s := by
  unfold getFullArg
  rw [if_neg, if_pos hc]
  intro h
  rw [h] at hc
  simp at hc

theorem any_again (hS : Sane cmd) (hW : W2.opens = W.opens) (hc : cmd.head? = some '*' ∨ cmd.head? = some '&') (h : getFullArg W cmd arg s = .val (none, t)) :
    ∃ K, Again W2 cmd arg s t K := by
  rw [any_eq hc] at h
  unfold anyArg at h
  obtain ⟨d, hd, h⟩ := bind_inv h
  by_cases h0 : s.raw.length ≤ arg ∧ d = ['<', '$', '>']
  · rw [if_pos h0] at h
    obtain ⟨rfl, hf, _⟩ := finish_inv h
    refine ⟨nothing3, rfl, Nat.le_refl _, fun _ => rfl, Or.inr ⟨h0.1, ?_⟩⟩
    intro s2 hf2 hr2 _
    rw [any_eq hc]
    unfold anyArg
    rw [hd, Out.bind_val, if_pos ⟨hr2, h0.2⟩, finish_ok hf2 (fun h => by cases h)]
  rw [if_neg h0] at h
  obtain ⟨s1, h1, h⟩ := bind_inv h
  dsimp only at h
  obtain ⟨kw, hk, h⟩ := bind_inv h
  split at h
  · cases h
  rename_i ho
  obtain ⟨rfl, hf, hb⟩ := finish_inv h
  have hs : s1.full = s.full ∧ s.raw.length ≤ s1.raw.length ∧ (s.raw.length < arg → s1.raw.length = s.raw.length) ∧ arg < s1.raw.length := by
    by_cases hr : s.raw.length ≤ arg
    · rw [if_pos hr] at h1
      obtain ⟨a, rfl, h2⟩ := askArg_inv h1
      refine ⟨rfl, by simp, fun h => by omega, by simp; omega⟩
    · rw [if_neg hr] at h1
      obtain rfl := Out.val.inj h1
      exact ⟨rfl, Nat.le_refl _, fun _ => rfl, by omega⟩
  have hb := fun e => hb e hs.2.2.2
  refine ⟨kw, by rw [← hs.1], hs.2.1, hs.2.2.1, Or.inl ⟨hs.2.2.2, ?_⟩⟩
  intro s2 hf2 hr2
  have hl : arg < s2.raw.length := (List.getElem?_eq_some_iff.mp hr2).1
  have hg : s2.raw.getD arg [] = kw := by simp [List.getD_eq_getElem?_getD, hr2]
  have hfix : (if cmd.head? = some '*' then orWords cmd kw else kw) = kw := by
    split
    · rename_i hstar
      rw [if_pos hstar] at hk
      split at hk
      · exact hS.1 hstar d kw hd hk
      · rw [← Out.val.inj hk]
        exact orWords_again cmd _
    · rfl
  have hdef : (if kw = [] then unbracket d else .val kw) = .val kw := by
    split
    · rename_i e
      rw [hb e, e]
      decide
    · rfl
  rw [any_eq hc]
  unfold anyArg
  rw [hd, Out.bind_val, if_neg (by omega), if_neg (by omega), Out.bind_val]
  dsimp only
  rw [hg, hfix, hdef, Out.bind_val, if_neg (by rw [hW]; exact ho), finish_ok hf2 hb]

/-! ### Keywords -/

theorem toUp_big (c : Char) : ¬ ('a' ≤ toUp c ∧ toUp c ≤ 'z') := by
  unfold toUp
  split
  · rename_i h
    have h1 : 97 ≤ c.toNat ∧ c.toNat ≤ 122 := ⟨h.1, h.2⟩
    have : ∀ n : Fin 123, 97 ≤ n.1 → ¬ ('a' ≤ Char.ofNat (n.1 - 32) ∧ Char.ofNat (n.1 - 32) ≤ 'z') := by decide
    exact this ⟨c.toNat, by omega⟩ h1.1
  · assumption

theorem editLoop_big : ∀ w : Str, ∀ c ∈ editLoop 32 false w, ¬ ('a' ≤ c ∧ c ≤ 'z')
  | [] => by simp [editLoop]
  | c :: w => by
    have h8 : on 32 8 = false := by decide
    rw [editLoop]
    simp only [h8, Bool.false_and]
    rw [if_neg (by decide), if_neg (by decide)]
    intro x hx
    rcases List.mem_append.mp hx with hx | hx
    · by_cases h0 : c.toNat = 0
      · have : editChar 32 c = none := by
          unfold editChar
          have h0' : on 32 0 = false := by decide
          have h1 : on 32 1 = false := by decide
          simp [h0', h1, h0]
        rw [this] at hx
        cases hx
      · rw [editChar_32 h0] at hx
        simp at hx
        rw [hx]
        exact toUp_big c
    · exact editLoop_big w x hx

theorem edit_big (w : Str) : ∀ c ∈ editBase 32 w, ¬ ('a' ≤ c ∧ c ≤ 'z') := by
  have h3 : on 32 3 = false := by decide
  have h7 : on 32 7 = false := by decide
  have h14 : on 32 14 = false := by decide
  have h4 : on 32 4 = false := by decide
  unfold editBase
  simp only [h3, h7, h14, h4]
  exact editLoop_big w

theorem pick_sane {cs : List Str} (h1 : nothingWord ∈ cs → 2 ≤ cs.length) (h : pick w cs = .inl K) : K ∈ cs ∧ K ≠ nothingWord := by
  have hb := edit_big w
  unfold pick at h
  dsimp only at h
  generalize editBase 32 w = u at h hb
  rw [scan_spec] at h
  have hn : ∀ {c : Char}, c = 'n' → c ∉ u := fun e hx => hb _ hx (by rw [e]; decide)
  by_cases hu : u ∈ cs
  · rw [if_pos hu, if_neg (by simp), if_neg (by simp)] at h
    have e : u = K := Sum.inl.inj h
    subst e
    refine ⟨hu, fun e => ?_⟩
    exact hn rfl (by rw [e]; decide)
  · rw [if_neg hu, List.nil_append] at h
    by_cases g1 : (cs.filter fun c => decide (u <+: c)).length < 1
    · rw [if_pos g1] at h; cases h
    by_cases g2 : 1 < (cs.filter fun c => decide (u <+: c)).length
    · rw [if_neg g1, if_pos g2] at h; cases h
    rw [if_neg g1, if_neg g2] at h
    obtain ⟨x, hx⟩ := List.length_eq_one_iff.mp (show (cs.filter fun c => decide (u <+: c)).length = 1 by omega)
    rw [hx] at h
    have e : x = K := Sum.inl.inj h
    subst e
    have hm : x ∈ cs.filter fun c => decide (u <+: c) := by rw [hx]; simp
    obtain ⟨hm1, hm2⟩ := List.mem_filter.mp hm
    refine ⟨hm1, fun e => ?_⟩
    have hp : u <+: nothingWord := by rw [← e]; simpa using hm2
    cases u with
    | nil =>
      have : (cs.filter fun c => decide (([] : Str) <+: c)) = cs := by simp
      rw [this] at hx
      have := h1 (e ▸ hm1)
      rw [hx] at this
      simp at this
    | cons c u =>
      obtain ⟨r, hr⟩ := hp
      have : c = 'n' := (List.cons.inj hr).1
      exact hn this (by simp)

theorem pick_again {cs : List Str} (h1 : K ∈ cs) (h2 : editBase 32 K = K) : pick K cs = .inl K := by
  unfold pick
  dsimp only
  rw [h2, scan_spec, if_pos h1, if_neg (by simp), if_neg (by simp)]
  rfl

theorem key_eq (h1 : cmd.head? ≠ some '#') (h2 : cmd.head? ≠ some '*') (h3 : cmd.head? ≠ some '&') : getFullArg W cmd arg s = keyArg W cmd arg s := by
  unfold getFullArg
  rw [if_neg h1, if_neg (fun h => h.elim h2 h3)]

/-- A question for a keyword: nothing is added only if the answer, or the default, is `nothing`. -/
theorem askKey_inv {cs : List Str} (h : askKey W cmd cs d arg s = .val t) :
    (t = { s with query := true, asked := t.asked } ∧ ∃ a, a = nothingWord ∧ ((cs.length ≠ 1 ∧ W.answer s.asked = a) ∨ (cs.length = 1 ∧ cs.headD [] = a) ∨ unbracket d = .val a)) ∨
    (∃ a, t = { s with raw := s.raw ++ [a], query := true, asked := t.asked } ∧ arg ≤ s.raw.length) := by
  unfold askKey at h
  dsimp only at h
  generalize he : (if cs.length ≠ 1 then W.answer s.asked else if cmd = ['$', '|', '<', '$', '>'] then cs.headD [] else []) = e at h
  obtain ⟨a, ha, h⟩ := bind_inv h
  by_cases hn : a = nothingWord
  · rw [if_pos hn] at h
    obtain rfl := Out.val.inj h
    refine Or.inl ⟨rfl, a, hn, ?_⟩
    by_cases h0 : e = []
    · rw [if_pos h0] at ha
      exact Or.inr (Or.inr ha)
    · rw [if_neg h0] at ha
      obtain rfl := Out.val.inj ha
      by_cases hc : cs.length = 1
      · rw [if_neg (fun h => h hc)] at he
        refine Or.inr (Or.inl ⟨hc, ?_⟩)
        split at he
        · exact he
        · exact absurd he.symm h0
      · rw [if_pos hc] at he
        exact Or.inl ⟨hc, he⟩
  · rw [if_neg hn] at h
    by_cases hb : s.raw.length + 1 ≤ arg
    · rw [if_pos hb] at h; cases h
    · rw [if_neg hb] at h
      obtain rfl := Out.val.inj h
      exact Or.inr ⟨a, rfl, by omega⟩

theorem key_again (hS : Sane cmd) (hA : ∀ n, W.answer n ≠ nothingWord) (h1 : cmd.head? ≠ some '#') (h2 : cmd.head? ≠ some '*') (h3 : cmd.head? ≠ some '&')
    (h : getFullArg W cmd arg s = .val (none, t)) : ∃ K, Again W2 cmd arg s t K := by
  obtain ⟨g1, g2, g3⟩ := hS.2 h1 h2 h3
  rw [key_eq h1 h2 h3] at h
  unfold keyArg at h
  dsimp only at h
  split at h
  · cases h
  rename_i hne
  obtain ⟨s1, hq, h⟩ := bind_inv h
  have hs : s1.full = s.full ∧ s.raw.length ≤ s1.raw.length ∧ (s.raw.length < arg → s1.raw.length = s.raw.length) ∧
      (s1.raw.length ≤ arg → (choices cmd).1.getLastD [] = nothingWord) := by
    by_cases hr : s.raw.length ≤ arg ∧ ((choices cmd).1.getLastD [] ≠ nothingWord ∨ s.query = true)
    · rw [if_pos hr] at hq
      rcases askKey_inv hq with ⟨e, a, ha, hb⟩ | ⟨a, e, hb⟩
      · rw [e]
        refine ⟨rfl, Nat.le_refl _, fun _ => rfl, fun _ => ?_⟩
        rcases hb with ⟨_, hb⟩ | ⟨hl, hb⟩ | hb
        · exact absurd (hb.trans ha) (hA _)
        · exfalso
          have hm : nothingWord ∈ (choices cmd).1 := by
            rw [← ha, ← hb]
            cases hc : (choices cmd).1 with
            | nil => exact absurd hc hne
            | cons x l => simp
          have := g2 hm
          omega
        · exact g3 (ha ▸ hb)
      · rw [e]
        refine ⟨rfl, by simp, fun h => by omega, fun hx => ?_⟩
        simp at hx
        omega
    · rw [if_neg hr] at hq
      obtain rfl := Out.val.inj hq
      refine ⟨rfl, Nat.le_refl _, fun _ => rfl, fun hx => ?_⟩
      exact Classical.byContradiction fun hn => hr ⟨hx, Or.inl hn⟩
  by_cases hr : s1.raw.length ≤ arg
  · rw [if_pos hr] at h
    obtain ⟨rfl, hf, _⟩ := finish_inv h
    refine ⟨nothing3, by rw [← hs.1], hs.2.1, hs.2.2.1, Or.inr ⟨hr, ?_⟩⟩
    intro s2 hf2 hr2 hq2
    rw [key_eq h1 h2 h3]
    unfold keyArg
    dsimp only
    rw [if_neg hne, if_neg (by rintro ⟨_, h | h⟩; exact h (hs.2.2.2 hr); rw [hq2] at h; cases h), Out.bind_val, if_pos hr2, finish_ok hf2 (fun h => by cases h)]
  · rw [if_neg hr] at h
    cases hp : pick (s1.raw.getD arg []) (choices cmd).1 with
    | inr e => rw [hp] at h; cases h
    | inl K =>
      rw [hp] at h
      have h : finish s1 arg K (choices cmd).2 = .val (none, t) := h
      obtain ⟨rfl, hf, _⟩ := finish_inv h
      obtain ⟨k1, k2⟩ := pick_sane g2 hp
      obtain ⟨k3, k4⟩ := g1 K k1
      have k4 := k4.resolve_left k2
      refine ⟨K, by rw [← hs.1], hs.2.1, hs.2.2.1, Or.inl ⟨by show arg < s1.raw.length; omega, ?_⟩⟩
      intro s2 hf2 hr2
      have hl : arg < s2.raw.length := (List.getElem?_eq_some_iff.mp hr2).1
      have hg : s2.raw.getD arg [] = K := by simp [List.getD_eq_getElem?_getD, hr2]
      rw [key_eq h1 h2 h3]
      unfold keyArg
      dsimp only
      rw [if_neg hne, if_neg (by omega), Out.bind_val, if_neg (by omega), hg, pick_again k1 k4]
      show finish s2 arg K _ = _
      rw [finish_ok hf2 (fun h => absurd h k3)]

theorem arg_again (hS : Sane cmd) (hW : W2.opens = W.opens) (hA : ∀ n, W.answer n ≠ nothingWord) (h : getFullArg W cmd arg s = .val (none, t)) : ∃ K, Again W2 cmd arg s t K := by
  by_cases h1 : cmd.head? = some '#'
  · exact num_again h1 h
  by_cases h2 : cmd.head? = some '*' ∨ cmd.head? = some '&'
  · exact any_again hS hW h2 h
  · exact key_again hS hA h1 (fun e => h2 (Or.inl e)) (fun e => h2 (Or.inr e)) h

end MM.Cmdl
