import Verif.Cmdl.Key
/-!
# C77: the arguments of a command, theorems
-/
namespace MM.Cmdl
open MM.Vstr MM.Date

/-- `A|B|<A>` is the text of a list of keywords with a default. -/
structure Menu (ks : List Str) (d : Str) : Prop where
  ne : ks ≠ []
  bars : ∀ k ∈ ks, '|' ∉ k
  dbar : '|' ∉ d
  words : ∀ k ∈ ks, k ≠ []
  key : ∀ k, ks.head? = some k → k.head? ≠ some '#' ∧ k.head? ≠ some '*' ∧ k.head? ≠ some '&'

/-- The choices as they are shown: `$`, which must be the last one, is shown as `nothing`. -/
def shown (ks : List Str) : List Str := if ks.getLastD [] = ['$'] then ks.dropLast ++ [nothingWord] else ks

/-- The default as it is shown. -/
def shownDefault (d : Str) : Str := if d = ['$'] then '<' :: nothingWord ++ ['>'] else '<' :: d ++ ['>']

variable {W : World} {ks : List Str} {d w K : Str} {arg : Nat} {s : St}

theorem choices_menu (h : Menu ks d) : choices (menu ks d) = (shown ks, shownDefault d) := by
  have e1 : (ks ++ ['<' :: d ++ ['>']]).getLastD [] = '<' :: d ++ ['>'] := by simp
  have e2 : (ks ++ ['<' :: d ++ ['>']]).dropLast = ks := by simp
  have e3 : ('<' :: d ++ ['>']).head? = some '<' := rfl
  have e4 : (if '<' :: d ++ ['>'] = ['<', '$', '>'] then '<' :: nothingWord ++ ['>'] else '<' :: d ++ ['>']) = shownDefault d := by
    unfold shownDefault
    by_cases hd : d = ['$']
    · subst hd
      rfl
    · rw [if_neg hd, if_neg]
      intro e
      apply hd
      have : d ++ ['>'] = ['$'] ++ ['>'] := by simpa using e
      exact List.append_cancel_right this
  unfold choices
  dsimp only
  rw [splitBar_menu d h.dbar ks h.bars, e1, e2, if_pos e3, e4]
  rfl

theorem menu_head (h : Menu ks d) : (menu ks d).head? ≠ some '#' ∧ ¬ ((menu ks d).head? = some '*' ∨ (menu ks d).head? = some '&') := by
  have hn := h.ne
  have hw := h.words
  have hk := h.key
  cases ks with
  | nil => exact absurd rfl hn
  | cons k ks =>
    have hk := hk k rfl
    have hw := hw k (by simp)
    cases k with
    | nil => exact absurd rfl hw
    | cons c k =>
      have e : (menu ((c :: k) :: ks) d).head? = (c :: k).head? := by simp [menu]
      rw [e]
      exact ⟨hk.1, fun hx => hx.elim hk.2.1 hk.2.2⟩

theorem shown_ne (h : Menu ks d) : shown ks ≠ [] := by
  unfold shown
  split
  · simp
  · exact h.ne

theorem shown_words (h : Menu ks d) : ∀ k ∈ shown ks, k ≠ [] := by
  unfold shown
  split
  · intro k hk
    rcases List.mem_append.mp hk with hk | hk
    · exact h.words k (List.dropLast_subset _ hk)
    · rw [List.mem_singleton.mp hk]; decide
  · exact h.words

theorem getFullArg_menu (h : Menu ks d) (W : World) (arg : Nat) (s : St) : getFullArg W (menu ks d) arg s = keyArg W (menu ks d) arg s := by
  unfold getFullArg
  rw [if_neg (menu_head h).1, if_neg (menu_head h).2]

theorem given (h : Menu ks d) (hr : s.raw[arg]? = some w) : getFullArg W (menu ks d) arg s = useKey s arg (shownDefault d) (pick w (shown ks)) := by
  have hl : arg < s.raw.length := (List.getElem?_eq_some_iff.mp hr).1
  rw [getFullArg_menu h]
  unfold keyArg
  dsimp only
  rw [choices_menu h, if_neg (shown_ne h), if_neg (by omega)]
  rw [Out.bind_val, if_neg (by omega), show s.raw.getD arg [] = w by simp [List.getD_eq_getElem?_getD, hr]]

/-- What is done with an argument that stands for a keyword. -/
theorem useKey_inl (h : Menu ks d) (hf : s.full.length = arg) (hK : K ∈ shown ks) : useKey s arg (shownDefault d) (.inl K) = .val (none, { s with full := s.full ++ [K] }) := by
  unfold useKey
  show finish s arg K (shownDefault d) = _
  unfold finish
  rw [if_neg (fun hx => shown_words h K hK hx.1), if_neg (by omega)]

theorem pick_mem {cs : List Str} (hw : Clean w) (h : pick w cs = .inl K) : K ∈ cs := ((pick_inl hw cs K).mp h).1

/-- C77: a keyword that was typed is accepted as `K` if and only if it stands for `K` among the choices: in capital or small letters, it is `K` itself or an abbreviation of `K` and of no
other choice. -/
theorem C77_accepted (h : Menu ks d) (hf : s.full.length = arg) (hr : s.raw[arg]? = some w) (hw : Clean w) :
    getFullArg W (menu ks d) arg s = .val (none, { s with full := s.full ++ [K] }) ↔ Stands (shown ks) w K := by
  rw [given h hr, ← pick_inl hw]
  cases hp : pick w (shown ks) with
  | inl L =>
    rw [useKey_inl h hf (pick_mem hw hp)]
    constructor
    · intro e
      have e := congrArg St.full (Prod.mk.inj (Out.val.inj e)).2
      have e := List.append_cancel_left e
      rw [(List.cons.inj e).1]
    · intro e
      rw [Sum.inl.inj e]
  | inr e =>
    constructor
    · intro hx
      have := (Prod.mk.inj (Out.val.inj hx)).1
      cases this
    · intro hx
      cases hx

/-- C77: it is reported as unexpected if and only if no choice begins with it. -/
theorem C77_expected (h : Menu ks d) (hf : s.full.length = arg) (hr : s.raw[arg]? = some w) (hw : Clean w) :
    getFullArg W (menu ks d) arg s = .val (some .expected, s) ↔ ∀ k ∈ shown ks, ¬ capital w <+: k := by
  rw [given h hr, ← pick_expected hw]
  cases hp : pick w (shown ks) with
  | inl L =>
    rw [useKey_inl h hf (pick_mem hw hp)]
    constructor
    · intro hx
      have := (Prod.mk.inj (Out.val.inj hx)).1
      cases this
    · intro hx; cases hx
  | inr e =>
    show Out.val (some e, s) = _ ↔ _
    constructor
    · intro hx
      have := (Prod.mk.inj (Out.val.inj hx)).1
      rw [Option.some.inj this]
    · intro hx
      rw [Sum.inr.inj hx]

/-- C77: it is reported as ambiguous if and only if it is no choice itself and several choices begin with it; the message names exactly those. -/
theorem C77_ambiguous (h : Menu ks d) (hf : s.full.length = arg) (hr : s.raw[arg]? = some w) (hw : Clean w) (l : List Str) :
    getFullArg W (menu ks d) arg s = .val (some (.ambiguous l), s) ↔ capital w ∉ shown ks ∧ 2 ≤ l.length ∧ l = (shown ks).filter fun k => decide (capital w <+: k) := by
  rw [given h hr, ← pick_ambiguous hw]
  cases hp : pick w (shown ks) with
  | inl L =>
    rw [useKey_inl h hf (pick_mem hw hp)]
    constructor
    · intro hx
      have := (Prod.mk.inj (Out.val.inj hx)).1
      cases this
    · intro hx; cases hx
  | inr e =>
    show Out.val (some e, s) = _ ↔ _
    constructor
    · intro hx
      have := (Prod.mk.inj (Out.val.inj hx)).1
      rw [Option.some.inj this]
    · intro hx
      rw [Sum.inr.inj hx]

/-- C77: these are the only outcomes: an argument that was typed never leads to a question, a crash or an internal error. -/
theorem C77_outcomes (h : Menu ks d) (hf : s.full.length = arg) (hr : s.raw[arg]? = some w) (hw : Clean w) :
    (∃ K, getFullArg W (menu ks d) arg s = .val (none, { s with full := s.full ++ [K] })) ∨ getFullArg W (menu ks d) arg s = .val (some .expected, s) ∨
      ∃ l, getFullArg W (menu ks d) arg s = .val (some (.ambiguous l), s) := by
  rw [given h hr]
  cases hp : pick w (shown ks) with
  | inl L => exact Or.inl ⟨L, useKey_inl h hf (pick_mem hw hp)⟩
  | inr e =>
    unfold pick at hp
    dsimp only at hp
    split at hp
    · obtain rfl := Sum.inr.inj hp
      exact Or.inr (Or.inl rfl)
    · split at hp
      · obtain rfl := Sum.inr.inj hp
        exact Or.inr (Or.inr ⟨_, rfl⟩)
      · cases hp

/-- C77: a command may end where the last choice is `$`: nothing is asked (unless something was asked before), and no argument is added to the command line. -/
theorem C77_nothing (h : Menu ks d) (hf : s.full.length = arg) (hr : s.raw.length ≤ arg) (hq : s.query = false) (hl : ks.getLastD [] = ['$']) :
    getFullArg W (menu ks d) arg s = .val (none, { s with full := s.full ++ [nothing3] }) := by
  rw [getFullArg_menu h]
  unfold keyArg
  dsimp only
  have e : (shown ks).getLastD [] = nothingWord := by unfold shown; rw [if_pos hl]; simp
  rw [choices_menu h, if_neg (shown_ne h), e, if_neg (by rw [hq]; rintro ⟨_, h | h⟩; exact h rfl; cases h), Out.bind_val, if_pos hr]
  unfold finish
  rw [if_neg (by rintro ⟨h, _⟩; cases h), if_neg (by omega)]

theorem unbracket_default (d : Str) : unbracket ('<' :: d ++ ['>']) = .val d := by
  have h := seg_mid d
  exact h
where
  seg_mid (d : Str) : seg ('<' :: d ++ ['>']) 2 (((('<' :: d ++ ['>']).length : Nat) : Int) - 1) = .val d := by
    have hl : ('<' :: d ++ ['>']).length = d.length + 2 := by simp
    rw [C25_seg, if_neg (by rw [hl]; omega), chars_eq _ _ (by omega), hl, show ((2 : Int) - 1).toNat = 1 by rfl, show ((((d.length + 2 : Nat) : Int) - 1 - 2 + 1).toNat) = d.length by omega]
    simp

/-- C77: if an argument is missing and there are several choices, the user is asked, and the answer counts as if it had been typed; if it is empty, the default does. -/
theorem C77_question (h : Menu ks d) (hr : s.raw.length = arg) (hm : ks.getLastD [] ≠ ['$'] ∨ s.query = true) (hn : nothingWord ∉ ks) (h2 : 2 ≤ ks.length) (hd : d ≠ ['$'])
    {a : Str} (ha : a = if W.answer s.asked = [] then d else W.answer s.asked) (hx : a ≠ nothingWord) :
    getFullArg W (menu ks d) arg s = getFullArg W (menu ks d) arg { s with raw := s.raw ++ [a], query := true, asked := s.asked + 1 } := by
  have hlen : (shown ks).length ≠ 1 := by
    unfold shown
    split
    · simp; omega
    · omega
  rw [given (w := a) h (s := { s with raw := s.raw ++ [a], query := true, asked := s.asked + 1 }) (by simp [← hr]), getFullArg_menu h]
  unfold keyArg
  dsimp only
  have hc : s.raw.length ≤ arg ∧ ((shown ks).getLastD [] ≠ nothingWord ∨ s.query = true) := by
    refine ⟨by omega, hm.imp ?_ id⟩
    intro hm e
    unfold shown at e
    rw [if_neg hm] at e
    apply hn
    rw [← e]
    have := h.ne
    rw [List.getLastD_eq_getLast?, List.getLast?_eq_some_getLast this]
    exact List.getLast_mem this
  rw [choices_menu h, if_neg (shown_ne h), if_pos hc]
  have ha' : askKey W (menu ks d) (shown ks) (shownDefault d) arg s = .val { s with raw := s.raw ++ [a], query := true, asked := s.asked + 1 } := by
    unfold askKey
    dsimp only
    rw [if_pos hlen, if_pos hlen]
    have e : (if W.answer s.asked = [] then unbracket (shownDefault d) else .val (W.answer s.asked)) = .val a := by
      rw [ha]
      unfold shownDefault
      rw [if_neg hd]
      split
      · exact unbracket_default d
      · rfl
    rw [e, Out.bind_val, if_neg hx, if_neg (by omega)]
  rw [ha', Out.bind_val, if_neg (by simp; omega)]
  congr 2
  simp [List.getD_eq_getElem?_getD, ← hr]

/-! ### Numbers -/

theorem digitChar_sub {c : Char} (h : c.isDigit = true) : Nat.digitChar (c.toNat - 48) = c := by
  obtain ⟨h1, h2⟩ := digit_range h
  have : ∀ n : Fin 10, Nat.digitChar n.1 = Char.ofNat (n.1 + 48) := by decide
  have := this ⟨c.toNat - 48, by omega⟩
  rw [this]
  show Char.ofNat (c.toNat - 48 + 48) = c
  rw [show c.toNat - 48 + 48 = c.toNat by omega]
  exact Char.ofNat_toNat c

/-- A number is its digits, with zeros in front. -/
theorem digits_zeros : ∀ (l : List Char) (n : Nat), l.length = n + 1 → Digits l → ∃ k, l = List.replicate k '0' ++ Nat.toDigits 10 (decimal l)
  | l, n, hl, h => by
    obtain ⟨m, c, rfl⟩ : ∃ m c, l = m ++ [c] := ⟨l.dropLast, l.getLast (by rintro rfl; simp at hl), (List.dropLast_concat_getLast _).symm⟩
    have hc := h c (by simp)
    obtain ⟨r1, r2⟩ := digit_range hc
    have hone : Nat.toDigits 10 (c.toNat - 48) = [c] := by rw [Nat.toDigits_of_lt_base (by omega), digitChar_sub hc]
    rw [decimal_snoc]
    cases n with
    | zero =>
      have : m = [] := by simpa using hl
      subst this
      refine ⟨0, ?_⟩
      have hd : decimal [] = 0 := rfl
      rw [hd, show 10 * 0 + (c.toNat - 48) = c.toNat - 48 by omega, hone]
      rfl
    | succ n =>
      obtain ⟨k, hk⟩ := digits_zeros m n (by simpa using hl) fun x hx => h x (by simp [hx])
      by_cases h0 : decimal m = 0
      · rw [h0] at hk ⊢
        refine ⟨k + 1, ?_⟩
        rw [show 10 * 0 + (c.toNat - 48) = c.toNat - 48 by omega, hone, hk]
        have : Nat.toDigits 10 0 = ['0'] := by decide
        rw [this, List.replicate_succ']
      · refine ⟨k, ?_⟩
        rw [← Nat.toDigits_append_toDigits (by omega) (by omega) (by omega), hone, ← List.append_assoc, ← hk]

theorem str_int (v : Int) : str v = (if v < 0 then ['-'] else []) ++ Nat.toDigits 10 v.natAbs := by
  unfold str
  dsimp only
  generalize (if v < 0 then ['-'] else []) ++ Nat.toDigits 10 v.natAbs = t
  have hl : (t ++ ".000000".toList).length - 1 = t.length + 6 := by simp
  have hg : ∀ i, (t ++ ".000000".toList)[t.length + i]? = ".000000".toList[i]? := by
    intro i; rw [List.getElem?_append_right (by omega)]; congr 1; omega
  have g : ∀ i, i < 7 → stripAt (t ++ ".000000".toList) (t.length + i) = t.length ∨ (i = 0) := by
    intro i hi
    induction i with
    | zero => exact Or.inr rfl
    | succ i ih =>
      left
      rw [← Nat.add_assoc, stripAt]
      have : (t ++ ".000000".toList)[t.length + i + 1]? = some '0' := by
        rw [Nat.add_assoc, hg]
        have : ∀ i : Fin 6, ".000000".toList[i.1 + 1]? = some '0' := by decide
        exact this ⟨i, by omega⟩
      rw [if_neg (by rw [this]; simp)]
      rcases ih (by omega) with h | h
      · exact h
      · subst h
        rw [Nat.add_zero]
        cases ht : t.length with
        | zero => rfl
        | succ k =>
          rw [stripAt, ← ht]
          have h0 := hg 0
          rw [Nat.add_zero] at h0
          rw [h0, if_pos (by decide)]
  rw [hl]
  rcases g 6 (by decide) with h | h
  · rw [h]
    have h0 := hg 0
    rw [Nat.add_zero] at h0
    rw [h0, if_pos (by decide), List.take_left]
  · cases h

theorem str_ne (v : Int) : str v ≠ [] := by
  rw [str_int]
  intro h
  have := (List.append_eq_nil_iff.mp h).2
  exact absurd this (by
    intro h0
    have := Nat.length_toDigits_pos (b := 10) (n := v.natAbs)
    rw [h0] at this
    simp at this)

/-- `cmd` is the text of a number argument: `# question <default>? `. -/
def IsNum (cmd : Str) : Prop := cmd.head? = some '#'

theorem getFullArg_num {cmd : Str} (h : IsNum cmd) : getFullArg W cmd arg s = numArg W cmd arg s := by
  unfold getFullArg
  exact if_pos h

theorem instr_le (cmd : Str) (c : Char) : instr 1 cmd [c] ≤ cmd.length := by
  rcases C26_instr 1 cmd [c] (by simp) with ⟨h, _⟩ | ⟨_, ⟨a, b, h1, h2⟩, _⟩
  · omega
  · have := congrArg List.length h1
    simp at this
    omega

theorem defaultOf_val (cmd : Str) : ∃ d, defaultOf cmd = .val d := by
  unfold defaultOf
  have := instr_le cmd '<'
  rw [C25_seg, if_neg (by omega)]
  exact ⟨_, rfl⟩

theorem num_given {cmd a : Str} (h : IsNum cmd) (hr : s.raw[arg]? = some a) (ha : a ≠ []) : ∃ d, getFullArg W cmd arg s = (val a >>= fun v =>
    if string ((a.length : Int) - (str v).length) '0' ++ str v ≠ a then .val (some .number, s) else finish s arg (str v) d) := by
  obtain ⟨d, hd⟩ := defaultOf_val cmd
  have hl : arg < s.raw.length := (List.getElem?_eq_some_iff.mp hr).1
  have hg : s.raw.getD arg [] = a := by simp [List.getD_eq_getElem?_getD, hr]
  refine ⟨d, ?_⟩
  rw [getFullArg_num h]
  unfold numArg
  rw [hd, Out.bind_val, if_neg (by omega), Out.bind_val, hg, if_neg ha, Out.bind_val]

theorem finish_ne {kw : Str} (hf : s.full.length = arg) (h : kw ≠ []) : finish s arg kw d = .val (none, { s with full := s.full ++ [kw] }) := by
  unfold finish
  rw [if_neg (fun hx => h hx.1), if_neg (by omega)]

/-- C77: where a number is expected, a sequence of up to 15 digits is accepted, and its zeros in front are dropped. -/
theorem C77_number {cmd a : Str} (h : IsNum cmd) (hf : s.full.length = arg) (hr : s.raw[arg]? = some a) (ha : a ≠ []) (hd : Digits a) (hl : a.length ≤ 15) :
    getFullArg W cmd arg s = .val (none, { s with full := s.full ++ [Nat.toDigits 10 (decimal a)] }) := by
  obtain ⟨d, e⟩ := num_given (W := W) h hr ha
  obtain ⟨k, hk⟩ := digits_zeros a (a.length - 1) (by have := List.length_pos_of_ne_nil ha; omega) hd
  rw [e, val_digits hd hl, Out.bind_val, str_nat]
  have hn : ((a.length : Int) - (Nat.toDigits 10 (decimal a)).length).toNat = k := by
    have := congrArg List.length hk
    rw [List.length_append, List.length_replicate] at this
    omega
  have hz : string ((a.length : Int) - (Nat.toDigits 10 (decimal a)).length) '0' = List.replicate k '0' := by unfold string; rw [hn]
  rw [hz, if_neg (fun hx => hx hk.symm), finish_ne hf]
  rw [← str_nat]
  exact str_ne _

/-- C77 (partial; the property asks for a non-negative number): what is accepted is zeros and then an integer in decimal notation, perhaps with a minus sign before it. -/
theorem C77_only_numbers_partial {cmd a : Str} (h : IsNum cmd) (hr : s.raw[arg]? = some a) (ha : a ≠ []) {t : St} (hx : getFullArg W cmd arg s = .val (none, t)) :
    ∃ k n : Nat, (a = List.replicate k '0' ++ Nat.toDigits 10 n ∧ t.full = s.full ++ [Nat.toDigits 10 n]) ∨
      (a = List.replicate k '0' ++ '-' :: Nat.toDigits 10 n ∧ t.full = s.full ++ ['-' :: Nat.toDigits 10 n]) := by
  obtain ⟨d, e⟩ := num_given (W := W) h hr ha
  rw [e] at hx
  cases hv : val a with
  | val v =>
    rw [hv, Out.bind_val] at hx
    by_cases hc : string ((a.length : Int) - (str v).length) '0' ++ str v ≠ a
    · rw [if_pos hc] at hx
      cases hx
    · rw [if_neg hc] at hx
      have hc := Classical.not_not.mp hc
      have ht : t.full = s.full ++ [str v] := by
        unfold finish at hx
        rw [if_neg (fun hy => str_ne v hy.1)] at hx
        split at hx
        · cases hx
        · rw [← (Prod.mk.inj (Out.val.inj hx)).2]
      refine ⟨((a.length : Int) - (str v).length).toNat, v.natAbs, ?_⟩
      have hs := str_int v
      by_cases hn : v < 0
      · rw [if_pos hn] at hs
        right
        rw [hs] at ht
        refine ⟨?_, ht⟩
        have hc := hc.symm
        unfold string at hc
        generalize ((a.length : Int) - (str v).length).toNat = k at hc ⊢
        rw [hc, hs]
        rfl
      · rw [if_neg hn] at hs
        left
        rw [hs] at ht
        refine ⟨?_, ht⟩
        have hc := hc.symm
        unfold string at hc
        generalize ((a.length : Int) - (str v).length).toNat = k at hc ⊢
        rw [hc, hs]
        rfl
  | ub => rw [hv] at hx; cases hx
  | bug k => rw [hv] at hx; cases hx
  | fuel => rw [hv] at hx; cases hx

/-! ### Examples -/

def exWorld : World := ⟨fun _ => [], fun _ => true⟩

def shKeys : List Str := ["SHOW".toList, "SEARCH".toList, "SAVE".toList, "SET".toList, "SUBMIT".toList]

theorem shMenu : Menu shKeys "SHOW".toList := ⟨by decide, by decide, by decide, by decide, by decide⟩

/-- `sh` stands for SHOW, `SE` for nothing. -/
example : Stands (shown shKeys) "sh".toList "SHOW".toList := ((C77_accepted (W := exWorld) (arg := 0) (s := ⟨["sh".toList], [], false, 0⟩) shMenu rfl rfl (by unfold Clean; decide)).mp (by decide +kernel))
example : getFullArg exWorld (menu shKeys "SHOW".toList) 0 ⟨["se".toList], [], false, 0⟩ = .val (some (.ambiguous ["SEARCH".toList, "SET".toList]), ⟨["se".toList], [], false, 0⟩) :=
  (C77_ambiguous (w := "se".toList) shMenu rfl rfl (by unfold Clean; decide) _).mpr ⟨by decide, by decide, by decide⟩
example : getFullArg exWorld (menu shKeys "SHOW".toList) 0 ⟨["prove".toList], [], false, 0⟩ = .val (some .expected, ⟨["prove".toList], [], false, 0⟩) :=
  (C77_expected (w := "prove".toList) shMenu rfl rfl (by unfold Clean; decide)).mpr (by decide)

/-- A negative number is accepted where "a non-negative integer" is expected (mmcmdl.c 1659): `SET WIDTH -5`, and even `0-5`. -/
theorem C77_negative_accepted : getFullArg exWorld "# What is the new value <79>? ".toList 2 ⟨["SET".toList, "WIDTH".toList, "-5".toList], ["SET".toList, "WIDTH".toList], false, 0⟩ =
      .val (none, ⟨["SET".toList, "WIDTH".toList, "-5".toList], ["SET".toList, "WIDTH".toList, "-5".toList], false, 0⟩) ∧
    getFullArg exWorld "# What is the new value <79>? ".toList 2 ⟨["SET".toList, "WIDTH".toList, "0-5".toList], ["SET".toList, "WIDTH".toList], false, 0⟩ =
      .val (none, ⟨["SET".toList, "WIDTH".toList, "0-5".toList], ["SET".toList, "WIDTH".toList, "-5".toList], false, 0⟩) := ⟨by decide +kernel, by decide +kernel⟩

end MM.Cmdl
