import Verif.Fmt.Label
import Verif.Long.Main
/-!
# The label section of `$a` and `$p` after formatting
-/
namespace MM.Fmt
open MM.Veri MM.Pars MM.Lex MM.Vstr MM.Long MM.Write MM.Incl

/-! ### Printing the comment -/

theorem wrapped_mem {c : Cfg} {W : Int} {next : Str} (ht : c.tilde = false) {first : Bool} {line : Str} {ls : List Str} (h : Wrapped c W next first line ls) :
    ∀ l ∈ ls, ∀ d ∈ l, d ∈ line ∨ d ∈ next ∨ d = ' ' := by
  have hind : ∀ {first : Bool} {line i : Str}, Ind c W next first line i → ∀ d ∈ i, d ∈ next ∨ d = ' ' := by
    intro first line i hi d hd
    unfold Ind at hi
    split at hi
    · rw [hi] at hd; cases hd
    · rcases hi with ⟨hi, _⟩ | ⟨k, n, _, _, hi⟩
      · rw [hi] at hd; cases hd
      · rw [hi] at hd
        rcases List.mem_append.1 hd with h | h
        · exact Or.inl (List.mem_of_mem_take h)
        · exact Or.inr (List.eq_of_mem_replicate h)
  induction h with
  | last hi =>
    intro l hl d hd
    simp at hl
    subst hl
    rcases List.mem_append.1 hd with h | h
    · exact Or.inr (hind hi d h)
    · exact Or.inl h
  | @more first a g b i ls hi hg _ ih =>
    intro l hl d hd
    rcases List.mem_cons.1 hl with rfl | hl
    · rw [ht] at hd
      simp at hd
      rcases hd with h | h
      · exact Or.inr (hind hi d h)
      · left; simp [h]
    · rcases ih l hl d hd with h | h
      · left; simp [h]
      · exact Or.inr h

theorem linesOf_mem : ∀ {s : Str}, ∀ l ∈ linesOf s, ∀ d ∈ l, d ∈ s
  | [], l, hl, _, _ => by cases hl
  | c :: t, l, hl, d, hd => by
    have ih := linesOf_mem (s := t)
    unfold linesOf at hl
    by_cases h : c = '\n'
    · rw [if_pos h] at hl
      rcases List.mem_cons.1 hl with rfl | hl
      · cases hd
      · exact List.mem_cons_of_mem _ (ih l hl d hd)
    · rw [if_neg h] at hl
      cases hls : linesOf t with
      | nil => rw [hls] at hl; simp at hl; subst hl; simp at hd; simp [hd]
      | cons x xs =>
        rw [hls] at hl ih
        rcases List.mem_cons.1 hl with rfl | hl
        · rcases List.mem_cons.1 hd with rfl | hd
          · simp
          · exact List.mem_cons_of_mem _ (ih x (by simp) d hd)
        · exact List.mem_cons_of_mem _ (ih l (by simp [hl]) d hd)

theorem print_ok {W : Int} (hW : 5 ≤ W) (n : Nat) {line : Str} (hne : line ≠ []) (hnul : NUL ∉ line) :
    ∃ ls, printLongLine W line (space n) [' '] = .val ls ∧ words (printed ls) = words line ∧ (∀ c ∈ printed ls, c ∈ line ∨ c = ' ' ∨ c = '\n') ∧ EndsGap (printed ls) := by
  have hw : White (space n) := fun d hd => by rw [List.eq_of_mem_replicate hd]; decide
  obtain ⟨ls, h1, h2⟩ := C61_words words_fn (width := W) (line := line) (next := space n) (bm := [' ']) (by simp) hnul hw hW
  have hnh : (space n).head? ≠ some '~' := by
    cases n with
    | zero => simp [space]
    | succ n => simp [space, List.replicate_succ]
  obtain ⟨lss, h3, h4⟩ := C61_wrapped (width := W) (line := line) (next := space n) (bm := [' ']) (by simp [modes]) (by simp) hnul (by rintro ⟨h, _⟩; exact hnh h) hW hne
  have hls : ls = lss.flatten.map unquote := Out.val.inj (h1.symm.trans h3)
  have hnext : nextOf (space n) = space n := by unfold nextOf; rw [if_neg hnh]
  have hsh : shown [' '] line = line := rfl
  rw [hnext, hsh] at h4
  refine ⟨ls, h1, h2, ?_, ?_⟩
  · intro c hc
    unfold printed at hc
    rw [List.mem_flatMap] at hc
    obtain ⟨l, hl, hc⟩ := hc
    rcases List.mem_append.1 hc with hc | hc
    · rw [hls, List.mem_map] at hl
      obtain ⟨l', hl', rfl⟩ := hl
      rw [List.mem_flatten] at hl'
      obtain ⟨xs, hxs, hl'⟩ := hl'
      unfold unquote at hc
      rw [List.mem_map] at hc
      obtain ⟨d, hd, rfl⟩ := hc
      by_cases hq : d = QSP
      · rw [if_pos hq]; exact Or.inr (Or.inl rfl)
      · rw [if_neg hq]
        obtain ⟨l0, hl0, hw0⟩ : ∃ l0 ∈ linesOf line, Wrapped (cfgOf (space n) [' ']) W (space n) true l0 xs := by
          clear h3 h1 h2 hls
          revert hxs
          generalize linesOf line = lns at h4
          induction h4 with
          | nil => intro h; cases h
          | @cons a b as bs hab _ ih =>
            intro h
            rcases List.mem_cons.1 h with rfl | h
            · exact ⟨a, by simp, hab.1⟩
            · obtain ⟨l0, g1, g2⟩ := ih h
              exact ⟨l0, by simp [g1], g2⟩
        rcases wrapped_mem (by unfold cfgOf; simp [hnh]) hw0 l' hl' d hd with h | h | h
        · exact Or.inl (linesOf_mem l0 hl0 d h)
        · exact Or.inr (Or.inl (List.eq_of_mem_replicate h))
        · exact Or.inr (Or.inl h)
    · simp at hc; exact Or.inr (Or.inr hc)
  · by_cases hl : ls = []
    · subst hl; exact fun c hc => by cases hc
    · obtain ⟨xs, x, rfl⟩ : ∃ xs x, ls = xs ++ [x] := ⟨ls.dropLast, ls.getLast hl, (List.dropLast_append_getLast hl).symm⟩
      unfold printed
      rw [List.flatMap_append, List.flatMap_cons, List.flatMap_nil, List.append_nil, ← List.append_assoc]
      exact endsGap_append (endsGap_gap (by decide)) (by simp)

theorem indentLoop_ok (ind : Nat) : ∀ (n pos : Nat) (s : Str), (s.drop pos).count '\n' < n → ∃ t, indentLoop ind n pos s = .val t ∧ Re s t
  | 0, _, _, h => by omega
  | n + 1, pos, s, h => by
    rw [indentLoop]
    rcases C26_instr ((pos : Int) + 1) s ['\n'] (by simp) with ⟨h2, _⟩ | ⟨h2, ⟨a, r, e1, e2⟩, _⟩
    · rw [if_pos h2]; exact ⟨s, rfl, .refl _⟩
    · generalize instr ((pos : Int) + 1) s ['\n'] = q at *
      rw [if_neg (by omega)]
      have e3 : s.drop q = r := by rw [e1, e2]; exact drop_at _ _ _ (by simp)
      have e4 : s.take q = a ++ ['\n'] := by rw [e1, e2]; exact take_at _ _ _ (by simp)
      rw [e3]
      obtain ⟨sp, b, hsp, hr, hall⟩ : ∃ sp b : Str, r.takeWhile (· == ' ') = sp ∧ r = sp ++ b ∧ ∀ c ∈ sp, c = ' ' :=
        ⟨_, r.dropWhile (· == ' '), rfl, (List.takeWhile_append_dropWhile).symm, fun c hc => by simpa using List.mem_takeWhile_imp hc⟩
      rw [hsp]
      dsimp only
      have hl : s.length = q + sp.length + b.length := by rw [e1, e2, hr]; simp; omega
      obtain ⟨d, hd⟩ := ch_le (s := s) (i := q + sp.length) (by omega)
      have e5 : s.drop (q + sp.length) = b := by rw [e1, e2, hr, ← List.append_assoc]; exact drop_at _ _ _ (by simp; omega)
      rw [hd, Out.bind_val, left_nat q rfl, Out.bind_val, right_nat (q + sp.length) (by omega), Out.bind_val, e4, e5]
      obtain ⟨X, hX, hXall⟩ : ∃ X : Str, (if d ≠ '\n' then space ind else []) = X ∧ ∀ c ∈ X, c = ' ' := by
        refine ⟨_, rfl, ?_⟩
        split
        · exact fun c hc => List.eq_of_mem_replicate hc
        · exact fun c hc => by cases hc
      rw [hX]
      have hcnt : ∀ z : Str, (∀ c ∈ z, c = ' ') → z.count '\n' = 0 := fun z hz => List.count_eq_zero.2 fun hm => by have := hz _ hm; cases this
      obtain ⟨t, g1, g2⟩ := indentLoop_ok ind n q (a ++ ['\n'] ++ X ++ b) (by
        rw [List.append_assoc (a ++ ['\n']) X b, drop_at (a ++ ['\n']) _ q (by simp; omega), List.count_append, hcnt X hXall]
        have : s.drop pos = a.drop pos ++ ('\n' :: r) := by
          rw [e1, List.append_assoc, List.drop_append, show pos - a.length = 0 by omega]
          rfl
        rw [this, List.count_append, List.count_cons_self, hr, List.count_append, hcnt sp hall] at h
        omega)
      refine ⟨t, g1, .trans ?_ g2⟩
      have := Re.step a ('\n' :: sp) ('\n' :: X) b (fun c hc => by rcases List.mem_cons.1 hc with rfl | h; rfl; rw [hall c h]; rfl)
        (fun c hc => by rcases List.mem_cons.1 hc with rfl | h; left; simp; right; exact hXall c h) (by simp) (by simp) (by simp)
      rw [e1, hr]
      simpa using this

theorem restore_id {s : Str} (h : A4 ∉ s) : restore s = s := by
  unfold restore
  apply List.ext_getElem
  · simp
  · intro i h1 h2
    rw [List.getElem_mapIdx]
    rw [if_neg]
    rintro ⟨_, _, e⟩
    exact h (by rw [← e]; exact List.getElem_mem _)

theorem a4_legal {s : Str} (h : Legal s) : A4 ∉ s := fun hm => by rcases h _ hm with h | h <;> revert h <;> decide

theorem nul_legal {s : Str} (h : Legal s) : NUL ∉ s := fun hm => by rcases h _ hm with h | h <;> revert h <;> decide

/-- A comment in the output. -/
structure ComOk (C : Str) : Prop where
  legal : Legal C
  stop : EndsGap C
  toks : uncomment false (words C) = some []

theorem wrap_format (f : FCfg) (hW : 5 ≤ f.width) (hr : f.rewrap = false) (indent : Nat) {c : Str} (hne : c ≠ []) (hl : Legal c) :
    ∃ C, wrapComment f indent c = .val C ∧ words C = words c ∧ Legal C ∧ EndsGap C ∧ ('\r' ∉ c → '\r' ∉ C) := by
  unfold wrapComment
  rw [hr, if_neg (by simp), Out.bind_val]
  obtain ⟨t, e1, r1⟩ := indentLoop_ok (indent + 3) (c.length + 1) 0 c (by have := List.count_le_length (a := '\n') (l := c); simp; omega)
  have hlt := r1.legal hl
  have hl2 : Legal (space indent ++ t) := by
    intro d hd
    rcases List.mem_append.1 hd with h | h
    · exact Or.inr (space_space _ d h)
    · exact hlt d h
  have htn : t ≠ [] := fun h => hne (r1.nil_iff.2 h)
  obtain ⟨ls, e2, e3, e4, e5⟩ := print_ok hW (indent + 3) (line := space indent ++ t) (by simp [htn]) (nul_legal hl2)
  have hlp : Legal (printed ls) := by
    intro d hd
    rcases e4 d hd with h | rfl | rfl
    · exact hl2 d h
    · exact Or.inr rfl
    · exact Or.inr rfl
  rw [e1, Out.bind_val, e2, Out.bind_val, restore_id (a4_legal hlp)]
  refine ⟨_, rfl, ?_, hlp, e5, ?_⟩
  · rw [e3, words_app (Or.inl (endsGap_gap (space_space _))), words_gap fun c hc => space_graph (space_space _ c hc), List.nil_append, r1.words]
  · intro hcr hm
    rcases e4 _ hm with h | h | h
    · rcases List.mem_append.1 h with h | h
      · exact space_cr _ h
      · rcases r1.mem h with h | h
        · exact hcr h
        · cases h
    · cases h
    · cases h

/-! ### The last comment -/

theorem rinstr_last {p x r s : Str} (hx : x ≠ []) (e : s = p ++ x ++ r) (h : ∀ a b, s = a ++ x ++ b → a.length ≤ p.length) : rinstr (s.length + 1) s x = .val (p.length + 1) := by
  obtain ⟨k, h1, h2⟩ := C26_rinstr s x hx
  rw [h1 _ (by omega)]
  congr 1
  rcases h2 with ⟨_, h3⟩ | ⟨⟨a, b, h2, h3⟩, h4⟩
  · exact absurd ⟨p, r, e, rfl⟩ (h3 (p.length + 1))
  · have := h4 (p.length + 1) ⟨p, r, e, rfl⟩
    have := h a b h2
    omega

theorem last_open {p m q : Str} (hm : ¬ ['$', '('] <:+: m) (hq : '$' ∉ q) : ∀ a b, p ++ ['$', '('] ++ (m ++ '$' :: ')' :: q) = a ++ ['$', '('] ++ b → a.length ≤ p.length := by
  intro a b h
  refine Classical.byContradiction fun hlt => ?_
  rw [List.append_assoc, List.append_assoc] at h
  rcases List.append_eq_append_iff.1 h with ⟨x, e1, e2⟩ | ⟨x, e1, e2⟩
  · cases x with
    | nil => simp at e1; rw [e1] at hlt; omega
    | cons d x =>
      simp at e2
      obtain ⟨_, e2⟩ := e2
      cases x with
      | nil => simp at e2
      | cons d2 x =>
        simp at e2
        obtain ⟨_, e2⟩ := e2
        rcases List.append_eq_append_iff.1 e2 with ⟨y, e3, e4⟩ | ⟨y, e3, e4⟩
        · cases y with
          | nil => simp at e4
          | cons d3 y =>
            simp at e4
            obtain ⟨_, e4⟩ := e4
            cases y with
            | nil => simp at e4
            | cons d4 y =>
              simp at e4
              exact hq (by rw [e4.2]; simp)
        · cases y with
          | nil => simp at e4
          | cons d3 y =>
            cases y with
            | nil => simp at e4
            | cons d4 y =>
              simp at e4
              obtain ⟨rfl, rfl, _⟩ := e4
              exact hm ⟨x, y, by rw [e3]; simp⟩
  · have := congrArg List.length e1
    simp at this
    omega

theorem last_close {p q : Str} (hq : '$' ∉ q) : ∀ a b, p ++ ['$', ')'] ++ q = a ++ ['$', ')'] ++ b → a.length ≤ p.length := by
  intro a b h
  refine Classical.byContradiction fun hlt => ?_
  rw [List.append_assoc, List.append_assoc] at h
  rcases List.append_eq_append_iff.1 h with ⟨x, e1, e2⟩ | ⟨x, e1, e2⟩
  · cases x with
    | nil => simp at e1; rw [e1] at hlt; omega
    | cons d x =>
      simp at e2
      obtain ⟨_, e2⟩ := e2
      cases x with
      | nil => simp at e2
      | cons d2 x =>
        simp at e2
        exact hq (by rw [e2.2]; simp)
  · have := congrArg List.length e1
    simp at this
    omega

/-- A comment with this text. -/
def com (m : Str) : Str := '$' :: '(' :: (m ++ ['$', ')'])

theorem split_com {p m q : Str} (hm : ¬ ['$', '('] <:+: m) (hq : '$' ∉ q) : splitComment (p ++ com m ++ q) = .val (p, com m) := by
  have e1 : p ++ com m ++ q = p ++ ['$', '('] ++ (m ++ '$' :: ')' :: q) := by simp [com]
  have e2 : p ++ com m ++ q = (p ++ ['$', '('] ++ m) ++ ['$', ')'] ++ q := by simp [com]
  have r1 := rinstr_last (s := p ++ com m ++ q) (by simp) e1 (by rw [e1]; exact last_open hm hq)
  have r2 := rinstr_last (s := p ++ com m ++ q) (by simp) e2 (by rw [e2]; exact last_close hq)
  unfold splitComment
  rw [r1, Out.bind_val, r2, Out.bind_val, if_neg (by simp; omega), if_pos (by omega)]
  have hseg : seg (p ++ com m ++ q) ((p.length + 1 : Nat) : Int) ((((p ++ ['$', '('] ++ m).length + 1 : Nat) : Int) + 1) = .val (com m) := by
    rw [C25_seg, if_neg (by simp [com]; omega), chars_eq _ _ (by omega)]
    congr 1
    rw [show ((((p.length + 1 : Nat) : Int)) - 1).toNat = p.length by omega, List.append_assoc p (com m) q, drop_at p _ _ rfl]
    refine take_at _ _ _ ?_
    simp [com]
    omega
  rw [hseg, Out.bind_val, left_nat p.length (by omega), Out.bind_val, List.append_assoc, take_at p _ _ rfl]

theorem split_none {lab : Str} (h : ¬ ['$', '('] <:+: lab) : splitComment lab = .val ([], "$( PLEASE PUT DESCRIPTION HERE. $)".toList) := by
  obtain ⟨k, h1, h2⟩ := C26_rinstr lab ['$', '('] (by simp)
  have hk : k = 0 := by
    rcases h2 with h2 | ⟨⟨a, b, e, _⟩, _⟩
    · exact h2.1
    · exact absurd ⟨a, b, e.symm⟩ h
  subst hk
  obtain ⟨k2, h3, _⟩ := C26_rinstr lab ['$', ')'] (by simp)
  unfold splitComment
  rw [h1 _ (by omega), Out.bind_val, h3 _ (by omega), Out.bind_val, if_neg (by omega), if_neg (by simp), Out.bind_val, left_eq, Out.bind_val]
  rfl

/-! ### `$a` and `$p` -/

/-- The label of a `$a` or `$p` is the last word, it follows a comment, and the comment starts on a line of its own unless it contains `<HTML>`; or there is no
comment at all. -/
def AssertConv (name lab : Str) : Prop := ¬ ['$', '('] <:+: lab ∨
  ∃ p m q ws, lab = p ++ com m ++ (q ++ name ++ ws) ∧ ¬ ['$', '('] <:+: m ∧ ¬ ['$', ')'] <:+: m ∧ (∀ c ∈ q, isGraph c = false) ∧ (∀ c ∈ ws, isGraph c = false) ∧
    (OwnLine p ∨ htmlTag <:+: com m)

theorem infix_words {x s t : Str} (hx : ∀ c ∈ x, isGraph c = true) (hne : x ≠ []) (hw : words t = words s) (h : x <:+: t) : x <:+: s := by
  obtain ⟨w, h1, h2⟩ := graph_infix hx hne h
  rw [hw] at h1
  exact h2.trans (mem_words_infix _ s (Nat.le_refl _) w h1)

theorem words_com {m : Str} (h1 : AtGap m) (h2 : EndsGap m) (hne : m ≠ []) : words (com m) = ['$', '('] :: (words m ++ [['$', ')']]) := by
  unfold com
  rw [words_mark (by decide), words_app (Or.inl h2), words_mark (t := []) (by decide) (fun c hc => by cases hc), words_nil]
  intro c hc
  cases m with
  | nil => exact absurd rfl hne
  | cons d m => exact h1 c (by simpa using hc)

theorem Re.com {m m' : Str} (h : Re m m') : Re (com m) (com m') := by
  have : ∀ {s t : Str}, Re s t → ∀ z, Re (s ++ z) (t ++ z) := by
    intro s t h z
    induction h with
    | refl => exact .refl _
    | step x g g' y h1 h2 h3 h4 h5 => have := Re.step x g g' (y ++ z) h1 h2 h3 h4 h5; simpa using this
    | trans _ _ i1 i2 => exact i1.trans i2
  exact (this h _).left ['$', '(']

theorem AssertConv.re {name lab lab' : Str} (hn : ∀ c ∈ name, isGraph c = true) (hne : name ≠ []) (h : AssertConv name lab) (hr : Re lab lab') : AssertConv name lab' := by
  rcases h with h | ⟨p, m, q, ws, rfl, h1, h1', h2, h3, h4⟩
  · exact Or.inl fun hi => h (infix_words (by decide) (by simp) hr.words hi)
  · obtain ⟨p', z, e, r1, r2, _⟩ := hr.split (p := p) (q := ['$', '('] ++ (m ++ (['$', ')'] ++ (q ++ (name ++ ws))))) (by simp [com]) ⟨'$', _, rfl, by decide⟩
    obtain ⟨z1, rfl, r3⟩ := r2.word (by decide) rfl
    obtain ⟨m', z2, rfl, r4, r5, _⟩ := r3.split (p := m) (q := ['$', ')'] ++ (q ++ (name ++ ws))) rfl ⟨'$', _, rfl, by decide⟩
    obtain ⟨z3, rfl, r6⟩ := r5.word (by decide) rfl
    obtain ⟨q', z4, rfl, r7, r8, _⟩ := r6.split (p := q) (q := name ++ ws) rfl (by
      cases name with
      | nil => exact absurd rfl hne
      | cons c r => exact ⟨c, r ++ ws, rfl, hn c (by simp)⟩)
    obtain ⟨ws', rfl, r9⟩ := r8.word hn rfl
    have hwh : ∀ {s t : Str}, Re s t → (∀ c ∈ s, isGraph c = false) → ∀ c ∈ t, isGraph c = false := by
      intro s t h hs c hc
      rcases h.mem hc with h | rfl
      · exact hs c h
      · rfl
    refine Or.inr ⟨p', m', q', ws', by rw [e]; simp [com], fun hi => h1 (infix_words (by decide) (by simp) r4.words hi), fun hi => h1' (infix_words (by decide) (by simp) r4.words hi), hwh r7 h2, hwh r9 h3, ?_⟩
    rcases h4 with h4 | h4
    · exact Or.inl (r1.ownLine h4)
    · exact Or.inr (infix_words (by decide) (by decide) r4.com.words.symm h4)

theorem instr_infix {s x : Str} (hx : x ≠ []) : instr 1 s x ≠ 0 ↔ x <:+: s := by
  constructor
  · intro h
    rcases C26_instr 1 s x hx with ⟨h1, _⟩ | ⟨_, ⟨a, b, e, _⟩, _⟩
    · exact absurd h1 h
    · exact ⟨a, b, e.symm⟩
  · rintro ⟨a, b, e⟩
    rcases C26_instr 1 s x hx with ⟨_, h1⟩ | ⟨h1, _⟩
    · exact absurd ⟨a, b, e.symm, rfl⟩ (h1 (a.length + 1) (by omega))
    · omega

/-- What becomes of a comment -/
def comOut (f : FCfg) (indent : Nat) (c : Str) : Out Str := if htmlTag <:+: c then .val (c ++ ['\n']) else wrapComment f indent c

theorem assert_chain (f : FCfg) {stmt : Nat} (pk : Kind) (indent : Nat) {prev : Bool} (name : Str) {lab p c : Str}
    (hsp : splitComment lab = .val (p, c)) (hl : Legal p) (he : EndsGap p) (hs : prev = true → (AtGap p ∧ p ≠ []) ∨ p = [])
    (hst : prev = true ↔ stmt > 1) (hf : prev = true) (ho : OwnLine p ∨ htmlTag <:+: c) :
    ∃ q, Pre prev p q ∧ assertLabel f stmt pk indent name lab = (comOut f indent c >>= fun C => trailLoop (C.length + 1) 2 C >>= fun C' => .val (q ++ C' ++ space indent ++ name ++ [' '])) := by
  have hpre : ∃ pos r q, rinstr (p.length + 1) p ['\n'] = .val pos ∧ (dropBlank pk p pos >>= fun r => needNl f.g stmt r.1 r.2) = .val r ∧ Pre prev p r.1 ∧
      left r.1 r.2 = .val q ∧ (OwnLine p → Pre prev p q) := by
    rcases (hs hf) with h | h
    · exact pre_ok f.g pk hl he (fun _ => h) hst (fun h => by rw [hf] at h; cases h)
    · subst h
      have hP : Pre prev [] ['\n'] := ⟨fun c hc => by simp at hc; subst hc; exact Or.inr rfl, fun _ => ⟨fun c hc => by simp at hc; subst hc; decide, by simp⟩,
        fun c hc => by simp at hc; subst hc; decide, words_blank (by decide), fun _ hm => by simp at hm⟩
      have hsg : stmt > 1 := hst.1 hf
      refine ⟨0, (['\n'], 2), ['\n'], rfl, ?_, hP, rfl, fun _ => hP⟩
      unfold dropBlank needNl
      rw [if_neg (by rintro ⟨_, h, _⟩; omega), Out.bind_val]
      dsimp only
      rw [if_pos ⟨rfl, hsg⟩]
      obtain ⟨r0, b0, e1, e2, e3⟩ := edit128_ok f.g (s := []) (fun c hc => by cases hc)
      have : r0 = [] := by cases r0; rfl; cases e2
      rw [e1, this]
      rfl
  obtain ⟨pos, r, q0, e1, e2, e3, e4, e5⟩ := hpre
  have e2' : (dropBlank pk p pos >>= fun r => needNl f.g stmt r.1 r.2 >>= fun r =>
      ((if instr 1 c htmlTag ≠ 0 then .val (r.1, c ++ ['\n']) else left r.1 r.2 >>= fun p => wrapComment f indent c >>= fun c => .val (p, c)) >>= fun (q : Str × Str) =>
      trailLoop (q.2.length + 1) 2 q.2 >>= fun c => (.val (q.1 ++ c ++ space indent ++ name ++ [' ']) : Out Str))) =
      ((if instr 1 c htmlTag ≠ 0 then .val (r.1, c ++ ['\n']) else left r.1 r.2 >>= fun p => wrapComment f indent c >>= fun c => .val (p, c)) >>= fun (q : Str × Str) =>
      trailLoop (q.2.length + 1) 2 q.2 >>= fun c => (.val (q.1 ++ c ++ space indent ++ name ++ [' ']) : Out Str)) := by
    cases hdb : dropBlank pk p pos <;> rw [hdb] at e2 <;> try cases e2
    rename_i v
    rw [Out.bind_val] at e2
    rw [Out.bind_val, e2, Out.bind_val]
  unfold assertLabel
  rw [hsp, Out.bind_val]
  dsimp only
  rw [e1, Out.bind_val, e2']
  unfold comOut
  by_cases h : htmlTag <:+: c
  · rw [if_pos ((instr_infix (by decide)).2 h), if_pos h, Out.bind_val]
    exact ⟨r.1, e3, rfl⟩
  · rw [if_neg (fun hh => h ((instr_infix (by decide)).1 hh)), if_neg h, e4, Out.bind_val]
    refine ⟨q0, e5 (ho.resolve_right h), ?_⟩
    cases wrapComment f indent c <;> rfl

/-- The section with the printed comment `C`. -/
theorem assert_core {prev : Bool} {name p q C : Str} (indent : Nat) (hn : ∀ d ∈ name, isGraph d = true) (hne : name ≠ []) (hd : '$' ∉ name)
    (hpt : uncomment false (words p) = some []) (hqp : Pre prev p q) (hk : ComOk C) :
    ∃ L, (trailLoop (C.length + 1) 2 C >>= fun C' => .val (q ++ C' ++ space indent ++ name ++ [' '])) = .val L ∧ Clean prev L [name] ∧
      words L = words p ++ words C ++ [name] ∧ ('\r' ∉ p → '\r' ∉ C → '\r' ∉ name → '\r' ∉ L) := by
  obtain ⟨C', t1, t2⟩ := trailLoop_ok (C.length + 1) 2 C (by omega)
  rw [t1, Out.bind_val]
  refine ⟨_, rfl, ?_⟩
  have hlC := t2.legal hk.legal
  have hqC : Legal (q ++ C') := fun d hd => by rcases List.mem_append.1 hd with h | h; exact hqp.legal d h; exact hlC d h
  have hwq : words (q ++ C') = words p ++ words C := by rw [words_app (Or.inl hqp.stop), hqp.words, t2.words]
  have hend : EndsGap (q ++ C') := by
    by_cases h : C' = []
    · rw [h, List.append_nil]; exact hqp.stop
    · exact endsGap_append (t2.endsGap hk.stop) h
  have hstart : prev = true → AtGap (q ++ C') ∧ q ++ C' ≠ [] := by
    intro hp
    obtain ⟨a1, a2⟩ := hqp.start hp
    cases q with
    | nil => exact absurd rfl a2
    | cons d q => exact ⟨fun x hx => a1 x (by simpa using hx), by simp⟩
  obtain ⟨f1, f2, f3, f4⟩ := finish indent hqC hstart hend hn hne
  have hw : words (q ++ C' ++ space indent ++ name ++ [' ']) = words p ++ words C ++ [name] := by rw [f4, hwq]
  refine ⟨⟨f1, ?_, ?_, f2, f3⟩, hw, ?_⟩
  · unfold tokens
    rw [hw, List.append_assoc, uncomment_append hpt, uncomment_append hk.toks, uncomment_plain (by simpa using hd)]
    rfl
  · simpa using hd
  · intro c1 c2 c3 hm
    simp only [List.mem_append] at hm
    rcases hm with (((h | h) | h) | h) | h
    · exact hqp.cr c1 h
    · rcases t2.mem h with h | h
      · exact c2 h
      · cases h
    · exact space_cr _ h
    · exact c3 h
    · simp at h

/-- The text of a comment. -/
structure ComText (m : Str) : Prop where
  legal : Legal m
  open_ : ¬ ['$', '('] <:+: m
  close : ¬ ['$', ')'] <:+: m
  start : AtGap m
  stop : EndsGap m
  ne : m ≠ []

theorem ComText.toks {m : Str} (h : ComText m) : uncomment false (words (com m)) = some [] := by
  rw [words_com h.start h.stop h.ne, uncomment, if_pos rfl, uncomment_com (no_mark h.open_ h.close)]
  rfl

/-- The parts of the label section of a `$a` or `$p`. -/
theorem assert_parts {prev : Bool} {name lab : Str} (hn : ∀ d ∈ name, isGraph d = true) (hne : name ≠ []) (hc : Clean prev lab [name]) (hf : prev = true) (hv : AssertConv name lab) :
    ∃ p m, splitComment lab = .val (p, com m) ∧ Legal p ∧ EndsGap p ∧ ((AtGap p ∧ p ≠ []) ∨ p = []) ∧ uncomment false (words p) = some [] ∧
      (OwnLine p ∨ htmlTag <:+: com m) ∧ ComText m ∧ ('\r' ∉ lab → '\r' ∉ p ∧ '\r' ∉ com m) ∧
      (words lab = words p ++ words (com m) ++ [name] ∨ (¬ ['$', '('] <:+: lab ∧ words lab = [name] ∧ p = [] ∧ com m = "$( PLEASE PUT DESCRIPTION HERE. $)".toList)) := by
  have hd := hc.dollar name (by simp)
  rcases hv with hv | ⟨p, m, q, ws, rfl, h1, h1', h2, h3, h4⟩
  · refine ⟨[], " PLEASE PUT DESCRIPTION HERE. ".toList, split_none hv, (fun c hc => by cases hc), (fun c hc => by cases hc), Or.inr rfl, by rw [words_nil]; rfl, Or.inl ?_, ?_, ?_, Or.inr ⟨hv, ?_, rfl, rfl⟩⟩
    · intro a b e; simp at e
    · refine ⟨?_, by decide, by decide, ?_, ?_, by decide⟩
      · unfold Legal; decide
      · intro c hc; have : c = ' ' := by simpa using hc.symm
        subst this; rfl
      · intro c hc; have : c = ' ' := by simpa using hc.symm
        subst this; rfl
    · intro _; exact ⟨by simp, by decide⟩
    · refine (uncomment_none hc.toks ?_).symm
      intro hm
      exact hv (mem_words_infix _ _ (Nat.le_refl _) _ hm)
  · have e1 : p ++ com m ++ (q ++ name ++ ws) = p ++ '$' :: '(' :: (m ++ '$' :: ')' :: (q ++ name ++ ws)) := by simp [com]
    have e2 : p ++ com m ++ (q ++ name ++ ws) = (p ++ '$' :: '(' :: m) ++ '$' :: ')' :: (q ++ name ++ ws) := by simp [com]
    have ht := hc.toks
    obtain ⟨g1, g2⟩ := mark_gaps (Or.inl rfl) (by rw [← e1]; exact ht)
    obtain ⟨g3, g4⟩ := mark_gaps (Or.inr rfl) (by rw [← e2]; exact ht)
    have hm0 : m ≠ [] := by
      rintro rfl
      have := g2 '$' (by simp)
      revert this; decide
    have hm1 : AtGap m := fun c hc => g2 c (by cases m with | nil => cases hc | cons d m => simpa using hc)
    have hm2 : EndsGap m := fun c hc => g3 c (by
      rw [show p ++ '$' :: '(' :: m = (p ++ ['$', '(']) ++ m by simp, List.getLast?_append, hc]; rfl)
    have hcm : ComText m := ⟨fun c hx => hc.legal c (by simp [com, hx]), h1, h1', hm1, hm2, hm0⟩
    have hlp : Legal p := fun c hx => hc.legal c (by simp [hx])
    have hwl : words (p ++ com m ++ (q ++ name ++ ws)) = words p ++ words (com m) ++ [name] := by
      rw [List.append_assoc, words_app (Or.inl g1), words_app (Or.inr g4), ← List.append_assoc]
      congr 1
      have hws : AtGap ws := fun c hx => h3 c (List.mem_of_mem_head? hx)
      have hq0 : EndsGap q := fun c hx => h2 c (List.mem_of_getLast? hx)
      rw [List.append_assoc, words_app (Or.inl hq0), words_gap h2, words_word hn hne hws, words_gap h3]
      rfl
    refine ⟨p, m, split_com h1 ?_, hlp, g1, ?_, ?_, h4, hcm, ?_, Or.inl hwl⟩
    · intro hx
      simp only [List.mem_append] at hx
      rcases hx with (h | h) | h
      · have := h2 _ h; revert this; decide
      · exact hd h
      · have := h3 _ h; revert this; decide
    · obtain ⟨a1, a2⟩ := hc.start hf
      cases p with
      | nil => exact Or.inr rfl
      | cons d p => exact Or.inl ⟨fun x hx => a1 x (by simpa using hx), by simp⟩
    · unfold tokens at ht
      rw [hwl, words_com hm1 hm2 hm0] at ht
      have : words p ++ (['$', '('] :: (words m ++ [['$', ')']])) ++ [name] = words p ++ ['$', '('] :: (words m ++ ['$', ')'] :: [name]) := by simp
      rw [this] at ht
      obtain ⟨x, k1, k2⟩ := uncomment_open ht
      rw [uncomment_com (no_mark h1 h1'), uncomment_plain (by simpa using hd)] at k2
      simp at k2
      rw [k1, k2]
    · intro hcr
      simp only [List.mem_append, not_or] at hcr
      exact ⟨hcr.1.1, hcr.1.2⟩

end MM.Fmt
