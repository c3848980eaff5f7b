import Verif.Fatl.Spec
import Mathlib.Tactic.Linarith
import Mathlib.Data.List.TakeWhile
/-!
# C29: fatal error messages
-/
namespace MM.Fatl

/-- The buffer holds what there is room for of the text `t`. -/
structure BufOk (C : Nat) (b : Buf) (t : List Char) : Prop where
  beg : b.beg = min t.length C
  text : b.text = t.take C ++ List.replicate (C - t.length) nul ++ ellipsis ++ [nul]

theorem bufOk_init (C : Nat) : BufOk C (initBuffer C) [] := ⟨by simp [initBuffer], by simp [initBuffer]⟩

theorem BufOk.length {C : Nat} {b : Buf} {t : List Char} (h : BufOk C b t) : b.text.length = C + 5 := by
  rw [h.text]; simp [ellipsis]; omega

theorem BufOk.over {C : Nat} {b : Buf} {t : List Char} (h : BufOk C b t) : isOverflow C b = true ↔ C ≤ t.length := by
  unfold isOverflow; rw [h.beg]; simp

theorem BufOk.over' {C : Nat} {b : Buf} {t : List Char} (h : BufOk C b t) : isOverflow C b = !decide (t.length < C) := by
  have := h.over
  by_cases hc : C ≤ t.length
  · rw [this.2 hc]; simp [hc]
  · cases hb : isOverflow C b
    · simp; omega
    · exact absurd (this.1 hb) hc

theorem BufOk.extend {C : Nat} {b : Buf} {t : List Char} (h : BufOk C b t) (hc : C ≤ t.length) (w : List Char) : BufOk C b (t ++ w) := by
  refine ⟨by rw [h.beg, List.length_append]; omega, ?_⟩
  rw [h.text, List.take_append_of_le_length hc]
  have e1 : C - t.length = 0 := by omega
  have e2 : C - (t ++ w).length = 0 := by rw [List.length_append]; omega
  rw [e1, e2]

/-- Writing one character. -/
theorem BufOk.write {C : Nat} {b : Buf} {t : List Char} (h : BufOk C b t) (hc : t.length < C) (c : Char) :
    ∃ x, poke b.text b.beg c = .val x ∧ BufOk C ⟨x, b.beg + 1⟩ (t ++ [c]) := by
  have hb : b.beg = t.length := by rw [h.beg]; omega
  refine ⟨b.text.set b.beg c, by unfold poke; rw [if_pos (by rw [h.length]; omega)], ?_, ?_⟩
  · simp only [List.length_append, List.length_singleton]; omega
  · simp only
    rw [hb, h.text, List.take_of_length_le (by omega), List.take_of_length_le (by simp; omega)]
    have e : C - t.length = (C - (t ++ [c]).length) + 1 := by simp; omega
    rw [e, List.replicate_succ]
    simp

theorem appendText_str {C : Nat} : ∀ (cs : List Char) {b : Buf} {t : List Char}, BufOk C b t → ∃ b' n, appendText C false cs b = .val (b', n) ∧ BufOk C b' (t ++ cs)
  | [], b, t, h => ⟨b, 0, rfl, by simpa using h⟩
  | c :: cs, b, t, h => by
    unfold appendText
    by_cases ho : isOverflow C b = true
    · rw [if_pos (Or.inr ho)]
      exact ⟨b, 0, rfl, h.extend (h.over.1 ho) _⟩
    · rw [if_neg (by simp [ho])]
      obtain ⟨x, hx, h'⟩ := h.write (by have := h.over; by_contra hc; exact ho (this.2 (by omega))) c
      obtain ⟨b', n, h1, h2⟩ := appendText_str cs h'
      rw [hx, Out.bind_val, h1, Out.bind_val]
      exact ⟨b', n + 1, rfl, by simpa using h2⟩

theorem appendText_fmt {C : Nat} : ∀ (p cs : List Char) {b : Buf} {t : List Char}, BufOk C b t → (∀ c ∈ p, c ≠ '%') → cs.head? = none ∨ cs.head? = some '%' →
    ∃ b' n, appendText C true (p ++ cs) b = .val (b', n) ∧ BufOk C b' (t ++ p) ∧ (isOverflow C b' = false → n = p.length)
  | [], cs, b, t, h, _, hcs => by
    cases cs with
    | nil => exact ⟨b, 0, rfl, by simpa using h, fun _ => rfl⟩
    | cons c cs =>
      have hc : c = '%' := by simpa using hcs
      subst hc
      refine ⟨b, 0, ?_, by simpa using h, fun _ => rfl⟩
      simp [appendText]
  | c :: p, cs, b, t, h, hp, hcs => by
    rw [List.cons_append]
    unfold appendText
    by_cases ho : isOverflow C b = true
    · rw [if_pos (Or.inr ho)]
      exact ⟨b, 0, rfl, h.extend (h.over.1 ho) _, fun hf => by rw [ho] at hf; cases hf⟩
    · rw [if_neg (by simp [ho, hp c (by simp)])]
      obtain ⟨x, hx, h'⟩ := h.write (by have := h.over; by_contra hc; exact ho (this.2 (by omega))) c
      obtain ⟨b', n, h1, h2, h3⟩ := appendText_fmt p cs h' (fun d hd => hp d (by simp [hd])) hcs
      rw [hx, Out.bind_val, h1, Out.bind_val]
      exact ⟨b', n + 1, rfl, by simpa using h2, fun hf => by simp [h3 hf]⟩

/-! ### Decimal numbers -/

theorem digitChar_eq {d : Nat} (h : d < 10) : Char.ofNat (d + 48) = Nat.digitChar d := by
  revert d; decide

theorem digit_ne_nul {d : Nat} (h : d < 10) : Nat.digitChar d ≠ nul := by
  revert d; decide

theorem digitLoop_ok : ∀ (n value : Nat) (ds : List Char) (k : Nat), 0 < value → value < n → value < 10 ^ k → ∀ A : List Char, A.length = k →
    ∃ B, digitLoop n value (A ++ ds) k = .val (B ++ Nat.toDigits 10 value ++ ds, B.length)
  | 0, _, _, _, _, h, _, _, _ => absurd h (Nat.not_lt_zero _)
  | n + 1, value, ds, k, h0, hn, hk, A, hA => by
    have hk0 : k ≠ 0 := by rintro rfl; simp at hk; omega
    obtain ⟨k', rfl⟩ := Nat.exists_eq_succ_of_ne_zero hk0
    rcases List.eq_nil_or_concat A with rfl | ⟨A', c, rfl⟩
    · simp at hA
    rw [List.concat_eq_append] at hA ⊢
    have hA' : A'.length = k' := by simpa using hA
    have hp : poke (A' ++ [c] ++ ds) (k' + 1 - 1) (Char.ofNat (value % 10 + 48)) = .val (A' ++ Nat.digitChar (value % 10) :: ds) := by
      unfold poke
      rw [if_pos (by simp; omega), digitChar_eq (Nat.mod_lt _ (by decide))]
      subst hA'
      simp
    unfold digitLoop
    rw [if_neg (by omega), if_neg (by omega), hp, Out.bind_val]
    by_cases h10 : value < 10
    · have e : value / 10 = 0 := by omega
      rw [e]
      cases n with
      | zero => omega
      | succ n =>
        refine ⟨A', ?_⟩
        unfold digitLoop
        rw [if_pos rfl, Nat.toDigits_eq_if (by decide), if_pos h10, Nat.mod_eq_of_lt h10, hA']
        simp
    · obtain ⟨B, hB⟩ := digitLoop_ok n (value / 10) (Nat.digitChar (value % 10) :: ds) k' (by omega) (by omega)
        (by rw [Nat.pow_succ] at hk; omega) A' hA'
      refine ⟨B, ?_⟩
      rw [show k' + 1 - 1 = k' by omega, hB]
      rw [Nat.toDigits_eq_if (by decide) (n := value), if_neg h10]
      simp

/-- **C29** (numbers).  Converting a 32-bit number does not leave the array `digits`, and gives its decimal digits. -/
theorem C29_unsigned_text {n : Nat} (h : n < 2 ^ 32) : unsignedToString n = .val (Nat.toDigits 10 n) := by
  unfold unsignedToString
  have e0 : poke (List.replicate ((4 * 8 * 146) / 485 + 2) nul) 10 nul = .val (List.replicate 10 nul ++ [nul]) := by decide
  rw [e0, Out.bind_val]
  by_cases hz : n = 0
  · subst hz; decide
  · rw [if_neg hz]
    obtain ⟨B, hB⟩ := digitLoop_ok (n + 1) n [nul] 10 (by omega) (by omega) (by omega) (List.replicate 10 nul) (by simp)
    rw [hB, Out.bind_val]
    have e1 : (B ++ Nat.toDigits 10 n ++ [nul]).drop B.length = Nat.toDigits 10 n ++ [nul] := by
      rw [List.append_assoc, List.drop_left]
    rw [e1, List.takeWhile_append_of_pos]
    · simp
    · intro c hc
      have hd := Nat.isDigit_of_mem_toDigits (b := 10) (by decide) (by decide) hc
      simp only [ne_eq, decide_not, Bool.not_eq_eq_eq_not, Bool.not_true, decide_eq_false_iff_not]
      rintro rfl
      revert hd; decide

/-! ### Formats -/

theorem checkOverflow_ok {C : Nat} {s : PSt} (h : isOverflow C s.out = false) : checkOverflow C s = s := by unfold checkOverflow; rw [h]; rfl

theorem checkOverflow_over {C : Nat} {s : PSt} (h : isOverflow C s.out = true) : checkOverflow C s = { s with format := [] } := by unfold checkOverflow; rw [h]; rfl

theorem Expands.text_split {fmt : List Char} {args : List Arg} {u : List Char} (h : Expands fmt args u) :
    ∃ p cs v, fmt = p ++ cs ∧ (∀ c ∈ p, c ≠ '%') ∧ (cs.head? = none ∨ cs.head? = some '%') ∧ Expands cs args v ∧ u = p ++ v := by
  induction h with
  | done args => exact ⟨[], [], [], rfl, by simp, Or.inl rfl, .done args, rfl⟩
  | char hc _ ih =>
    rename_i c _ _ _ _
    obtain ⟨p, cs, v, rfl, h2, h3, h4, rfl⟩ := ih
    refine ⟨c :: p, cs, v, rfl, ?_, h3, h4, rfl⟩
    intro d hd
    rcases List.mem_cons.1 hd with rfl | hd
    · exact hc
    · exact h2 d hd
  | str x h _ => exact ⟨[], _, _, rfl, by simp, Or.inr rfl, .str x h, rfl⟩
  | null h _ => exact ⟨[], _, _, rfl, by simp, Or.inr rfl, .null h, rfl⟩
  | num n hn h _ => exact ⟨[], _, _, rfl, by simp, Or.inr rfl, .num n hn h, rfl⟩
  | percent h _ => exact ⟨[], _, _, rfl, by simp, Or.inr rfl, .percent h, rfl⟩
  | stray h1 h2 h3 h _ => exact ⟨[], _, _, rfl, by simp, Or.inr rfl, .stray h1 h2 h3 h, rfl⟩

/-- Result of a round: either the buffer is full, or a shorter format is left. -/
def RoundOk (C : Nat) (t u : List Char) (len : Nat) (r : PSt) : Prop :=
  (r.format = [] ∧ BufOk C r.out (t ++ u)) ∨
  ∃ w v, BufOk C r.out (t ++ w) ∧ u = w ++ v ∧ Expands r.format r.args v ∧ r.format.length < len ∧ (t ++ w).length < C

theorem substTail_ok {C : Nat} {b : Buf} {t : List Char} (hb : BufOk C b t) {fmt : List Char} {args : List Arg} {v : List Char} (he : Expands fmt args v) (x : List Char) {len : Nat} (hl : fmt.length < len) :
    ∃ r, substTail C ⟨b, fmt, args⟩ (some x) = .val r ∧ RoundOk C t (x ++ v) len r := by
  obtain ⟨b', n, h1, h2⟩ := appendText_str x hb
  refine ⟨checkOverflow C ⟨b', fmt, args⟩, ?_, ?_⟩
  · unfold substTail
    rw [if_pos (by rfl)]
    simp only [Option.getD_some]
    rw [h1, Out.bind_val]
  · cases ho : isOverflow C b' with
    | true =>
      rw [checkOverflow_over ho]
      exact Or.inl ⟨rfl, by rw [← List.append_assoc]; exact h2.extend (h2.over.1 ho) v⟩
    | false =>
      rw [checkOverflow_ok ho]
      refine Or.inr ⟨x, v, h2, rfl, he, hl, ?_⟩
      by_contra hc
      have := h2.over.2 (by omega)
      rw [ho] at this; cases this

theorem parseRound_ok {C : Nat} {b : Buf} {t : List Char} (hb : BufOk C b t) (hC : t.length < C) {fmt : List Char} (hn : NoNul fmt) {args : List Arg} {u : List Char} (he : Expands fmt args u) :
    ∃ r, parseRound C ⟨b, fmt, args⟩ = .val r ∧ RoundOk C t u fmt.length r ∧ (∀ c ∈ r.format, c ∈ fmt) := by
  have sub1 : ∀ {b args x r}, substTail C ⟨b, fmt.drop 1, args⟩ x = .val r → ∀ c ∈ r.format, c ∈ fmt := by
    intro b args x r hr c hc
    unfold substTail at hr
    split at hr
    · generalize appendText C false _ _ = a at hr
      cases a with
      | val a =>
        rw [Out.bind_val] at hr; cases hr
        unfold checkOverflow at hc
        split at hc
        · simp at hc
        · exact List.mem_of_mem_drop hc
      | ub => cases hr
      | bug n => cases hr
      | fuel => cases hr
    · cases hr; exact List.mem_of_mem_drop hc
  have sub2 : ∀ {b args x r}, substTail C ⟨b, fmt.drop 2, args⟩ x = .val r → ∀ c ∈ r.format, c ∈ fmt := by
    intro b args x r hr c hc
    unfold substTail at hr
    split at hr
    · generalize appendText C false _ _ = a at hr
      cases a with
      | val a =>
        rw [Out.bind_val] at hr; cases hr
        unfold checkOverflow at hc
        split at hc
        · simp at hc
        · exact List.mem_of_mem_drop hc
      | ub => cases hr
      | bug n => cases hr
      | fuel => cases hr
    · cases hr; exact List.mem_of_mem_drop hc
  unfold parseRound
  by_cases hp : fmt.headD nul = '%'
  · rw [if_pos hp]
    unfold handleSubst
    cases he with
    | done => simp [nul] at hp
    | char hc _ => exact absurd hp hc
    | str x h =>
      simp only [List.drop_succ_cons, List.drop_zero, List.headD_cons, if_true, popStr, Out.bind_val]
      obtain ⟨r, h1, h2⟩ := substTail_ok hb h x (len := _) (Nat.lt_succ_of_lt (Nat.lt_succ_self _))
      exact ⟨r, h1, h2, sub2 h1⟩
    | null h =>
      rename_i f a
      simp only [List.drop_succ_cons, List.drop_zero, List.headD_cons, if_true, popStr, Out.bind_val]
      exact ⟨⟨b, f, a⟩, rfl, Or.inr ⟨[], u, by simpa using hb, rfl, h, by simp; omega, by simpa using hC⟩, fun c hc => by simp at hc ⊢; tauto⟩
    | num n hn' h =>
      simp only [List.drop_succ_cons, List.drop_zero, List.headD_cons, popNum, Out.bind_val, C29_unsigned_text hn']
      rw [if_neg (by decide), if_pos trivial]
      obtain ⟨r, h1, h2⟩ := substTail_ok hb h (Nat.toDigits 10 n) (len := _) (Nat.lt_succ_of_lt (Nat.lt_succ_self _))
      exact ⟨r, h1, h2, sub2 h1⟩
    | percent h =>
      simp only [List.drop_succ_cons, List.drop_zero, List.headD_cons]
      rw [if_neg (by decide), if_neg (by decide), if_pos trivial]
      obtain ⟨r, h1, h2⟩ := substTail_ok hb h ['%'] (len := _) (Nat.lt_succ_of_lt (Nat.lt_succ_self _))
      exact ⟨r, h1, h2, sub2 h1⟩
    | stray g1 g2 g3 h =>
      rename_i f v
      simp only [List.drop_succ_cons, List.drop_zero]
      have e : ∀ c, c ≠ nul → f.head? ≠ some c → f.headD nul ≠ c := by
        intro c hc hh
        cases f with
        | nil => exact fun e => hc e.symm
        | cons d f => simpa using hh
      rw [if_neg (e _ (by decide) g1), if_neg (e _ (by decide) g2), if_neg (e _ (by decide) g3)]
      obtain ⟨r, h1, h2⟩ := substTail_ok hb h ['%'] (len := _) (Nat.lt_succ_self _)
      exact ⟨r, h1, h2, sub1 h1⟩
  · rw [if_neg hp]
    unfold handleText
    obtain ⟨p, cs, v, rfl, h2, h3, h4, rfl⟩ := he.text_split
    obtain ⟨b', n, h5, h6, h7⟩ := appendText_fmt p cs hb h2 h3
    simp only
    rw [h5, Out.bind_val]
    refine ⟨_, rfl, ?_, ?_⟩
    · cases ho : isOverflow C b' with
      | true =>
        rw [checkOverflow_over ho]
        exact Or.inl ⟨rfl, by rw [← List.append_assoc]; exact h6.extend (h6.over.1 ho) v⟩
      | false =>
        rw [checkOverflow_ok ho, h7 ho]
        simp only [List.drop_left]
        cases hcs : cs with
        | nil =>
          subst hcs
          cases h4
          exact Or.inl ⟨rfl, by simpa using h6⟩
        | cons c cs' =>
          refine Or.inr ⟨p, v, h6, rfl, hcs ▸ h4, ?_, ?_⟩
          · cases p with
            | nil =>
              subst hcs
              have : c = '%' := by simpa using h3
              subst this
              simp at hp
            | cons d p => simp only [List.length_cons, List.length_append]; omega
          · by_contra hc
            have := h6.over.2 (by omega)
            rw [ho] at this; cases this
    · intro c hc
      unfold checkOverflow at hc
      split at hc
      · simp at hc
      · exact List.mem_of_mem_drop hc

theorem parseF_ok {C : Nat} : ∀ (n : Nat) {b : Buf} {t : List Char}, BufOk C b t → t.length < C → ∀ {fmt : List Char}, NoNul fmt → ∀ {args : List Arg} {u : List Char}, Expands fmt args u → fmt.length < n →
    ∃ r, parseF C n ⟨b, fmt, args⟩ = .val r ∧ BufOk C r.out (t ++ u)
  | 0, _, _, _, _, _, _, _, _, _, h => absurd h (Nat.not_lt_zero _)
  | n + 1, b, t, hb, hC, fmt, hn, args, u, he, hlt => by
    obtain ⟨r, h1, h2, h3⟩ := parseRound_ok hb hC hn he
    unfold parseF
    rw [h1, Out.bind_val]
    rcases h2 with ⟨h4, h5⟩ | ⟨w, v, h4, rfl, h6, h7, h8⟩
    · rw [h4]
      exact ⟨r, by simp, h5⟩
    · have hn' : NoNul r.format := fun c hc => hn c (h3 c hc)
      by_cases hf : r.format.headD nul ≠ nul
      · rw [if_pos hf]
        obtain ⟨r', h9, h10⟩ := parseF_ok n h4 h8 hn' h6 (by omega)
        exact ⟨r', h9, by rw [← List.append_assoc]; exact h10⟩
      · rw [if_neg hf]
        refine ⟨r, rfl, ?_⟩
        have : r.format = [] := by
          cases hr : r.format with
          | nil => rfl
          | cons c f =>
            rw [hr] at hf hn'
            simp only [List.headD_cons, ne_eq, not_not] at hf
            exact absurd (by rw [hf]; rfl) (hn' c (by simp))
        rw [this] at h6
        cases h6
        simpa using h4

/-- One push. -/
theorem push_ok {C : Nat} {b : Buf} {t : List Char} (hb : BufOk C b t) {f : Option (List Char)} (hn : ∀ x, f = some x → NoNul x) {args : List Arg} {u : List Char} (he : ExpandsOpt f args u) :
    ∃ b', push C b f args = .val (b', decide ((t ++ u).length < C)) ∧ BufOk C b' (t ++ u) := by
  unfold push
  by_cases ho : isOverflow C b = true
  · rw [if_neg (by simp [ho])]
    have := hb.extend (hb.over.1 ho) u
    exact ⟨b, by rw [this.over']; simp, this⟩
  · have hC : t.length < C := by by_contra hc; exact ho (hb.over.2 (by omega))
    cases f with
    | none =>
      rw [if_neg (by simp)]
      have hu : u = [] := he
      subst hu
      refine ⟨b, by rw [hb.over']; simp, by simpa using hb⟩
    | some f =>
      rw [if_pos ⟨by simpa using ho, rfl⟩]
      obtain ⟨r, h1, h2⟩ := parseF_ok (f.length + 1) hb hC (hn f rfl) he (Nat.lt_succ_self _)
      unfold parse
      simp only [Option.getD_some]
      rw [h1, Out.bind_val]
      exact ⟨r.out, by rw [h2.over']; simp, h2⟩

theorem bufOk_cstr {C : Nat} {b : Buf} {t : List Char} (h : BufOk C b t) (hn : NoNul t) : cstr b.text = .val (shown C t) := by
  unfold cstr
  rw [if_pos (by rw [h.text]; simp), h.text]
  have ht : ∀ c ∈ t, c ≠ nul := by
    rintro c hc rfl
    exact hn _ hc rfl
  have key : ∀ (a z : List Char), (∀ c ∈ a, c ≠ nul) → (a ++ nul :: z).takeWhile (fun c => decide (c ≠ nul)) = a := by
    intro a z ha
    rw [List.takeWhile_append_of_pos (by intro c hc; simpa using ha c hc)]
    simp
  unfold shown
  split
  · rename_i hlt
    obtain ⟨k, hk⟩ : ∃ k, C - t.length = k + 1 := ⟨C - t.length - 1, by omega⟩
    rw [hk, List.replicate_succ, List.take_of_length_le (by omega)]
    have := key t (List.replicate k nul ++ ellipsis ++ [nul]) ht
    simpa using this
  · rename_i hge
    have e : C - t.length = 0 := by omega
    rw [e, List.replicate_zero, List.append_nil]
    have := key (t.take C ++ ellipsis) [] (by
      intro c hc
      rcases List.mem_append.1 hc with hc | hc
      · exact ht c (List.mem_of_mem_take hc)
      · have : ∀ c ∈ ellipsis, c ≠ nul := by decide
        exact this c hc)
    rw [this]; rfl

theorem Expands.noNul {fmt : List Char} {args : List Arg} {u : List Char} (h : Expands fmt args u) (hf : NoNul fmt) (ha : ArgsNoNul args) : NoNul u := by
  have hd : ∀ n, NoNul (Nat.toDigits 10 n) := by
    intro n c hc h0
    have hd := Nat.isDigit_of_mem_toDigits (b := 10) (by decide) (by decide) hc
    have : c = nul := Char.toNat_inj.1 h0
    subst this
    revert hd; decide
  induction h with
  | done => intro c hc; simp at hc
  | char _ _ ih =>
    intro c hc
    rcases List.mem_cons.1 hc with rfl | hc
    · exact hf _ (by simp)
    · exact ih (fun c hc => hf c (by simp [hc])) ha c hc
  | str x _ ih =>
    intro c hc
    rcases List.mem_append.1 hc with hc | hc
    · exact ha x (by simp) c hc
    · exact ih (fun c hc => hf c (by simp [hc])) (fun x hx => ha x (by simp [hx])) c hc
  | null _ ih => exact ih (fun c hc => hf c (by simp [hc])) (fun x hx => ha x (by simp [hx]))
  | num n _ _ ih =>
    intro c hc
    rcases List.mem_append.1 hc with hc | hc
    · exact hd n c hc
    · exact ih (fun c hc => hf c (by simp [hc])) (fun x hx => ha x (by simp [hx])) c hc
  | percent _ ih =>
    intro c hc
    rcases List.mem_cons.1 hc with rfl | hc
    · decide
    · exact ih (fun c hc => hf c (by simp [hc])) ha c hc
  | stray _ _ _ _ ih =>
    intro c hc
    rcases List.mem_cons.1 hc with rfl | hc
    · decide
    · exact ih (fun c hc => hf c (by simp [hc])) ha c hc

/-! ### Sequences of calls -/

/-- A sequence of calls of `fatalErrorPush`: the buffer at the end and the results. -/
def pushAll (C : Nat) : List Call → Buf → Out (Buf × List Bool)
  | [], b => .val (b, [])
  | c :: cs, b => do
    let r ← push C b c.format c.args
    let q ← pushAll C cs r.1
    .val (q.1, r.2 :: q.2)

/-- The calls are correct: the formats and strings are C strings, the arguments match the formats; they stand for the texts `ts`. -/
def CallsOk (cs : List Call) (ts : List (List Char)) : Prop :=
  List.Forall₂ (fun (c : Call) t => ExpandsOpt c.format c.args t ∧ (∀ x, c.format = some x → NoNul x) ∧ ArgsNoNul c.args) cs ts

theorem pushAll_ok {C : Nat} : ∀ {cs : List Call} {ts : List (List Char)}, CallsOk cs ts → ∀ {b : Buf} {t : List Char}, BufOk C b t →
    ∃ b' rs, pushAll C cs b = .val (b', rs) ∧ BufOk C b' (t ++ ts.flatten) ∧ rs.length = cs.length ∧
      ∀ k, k < cs.length → rs[k]? = some (decide ((t ++ (ts.take (k + 1)).flatten).length < C))
  | [], _, .nil, b, t, hb => ⟨b, [], rfl, by simpa using hb, rfl, fun k hk => absurd hk (Nat.not_lt_zero _)⟩
  | c :: cs, _, .cons (b := u) (l₂ := ts) h1 h2, b, t, hb => by
    obtain ⟨b1, h3, h4⟩ := push_ok hb h1.2.1 h1.1
    obtain ⟨b2, rs, h5, h6, h7, h8⟩ := pushAll_ok (C := C) h2 h4
    unfold pushAll
    rw [h3, Out.bind_val, h5, Out.bind_val]
    refine ⟨b2, _, rfl, by simpa using h6, by simp [h7], ?_⟩
    intro k hk
    cases k with
    | zero => simp
    | succ k =>
      have := h8 k (by simpa using hk)
      simpa using this

theorem callsOk_noNul {cs : List Call} {ts : List (List Char)} (h : CallsOk cs ts) : NoNul ts.flatten := by
  induction h with
  | nil => intro c hc; simp at hc
  | cons h1 _ ih =>
    rename_i a t _ ts _
    intro c hc
    rw [List.flatten_cons, List.mem_append] at hc
    rcases hc with hc | hc
    · cases hf : a.format with
      | none =>
        have := h1.1
        rw [hf] at this
        have e : t = [] := this
        rw [e] at hc; simp at hc
      | some f =>
        have := h1.1
        rw [hf] at this
        exact Expands.noNul this (h1.2.1 f hf) h1.2.2 c hc
    · exact ih c hc

/-- **C29** (sequences of pushes).  After `fatalErrorInit`, whatever is pushed by correct calls: no access outside the buffer, which keeps its size; its content is a
C string that shows the beginning of the whole text, with an ellipsis if it is truncated; a push returns false exactly if the text so far does not fit. -/
theorem C29_push_sequence {C : Nat} {cs : List Call} {ts : List (List Char)} (h : CallsOk cs ts) :
    ∃ b rs, pushAll C cs (initBuffer C) = .val (b, rs) ∧ b.text.length = C + 5 ∧ cstr b.text = .val (shown C ts.flatten) ∧ rs.length = cs.length ∧
      ∀ k, k < cs.length → rs[k]? = some (decide ((ts.take (k + 1)).flatten.length < C)) := by
  obtain ⟨b, rs, h1, h2, h3, h4⟩ := pushAll_ok (C := C) h (bufOk_init C)
  exact ⟨b, rs, h1, h2.length, bufOk_cstr (by simpa using h2) (callsOk_noNul h), h3, by simpa using h4⟩

/-- What `fatalErrorPrintAndExit` writes. -/
theorem print_ok {C : Nat} {b : Buf} {t : List Char} (hb : BufOk C b t) (hn : NoNul t) : printAndExit C b = .val (shown C (finish C t)) := by
  unfold printAndExit finish
  have hemp : isEmpty b = decide (min t.length C = 0) := by unfold isEmpty; rw [hb.beg]; rfl
  by_cases ho : isOverflow C b = true
  · rw [if_neg (by simp [ho]), if_neg (by have := hb.over.1 ho; omega)]
    exact bufOk_cstr hb hn
  · have hC : t.length < C := by by_contra hc; exact ho (hb.over.2 (by omega))
    rcases List.eq_nil_or_concat t with rfl | ⟨t', c, rfl⟩
    · rw [if_neg (by rw [hemp]; simp), if_neg (by simp)]
      exact bufOk_cstr hb hn
    · rw [List.concat_eq_append] at *
      have he : isEmpty b = false := by rw [hemp]; simp at hC ⊢; omega
      rw [if_pos ⟨by simpa using ho, he⟩]
      have hl : lastChar b = .val c := by
        unfold lastChar
        rw [he, hb.beg, hb.text, List.take_of_length_le (by omega)]
        simp only [Bool.false_eq_true, if_false, Out.read]
        have : min (t' ++ [c]).length C - 1 = t'.length := by simp at hC ⊢; omega
        rw [this]
        simp
      rw [hl, Out.bind_val]
      by_cases hc : c = '\n'
      · rw [if_neg (by simp [hc]), if_neg (by simp [hc])]
        exact bufOk_cstr hb hn
      · rw [if_pos hc, if_pos ⟨hC, by simp, by simpa using hc⟩]
        obtain ⟨b', h1, h2⟩ := push_ok hb (f := some ['\n']) (args := []) (u := ['\n']) (by
          intro x hx; cases hx; intro c hc; simp at hc; subst hc; decide) (.char (by decide) (.done _))
        rw [h1, Out.bind_val]
        exact bufOk_cstr h2 (by
          intro d hd
          rcases List.mem_append.1 hd with hd | hd
          · exact hn d hd
          · simp at hd; subst hd; decide)

theorem expands_chars : ∀ {p : List Char} {fmt : List Char} {args : List Arg} {u : List Char}, (∀ c ∈ p, c ≠ '%') → Expands fmt args u → Expands (p ++ fmt) args (p ++ u)
  | [], _, _, _, _, h => h
  | c :: p, _, _, _, hp, h => .char (hp c (by simp)) (expands_chars (fun d hd => hp d (by simp [hd])) h)

/-- The location is formatted as specified. -/
theorem location_ok (file : Option (List Char)) {line : Nat} (hl : line < 2 ^ 32) : ExpandsOpt (locFormat file line) [.str file, .num line] (location file line) := by
  have lit : ∀ {p : String} {fmt : String} {args : List Arg} {u : List Char}, (∀ c ∈ p.toList, c ≠ '%') → Expands fmt.toList args u → Expands (p.toList ++ fmt.toList) args (p.toList ++ u) :=
    fun hp h => expands_chars hp h
  have at1 : ∀ (x : List Char) (n : Nat), n < 2 ^ 32 → Expands "At %s:%u\n".toList [.str (some x), .num n] ("At ".toList ++ x ++ ":".toList ++ Nat.toDigits 10 n ++ "\n".toList) := by
    intro x n hn
    have h1 : Expands "\n".toList [] "\n".toList := .char (by decide) (.done _)
    have h2 := Expands.num n hn h1
    have h3 := Expands.char (c := ':') (by decide) h2
    have h4 := Expands.str x h3
    have h5 := expands_chars (p := "At ".toList) (by decide) h4
    simpa using h5
  have in1 : ∀ (x : List Char) (n : Nat), Expands "In file %s:\n".toList [.str (some x), .num n] ("In file ".toList ++ x ++ ":\n".toList) := by
    intro x n
    have h1 : Expands ":\n".toList [.num n] ":\n".toList := .char (by decide) (.char (by decide) (.done _))
    have h4 := Expands.str x h1
    have h5 := expands_chars (p := "In file ".toList) (by decide) h4
    simpa using h5
  have ln : ∀ (n : Nat), n < 2 ^ 32 → Expands "In line %u:\n".toList [.num n] ("In line ".toList ++ Nat.toDigits 10 n ++ ":\n".toList) := by
    intro n hn
    have h1 : Expands ":\n".toList [] ":\n".toList := .char (by decide) (.char (by decide) (.done _))
    have h4 := Expands.num n hn h1
    have h5 := expands_chars (p := "In line ".toList) (by decide) h4
    simpa using h5
  unfold locFormat
  cases file with
  | none =>
    cases line with
    | zero => exact rfl
    | succ n => exact Expands.null (ln (n + 1) hl)
  | some f =>
    cases f with
    | nil =>
      cases line with
      | zero => exact rfl
      | succ n =>
        have := Expands.str [] (ln (n + 1) hl)
        exact this
    | cons c f =>
      cases line with
      | zero => exact in1 (c :: f) 0
      | succ n => exact at1 (c :: f) (n + 1) hl

/-- **C29** (`fatalErrorExitAt`).  For correct arguments, the text written to `stderr` is the beginning of the location and the message; it ends with a line feed. -/
theorem C29_exit_at {C : Nat} {file : Option (List Char)} {line : Nat} {msg : Option (List Char)} {args : List Arg} {t : List Char} (hl : line < 2 ^ 32)
    (hf : ∀ x, file = some x → NoNul x) (hm : ∀ x, msg = some x → NoNul x) (ha : ArgsNoNul args) (he : ExpandsOpt msg args t) :
    exitAt C file line msg args = .val (shown C (finish C (location file line ++ t))) := by
  unfold exitAt
  have hloc := location_ok file hl
  have hlf : ∀ x, locFormat file line = some x → NoNul x := by
    intro x hx
    unfold locFormat at hx
    split at hx
    · split at hx <;> (cases hx; unfold NoNul; decide)
    · split at hx
      · cases hx; unfold NoNul; decide
      · cases hx
  have hnl : NoNul (location file line) := by
    cases hc : locFormat file line with
    | none =>
      rw [hc] at hloc
      have : location file line = [] := hloc
      rw [this]; intro c hc; simp at hc
    | some x =>
      rw [hc] at hloc
      refine Expands.noNul hloc (hlf x hc) ?_
      intro y hy
      simp at hy
      exact hf y hy.symm
  have hnt : NoNul t := by
    cases hc : msg with
    | none =>
      rw [hc] at he
      have : t = [] := he
      rw [this]; intro c hc; simp at hc
    | some x => rw [hc] at he; exact Expands.noNul he (hm x hc) ha
  have hnn : NoNul (location file line ++ t) := by
    intro c hc
    rcases List.mem_append.1 hc with hc | hc
    · exact hnl c hc
    · exact hnt c hc
  obtain ⟨b, h1, h2⟩ := push_ok (bufOk_init C) hlf hloc
  rw [h1, Out.bind_val]
  simp only [List.nil_append] at h2 ⊢
  by_cases hC : (location file line).length < C
  · cases msg with
    | none =>
      have : t = [] := he
      subst this
      rw [if_neg (by simp), List.append_nil]
      exact print_ok h2 hnl
    | some m =>
      rw [if_pos ⟨by simpa using hC, rfl⟩]
      obtain ⟨r, h3, h4⟩ := parseF_ok (m.length + 1) h2 hC (hm m rfl) he (Nat.lt_succ_self _)
      unfold parse
      simp only [Option.getD_some]
      rw [h3, Out.bind_val]
      exact print_ok h4 hnn
  · rw [if_neg (by simp [hC])]
    exact print_ok (h2.extend (by omega) t) hnn

/-- **C29** The text written is empty or ends with a line feed, and is not longer than the buffer. -/
theorem C29_ends_with_line_feed {C : Nat} {file : Option (List Char)} {line : Nat} {msg : Option (List Char)} {args : List Arg} {t : List Char} (hl : line < 2 ^ 32)
    (hf : ∀ x, file = some x → NoNul x) (hm : ∀ x, msg = some x → NoNul x) (ha : ArgsNoNul args) (he : ExpandsOpt msg args t) :
    ∃ out, exitAt C file line msg args = .val out ∧ (out = [] ∨ out.getLast? = some '\n') ∧ out.length ≤ C + 4 := by
  refine ⟨_, C29_exit_at hl hf hm ha he, ?_⟩
  generalize location file line ++ t = u
  unfold shown finish
  by_cases h1 : u.length < C ∧ u ≠ [] ∧ u.getLast? ≠ some '\n'
  · rw [if_pos h1]
    by_cases h2 : (u ++ ['\n']).length < C
    · rw [if_pos h2]; exact ⟨Or.inr (by simp), by omega⟩
    · rw [if_neg h2]; exact ⟨Or.inr (by simp), by simp⟩
  · rw [if_neg h1]
    by_cases h2 : u.length < C
    · rw [if_pos h2]
      refine ⟨?_, by omega⟩
      by_cases h3 : u = []
      · exact Or.inl h3
      · right
        by_contra h4
        exact h1 ⟨h2, h3, h4⟩
    · rw [if_neg h2]; exact ⟨Or.inr (by simp), by simp⟩

end MM.Fatl
