import Verif.Data.Compress
import Verif.Proof.CompSpec
/-!
# Property C17: compressed label numbers
-/
namespace MM.Data
open MM.Veri MM.Pars MM.Proof

/-- Digits of `j`, as numbers; the first argument bounds the iterations. -/
def numDigs : Nat → Nat → List (Fin 5)
  | 0, _ => []
  | n + 1, j => if j = 0 then [] else numDigs n ((j - 1) / 5) ++ [⟨(j - 1) % 5, Nat.mod_lt _ (by decide)⟩]

theorem digit_tab : ∀ d : Fin 5, "UVWXY".toList.getD d.val ' ' = digitChar d := by decide
theorem letter_tab : ∀ d : Fin 20, "ABCDEFGHIJKLMNOPQRST".toList.getD d.val ' ' = letterChar d := by decide

theorem encDigits_eq : ∀ (n j : Nat), encDigits n j = digText (numDigs n j)
  | 0, _ => rfl
  | n + 1, j => by
    unfold encDigits numDigs
    by_cases h : j = 0
    · rw [if_pos h, if_pos h]; rfl
    · rw [if_neg h, if_neg h, encDigits_eq n, digText_append, digText_one]
      congr 2
      exact digit_tab ⟨(j - 1) % 5, Nat.mod_lt _ (by decide)⟩

theorem countDigits_eq : ∀ (n j : Nat), countDigits n j = (numDigs n j).length
  | 0, _ => rfl
  | n + 1, j => by
    unfold countDigits numDigs
    by_cases h : j = 0
    · rw [if_pos h, if_pos h]; rfl
    · rw [if_neg h, if_neg h, countDigits_eq n]; simp

theorem numDigs_val : ∀ (n j : Nat), j ≤ n → digVal (numDigs n j) = j
  | 0, j, h => by
    have : j = 0 := by omega
    subst this; rfl
  | n + 1, j, h => by
    unfold numDigs
    by_cases h0 : j = 0
    · rw [if_pos h0, h0]; rfl
    · rw [if_neg h0, digVal_snoc, numDigs_val n _ (by omega)]
      dsimp only
      omega

theorem numDigs_digVal : ∀ (ds : List (Fin 5)) (n : Nat), digVal ds ≤ n → numDigs n (digVal ds) = ds := by
  intro ds
  induction ds using List.reverseRecOn with
  | nil => intro n _; cases n <;> rfl
  | append_singleton ds d ih =>
    intro n hn
    rw [digVal_snoc] at hn ⊢
    cases n with
    | zero => omega
    | succ n =>
      unfold numDigs
      have hd := d.isLt
      have e1 : (5 * digVal ds + (d.val + 1) - 1) / 5 = digVal ds := by omega
      have e2 : (5 * digVal ds + (d.val + 1) - 1) % 5 = d.val := by omega
      rw [if_neg (by omega)]
      simp only [e1, e2]
      rw [ih n (by omega)]

/-- The number `lab` in the spelling of the format. -/
def numOf (lab : Nat) : CNum := ⟨numDigs (lab / 20) (lab / 20), ⟨lab % 20, Nat.mod_lt _ (by decide)⟩⟩

theorem encLabel_eq (lab : Nat) : encLabel lab = (numOf lab).text := by
  unfold encLabel CNum.text numOf
  rw [encDigits_eq]
  congr 2
  exact letter_tab ⟨lab % 20, Nat.mod_lt _ (by decide)⟩

theorem numOf_value (lab : Nat) : (numOf lab).value = lab := by
  show digVal _ * 20 + lab % 20 = lab
  unfold numOf
  dsimp only
  rw [numDigs_val _ _ (le_refl _)]
  omega

theorem value_numOf (n : CNum) : numOf n.value = n := by
  obtain ⟨ds, l⟩ := n
  have hl := l.isLt
  show numOf (digVal ds * 20 + l.val) = _
  unfold numOf
  have e1 : (digVal ds * 20 + l.val) / 20 = digVal ds := by omega
  have e2 : (digVal ds * 20 + l.val) % 20 = l.val := by omega
  simp only [e1, e2]
  rw [numDigs_digVal _ _ (le_refl _)]

/-- **C17** The characters written for the label number `lab` spell a number of the format whose value is `lab`; and they are the only spelling of it. -/
theorem C17_encoding_has_value (lab : Nat) : ∃ n : CNum, encLabel lab = n.text ∧ n.value = lab ∧ ∀ m : CNum, m.value = lab → m = n := by
  refine ⟨numOf lab, encLabel_eq lab, numOf_value lab, ?_⟩
  intro m hm
  rw [← hm, value_numOf]

/-- **C17** Every number of the format is written as it is spelled. -/
theorem C17_encoding_onto (n : CNum) : encLabel n.value = n.text := by rw [encLabel_eq, value_numOf]

/-- **C17** The number of characters is the one the program computed beforehand (so internal error 1374 cannot occur). -/
theorem C17_encoding_length (lab : Nat) : (encLabel lab).length = numChrs lab := by
  unfold encLabel numChrs
  rw [encDigits_eq, countDigits_eq]
  simp [digText]; omega

theorem digit_not_letter : ∀ (d : Fin 5) (l : Fin 20), digitChar d ≠ letterChar l := by decide
theorem digit_inj : ∀ (a b : Fin 5), digitChar a = digitChar b → a = b := by decide
theorem letter_inj : ∀ (a b : Fin 20), letterChar a = letterChar b → a = b := by decide
theorem digit_not_Z : ∀ (d : Fin 5), digitChar d ≠ 'Z' := by decide
theorem letter_not_Z : ∀ (d : Fin 20), letterChar d ≠ 'Z' := by decide

/-- A number ends where its letter is: two texts that start with a number start with the same number. -/
theorem text_prefix : ∀ {a b : CNum} {x y : List Char}, a.text ++ x = b.text ++ y → a = b ∧ x = y
  | ⟨[], l⟩, ⟨[], m⟩, x, y, h => by
    simp only [CNum.text, digText_nil, List.nil_append, List.singleton_append, List.cons.injEq] at h
    rw [letter_inj _ _ h.1]; exact ⟨rfl, h.2⟩
  | ⟨[], l⟩, ⟨e :: es, m⟩, x, y, h => by
    simp only [CNum.text, digText, List.map_cons, List.map_nil, List.nil_append, List.cons_append, List.cons.injEq] at h
    exact absurd h.1.symm (digit_not_letter _ _)
  | ⟨d :: ds, l⟩, ⟨[], m⟩, x, y, h => by
    simp only [CNum.text, digText, List.map_cons, List.map_nil, List.nil_append, List.cons_append, List.cons.injEq] at h
    exact absurd h.1 (digit_not_letter _ _)
  | ⟨d :: ds, l⟩, ⟨e :: es, m⟩, x, y, h => by
    simp only [CNum.text, digText, List.map_cons, List.cons_append, List.cons.injEq] at h
    have := text_prefix (a := ⟨ds, l⟩) (b := ⟨es, m⟩) (x := x) (y := y) (by simpa [CNum.text, digText] using h.2)
    obtain ⟨e1, e2⟩ := this
    injection e1 with e3 e4
    subst e3; subst e4
    rw [digit_inj _ _ h.1]; exact ⟨rfl, e2⟩

theorem text_head {a : CNum} : ∃ c t, a.text = c :: t ∧ c ≠ 'Z' := by
  obtain ⟨ds, l⟩ := a
  cases ds with
  | nil => exact ⟨_, _, rfl, letter_not_Z _⟩
  | cons d ds => exact ⟨_, _, rfl, digit_not_Z _⟩

/-- **C17** The letters of a proof can be read in one way only. -/
theorem C17_uniquely_decodable : ∀ (xs ys : List CStep), codeText xs = codeText ys → xs = ys := by
  have nz : ∀ (xs : List CStep) (t : List Char), codeText xs ≠ 'Z' :: t := by
    intro xs t
    cases xs with
    | nil => simp [codeText]
    | cons x xs =>
      obtain ⟨c, u, e, hc⟩ := text_head (a := x.num)
      simp only [codeText, List.flatMap_cons, e, List.cons_append]
      intro h
      injection h with h1 _
      exact hc h1
  have rep : ∀ (m n : Nat) (xs ys : List CStep), List.replicate m 'Z' ++ codeText xs = List.replicate n 'Z' ++ codeText ys → m = n ∧ codeText xs = codeText ys := by
    intro m
    induction m with
    | zero =>
      intro n xs ys h
      cases n with
      | zero => exact ⟨rfl, h⟩
      | succ n => exact absurd h (nz xs _)
    | succ m ih =>
      intro n xs ys h
      cases n with
      | zero => exact absurd h.symm (nz ys _)
      | succ n =>
        simp only [List.replicate_succ, List.cons_append, List.cons.injEq, true_and] at h
        obtain ⟨h1, h2⟩ := ih n xs ys h
        exact ⟨by rw [h1], h2⟩
  intro xs
  induction xs with
  | nil =>
    intro ys h
    cases ys with
    | nil => rfl
    | cons y ys =>
      obtain ⟨c, u, e, hc⟩ := text_head (a := y.num)
      simp [codeText, e] at h
  | cons x xs ih =>
    intro ys h
    cases ys with
    | nil =>
      obtain ⟨c, u, e, hc⟩ := text_head (a := x.num)
      simp [codeText, e] at h
    | cons y ys =>
      have h' : x.num.text ++ (List.replicate x.marks 'Z' ++ codeText xs) = y.num.text ++ (List.replicate y.marks 'Z' ++ codeText ys) := by
        simpa [codeText, List.append_assoc] using h
      obtain ⟨h1, h2⟩ := text_prefix h'
      obtain ⟨h3, h4⟩ := rep _ _ _ _ h2
      rw [ih ys h4]
      obtain ⟨a, b⟩ := x
      obtain ⟨c, d⟩ := y
      simp only at h1 h3
      rw [h1, h3]

/-- **C17** What the parser does with the characters written for label number `lab`: it arrives at the last letter with the number `lab / 20`, so that
`labelMapIndex` becomes `lab / 20 * 20 + lab % 20 = lab`. -/
theorem C17_decoder_reads {E : Env} {W lab : Nat} (hlab : lab < longMax) {s : CState} (h0 : s.idx = 0) :
    crun E W false (encLabel lab) s = letter E W (lab % 20) (W + 1 - s.sp) { s with idx := lab / 20 } := by
  rw [encLabel_eq]
  unfold CNum.text
  have hv : (numOf lab).digs.foldl (fun v (d : Fin 5) => 5 * v + (d.val + 1)) s.idx = lab / 20 := by
    rw [h0]; exact numDigs_val _ _ (le_refl _)
  rw [crun_append, crun_digits (Or.inl rfl) (by rw [hv]; unfold longMax at hlab ⊢; omega), hv]
  show crun E W false [letterChar (numOf lab).last] _ = _
  rw [crun, cchar_letter]
  show (letter E W (lab % 20) (W + 1 - s.sp) { s with idx := lab / 20 }).bind _ = _
  cases letter E W (lab % 20) (W + 1 - s.sp) { s with idx := lab / 20 } <;> rfl

example : encLabel 0 = "A".toList ∧ encLabel 19 = "T".toList ∧ encLabel 20 = "UA".toList ∧ encLabel 119 = "YT".toList ∧ encLabel 120 = "UUA".toList ∧
    encLabel 139 = "UUT".toList ∧ encLabel 140 = "UVA".toList ∧ encLabel 619 = "YYT".toList ∧ encLabel 620 = "UUUA".toList := by decide +kernel

theorem numDigs_mono : ∀ {n m j k : Nat}, j ≤ k → j ≤ n → k ≤ m → (numDigs n j).length ≤ (numDigs m k).length
  | 0, _, _, _, _, _, _ => by simp [numDigs]
  | n + 1, 0, j, k, h1, _, h3 => by
    have : j = 0 := by omega
    subst this
    simp [numDigs]
  | n + 1, m + 1, j, k, h1, h2, h3 => by
    unfold numDigs
    by_cases hj : j = 0
    · rw [if_pos hj]; simp
    · rw [if_neg hj, if_neg (by omega)]
      have := numDigs_mono (n := n) (m := m) (j := (j - 1) / 5) (k := (k - 1) / 5) (by omega) (by omega) (by omega)
      simpa using this

/-- **C17** Larger numbers are not shorter. -/
theorem numChrs_mono {a b : Nat} (h : a ≤ b) : numChrs a ≤ numChrs b := by
  unfold numChrs
  rw [countDigits_eq, countDigits_eq]
  have := numDigs_mono (n := a / 20) (m := b / 20) (j := a / 20) (k := b / 20) (by omega) (le_refl _) (le_refl _)
  omega

end MM.Data
