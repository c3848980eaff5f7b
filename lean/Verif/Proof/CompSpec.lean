import Verif.Proof.CompText
import Verif.Proof.Props
/-!
# The compressed proof format

Independent description of the letters of a compressed proof (Metamath book, Appendix B), and the proof that the decoder reads them so.
-/
namespace MM.Proof
open MM.Veri MM.Pars MM.Lex

/-- The letters `A` to `T`. -/
def letters : List Char := ['A', 'B', 'C', 'D', 'E', 'F', 'G', 'H', 'I', 'J', 'K', 'L', 'M', 'N', 'O', 'P', 'Q', 'R', 'S', 'T']
/-- The letters `U` to `Y`. -/
def digits : List Char := ['U', 'V', 'W', 'X', 'Y']

def letterChar (w : Fin 20) : Char := letters.get w
def digitChar (d : Fin 5) : Char := digits.get d

/-- A number in the compressed format: digits `U`–`Y`, then one of `A`–`T`. -/
structure CNum where
  digs : List (Fin 5)
  last : Fin 20
deriving DecidableEq, Repr

/-- The number, counted from 0: the digits count in base 5 with the values 1 to 5 (there is no digit zero), the last letter in base 20. -/
def CNum.value (n : CNum) : Nat := n.digs.foldl (fun v d => 5 * v + (d.val + 1)) 0 * 20 + n.last.val

def digText (ds : List (Fin 5)) : List Char := ds.map digitChar
theorem digText_nil : digText [] = [] := rfl
theorem digText_append {a b : List (Fin 5)} : digText (a ++ b) = digText a ++ digText b := by simp [digText]
theorem digText_one {d : Fin 5} : digText [d] = [digitChar d] := rfl
def CNum.text (n : CNum) : List Char := digText n.digs ++ [letterChar n.last]

/-- One step: the number that says what it is, and how many times the step is marked with `Z`. -/
structure CStep where
  num : CNum
  marks : Nat := 0
deriving DecidableEq, Repr

/-- The letters of a compressed proof. -/
def codeText (xs : List CStep) : List Char := xs.flatMap fun x => x.num.text ++ List.replicate x.marks 'Z'

/-- The marked steps, in order; the first step has the number `k`. -/
def marked : Nat → List CStep → List Nat
  | _, [] => []
  | k, x :: xs => List.replicate x.marks k ++ marked (k + 1) xs

/-- What the numbers refer to: first the mandatory hypotheses and the labels of the list (`base`), then the steps marked so far. -/
structure Decodes (base : List Ref) (xs : List CStep) (refs : List Ref) : Prop where
  len : refs.length = xs.length
  get : ∀ k x, xs[k]? = some x → refs[k]? = (base ++ (marked 0 (xs.take k)).map Ref.step)[x.num.value]?

/-! ### Lemmas -/

theorem marked_append : ∀ {xs ys : List CStep} {k : Nat}, marked k (xs ++ ys) = marked k xs ++ marked (k + xs.length) ys
  | [], ys, k => by simp [marked]
  | x :: xs, ys, k => by
    simp only [List.cons_append, marked, List.append_assoc, List.length_cons]
    rw [marked_append]
    congr 3
    omega

theorem codeText_append {xs ys : List CStep} : codeText (xs ++ ys) = codeText xs ++ codeText ys := by simp [codeText]

theorem Decodes.nil {base : List Ref} : Decodes base [] [] := ⟨rfl, by simp⟩

theorem Decodes.snoc {base : List Ref} {xs : List CStep} {refs : List Ref} (h : Decodes base xs refs) {x : CStep} {ref : Ref}
    (hx : (base ++ (marked 0 xs).map Ref.step)[x.num.value]? = some ref) : Decodes base (xs ++ [x]) (refs ++ [ref]) := by
  have hlen := h.len
  refine ⟨by simp [h.len], fun k y hy => ?_⟩
  rcases Nat.lt_trichotomy k xs.length with hk | hk | hk
  · rw [List.getElem?_append_left (by omega)] at hy
    rw [List.getElem?_append_left (by omega), h.get k y hy, List.take_append_of_le_length (by omega)]
  · subst hk
    simp at hy; subst hy
    rw [List.take_left, hx, ← h.len]; simp
  · rw [List.getElem?_eq_none (by simp; omega)] at hy; cases hy

theorem Decodes.mark {base : List Ref} {xs : List CStep} {refs : List Ref} {n : CNum} {m m' : Nat} (h : Decodes base (xs ++ [⟨n, m⟩]) refs) :
    Decodes base (xs ++ [⟨n, m'⟩]) refs := by
  have hlen := h.len
  refine ⟨by simpa using h.len, fun k y hy => ?_⟩
  rcases Nat.lt_trichotomy k xs.length with hk | hk | hk
  · rw [List.getElem?_append_left (by omega)] at hy
    rw [h.get k y (by rw [List.getElem?_append_left (by omega)]; exact hy), List.take_append_of_le_length (by omega), List.take_append_of_le_length (by omega)]
  · subst hk
    simp at hy; subst hy
    rw [List.take_left]
    have := h.get xs.length ⟨n, m⟩ (by simp)
    rw [List.take_left] at this
    exact this
  · rw [List.getElem?_eq_none (by simp; omega)] at hy; cases hy

theorem Decodes.init {base : List Ref} {xs : List CStep} {refs : List Ref} {x : CStep} (h : Decodes base (xs ++ [x]) refs) :
    ∃ refs' ref, refs = refs' ++ [ref] ∧ Decodes base xs refs' ∧ (base ++ (marked 0 xs).map Ref.step)[x.num.value]? = some ref := by
  rcases List.eq_nil_or_concat refs with h0 | ⟨refs', ref, h0⟩
  · have := h.len; rw [h0] at this; simp at this
  · rw [List.concat_eq_append] at h0
    subst h0
    have hlen : refs'.length = xs.length := by have := h.len; simp at this; exact this
    refine ⟨refs', ref, rfl, ⟨hlen, fun k y hy => ?_⟩, ?_⟩
    · have hk : k < xs.length := by by_contra hc; rw [List.getElem?_eq_none (by omega)] at hy; cases hy
      have := h.get k y (by rw [List.getElem?_append_left hk]; exact hy)
      rw [List.getElem?_append_left (by omega), List.take_append_of_le_length (by omega)] at this
      exact this
    · have := h.get xs.length x (by simp)
      rw [List.take_left] at this
      rw [← this, ← hlen]; simp

theorem letter_char : ∀ w : Fin 20, (letterChar w).toNat = 65 + w.val := by decide
theorem digit_char : ∀ w : Fin 5, (digitChar w).toNat = 85 + w.val := by decide

variable {E : Env} {p W : Nat} {bg : Bool}

theorem cchar_letter (w : Fin 20) (s : CState) : cchar E W bg (letterChar w) s = letter E W w.val (W + 1 - s.sp) s := by
  have h := letter_char w
  have hw := w.isLt
  unfold cchar
  rw [if_neg (by omega), if_pos (by omega), h]
  congr 1; omega

theorem cchar_digit (w : Fin 5) (s : CState) : cchar E W bg (digitChar w) s = digit bg w.val s := by
  have h := digit_char w
  have hw := w.isLt
  unfold cchar
  rw [if_neg (by omega), if_neg (by omega), if_pos (by omega), h]
  congr 1; omega

theorem cchar_Z (s : CState) : cchar E W bg 'Z' s = zed E W s := by
  unfold cchar
  rw [if_neg (by decide), if_neg (by decide), if_neg (by decide), if_pos rfl]

theorem char_letter {c : Char} (h : 65 ≤ c.toNat ∧ c.toNat ≤ 84) : ∃ w : Fin 20, c = letterChar w ∧ w.val = c.toNat - 65 := by
  refine ⟨⟨c.toNat - 65, by omega⟩, ?_, rfl⟩
  apply Char.ext
  apply UInt32.toNat_inj.1
  have h1 := letter_char ⟨c.toNat - 65, (by omega : c.toNat - 65 < 20)⟩
  show c.toNat = Char.toNat _
  rw [h1]; dsimp only; omega

theorem char_digit {c : Char} (h : 85 ≤ c.toNat ∧ c.toNat ≤ 89) : ∃ w : Fin 5, c = digitChar w ∧ w.val = c.toNat - 85 := by
  refine ⟨⟨c.toNat - 85, by omega⟩, ?_, rfl⟩
  apply Char.ext
  apply UInt32.toNat_inj.1
  have h1 := digit_char ⟨c.toNat - 85, (by omega : c.toNat - 85 < 5)⟩
  show c.toNat = Char.toNat _
  rw [h1]; dsimp only; omega

/-! ### What the decoder accepts -/

/-- The value of the digits. -/
def digVal (ds : List (Fin 5)) : Nat := ds.foldl (fun v d => 5 * v + (d.val + 1)) 0

theorem digVal_snoc (ds : List (Fin 5)) (d : Fin 5) : digVal (ds ++ [d]) = 5 * digVal ds + (d.val + 1) := by
  simp [digVal]

theorem digVal_zero {ds : List (Fin 5)} : digVal ds = 0 ↔ ds = [] := by
  rcases List.eq_nil_or_concat ds with h | ⟨l, a, h⟩
  · simp [h, digVal]
  · rw [List.concat_eq_append] at h
    subst h
    rw [digVal_snoc]
    simp

/-- The state after the steps `xs` with the meaning `refs`, and the digits `ds` of the next number. -/
structure CAt (base : List Ref) (xs : List CStep) (refs : List Ref) (ds : List (Fin 5)) (s : CState) : Prop where
  proof : s.proof = refs.map Ref.code
  map : s.map = (base ++ (marked 0 xs).map Ref.step).map Ref.code
  idx : s.idx = digVal ds

/-- Only assertion steps are marked. -/
def MarksOk (E : Env) (xs : List CStep) (refs : List Ref) : Prop :=
  ∀ (k : Nat) (x : CStep) (ref : Ref), xs[k]? = some x → refs[k]? = some ref → x.marks ≠ 0 → isPush E ref.code = false

theorem MarksOk.snoc {xs : List CStep} {refs : List Ref} (h : MarksOk E xs refs) (hl : refs.length = xs.length) {n : CNum} {ref : Ref} {m : Nat}
    (hm : m ≠ 0 → isPush E ref.code = false) : MarksOk E (xs ++ [⟨n, m⟩]) (refs ++ [ref]) := by
  intro k x r hx hr h0
  rcases Nat.lt_trichotomy k xs.length with hk | hk | hk
  · rw [List.getElem?_append_left (by omega)] at hx hr
    exact h k x r hx hr h0
  · subst hk
    simp at hx; subst hx
    rw [← hl] at hr; simp at hr; subst hr
    exact hm h0
  · rw [List.getElem?_eq_none (by simp; omega)] at hx; cases hx

/-- The decoder accepts only texts of the format, and stores what they mean. -/
theorem crun_sound {base : List Ref} : ∀ {cs : List Char} {xs : List CStep} {refs : List Ref} {ds : List (Fin 5)} {s s' : CState},
    (∀ c ∈ cs, isSpace c = false) → CAt base xs refs ds s → Decodes base xs refs → MarksOk E xs refs → crun E W false cs s = .val s' → s'.ret = 0 → s'.idx = 0 →
    ∃ ys refs', codeText xs ++ digText ds ++ cs = codeText ys ∧ Decodes base ys refs' ∧ MarksOk E ys refs' ∧ s'.proof = refs'.map Ref.code := by
  intro cs
  induction cs with
  | nil =>
    intro xs refs ds s s' hns hat hd hmk h hr hi
    cases h
    have : ds = [] := digVal_zero.1 (by rw [← hat.idx]; exact hi)
    subst this
    exact ⟨xs, refs, by simp [digText_nil], hd, hmk, hat.proof⟩
  | cons c cs ih =>
    intro xs refs ds s s' hns hat hd hmk h hr hi
    have hns' : ∀ d ∈ cs, isSpace d = false := fun d hd => hns d (by simp [hd])
    rw [crun] at h
    cases h1 : cchar E W false c s <;> rw [h1] at h
    case val s1 =>
      rw [Out.bind_val] at h
      have hr1 : s1.ret = 0 := by
        have : ∀ {cs : List Char} {s s' : CState}, crun E W false cs s = .val s' → s.ret ≤ s'.ret := by
          intro cs
          induction cs with
          | nil => intro s s' h; cases h; exact le_refl _
          | cons c cs ih2 =>
            intro s s' h
            rw [crun] at h
            cases h3 : cchar E W false c s <;> rw [h3] at h
            · exact Nat.le_trans (cchar_mono h3).ret (ih2 h)
            all_goals cases h
        have := this h
        omega
      have hrs : s.ret = 0 := by have := (cchar_mono h1).ret; omega
      unfold cchar at h1
      split at h1
      · cases h1
      split at h1
      · -- a letter
        rename_i hc
        obtain ⟨w, rfl, hw⟩ := char_letter hc
        have hn : (⟨ds, w⟩ : CNum).value = s.idx * 20 + (letterChar w |>.toNat) - 65 := by
          rw [letter_char, hat.idx]; unfold CNum.value digVal; dsimp only; omega
        rw [letter_char] at h1 hn
        simp only [Nat.add_sub_cancel_left] at h1
        have hval : (⟨ds, w⟩ : CNum).value = s.idx * 20 + w.val := by omega
        cases hk : W + 1 - s.sp with
        | zero => rw [hk] at h1; cases h1
        | succ n =>
          rw [hk, letter] at h1
          split at h1
          · cases h1
          split at h1
          · cases h1
          dsimp only at h1
          cases hm : s.map[if decide (s.idx * 20 + w.val ≥ s.map.length) = true then 0 else s.idx * 20 + w.val]? with
          | none => rw [hm] at h1; cases h1
          | some st =>
            rw [hm] at h1
            dsimp only at h1
            have hbad : decide (s.idx * 20 + w.val ≥ s.map.length) = false := by
              by_contra hc
              simp only [Bool.not_eq_false] at hc
              rw [hc] at h1
              simp only [if_true] at h1
              split at h1
              · split at h1
                · cases h1
                · cases h1; dsimp only at hr1; omega
              · split at h1
                · split at h1
                  · cases h1
                  · have := (letter_mono h1).ret; dsimp only at this; omega
                · split at h1
                  · cases h1
                  · cases h1; dsimp only at hr1; omega
            rw [hbad] at h1 hm
            simp only [Bool.false_eq_true, if_false, Nat.add_zero] at h1 hm
            rw [hat.map, List.getElem?_map] at hm
            cases href : (base ++ (marked 0 xs).map Ref.step)[s.idx * 20 + w.val]? with
            | none => rw [href] at hm; cases hm
            | some ref =>
              rw [href] at hm
              simp only [Option.map_some, Option.some.injEq] at hm
              subst hm
              have hd' := hd.snoc (x := ⟨⟨ds, w⟩, 0⟩) (by show _ = some ref; rw [hval]; exact href)
              have hmk' := hmk.snoc hd.len (n := ⟨ds, w⟩) (ref := ref) (m := 0) (by simp)
              have hcode : codeText (xs ++ [⟨⟨ds, w⟩, 0⟩]) ++ digText [] ++ cs = codeText xs ++ digText ds ++ letterChar w :: cs := by
                simp [codeText, CNum.text, digText_nil]
              have hmap : (marked 0 (xs ++ [⟨⟨ds, w⟩, 0⟩])) = marked 0 xs := by simp [marked_append, marked]
              have hfin : ∀ s2 : CState, crun E W false cs s2 = .val s' → s2.proof = s.proof ++ [ref.code] → s2.map = s.map → s2.idx = 0 →
                  ∃ ys refs', codeText xs ++ digText ds ++ letterChar w :: cs = codeText ys ∧ Decodes base ys refs' ∧ MarksOk E ys refs' ∧ s'.proof = refs'.map Ref.code := by
                intro s2 hrun e1 e2 e3
                rw [← hcode]
                refine ih hns' ⟨?_, ?_, ?_⟩ hd' hmk' hrun hr hi
                · rw [e1, hat.proof]; simp
                · rw [e2, hat.map, hmap]
                · rw [e3]; rfl
              split at h1
              · split at h1
                · cases h1
                · cases h1; exact hfin _ h rfl rfl rfl
              · split at h1
                · split at h1
                  · cases h1
                  · have := (letter_mono h1).ret; dsimp only at this; omega
                · split at h1
                  · cases h1
                  · cases h1; exact hfin _ h rfl rfl rfl
      split at h1
      · -- a digit
        rename_i hc
        obtain ⟨w, rfl, hw⟩ := char_digit hc
        rw [digit_char] at h1
        simp only [Nat.add_sub_cancel_left] at h1
        have hfin : ∀ s2 : CState, crun E W false cs s2 = .val s' → s2.proof = s.proof → s2.map = s.map → s2.idx = 5 * s.idx + (w.val + 1) →
            ∃ ys refs', codeText xs ++ digText ds ++ digitChar w :: cs = codeText ys ∧ Decodes base ys refs' ∧ MarksOk E ys refs' ∧ s'.proof = refs'.map Ref.code := by
          intro s2 hrun e1 e2 e3
          have := ih hns' (ds := ds ++ [w]) ⟨by rw [e1]; exact hat.proof, by rw [e2]; exact hat.map, by rw [e3, digVal_snoc, hat.idx]⟩ hd hmk hrun hr hi
          simpa [digText_append, digText_one] using this
        unfold digit at h1
        split at h1
        · cases h1
          exact hfin _ h rfl rfl (by dsimp only; omega)
        split at h1
        · cases h1
        · cases h1
          exact hfin _ h rfl rfl (by simp; omega)
      split at h1
      · -- Z
        rename_i hc
        subst hc
        unfold zed at h1
        dsimp only at h1
        have hidx : s.idx = 0 := by
          by_contra hc
          have : (expected s).ret ≥ 2 := by unfold expected; rw [if_neg hc]; dsimp only; omega
          split at h1
          · cases h1
          split at h1
          · cases h1; dsimp only at hr1; omega
          · cases h1; dsimp only at hr1; split at hr1 <;> omega
        have hex : expected s = s := by unfold expected; rw [if_pos hidx]
        rw [hex] at h1
        have hds : ds = [] := digVal_zero.1 (by rw [← hat.idx]; exact hidx)
        subst hds
        split at h1
        · cases h1
        cases hl : s.proof.getLast? with
        | none => rw [hl] at h1; cases h1; dsimp only at hr1; omega
        | some st =>
          rw [hl] at h1
          cases h1
          dsimp only at hr1
          have hpush : isPush E st = false := by
            by_contra hc
            simp only [Bool.not_eq_false] at hc
            rw [hc] at hr1; simp at hr1
          rcases List.eq_nil_or_concat xs with hx | ⟨ys, y, hx⟩
          · exfalso
            rw [hx] at hd
            have := hd.len
            simp at this
            rw [hat.proof, this] at hl; cases hl
          · rw [List.concat_eq_append] at hx
            subst hx
            obtain ⟨n, m⟩ := y
            have hd' := hd.mark (m' := m + 1)
            obtain ⟨refs', ref, rfl, hd0, hget⟩ := hd.init
            have hst : st = ref.code := by rw [hat.proof] at hl; simp at hl; exact hl.symm
            rw [hst] at hpush
            have hmk0 : MarksOk E ys refs' := by
              intro k x r hx hr
              have hk : k < ys.length := by by_contra hc; rw [List.getElem?_eq_none (by omega)] at hx; cases hx
              refine hmk k x r ?_ ?_
              · rw [List.getElem?_append_left hk]; exact hx
              · rw [List.getElem?_append_left (by rw [hd0.len]; exact hk)]; exact hr
            have hmk' := hmk0.snoc hd0.len (n := n) (ref := ref) (m := m + 1) (fun _ => hpush)
            have hcode : codeText (ys ++ [⟨n, m⟩]) ++ digText [] ++ 'Z' :: cs = codeText (ys ++ [⟨n, m + 1⟩]) ++ digText [] ++ cs := by
              simp [codeText, digText_nil, List.replicate_succ']
            rw [hcode]
            refine ih hns' ⟨?_, ?_, ?_⟩ hd' hmk' h hr hi
            · exact hat.proof
            · dsimp only
              rw [hat.map, marked_append, marked_append]
              simp only [marked, Nat.zero_add, List.append_nil, List.map_append, List.replicate_succ', List.map_replicate, List.append_assoc, List.map_cons, List.map_nil]
              congr 4
              rw [hat.proof]
              simp [Ref.code, hd0.len]
            · exact hidx
      split at h1
      · -- white space never occurs in the result
        rename_i hsp
        cases h1
        rw [hns c (by simp)] at hsp; cases hsp
      split at h1
      · have := (quest_mono h1).2
        omega
      · cases h1; dsimp only at hr1; omega
    all_goals cases h

/-! ### What the decoder must accept -/

theorem depth_snoc {db : Db} {l : List Int} {a : Int} {n : Nat} (h : Depth db (l ++ [a]) n) : ∃ m, Depth db l m ∧
    (((a = unk ∨ a ≤ -1000 ∨ (0 ≤ a ∧ ((db.stmt a.toNat).kind = .e ∨ (db.stmt a.toNat).kind = .f))) ∧ n = m + 1) ∨
      (0 ≤ a ∧ ((db.stmt a.toNat).kind = .a ∨ (db.stmt a.toNat).kind = .p) ∧ (db.stmt a.toNat).reqHyp.length ≤ m ∧
        n = m - (db.stmt a.toNat).reqHyp.length + 1)) := by
  generalize hq : l ++ [a] = q at h
  cases h with
  | nil => simp at hq
  | @push l' n' a' h1 h2 =>
    obtain ⟨rfl, h3⟩ := List.append_inj' hq rfl
    simp at h3; subst h3
    exact ⟨_, h1, Or.inl ⟨h2, rfl⟩⟩
  | @use l' n' a' h1 h2 h3 h4 =>
    obtain ⟨rfl, h5⟩ := List.append_inj' hq rfl
    simp at h5; subst h5
    exact ⟨_, h1, Or.inr ⟨h2, h3, h4, rfl⟩⟩

theorem depth_le {db : Db} {l : List Int} {n : Nat} (h : Depth db l n) : n ≤ l.length := by
  induction h with
  | nil => simp
  | push _ _ ih => simp; omega
  | use _ _ _ _ ih => simp; omega

theorem crun_digits {ds : List (Fin 5)} : ∀ {s : CState}, bg = false ∨ (s.idx = 0 ∧ ds.length ≤ 1) →
    (ds.foldl (fun v (d : Fin 5) => 5 * v + (d.val + 1)) s.idx) < longMax →
    crun E W bg (digText ds) s = .val { s with idx := ds.foldl (fun v (d : Fin 5) => 5 * v + (d.val + 1)) s.idx } := by
  induction ds with
  | nil => intro s _ _; rfl
  | cons d ds ih =>
    intro s hbg h
    rw [List.foldl_cons] at h
    have hmono : ∀ (l : List (Fin 5)) (a : Nat), a ≤ l.foldl (fun v (d : Fin 5) => 5 * v + (d.val + 1)) a := by
      intro l
      induction l with
      | nil => intro a; exact le_refl _
      | cons x l ihl => intro a; rw [List.foldl_cons]; have := ihl (5 * a + (x.val + 1)); omega
    have h1 := hmono ds (5 * s.idx + (d.val + 1))
    have hd : digit bg d.val s = .val { s with idx := 5 * s.idx + (d.val + 1) } := by
      unfold digit
      by_cases h0 : s.idx = 0
      · rw [if_pos h0, h0]; simp
      · rw [if_neg h0, if_neg (by omega)]
        have : bg = false := by rcases hbg with h | h; exact h; exact absurd h.1 h0
        subst this
        simp only [Bool.false_eq_true, if_false]
        congr 2; omega
    show crun E W bg (digitChar d :: digText ds) s = _
    rw [crun, cchar_digit, hd, Out.bind_val]
    cases ds with
    | nil => rfl
    | cons x ds =>
      have hb : bg = false := by
        rcases hbg with h | h
        · exact h
        · have := h.2; simp at this
      rw [ih (Or.inl hb) h]
      rfl

theorem isPush_false {a : Int} (h0 : 0 ≤ a) (hk : (E.stmt a.toNat).kind = .a ∨ (E.stmt a.toNat).kind = .p) : isPush E a = false := by
  unfold isPush
  rcases hk with hk | hk <;> rw [hk] <;> simp <;> omega

theorem isPush_true {a : Int} (h : a = unk ∨ a ≤ -1000 ∨ (0 ≤ a ∧ ((E.stmt a.toNat).kind = .e ∨ (E.stmt a.toNat).kind = .f))) : isPush E a = true := by
  unfold isPush
  rcases h with rfl | h | ⟨_, h | h⟩
  · simp [unk]
  · rw [decide_eq_true (by omega : a < 0)]; rfl
  · rw [h]; simp
  · rw [h]; simp

theorem crun_marks {m : Nat} : ∀ {s : CState} {st : Int}, s.idx = 0 → s.proof.getLast? = some st → isPush E st = false ∨ m = 0 → s.map.length + m ≤ W →
    crun E W bg (List.replicate m 'Z') s = .val { s with map := s.map ++ List.replicate m (-1000 - ((s.proof.length : Int) - 1)) } := by
  induction m with
  | zero => intro s st _ _ _ _; simp [crun]
  | succ m ih =>
    intro s st h0 hl hp hW
    have hp' : isPush E st = false := by rcases hp with h | h; exact h; omega
    have hz : zed E W s = .val { s with map := s.map ++ [-1000 - ((s.proof.length : Int) - 1)] } := by
      unfold zed
      have hex : expected s = s := by unfold expected; rw [if_pos h0]
      dsimp only
      rw [hex, if_neg (by omega), hl]
      simp [hp']
    have hi := ih (s := { s with map := s.map ++ [-1000 - ((s.proof.length : Int) - 1)] }) (st := st) h0 hl (Or.inl hp') (by simp; omega)
    rw [List.replicate_succ, crun, cchar_Z, hz, Out.bind_val, hi]
    simp [List.replicate_succ, List.append_assoc]

/-- The decoder reads every text of the format, as long as the work arrays are big enough and the stack is kept. -/
theorem crun_complete {base : List Ref} {r0 e0 : Nat} (hW : W ≤ longMax) {xs : List CStep} (hbg : bg = false ∨ ∀ x ∈ xs, x.num.digs.length ≤ 1) : ∀ {refs : List Ref} {n : Nat}, Decodes base xs refs → MarksOk E xs refs →
    Depth E.toDb (refs.map Ref.code) n → xs.length ≤ W → base.length + (marked 0 xs).length ≤ W →
    crun E W bg (codeText xs) { map := base.map Ref.code, ret := r0, ec := e0 } =
      .val { proof := refs.map Ref.code, sp := n, map := (base ++ (marked 0 xs).map Ref.step).map Ref.code, idx := 0, ret := r0, ec := e0 } := by
  induction xs using List.reverseRecOn with
  | nil =>
    intro refs n hd _ hD _ _
    have : refs = [] := List.length_eq_zero_iff.1 hd.len
    subst this
    have h0 := depth_le hD
    simp at h0; subst h0
    simp [codeText, crun, marked]
  | append_singleton xs x ih =>
    intro refs n hd hmk hD hlen hmap
    obtain ⟨num, m⟩ := x
    obtain ⟨refs', ref, rfl, hd', hget⟩ := hd.init
    dsimp only at hget
    rw [List.map_append, List.map_cons, List.map_nil] at hD
    obtain ⟨k, hD', hcase⟩ := depth_snoc hD
    have hmk' : MarksOk E xs refs' := by
      intro k x r hx hr
      have hk : k < xs.length := by by_contra hc; rw [List.getElem?_eq_none (by omega)] at hx; cases hx
      refine hmk k x r ?_ ?_
      · rw [List.getElem?_append_left hk]; exact hx
      · rw [List.getElem?_append_left (by rw [hd'.len]; exact hk)]; exact hr
    rw [marked_append] at hmap
    simp only [marked, Nat.zero_add, List.append_nil, List.length_append, List.length_replicate] at hmap
    simp only [List.length_append, List.length_cons, List.length_nil, Nat.zero_add] at hlen
    have hrun := ih (hbg.imp id fun h x hx => h x (by simp [hx])) hd' hmk' hD' (by omega) (by omega)
    have hk := depth_le hD'
    simp only [List.length_map] at hk
    have hl' := hd'.len
    rw [codeText_append, crun_append, hrun]
    show crun E W bg (codeText [⟨num, m⟩]) _ = _
    have hlt : num.value < base.length + (marked 0 xs).length := by
      by_contra hc
      rw [List.getElem?_eq_none (by simp; omega)] at hget; cases hget
    have hct : codeText [⟨num, m⟩] = digText num.digs ++ (letterChar num.last :: List.replicate m 'Z') := by simp [codeText, CNum.text]
    have hval : num.value = num.digs.foldl (fun v (d : Fin 5) => 5 * v + (d.val + 1)) 0 * 20 + num.last.val := rfl
    rw [hct, crun_append, crun_digits (hbg.imp id fun h => ⟨rfl, h ⟨num, m⟩ (by simp)⟩) (by dsimp only; omega)]
    generalize hidx : num.digs.foldl (fun v (d : Fin 5) => 5 * v + (d.val + 1)) 0 = v at hval
    show crun E W bg (letterChar num.last :: List.replicate m 'Z') _ = _
    dsimp only
    rw [crun, cchar_letter]
    have hfuel : W + 1 - k = (W - k) + 1 := by omega
    have hget' : ((base ++ (marked 0 xs).map Ref.step).map Ref.code)[v * 20 + num.last.val]? = some ref.code := by
      rw [List.getElem?_map, ← hval, hget]; rfl
    have hlt' : ¬ (v * 20 + num.last.val ≥ ((base ++ (marked 0 xs).map Ref.step).map Ref.code).length) := by simp; omega
    have hletter : letter E W num.last.val (W + 1 - k) { proof := refs'.map Ref.code, sp := k, map := (base ++ (marked 0 xs).map Ref.step).map Ref.code, idx := v, ret := r0, ec := e0 } =
        .val { proof := refs'.map Ref.code ++ [ref.code], sp := n, map := (base ++ (marked 0 xs).map Ref.step).map Ref.code, idx := 0, ret := r0, ec := e0 } := by
      rw [hfuel, letter]
      rw [if_neg (by simp; omega), if_neg (by dsimp only; omega)]
      dsimp only
      rw [decide_eq_false hlt']
      simp only [Bool.false_eq_true, if_false, hget', Nat.add_zero]
      rcases hcase with ⟨h1, h2⟩ | ⟨h1, h2, h3, h4⟩
      · rw [if_pos (isPush_true h1), if_neg (by omega), h2]
      · rw [if_neg (by rw [isPush_false h1 h2]; simp), if_neg (by omega), if_neg (by omega), h4]
    dsimp only
    rw [hletter, Out.bind_val]
    have hmarks := crun_marks (E := E) (W := W) (bg := bg) (m := m)
      (s := { proof := refs'.map Ref.code ++ [ref.code], sp := n, map := (base ++ (marked 0 xs).map Ref.step).map Ref.code, idx := 0, ret := r0, ec := e0 })
      (st := ref.code) rfl (by simp) (by
        by_cases h0 : m = 0
        · exact Or.inr h0
        · left
          refine hmk xs.length ⟨num, m⟩ ref (by simp) ?_ h0
          rw [← hl']; simp) (by simp; omega)
    rw [hmarks]
    congr 2
    · simp
    · rw [marked_append]
      simp [marked, Ref.code, hl']

end MM.Proof
