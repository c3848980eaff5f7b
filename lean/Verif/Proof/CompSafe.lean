import Verif.Proof.CompProps
/-!
# C20: parsing a compressed proof is memory safe, under conditions
-/
namespace MM.Proof
open MM.Veri MM.Pars MM.Lex MM.Spec

variable {E : Env} {p W : Nat} {bg : Bool}

/-- No number of the code has more than 25 digits `U`–`Y`: a part of the code without a letter `A`–`T`, a `Z` or a `?` has at most 25 of them. -/
def DigitsShort (code : List Char) : Prop :=
  ∀ x, x <:+: code → (∀ c ∈ x, c ∉ letters ∧ c ≠ 'Z' ∧ c ≠ '?') → (x.filter fun c => decide (c ∈ digits)).length ≤ 25

/-! ### Lemmas -/

/-- The largest index after `d` digits. -/
def gmax : Nat → Nat
  | 0 => 0
  | d + 1 => 5 * gmax d + 5

theorem gmax_mono {a b : Nat} (h : a ≤ b) : gmax a ≤ gmax b := by
  induction h with
  | refl => exact le_refl _
  | step _ ih => simp only [gmax]; omega

theorem gmax_25 : gmax 25 * 20 + 20 ≤ longMax := by decide

/-- The digits since the last reset are `d`; the rest is `cs`. -/
def Short : Nat → List Char → Prop
  | _, [] => True
  | d, c :: cs => if c ∈ letters ∨ c = 'Z' ∨ c = '?' then Short 0 cs else if c ∈ digits then d + 1 ≤ 25 ∧ Short (d + 1) cs else Short d cs

theorem short_of : ∀ (cs : List Char) (d : Nat), DigitsShort cs →
    (∀ x, x <+: cs → (∀ c ∈ x, c ∉ letters ∧ c ≠ 'Z' ∧ c ≠ '?') → d + (x.filter fun c => decide (c ∈ digits)).length ≤ 25) → Short d cs := by
  intro cs
  induction cs with
  | nil => intro d _ _; trivial
  | cons c cs ih =>
    intro d h1 h2
    have h1' : DigitsShort cs := fun x hx hc => h1 x (hx.trans ⟨[c], [], by simp⟩) hc
    rw [Short]
    split
    · exact ih 0 h1' (fun x hx hc => by have := h1' x hx.isInfix hc; omega)
    · rename_i hn
      simp only [not_or] at hn
      have key : ∀ x, x <+: cs → (∀ c ∈ x, c ∉ letters ∧ c ≠ 'Z' ∧ c ≠ '?') → d + ((c :: x).filter fun c => decide (c ∈ digits)).length ≤ 25 := by
        intro x hx hc
        apply h2 _ (by rw [List.cons_prefix_cons]; exact ⟨rfl, hx⟩)
        intro y hy
        rcases List.mem_cons.1 hy with rfl | hy
        · exact hn
        · exact hc y hy
      split
      · rename_i hd
        refine ⟨?_, ih (d + 1) h1' ?_⟩
        · have := key [] (List.nil_prefix) (by simp)
          rw [List.filter_cons_of_pos (by simpa using hd)] at this
          simpa using this
        · intro x hx hc
          have := key x hx hc
          rw [List.filter_cons_of_pos (by simpa using hd)] at this
          simp at this ⊢; omega
      · rename_i hd
        refine ih d h1' ?_
        intro x hx hc
        have := key x hx hc
        rwa [List.filter_cons_of_neg (by simpa using hd)] at this

/-- A letter. -/
theorem letter_safe {w S : Nat} (hw : w < 20) (hW : W ≤ 2 ^ 58) (hS : S < W)
    (hH : ∀ i, (E.stmt i).kind = .a ∨ (E.stmt i).kind = .p → (E.stmt i).reqHyp.length ≤ S) : ∀ (n : Nat) (s : CState), n = W + 1 - s.sp →
    s.proof.length < W → s.map ≠ [] → s.map.length ≤ W → s.idx * 20 + w < longMax → s.sp ≤ S →
    ∃ s', letter E W w n s = .val s' ∧ s'.proof.length = s.proof.length + 1 ∧ s'.map = s.map ∧ s'.idx = 0 ∧ s'.sp ≤ S + 1 := by
  intro n
  induction n with
  | zero => intro s h; omega
  | succ n ih =>
    intro s hn h1 h2 h3 h4 h5
    rw [letter, if_neg (by omega), if_neg (by omega)]
    have hpos := List.length_pos_iff.2 h2
    generalize hi : (if decide (s.idx * 20 + w ≥ s.map.length) = true then 0 else s.idx * 20 + w) = i
    have hlt : i < s.map.length := by
      rw [← hi]
      split
      · exact hpos
      · rename_i h; simpa using h
    dsimp only
    rw [hi, List.getElem?_eq_getElem hlt]
    dsimp only
    split
    · rw [if_neg (by omega)]
      exact ⟨_, rfl, by simp, rfl, rfl, by dsimp only; omega⟩
    · rename_i hp
      have hk := hH (s.map[i]).toNat (by
        unfold isPush at hp
        simp only [Bool.or_eq_true, decide_eq_true_eq, Bool.and_eq_true, not_or, not_and, Decidable.not_not] at hp
        by_contra hc
        simp only [not_or] at hc
        exact hc.2 (hp.2 hc.1))
      split
      · rw [if_neg (by omega)]
        refine ih _ ?_ h1 h2 h3 ?_ ?_
        · dsimp only; omega
        · have : longMax = 2 ^ 63 := rfl
          dsimp only; omega
        · dsimp only; omega
      · rw [if_neg (by omega)]
        exact ⟨_, rfl, by simp, rfl, rfl, by dsimp only; omega⟩

theorem letter_range {c : Char} (h : 65 ≤ c.toNat ∧ c.toNat ≤ 84) : c ∈ letters := by
  have : ∀ n < 85, 65 ≤ n → Char.ofNat n ∈ letters := by decide
  have h2 := this c.toNat (by omega) h.1
  rwa [Char.ofNat_toNat] at h2

theorem digit_range {c : Char} (h : 85 ≤ c.toNat ∧ c.toNat ≤ 89) : c ∈ digits := by
  have : ∀ n < 90, 85 ≤ n → Char.ofNat n ∈ digits := by decide
  have h2 := this c.toNat (by omega) h.1
  rwa [Char.ofNat_toNat] at h2

theorem letters_range {c : Char} (h : c ∈ letters) : 65 ≤ c.toNat ∧ c.toNat ≤ 84 := by
  revert c; decide
theorem digits_range {c : Char} (h : c ∈ digits) : 85 ≤ c.toNat ∧ c.toNat ≤ 89 := by
  revert c; decide

/-- What is known after `k` characters. -/
structure CSafe (W H M k d : Nat) (s : CState) : Prop where
  proof : s.proof.length ≤ k
  sp : s.sp ≤ H + k
  map : s.map.length ≤ M + k
  idx : s.idx ≤ gmax d
  dig : d ≤ 25

theorem expected_fields (s : CState) : (expected s).proof = s.proof ∧ (expected s).sp = s.sp ∧ (expected s).map = s.map ∧ (expected s).idx = 0 := by
  unfold expected
  split
  · rename_i h; exact ⟨rfl, rfl, rfl, h⟩
  · exact ⟨rfl, rfl, rfl, rfl⟩

theorem crun_safe {H M : Nat} (hW : W ≤ 2 ^ 58)
    (hH : ∀ i, (E.stmt i).kind = .a ∨ (E.stmt i).kind = .p → (E.stmt i).reqHyp.length ≤ H) : ∀ (cs : List Char) (s : CState) (k d : Nat),
    (∀ c ∈ cs, isGraph c = true) → CSafe W H M k d s → s.map ≠ [] → Short d cs → H + k + cs.length < W → M + k + cs.length < W →
    ∃ s' d', crun E W bg cs s = .val s' ∧ CSafe W H M (k + cs.length) d' s' := by
  intro cs
  induction cs with
  | nil => intro s k d _ h _ _ _ _; exact ⟨s, d, rfl, by simpa using h⟩
  | cons c cs ih =>
    intro s k d hg hI hm hsh hb1 hb2
    simp only [List.length_cons] at hb1 hb2
    have hgc := hg c (by simp)
    have hg' : ∀ c ∈ cs, isGraph c = true := fun x hx => hg x (by simp [hx])
    -- one character
    have one : ∃ s1 d1, cchar E W bg c s = .val s1 ∧ CSafe W H M (k + 1) d1 s1 ∧ s1.map ≠ [] ∧ Short d1 cs := by
      have hr : c.toNat < 128 := by
        unfold isGraph at hgc
        simp at hgc
        omega
      obtain ⟨e1, e2, e3, e4⟩ := expected_fields s
      unfold cchar
      rw [if_neg (by omega)]
      rw [Short] at hsh
      by_cases h1 : 65 ≤ c.toNat ∧ c.toNat ≤ 84
      · rw [if_pos h1]
        rw [if_pos (Or.inl (letter_range h1))] at hsh
        have hd : s.idx * 20 + (c.toNat - 65) < longMax := by
          have := gmax_mono hI.dig
          have := gmax_25
          have := hI.idx
          omega
        obtain ⟨s1, l1, l2, l3, l4, l5⟩ := letter_safe (w := c.toNat - 65) (S := H + k) (by omega) hW (by omega) (fun i hi => by have := hH i hi; omega) _ s rfl
          (by have := hI.proof; omega) hm (by have := hI.map; omega) hd (by have := hI.sp; omega)
        refine ⟨s1, 0, l1, ⟨?_, ?_, ?_, ?_, ?_⟩, by rw [l3]; exact hm, hsh⟩
        · have := hI.proof; omega
        · omega
        · have := hI.map; rw [l3]; omega
        · rw [l4]; omega
        · omega
      · rw [if_neg h1]
        have hnl : c ∉ letters := fun h => h1 (letters_range h)
        by_cases h2 : 85 ≤ c.toNat ∧ c.toNat ≤ 89
        · rw [if_pos h2]
          have hz : c ≠ 'Z' := by rintro rfl; revert h2; decide
          have hq : c ≠ '?' := by rintro rfl; revert h2; decide
          rw [if_neg (by simp [hnl, hz, hq]), if_pos (digit_range h2)] at hsh
          have hg1 : gmax (d + 1) = 5 * gmax d + 5 := rfl
          have hb := hI.idx
          unfold digit
          split
          · refine ⟨_, d + 1, rfl, ⟨by have := hI.proof; dsimp only; omega, by have := hI.sp; dsimp only; omega, by have := hI.map; dsimp only; omega, ?_, hsh.1⟩, hm, hsh.2⟩
            rw [hg1]; dsimp only; omega
          · have hlt : s.idx * 5 + (c.toNat - 85) + 1 ≤ gmax (d + 1) := by omega
            rw [if_neg (by have := gmax_mono hsh.1; have := gmax_25; omega)]
            refine ⟨_, d + 1, rfl, ⟨by have := hI.proof; dsimp only; omega, by have := hI.sp; dsimp only; omega, by have := hI.map; dsimp only; omega, ?_, hsh.1⟩, hm, hsh.2⟩
            dsimp only; omega
        · rw [if_neg h2]
          have hnd : c ∉ digits := fun h => h2 (digits_range h)
          by_cases hz : c = 'Z'
          · rw [if_pos hz]
            rw [if_pos (Or.inr (Or.inl hz))] at hsh
            unfold zed
            dsimp only
            rw [e1, e3, if_neg (by have := hI.map; omega)]
            split
            · refine ⟨_, 0, rfl, ⟨by dsimp only; have := hI.proof; omega, by dsimp only; rw [e2]; have := hI.sp; omega, by have := hI.map; simp; omega, ?_, by omega⟩, by simp, hsh⟩
              dsimp only; rw [e4]; omega
            · refine ⟨_, 0, rfl, ⟨by dsimp only; have := hI.proof; omega, by dsimp only; rw [e2]; have := hI.sp; omega, by have := hI.map; simp; omega, ?_, by omega⟩, by simp, hsh⟩
              dsimp only; rw [e4]; omega
          · rw [if_neg hz]
            rw [not_space_of_graph hgc, if_neg (by simp)]
            by_cases hq : c = '?'
            · rw [if_pos hq]
              rw [if_pos (Or.inr (Or.inr hq))] at hsh
              unfold quest
              dsimp only
              rw [e1, e2, if_neg (by have := hI.proof; have := hI.sp; omega)]
              refine ⟨_, 0, rfl, ⟨by have := hI.proof; simp; omega, by have := hI.sp; dsimp only; omega, by dsimp only; rw [e3]; have := hI.map; omega, ?_, by omega⟩, by dsimp only; rw [e3]; exact hm, hsh⟩
              dsimp only; rw [e4]; omega
            · rw [if_neg hq]
              rw [if_neg (by simp [hnl, hz, hq]), if_neg hnd] at hsh
              exact ⟨_, d, rfl, ⟨by have := hI.proof; dsimp only; omega, by have := hI.sp; dsimp only; omega, by have := hI.map; dsimp only; omega, hI.idx, hI.dig⟩, hm, hsh⟩
    obtain ⟨s1, d1, o1, o2, o3, o4⟩ := one
    obtain ⟨s', d', r1, r2⟩ := ih s1 (k + 1) d1 hg' o2 o3 o4 (by omega) (by omega)
    refine ⟨s', d', ?_, ?_⟩
    · rw [crun, o1, Out.bind_val]; exact r1
    · have e : k + 1 + cs.length = k + (cs.length + 1) := by omega
      rw [e] at r2; exact r2

/-- The labels of the list. -/
theorem clabels_safe (hlook : LookOk E.look) (hL : LabelsOk E) (hk : HypKinds E.toDb p) : ∀ (toks : List Name),
    ∃ x, clabels E p toks = .val x ∧ x.1.length = toks.length := by
  have one : ∀ tok, ∃ x, clabel E p tok = .val x := by
    intro tok
    unfold clabel
    cases hl : E.look (hypTableC E p) tok with
    | some j =>
      dsimp only
      rw [if_neg]
      · exact ⟨_, rfl⟩
      · rcases mem_hypTableC ((hlook _ _).1 j hl) with ⟨i, h1, _, rfl⟩ | ⟨i, h1, _, rfl⟩
        · have := (hk i (by simp [h1])).1
          rw [if_neg (by omega)]; omega
        · have := (hk i (by simp [h1])).1
          rw [if_pos (by omega)]; omega
    | none =>
      dsimp only
      cases hl2 : E.look (labelKeys E) tok with
      | none => exact ⟨_, rfl⟩
      | some j =>
        dsimp only
        obtain ⟨i, h1, h2, h3, h4, h5, h6, rfl⟩ := mem_labelKeys_iff.1 ((hlook _ _).1 j hl2)
        have := (hL.kinds i h1 h2).1 h3
        rw [if_neg]
        · exact ⟨_, rfl⟩
        · simp only [Int.toNat_natCast]
          tauto
  intro toks
  induction toks with
  | nil => exact ⟨_, rfl, rfl⟩
  | cons t ts ih =>
    obtain ⟨x, hx⟩ := one t
    obtain ⟨r, hr, hr2⟩ := ih
    exact ⟨_, by rw [clabels, hx, Out.bind_val, hr, Out.bind_val], by simp [hr2]⟩

theorem cfinish_safe {s : CState} (h1 : s.proof.length < W) (h2 : s.sp < W) (h3 : 2 ≤ W) : ∃ r, cfinish W s = .val r ∧ r.proof.length ≤ max 1 s.proof.length := by
  obtain ⟨e1, e2, e3, e4⟩ := expected_fields s
  unfold cfinish
  dsimp only
  rw [e1, e2]
  split
  · rw [if_neg (by omega)]; exact ⟨_, rfl, by simp⟩
  · rw [if_neg (by omega)]; exact ⟨_, rfl, by simp⟩

variable {src : List Src} {s : PState} {look : Look}

/-- **C20** (partial).  READ accepted the source; the proof section of the `$p` statement `p` is `t`, it starts with `(`.  The work arrays have the size `W`.
The parser comes to an end without access outside its work arrays and without internal error if moreover
* `W` is large enough for the hypotheses of any assertion (the program only makes sure that it is large enough for those of `p`),
* there is a label in the list, or `p` has a mandatory hypothesis, and
* no number has more than 25 digits.
It is not memory safe otherwise: see the `C20_…` theorems in `Verif/Proof/CompSafeExample.lean`. -/
theorem C20_compressed_safe_partial (h : Accepted src s) (hl : LookOk look) (hL : SrcLabels src) (hp : kindAt (kinds src) p = .p)
    {t b u r : List Char} (hT : SourceChars t) (hB : Blank t (b ++ '(' :: u)) (hb : ∀ c ∈ b, printable c = false)
    (hW : ∀ i hs, IsAssert src i → MandList src s i hs → hs.length + t.length ≤ W) (hW1 : 2 ≤ W) (hW2 : W ≤ 2 ^ 58)
    (hc : ∀ labs code tail, CompSection t labs code tail → (labs ≠ [] ∨ ∃ j, MandHyp (isVarOf src) (kinds src) s.math p j) ∧ DigitsShort code) :
    ∃ res, parseProofText (envOf look src s) W p (t ++ '$' :: '.' :: r) t.length = .val res ∧ res.proof.length ≤ max 1 t.length := by
  have he : Stop ('$' :: '.' :: r) := Or.inr ⟨_, _, rfl, by decide⟩
  have hTT := textChars_of hT
  have hkp := hypKinds_of_parse (look := look) h hp
  have hLE := labelsOk_of (look := look) h hL
  have hreq : ((envOf look src s).stmt p).reqHyp = (s.stmt p).reqHyp := rfl
  have hM : ∀ i, ((envOf look src s).stmt i).kind = .a ∨ ((envOf look src s).stmt i).kind = .p → ((envOf look src s).stmt i).reqHyp.length + t.length ≤ W := by
    intro i hi
    rw [kind_env h] at hi
    obtain ⟨h1, h2, _⟩ := C12_mandatory_hyps h (i := i) hi
    exact hW i _ hi ⟨h1, h2⟩
  have hMp := hM p (Or.inr (by rw [kind_env h]; exact hp))
  unfold parseProofText
  by_cases hm : ')' ∈ u
  · obtain ⟨u1, u2, rfl, hu1⟩ := List.eq_append_cons_of_mem hm
    obtain ⟨tail, hsec, heq, q, hq1, hq2⟩ := parseCompressed_eq (E := envOf look src s) (W := W) (p := p) (r := r) hTT hB hb hu1
    rw [hq1, Out.bind_val, if_pos hq2, heq]
    obtain ⟨hc1, hc2⟩ := hc _ _ _ hsec
    have hlen := blank_len hB
    have hw := proofWords_count u1
    have hf := List.length_filter_le printable u2
    simp at hlen
    unfold afterList
    rw [if_neg (by omega)]
    obtain ⟨x, hx, hxl⟩ := clabels_safe (E := envOf look src s) (p := p) hl hLE hkp (proofWords u1)
    rw [hx, Out.bind_val]
    have hmap : ((envOf look src s).stmt p).reqHyp.map (fun (i : Nat) => (i : Int)) ++ x.1 ≠ [] := by
      intro h0
      have h1 := congrArg List.length h0
      simp at h1
      rcases hc1 with h2 | ⟨j, h2⟩
      · rw [h1.2] at hxl; simp at hxl; exact h2 (List.length_eq_zero_iff.1 hxl.symm)
      · have := ((mandList_req h hp).2 j).2 h2
        rw [← hreq, h1.1] at this; cases this
    obtain ⟨s', d', r1, r2⟩ := crun_safe (E := envOf look src s) (W := W) (bg := bggy tail) (H := W - t.length) (M := W - t.length + (proofWords u1).length) hW2
      (fun i hi => by have := hM i hi; omega) (u2.filter printable)
      { map := ((envOf look src s).stmt p).reqHyp.map (fun (i : Nat) => (i : Int)) ++ x.1, ret := x.2.1, ec := x.2.2 } 0 0
      (fun c hc => by rw [List.mem_filter, printable_eq] at hc; exact hc.2)
      ⟨by simp, by simp, by simp; omega, by simp, by omega⟩ hmap (short_of _ 0 hc2 (fun x hx hc => by have := hc2 x hx.isInfix hc; omega))
      (by omega) (by omega)
    rw [r1, Out.bind_val]
    have p1 := r2.proof
    have p2 := r2.sp
    obtain ⟨res, f1, f2⟩ := cfinish_safe (W := W) (s := s') (by omega) (by omega) hW1
    exact ⟨res, f1, by omega⟩
  · obtain ⟨t1, h1, hB3, h3'⟩ := skip_paren he hB hb
    have h3 := h3'.length_le
    simp at h3
    rw [h1, Out.bind_val, if_pos (by simp)]
    unfold parseCompressed
    obtain ⟨L, l1, l2, l3, l4⟩ := labelList_missing he ((t ++ '$' :: '.' :: r).length + 1) hB3 hm (by simp; omega)
    have hdrop : (('(' :: t1) ++ '$' :: '.' :: r).drop 1 = t1 ++ '$' :: '.' :: r := rfl
    rw [h1, Out.bind_val, if_neg (by simp), hdrop, l1, Out.bind_val, if_neg (by omega)]
    obtain ⟨x, hx, hxl⟩ := clabels_safe (E := envOf look src s) (p := p) hl hLE hkp L.toks
    rw [hx, Out.bind_val, l3, cloop, if_pos rfl, if_pos (by simp), Out.bind_val]
    obtain ⟨res, f1, f2⟩ := cfinish_safe (W := W) (s := { map := ((envOf look src s).stmt p).reqHyp.map (fun (i : Nat) => (i : Int)) ++ x.1, ret := if L.missing then max 3 x.2.1 else x.2.1, ec := x.2.2 + if L.missing then 1 else 0 }) (by simp; omega) (by simp; omega) hW1
    exact ⟨res, f1, by simp at f2; omega⟩

end MM.Proof
