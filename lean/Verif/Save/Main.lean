import Verif.Save.Back
import Verif.Long.Norm
import Verif.Data.RenderProps
/-!
# C62: SAVE PROOF, WRITE SOURCE, READ: the proof is the same
-/
namespace MM.Save
open MM.Vstr MM.Long MM.Veri MM.Pars MM.Lex MM.Proof MM.Write MM.Spec MM.Cmd MM.Data

/-! ### Specification -/

/-- After the SAVE PROOF commands `ss`, WRITE SOURCE and READ of the file succeed without messages and leave `o'`. -/
def Rewritten (sort : List (Name × Nat) → List (Name × Nat)) (text : List Char) (ss : List Save) (o' : ReadOut) : Prop :=
  ∃ st buf, saveAll ss (statements text) = .val st ∧ writeSourceToBuffer st = .val buf ∧ readSource sort buf = .val o' ∧ o'.errs = 0

/-- The text `t` that SAVE PROOF stores for the compressed proof `out` is not taken for one made by the old algorithm, or it has no numbers for which that makes a
difference: there is no `UV` in it; or there is a `UU` after the `)`; or no two of the letters `U` to `Y` are next to each other in the numbers. -/
def NotTakenForOld (out t : List Char) : Prop :=
  ¬ ['U', 'V'] <:+: t ∨ (∃ z c, t = z ++ ')' :: c ∧ ['U', 'U'] <:+: c) ∨
    ∀ z c, out = z ++ ')' :: c → ∀ a ∈ ['U', 'V', 'W', 'X', 'Y'], ∀ b ∈ ['U', 'V', 'W', 'X', 'Y'], ¬ [a, b] <:+: c

/-! ### Lemmas -/

theorem labels_legal {sort : List (Name × Nat) → List (Name × Nat)} (hsort : SortOk sort) {text : List Char} {o : ReadOut} (h : readSource sort text = .val o)
    (he : o.errs = 0) : ∀ i, 1 ≤ i → i ≤ o.src.length → ∀ c ∈ srcLabel o.src i, LabelChar c := by
  obtain ⟨⟨secs, last, _, _, hst⟩, _⟩ := C42_read_stores_source hsort h he
  intro i hi hn c hc
  unfold srcLabel at hc
  rw [if_neg (by omega), List.getD_eq_getElem?_getD, List.getElem?_map] at hc
  have hlt : i - 1 < o.src.length := by omega
  rw [List.getElem?_eq_getElem hlt] at hc
  simp only [Option.map_some, Option.getD_some] at hc
  have := (List.forall₂_iff_get.1 hst).2 (i - 1) (by rw [hst.length_eq]; exact hlt) hlt
  exact this.legal c hc

theorem sep_char {c : Char} (h : printable c = true ∨ c = ' ' ∨ c = '\n') (hd : c ≠ '$') : TextChar c := by
  refine ⟨?_, hd⟩
  rcases h with h | rfl | rfl
  · left; rw [← printable_eq]; exact h
  · right; decide
  · right; decide

theorem uniq_paren : ∀ (a b x y : List Char), ')' ∉ a → ')' ∉ b → a ++ ')' :: x = b ++ ')' :: y → a = b ∧ x = y
  | [], [], x, y, _, _, h => by simpa using h
  | [], c :: b, x, y, _, hb, h => by simp at h hb; exact absurd h.1 hb.1
  | c :: a, [], x, y, ha, _, h => by simp at h ha; exact absurd h.1.symm ha.1
  | c :: a, d :: b, x, y, ha, hb, h => by
    simp at h ha hb
    obtain ⟨h1, h2⟩ := uniq_paren a b x y ha.2 hb.2 h.2
    exact ⟨by rw [h.1, h1], h2⟩

theorem only_paren : ∀ (a b x y : List Char), ')' ∉ a → ')' ∉ x → a ++ ')' :: x = b ++ ')' :: y → a = b ∧ x = y
  | [], [], x, y, _, _, h => by simpa using h
  | [], c :: b, x, y, _, hx, h => by
    simp at h
    exact absurd (by rw [h.2]; simp) hx
  | c :: a, [], x, y, ha, _, h => by simp at h ha; exact absurd h.1.symm ha.1
  | c :: a, d :: b, x, y, ha, hx, h => by
    simp at h ha
    obtain ⟨h1, h2⟩ := only_paren a b x y ha.2 hx h.2
    exact ⟨by rw [h.1, h1], h2⟩

theorem infix_cut {a b : Char} {u w : List Char} (h : [a, b] <:+: u ++ w) (hb : b ∉ w) : [a, b] <:+: u := by
  obtain ⟨s, t, h⟩ := h
  rcases List.append_eq_append_iff.1 h with ⟨z, h1, h2⟩ | ⟨z, h1, h2⟩
  · exact ⟨s, z, h1.symm⟩
  · have : b ∈ s ++ [a, b] := by simp
    rw [h1] at this
    rcases List.mem_append.1 this with hm | hm
    · -- the last character of `s ++ [a, b]`
      cases hz : z.reverse with
      | nil =>
        have : z = [] := by simpa using hz
        subst this
        rw [List.append_nil] at h1
        exact ⟨s, [], by rw [List.append_nil, h1]⟩
      | cons d z' =>
        exfalso
        have hz2 : z = z'.reverse ++ [d] := by rw [← List.reverse_reverse z, hz]; simp
        have h3 : (s ++ [a]) ++ [b] = (u ++ z'.reverse) ++ [d] := by rw [hz2] at h1; simpa using h1
        have h4 := (List.append_inj' h3 rfl).2
        simp at h4
        apply hb
        rw [h2, hz2, h4]; simp
    · exfalso; apply hb; rw [h2]; simp [hm]

theorem skip_blank : ∀ {b : List Char}, (∀ c ∈ b, printable c = false) → ∀ v, proofWords (b ++ v) = proofWords v
  | [], _, _ => rfl
  | c :: b, hb, v => by
    rw [List.cons_append, proofWords_blank _ _ (by rw [← printable_eq]; exact hb c (by simp)), skip_blank (fun x hx => hb x (by simp [hx]))]

theorem filter_split {f : Char → Bool} {c : Char} : ∀ {P w : List Char}, P.filter f = c :: w → ∃ b u, P = b ++ c :: u ∧ (∀ d ∈ b, f d = false) ∧ u.filter f = w
  | [], w, h => by cases h
  | d :: P, w, h => by
    cases hd : f d with
    | true =>
      rw [List.filter_cons_of_pos hd] at h
      injection h with h1 h2
      exact ⟨[], P, by rw [h1]; rfl, by simp, h2⟩
    | false =>
      rw [List.filter_cons_of_neg (by simp [hd])] at h
      obtain ⟨b, u, e1, e2, e3⟩ := filter_split h
      refine ⟨d :: b, u, by rw [e1]; rfl, ?_, e3⟩
      intro x hx
      rcases List.mem_cons.1 hx with rfl | hx
      · exact hd
      · exact e2 x hx

theorem entry_word {src : List Src} {st : PState} {p j : Nat} {w : Name} (hL : SrcLabels src) (hLC : ∀ i, 1 ≤ i → i ≤ src.length → ∀ c ∈ srcLabel src i, LabelChar c)
    (h : ListEntry src st p w j) : LabelWord w := by
  obtain ⟨rfl, h⟩ := h
  have hk : kindAt (kinds src) j = .e ∨ kindAt (kinds src) j = .f ∨ IsAssert src j := by
    rcases h with h | h
    · exact Or.inr (Or.inl h.2.1)
    · exact Or.inr (Or.inr h.2)
  have hne : kindAt (kinds src) j ≠ .none := by
    rcases hk with hk | hk | hk | hk <;> rw [hk] <;> decide
  have hj : 1 ≤ j ∧ j ≤ src.length := by
    unfold kindAt at hne
    split at hne
    · exact absurd rfl hne
    · rename_i h0
      refine ⟨by omega, ?_⟩
      cases hd : decide (j ≤ src.length) with
      | true => exact of_decide_eq_true hd
      | false =>
        exfalso
        have := of_decide_eq_false hd
        apply hne
        rw [List.getD_eq_getElem?_getD, List.getElem?_eq_none (by unfold kinds; rw [List.length_map]; omega)]
        rfl
  exact ⟨(hL.kinds j hj.1 hj.2).2 hk, hLC j hj.1 hj.2⟩

theorem digit_two : ∀ d : Fin 5, digitChar d ∈ ['U', 'V', 'W', 'X', 'Y'] := by decide
theorem letter_amp : ∀ d : Fin 20, letterChar d ≠ '&' := by decide

theorem code_amp {xs : List CStep} : '&' ∉ codeText xs := by
  intro hc
  unfold codeText at hc
  obtain ⟨x, _, hc⟩ := List.mem_flatMap.1 hc
  rcases List.mem_append.1 hc with hc | hc
  · unfold CNum.text at hc
    rcases List.mem_append.1 hc with hc | hc
    · obtain ⟨d, _, hd⟩ := List.mem_map.1 hc
      have := digit_two d
      rw [hd] at this
      simp at this
    · simp at hc
      exact letter_amp _ hc.symm
  · have := List.eq_of_mem_replicate hc
    cases this

theorem digs_short {xs : List CStep} (h : ∀ a ∈ ['U', 'V', 'W', 'X', 'Y'], ∀ b ∈ ['U', 'V', 'W', 'X', 'Y'], ¬ [a, b] <:+: codeText xs) :
    ∀ x ∈ xs, x.num.digs.length ≤ 1 := by
  intro x hx
  cases hd : decide (x.num.digs.length ≤ 1) with
  | true => exact of_decide_eq_true hd
  | false =>
    exfalso
    have h2 := of_decide_eq_false hd
    match hds : x.num.digs with
    | [] => rw [hds] at h2; simp at h2
    | [_] => rw [hds] at h2; simp at h2
    | a :: b :: ds =>
      refine h _ (digit_two a) _ (digit_two b) ?_
      obtain ⟨p, q, hpq⟩ := List.append_of_mem hx
      rw [hpq, codeText_append]
      refine ⟨codeText p, digText ds ++ [letterChar x.num.last] ++ List.replicate x.marks 'Z' ++ codeText q, ?_⟩
      have : codeText (x :: q) = x.num.text ++ List.replicate x.marks 'Z' ++ codeText q := by unfold codeText; rw [List.flatMap_cons]
      rw [this]
      unfold CNum.text
      rw [hds]
      simp [digText]

/-- **C62, proofs in the normal format** (SAVE PROOF / NORMAL or / PACKED).  READ accepted the source without messages and `refs` is a proof of the `$p` statement `p`.
SAVE PROOF stores a text such that, whatever proofs are saved before and whatever proofs of other statements are saved afterwards, WRITE SOURCE writes a file
that READ accepts without messages, and there the proof of `p` is read as `refs` again, without messages. -/
theorem C62_normal {sort : List (Name × Nat) → List (Name × Nat)} (hsort : SortOk sort) {look : Look} (hl : LookOk look) {text : List Char} {o : ReadOut}
    (hr : readSource sort text = .val o) (he : o.errs = 0) {p : Nat} (hp : kindAt (kinds o.src) p = .p) {refs : List Ref} (hP : PackedProof o.src o.state p refs)
    {width : Int} (hW : 5 ≤ width) {ind : Nat} (hi : 1 ≤ ind) {out : List Char} (hout : nmbrCvtRToVString (envOf look o.src o.state) (refs.map Ref.code) = .val out) :
    ∃ t, saveText width ind false out = .val t ∧ ∀ (ss1 ss2 : List Save) (note : Option (List Char)), (∀ n, note = some n → NoteOk n) →
      (∀ s ∈ ss1 ++ ss2, s.Ok (o.stmts.map KStmt.kind)) → (∀ s ∈ ss2, s.stmt ≠ p) →
      ∃ o', Rewritten sort text (ss1 ++ ⟨p, t, note⟩ :: ss2) o' ∧
        ∀ W, parseProofText (envOf look o'.src o'.state) W p (secOf o' p).1 (secOf o' p).2 = .val ⟨refs.map Ref.code, 0, 0⟩ := by
  obtain ⟨_, hacc, hL, _⟩ := C42_read_stores_source hsort hr he
  obtain ⟨g1, g2, g3⟩ := C46_normal_round_trip hacc hl hL (labels_legal hsort hr he) hp hP hout
  have hx : ∀ d ∈ List.replicate ind ' ' ++ out, d = ' ' ∨ (printable d = true ∧ d ≠ '$') := by
    intro d hd
    rcases List.mem_append.1 hd with hd | hd
    · exact Or.inl (List.eq_of_mem_replicate hd)
    · exact g2 d hd
  have hx3 : ∀ d ∈ List.replicate ind ' ' ++ out, d ≠ NUL ∧ d ≠ '\n' ∧ d ≠ QSP := by
    intro d hd
    rcases hx d hd with rfl | ⟨h, _⟩
    · decide
    · refine ⟨?_, ?_, ?_⟩ <;> rintro rfl <;> exact absurd h (by decide)
  obtain ⟨ls, P, k1, k2, k3, k4⟩ := C61_normal (width := width) (next := List.replicate ind ' ') hx3 (fun d hd => List.eq_of_mem_replicate hd)
    (by intro h; have := congrArg List.length h; simp at this; omega) hW
  have hnd : '$' ∉ P := by
    intro hc
    have hm : '$' ∈ P.filter printable := List.mem_filter.2 ⟨hc, by decide⟩
    rw [k3 _ _ graph_fn] at hm
    rcases hx '$' (List.mem_filter.1 hm).1 with h | h
    · cases h
    · exact h.2 rfl
  refine ⟨printed ls, by unfold saveText; rw [if_neg (by simp), k1]; rfl, ?_⟩
  intro ss1 ss2 note hno hss hlast
  have hok : ∀ r ∈ ss1 ++ ⟨p, printed ls, note⟩ :: ss2, r.Ok (o.stmts.map KStmt.kind) := by
    intro r hr'
    rcases List.mem_append.1 hr' with h | h
    · exact hss r (by simp [h])
    · rcases List.mem_cons.1 h with rfl | h
      · refine ⟨kind_shape hr he hp, ⟨P, k2, fun c hc => sep_char ?_ (by rintro rfl; exact hnd hc)⟩, hno⟩
        rcases k4 c hc with h | h | h
        · exact Or.inl h
        · rcases hx c h with h | h
          · exact Or.inr (Or.inl h)
          · exact Or.inl h.1
        · exact Or.inr h
      · exact hss r (by simp [h])
  obtain ⟨st, buf, o', body, rest, e1, e2, e3, e4, e5, e6, e7⟩ := saved_read (look := look) hr he hok hlast
  refine ⟨o', ⟨st, buf, e1, e2, e3, e4⟩, fun W => ?_⟩
  have hb : body = P := by
    dsimp only at e6
    rw [k2] at e6
    exact (List.append_inj_left' e6 rfl).symm
  subst hb
  dsimp only at e7
  rw [e5, e7]
  refine g3 _ _ rest W (blank_self ?_) ?_
  · simp [hnd]
  · have h1 : proofWords ('\n' :: body ++ [' ']) = proofWords body := by
      have := proofWords_fn.sep [] '\n' (body ++ [' ']) (by decide)
      rw [proofWords_fn.nil, List.nil_append, List.nil_append] at this
      rw [List.cons_append, this, proofWords_fn.sep body ' ' [] (by decide), proofWords_fn.nil, List.append_nil]
    rw [h1, k3 _ _ proofWords_fn]
    exact skip_blank (fun c hc => by rw [List.eq_of_mem_replicate hc]; decide) out

/-- **C62, compressed proofs** (partial: provided that the stored text is not taken for the output of the old algorithm; see C19).  As `C62_normal`, for
SAVE PROOF / COMPRESSED. -/
theorem C62_compressed_partial {sort : List (Name × Nat) → List (Name × Nat)} (hsort : SortOk sort) {look : Look} (hl : LookOk look) {text : List Char} {o : ReadOut}
    (hr : readSource sort text = .val o) (he : o.errs = 0) {p : Nat} (hp : kindAt (kinds o.src) p = .p) {refs : List Ref} (hP : PackedProof o.src o.state p refs)
    {width : Int} (hW : 5 ≤ width) {ind : Nat} (hi : 1 ≤ ind) {old : Bool} (hroom : old = true ∨ 1 ≤ width - ind) {fuel : Nat} {out : List Char}
    (hout : compressProof (envOf look o.src o.state) p (refs.map Ref.code) old width ind fuel = .val out) :
    ∃ t, saveText width ind true out = .val t ∧ (NotTakenForOld out t → ∀ (ss1 ss2 : List Save) (note : Option (List Char)), (∀ n, note = some n → NoteOk n) →
      (∀ s ∈ ss1 ++ ss2, s.Ok (o.stmts.map KStmt.kind)) → (∀ s ∈ ss2, s.stmt ≠ p) →
      ∃ o', Rewritten sort text (ss1 ++ ⟨p, t, note⟩ :: ss2) o' ∧
        ∀ W, (∀ hs, MandList o.src o.state p hs → hs.length + (secOf o' p).2 ≤ W) → W ≤ 2 ^ 63 →
          parseProofText (envOf look o'.src o'.state) W p (secOf o' p).1 (secOf o' p).2 = .val ⟨refs.map Ref.code, 0, 0⟩) := by
  obtain ⟨_, hacc, hL, _⟩ := C42_read_stores_source hsort hr he
  obtain ⟨labs, xs, g1, g2, g3⟩ := C18_round_trip_layout hacc hl hL hp hP hroom hout
  have hlw : ∀ w ∈ labs, LabelWord w := by
    obtain ⟨hs, js, _, hf, _⟩ := g2.lists
    intro w hw
    obtain ⟨i, hi'⟩ := List.getElem?_of_mem hw
    obtain ⟨hlt, hwi⟩ := List.getElem?_eq_some_iff.1 hi'
    have := (List.forall₂_iff_get.1 hf).2 i hlt (by rw [← hf.length_eq]; exact hlt)
    rw [List.get_eq_getElem, hwi] at this
    exact entry_word hL (labels_legal hsort hr he) this
  have hcode : codeText xs ≠ [] := by
    obtain ⟨hs, js, _, _, hd⟩ := g2.lists
    cases xs with
    | nil =>
      have h0 := hd.len
      have : refs = [] := List.length_eq_zero_iff.1 h0
      have ht := hP.tree
      rw [this] at ht
      generalize hn : List.map Ref.code [] = l at ht
      generalize hm : (1 : Nat) = m at ht
      cases ht with
      | nil => cases hm
      | push _ _ => simp at hn
      | use _ _ _ _ => simp at hn
    | cons x xs =>
      intro h
      unfold codeText CNum.text at h
      simp at h
  -- the line
  have hline : List.replicate ind ' ' ++ out ++ [' ', '$', '.'] =
      (List.replicate ind ' ' ++ '(' :: ' ' :: (spaced labs ++ [' '])) ++ ')' :: ' ' :: (codeText xs ++ [' ', '$', '.']) := by
    rw [g1]; simp
  have hxc : ∀ d ∈ List.replicate ind ' ' ++ '(' :: ' ' :: (spaced labs ++ [' ']), d = ' ' ∨ d = '(' ∨ LabelChar d := by
    intro d hd
    simp only [List.mem_append, List.mem_cons, List.not_mem_nil, or_false] at hd
    rcases hd with hd | hd | hd | hd | hd
    · exact Or.inl (List.eq_of_mem_replicate hd)
    · exact Or.inr (Or.inl hd)
    · exact Or.inl hd
    · rcases mem_spaced hd with hd | ⟨w, hw, hd⟩
      · exact Or.inl hd
      · exact Or.inr (Or.inr ((hlw w hw).2 d hd))
    · exact Or.inl hd
  have hbad : ∀ d : Char, ¬ LabelChar d → d ≠ ' ' → d ≠ '(' → d ∉ List.replicate ind ' ' ++ '(' :: ' ' :: (spaced labs ++ [' ']) := by
    intro d h1 h2 h3 hd
    rcases hxc d hd with h | h | h
    · exact h2 h
    · exact h3 h
    · exact h1 h
  obtain ⟨ls, P, u, k1, k2, k3, k4, k5⟩ := C61_code (width := width) (next := List.replicate ind ' ') (hbad ')' (by decide) (by decide) (by decide))
    (fun d hd => by
      refine ⟨?_, ?_, ?_, ?_⟩ <;> rintro rfl <;> exact hbad _ (by decide) (by decide) (by decide) hd)
    hcode (fun d hd => by
      have := code_chars d hd
      exact ⟨by rw [printable_eq]; exact this.1, this.2.2, by rintro rfl; exact code_amp hd⟩)
    (fun d hd => List.eq_of_mem_replicate hd) (by intro h; have := congrArg List.length h; simp at this; omega) hW
  have hPf := k3 _ _ graph_fn
  have hnP : ∀ d : Char, printable d = true → ¬ LabelChar d → d ≠ ' ' → d ≠ '(' → d ∉ P := by
    intro d h0 h1 h2 h3 hd
    have hm : d ∈ P.filter printable := List.mem_filter.2 ⟨hd, h0⟩
    rw [hPf] at hm
    exact hbad d h1 h2 h3 (List.mem_filter.1 hm).1
  have hnu : ∀ d : Char, printable d = true → d ∉ codeText xs → d ∉ u := by
    intro d h0 h1 hd
    apply h1
    rw [← k4]
    exact List.mem_filter.2 ⟨hd, h0⟩
  have hpP : ')' ∉ P := hnP _ (by decide) (by decide) (by decide) (by decide)
  have hpu : ')' ∉ u := hnu _ (by decide) (fun h => (code_chars _ h).2.2 rfl)
  have hdP : '$' ∉ P := hnP _ (by decide) (by decide) (by decide) (by decide)
  have hdu : '$' ∉ u := hnu _ (by decide) (fun h => (code_chars _ h).2.1 rfl)
  have hch : ∀ d ∈ P ++ u, printable d = true ∨ d = ' ' ∨ d = '\n' := by
    intro d hd
    rcases k5 d hd with h | h | h
    · exact Or.inl h
    · rcases hxc d h with h | h | h
      · exact Or.inr (Or.inl h)
      · left; rw [h]; decide
      · left; rw [printable_eq]; exact (labelChar_graph h).1
    · exact Or.inr h
  refine ⟨printed ls, by unfold saveText; rw [if_pos rfl, hline, k1]; rfl, ?_⟩
  intro hold ss1 ss2 note hno hss hlast
  have k2' : printed ls = (P ++ ')' :: u) ++ [' ', '$', '.', '\n'] := by rw [k2]; simp
  have hok : ∀ r ∈ ss1 ++ ⟨p, printed ls, note⟩ :: ss2, r.Ok (o.stmts.map KStmt.kind) := by
    intro r hr'
    rcases List.mem_append.1 hr' with h | h
    · exact hss r (by simp [h])
    · rcases List.mem_cons.1 h with rfl | h
      · refine ⟨kind_shape hr he hp, ⟨P ++ ')' :: u, k2', fun c hc => ?_⟩, hno⟩
        rw [List.mem_append, List.mem_cons] at hc
        rcases hc with hc | rfl | hc
        · exact sep_char (hch c (by simp [hc])) (by rintro rfl; exact hdP hc)
        · exact sep_char (Or.inl (by decide)) (by decide)
        · exact sep_char (hch c (by simp [hc])) (by rintro rfl; exact hdu hc)
      · exact hss r (by simp [h])
  obtain ⟨st, buf, o', body, rest, e1, e2, e3, e4, e5, e6, e7⟩ := saved_read (look := look) hr he hok hlast
  have hb : body = P ++ ')' :: u := by
    dsimp only at e6
    rw [k2'] at e6
    exact (List.append_inj_left' e6 rfl).symm
  subst hb
  dsimp only at e7
  refine ⟨o', ⟨st, buf, e1, e2, e3, e4⟩, fun W hW1 hW2 => ?_⟩
  rw [e7] at hW1 ⊢
  rw [e5]
  -- the parts of the section
  have hsp : (List.replicate ind ' ' ++ '(' :: ' ' :: (spaced labs ++ [' '])).filter printable = '(' :: (' ' :: (spaced labs ++ [' '])).filter printable := by
    rw [List.filter_append, List.filter_eq_nil_iff.2 (fun d hd => by rw [List.eq_of_mem_replicate hd]; decide), List.nil_append, List.filter_cons_of_pos (by decide)]
  obtain ⟨b, u1, s1, s2, s3⟩ := filter_split (by rw [hPf]; exact hsp)
  have hw1 : proofWords u1 = labs := by
    have := k3 _ _ proofWords_fn
    rw [s1, skip_blank s2, proofWords_single _ _ (by decide), skip_blank (fun d hd => by rw [List.eq_of_mem_replicate hd]; decide), proofWords_single _ _ (by decide)] at this
    rw [(List.cons.inj this).2]
    exact proofWords_spaced hlw
  have hndt : '$' ∉ '\n' :: (P ++ ')' :: u) ++ [' '] := by simp [hdP, hdu]
  have hteq : '\n' :: (P ++ ')' :: u) ++ [' '] = ('\n' :: b) ++ '(' :: (u1 ++ ')' :: (u ++ [' '])) := by rw [s1]; simp
  have hT : SourceChars ('\n' :: (P ++ ')' :: u) ++ [' ']) := by
    have hc2 : ∀ d : Char, printable d = true ∨ d = ' ' ∨ d = '\n' → printable d = true ∨ d.toNat ∈ [9, 10, 11, 12, 13, 32] := by
      rintro d (h | rfl | rfl)
      · exact Or.inl h
      · right; decide
      · right; decide
    intro c hc
    simp only [List.mem_append, List.mem_cons, List.cons_append, List.not_mem_nil, or_false] at hc
    rcases hc with rfl | (hc | rfl | hc) | rfl
    · right; decide
    · exact hc2 c (hch c (by simp [hc]))
    · left; decide
    · exact hc2 c (hch c (by simp [hc]))
    · right; decide
  have hu2 : (u ++ [' ']).filter printable = codeText xs := by rw [List.filter_append, k4]; simp; decide
  have hsec : ∃ tail, CompSection ('\n' :: (P ++ ')' :: u) ++ [' ']) labs (codeText xs) tail := by
    obtain ⟨tail, h, _⟩ := parseCompressed_eq (E := envOf look o.src o.state) (p := p) (W := W) (r := rest) (textChars_of hT) (by rw [← hteq]; exact blank_self hndt)
      (by intro c hc; rcases List.mem_cons.1 hc with rfl | hc
          · decide
          · exact s2 c hc) (by intro hc; apply hpP; rw [s1]; simp [hc])
    rw [hw1, hu2] at h
    exact ⟨tail, h⟩
  refine g3 _ rest W hT hsec ?_ hW1 hW2
  rcases hold with hold | ⟨z, c, hzc, hUU⟩ | hold
  · left
    rintro tail ⟨_, _, _, _, _, _, _, _, hsuf, _⟩ ⟨hUV, _⟩
    apply hold
    have h1 : ['U', 'V'] <:+: '\n' :: ((P ++ ')' :: u) ++ [' ']) := hUV.trans hsuf.isInfix
    rw [List.infix_cons_iff] at h1
    rcases h1 with h1 | h1
    · obtain ⟨q, hq⟩ := h1
      simp at hq
    · rw [k2']
      refine h1.trans ?_
      exact ⟨[], ['$', '.', '\n'], by simp⟩
  · left
    have hc : c = u ++ [' ', '$', '.', '\n'] := by
      rw [k2] at hzc
      exact (only_paren _ _ _ _ hpP (by simp [hpu]) hzc).2.symm
    rintro tail ⟨b', v1, v2, hB, hb', hv1, _, _, hsuf, h1, h2⟩ ⟨_, hno2⟩
    apply hno2
    rw [hc] at hUU
    have hUU2 : ['U', 'U'] <:+: u := infix_cut hUU (by decide)
    have hBe := blank_eq hB hndt
    have hv2 : v2 = u ++ [' '] := by
      have e' : (b' ++ '(' :: v1) ++ ')' :: v2 = ('\n' :: P) ++ ')' :: (u ++ [' ']) := by simpa using hBe
      refine (uniq_paren _ _ _ _ ?_ ?_ e').2
      · simp only [List.mem_append, List.mem_cons, not_or]
        refine ⟨fun hc => ?_, by decide, hv1⟩
        exact absurd (hb' _ hc) (by decide)
      · simp [hpP]
    have hnt : '$' ∉ tail := fun hc => hndt (hsuf.subset hc)
    have huv : u <:+: v2 := by rw [hv2]; exact ⟨[], [' '], by simp⟩
    cases hw : labs.getLast? with
    | none =>
      have := blank_eq (h1 (List.getLast?_eq_none_iff.1 hw)) hnt
      rw [← this]
      exact hUU2.trans huv
    | some w =>
      obtain ⟨v, hv, _⟩ := h2 w hw
      have := blank_eq hv hnt
      rw [← this]
      refine (hUU2.trans huv).trans ?_
      exact ⟨w ++ v ++ [')'], [], by simp⟩
  · right
    refine digs_short fun a ha b hb hin => hold ('(' :: ' ' :: (spaced labs ++ [' '])) (' ' :: codeText xs) (by rw [g1]; simp) a ha b hb ?_
    exact List.infix_cons hin

end MM.Save
