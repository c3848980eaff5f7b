import Verif.Trace.Source

/-!
# C52: the text search of SHOW USAGE / DIRECT
-/
namespace MM.Trace
open MM.Veri MM.Pars MM.Spec MM.Proof MM.Lex MM.Vstr

variable {src : List Src} {s : PState} {look : Look}
variable {M : MM.Match.MEnv} {W : Nat → Nat} {text : Nat → List Char} {textLen : Nat → Nat}

/-! ### Tokens are parts of the text -/

theorem blank_tail_le {t u e : List Char} (hB : Blank t u) (he : Stop e) : proofTokenTail (t ++ e) ≤ t.length := by
  induction hB with
  | nil =>
    rcases he with rfl | ⟨d, r, rfl, _, _, h3, _⟩
    · simp [proofTokenTail]
    · rw [List.nil_append, proofTokenTail_dollar, if_neg h3]; exact Nat.le_refl _
  | @char t u c hc hB ih =>
    rw [List.cons_append, proofTokenTail_char hc]
    split
    · simpa using ih
    · exact Nat.zero_le _
  | @comment t u x hb hB ih =>
    rw [List.cons_append, List.cons_append, proofTokenTail_dollar, if_neg (by decide)]
    exact Nat.zero_le _

theorem blank_drop {e : List Char} : ∀ {k : Nat} {t u : List Char}, Blank t u → k ≤ proofTokenTail (t ++ e) → k ≤ t.length → ∃ u', Blank (t.drop k) u'
  | 0, t, u, hB, _, _ => ⟨u, hB⟩
  | k + 1, t, u, hB, hk, hl => by
    cases hB with
    | nil => simp at hl
    | @char t0 u0 c hc hB0 =>
      rw [List.cons_append, proofTokenTail_char hc] at hk
      split at hk
      · exact blank_drop (e := e) (t := t0) hB0 (by omega) (by simpa using hl)
      · omega
    | comment hb hB =>
      rw [List.cons_append, List.cons_append, proofTokenTail_dollar, if_neg (by decide)] at hk
      omega

theorem tokenLen_bounds {t u e : List Char} (hB : Blank t u) (he : Stop e) :
    proofTokenLen (t ++ e) ≤ t.length ∧ ∃ u', Blank (t.drop (proofTokenLen (t ++ e))) u' := by
  unfold proofTokenLen
  by_cases hs : (t ++ e).head?.any isSingle = true
  · rw [if_pos hs]
    cases t with
    | nil =>
      rw [List.nil_append] at hs
      rcases he with rfl | ⟨d, r, rfl, _, _, h3, _⟩
      · simp at hs
      · simp at hs; exact absurd hs (by decide)
    | cons c t =>
      have hc : c ≠ '$' := by
        rintro rfl
        simp at hs; exact absurd hs (by decide)
      obtain ⟨u', _, h⟩ := blank_cons hc hB
      exact ⟨by simp, u', h⟩
  · rw [if_neg hs]
    have := blank_tail_le hB he
    exact ⟨this, blank_drop hB (Nat.le_refl _) this⟩

/-- The tokens of a section are parts of it. -/
theorem readToks_infix {e : List Char} (he : Stop e) : ∀ {n : Nat} {t u : List Char} {ts : List Name}, Blank t u →
    readToks proofTokenLen n (t ++ e) = .val ts → ∀ w ∈ ts, w <:+: t
  | 0, _, _, _, _, h => by cases h
  | n + 1, t, u, ts, hB, h => by
    obtain ⟨t', u', b, h1, h2, _, h3, _⟩ := skip_split hB he
    rw [readToks, h1, Out.bind_val] at h
    by_cases hz : proofTokenLen (t' ++ e) = 0
    · rw [if_pos hz] at h; cases h; intro w hw; cases hw
    · rw [if_neg hz] at h
      obtain ⟨g1, u2, g2⟩ := tokenLen_bounds h2 he
      rw [List.drop_append_of_le_length g1, List.take_append_of_le_length g1] at h
      cases hr : readToks proofTokenLen n (t'.drop (proofTokenLen (t' ++ e)) ++ e) <;> rw [hr] at h
      · rename_i ts'
        cases h
        intro w hw
        rcases List.mem_cons.1 hw with rfl | hw
        · exact (List.take_prefix _ _).isInfix.trans h3.isInfix
        · exact (readToks_infix he g2 hr w hw).trans ((List.drop_suffix _ _).isInfix.trans h3.isInfix)
      all_goals cases h

/-! ### The label list -/

/-- No comment starts in the text. -/
def NoComment (a : List Char) : Prop := ¬ ['$', '('] <:+: a ∧ ¬ ['$', '!'] <:+: a

theorem NoComment.mono {a b : List Char} (h : NoComment b) (hab : a <:+: b) : NoComment a :=
  ⟨fun h1 => h.1 (h1.trans hab), fun h1 => h.2 (h1.trans hab)⟩

theorem skip_nc {b : List Char} : ∀ {a : List Char}, NoComment a → ∃ a', skipWs .ws (a ++ ')' :: b) = .val (a' ++ ')' :: b) ∧ a' <:+ a
  | [], _ => ⟨[], by rw [List.nil_append, skip_ws_char (by decide), if_pos (by decide)], List.suffix_refl _⟩
  | c :: a, h => by
    by_cases hc : c = '$'
    · subst hc
      refine ⟨'$' :: a, ?_, List.suffix_refl _⟩
      cases a with
      | nil => rfl
      | cons d a =>
        have h1 : d ≠ '(' := by rintro rfl; exact h.1 ⟨[], a, rfl⟩
        have h2 : d ≠ '!' := by rintro rfl; exact h.2 ⟨[], a, rfl⟩
        rw [List.cons_append, List.cons_append, skipWs, if_pos rfl]
        simp only [if_neg h1, if_neg h2]
    · rw [List.cons_append, skip_ws_char hc]
      by_cases hg : isGraph c = true
      · rw [if_pos hg]; exact ⟨c :: a, rfl, List.suffix_refl _⟩
      · rw [if_neg hg]
        obtain ⟨a', h1, h2⟩ := skip_nc (b := b) (h.mono (List.suffix_cons c a).isInfix)
        exact ⟨a', h1, h2.trans (List.suffix_cons _ _)⟩

theorem tail_paren {b : List Char} : ∀ (n : Nat) (a : List Char), a.length ≤ n → proofTokenTail (a ++ ')' :: b) ≤ a.length
  | _, [], _ => by rw [List.nil_append, proofTokenTail_char (by decide), if_neg (by decide)]; exact Nat.le_refl _
  | 0, _ :: _, h => by simp at h
  | n + 1, c :: a, h => by
    rw [List.cons_append]
    by_cases hc : c = '$'
    · subst hc
      cases a with
      | nil => rw [List.nil_append, proofTokenTail_dollar, if_neg (by decide)]; exact Nat.zero_le _
      | cons d a =>
        rw [List.cons_append, proofTokenTail_dollar]
        split
        · have := tail_paren (b := b) n a (by simp at h; omega)
          simp; omega
        · exact Nat.zero_le _
    · rw [proofTokenTail_char hc]
      split
      · have := tail_paren (b := b) n a (by simpa using h)
        simp; omega
      · exact Nat.zero_le _

/-- The labels read are parts of the text before the `)`. -/
theorem labelList_infix {b : List Char} : ∀ {n : Nat} {a : List Char} {L : LabelList}, NoComment a → labelList n (a ++ ')' :: b) = .val L →
    ∀ w ∈ L.toks, w <:+: a
  | 0, _, _, _, h => by cases h
  | n + 1, a, L, hn, h => by
    obtain ⟨a', h1, h2⟩ := skip_nc (b := b) hn
    rw [labelList, h1, Out.bind_val] at h
    by_cases hz : proofTokenLen (a' ++ ')' :: b) = 0
    · rw [if_pos hz] at h; cases h; intro w hw; cases hw
    rw [if_neg hz] at h
    by_cases hp : (a' ++ ')' :: b).head? = some ')'
    · rw [if_pos hp] at h; cases h; intro w hw; cases hw
    rw [if_neg hp] at h
    have hle : proofTokenLen (a' ++ ')' :: b) ≤ a'.length := by
      unfold proofTokenLen
      split
      · cases a' with
        | nil => exact absurd rfl hp
        | cons c a' => simp
      · exact tail_paren _ a' (Nat.le_refl _)
    rw [List.drop_append_of_le_length hle, List.take_append_of_le_length hle] at h
    cases hr : labelList n (a'.drop (proofTokenLen (a' ++ ')' :: b)) ++ ')' :: b) <;> rw [hr] at h
    · rename_i L'
      cases h
      intro w hw
      rcases List.mem_cons.1 hw with rfl | hw
      · exact (List.take_prefix _ _).isInfix.trans h2.isInfix
      · exact (labelList_infix (hn.mono ((List.drop_suffix _ _).isInfix.trans h2.isInfix)) hr w hw).trans
          ((List.drop_suffix _ _).isInfix.trans h2.isInfix)
    all_goals cases h

theorem upToParen_eq {b : List Char} : ∀ {a : List Char}, ')' ∉ a → upToParen (a ++ ')' :: b) = .val a
  | [], _ => rfl
  | c :: a, h => by
    have h1 : c ≠ ')' := by rintro rfl; simp at h
    rw [List.cons_append, upToParen, if_neg h1, upToParen_eq (fun hm => h (List.mem_cons_of_mem _ hm))]
    rfl

theorem instr_infix {m x : Str} (h : m <:+: x) : instr 1 x m ≠ 0 := by
  by_cases hm : m = []
  · subst hm; rw [C26_instr_empty]; omega
  · rcases C26_instr 1 x m hm with ⟨_, h2⟩ | ⟨h1, _⟩
    · obtain ⟨a, b, hab⟩ := h
      exact absurd ⟨a, b, hab.symm, rfl⟩ (h2 (a.length + 1) (by omega))
    · omega

/-- A compressed proof in which no comment is inside the parentheses. -/
def LabelListClean (txt : List Char) : Prop :=
  ∀ r, skipWs .ws txt = .val ('(' :: r) → ∃ a b, r = a ++ ')' :: b ∧ ')' ∉ a ∧ NoComment a

/-- After READ of a source in which no compressed proof has a comment between its parentheses, the text search loses no theorem. -/
theorem textShows_of_source (h : Accepted src s) (hl : LookOk look) (hM : M.toEnv = envOf look src s)
    (hpar : ∀ p, 1 ≤ p → p ≤ src.length → kindAt (kinds src) p = .p → ∃ r, parseProofText M.toEnv (W p) p (text p) (textLen p) = .val r)
    (hsec : ∀ p, 1 ≤ p → p ≤ src.length → kindAt (kinds src) p = .p → SecOk (text p) (textLen p) ∧ LabelListClean (text p))
    {i : Nat} (hi : IsAssert src i) (hq : srcLabel src i ≠ ['?']) : TextShows (srcDb M W text textLen) i := by
  intro t h1 h2 hk
  have hk' : kindAt (kinds src) t = .p := by
    have : (M.toEnv.stmt t).kind = .p := hk
    rw [hM, kind_env h] at this; exact this
  have hn : (srcDb M W text textLen).n = src.length := by
    show M.toEnv.n = _
    rw [hM]; rfl
  obtain ⟨hS, hC⟩ := hsec t (by omega) (by omega) hk'
  obtain ⟨r0, hr0⟩ := hpar t (by omega) (by omega) hk'
  have hlabel : (srcDb M W text textLen).label i = srcLabel src i := by
    show M.toEnv.lab i = _
    rw [hM]; rfl
  have hlab0 : M.toEnv.lab i = srcLabel src i := hlabel
  have hlook : LookOk M.toEnv.look := by rw [hM]; exact hl
  obtain ⟨hlen, ⟨u, hB⟩, he⟩ := hS
  have hsplit : text t = (text t).take (textLen t) ++ (text t).drop (textLen t) := (List.take_append_drop _ _).symm
  -- the search only has to find the label
  have hfin : Refers (srcDb M W text textLen) t i → (i : Int) ∈ r0.proof := by
    rintro ⟨_, r, hr, _, ⟨_, hm⟩ | ⟨hf, _⟩⟩
    · have : parseProofText M.toEnv (W t) t (text t) (textLen t) = .val r := hr
      rw [hr0] at this; cases this; exact hm
    · cases hf
  unfold mayUse
  by_cases hemp : (srcDb M W text textLen).text t = []
  · rw [if_pos hemp]
    refine ⟨false, rfl, fun href => ?_⟩
    have hm := hfin href
    have hemp' : text t = [] := hemp
    rw [hemp'] at hr0
    have e1 : parseProofText M.toEnv (W t) t [] (textLen t) = parseProof M.toEnv t [] := rfl
    rw [e1] at hr0
    have := parseProof_tok hlook hr0 _ hm (by omega)
    rw [Int.toNat_natCast, hlab0] at this
    simp at this
    exact absurd this hq
  · rw [if_neg hemp]
    obtain ⟨t', u', b, g1, g2, g3, g4, _, _, g5⟩ := skip_split hB he
    rw [← hsplit] at g1
    have htext : (srcDb M W text textLen).text t = text t := rfl
    have htl : (srcDb M W text textLen).textLen t = textLen t := rfl
    rw [htext, htl, hlabel, g1, Out.bind_val]
    by_cases hpn : (t' ++ (text t).drop (textLen t)).head? = some '('
    · rw [if_pos hpn]
      obtain ⟨r, hr⟩ : ∃ r, t' ++ (text t).drop (textLen t) = '(' :: r := by
        cases hc : t' ++ (text t).drop (textLen t) with
        | nil => rw [hc] at hpn; cases hpn
        | cons c r => rw [hc] at hpn; simp at hpn; subst hpn; exact ⟨r, rfl⟩
      rw [hr] at g1 hpn ⊢
      obtain ⟨a, b', rfl, hpa, hna⟩ := hC r g1
      rw [show '(' :: (a ++ ')' :: b') = ('(' :: a) ++ ')' :: b' from rfl, upToParen_eq (by simp [hpa]), Out.bind_val]
      refine ⟨_, rfl, fun href => ?_⟩
      have hm := hfin href
      have e1 : parseCompressed M.toEnv (W t) t (text t) (textLen t) = .val r0 := by
        rw [← hr0]
        unfold parseProofText
        rw [g1, Out.bind_val, if_pos hpn]
      obtain ⟨q, L, k1, _, k3, k4⟩ := parseCompressed_tok hlook e1
      rw [g1] at k1; cases k1
      rcases k4 _ hm (by omega) with k | k
      · exfalso
        rw [Int.toNat_natCast, hM] at k
        have := (hypKinds_of_parse (look := look) h hk' i (by simp [k])).2
        have e2 : ((envOf look src s).stmt i).kind = kindAt (kinds src) i := kind_env h i
        have e3 : ((envOf look src s).toDb.stmt i).kind = kindAt (kinds src) i := e2
        rw [e3] at this
        rcases hi with hi | hi <;> rw [hi] at this <;> simp at this
      · rw [Int.toNat_natCast, hlab0] at k
        have := labelList_infix hna (by simpa using k3) _ k
        simp only [decide_eq_true_eq]
        exact instr_infix (this.trans (List.suffix_cons '(' a).isInfix)
    · rw [if_neg hpn]
      refine ⟨_, rfl, fun href => ?_⟩
      have hm := hfin href
      unfold parseProofText at hr0
      rw [g1, Out.bind_val, if_neg hpn] at hr0
      cases htok : proofToks (text t) <;> rw [htok] at hr0
      · rename_i toks
        rw [Out.bind_val] at hr0
        have := parseProof_tok hlook hr0 _ hm (by omega)
        rw [Int.toNat_natCast, hlab0] at this
        rcases List.mem_cons.1 this with e | hin
        · exact absurd e hq
        · -- the label is a token of the section
          have hinf : srcLabel src i <:+: t' := by
            unfold proofToks at htok
            have hstep : readToks proofTokenLen ((text t).length + 1) (t' ++ (text t).drop (textLen t)) = .val toks := by
              rw [readToks, g1, Out.bind_val] at htok
              rw [readToks]
              have hidem : skipWs .ws (t' ++ (text t).drop (textLen t)) = .val (t' ++ (text t).drop (textLen t)) := by
                cases t' with
                | nil => exact skip_stop he
                | cons c t' =>
                  obtain ⟨c1, c2⟩ := g5 c rfl
                  rw [List.cons_append, skip_ws_char c2, if_pos c1]
              rw [hidem, Out.bind_val]; exact htok
            exact readToks_infix he g2 hstep _ hin
          have hcut : (t' ++ (text t).drop (textLen t)).take (textLen t - ((text t).length - (t' ++ (text t).drop (textLen t)).length)) = t' := by
            have e1 : ((text t).take (textLen t)).length = textLen t := by rw [List.length_take]; omega
            have e2 : (text t).length = textLen t + ((text t).drop (textLen t)).length := by rw [List.length_drop]; omega
            rw [e1] at g3
            rw [List.length_append, e2, show textLen t - (textLen t + ((text t).drop (textLen t)).length - (t'.length + ((text t).drop (textLen t)).length)) = t'.length by omega]
            exact List.take_left' rfl
          rw [hcut]
          simp only [decide_eq_true_eq]
          exact instr_infix hinf
      all_goals cases hr0

/-- **C52** SHOW USAGE s / DIRECT of an assertion, after READ of a source in which no compressed proof has a comment between its parentheses: exactly the
theorems whose proofs have a step that refers to `s`. -/
theorem C52_usage_direct_source (h : Accepted src s) (hl : LookOk look) (hM : M.toEnv = envOf look src s)
    (hpar : ∀ p, 1 ≤ p → p ≤ src.length → kindAt (kinds src) p = .p → ∃ r, parseProofText M.toEnv (W p) p (text p) (textLen p) = .val r)
    (hsec : ∀ p, 1 ≤ p → p ≤ src.length → kindAt (kinds src) p = .p → SecOk (text p) (textLen p) ∧ LabelListClean (text p))
    {i : Nat} (hi : IsAssert src i) (hq : srcLabel src i ≠ ['?']) :
    ∃ g, traceUsage (srcDb M W text textLen) false i 0 = .val g ∧
      (∀ t, 1 ≤ t → t ≤ src.length → (g t = true ↔ Refers (srcDb M W text textLen) t i)) ∧
      (g 0 = true ↔ ∃ t, 1 ≤ t ∧ t ≤ src.length ∧ Refers (srcDb M W text textLen) t i) := by
  have hn : (srcDb M W text textLen).n = src.length := by
    show M.toEnv.n = _
    rw [hM]; rfl
  have hpos := kindAt_pos (ks := kinds src) (i := i) (by rcases hi with e | e <;> rw [e] <;> simp)
  have := C52_usage_direct_partial (D := srcDb M W text textLen) (C51_sane_after_read h hl hM hpar false) hpos.1
    (by rw [hn]; simpa [kinds] using hpos.2) (textShows_of_source h hl hM hpar hsec hi hq)
  rw [hn] at this
  exact this

end MM.Trace
