import Verif.Match.Model
import Verif.Vstr.Props
/-!
# C28: wild card matching
-/
namespace MM.Match
open MM.Proof MM.Pars MM.Vstr

/-- Specification: the pattern matches the string when every `wild` can be replaced by some string, and every `one` by some character, so that
it becomes the string. -/
inductive Glob (wild one : Char) : Str → Str → Prop
  | nil : Glob wild one [] []
  | star {p t : Str} (x : Str) : Glob wild one p t → Glob wild one (wild :: p) (x ++ t)
  | any {p t : Str} (c : Char) : Glob wild one p t → Glob wild one (one :: p) (c :: t)
  | lit {p t : Str} (c : Char) : c ≠ wild → Glob wild one p t → Glob wild one (c :: p) (c :: t)

variable {wild one : Char} {pat test : Str}

theorem glob_nil {t : Str} : Glob wild one [] t ↔ t = [] := by
  constructor
  · intro h; cases h; rfl
  · rintro rfl; exact .nil

theorem glob_wild (hwo : wild ≠ one) {p t : Str} : Glob wild one (wild :: p) t ↔ ∃ k ≤ t.length, Glob wild one p (t.drop k) := by
  constructor
  · intro h
    generalize hq : wild :: p = q at h
    cases h with
    | nil => cases hq
    | star x h => cases hq; exact ⟨x.length, by simp, by simpa using h⟩
    | any c h => cases hq; exact absurd rfl hwo
    | lit c hc h => cases hq; exact absurd rfl hc
  · rintro ⟨k, _, h⟩
    have := Glob.star (t.take k) h
    rwa [List.take_append_drop] at this

theorem glob_char {c : Char} (hc : c ≠ wild) {p t : Str} :
    Glob wild one (c :: p) t ↔ ∃ d u, t = d :: u ∧ (c = d ∨ c = one) ∧ Glob wild one p u := by
  constructor
  · intro h
    generalize hq : c :: p = q at h
    cases h with
    | nil => cases hq
    | star x h => cases hq; exact absurd rfl hc
    | any d h => cases hq; exact ⟨d, _, rfl, Or.inr rfl, h⟩
    | lit d hd h => cases hq; exact ⟨c, _, rfl, Or.inl rfl, h⟩
  · rintro ⟨d, u, rfl, h1 | h1, h2⟩
    · subst h1; exact .lit c hc h2
    · subst h1; exact .any d h2

/-- The rest of the pattern from `p` on matches the rest of the string from `t` on. -/
def G (wild one : Char) (pat test : Str) (p t : Nat) : Prop := t ≤ test.length ∧ Glob wild one (pat.drop p) (test.drop t)

theorem G_end {p t : Nat} (h : pat[p]? = none) : G wild one pat test p t ↔ t = test.length := by
  have hp : pat.length ≤ p := List.getElem?_eq_none_iff.1 h
  unfold G
  rw [List.drop_of_length_le hp, glob_nil, List.drop_eq_nil_iff]
  omega

theorem drop_eq_cons {α : Type} {l : List α} {i : Nat} {x : α} (h : l[i]? = some x) : l.drop i = x :: l.drop (i + 1) := by
  obtain ⟨hi, rfl⟩ := List.getElem?_eq_some_iff.1 h
  exact List.drop_eq_getElem_cons hi

theorem G_char {p t : Nat} {c : Char} (h : pat[p]? = some c) (hc : c ≠ wild) :
    G wild one pat test p t ↔ ∃ d, test[t]? = some d ∧ (c = d ∨ c = one) ∧ G wild one pat test (p + 1) (t + 1) := by
  unfold G
  rw [drop_eq_cons h, glob_char hc]
  constructor
  · rintro ⟨h1, d, u, h2, h3, h4⟩
    have hd : test[t]? = some d := by
      have : (test.drop t)[0]? = some d := by rw [h2]; rfl
      simpa using this
    rw [drop_eq_cons hd] at h2
    cases h2
    have := (List.getElem?_eq_some_iff.1 hd).1
    exact ⟨d, hd, h3, by omega, h4⟩
  · rintro ⟨d, h1, h2, h3, h4⟩
    exact ⟨by omega, d, _, drop_eq_cons h1, h2, h4⟩

theorem G_wild (hwo : wild ≠ one) {p t : Nat} (h : pat[p]? = some wild) (ht : t ≤ test.length) :
    G wild one pat test p t ↔ ∃ k, G wild one pat test (p + 1) (t + k) := by
  unfold G
  rw [drop_eq_cons h, glob_wild hwo]
  constructor
  · rintro ⟨h1, k, h2, h3⟩
    rw [List.length_drop] at h2
    rw [List.drop_drop] at h3
    exact ⟨k, by omega, h3⟩
  · rintro ⟨k, h2, h3⟩
    refine ⟨ht, k, by rw [List.length_drop]; omega, ?_⟩
    rwa [List.drop_drop]

theorem G_wild_mono (hwo : wild ≠ one) {p t t' : Nat} (h : pat[p]? = some wild) (htt : t' ≤ t) (hG : G wild one pat test p t) :
    G wild one pat test p t' := by
  have ht := hG.1
  rw [G_wild hwo h ht] at hG
  rw [G_wild hwo h (by omega)]
  obtain ⟨k, hk⟩ := hG
  exact ⟨t - t' + k, by rwa [show t' + (t - t' + k) = t + k by omega]⟩

/-- A pattern character that is not a wild card and suits the string character. -/
def Ok (wild one : Char) (pat test : Str) (a b : Nat) : Prop :=
  ∃ c d, pat[a]? = some c ∧ c ≠ wild ∧ test[b]? = some d ∧ (c = d ∨ c = one)

/-- `n` characters that suit. -/
theorem G_seg {p t n : Nat} (h : ∀ j < n, Ok wild one pat test (p + j) (t + j)) :
    G wild one pat test p t ↔ G wild one pat test (p + n) (t + n) := by
  induction n with
  | zero => rfl
  | succ n ih =>
    rw [ih (fun j hj => h j (by omega))]
    obtain ⟨c, d, h1, h2, h3, h4⟩ := h n (by omega)
    rw [G_char h1 h2]
    constructor
    · rintro ⟨_, _, _, h⟩; exact h
    · intro h; exact ⟨d, h3, h4, h⟩

/-- Matching a run of `n` characters that are not wild cards moves on by `n`. -/
theorem G_run {p t n : Nat} (h : ∀ j < n, ∃ c, pat[p + j]? = some c ∧ c ≠ wild) (hG : G wild one pat test p t) :
    G wild one pat test (p + n) (t + n) := by
  induction n with
  | zero => exact hG
  | succ n ih =>
    have := ih (fun j hj => h j (by omega))
    obtain ⟨c, h1, h2⟩ := h n (by omega)
    rw [G_char h1 h2] at this
    obtain ⟨_, _, _, h⟩ := this
    exact h

/-- Variant of the scanning loop. -/
def measure (pat test : Str) (ppos tpos pctr i : Nat) : Nat :=
  ((pat.length - ppos) * (test.length + 2) + (test.length + 1 - (tpos + pctr))) * (pat.length + 2) + (pat.length - i)

theorem measure_lt {A A' W c c' : Nat} (h : A' < A) (hc : c' < W) : A' * W + c' < A * W + c := by
  have : (A' + 1) * W ≤ A * W := Nat.mul_le_mul_right W h
  rw [Nat.succ_mul] at this
  omega

theorem scan_spec (hwo : wild ≠ one) : ∀ (fuel ppos tpos pctr i : Nat), measure pat test ppos tpos pctr i < fuel →
    ppos + 1 + i ≤ pat.length → tpos + pctr + i ≤ test.length → ppos < pat.length →
    (∀ j < i, Ok wild one pat test (ppos + 1 + j) (tpos + pctr + j)) →
    (∀ k < pctr, ¬ G wild one pat test (ppos + 1) (tpos + k)) →
    ∃ b, scan wild one pat test fuel ppos tpos pctr i = .val b ∧ (b = true ↔ ∃ k, G wild one pat test (ppos + 1) (tpos + k)) := by
  intro fuel
  induction fuel with
  | zero => intro ppos tpos pctr i h; omega
  | succ n ih =>
    intro ppos tpos pctr i hm h1 h2 h3 h4 h5
    rw [scan]
    have hrun : ∀ j < i, ∃ c, pat[ppos + 1 + j]? = some c ∧ c ≠ wild := fun j hj => by
      obtain ⟨c, _, hc, hc2, _⟩ := h4 j hj
      exact ⟨c, hc, hc2⟩
    by_cases hw : pat[ppos + 1 + i]? = some wild
    · rw [if_pos hw]
      have hlt := (List.getElem?_eq_some_iff.1 hw).1
      obtain ⟨b, hb, hb2⟩ := ih (ppos + 1 + i) (tpos + pctr + i) 0 0 (by
        unfold measure at hm ⊢
        refine Nat.lt_of_lt_of_le ?_ (Nat.lt_succ_iff.1 hm)
        apply measure_lt _ (by omega)
        have e : pat.length - ppos = (pat.length - (ppos + 1 + i)) + (1 + i) := by omega
        rw [e, Nat.add_mul]
        have : test.length + 2 ≤ (1 + i) * (test.length + 2) := Nat.le_mul_of_pos_left _ (by omega)
        omega) (by omega) (by omega) hlt (by intro j hj; omega) (by intro k hk; omega)
      refine ⟨b, hb, ?_⟩
      rw [hb2, ← G_wild hwo hw (by omega)]
      constructor
      · intro hG
        exact ⟨pctr, (G_seg h4).2 hG⟩
      · rintro ⟨k, hk⟩
        have hkp : pctr ≤ k := by
          by_contra hlt
          exact h5 k (by omega) hk
        have := G_run hrun hk
        exact G_wild_mono hwo hw (by omega) this
    · rw [if_neg hw]
      by_cases hmis : pat[ppos + 1 + i]? ≠ test[tpos + pctr + i]? ∧
        (pat[ppos + 1 + i]? ≠ some one ∨ test[tpos + pctr + i]? = none)
      · rw [if_pos hmis]
        -- no match from `tpos + pctr`
        have hno : ¬ G wild one pat test (ppos + 1) (tpos + pctr) := by
          rw [G_seg h4]
          intro hG
          cases hpc : pat[ppos + 1 + i]? with
          | none =>
            rw [G_end hpc] at hG
            apply hmis.1
            rw [hpc, hG]
            simp
          | some c =>
            rw [G_char hpc (by rintro rfl; exact hw hpc)] at hG
            obtain ⟨d, hd, hcd, _⟩ := hG
            rw [hpc, hd] at hmis
            rcases hcd with rfl | rfl
            · exact hmis.1 rfl
            · rcases hmis.2 with h | h
              · exact h rfl
              · cases h
        by_cases hend : test[tpos + pctr + i]? = none
        · rw [if_pos hend]
          refine ⟨false, rfl, ?_⟩
          simp only [Bool.false_eq_true, false_iff]
          rintro ⟨k, hk⟩
          have hge : test.length ≤ tpos + pctr + i := List.getElem?_eq_none_iff.1 hend
          rcases Nat.lt_trichotomy k pctr with hlt | heq | hgt
          · exact h5 k hlt hk
          · rw [heq] at hk; exact hno hk
          · have := (G_run hrun hk).1
            omega
        · rw [if_neg hend]
          have hlt : tpos + pctr + i < test.length := by
            by_contra hge
            exact hend (List.getElem?_eq_none_iff.2 (by omega))
          obtain ⟨b, hb, hb2⟩ := ih ppos tpos (pctr + 1) 0 (by
            unfold measure at hm ⊢
            refine Nat.lt_of_lt_of_le ?_ (Nat.lt_succ_iff.1 hm)
            apply measure_lt _ (by omega)
            omega) (by omega) (by omega) h3 (by intro j hj; omega) (by
              intro k hk
              rcases Nat.lt_succ_iff_lt_or_eq.1 hk with h | h
              · exact h5 k h
              · rw [h]; exact hno)
          exact ⟨b, hb, hb2⟩
      · rw [if_neg hmis]
        by_cases hpn : pat[ppos + 1 + i]? = none
        · rw [if_pos hpn]
          refine ⟨true, rfl, ?_⟩
          simp only [true_iff]
          refine ⟨pctr, (G_seg h4).2 ?_⟩
          rw [G_end hpn]
          have : test[tpos + pctr + i]? = none := by
            by_contra hne
            apply hmis
            rw [hpn]
            exact ⟨fun h => hne h.symm, Or.inl (by simp)⟩
          have := List.getElem?_eq_none_iff.1 this
          omega
        · rw [if_neg hpn]
          obtain ⟨c, hc⟩ := Option.ne_none_iff_exists'.1 hpn
          have hclt := (List.getElem?_eq_some_iff.1 hc).1
          have hok : Ok wild one pat test (ppos + 1 + i) (tpos + pctr + i) := by
            rw [hc] at hmis
            cases ht : test[tpos + pctr + i]? with
            | none => exfalso; apply hmis; rw [ht]; exact ⟨by simp, Or.inr rfl⟩
            | some d =>
              refine ⟨c, d, hc, by rintro rfl; exact hw hc, ht, ?_⟩
              rw [ht] at hmis
              by_contra hcd
              push Not at hcd
              apply hmis
              exact ⟨by simpa using hcd.1, Or.inl (by simpa using hcd.2)⟩
          have htl : tpos + pctr + i < test.length := by
            obtain ⟨_, d, _, _, hd, _⟩ := hok
            exact (List.getElem?_eq_some_iff.1 hd).1
          exact ih ppos tpos pctr (i + 1) (by
            unfold measure at hm ⊢
            omega) (by omega) (by omega) h3 (by
              intro j hj
              rcases Nat.lt_succ_iff_lt_or_eq.1 hj with h | h
              · exact h4 j h
              · rw [h]; exact hok) h5

/-- The first loop: it stops at the first position that is not a suitable pair of characters. -/
theorem skip_spec (hw : wild ∉ test) : ∀ (n p : Nat), p ≤ pat.length → pat.length < n + p → p ≤ test.length →
    (∀ j < p, Ok wild one pat test j j) →
    ∃ q, skip one pat test n p = q ∧ q ≤ pat.length ∧ q ≤ test.length ∧ (∀ j < q, Ok wild one pat test j j) ∧
      (pat[q]? = none ∨ (pat[q]? ≠ test[q]? ∧ (pat[q]? = some one → test[q]? = none))) ∨ (wild = one) := by
  intro n
  induction n with
  | zero => intro p h1 h2; omega
  | succ n ih =>
    intro p h1 h2 h3 h4
    by_cases hwo : wild = one
    · exact ⟨0, Or.inr hwo⟩
    rw [skip]
    by_cases hc : (pat[p]? = test[p]? ∨ (pat[p]? = some one ∧ test[p]? ≠ none)) ∧ pat[p]? ≠ none
    · rw [if_pos hc]
      obtain ⟨c, hpc⟩ := Option.ne_none_iff_exists'.1 hc.2
      have hok : Ok wild one pat test p p := by
        rcases hc.1 with h | ⟨h, h'⟩
        · refine ⟨c, c, hpc, ?_, by rw [← h, hpc], Or.inl rfl⟩
          rintro rfl
          exact hw (List.mem_of_getElem? (by rw [← h, hpc]))
        · obtain ⟨d, hd⟩ := Option.ne_none_iff_exists'.1 h'
          refine ⟨c, d, hpc, ?_, hd, Or.inr ?_⟩
          · rw [hpc] at h; simp at h; rw [h]; exact Ne.symm hwo
          · rw [hpc] at h; simpa using h
      have hl1 := (List.getElem?_eq_some_iff.1 hpc).1
      have hl2 : p < test.length := by
        obtain ⟨_, d, _, _, hd, _⟩ := hok
        exact (List.getElem?_eq_some_iff.1 hd).1
      exact ih (p + 1) (by omega) (by omega) (by omega) (by
        intro j hj
        rcases Nat.lt_succ_iff_lt_or_eq.1 hj with h | h
        · exact h4 j h
        · rw [h]; exact hok)
    · rw [if_neg hc]
      refine ⟨p, Or.inl ⟨rfl, h1, h3, h4, ?_⟩⟩
      by_cases hn : pat[p]? = none
      · exact Or.inl hn
      · right
        constructor
        · intro h; exact hc ⟨Or.inl h, hn⟩
        · intro h
          by_contra hne
          exact hc ⟨Or.inr ⟨h, hne⟩, hn⟩

theorem glob_spec (hwo : wild ≠ one) (hw : wild ∉ test) : ∃ b, glob wild one test pat = .val b ∧ (b = true ↔ Glob wild one pat test) := by
  have hG : Glob wild one pat test ↔ G wild one pat test 0 0 := by
    unfold G; simp
  rw [hG]
  obtain ⟨q, ⟨h0, h1, h2, h3, h4⟩ | h⟩ := skip_spec (one := one) (pat := pat) hw (pat.length + 1) 0 (by omega) (by omega) (by omega) (by intro j hj; omega)
  swap
  · exact absurd h hwo
  have hseg : G wild one pat test 0 0 ↔ G wild one pat test q q := by
    have := G_seg (wild := wild) (one := one) (pat := pat) (test := test) (p := 0) (t := 0) (n := q) (by intro j hj; simpa using h3 j hj)
    simpa using this
  rw [hseg]
  unfold glob
  dsimp only
  rw [h0]
  unfold chr
  cases hp : pat[q]? with
  | none =>
    refine ⟨_, rfl, ?_⟩
    rw [G_end hp, Option.isNone_iff_eq_none, List.getElem?_eq_none_iff]
    omega
  | some c =>
    dsimp only
    by_cases hc : c = wild
    · rw [if_neg (by simp [hc])]
      subst hc
      have hlt := (List.getElem?_eq_some_iff.1 hp).1
      rw [G_wild hwo hp h2]
      exact scan_spec hwo _ q q 0 0 (by
        unfold measure fuelFor
        refine Nat.lt_succ_of_le ?_
        have hA : (pat.length - q) * (test.length + 2) + (test.length + 1 - (q + 0)) + 1 ≤ (pat.length + 1) * (test.length + 2) + test.length + 2 := by
          have := Nat.mul_le_mul_right (test.length + 2) (show pat.length - q ≤ pat.length + 1 by omega)
          omega
        have := Nat.mul_le_mul_right (pat.length + 2) hA
        rw [Nat.succ_mul] at this
        omega) (by omega) (by omega) hlt (by intro j hj; omega) (by intro k hk; omega)
    · rw [if_pos hc]
      refine ⟨false, rfl, ?_⟩
      simp only [Bool.false_eq_true, false_iff]
      rw [G_char hp hc]
      rintro ⟨d, hd, hcd, _⟩
      rw [hp, hd] at h4
      rcases h4 with h4 | h4
      · cases h4
      · rcases hcd with rfl | rfl
        · exact h4.1 rfl
        · exact absurd (h4.2 rfl) (by simp)

/-- The pattern is not one of the special label patterns. -/
def Plain (pat : Str) : Prop := '~' ∉ pat ∧ pat.head? ≠ some '#' ∧ pat.head? ≠ some '@' ∧ pat ≠ ['='] ∧ pat ≠ ['%']

/-- C28: a string without the character `*` matches a pattern that is none of the special ones exactly when `*` can be expanded to strings and `?` to
characters so as to give the string. -/
theorem C28_label_matching (E : MEnv) {pat test : Str} (hp : Plain pat) (ht : '*' ∉ test) :
    ∃ b, matchesOne E test pat '*' '?' = .val b ∧ (b = true ↔ Glob '*' '?' pat test) := by
  obtain ⟨h1, h2, h3, h4, h5⟩ := hp
  have h0 : instr 1 pat ['~'] = 0 := by
    rcases C26_instr 1 pat ['~'] (by simp) with h | ⟨_, ⟨a, b, hab, _⟩, _⟩
    · exact h.1
    · exact absurd (by rw [hab]; simp) h1
  obtain ⟨b, hb, hb2⟩ := glob_spec (wild := '*') (one := '?') (pat := pat) (test := test) (by decide) ht
  refine ⟨b, ?_, hb2⟩
  unfold matchesOne special
  simp only [if_true]
  rw [if_neg (by simp [h0]), if_neg h2, if_neg h3, if_neg h4, if_neg h5]
  exact hb

/-- C28: other wild card characters (used by SEARCH on math symbols) always mean plain matching. -/
theorem C28_symbol_matching (E : MEnv) {pat test : Str} {wild one : Char} (hw : wild ≠ '*') (hwo : wild ≠ one) (ht : wild ∉ test) :
    ∃ b, matchesOne E test pat wild one = .val b ∧ (b = true ↔ Glob wild one pat test) := by
  obtain ⟨b, hb, hb2⟩ := glob_spec (wild := wild) (one := one) (pat := pat) (test := test) hwo ht
  refine ⟨b, ?_, hb2⟩
  unfold matchesOne
  rw [if_neg hw]
  exact hb

/-- C28 needs the proviso on the string: `*` does not match `*a`. -/
theorem C28_star_in_string (E : MEnv) : matchesOne E "*a".toList "*".toList '*' '?' = .val false := by rfl

theorem glob_star_all (test : Str) : Glob '*' '?' ['*'] test := by
  have := Glob.star (wild := '*') (one := '?') test Glob.nil
  simpa using this

/-- C28: a comma-separated list of patterns matches when one of its entries does. -/
theorem C28_list (E : MEnv) {pat test : Str} (hne : pat ≠ []) (hp : ∀ e ∈ split pat, Plain e) (ht : '*' ∉ test) :
    ∃ b, matchesList E test pat '*' '?' = .val b ∧ (b = true ↔ ∃ e ∈ split pat, Glob '*' '?' e test) := by
  have key : ∀ (n i : Nat), 1 ≤ i → i + n = (split pat).length + 1 →
      ∃ b, matchesGo E test pat '*' '?' n i = .val b ∧ (b = true ↔ ∃ e ∈ (split pat).drop (i - 1), Glob '*' '?' e test) := by
    intro n
    induction n with
    | zero =>
      intro i hi h
      refine ⟨false, rfl, ?_⟩
      rw [List.drop_of_length_le (by omega)]
      simp
    | succ n ih =>
      intro i hi h
      have hlt : i - 1 < (split pat).length := by omega
      have he : entry i pat = (split pat)[i - 1] := by
        rw [C27_entry, if_neg (by omega), Int.toNat_natCast, List.getElem?_eq_getElem hlt]
        rfl
      have hmem : (split pat)[i - 1] ∈ split pat := List.getElem_mem hlt
      obtain ⟨b, hb, hb2⟩ := C28_label_matching E (hp _ hmem) ht
      obtain ⟨b', hb', hb2'⟩ := ih (i + 1) (by omega) (by omega)
      rw [matchesGo, he, hb, Out.bind_val, List.drop_eq_getElem_cons hlt]
      rw [Nat.add_sub_cancel] at hb2'
      rw [show i - 1 + 1 = i by omega]
      cases b with
      | true => exact ⟨true, by simp, by simp only [true_iff]; exact ⟨_, by simp, hb2.1 rfl⟩⟩
      | false =>
        refine ⟨b', by simpa using hb', ?_⟩
        rw [hb2']
        constructor
        · rintro ⟨e, he, hg⟩; exact ⟨e, by simp [he], hg⟩
        · rintro ⟨e, he, hg⟩
          rcases List.mem_cons.1 he with rfl | he
          · exact absurd (hb2.2 hg) (by simp)
          · exact ⟨e, he, hg⟩
  have := key (numEntries pat) 1 (le_refl _) (by rw [C27_numEntries, if_neg hne]; omega)
  simpa [matchesList] using this

/-- C28: `*` matches every label. -/
theorem C28_star (E : MEnv) {test : Str} (ht : '*' ∉ test) : matchesList E test ['*'] '*' '?' = .val true := by
  have hs : split ['*'] = [['*']] := by decide
  obtain ⟨b, hb, hb2⟩ := C28_list E (pat := ['*']) (test := test) (by simp) (by
    rw [hs]; intro e he; simp at he; subst he; refine ⟨by decide, by decide, by decide, by decide, by decide⟩) ht
  rw [hb, hb2.2 ⟨['*'], by rw [hs]; simp, glob_star_all test⟩]

/-- C28: the range pattern `a~b` matches the assertions from `a` to `b` in source order; an empty side means the start or end of the database. -/
theorem C28_range (E : MEnv) {a b test : Str} (ha : '~' ∉ a) {s1 s2 s3 : Int}
    (h1 : if a = [] then s1 = 1 else lookupLabel E.toEnv a = .val s1) (h2 : lookupLabel E.toEnv test = .val s2)
    (h3 : if b = [] then s3 = E.n else lookupLabel E.toEnv b = .val s3) :
    matchesOne E test (a ++ '~' :: b) '*' '?' = .val (decide (1 ≤ s1 ∧ s1 ≤ s2 ∧ s2 ≤ s3)) := by
  have hi : instr 1 (a ++ '~' :: b) ['~'] = a.length + 1 := by
    rcases C26_instr 1 (a ++ '~' :: b) ['~'] (by simp) with ⟨_, h⟩ | ⟨h0, ⟨x, y, hxy, hxl⟩, hmin⟩
    · exact absurd ⟨a, b, by simp, rfl⟩ (h (a.length + 1) (by omega))
    · have hle : ¬ a.length + 1 < instr 1 (a ++ '~' :: b) ['~'] :=
        fun hlt => hmin (a.length + 1) (by omega) hlt ⟨a, b, by simp, rfl⟩
      by_contra hne
      have hxa : x.length < a.length := by omega
      apply ha
      have hg := congrArg (fun l : Str => l[x.length]?) hxy
      simp only [List.append_assoc] at hg
      rw [List.getElem?_append_left hxa, List.getElem?_append_right (le_refl _)] at hg
      simp at hg
      exact List.mem_of_getElem? (i := x.length) hg
  have hL : left (a ++ '~' :: b) ((a.length + 1 : Nat) - 1 : Int) = .val a := by
    rw [C25_left, chars_eq _ _ (le_refl 1)]
    congr 1
    rw [show ((1 : Int) - 1).toNat = 0 by decide, List.drop_zero,
      show (((a.length + 1 : Nat) : Int) - 1 - 1 + 1).toNat = a.length by omega]
    simp
  have hR : right (a ++ '~' :: b) ((a.length + 1 : Nat) + 1 : Int) = .val b := by
    rw [C25_right, chars_eq _ _ (by omega)]
    congr 1
    rw [show (((a.length + 1 : Nat) : Int) + 1 - 1).toNat = a.length + 1 by omega, List.take_of_length_le]
    · rw [show a ++ '~' :: b = (a ++ ['~']) ++ b by simp, List.drop_append_of_le_length (by simp), List.drop_of_length_le (by simp)]
      simp
    · simp; omega
  have e1 : rangeFrom E (a ++ '~' :: b) (a.length + 1) = .val s1 := by
    rw [rangeFrom, hL, Out.bind_val]
    by_cases h : a = []
    · rw [if_pos h] at h1; simp [h, h1]
    · rw [if_neg h] at h1
      have : a.length ≠ 0 := fun h' => h (List.length_eq_zero_iff.1 h')
      rw [if_neg (by omega), h1]
  have e3 : rangeTo E (a ++ '~' :: b) (a.length + 1) = .val s3 := by
    rw [rangeTo, hR, Out.bind_val]
    by_cases h : b = []
    · rw [if_pos h] at h3; simp [h, h3]
    · rw [if_neg h] at h3
      have : b.length ≠ 0 := fun h' => h (List.length_eq_zero_iff.1 h')
      rw [if_neg (by simp; omega), h3]
  unfold matchesOne special
  simp only [if_true]
  rw [hi, if_pos (by omega), e1, Out.bind_val, h2, Out.bind_val, e3, Out.bind_val, Out.bind_val]
  show Out.val _ = Out.val _
  refine congrArg Out.val (decide_eq_decide.2 ?_)
  omega

example (E : MEnv) : matchesOne E "axmp2".toList "a*m?2".toList '*' '?' = .val true ∧
    matchesOne E "axmp2".toList "a*m2".toList '*' '?' = .val false := ⟨rfl, rfl⟩

end MM.Match
