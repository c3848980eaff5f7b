import Verif.Extr.Kept
import Mathlib.Data.List.Nodup
/-! # The declarations of the unused symbols -/
namespace MM.Extr
open MM.Veri MM.Pars MM.Spec MM.Trace

theorem declaredLoop_iff {stmts : Nat → Stmt} {f : Nat → Bool} {t : Nat} : ∀ {count stmt : Nat} {d : Nat → Bool},
    declaredLoop stmts f count stmt d t = true ↔ d t = true ∨ ∃ j, stmt ≤ j ∧ j < stmt + count ∧ f j = true ∧ ((stmts j).kind = .c ∨ (stmts j).kind = .v) ∧ t ∈ (stmts j).math
  | 0, stmt, d => by
    unfold declaredLoop
    constructor
    · exact Or.inl
    · rintro (h | ⟨j, a, b, _⟩)
      · exact h
      · omega
  | count + 1, stmt, d => by
    unfold declaredLoop
    by_cases hc : f stmt = true ∧ ((stmts stmt).kind = .c ∨ (stmts stmt).kind = .v)
    · rw [if_pos hc, declaredLoop_iff]
      constructor
      · rintro (h | ⟨j, a, b, c⟩)
        · by_cases hm : t ∈ (stmts stmt).math
          · exact Or.inr ⟨stmt, by omega, by omega, hc.1, hc.2, hm⟩
          · rw [if_neg hm] at h; exact Or.inl h
        · exact Or.inr ⟨j, by omega, by omega, c⟩
      · rintro (h | ⟨j, a, b, c⟩)
        · left; split
          · rfl
          · exact h
        · rcases Nat.lt_or_ge stmt j with e | e
          · exact Or.inr ⟨j, by omega, by omega, c⟩
          · have : j = stmt := by omega
            subst this
            left; rw [if_pos c.2.2]
    · rw [if_neg hc, declaredLoop_iff]
      constructor
      · rintro (h | ⟨j, a, b, c⟩)
        · exact Or.inl h
        · exact Or.inr ⟨j, by omega, by omega, c⟩
      · rintro (h | ⟨j, a, b, c⟩)
        · exact Or.inl h
        · rcases Nat.lt_or_ge stmt j with e | e
          · exact Or.inr ⟨j, by omega, by omega, c⟩
          · have : j = stmt := by omega
            subst this
            exact absurd ⟨c.1, c.2.1⟩ hc

section
variable {toks : List (Name × Bool)}

/-- The name of token `t` -/
def nameOf (toks : List (Name × Bool)) (t : Nat) : Name := ((toks[t]?).map (·.1)).getD []

theorem nameOf_some {t : Nat} (h : t < toks.length) : tokName toks t = some (nameOf toks t) := by
  unfold tokName nameOf
  rw [List.getElem?_eq_getElem h]; rfl

theorem nameOf_eq {t : Nat} {nm : Name} (h : tokName toks t = some nm) : t < toks.length ∧ nameOf toks t = nm := by
  unfold tokName at h
  unfold nameOf
  rcases Nat.lt_or_ge t toks.length with c | c
  · rw [List.getElem?_eq_getElem c] at h ⊢
    exact ⟨c, by simpa using h⟩
  · rw [List.getElem?_eq_none (by omega)] at h; cases h

theorem elsewhere_iff {d : Nat → Bool} {t : Nat} (h : t < toks.length) : elsewhere toks d t = true ↔ ∃ j, j < toks.length ∧ j ≠ t ∧ nameOf toks j = nameOf toks t ∧ d j = true := by
  unfold elsewhere
  rw [List.any_eq_true]
  constructor
  · rintro ⟨j, hj, hh⟩
    rw [List.mem_range] at hj
    simp only [Bool.and_eq_true, bne_iff_ne, ne_eq, beq_iff_eq] at hh
    refine ⟨j, hj, hh.1.1, ?_, hh.2⟩
    unfold nameOf
    rw [hh.1.2]
  · rintro ⟨j, hj, a, b, c⟩
    refine ⟨j, List.mem_range.mpr hj, ?_⟩
    simp only [Bool.and_eq_true, bne_iff_ne, ne_eq, beq_iff_eq]
    refine ⟨⟨a, ?_⟩, c⟩
    unfold nameOf at b
    rw [List.getElem?_eq_getElem hj, List.getElem?_eq_getElem h] at b ⊢
    simpa using b

/-- The state of the loop over the tokens before token `t`; `d0` tells the tokens declared in the file. -/
structure UInv (toks : List (Name × Bool)) (d0 d : Nat → Bool) (t : Nat) (r : List Name × List Name) : Prop where
  flag : ∀ j, d j = true ↔ d0 j = true ∨ (j < t ∧ tokIsVar toks j = true)
  c : r.1 = ((List.range t).filter fun j => !d0 j && !tokIsVar toks j).map (nameOf toks)
  v : ∀ nm, nm ∈ r.2 ↔ (∃ j, j < t ∧ tokIsVar toks j = true ∧ nameOf toks j = nm) ∧ ∀ j, j < toks.length → d0 j = true → nameOf toks j ≠ nm
  vNodup : r.2.Nodup

theorem undecl_ok {d0 : Nat → Bool} : ∀ {count t : Nat} {d : Nat → Bool} {r : List Name × List Name}, t + count = toks.length → UInv toks d0 d t r →
    ∃ d', UInv toks d0 d' toks.length (undeclLoop toks count t d r)
  | 0, t, d, r, hl, h => by
    rw [← hl]
    exact ⟨d, h⟩
  | count + 1, t, d, r, hl, h => by
    have ht : t < toks.length := by omega
    have hdt : d t = true ↔ d0 t = true := by
      rw [h.flag t]
      constructor
      · rintro (a | ⟨a, _⟩)
        · exact a
        · omega
      · exact Or.inl
    unfold undeclLoop
    have hcs : ∀ (x : List Name), x = (if d0 t = false ∧ tokIsVar toks t = false then r.1 ++ [nameOf toks t] else r.1) →
        x = ((List.range (t + 1)).filter fun j => !d0 j && !tokIsVar toks j).map (nameOf toks) := by
      intro x hx
      rw [List.range_succ, List.filter_append, List.map_append, ← h.c, hx]
      by_cases hc : d0 t = false ∧ tokIsVar toks t = false
      · rw [if_pos hc]; simp [hc.1, hc.2]
      · rw [if_neg hc]
        have : (!d0 t && !tokIsVar toks t) = false := by
          cases e1 : d0 t <;> cases e2 : tokIsVar toks t <;> simp [e1, e2] at hc ⊢
        simp [this]
    by_cases hd : d t = true
    · rw [if_pos hd]
      have hd0 := hdt.mp hd
      refine undecl_ok (by omega) ⟨fun j => ?_, hcs _ (by rw [if_neg (by rw [hd0]; simp)]), fun nm => ?_, h.vNodup⟩
      · rw [h.flag j]
        constructor
        · rintro (a | ⟨a, b⟩)
          · exact Or.inl a
          · exact Or.inr ⟨by omega, b⟩
        · rintro (a | ⟨a, b⟩)
          · exact Or.inl a
          · rcases Nat.lt_or_ge j t with c | c
            · exact Or.inr ⟨c, b⟩
            · have : j = t := by omega
              subst this; exact Or.inl hd0
      · rw [h.v nm]
        constructor
        · rintro ⟨⟨j, a, b, c⟩, e⟩
          exact ⟨⟨j, by omega, b, c⟩, e⟩
        · rintro ⟨⟨j, a, b, c⟩, e⟩
          rcases Nat.lt_or_ge j t with x | x
          · exact ⟨⟨j, x, b, c⟩, e⟩
          · have : j = t := by omega
            subst this; exact absurd c (e j ht hd0)
    · rw [if_neg hd]
      have hd0 : d0 t = false := by
        cases e : d0 t
        · rfl
        · exact absurd (hdt.mpr e) hd
      by_cases hv : tokIsVar toks t = false
      · rw [if_pos hv]
        refine undecl_ok (by omega) ⟨fun j => ?_, hcs _ (by rw [if_pos ⟨hd0, hv⟩]; rfl), fun nm => ?_, h.vNodup⟩
        · rw [h.flag j]
          constructor
          · rintro (a | ⟨a, b⟩)
            · exact Or.inl a
            · exact Or.inr ⟨by omega, b⟩
          · rintro (a | ⟨a, b⟩)
            · exact Or.inl a
            · rcases Nat.lt_or_ge j t with c | c
              · exact Or.inr ⟨c, b⟩
              · have : j = t := by omega
                subst this; rw [hv] at b; cases b
        · show nm ∈ r.2 ↔ _
          rw [h.v nm]
          constructor
          · rintro ⟨⟨j, a, b, c⟩, e⟩
            exact ⟨⟨j, by omega, b, c⟩, e⟩
          · rintro ⟨⟨j, a, b, c⟩, e⟩
            rcases Nat.lt_or_ge j t with x | x
            · exact ⟨⟨j, x, b, c⟩, e⟩
            · have : j = t := by omega
              subst this; rw [hv] at b; cases b
      · rw [if_neg hv]
        have hv' : tokIsVar toks t = true := by simpa using hv
        have hels := elsewhere_iff (d := d) ht
        refine undecl_ok (by omega) ⟨fun j => ?_, hcs _ (by rw [if_neg (c := d0 t = false ∧ tokIsVar toks t = false) (by rw [hv']; simp)]), fun nm => ?_, ?_⟩
        · unfold upd
          by_cases e : j = t
          · rw [if_pos e, e]
            exact ⟨fun _ => Or.inr ⟨by omega, hv'⟩, fun _ => rfl⟩
          · rw [if_neg e, h.flag j]
            constructor
            · rintro (a | ⟨a, b⟩)
              · exact Or.inl a
              · exact Or.inr ⟨by omega, b⟩
            · rintro (a | ⟨a, b⟩)
              · exact Or.inl a
              · exact Or.inr ⟨by omega, b⟩
        · dsimp only
          by_cases he : elsewhere toks d t = true
          · rw [if_pos he, h.v nm]
            constructor
            · rintro ⟨⟨j, a, b, c⟩, e⟩
              exact ⟨⟨j, by omega, b, c⟩, e⟩
            · rintro ⟨⟨j, a, b, c⟩, e⟩
              refine ⟨?_, e⟩
              rcases Nat.lt_or_ge j t with x | x
              · exact ⟨j, x, b, c⟩
              · have : j = t := by omega
                subst this
                obtain ⟨k, k1, k2, k3, k4⟩ := hels.mp he
                rcases (h.flag k).mp k4 with k4 | ⟨k4, k5⟩
                · exact absurd (k3.trans c) (e k k1 k4)
                · exact ⟨k, k4, k5, k3.trans c⟩
          · rw [if_neg he, List.mem_append, h.v nm]
            constructor
            · rintro (⟨⟨j, a, b, c⟩, e⟩ | e)
              · exact ⟨⟨j, by omega, b, c⟩, e⟩
              · have e : nm = nameOf toks t := List.mem_singleton.mp e
                subst e
                refine ⟨⟨t, by omega, hv', rfl⟩, fun j a b c => ?_⟩
                apply he
                rw [hels]
                refine ⟨j, a, ?_, c, (h.flag j).mpr (Or.inl b)⟩
                rintro rfl
                rw [hd0] at b; cases b
            · rintro ⟨⟨j, a, b, c⟩, e⟩
              rcases Nat.lt_or_ge j t with x | x
              · exact Or.inl ⟨⟨j, x, b, c⟩, e⟩
              · have : j = t := by omega
                subst this
                right; rw [← c]; exact List.mem_singleton.mpr rfl
        · dsimp only
          by_cases he : elsewhere toks d t = true
          · rw [if_pos he]; exact h.vNodup
          · rw [if_neg he]
            refine List.nodup_append.mpr ⟨h.vNodup, List.nodup_singleton _, ?_⟩
            intro a ha b hb e
            have hb' : b = nameOf toks t := List.mem_singleton.mp hb
            rw [e, hb'] at ha
            obtain ⟨⟨j, j1, j2, j3⟩, _⟩ := (h.v _).mp ha
            apply he
            rw [hels]
            exact ⟨j, by omega, by omega, j3, (h.flag j).mpr (Or.inr ⟨j1, j2⟩)⟩

end

section
variable {src : List Src} {s : PState} {keep : Nat → Bool}

/-- A token and the statement declaring it -/
theorem tok_decl (h : Accepted src s) {t : Nat} (ht : t < (declToks src).length) : ∃ j, 1 ≤ j ∧ j ≤ src.length ∧
    kindAt (kinds src) j = (if tokIsVar (declToks src) t then .v else .c) ∧ t ∈ s.math j ∧ nameOf (declToks src) t ∈ symsAt src j := by
  obtain ⟨j, _, a, b, c, d⟩ := decl_mem h ht
  have hnm : nameOf (declToks src) t ∈ symsAt src j := (tok_of_name h (Or.inr c)).mpr ⟨t, d, nameOf_some ht⟩
  refine ⟨j, a, b, ?_, d, hnm⟩
  have h1 := tok_mem (nameOf_some ht)
  obtain ⟨q, q1, q2⟩ := mem_declToks_at.mp h1
  have hR := (C41_read_accepts_exactly src).mp ⟨s, h⟩
  cases hv : tokIsVar (declToks src) t
  · rw [hv] at q1
    rcases c with c | c
    · simpa using c
    · exact absurd hnm (hR.conVar q j _ (by simpa using q1) c q2)
  · rw [hv] at q1
    rcases c with c | c
    · exact absurd q2 (hR.conVar j q _ c (by simpa using q1) hnm)
    · simpa using c

/-- A constant is declared once. -/
theorem const_uniq (h : Accepted src s) {t t' : Nat} (ht : t < (declToks src).length) (ht' : t' < (declToks src).length)
    (hv : tokIsVar (declToks src) t = false) (hv' : tokIsVar (declToks src) t' = false) (hn : nameOf (declToks src) t = nameOf (declToks src) t') : t = t' := by
  have hR := (C41_read_accepts_exactly src).mp ⟨s, h⟩
  obtain ⟨j, a, b, c, d, e⟩ := tok_decl h ht
  obtain ⟨j', a', b', c', d', e'⟩ := tok_decl h ht'
  rw [hv] at c
  rw [hv'] at c'
  replace c : kindAt (kinds src) j = .c := by simpa using c
  replace c' : kindAt (kinds src) j' = .c := by simpa using c'
  have hnest := nested_of hR
  have hact : ∀ p, 1 ≤ p → p ≤ src.length → kindAt (kinds src) p = .c → Active (kinds src) p (src.length + 1) := by
    intro p hp1 hp2 hp
    obtain ⟨p, rfl⟩ : ∃ k, p = k + 1 := ⟨p - 1, by omega⟩
    rw [active_iff hnest]
    have := (hR.stmt (p + 1) hp1 hp2).outer hp
    rw [depth_opens hnest] at this
    have : opens (kinds src) p = [] := List.length_eq_zero_iff.mp (by omega)
    rw [this]
    exact ⟨by omega, List.nil_suffix⟩
  exact name_uniq h (i := src.length + 1) (by omega) (Nat.le_refl _) ⟨j, hact j a b c, Or.inl c, d⟩ ⟨j', hact j' a' b' c', Or.inl c', d'⟩
    (by rw [nameOf_some ht, nameOf_some ht', hn])

/-- The symbols declared at the end -/
def lost (src : List Src) (s : PState) (keep : Nat → Bool) : List Name × List Name :=
  undeclLoop (declToks src) (declToks src).length 0 (declaredLoop s.stmt keep src.length 1 (fun _ => false)) ([], [])

theorem d0_iff (h : Accepted src s) {t : Nat} (ht : t < (declToks src).length) : declaredLoop s.stmt keep src.length 1 (fun _ => false) t = true ↔
    ∃ j, keep j = true ∧ kindAt (kinds src) j = (if tokIsVar (declToks src) t then .v else .c) ∧ t ∈ s.math j := by
  rw [declaredLoop_iff]
  have hk := (inv_of h).kind
  constructor
  · rintro (a | ⟨j, a, b, c, d, e⟩)
    · cases a
    · rw [hk] at d
      obtain ⟨j', _, _, x, y, _⟩ := tok_decl h ht
      have h1 := decl_of_mem h d e
      have h2 := decl_of_mem h (i := j') (by rw [x]; cases tokIsVar (declToks src) t <;> simp) y
      rw [h1] at h2
      cases h2
      exact ⟨j, c, x, e⟩
  · rintro ⟨j, a, b, c⟩
    have hcv : kindAt (kinds src) j = .c ∨ kindAt (kinds src) j = .v := by rw [b]; cases tokIsVar (declToks src) t <;> simp
    have := kind_bound (ks := kinds src) (i := j) (by rcases hcv with e | e <;> rw [e] <;> simp)
    rw [kinds_length] at this
    exact Or.inr ⟨j, this.1, by omega, a, by rw [hk]; exact hcv, c⟩

theorem lost_inv : ∃ d', UInv (declToks src) (declaredLoop s.stmt keep src.length 1 (fun _ => false)) d' (declToks src).length (lost src s keep) := by
  refine undecl_ok (by omega) ⟨fun j => ?_, by simp, fun nm => ?_, List.nodup_nil⟩
  · constructor
    · exact Or.inl
    · rintro (a | ⟨a, _⟩)
      · exact a
      · omega
  · constructor
    · intro a; cases a
    · rintro ⟨⟨j, a, _⟩, _⟩; omega

theorem rest_lost (h : Accepted src s) : Rest src keep (lost src s keep) := by
  obtain ⟨d', U⟩ := lost_inv (src := src) (s := s) (keep := keep)
  have hR := (C41_read_accepts_exactly src).mp ⟨s, h⟩
  have hc : ∀ nm, nm ∈ (lost src s keep).1 ↔ ∃ t, t < (declToks src).length ∧ tokIsVar (declToks src) t = false ∧ nameOf (declToks src) t = nm ∧
      ¬ declaredLoop s.stmt keep src.length 1 (fun _ => false) t = true := by
    intro nm
    rw [U.c, List.mem_map]
    constructor
    · rintro ⟨t, a, b⟩
      rw [List.mem_filter, List.mem_range] at a
      simp at a
      exact ⟨t, a.1, a.2.2, b, by rw [a.2.1]; simp⟩
    · rintro ⟨t, a, b, c, d⟩
      refine ⟨t, ?_, c⟩
      rw [List.mem_filter, List.mem_range]
      simp
      exact ⟨a, by simpa using d, b⟩
  refine ⟨?_, U.vNodup, fun nm hm => ?_, fun nm hm => ?_, fun nm hm j hj hk hs => ?_⟩
  · rw [U.c]
    refine List.Nodup.map_on ?_ (List.Nodup.filter _ List.nodup_range)
    intro x hx y hy e
    rw [List.mem_filter, List.mem_range] at hx hy
    simp at hx hy
    exact const_uniq h hx.1 hy.1 hx.2.2 hy.2.2 e
  · obtain ⟨t, a, b, rfl, _⟩ := (hc nm).mp hm
    obtain ⟨j, _, _, x, _, y⟩ := tok_decl h a
    rw [b] at x
    exact ⟨j, by simpa using x, y⟩
  · obtain ⟨⟨t, a, b, rfl⟩, _⟩ := (U.v nm).mp hm
    obtain ⟨j, _, _, x, _, y⟩ := tok_decl h a
    rw [b] at x
    exact ⟨j, by simpa using x, y⟩
  · obtain ⟨t, ht, e⟩ := (tok_of_name h (Or.inr hk)).mp hs
    obtain ⟨hl, hne⟩ := nameOf_eq e
    obtain ⟨j', _, _, x, y, _⟩ := tok_decl h hl
    have h1 := decl_of_mem h hk ht
    have h2 := decl_of_mem h (i := j') (by rw [x]; cases tokIsVar (declToks src) t <;> simp) y
    rw [h1] at h2
    cases h2
    have hd := (d0_iff (keep := keep) h hl).mpr ⟨j, hj, x, ht⟩
    rcases hm with hm | hm
    · obtain ⟨t', a, b, c, d⟩ := (hc nm).mp hm
      obtain ⟨q, _, _, q1, q2, q3⟩ := tok_decl h a
      rw [b] at q1
      replace q1 : kindAt (kinds src) q = .c := by simpa using q1
      cases hv : tokIsVar (declToks src) t
      · have := const_uniq h hl a hv b (by rw [hne, c])
        subst this
        exact d hd
      · rw [hv] at x
        exact hR.conVar q j nm q1 (by simpa using x) (by rw [← c]; exact q3) hs
    · exact ((U.v nm).mp hm).2 t hl hd hne

/-- Every symbol declared in the source is declared in the extract. -/
theorem lost_all (h : Accepted src s) {nm : Name} {b : Bool} (hm : (nm, b) ∈ declToks src) : (nm, b) ∈ declToks (ext src keep (lost src s keep)) := by
  obtain ⟨t, ht, hb⟩ := mem_tok hm
  obtain ⟨hl, hne⟩ := nameOf_eq ht
  obtain ⟨d', U⟩ := lost_inv (src := src) (s := s) (keep := keep)
  have hkeptIn : ∀ u, u < (declToks src).length → declaredLoop s.stmt keep src.length 1 (fun _ => false) u = true → nameOf (declToks src) u = nm →
      (nm, tokIsVar (declToks src) u) ∈ declToks (ext src keep (lost src s keep)) := by
    intro u hu hd hn
    obtain ⟨j, a, c, d⟩ := (d0_iff h hu).mp hd
    have hcv : kindAt (kinds src) j = .c ∨ kindAt (kinds src) j = .v := by rw [c]; cases tokIsVar (declToks src) u <;> simp
    have hbd := kind_bound (ks := kinds src) (i := j) (by rcases hcv with e | e <;> rw [e] <;> simp)
    rw [kinds_length] at hbd
    rw [mem_declToks_at]
    refine ⟨pos keep j, by rw [kind_ext hbd.1 hbd.2 a]; exact c, ?_⟩
    rw [syms_ext hbd.1 hbd.2 a]
    exact (tok_of_name h (Or.inr hcv)).mpr ⟨u, d, by rw [nameOf_some hu, hn]⟩
  have hun : (nm ∈ (lost src s keep).1 ∧ b = false) ∨ (nm ∈ (lost src s keep).2 ∧ b = true) → (nm, b) ∈ declToks (ext src keep (lost src s keep)) := by
    unfold ext
    rw [declToks_append, List.mem_append]
    intro hx
    right
    generalize lost src s keep = r at hx
    unfold unused
    rcases hx with ⟨hx, rfl⟩ | ⟨hx, rfl⟩
    · rw [if_neg (by rintro e; rw [e] at hx; cases hx), declToks_append, List.mem_append]
      left
      simp [declToks, hx]
    · rw [declToks_append, List.mem_append, if_neg (c := r.2 = []) (by rintro e; rw [e] at hx; cases hx)]
      right
      simp [declToks, hx]
  by_cases hd : declaredLoop s.stmt keep src.length 1 (fun _ => false) t = true
  · rw [← hb]; exact hkeptIn t hl hd hne
  · cases hv : b
    · rw [hv] at hb
      rw [← hv]
      refine hun (Or.inl ⟨?_, hv⟩)
      rw [U.c, List.mem_map]
      refine ⟨t, ?_, hne⟩
      rw [List.mem_filter, List.mem_range]
      simp
      exact ⟨hl, by simpa using hd, hb⟩
    · rw [hv] at hb
      by_cases hex : ∃ u, u < (declToks src).length ∧ declaredLoop s.stmt keep src.length 1 (fun _ => false) u = true ∧ nameOf (declToks src) u = nm
      · obtain ⟨u, u1, u2, u3⟩ := hex
        have := hkeptIn u u1 u2 u3
        have hR := (C41_read_accepts_exactly src).mp ⟨s, h⟩
        obtain ⟨j, _, _, x, _, y⟩ := tok_decl h u1
        obtain ⟨j', _, _, x', _, y'⟩ := tok_decl h hl
        rw [hb] at x'
        cases hu : tokIsVar (declToks src) u
        · rw [hu] at x
          rw [u3] at y
          rw [hne] at y'
          exact absurd y' (hR.conVar j j' nm (by simpa using x) (by simpa using x') y)
        · rw [hu] at this; exact this
      · rw [← hv]
        refine hun (Or.inr ⟨(U.v nm).mpr ⟨⟨t, hl, hb, hne⟩, fun j a c e => hex ⟨j, a, c, e⟩⟩, hv⟩)

end
end MM.Extr
