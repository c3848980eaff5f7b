import Verif.Veri.Model
import Verif.Spec.Subst
import Mathlib.Data.List.GetD
import Mathlib.Data.List.Induction
import Mathlib.Data.List.Nodup
import Mathlib.Tactic.Linarith
/-! # Invariants of the matching loop -/
namespace MM.Veri
open MM.Spec

/-! ## Variables of a string -/

theorem extractVars_snoc (T : Toks) (A : List Nat) (t : Nat) :
    extractVars T (A ++ [t]) =
      if T.isVar t then (if t ∈ extractVars T A then extractVars T A else extractVars T A ++ [t])
      else extractVars T A := by
  rw [extractVars, List.foldl_append]; rfl

theorem mem_extractVars (T : Toks) (A : List Nat) (t : Nat) :
    t ∈ extractVars T A ↔ t ∈ A ∧ T.isVar t = true := by
  induction A using List.reverseRecOn with
  | nil => simp [extractVars]
  | append_singleton A a ih =>
    rw [extractVars_snoc]
    by_cases hv : T.isVar a = true
    · by_cases hm : a ∈ extractVars T A
      · simp only [hv, hm, if_true, ih, List.mem_append, List.mem_singleton]
        constructor
        · rintro ⟨h, h'⟩; exact ⟨Or.inl h, h'⟩
        · rintro ⟨h | h, h'⟩
          · exact ⟨h, h'⟩
          · subst h; exact ih.mp hm
      · simp only [hv, hm, if_true, if_false, ih, List.mem_append, List.mem_singleton]
        constructor
        · rintro (⟨h, h'⟩ | h)
          · exact ⟨Or.inl h, h'⟩
          · subst h; exact ⟨Or.inr rfl, hv⟩
        · rintro ⟨h | h, h'⟩
          · exact Or.inl ⟨h, h'⟩
          · exact Or.inr h
    · rw [if_neg hv, ih]
      simp only [List.mem_append, List.mem_singleton]
      constructor
      · rintro ⟨h, h'⟩; exact ⟨Or.inl h, h'⟩
      · rintro ⟨h | h, h'⟩
        · exact ⟨h, h'⟩
        · subst h; exact absurd h' hv

theorem nodup_extractVars (T : Toks) (A : List Nat) : (extractVars T A).Nodup := by
  induction A using List.reverseRecOn with
  | nil => simp [extractVars]
  | append_singleton A a ih =>
    rw [extractVars_snoc]
    split
    · split
      · exact ih
      · rename_i hm
        rw [List.nodup_append]
        refine ⟨ih, by simp, ?_⟩
        intro x hx y hy
        simp at hy; subst hy
        intro e; subst e; exact hm hx
    · exact ih

theorem extractVars_prefix (T : Toks) (A B : List Nat) :
    extractVars T A <+: extractVars T (A ++ B) := by
  induction B using List.reverseRecOn with
  | nil => simp
  | append_singleton B b ih =>
    rw [← List.append_assoc, extractVars_snoc]
    split
    · split
      · exact ih
      · exact ih.trans (List.prefix_append _ _)
    · exact ih

theorem extractVars_take_prefix (c : Ctx) (p : Nat) :
    extractVars c.toToks (c.S.take p) <+: c.vars := by
  have := extractVars_prefix c.toToks (c.S.take p) (c.S.drop p)
  rwa [List.take_append_drop] at this

theorem take_succ_of_get {l : List Nat} {p t : Nat} (h : l[p]? = some t) :
    l.take (p + 1) = l.take p ++ [t] := by
  rw [List.take_add_one, h]; rfl

theorem idxOf_lt_of_mem_take {l : List Nat} {t n : Nat} (h : t ∈ l.take n) : l.idxOf t < n := by
  have := List.idxOf_lt_length_iff.mpr h
  have h2 : l.idxOf t = (l.take n).idxOf t := by
    conv_lhs => rw [← List.take_append_drop n l]
    rw [List.idxOf_append, if_pos h]
  rw [h2]; exact Nat.lt_of_lt_of_le this (List.length_take_le _ _)

theorem mem_take_of_idxOf_lt {l : List Nat} {t n : Nat} (hm : t ∈ l) (h : l.idxOf t < n) :
    t ∈ l.take n := by
  have hl := List.idxOf_lt_length_iff.mpr hm
  have := List.getElem_idxOf hl
  rw [List.mem_take_iff_getElem]
  exact ⟨l.idxOf t, by omega, this⟩

section
variable (c : Ctx)

theorem frst_get {i : Nat} (h : i < c.vars.length) :
    c.S[c.frst i]? = some (c.vars[i]) := by
  have hm : c.vars[i] ∈ c.S := ((mem_extractVars c.toToks c.S _).mp (List.getElem_mem h)).1
  have hl := List.idxOf_lt_length_iff.mpr hm
  unfold Ctx.frst
  rw [List.getD_eq_getElem _ _ h, List.getElem?_eq_getElem hl, List.getElem_idxOf hl]

theorem frst_lt {i : Nat} (h : i < c.vars.length) : c.frst i < c.S.length := by
  have := frst_get c h
  by_cases hh : c.frst i < c.S.length
  · exact hh
  · rw [List.getElem?_eq_none (by omega)] at this; cases this

theorem isVar_vars {i : Nat} (h : i < c.vars.length) : c.isVar (c.vars[i]) = true :=
  ((mem_extractVars c.toToks c.S _).mp (List.getElem_mem h)).2

theorem frst_notMem {i : Nat} (h : i < c.vars.length) : c.vars[i] ∉ c.S.take (c.frst i) := by
  intro hm
  have := idxOf_lt_of_mem_take hm
  unfold Ctx.frst at this
  rw [List.getD_eq_getElem _ _ h] at this
  omega

/-- If a prefix of the scheme has variables `vars.take n`, it contains exactly the first
occurrences of the variables `i < n`. -/
theorem frst_lt_iff {p n i : Nat} (hn : n ≤ c.vars.length) (hi : i < c.vars.length)
    (hev : extractVars c.toToks (c.S.take p) = c.vars.take n) : c.frst i < p ↔ i < n := by
  constructor
  · intro h
    have hg := frst_get c hi
    have : c.vars[i] ∈ c.S.take p := by
      rw [List.mem_take_iff_getElem]
      have hl := frst_lt c hi
      refine ⟨c.frst i, by omega, ?_⟩
      rw [List.getElem?_eq_getElem hl] at hg
      exact Option.some.inj hg
    have : c.vars[i] ∈ c.vars.take n := by
      rw [← hev, mem_extractVars]; exact ⟨this, isVar_vars c hi⟩
    have h3 := idxOf_lt_of_mem_take this
    have h4 : c.vars.idxOf c.vars[i] = i := (nodup_extractVars c.toToks c.S).idxOf_getElem i hi
    omega
  · intro h
    have : c.vars[i] ∈ c.vars.take n := by
      rw [List.mem_take_iff_getElem]; exact ⟨i, by omega, rfl⟩
    rw [← hev, mem_extractVars] at this
    have := idxOf_lt_of_mem_take this.1
    unfold Ctx.frst
    rwa [List.getD_eq_getElem _ _ hi]

theorem tmp_vars {i : Nat} (h : i < c.vars.length) : c.tmp (c.vars[i]) = i :=
  (nodup_extractVars c.toToks c.S).idxOf_getElem i h

theorem extractVars_frst {i : Nat} (h : i < c.vars.length) :
    extractVars c.toToks (c.S.take (c.frst i)) = c.vars.take i := by
  have hp := extractVars_take_prefix c (c.frst i)
  have heq : extractVars c.toToks (c.S.take (c.frst i)) =
      c.vars.take (extractVars c.toToks (c.S.take (c.frst i))).length :=
    List.prefix_iff_eq_take.mp hp
  have hle := hp.length_le
  generalize (extractVars c.toToks (c.S.take (c.frst i))).length = n at heq hle
  have h1 := frst_lt_iff c hle h heq
  have h2 : ¬ i < n := fun hh => absurd (h1.mpr hh) (Nat.lt_irrefl _)
  -- the next prefix adds exactly vars[i]
  have hs : extractVars c.toToks (c.S.take (c.frst i + 1)) = c.vars.take n ++ [c.vars[i]] := by
    rw [take_succ_of_get (frst_get c h), extractVars_snoc, if_pos (isVar_vars c h), heq, if_neg]
    rw [← heq, mem_extractVars]
    exact fun hh => frst_notMem c h hh.1
  have hp2 := extractVars_take_prefix c (c.frst i + 1)
  rw [hs] at hp2
  have hl := hp2.length_le
  simp [List.length_take] at hl
  have hn : n < c.vars.length := by omega
  have : c.vars[n] = c.vars[i] := by
    have hx := hp2.getElem (i := n) (by simp [List.length_take]; omega)
    rw [List.getElem_append_right (by simp [List.length_take])] at hx
    simpa using hx.symm
  have hni : n = i := by
    have := (nodup_extractVars c.toToks c.S).getElem_inj_iff (hi := hn) (hj := h) |>.mp this
    exact this
  rw [heq, hni]

end

end MM.Veri
