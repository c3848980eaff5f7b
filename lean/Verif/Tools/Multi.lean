import Verif.Tools.Clean
/-!
# C81: SUBSTITUTE with `\n` in the string to be replaced
-/
namespace MM.Tools
open MM.Vstr MM.Date

/-- A line that has the additional string is looked at together with the next one; if the string is in them it is replaced (the first occurrence) and they are one line of the result,
and the work goes on behind them. -/
inductive JoinSub (old new m : Str) : List Str → List Str → Prop
  | nil : JoinSub old new m [] []
  | last {l r} : (Has m l → ReplacesNth old new 1 l r) → (¬ Has m l → r = l) → JoinSub old new m [l] [r]
  | skip {l n ls rs} : ¬ Has m l → JoinSub old new m (n :: ls) rs → JoinSub old new m (l :: n :: ls) (l :: rs)
  | keep {l n ls rs} : Has m l → (∀ p, ¬ OccursAt (l ++ backslashN ++ n) old p) → JoinSub old new m (n :: ls) rs → JoinSub old new m (l :: n :: ls) (l :: rs)
  | join {l n ls r rs} : Has m l → (∃ p, OccursAt (l ++ backslashN ++ n) old p) → ReplacesNth old new 1 (l ++ backslashN ++ n) r → JoinSub old new m ls rs →
      JoinSub old new m (l :: n :: ls) (r :: rs)

theorem multi_loop {old new m : Str} (ho : old ≠ []) (hj : ∃ p, OccursAt old backslashN p) : ∀ (f : Nat) (buf : Str) (ls : List Str), (∀ l ∈ ls, l ≠ []) → (if buf = [] then ls else buf :: ls).length < f →
    ∃ ms, substLoop old new 1 m f buf ls = .val ms ∧ JoinSub old new m (if buf = [] then ls else buf :: ls) ms
  | 0, _, _, _, h => absurd h (Nat.not_lt_zero _)
  | f + 1, buf, ls, hl, hf => by
    have h0 : instr 1 old backslashN ≠ 0 := instr_has.mpr (Or.inr hj)
    rw [substLoop]
    by_cases he : buf = [] ∧ ls = []
    · rw [if_pos he, he.1, if_pos rfl, he.2]
      exact ⟨[], rfl, .nil⟩
    · rw [if_neg he]
      -- the line and the rest
      have hcur : ∃ l rest, (if buf ≠ [] then buf else ls.headD []) = l ∧ (if buf ≠ [] then ls else ls.tail) = rest ∧ (if buf = [] then ls else buf :: ls) = l :: rest ∧
          (∀ x ∈ rest, x ≠ []) := by
        by_cases hb : buf = []
        · cases ls with
          | nil => exact absurd ⟨hb, rfl⟩ he
          | cons a ls =>
            refine ⟨a, ls, ?_, ?_, ?_, fun x hx => hl x (by simp [hx])⟩ <;> simp [hb]
        · exact ⟨buf, ls, by simp [hb], by simp [hb], by simp [hb], hl⟩
      obtain ⟨l, rest, e1, e2, e3, hr⟩ := hcur
      rw [e3, List.length_cons] at hf
      dsimp only
      rw [e1, e2, e3]
      have sub : ∀ t : Str, ∃ r, substGo old new 1 (t.length + 2) t 0 0 = .val r ∧ ReplacesNth old new 1 t r := fun t => subst_line ho (some 1) (fun q h => by cases h; omega) t
      by_cases hk : Has m l
      · have hk' : (m = [] ∨ instr 1 l m ≠ 0) := (has_iff m l).mpr hk
        cases rest with
        | nil =>
          obtain ⟨r, hr1, hr2⟩ := sub l
          obtain ⟨f', rfl⟩ : ∃ f', f = f' + 1 := ⟨f - 1, by simp at hf; omega⟩
          have hend : substLoop old new 1 m (f' + 1) [] [] = .val [] := by rw [substLoop, if_pos ⟨rfl, rfl⟩]
          refine ⟨[r], ?_, .last (fun _ => hr2) (fun h => absurd hk h)⟩
          simp [hk', hr1, hend]
        | cons n rest =>
          by_cases ho2 : ∃ p, OccursAt (l ++ backslashN ++ n) old p
          · have hfd : instr 1 (l ++ backslashN ++ n) old ≠ 0 := instr_has.mpr (Or.inr ho2)
            obtain ⟨r, hr1, hr2⟩ := sub (l ++ backslashN ++ n)
            obtain ⟨ms, h1, h2⟩ := multi_loop (new := new) (m := m) ho hj f [] rest (fun x hx => hr x (by simp [hx])) (by simp at hf ⊢; omega)
            rw [if_pos rfl] at h2
            refine ⟨r :: ms, ?_, .join hk ho2 hr2 h2⟩
            rw [List.append_assoc] at hfd hr1
            simp only [List.length_append] at hr1
            simp [hk', h0, hfd, hr1, h1]
          · have hfd : instr 1 (l ++ backslashN ++ n) old = 0 := by
              refine Classical.byContradiction fun h => ?_
              rcases instr_has.mp h with h | h
              · exact ho h
              · exact ho2 h
            have hn : n ≠ [] := hr n (by simp)
            obtain ⟨ms, h1, h2⟩ := multi_loop (new := new) (m := m) ho hj f n rest (fun x hx => hr x (by simp [hx])) (by simp at hf; simp [hn]; omega)
            rw [if_neg hn] at h2
            refine ⟨l :: ms, ?_, .keep hk (fun p hp => ho2 ⟨p, hp⟩) h2⟩
            rw [List.append_assoc] at hfd
            simp [hk', h0, hfd, h1]
      · have hk' : ¬ (m = [] ∨ instr 1 l m ≠ 0) := fun h => hk ((has_iff m l).mp h)
        have h3 := multi_loop (new := new) (m := m) ho hj f [] rest hr
        obtain ⟨ms, h1, h2⟩ := h3 (by simp; omega)
        rw [if_pos rfl] at h2
        refine ⟨l :: ms, ?_, ?_⟩
        · simp [hk', h1]
        · cases rest with
          | nil => cases h2; exact .last (fun h => absurd h hk) (fun _ => rfl)
          | cons n rest => exact .skip hk h2

/-- **C81, SUBSTITUTE** of a string with `\n` in it, in a file without empty lines (see `C81_empty_line_lost`). -/
theorem C81_multiline {old new nw occ m : Str} {v : Int} (hj : ∃ p, OccursAt old backslashN p) (hn : nw = if new = backslashN then ['\n'] else new) {ls : List Str} (hl : ∀ l ∈ ls, l ≠ []) :
    ∃ ms, subst old new occ v m ls = .val ms ∧ JoinSub old nw m ls ms := by
  have ho : old ≠ [] := by
    rintro rfl
    obtain ⟨p, a, b, e, _⟩ := hj
    simp [backslashN] at e
  unfold subst
  rw [← hn, show occArg old occ v = 1 from by unfold occArg; rw [if_pos (instr_has.mpr (Or.inr hj))]]
  exact multi_loop ho hj _ [] ls hl (by simp)

example : subst "b\\nc".toList "-".toList [] 0 [] ["ab".toList, "cb".toList, "cd".toList, "b".toList, "ce".toList] = .val ["a-b".toList, "cd".toList, "-e".toList] := by decide +kernel

end MM.Tools
