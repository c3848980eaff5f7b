import Verif.Unif.Filt
/-!
# Series of calls of `unifyH`
-/
namespace MM.Unif

variable {C : Cfg} {A B : List Nat} {on : Bool}

theorem CallsZ.next {v w : SV} (h : CallsZ C A B v) {n : Nat} (hn : unifyNext n C A B v = .val (.found w)) : Calls C A B (fun _ => True) w := by
  obtain ⟨u, h1, h2⟩ := h
  refine .next (t := v.trials) (n := n) h1 trivial ?_
  rw [show ({ u with trials := v.trials } : SV) = v from ?_]
  · exact hn
  · obtain ⟨a, b, c, d⟩ := u
    obtain ⟨a', b', c', d'⟩ := v
    simp only [SV.z, SV.mk.injEq, and_true] at h2 ⊢
    exact h2

/-- What is known in a series of calls: `S` has the answers of `unify` seen. -/
structure HInv (on : Bool) (C : Cfg) (A B : List Nat) (l : List SV) (v : SVH) (S : SV → Prop) : Prop where
  cur : CallsZ C A B v.sv
  ans : ∀ a ∈ l, Calls C A B (fun _ => True) a
  filt : on = true → ∀ e, e ∈ v.filter ↔ ∃ b ∈ l, hentyNormalize C b = .val e
  diff : on = true → l.Pairwise fun a b => hentyNormalize C a ≠ hentyNormalize C b
  fst : ∀ n t w, unify n C t A B = .val (.found w) → S w
  nxt : ∀ u, S u → u.z ≠ v.sv.z → ∀ n w, unifyNext n C A B u = .val (.found w) → S w
  zed : ∀ u w, S u → u.z = w.z → S w
  sub : ∀ u, S u → CallsZ C A B u ∧ ∃ b ∈ l, hentyNormalize C u = hentyNormalize C b ∧ (on = false → u.z = b.z)

theorem HInv.trials {l : List SV} {v : SVH} {S : SV → Prop} (h : HInv on C A B l v S) (t : Nat) : HInv on C A B l { v with sv := { v.sv with trials := t } } S :=
  ⟨by obtain ⟨u, h1, h2⟩ := h.cur; exact ⟨u, h1, h2⟩, h.ans, h.filt, h.diff, h.fst, h.nxt, h.zed, h.sub⟩

theorem found_z {u w : SV} (h : (Res.found u).z = (Res.found w).z) : u.z = w.z := by
  injection h

theorem first_inv (hP : Proper C A B) {n t : Nat} {v : SVH} (h : unifyH on n C t A B = .val (.found v)) :
    HInv on C A B [v.sv] v (fun u => u.z = v.sv.z) := by
  unfold unifyH at h
  obtain ⟨r, h1, h2⟩ := bind_inv h
  cases r with
  | none => cases h2
  | timeout => cases h2
  | found w =>
    dsimp only at h2
    have hw : Calls C A B (fun _ => True) w := .first trivial h1
    have hsv : v.sv = w ∧ (on = true → ∃ e, hentyNormalize C w = .val e ∧ v.filter = [e]) := by
      cases on
      · rw [if_neg (by simp)] at h2
        cases h2
        exact ⟨rfl, by simp⟩
      · rw [if_pos rfl] at h2
        obtain ⟨e, h3, h4⟩ := bind_inv h2
        cases h4
        exact ⟨rfl, fun _ => ⟨e, h3, rfl⟩⟩
    obtain ⟨rfl, hf⟩ := hsv
    refine ⟨⟨v.sv, hw, rfl⟩, by simpa using hw, ?_, fun _ => by simp, ?_, ?_, ?_, ?_⟩
    · intro hon e
      obtain ⟨e', h3, h4⟩ := hf hon
      rw [h4]
      simp [h3, eq_comm]
    · intro n' t' w hw'
      exact found_z (unify_det hP hw' h1 nofun nofun)
    · intro u hu hne
      exact absurd hu hne
    · intro u w hu huw
      rw [← huw]; exact hu
    · intro u hu
      exact ⟨⟨v.sv, hw, hu.symm⟩, v.sv, by simp, normalize_z hu, fun _ => hu⟩

theorem step_inv (hP : Proper C A B) {l : List SV} {v : SVH} {S : SV → Prop} (hI : HInv on C A B l v S) {n : Nat} {w : SV}
    (h : unifyNext n C A B v.sv = .val (.found w)) {l' : List SV} {f : List HEnt} (hl : ∀ a ∈ l, a ∈ l') (hw : ∃ b ∈ l', hentyNormalize C w = hentyNormalize C b ∧ (on = false → w.z = b.z))
    (hl' : ∀ a ∈ l', a ∈ l ∨ a = w) (hd : on = true → l'.Pairwise fun a b => hentyNormalize C a ≠ hentyNormalize C b)
    (hf : on = true → ∀ e, e ∈ f ↔ ∃ b ∈ l', hentyNormalize C b = .val e) :
    HInv on C A B l' ⟨w, f⟩ (fun u => S u ∨ u.z = w.z) := by
  have hcw := hI.cur.next h
  refine ⟨⟨w, hcw, rfl⟩, ?_, hf, hd, fun n t w' hw' => Or.inl (hI.fst n t w' hw'), ?_, ?_, ?_⟩
  · intro a ha
    rcases hl' a ha with ha | rfl
    · exact hI.ans a ha
    · exact hcw
  · intro u hu hne n' w' hw'
    rcases hu with hu | hu
    · by_cases huv : u.z = v.sv.z
      · right
        exact (found_z (unifyNext_det hP hI.cur huv.symm h hw' nofun nofun)).symm
      · exact Or.inl (hI.nxt u hu huv n' w' hw')
    · exact absurd hu hne
  · rintro u w' (hu | hu) huw
    · exact Or.inl (hI.zed u w' hu huw)
    · exact Or.inr (huw ▸ hu)
  · rintro u (hu | hu)
    · obtain ⟨h1, b, h2, h3⟩ := hI.sub u hu
      exact ⟨h1, b, hl b h2, h3⟩
    · obtain ⟨b, h1, h2, h3⟩ := hw
      exact ⟨⟨w, hcw, hu.symm⟩, b, h1, (normalize_z hu).trans h2, fun h => hu.trans (h3 h)⟩

/-- The rounds of `unifyH` with `reEntryFlag` 1. -/
theorem next_inv (hP : Proper C A B) {l : List SV} : ∀ (m n : Nat) {v : SVH} {S : SV → Prop} {r : ResH}, HInv on C A B l v S →
    unifyHNext on m n C A B v = .val r →
    (∀ w, r = .found w → ∃ S', HInv on C A B (l ++ [w.sv]) w S') ∧
    (r = .none → ∀ a, Calls C A B (fun _ => True) a → ∃ b ∈ l, hentyNormalize C a = hentyNormalize C b ∧ (on = false → a.z = b.z)) := by
  intro m
  induction m with
  | zero => intro n v S r _ h; cases h
  | succ m ih =>
    intro n v S r hI h
    unfold unifyHNext at h
    obtain ⟨q, h1, h2⟩ := bind_inv h
    cases q with
    | timeout => cases h2; exact ⟨nofun, nofun⟩
    | none =>
      cases h2
      refine ⟨nofun, fun _ => ?_⟩
      have key : ∀ a, Calls C A B (fun _ => True) a → S a := by
        intro a ha
        induction ha with
        | @first n t v _ h => exact hI.fst n t v h
        | @next n' t u w hu _ h ihc =>
          have hu' : S { u with trials := t } := hI.zed u _ ihc rfl
          by_cases hz : u.z = v.sv.z
          · exact absurd (unifyNext_det hP hI.cur (v' := { u with trials := t }) hz.symm h1 h nofun nofun) nofun
          · exact hI.nxt _ hu' hz n' w h
      intro a ha
      exact (hI.sub a (key a ha)).2
    | found w =>
      dsimp only at h2
      have hcw := hI.cur.next h1
      cases hon : on
      · rw [hon, if_neg (by simp)] at h2
        cases h2
        refine ⟨?_, nofun⟩
        intro w' hw'
        cases hw'
        subst hon
        exact ⟨_, step_inv hP hI h1 (fun a ha => by simp [ha]) ⟨w, by simp, rfl, fun _ => rfl⟩ (by simp) (by simp) (by simp)⟩
      · rw [hon, if_pos rfl] at h2
        obtain ⟨e, h3, h4⟩ := bind_inv h2
        subst hon
        by_cases hm : e ∈ v.filter
        · rw [if_pos hm] at h4
          obtain ⟨b, hb1, hb2⟩ := (hI.filt rfl e).1 hm
          exact ih n (step_inv hP hI h1 (l' := l) (fun a ha => ha) ⟨b, hb1, h3.trans hb2.symm, by simp⟩ (fun a ha => Or.inl ha) hI.diff hI.filt) h4
        · rw [if_neg hm] at h4
          cases h4
          refine ⟨?_, nofun⟩
          intro w' hw'
          cases hw'
          refine ⟨_, step_inv hP hI h1 (fun a ha => by simp [ha]) ⟨w, by simp, rfl, by simp⟩ (by simp) ?_ ?_⟩
          · intro _
            rw [List.pairwise_append]
            refine ⟨hI.diff rfl, by simp, ?_⟩
            intro a ha b hb hab
            simp only [List.mem_singleton] at hb
            subst hb
            exact hm ((hI.filt rfl e).2 ⟨a, ha, hab.trans h3⟩)
          · intro _ e'
            simp only [List.mem_append, List.mem_singleton, hI.filt rfl e']
            constructor
            · rintro (⟨b, hb1, hb2⟩ | rfl)
              · exact ⟨b, Or.inl hb1, hb2⟩
              · exact ⟨w, Or.inr rfl, h3⟩
            · rintro ⟨b, hb1 | rfl, hb2⟩
              · exact Or.inl ⟨b, hb1, hb2⟩
              · right; rw [h3] at hb2; injection hb2 with hb2; exact hb2.symm

theorem hcalls_inv (hP : Proper C A B) {l : List SV} {v : SVH} (h : HCalls on C A B l v) : ∃ S, HInv on C A B l v S := by
  induction h with
  | first h => exact ⟨_, first_inv hP h⟩
  | @next m n t l v w _ h ih =>
    obtain ⟨S, hI⟩ := ih
    exact (next_inv hP m n (hI.trials t) h).1 w rfl

end MM.Unif
