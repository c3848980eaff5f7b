import Verif.Extr.Model
import Verif.Extr.Nest
import Verif.Trace.Props
/-!
# What the loops of `writeExtractedSource` flag
-/
namespace MM.Extr
open MM.Veri MM.Pars MM.Spec MM.Trace

/-! ### The links between `${` and `$}` -/

/-- The `$}` with number `r` closes the block opened by `b`. -/
def Closes (ks : List Kind) (b r : Nat) : Prop := 1 ≤ r ∧ kindAt ks r = .rb ∧ (opens ks (r - 1)).head? = some b

theorem gone {ks : List Kind} {b r : Nat} (h : Closes ks b r) : ∀ {j : Nat}, r ≤ j → b ∉ opens ks j
  | 0, hj => by simp [opens]
  | j + 1, hj => by
    obtain ⟨h1, h2, h3⟩ := h
    have hb : b ∈ opens ks (r - 1) := List.mem_of_mem_head? h3
    have hlt := opens_lt hb
    rcases Nat.lt_or_ge j r with c | c
    · have : j + 1 = r := by omega
      subst this
      rw [opens_succ, h2]
      unfold openStep
      dsimp only
      simp only [Nat.add_sub_cancel] at h3
      have hs := opens_sorted (ks := ks) (i := j)
      cases ho : opens ks j with
      | nil => simp
      | cons y t =>
        rw [ho] at h3 hs
        simp at h3
        subst h3
        intro hm
        have := (List.pairwise_cons.mp hs).1 _ hm
        omega
    · have ih := gone ⟨h1, h2, h3⟩ c
      rw [opens_succ]
      unfold openStep
      split
      · intro hm
        rcases List.mem_cons.mp hm with e | e
        · omega
        · exact ih e
      · intro hm; exact ih (List.mem_of_mem_tail hm)
      · exact ih

theorem closes_uniq {ks : List Kind} {b r r' : Nat} (h : Closes ks b r) (h' : Closes ks b r') : r = r' := by
  rcases Nat.lt_trichotomy r r' with c | c | c
  · exact absurd (List.mem_of_mem_head? h'.2.2) (gone h (by have := h'.1; omega))
  · exact c
  · exact absurd (List.mem_of_mem_head? h.2.2) (gone h' (by have := h.1; omega))

/-- The block in which a block stands -/
theorem opens_pred {ks : List Kind} : ∀ {n b : Nat} {t pre : List Nat}, opens ks n = pre ++ b :: t → opens ks (b - 1) = t
  | 0, b, t, pre, hx => by simp [opens] at hx
  | n + 1, b, t, pre, hx => by
    rw [opens_succ] at hx
    unfold openStep at hx
    split at hx
    · cases pre with
      | nil => obtain ⟨rfl, rfl⟩ := List.cons.inj hx; rfl
      | cons z pre => exact opens_pred (List.cons.inj hx).2
    · cases hz : opens ks n with
      | nil => rw [hz] at hx; simp at hx
      | cons z u => rw [hz] at hx; exact opens_pred (pre := z :: pre) (by rw [hz]; simpa using hx)
    · exact opens_pred hx

/-- The links after the first `m` statements -/
structure LinkInv (ks : List Kind) (m : Nat) (L : Links) : Prop where
  cur : L.cur = (opens ks m).head?.getD 0
  beg : ∀ i, 1 ≤ i → i ≤ m → L.beg i = (opens ks (i - 1)).head?.getD 0
  fin : ∀ b r, r ≤ m → Closes ks b r → L.fin b = r

theorem head_zero {ks : List Kind} {m : Nat} : (opens ks m).head?.getD 0 = 0 ↔ opens ks m = [] := by
  cases h : opens ks m with
  | nil => simp
  | cons b t =>
    have : b ∈ opens ks m := by rw [h]; simp
    have := opens_lt this
    simp; omega

theorem linkStep_ok {ks : List Kind} {m : Nat} {L : Links} (h : LinkInv ks m L) :
    ∃ L', linkStep (kindAt ks) (m + 1) L = .val L' ∧ LinkInv ks (m + 1) L' := by
  have hbeg : ∀ i, 1 ≤ i → i ≤ m + 1 → upd L.beg (m + 1) L.cur i = (opens ks (i - 1)).head?.getD 0 := by
    intro i h1 h2
    unfold upd
    by_cases e : i = m + 1
    · rw [if_pos e, h.cur, e]; rfl
    · rw [if_neg e]; exact h.beg i h1 (by omega)
  have hfin : ∀ b r, r ≤ m → Closes ks b r → upd L.fin (m + 1) 0 b = r := by
    intro b r h1 h2
    have := opens_lt (List.mem_of_mem_head? h2.2.2)
    rw [upd_other _ _ (by omega)]
    exact h.fin b r h1 h2
  unfold linkStep
  dsimp only
  by_cases h1 : kindAt ks (m + 1) = .lb
  · rw [if_pos h1]
    refine ⟨_, rfl, ?_, hbeg, ?_⟩
    · rw [opens_succ, h1]; rfl
    · intro b r hr hc
      rcases Nat.lt_or_ge m r with c | c
      · have : r = m + 1 := by omega
        subst this
        rw [hc.2.1] at h1; cases h1
      · exact hfin b r c hc
  · rw [if_neg h1]
    by_cases h2 : kindAt ks (m + 1) = .rb ∧ 0 < L.cur
    · rw [if_pos h2]
      have hne : opens ks m ≠ [] := fun e => by
        have := head_zero.mpr e
        rw [← h.cur] at this; omega
      obtain ⟨b, t, e⟩ := List.exists_cons_of_ne_nil hne
      have hcur : L.cur = b := by rw [h.cur, e]; rfl
      have hb : b ∈ opens ks m := by rw [e]; simp
      have hlt := opens_lt hb
      have hclose : Closes ks b (m + 1) := ⟨by omega, h2.1, by simp [e]⟩
      rw [if_neg (by rw [hcur, hlt.2.2]; simp)]
      refine ⟨_, rfl, ?_, hbeg, ?_⟩
      · dsimp only
        rw [hbeg L.cur (by omega) (by omega), hcur, opens_succ, h2.1]
        rw [opens_pred (pre := []) e]
        unfold openStep
        dsimp only
        rw [e]; rfl
      · intro b' r hr hc
        dsimp only
        rw [hcur]
        by_cases hbb : b' = b
        · subst hbb
          rw [upd_same]; exact closes_uniq hclose hc
        · rw [upd_other _ _ hbb]
          rcases Nat.lt_or_ge m r with c | c
          · exfalso
            have : r = m + 1 := by omega
            subst this
            have := hc.2.2
            simp only [Nat.add_sub_cancel, e] at this
            simp at this; exact hbb this.symm
          · exact hfin b' r c hc
    · rw [if_neg h2]
      refine ⟨_, rfl, ?_, hbeg, ?_⟩
      · dsimp only
        rw [h.cur, opens_succ]
        unfold openStep
        split
        · rename_i hk; exact absurd hk h1
        · rename_i hk
          have h0 : L.cur = 0 := by
            rcases Nat.eq_zero_or_pos L.cur with c | c
            · exact c
            · exact absurd ⟨hk, c⟩ h2
          rw [h.cur] at h0
          rw [head_zero.mp h0]; rfl
        · rfl
      · intro b r hr hc
        rcases Nat.lt_or_ge m r with c | c
        · exfalso
          have : r = m + 1 := by omega
          subst this
          have hb := hc.2.2
          simp only [Nat.add_sub_cancel] at hb
          refine h2 ⟨hc.2.1, ?_⟩
          rw [h.cur, hb]
          have := opens_lt (List.mem_of_mem_head? hb)
          simp; omega
        · exact hfin b r c hc

theorem linkLoop_ok {ks : List Kind} : ∀ {count m : Nat} {L : Links}, LinkInv ks m L →
    ∃ L', linkLoop (kindAt ks) count (m + 1) L = .val L' ∧ LinkInv ks (m + count) L'
  | 0, m, L, h => ⟨L, rfl, h⟩
  | count + 1, m, L, h => by
    obtain ⟨L1, h1, h2⟩ := linkStep_ok h
    obtain ⟨L2, h3, h4⟩ := linkLoop_ok (count := count) h2
    refine ⟨L2, ?_, by rw [show m + (count + 1) = m + 1 + count by omega]; exact h4⟩
    unfold linkLoop
    rw [h1, Out.bind_val]; exact h3

theorem links_ok {ks : List Kind} (n : Nat) : ∃ L, links (kindAt ks) n = .val L ∧ LinkInv ks n L := by
  have h0 : LinkInv ks 0 ⟨0, fun _ => 0, fun _ => 0⟩ := ⟨rfl, fun i h1 h2 => by omega, fun b r h1 h2 => by have := h2.1; omega⟩
  obtain ⟨L, h1, h2⟩ := linkLoop_ok (count := n) h0
  rw [Nat.zero_add] at h2
  exact ⟨L, h1, h2⟩

/-! ### The statements asked for and what they need -/

section pick
variable {D : TDb} {list : List Char}

/-- The assertion `j` is asked for, or used by the proof of a theorem asked for. -/
def Wanted (D : TDb) (list : List Char) (j : Nat) : Prop := ∃ m, Matched D list m ∧ Reached D false m j

theorem Reached.tr {p q r : Nat} (h1 : Reached D false p q) (h2 : Reached D false q r) : Reached D false p r := by
  induction h2 with
  | self => exact h1
  | step _ hc ih => exact .step ih hc

theorem reached_axiom {p q : Nat} (hk : D.kind p = .a) (h : Reached D false p q) : q = p := by
  induction h with
  | self => rfl
  | step _ hc ih =>
    rw [ih] at hc
    rw [hc.1] at hk; cases hk

theorem reached_kind {p q : Nat} (hk : D.kind p = .a ∨ D.kind p = .p) (h : Reached D false p q) : D.kind q = .a ∨ D.kind q = .p := by
  cases h with
  | self => exact hk
  | step _ hc => exact hc.2.1

theorem pickLoop_ok (hD : Sane D false) (hm : ∀ m, 1 ≤ m → m ≤ D.n → ∃ b, isMatch D m list = .val b) :
    ∀ {m : Nat} {f : Nat → Bool}, m ≤ D.n → (∀ j q, f j = true → Reached D false j q → f q = true) →
    ∃ f', pickLoop D list m f = .val f' ∧ ∀ j, f' j = true ↔ f j = true ∨ ∃ k, k ≤ m ∧ Matched D list k ∧ Reached D false k j
  | 0, f, _, _ => ⟨f, rfl, fun j => ⟨Or.inl, fun h => by
      rcases h with h | ⟨k, h1, h2, _⟩
      · exact h
      · have := h2.1; omega⟩⟩
  | m + 1, f, hmn, hf => by
    -- the statement `m + 1` adds nothing
    have skip : (∀ j, Matched D list (m + 1) → Reached D false (m + 1) j → f j = true) →
        ∃ f', pickLoop D list m f = .val f' ∧ ∀ j, f' j = true ↔ f j = true ∨ ∃ k, k ≤ m + 1 ∧ Matched D list k ∧ Reached D false k j := by
      intro hno
      obtain ⟨f', h1, h2⟩ := pickLoop_ok hD hm (m := m) (by omega) hf
      refine ⟨f', h1, fun j => ?_⟩
      rw [h2 j]
      constructor
      · rintro (h | ⟨k, a, b, c⟩)
        · exact Or.inl h
        · exact Or.inr ⟨k, by omega, b, c⟩
      · rintro (h | ⟨k, a, b, c⟩)
        · exact Or.inl h
        · rcases Nat.lt_or_ge m k with d | d
          · have : k = m + 1 := by omega
            subst this
            exact Or.inl (hno j b c)
          · exact Or.inr ⟨k, d, b, c⟩
    -- it adds what it reaches
    have add : ∀ (g : Nat → Bool), Matched D list (m + 1) → (∀ j, g j = true ↔ f j = true ∨ Reached D false (m + 1) j) →
        ∃ f', pickLoop D list m g = .val f' ∧ ∀ j, f' j = true ↔ f j = true ∨ ∃ k, k ≤ m + 1 ∧ Matched D list k ∧ Reached D false k j := by
      intro g hmt hg
      have hcl : ∀ j q, g j = true → Reached D false j q → g q = true := by
        intro j q h1 h2
        rcases (hg j).mp h1 with h | h
        · exact (hg q).mpr (Or.inl (hf j q h h2))
        · exact (hg q).mpr (Or.inr (Reached.tr h h2))
      obtain ⟨f', h1, h2⟩ := pickLoop_ok hD hm (m := m) (by omega) hcl
      refine ⟨f', h1, fun j => ?_⟩
      rw [h2 j, hg j]
      constructor
      · rintro ((h | h) | ⟨k, a, b, c⟩)
        · exact Or.inl h
        · exact Or.inr ⟨m + 1, by omega, hmt, h⟩
        · exact Or.inr ⟨k, by omega, b, c⟩
      · rintro (h | ⟨k, a, b, c⟩)
        · exact Or.inl (Or.inl h)
        · rcases Nat.lt_or_ge m k with d | d
          · have : k = m + 1 := by omega
            subst this
            exact Or.inl (Or.inr c)
          · exact Or.inr ⟨k, d, b, c⟩
    unfold pickLoop
    by_cases h1 : f (m + 1) = true
    · rw [if_pos h1]
      exact skip fun j _ hr => hf _ j h1 hr
    · rw [if_neg h1]
      obtain ⟨b, hb⟩ := hm (m + 1) (by omega) hmn
      rw [hb, Out.bind_val]
      by_cases h2 : b = false
      · rw [if_pos h2]
        refine skip fun j hmt _ => ?_
        have := hmt.2.2.2
        rw [hb, h2] at this; cases this
      · rw [if_neg h2]
        have h2' : b = true := by simpa using h2
        subst h2'
        by_cases h3 : D.kind (m + 1) = .a
        · rw [if_pos h3]
          refine add _ ⟨by omega, hmn, Or.inl h3, hb⟩ fun j => ?_
          unfold upd
          by_cases e : j = m + 1
          · rw [if_pos e]; subst e; exact ⟨fun _ => Or.inr .self, fun _ => rfl⟩
          · rw [if_neg e]
            exact ⟨Or.inl, fun h => h.elim id fun h => absurd (reached_axiom h3 h) e⟩
        · rw [if_neg h3]
          by_cases h4 : D.kind (m + 1) ≠ .p
          · rw [if_pos h4]
            refine skip fun j hmt _ => ?_
            rcases hmt.2.2.1 with e | e
            · exact absurd e h3
            · exact absurd e h4
          · rw [if_neg h4]
            have h4' : D.kind (m + 1) = .p := Decidable.not_not.mp h4
            obtain ⟨w, w1, w2, _⟩ := traceProofWork_ok hD hD (s := m + 1) (by omega) hmn (pat := []) (fun h => absurd rfl h)
            rw [w1, Out.bind_val]
            refine add _ ⟨by omega, hmn, Or.inr h4', hb⟩ fun j => ?_
            have hw : (1 ≤ j ∧ j ≤ m + 1 ∧ w.flags j = true) ↔ Reached D false (m + 1) j := by
              rw [w2 j]
              constructor
              · rintro ⟨_, _, rfl | ⟨h, _⟩⟩
                · exact .self
                · exact h
              · intro h
                have := reached_range hD (by omega) hmn h
                exact ⟨this.1, this.2, Or.inr ⟨h, Or.inl rfl⟩⟩
            by_cases e : 1 ≤ j ∧ j ≤ m + 1 ∧ w.flags j = true
            · rw [if_pos e]; exact ⟨fun _ => Or.inr (hw.mp e), fun _ => rfl⟩
            · rw [if_neg e]
              exact ⟨Or.inl, fun h => h.elim id fun h => absurd (hw.mpr h) e⟩

theorem pick_ok (hD : Sane D false) (hm : ∀ m, 1 ≤ m → m ≤ D.n → ∃ b, isMatch D m list = .val b) :
    ∃ f, pickLoop D list D.n (fun _ => false) = .val f ∧ ∀ j, f j = true ↔ Wanted D list j := by
  obtain ⟨f, h1, h2⟩ := pickLoop_ok hD hm (m := D.n) (f := fun _ => false) (Nat.le_refl _) (fun j q h => by cases h)
  refine ⟨f, h1, fun j => ?_⟩
  rw [h2 j]
  constructor
  · rintro (h | ⟨k, _, b, c⟩)
    · cases h
    · exact ⟨k, b, c⟩
  · rintro ⟨k, b, c⟩; exact Or.inr ⟨k, b.2.1, b, c⟩
end pick

end MM.Extr
