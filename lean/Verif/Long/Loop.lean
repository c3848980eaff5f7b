import Verif.Long.Props
/-!
# The loops of `printLongLine`
-/
namespace MM.Long
open MM.Vstr

theorem wrapped_false {c : Cfg} {width : Int} {next line : Str} {ls : List Str} (h : Wrapped c width next true line ls) (hl : 3 < line.length) (f : Bool) :
    Wrapped c width next f line ls := by
  cases f
  swap
  · exact h
  cases h with
  | last hi =>
    unfold Ind at hi
    rw [if_pos rfl] at hi
    subst hi
    exact .last (by unfold Ind; exact Or.inl ⟨rfl, hl⟩)
  | more hi hg hw =>
    unfold Ind at hi
    rw [if_pos rfl] at hi
    subst hi
    exact .more (by unfold Ind; exact Or.inl ⟨rfl, hl⟩) hg hw

theorem margin_nonneg (c : Cfg) : 0 ≤ c.margin ∧ ((if c.tilde then 1 else 0 : Int) ≤ c.margin) := by
  unfold Cfg.margin
  constructor <;> split <;> split <;> omega

theorem print2_eq {width : Int} {l : Str} (h : (l.length : Int) ≤ width) : print2 width l = .val (unquote l) := by
  unfold print2
  rw [if_neg (by omega)]
  rfl

theorem gap_sub {c : Cfg} {line b : Str} (hs : SetOk c line) (h : ∀ d ∈ b, d ∈ line) : SetOk c b :=
  ⟨fun hn => hs.1 (h _ hn), fun d hd => (hs.2 d hd).imp id fun hn hb => hn (h d hb)⟩

theorem string_eq (n : Int) (d : Char) : string n d = List.replicate n.toNat d := rfl

theorem lineLoop_eq {c : Cfg} (hm : c.margin ≤ 1) (htt : ¬ (c.tilde = true ∧ c.tree = true)) {W0 : Int} {next0 : Str} (hW : 4 + c.margin ≤ W0) {L : Nat} :
    ∀ (fuel : Nat) (s : LState), s.line.length ≤ L → 2 * s.line.length + (L + 3 - s.width).toNat + (if s.first then 0 else 1) < fuel → SetOk c s.line → W0 ≤ s.width →
      s.nextLen = s.next.length → (s.next.length : Int) ≤ s.width - 4 → (∃ k : Nat, W0 - 4 ≤ k ∧ s.next = next0.take k) →
      ∃ s' ls, lineLoop c fuel s = .val s' ∧ s'.out = s.out ++ ls.map unquote ∧ Wrapped c W0 next0 s.first s.line ls ∧ (∃ k : Nat, W0 - 4 ≤ k ∧ s'.next = next0.take k) ∧
        s.width ≤ s'.width ∧ (∀ l ∈ ls, (l.length : Int) ≤ s'.width) ∧ (Short c (s.width - c.margin + 1 - s.next.length).toNat s.line → s'.width = s.width)
  | 0, _, _, h, _, _, _, _, _ => by omega
  | fuel + 1, s, hL, hf, hset, hw, hn1, hn2, hk => by
    obtain ⟨m0, m1⟩ := margin_nonneg c
    have hind : 0 ≤ s.indent ∧ s.indent ≤ s.next.length := by
      unfold LState.indent; split <;> omega
    unfold lineLoop
    by_cases hlong : (s.line.length : Int) + s.indent > s.width - c.margin
    · rw [if_pos hlong, if_neg (by omega)]
      have hp1 : 4 ≤ (s.width - c.margin + 1 - s.indent).toNat := by omega
      have hp2 : (s.width - c.margin + 1 - s.indent).toNat ≤ s.line.length := by omega
      obtain ⟨q, e1, e2, e3⟩ := breakPos_eq hset hp1 hp2
      rw [e1, Out.bind_val]
      rcases e3 with ⟨rfl, e3, e3b, e3c⟩ | ⟨e3, e4, g, b, e5, e6, e7, e8⟩
      · rw [if_pos rfl]
        have hr : restart { s with width := s.width + 1 } = .val { s with width := s.width + 1, first := true, nextLen := s.next.length } := by
          unfold restart
          rw [if_neg (by dsimp only; omega)]
        rw [hr, Out.bind_val]
        have hdec : 2 * s.line.length + ((L : Int) + 3 - (s.width + 1)).toNat + (if true then 0 else 1) < fuel := by
          simp only [if_true]
          cases hfs : s.first
          · rw [hfs] at hf; simp at hf; omega
          · rw [hfs] at hf; simp at hf
            unfold LState.indent at hlong
            rw [hfs] at hlong
            simp at hlong
            omega
        obtain ⟨s', ls, i1, i2, i3, i4, i5, i6, i7⟩ := lineLoop_eq hm htt hW fuel { s with width := s.width + 1, first := true, nextLen := s.next.length } hL hdec hset
          (by dsimp only; omega) rfl (by dsimp only; omega) hk
        dsimp only at i2 i3 i5
        refine ⟨s', ls, i1, i2, wrapped_false i3 (by omega) _, i4, by omega, i6, ?_⟩
        intro hshort
        exfalso
        have hpre : s.line.take (s.width - c.margin + 1 - s.next.length).toNat <+: s.line.take (s.width - c.margin + 1 - s.indent).toNat :=
          List.take_prefix_take_left (by omega)
        rcases hshort with hshort | hshort
        · exact e3b hshort
        rcases hshort [] (s.line.take (s.width - c.margin + 1 - s.next.length).toNat) (s.line.drop (s.width - c.margin + 1 - s.next.length).toNat)
          (by simp) (by rw [List.length_take]; omega) with ⟨d, hd1, hd2⟩ | ⟨hd1, hd2, hd3⟩
        · exact e3 d (hpre.subset hd1) hd2
        · have hno : ∀ k (hk : k < s.line.length), k < (s.width - c.margin + 1 - s.indent).toNat → s.line[k] ≠ ' ' := by
            intro k hk1 hk2 h
            refine e3 ' ' (h ▸ ?_) hd2
            exact List.mem_take_iff_getElem.2 ⟨k, by omega, rfl⟩
          rcases e3c hd1 with h | h
          · obtain ⟨k, hk1, hk2⟩ := List.mem_take_iff_getElem.1 h
            rw [List.length_drop] at hk1
            rw [List.getElem_drop] at hk2
            by_cases hlt : (s.width - c.margin + 1 - s.indent).toNat - 1 + k < (s.width - c.margin + 1 - s.indent).toNat
            · exact hno _ _ hlt hk2
            · apply hd3
              refine List.mem_take_iff_getElem.2 ⟨(s.width - c.margin + 1 - s.indent).toNat - 1 + k - (s.width - c.margin + 1 - s.next.length).toNat,
                by rw [List.length_drop]; omega, ?_⟩
              rw [List.getElem_drop, ← hk2]
              congr 1
              omega
          · exact hno _ _ (by omega) h
      · rw [if_neg (by omega)]
        have hbs : ∀ d ∈ b, d ∈ s.line := fun d hd => by rw [e6]; simp [hd]
        have hi : ∃ i, prefixOf c s q = i ∧ Ind c W0 next0 s.first (s.line.take (q - 1) ++ g ++ b) i ∧
            ((i ++ s.line.take (q - 1) ++ (if c.tilde then ['~'] else [])).length : Int) ≤ s.width := by
          refine ⟨_, rfl, ?_, ?_⟩
          · unfold prefixOf Ind
            cases hfs : s.first
            · rw [if_neg (by simp), if_neg (by simp)]
              right
              obtain ⟨k, hk1, hk2⟩ := hk
              by_cases ht : c.tree = true ∧ s.nextLen + q - 1 < s.width
              · rw [if_pos ht]
                exact ⟨k, (s.width - s.nextLen - q + 1).toNat, hk1, fun h => (by rw [ht.1] at h; cases h), by rw [hk2]; rfl⟩
              · rw [if_neg ht]
                exact ⟨k, 0, hk1, fun _ => rfl, by rw [hk2]; simp⟩
            · simp
          · have hql : (s.line.take (q - 1)).length = q - 1 := by rw [List.length_take]; omega
            have hpl : ((prefixOf c s q).length : Int) + ((q - 1 : Nat) : Int) ≤ s.width - (if c.tilde then 1 else 0 : Int) := by
              unfold prefixOf LState.indent at *
              cases hfs : s.first
              · rw [hfs] at e2
                simp only [Bool.false_eq_true, if_false] at e2 ⊢
                by_cases ht : c.tree = true ∧ s.nextLen + q - 1 < s.width
                · have : c.tilde = false := by cases h : c.tilde
                                               · rfl
                                               · exact absurd ⟨h, ht.1⟩ htt
                  rw [if_pos ht, List.length_append, string_eq, List.length_replicate, this]
                  simp
                  omega
                · rw [if_neg ht]
                  omega
              · rw [hfs] at e2
                simp only [if_true] at e2 ⊢
                simp
                omega
            rw [List.length_append, List.length_append, hql]
            have e9 : (((if c.tilde = true then ['~'] else []) : Str).length : Int) = if c.tilde then 1 else 0 := by cases c.tilde <;> rfl
            push_cast at hpl ⊢
            omega
        obtain ⟨i, hi1, hi2, hi3⟩ := hi
        have hem : emit c s q = .val { s with first := false, line := b, out := s.out ++ [unquote (i ++ s.line.take (q - 1) ++ (if c.tilde then ['~'] else []))] } := by
          unfold emit
          rw [ch_lt (by omega), Out.bind_val, if_neg (fun h => h.2 (e4 h.1)), left_eq, Out.bind_val, hi1,
            show ((q : Int) - 1).toNat = q - 1 by omega, print2_eq hi3, Out.bind_val, e5, Out.bind_val]
        rw [hem, Out.bind_val]
        have hdec : 2 * b.length + ((L : Int) + 3 - s.width).toNat + (if false then 0 else 1) < fuel := by
          simp only [Bool.false_eq_true, if_false]
          have : (if s.first = true then 0 else 1 : Nat) ≥ 0 := Nat.zero_le _
          omega
        obtain ⟨s', ls, i1, i2, i3, i4, i5, i6, i7⟩ := lineLoop_eq hm htt hW fuel
          { s with first := false, line := b, out := s.out ++ [unquote (i ++ s.line.take (q - 1) ++ (if c.tilde then ['~'] else []))] }
          (by dsimp only; omega) hdec (gap_sub hset hbs) hw hn1 hn2 hk
        dsimp only at i2 i3 i5 i7
        refine ⟨s', (i ++ s.line.take (q - 1) ++ (if c.tilde then ['~'] else [])) :: ls, i1, by rw [i2]; simp, ?_, i4, i5, ?_, ?_⟩
        · have : Wrapped c W0 next0 s.first (s.line.take (q - 1) ++ g ++ b) ((i ++ s.line.take (q - 1) ++ (if c.tilde then ['~'] else [])) :: ls) := .more hi2 e7 i3
          rw [← e6] at this
          exact this
        · intro l hl
          rcases List.mem_cons.1 hl with rfl | hl
          · omega
          · exact i6 l hl
        · intro hshort
          apply i7
          refine hshort.imp id fun hshort => ?_
          intro x w y hxy hwl
          exact hshort (s.line.take (q - 1) ++ g ++ x) w y (e6.trans (by rw [hxy]; simp)) hwl
    · rw [if_neg hlong]
      unfold emitLast
      dsimp only
      have hi : ∃ i, (if s.first then [] else if c.tree then s.next ++ string (s.width - s.nextLen - s.line.length) ' ' else s.next) = i ∧
          Ind c W0 next0 s.first s.line i ∧ ((i ++ s.line).length : Int) ≤ s.width := by
        refine ⟨_, rfl, ?_, ?_⟩
        · unfold Ind
          cases hfs : s.first
          · rw [if_neg (by simp), if_neg (by simp)]
            right
            obtain ⟨k, hk1, hk2⟩ := hk
            cases ht : c.tree
            · exact ⟨k, 0, hk1, fun _ => rfl, by rw [hk2]; simp⟩
            · exact ⟨k, _, hk1, (by intro h; cases h), by rw [hk2]; rfl⟩
          · simp
        · unfold LState.indent at hlong
          cases hfs : s.first
          · rw [hfs] at hlong
            simp only [Bool.false_eq_true, if_false] at hlong ⊢
            cases ht : c.tree
            · simp; omega
            · simp [string_eq]; omega
          · rw [hfs] at hlong
            simp at hlong ⊢
            omega
      obtain ⟨i, hi1, hi2, hi3⟩ := hi
      rw [hi1, print2_eq hi3, Out.bind_val]
      refine ⟨_, [i ++ s.line], rfl, rfl, .last hi2, hk, Int.le_refl _, ?_, fun _ => rfl⟩
      intro l hl
      simp only [List.mem_singleton] at hl
      subst hl
      exact hi3

end MM.Long
