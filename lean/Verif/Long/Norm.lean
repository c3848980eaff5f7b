import Verif.Long.Code
/-!
# C61 for proofs in the normal format
-/
namespace MM.Long
open MM.Vstr MM.Lex MM.Veri

theorem fin_split {x a g b : Str} (h : x ++ fin = a ++ g ++ b) (hg : g = [' '] ∨ g = [' ', ' ']) :
    (b = ['$', '.'] ∧ (x = a ∨ x = a ++ [' '])) ∨ ∃ b', b = b' ++ fin ∧ x = a ++ g ++ b' := by
  rcases List.append_eq_append_iff.1 h with ⟨z, h1, h2⟩ | ⟨z, h1, h2⟩
  · -- the break is in the last three characters
    obtain ⟨g', hg1, hg2⟩ : ∃ g', g = g' ++ [' '] ∧ (g' = [] ∨ g' = [' ']) := by
      rcases hg with rfl | rfl
      · exact ⟨[], rfl, Or.inl rfl⟩
      · exact ⟨[' '], rfl, Or.inr rfl⟩
    rw [hg1, ← List.append_assoc] at h1
    unfold fin at h2
    match z, h1, h2 with
    | [], h1, h2 =>
      right
      rw [List.append_nil] at h1
      rw [List.nil_append] at h2
      exact ⟨[], by rw [← h2]; rfl, by rw [hg1, ← List.append_assoc, h1, List.append_nil]⟩
    | [z1], h1, h2 =>
      left
      rw [List.singleton_append] at h2
      have h3 := (List.cons.inj h2).2
      refine ⟨h3.symm, ?_⟩
      have := (List.append_inj' h1 rfl).1
      rcases hg2 with rfl | rfl
      · left; rw [← this, List.append_nil]
      · right; exact this.symm
    | [z1, z2], h1, h2 =>
      exfalso
      have h3 : z2 = '$' := by simp at h2; exact h2.2.1.symm
      have h4 : a ++ g' ++ [' '] = (x ++ [z1]) ++ [z2] := by rw [h1]; simp
      have := (List.append_inj' h4 rfl).2
      simp at this
      rw [h3] at this
      cases this
    | [z1, z2, z3], h1, h2 =>
      exfalso
      have h3 : z3 = '.' := by simp at h2; exact h2.2.2.1.symm
      have h4 : a ++ g' ++ [' '] = (x ++ [z1, z2]) ++ [z3] := by rw [h1]; simp
      have := (List.append_inj' h4 rfl).2
      simp at this
      rw [h3] at this
      cases this
    | _ :: _ :: _ :: _ :: _, _, h2 => simp at h2
  · exact Or.inr ⟨z, h2, h1⟩

section
variable {c : Cfg} {W : Int} {next : Str}

theorem norm_text (hb : c.bm = [' ']) (ht : c.tilde = false) (hW : 5 ≤ W) (hn : ∀ d ∈ next, d = ' ') (hne : next ≠ []) {line : Str} {first : Bool} {ls : List Str}
    (h : Wrapped c W next first line ls) : (line = ['$', '.'] → first = false → ∃ v, printed ls = v ++ (fin ++ ['\n']) ∧ White v) ∧
    ∀ {x : Str}, line = x ++ fin → ∃ P, printed ls = P ++ (fin ++ ['\n']) ∧ ∀ (α : Type) (f : Str → List α), WordFn f → f P = f x := by
  have hnw : White next := fun d hd => by rw [hn d hd]; rfl
  induction h with
  | @last first line i hi =>
    constructor
    · intro hl hf
      subst hl hf
      unfold Ind at hi
      rw [if_neg (by simp)] at hi
      rcases hi with ⟨_, hi⟩ | ⟨k, n, hk, _, hi⟩
      · simp at hi
      have hisp : ∀ d ∈ i, d = ' ' := by
        intro d hd
        rw [hi] at hd
        rcases List.mem_append.1 hd with hd | hd
        · exact hn d (List.mem_of_mem_take hd)
        · exact List.eq_of_mem_replicate hd
      have hine : i ≠ [] := by
        intro h
        rw [hi] at h
        have := congrArg List.length h
        rw [List.length_append, List.length_take, List.length_nil] at this
        have := List.length_pos_iff.2 hne
        omega
      refine ⟨i.dropLast, ?_, fun d hd => by rw [hisp d (List.dropLast_subset _ hd)]; rfl⟩
      have e : i = i.dropLast ++ [' '] := by
        conv_lhs => rw [← List.dropLast_concat_getLast hine, hisp _ (List.getLast_mem hine)]
      conv_lhs => rw [e]
      simp [printed, fin]
    · intro x hl
      subst hl
      exact ⟨i ++ x, by simp [printed, fin], fun α f hf => hf.white (ind_white hnw hi) _⟩
  | @more first a g b i ls' hi hg hw ih =>
    have hg' : g = [' '] ∨ g = [' ', ' '] := by
      unfold Gap at hg
      rw [if_neg (by rw [hb]; simp)] at hg
      rcases hg with hg | hg | hg
      · exact Or.inl hg.1
      · exact Or.inr hg
      · rw [hb] at hg; simp at hg
    have hgw : White g ∧ g ≠ [] := by
      rcases hg' with rfl | rfl
      · exact ⟨fun d hd => by simp at hd; subst hd; rfl, by simp⟩
      · exact ⟨fun d hd => by simp at hd; subst hd; rfl, by simp⟩
    have hiw := ind_white hnw hi
    constructor
    · intro hl _
      exfalso
      have : ' ' ∈ ['$', '.'] := by rw [← hl]; rcases hg' with rfl | rfl <;> simp
      revert this; decide
    · intro x hl
      rw [ht, printed_cons]
      rcases fin_split hl.symm hg' with ⟨h1, h2⟩ | ⟨b', h1, h2⟩
      · obtain ⟨v, e1, e2⟩ := ih.1 h1 rfl
        refine ⟨i ++ a ++ '\n' :: v, by rw [e1]; simp, fun α f hf => ?_⟩
        have hv : f v = [] := by
          have := hf.white e2 []
          rw [List.append_nil, hf.nil] at this
          exact this
        rw [hf.sep _ _ _ (by decide), hf.white hiw, hv, List.append_nil]
        rcases h2 with rfl | rfl
        · rfl
        · rw [hf.sep _ _ _ (by decide), hf.nil, List.append_nil]
      · obtain ⟨P, e1, e2⟩ := ih.2 h1
        refine ⟨i ++ a ++ '\n' :: P, by rw [e1]; simp, fun α f hf => ?_⟩
        rw [hf.sep _ _ _ (by decide), hf.white hiw, e2 α f hf, h2, hf.white' hgw.1 a b' hgw.2]

end

/-- **C61**, for proofs in the normal format.  A line `x $.` with spaces as indentation is printed as text that has the words of `x` and that ends with ` $.` and a line end. -/
theorem C61_normal {width : Int} {x next : Str} (hx : ∀ d ∈ x, d ≠ NUL ∧ d ≠ '\n' ∧ d ≠ QSP) (hn : ∀ d ∈ next, d = ' ') (hne : next ≠ []) (hW : 5 ≤ width) :
    ∃ ls P, printLongLine width (x ++ [' ', '$', '.']) next [' '] = .val ls ∧ printed ls = P ++ [' ', '$', '.', '\n'] ∧
      (∀ (α : Type) (f : Str → List α), WordFn f → f P = f x) ∧ ∀ d ∈ P, printable d = true ∨ d ∈ x ∨ d = ' ' ∨ d = '\n' := by
  have hnw : White next := fun d hd => by rw [hn d hd]; rfl
  have hline : ∀ d ∈ x ++ [' ', '$', '.'], d ≠ NUL ∧ d ≠ '\n' ∧ d ≠ QSP := by
    intro d hd
    simp at hd
    rcases hd with hd | hd | hd | hd
    · exact hx d hd
    · subst hd; decide
    · subst hd; decide
    · subst hd; decide
  obtain ⟨lss, h1, h2⟩ := C61_wrapped (next := next) (bm := [' ']) (line := x ++ [' ', '$', '.']) (by simp [modes])
    (fun h => by simp at h) (fun h => (hline _ h).1 rfl) (fun h => absurd h.1 (white_tilde hnw)) hW (by simp)
  have hsh : shown [' '] (x ++ [' ', '$', '.']) = x ++ [' ', '$', '.'] := by unfold shown; rw [if_neg (by simp)]
  rw [hsh, linesOf_last _ (fun h => (hline _ h).2.1 rfl) (by simp)] at h2
  have ht : (cfgOf next [' ']).tilde = false := by
    unfold cfgOf
    simpa using white_tilde hnw
  have hN : nextOf next = next := by unfold nextOf; rw [if_neg (white_tilde hnw)]
  cases h2 with
  | @cons _ ls _ lss' hR hrest =>
    cases hrest
    rw [hN] at hR
    obtain ⟨P, e1, e2⟩ := (norm_text rfl ht hW hn hne hR.1).2 rfl
    have hmem := wrapped_mem ht hn hR.1
    have hun : ls.map unquote = ls := by
      conv_rhs => rw [← List.map_id ls]
      apply List.map_congr_left
      intro l hl
      unfold unquote
      conv_rhs => rw [id, ← List.map_id l]
      apply List.map_congr_left
      intro d hd
      rw [if_neg]; rfl
      rcases hmem l hl d hd with rfl | h
      · decide
      · exact (hline d h).2.2
    refine ⟨_, P, h1, ?_, e2, ?_⟩
    · simp only [List.flatten_cons, List.flatten_nil, List.append_nil]
      rw [hun, e1]
      rfl
    · intro d hd
      have hp : d ∈ printed ls := by rw [e1]; simp [hd]
      obtain ⟨l, hl1, hl2⟩ := List.mem_flatMap.1 hp
      rcases List.mem_append.1 hl2 with h | h
      · rcases hmem l hl1 d h with h | h
        · exact Or.inr (Or.inr (Or.inl h))
        · simp at h
          rcases h with h | h | h | h
          · exact Or.inr (Or.inl h)
          · exact Or.inr (Or.inr (Or.inl h))
          · subst h; exact Or.inl rfl
          · subst h; exact Or.inl rfl
      · simp at h
        exact Or.inr (Or.inr (Or.inr h))

end MM.Long
