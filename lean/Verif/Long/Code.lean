import Verif.Long.Main
/-!
# C61 for compressed proofs
-/
namespace MM.Long
open MM.Vstr MM.Lex MM.Veri

/-- ` $.` -/
def fin : Str := [' ', '$', '.']

theorem tail_cases {code y b : Str} (h : code ++ fin = y ++ b) (hb : b ≠ []) (hb2 : b.head? ≠ some ' ') :
    (∃ c2, c2 ≠ [] ∧ b = c2 ++ fin ∧ code = y ++ c2) ∨ y = code ++ [' '] ∨ y = code ++ [' ', '$'] := by
  rcases List.append_eq_append_iff.1 h with ⟨z, h1, h2⟩ | ⟨z, h1, h2⟩
  · unfold fin at h2
    cases z with
    | nil => rw [List.nil_append] at h2; rw [← h2] at hb2; simp at hb2
    | cons z1 z =>
      rw [List.cons_append] at h2
      have h3 := (List.cons.inj h2).2
      have h4 := (List.cons.inj h2).1
      clear h2
      cases z with
      | nil => exact Or.inr (Or.inl (by rw [h1, ← h4]))
      | cons z2 z =>
        rw [List.cons_append] at h3
        have h5 := (List.cons.inj h3).2
        have h6 := (List.cons.inj h3).1
        clear h3
        cases z with
        | nil => exact Or.inr (Or.inr (by rw [h1, ← h4, ← h6]))
        | cons z3 z =>
          rw [List.cons_append] at h5
          have := (List.cons.inj h5).2
          cases z with
          | nil => exact absurd this.symm hb
          | cons => simp at this
  · by_cases hz : z = []
    · subst hz
      rw [List.nil_append] at h2
      rw [h2] at hb2
      simp [fin] at hb2
    · exact Or.inl ⟨z, hz, h2, h1⟩

/-- The code is broken at the space after it only. -/
theorem tail_space {code y g b : Str} (hc : ' ' ∉ code) (h : code ++ fin = y ++ g ++ b) (hg : g = [' '] ∨ g = [' ', ' ']) : y = code ∧ g = [' '] ∧ b = ['$', '.'] := by
  have hg' : ∃ g', g = ' ' :: g' := by rcases hg with rfl | rfl <;> exact ⟨_, rfl⟩
  obtain ⟨g', rfl⟩ := hg'
  rw [List.append_assoc, List.cons_append] at h
  rcases List.append_eq_append_iff.1 h with ⟨z, h1, h2⟩ | ⟨z, h1, h2⟩
  · cases z with
    | nil =>
      rw [List.append_nil] at h1
      rw [List.nil_append] at h2
      have := (List.cons.inj h2).2
      refine ⟨h1, ?_⟩
      rcases hg with hg | hg
      · have e : g' = [] := (List.cons.inj hg).2
        subst e
        exact ⟨rfl, this.symm⟩
      · have e : g' = [' '] := (List.cons.inj hg).2
        subst e
        rw [List.cons_append] at this
        exact absurd (List.cons.inj this).1 (by decide)
    | cons z1 z =>
      exfalso
      unfold fin at h2
      rw [List.cons_append] at h2
      have h3 := (List.cons.inj h2).2
      have : ' ' ∈ ['$', '.'] := by rw [h3]; simp
      revert this; decide
  · cases z with
    | nil =>
      rw [List.append_nil] at h1
      rw [List.nil_append] at h2
      have := (List.cons.inj h2).2
      refine ⟨h1.symm, ?_⟩
      rcases hg with hg | hg
      · have e : g' = [] := (List.cons.inj hg).2
        subst e
        exact ⟨rfl, this⟩
      · have e : g' = [' '] := (List.cons.inj hg).2
        subst e
        rw [List.cons_append] at this
        exact absurd (List.cons.inj this).1 (by decide)
    | cons z1 z =>
      exfalso
      rw [List.cons_append] at h2
      obtain ⟨rfl, _⟩ := List.cons.inj h2
      exact hc (by rw [h1]; simp)

theorem printed_cons (l : Str) (ls : List Str) : printed (l :: ls) = l ++ '\n' :: printed ls := by simp [printed]

section
variable {c : Cfg} {W : Int} {next : Str}

theorem white_filter {w : Str} (h : White w) : w.filter printable = [] := List.filter_eq_nil_iff.2 fun d hd => by simp [h d hd]

theorem gap_cases (hb : c.bm = ['&', ' ']) {a g b : Str} (h : Gap c a g b) : (g = [' '] ∨ g = [' ', ' ']) ∨ (g = [] ∧ b ≠ [] ∧ b.head? ≠ some ' ' ∧
      ((' ' ∉ b.take (b.length - 3) ∧ ∃ a' x y, a = a' ++ [x, y] ∧ x ≠ ' ' ∧ y ≠ ' ') ∨ ∃ a' x y, a = a' ++ [')', x, y] ∧ y ≠ ' ')) := by
  unfold Gap at h
  rw [if_neg (by rw [hb]; simp)] at h
  rcases h with h | h | h
  · exact Or.inl (Or.inl h.1)
  · exact Or.inl (Or.inr h)
  · exact Or.inr ⟨h.2.1, h.2.2.1, h.2.2.2.1, h.2.2.2.2⟩

/-- `$.` on a line of its own is indented. -/
theorem code_end (hb : c.bm = ['&', ' ']) (hW : 5 ≤ W) (hn : ∀ d ∈ next, d = ' ') (hne : next ≠ []) {line : Str} {first : Bool} {ls : List Str}
    (h : Wrapped c W next first line ls) (hl : line = ['$', '.']) (hf : first = false) : ∃ v, printed ls = v ++ (fin ++ ['\n']) ∧ White v := by
  cases h with
  | @last _ _ i hi =>
    subst hl hf
    unfold Ind at hi
    rw [if_neg (by simp)] at hi
    rcases hi with ⟨_, hi⟩ | ⟨k, n, hk, _, hi⟩
    · simp at hi
    have hisp : ∀ d ∈ i, d = ' ' := by
      intro d hd
      rw [hi] at hd
      rcases List.mem_append.1 hd with hd | hd
      · exact hn d (List.mem_of_mem_take hd)
      · exact List.eq_of_mem_replicate hd
    have hine : i ≠ [] := by
      intro h
      rw [hi] at h
      have := congrArg List.length h
      rw [List.length_append, List.length_take, List.length_nil] at this
      have := List.length_pos_iff.2 hne
      omega
    refine ⟨i.dropLast, ?_, fun d hd => by rw [hisp d (List.dropLast_subset _ hd)]; rfl⟩
    have e : i = i.dropLast ++ [' '] := by
      conv_lhs => rw [← List.dropLast_concat_getLast hine, hisp _ (List.getLast_mem hine)]
    conv_lhs => rw [e]
    simp [printed, fin]
  | @more _ a g b i ls' hi hg hw =>
    exfalso
    rcases gap_cases hb hg with hg | ⟨rfl, g2, g3, g4⟩
    · have : ' ' ∈ ['$', '.'] := by rw [← hl]; rcases hg with rfl | rfl <;> simp
      revert this; decide
    · rw [List.append_nil] at hl
      have hbl := List.length_pos_iff.2 g2
      have hlen := congrArg List.length hl
      rw [List.length_append] at hlen
      rcases g4 with ⟨_, a', x, y, rfl, _⟩ | ⟨a', x, y, rfl, _⟩ <;> simp at hlen <;> omega

/-- The lines from inside the code on. -/
theorem code_rest (hb : c.bm = ['&', ' ']) (ht : c.tilde = false) (hW : 5 ≤ W) (hn : ∀ d ∈ next, d = ' ') (hne : next ≠ []) {line : Str} {first : Bool} {ls : List Str}
    (h : Wrapped c W next first line ls) : ∀ {code : Str}, line = code ++ fin → code ≠ [] → (∀ d ∈ code, printable d = true) → ')' ∉ code →
      ∃ u, printed ls = u ++ (fin ++ ['\n']) ∧ u.filter printable = code := by
  have hnw : White next := fun d hd => by rw [hn d hd]; rfl
  induction h with
  | @last first line i hi =>
    intro code hl hc1 hc2 hc3
    subst hl
    refine ⟨i ++ code, by simp [printed, fin], ?_⟩
    rw [List.filter_append, white_filter (ind_white hnw hi), List.nil_append, List.filter_eq_self]
    exact hc2
  | @more first a g b i ls' hi hg hw ih =>
    intro code hl hc1 hc2 hc3
    have hsp : ' ' ∉ code := fun h => by have := hc2 _ h; revert this; decide
    rw [ht, printed_cons]
    rcases gap_cases hb hg with hg | ⟨rfl, g2, g3, g4⟩
    · obtain ⟨rfl, _, rfl⟩ := tail_space hsp hl.symm hg
      obtain ⟨v, h1, h2⟩ := code_end hb hW hn hne hw rfl rfl
      refine ⟨i ++ a ++ '\n' :: v, by rw [h1]; simp, ?_⟩
      have hw' : List.filter printable ('\n' :: v) = [] := white_filter fun d hd => by
        rcases List.mem_cons.1 hd with rfl | hd
        · rfl
        · exact h2 d hd
      rw [List.filter_append, List.filter_append, hw', white_filter (ind_white hnw hi), List.nil_append, List.append_nil, List.filter_eq_self]
      exact hc2
    · rw [List.append_nil] at hl
      rcases tail_cases hl.symm g2 g3 with ⟨c2, h1, h2, h3⟩ | h | h
      · obtain ⟨u, e1, e2⟩ := ih h2 h1 (fun d hd => hc2 d (by rw [h3]; simp [hd])) (fun h => hc3 (by rw [h3]; simp [h]))
        refine ⟨i ++ a ++ '\n' :: u, by rw [e1]; simp, ?_⟩
        have hw' : List.filter printable ('\n' :: u) = c2 := by rw [List.filter_cons_of_neg (by decide), e2]
        rw [List.filter_append, List.filter_append, hw', white_filter (ind_white hnw hi), List.nil_append, h3]
        congr 1
        rw [List.filter_eq_self]
        exact fun d hd => hc2 d (by rw [h3]; simp [hd])
      · exfalso
        rcases g4 with ⟨_, a', x, y, e, _, e2⟩ | ⟨a', x, y, e, e2⟩
        · rw [e] at h
          have := congrArg List.getLast? h
          simp at this
          exact e2 this
        · rw [e] at h
          have := congrArg List.getLast? h
          simp at this
          exact e2 this
      · exfalso
        rcases g4 with ⟨_, a', x, y, e, e1, e2⟩ | ⟨a', x, y, e, e2⟩
        · rw [e] at h
          have := (List.append_inj' h rfl).2
          simp at this
          exact e1 this.1
        · rw [e, show a' ++ [')', x, y] = (a' ++ [')']) ++ [x, y] by simp] at h
          have := (List.append_inj' h rfl).1
          exact hc3 (by rw [← this]; simp)

/-- All lines. -/
theorem code_text (hb : c.bm = ['&', ' ']) (ht : c.tilde = false) (hW : 5 ≤ W) (hn : ∀ d ∈ next, d = ' ') (hne : next ≠ []) {line : Str} {first : Bool} {ls : List Str}
    (h : Wrapped c W next first line ls) : ∀ {x code : Str}, line = x ++ ')' :: ' ' :: (code ++ fin) → ')' ∉ x → code ≠ [] → (∀ d ∈ code, printable d = true) → ')' ∉ code →
      ∃ P u, printed ls = P ++ ')' :: (u ++ (fin ++ ['\n'])) ∧ (∀ (α : Type) (f : Str → List α), WordFn f → f P = f x) ∧ u.filter printable = code := by
  have hnw : White next := fun d hd => by rw [hn d hd]; rfl
  induction h with
  | @last first line i hi =>
    intro x code hl hx hc1 hc2 hc3
    subst hl
    refine ⟨i ++ x, ' ' :: code, by simp [printed, fin], fun α f hf => hf.white (ind_white hnw hi) _, ?_⟩
    rw [List.filter_cons_of_neg (by decide), List.filter_eq_self]
    exact hc2
  | @more first a g b i ls' hi hg hw ih =>
    intro x code hl hx hc1 hc2 hc3
    have hsp : ' ' ∉ code := fun h => by have := hc2 _ h; revert this; decide
    have hiw := ind_white hnw hi
    -- `)` before the break
    have hbefore : ∀ {y}, a = x ++ ')' :: y → y ++ g ++ b = ' ' :: (code ++ fin) := by
      intro y e
      rw [e] at hl
      rw [List.append_assoc, List.append_assoc] at hl
      have := List.append_cancel_left hl
      rw [List.cons_append] at this
      rw [List.append_assoc]
      exact (List.cons.inj this).2
    -- `)` after the break
    have hafter : ∀ {x2}, b = x2 ++ ')' :: ' ' :: (code ++ fin) → x = a ++ g ++ x2 := by
      intro x2 e
      rw [e, ← List.append_assoc] at hl
      exact (List.append_inj' hl rfl).1.symm
    rw [ht, printed_cons]
    -- a break inside the code
    have hin : ∀ {c1 c2}, code = c1 ++ c2 → b = c2 ++ fin → c2 ≠ [] → a = x ++ ')' :: ' ' :: c1 ∨ (a = x ++ [')'] ∧ c1 = []) →
        ∃ P u, i ++ a ++ (if false = true then ['~'] else []) ++ '\n' :: printed ls' = P ++ ')' :: (u ++ (fin ++ ['\n'])) ∧
          (∀ (α : Type) (f : Str → List α), WordFn f → f P = f x) ∧ u.filter printable = code := by
      intro c1 c2 e1 e2 e3 e4
      obtain ⟨u, h1, h2⟩ := code_rest hb ht hW hn hne hw e2 e3 (fun d hd => hc2 d (by rw [e1]; simp [hd])) (fun h => hc3 (by rw [e1]; simp [h]))
      have hf1 : c1.filter printable = c1 := List.filter_eq_self.2 fun d hd => hc2 d (by rw [e1]; simp [hd])
      rcases e4 with e4 | ⟨e4, e5⟩
      · refine ⟨i ++ x, ' ' :: (c1 ++ '\n' :: u), by rw [h1, e4]; simp, fun α f hf => hf.white hiw _, ?_⟩
        rw [List.filter_cons_of_neg (by decide), List.filter_append, List.filter_cons_of_neg (by decide), hf1, h2, e1]
      · refine ⟨i ++ x, '\n' :: u, by rw [h1, e4]; simp, fun α f hf => hf.white hiw _, ?_⟩
        rw [List.filter_cons_of_neg (by decide), h2, e1, e5]; rfl
    rcases gap_cases hb hg with hg | ⟨rfl, g2, g3, g4⟩
    · have hgw : White g ∧ g ≠ [] ∧ ')' ∉ g := by
        rcases hg with rfl | rfl
        · exact ⟨fun d hd => by simp at hd; subst hd; rfl, by simp, by decide⟩
        · exact ⟨fun d hd => by simp at hd; subst hd; rfl, by simp, by decide⟩
      have hmem : ')' ∈ a ∨ ')' ∈ b := by
        have : ')' ∈ a ++ g ++ b := by rw [hl]; simp
        rcases List.mem_append.1 this with h | h
        · rcases List.mem_append.1 h with h | h
          · exact Or.inl h
          · exact absurd h hgw.2.2
        · exact Or.inr h
      by_cases ha : ')' ∈ a
      · -- before
        have hay : ∃ y, a = x ++ ')' :: y := by
          rw [List.append_assoc] at hl
          rcases List.append_eq_append_iff.1 hl with ⟨z, h1, h2⟩ | ⟨z, h1, h2⟩
          · exact absurd (by rw [h1]; simp [ha]) hx
          · cases z with
            | nil => rw [List.append_nil] at h1; exact absurd (h1 ▸ ha) hx
            | cons z1 z =>
              rw [List.cons_append] at h2
              obtain ⟨rfl, _⟩ := List.cons.inj h2
              exact ⟨z, h1⟩
        obtain ⟨y, hy⟩ := hay
        have hrest := hbefore hy
        cases y with
        | nil =>
          rw [List.nil_append] at hrest
          have : g = [' '] ∧ b = code ++ fin := by
            rcases hg with rfl | rfl
            · exact ⟨rfl, (List.cons.inj hrest).2⟩
            · exfalso
              have := (List.cons.inj hrest).2
              cases hcode : code with
              | nil => exact hc1 hcode
              | cons d t =>
                rw [hcode] at this
                have := (List.cons.inj this).1
                exact hsp (by rw [hcode]; simp [← this])
          exact hin (c1 := []) rfl this.2 hc1 (Or.inr ⟨hy, rfl⟩)
        | cons y1 y =>
          rw [List.append_assoc, List.cons_append] at hrest
          have h5 := (List.cons.inj hrest).1
          have h8 := (List.cons.inj hrest).2
          clear hrest
          subst h5
          rw [← List.append_assoc] at h8
          obtain ⟨h6, _, h7⟩ := tail_space hsp h8.symm hg
          subst h6 h7
          obtain ⟨v, h1, h2⟩ := code_end hb hW hn hne hw rfl rfl
          refine ⟨i ++ x, ' ' :: (y ++ '\n' :: v), by rw [h1, hy]; simp, fun α f hf => hf.white hiw _, ?_⟩
          rw [List.filter_cons_of_neg (by decide), List.filter_append, List.filter_cons_of_neg (by decide), white_filter h2, List.append_nil, List.filter_eq_self]
          exact hc2
      · -- after
        have hbx : ∃ x2, b = x2 ++ ')' :: ' ' :: (code ++ fin) := by
          rcases List.append_eq_append_iff.1 hl with ⟨z, h1, h2⟩ | ⟨z, h1, h2⟩
          · exact ⟨z, h2⟩
          · cases z with
            | nil => exact ⟨[], h2.symm⟩
            | cons z1 z =>
              exfalso
              rw [List.cons_append] at h2
              obtain ⟨rfl, _⟩ := List.cons.inj h2
              have : ')' ∈ a ++ g := by rw [h1]; simp
              rcases List.mem_append.1 this with h | h
              · exact ha h
              · exact hgw.2.2 h
        obtain ⟨x2, hx2⟩ := hbx
        have hxx := hafter hx2
        obtain ⟨P, u, h1, h2, h3⟩ := ih hx2 (fun h => hx (by rw [hxx]; simp [h])) hc1 hc2 hc3
        refine ⟨i ++ a ++ '\n' :: P, u, by rw [h1]; simp, ?_, h3⟩
        intro α f hf
        rw [hf.sep _ _ _ (by decide), h2 α f hf, hf.white hiw, hxx, hf.white' hgw.1 a x2 hgw.2.1]
    · rw [List.append_nil] at hl
      rcases g4 with ⟨g4, a', p, q, e, e1, e2⟩ | ⟨a', p, q, e, e2⟩
      · have hay : ∃ y, a = x ++ ')' :: y := by
          rcases List.append_eq_append_iff.1 hl with ⟨z, h1, h2⟩ | ⟨z, h1, h2⟩
          · exfalso
            apply g4
            have hcl := List.length_pos_iff.2 hc1
            have : b.take (b.length - 3) = z ++ ')' :: ' ' :: code := by
              rw [h2]
              have e : z ++ ')' :: ' ' :: (code ++ fin) = (z ++ ')' :: ' ' :: code) ++ fin := by simp
              rw [e]
              apply List.take_left'
              simp [fin]
              omega
            rw [this]; simp
          · cases z with
            | nil =>
              exfalso
              apply g4
              rw [List.nil_append] at h2
              have hcl := List.length_pos_iff.2 hc1
              have : b.take (b.length - 3) = ')' :: ' ' :: code := by
                rw [← h2]
                have e : ')' :: ' ' :: (code ++ fin) = (')' :: ' ' :: code) ++ fin := by simp
                rw [e]
                apply List.take_left'
                simp [fin]
              rw [this]; simp
            | cons z1 z =>
              rw [List.cons_append] at h2
              obtain ⟨rfl, _⟩ := List.cons.inj h2
              exact ⟨z, h1⟩
        obtain ⟨y, hy⟩ := hay
        have hrest := hbefore hy
        rw [List.append_nil] at hrest
        cases y with
        | nil =>
          rw [List.nil_append] at hrest
          rw [hrest] at g3
          simp at g3
        | cons y1 y =>
          rw [List.cons_append] at hrest
          have h5 := (List.cons.inj hrest).1
          have h8 := (List.cons.inj hrest).2
          clear hrest
          subst h5
          rcases tail_cases h8.symm g2 g3 with ⟨c2, h1, h2, h3⟩ | h | h
          · exact hin h3 h2 h1 (Or.inl hy)
          · exfalso
            rw [hy, h] at e
            rw [show x ++ ')' :: ' ' :: (code ++ [' ']) = (x ++ ')' :: ' ' :: code) ++ [' '] by simp, show a' ++ [p, q] = (a' ++ [p]) ++ [q] by simp] at e
            have := (List.append_inj' e rfl).2
            simp at this
            exact e2 this.symm
          · exfalso
            rw [hy, h, show x ++ ')' :: ' ' :: (code ++ [' ', '$']) = (x ++ ')' :: ' ' :: code) ++ [' ', '$'] by simp] at e
            have := (List.append_inj' e rfl).2
            simp at this
            exact e1 this.1.symm
      · -- right after the first letter
        have hu : a' = x ∧ p :: q :: b = ' ' :: (code ++ fin) := by
          rw [e, List.append_assoc] at hl
          have hcf : ')' ∉ ' ' :: (code ++ fin) := by
            intro h
            rcases List.mem_cons.1 h with h | h
            · cases h
            · rcases List.mem_append.1 h with h | h
              · exact hc3 h
              · revert h; decide
          rcases List.append_eq_append_iff.1 hl with ⟨z, h1, h2⟩ | ⟨z, h1, h2⟩
          · cases z with
            | nil => rw [List.append_nil] at h1; rw [List.nil_append] at h2; exact ⟨h1.symm, (List.cons.inj h2).2⟩
            | cons z1 z =>
              exfalso
              have h2' := h2
              rw [List.cons_append] at h2'
              have := (List.cons.inj h2').1
              subst this
              exact hx (by rw [h1]; simp)
          · cases z with
            | nil => rw [List.append_nil] at h1; rw [List.nil_append] at h2; exact ⟨h1, (List.cons.inj h2).2.symm⟩
            | cons z1 z =>
              exfalso
              rw [List.cons_append] at h2
              have := (List.cons.inj h2).2
              exact hcf (by rw [this]; simp)
        obtain ⟨rfl, h1⟩ := hu
        have h5 := (List.cons.inj h1).1
        have h6 := (List.cons.inj h1).2
        clear h1
        subst h5
        cases hcode : code with
        | nil => exact absurd hcode hc1
        | cons d t =>
          rw [hcode, List.cons_append] at h6
          have h7 := (List.cons.inj h6).1
          have h8 := (List.cons.inj h6).2
          clear h6
          subst h7
          rw [← hcode]
          refine hin (c1 := [q]) (c2 := t) hcode h8 ?_ (Or.inl (by rw [e]))
          rintro rfl
          rw [h8] at g3
          simp [fin] at g3

end

/-- Nothing but spaces and line ends is added. -/
theorem wrapped_mem {c : Cfg} (ht : c.tilde = false) {W : Int} {next : Str} (hn : ∀ d ∈ next, d = ' ') {first : Bool} {line : Str} {ls : List Str}
    (h : Wrapped c W next first line ls) : ∀ l ∈ ls, ∀ d ∈ l, d = ' ' ∨ d ∈ line := by
  have hi' : ∀ {first : Bool} {line i : Str}, Ind c W next first line i → ∀ d ∈ i, d = ' ' := by
    intro first line i h d hd
    unfold Ind at h
    split at h
    · rw [h] at hd; cases hd
    · rcases h with ⟨h, _⟩ | ⟨k, n, _, _, h⟩
      · rw [h] at hd; cases hd
      · rw [h] at hd
        rcases List.mem_append.1 hd with hd | hd
        · exact hn d (List.mem_of_mem_take hd)
        · exact List.eq_of_mem_replicate hd
  induction h with
  | @last first line i hi =>
    intro l hl d hd
    simp at hl
    subst hl
    rcases List.mem_append.1 hd with hd | hd
    · exact Or.inl (hi' hi d hd)
    · exact Or.inr hd
  | @more first a g b i ls' hi hg hw ih =>
    intro l hl d hd
    rw [ht] at hl
    rcases List.mem_cons.1 hl with rfl | hl
    · simp at hd
      rcases hd with hd | hd
      · exact Or.inl (hi' hi d hd)
      · exact Or.inr (by simp [hd])
    · exact (ih l hl d hd).imp id fun h => by simp [h]

/-- **C61**, for compressed proofs.  A line `x ) code $.` with spaces as indentation is printed as text that has the words of `x`, then `)`, then the letters of the code
with white space between them, and that ends with ` $.` and a line end. -/
theorem C61_code {width : Int} {x code next : Str} (hx : ')' ∉ x) (hx2 : ∀ d ∈ x, d ≠ '&' ∧ d ≠ NUL ∧ d ≠ '\n' ∧ d ≠ QSP) (hc1 : code ≠ [])
    (hc2 : ∀ d ∈ code, printable d = true ∧ d ≠ ')' ∧ d ≠ '&') (hn : ∀ d ∈ next, d = ' ') (hne : next ≠ []) (hW : 5 ≤ width) :
    ∃ ls P u, printLongLine width (x ++ ')' :: ' ' :: (code ++ [' ', '$', '.'])) next ['&', ' '] = .val ls ∧ printed ls = P ++ ')' :: (u ++ [' ', '$', '.', '\n']) ∧
      (∀ (α : Type) (f : Str → List α), WordFn f → f P = f x) ∧ u.filter printable = code ∧ ∀ d ∈ P ++ u, printable d = true ∨ d ∈ x ∨ d = ' ' ∨ d = '\n' := by
  have hnw : White next := fun d hd => by rw [hn d hd]; rfl
  have hline : ∀ d ∈ x ++ ')' :: ' ' :: (code ++ [' ', '$', '.']), d ≠ '&' ∧ d ≠ NUL ∧ d ≠ '\n' ∧ d ≠ QSP := by
    intro d hd
    simp at hd
    rcases hd with hd | hd | hd | hd | hd | hd | hd
    · exact hx2 d hd
    · subst hd; decide
    · subst hd; decide
    · have := hc2 d hd
      refine ⟨this.2.2, ?_, ?_, ?_⟩ <;> (rintro rfl; have := this.1; revert this; decide)
    · subst hd; decide
    · subst hd; decide
    · subst hd; decide
  obtain ⟨lss, h1, h2⟩ := C61_wrapped (next := next) (bm := ['&', ' ']) (line := x ++ ')' :: ' ' :: (code ++ [' ', '$', '.'])) (by simp [modes])
    (fun _ h => (hline _ h).1 rfl) (fun h => (hline _ h).2.1 rfl) (fun h => absurd h.1 (white_tilde hnw)) hW (by simp)
  have hsh : shown ['&', ' '] (x ++ ')' :: ' ' :: (code ++ [' ', '$', '.'])) = x ++ ')' :: ' ' :: (code ++ [' ', '$', '.']) := by unfold shown; rw [if_neg (by simp)]
  rw [hsh, linesOf_last _ (fun h => (hline _ h).2.2.1 rfl) (by simp)] at h2
  have ht : (cfgOf next ['&', ' ']).tilde = false := by
    unfold cfgOf
    simpa using white_tilde hnw
  have hN : nextOf next = next := by unfold nextOf; rw [if_neg (white_tilde hnw)]
  cases h2 with
  | @cons _ ls _ lss' hR hrest =>
    cases hrest
    rw [hN] at hR
    obtain ⟨P, u, e1, e2, e3⟩ := code_text rfl ht hW hn hne hR.1 rfl hx hc1 (fun d hd => (hc2 d hd).1) (fun h => (hc2 _ h).2.1 rfl)
    have hmem := wrapped_mem ht hn hR.1
    have hun : ls.map unquote = ls := by
      conv_rhs => rw [← List.map_id ls]
      apply List.map_congr_left
      intro l hl
      unfold unquote
      conv_rhs => rw [id, ← List.map_id l]
      apply List.map_congr_left
      intro d hd
      rw [if_neg]; rfl
      rcases hmem l hl d hd with rfl | h
      · decide
      · exact (hline d h).2.2.2
    refine ⟨_, P, u, h1, ?_, e2, e3, ?_⟩
    · simp only [List.flatten_cons, List.flatten_nil, List.append_nil]
      rw [hun, e1]
      rfl
    · intro d hd
      by_cases hs : d = ' ' ∨ d = '\n'
      · exact Or.inr (Or.inr hs)
      have hp : d ∈ printed ls := by
        rw [e1]
        rcases List.mem_append.1 hd with hd | hd <;> simp [hd]
      obtain ⟨l, hl1, hl2⟩ := List.mem_flatMap.1 hp
      rcases List.mem_append.1 hl2 with h | h
      · rcases hmem l hl1 d h with h | h
        · exact absurd (Or.inl h) hs
        · -- from the line, but not from its end
          simp at h
          rcases h with h | h | h | h | h | h | h
          · exact Or.inr (Or.inl h)
          · subst h; exact Or.inl rfl
          · exact absurd (Or.inl h) hs
          · exact Or.inl (hc2 d h).1
          · exact absurd (Or.inl h) hs
          · subst h; exact Or.inl rfl
          · subst h; exact Or.inl rfl
      · simp at h
        exact absurd (Or.inr h) hs

end MM.Long
