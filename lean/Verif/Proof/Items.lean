import Verif.Proof.Lemmas
/-!
# The scan for local labels, as a grammar

A proof text is a sequence of items; an item is a token with the local labels declared for it (`lab1 : lab2 : tok`).
-/
namespace MM.Proof
open MM.Veri MM.Pars MM.Spec

/-- One step of a proof text: the local labels declared for the step, and the token that says what the step is. -/
structure Item where
  labels : List Name
  tok : Name
deriving Repr, DecidableEq

/-- The text of local label declarations. -/
def declText (ls : List Name) : List Name := ls.flatMap fun l => [l, [':']]

/-- The text of a sequence of items. -/
def text (xs : List Item) : List Name := xs.flatMap fun x => declText x.labels ++ [x.tok]

/-- Table entries for local labels: the label with minus (1000 + number of the step). -/
def locTable : Nat → List Item → List (Name × Int)
  | _, [] => []
  | k, x :: xs => x.labels.map (fun l => (l, -(k : Int) - 1000)) ++ locTable (k + 1) xs

theorem locTable_append : ∀ {xs ys : List Item} {k : Nat}, locTable k (xs ++ ys) = locTable k xs ++ locTable (k + xs.length) ys
  | [], ys, k => by simp [locTable]
  | x :: xs, ys, k => by
    simp only [List.cons_append, locTable, List.append_assoc, List.length_cons]
    rw [locTable_append]
    congr 3
    omega

theorem mem_locTable : ∀ {xs : List Item} {k : Nat} {e : Name × Int}, e ∈ locTable k xs ↔
    ∃ i x, xs[i]? = some x ∧ e.1 ∈ x.labels ∧ e.2 = -((k + i : Nat) : Int) - 1000
  | [], k, e => by simp [locTable]
  | x :: xs, k, e => by
    simp only [locTable, List.mem_append, List.mem_map, mem_locTable (xs := xs)]
    constructor
    · rintro (⟨l, hl, rfl⟩ | ⟨i, y, h1, h2, h3⟩)
      · exact ⟨0, x, rfl, hl, by simp⟩
      · exact ⟨i + 1, y, by simpa using h1, h2, by rw [h3]; congr 2; push_cast; omega⟩
    · rintro ⟨i, y, h1, h2, h3⟩
      cases i with
      | zero =>
        simp at h1; subst h1
        exact Or.inl ⟨e.1, h2, by ext <;> simp [h3]⟩
      | succ i => exact Or.inr ⟨i, y, by simpa using h1, h2, by rw [h3]; push_cast; omega⟩

/-- State of the scan after the items `xs` and the declarations of the labels `ls` for the next step. -/
def mkState (E : Env) (p : Nat) (xs : List Item) (ls : List Name) (r e : Nat) : LScan where
  num := xs.length
  steps := xs.map fun x => (x.tok, !x.labels.isEmpty)
  lflag := !ls.isEmpty
  tbl := hypTable E p ++ locTable 0 xs ++ ls.map fun l => (l, -(xs.length : Int) - 1000)
  ret := r
  ec := e

/-- The label `l` may be declared as a local label in the proof of `p`. -/
def LocalOk (E : Env) (p : Nat) (l : Name) : Prop :=
  (∀ c ∈ l, legalLabelChar c = true) ∧ (∀ j, E.look (labelKeys E) l = some j → ¬ j ≤ p) ∧ E.look (hypTable E p) l = none

variable {E : Env} {p : Nat}

theorem lscanTok_tok {prev tok : Name} (h : tok.head? ≠ some ':') {xs ls r e} :
    lscanTok E p prev tok (mkState E p xs ls r e) = .val (mkState E p (xs ++ [⟨ls, tok⟩]) [] r e) := by
  unfold lscanTok
  rw [if_neg (by simp [mkState]), if_pos h]
  simp [mkState, locTable_append, locTable]

theorem lscanTok_colon {t tok : Name} (h : tok.head? = some ':') {xs ls r e} :
    ∃ r' e' : Nat, (r' < 2 → r < 2 ∧ LocalOk E p t ∧ r' = r ∧ e' = e) ∧ (LocalOk E p t → r' = r ∧ e' = e) ∧ (r' ≥ 2 → r ≥ 2 ∨ e' > 0) ∧ e ≤ e' ∧
      (r' < 2 ∨ LocalOk E p t → lscanTok E p t tok (mkState E p (xs ++ [⟨ls, t⟩]) [] r e) = .val (mkState E p xs (ls ++ [t]) r' e')) ∧
      (∀ s', lscanTok E p t tok (mkState E p (xs ++ [⟨ls, t⟩]) [] r e) = .val s' → s'.ret = r' ∧ s'.ec = e') := by
  unfold lscanTok
  rw [if_neg (by simp [mkState]; omega), if_neg (by simpa using h)]
  dsimp only
  generalize hbad : (t.filter fun c => !legalLabelChar c).length = bad
  generalize hc1 : ((E.look (labelKeys E) t).any fun j => decide (j ≤ (p : Int))) = c1
  generalize hc2 : (E.look (hypTable E p) t).isSome = c2
  have hok : LocalOk E p t ↔ bad = 0 ∧ c1 = false ∧ c2 = false := by
    unfold LocalOk
    rw [← hbad, ← hc1, ← hc2]
    refine and_congr ?_ (and_congr ?_ ?_)
    · simp [List.filter_eq_nil_iff]
    · cases E.look (labelKeys E) t with
      | none => simp
      | some j => simp
    · cases E.look (hypTable E p) t <;> simp
  refine ⟨if bad > 0 ∨ c1 = true ∨ c2 = true then max r 2 else r, e + bad + (if c1 then 1 else 0) + (if c2 then 1 else 0), ?_, ?_, ?_, by omega, ?_, ?_⟩
  · intro hr
    have := (of_ite_max_lt hr)
    have hL : LocalOk E p t := by
      rw [hok]
      have := this.1
      simp only [not_or, Nat.not_lt, Nat.le_zero, Bool.not_eq_true] at this
      exact ⟨by omega, this.2⟩
    obtain ⟨h1, h2, h3⟩ := hok.mp hL
    exact ⟨this.2, hL, by simp [h1, h2, h3], by simp [h1, h2, h3]⟩
  · intro hL
    obtain ⟨h1, h2, h3⟩ := hok.mp hL
    simp [h1, h2, h3]
  · intro hr
    by_cases hL : LocalOk E p t
    · obtain ⟨h1, h2, h3⟩ := hok.mp hL
      simp [h1, h2, h3] at hr; exact Or.inl hr
    · right
      rw [hok] at hL
      by_cases h1 : bad = 0
      · by_cases h2 : c1 = true
        · simp [h2]
        · have : c2 = true := by
            cases c2
            · exact absurd ⟨h1, by simpa using h2, rfl⟩ hL
            · rfl
          simp [this]
      · omega
  · intro hor
    have hL : LocalOk E p t := by
      rcases hor with hr | hL
      · have := (of_ite_max_lt hr).1
        rw [hok]
        simp only [not_or, Nat.not_lt, Nat.le_zero, Bool.not_eq_true] at this
        exact ⟨by omega, this.2⟩
      · exact hL
    obtain ⟨h1, h2, h3⟩ := hok.mp hL
    simp only [h1, h2, h3]
    simp only [mkState, locTable_append, locTable, List.length_append, List.length_cons, List.length_nil, List.map_append,
      List.map_cons, List.map_nil, List.append_nil, List.isEmpty_nil, Nat.zero_add]
    congr 1
    have hn : ((xs.length + 1 : Nat) : Int) + 1 - 2 = xs.length := by push_cast; omega
    simp only [hn]
    simp
  · rintro s' hs
    cases hs
    exact ⟨rfl, rfl⟩

/-- `:` is a token of one character. -/
def Colons (toks : List Name) : Prop := ∀ t ∈ toks, t.head? = some ':' → t = [':']

theorem text_append {xs ys : List Item} : text (xs ++ ys) = text xs ++ text ys := by simp [text]

theorem lscanTok_ec {prev tok : Name} {s s' : LScan} (h : lscanTok E p prev tok s = .val s') : s.ec ≤ s'.ec := by
  unfold lscanTok at h
  split at h
  · cases h
  · dsimp only at h
    split at h
    · cases h; exact Nat.le_refl _
    · cases h
      dsimp only
      omega

theorem lscan_ec : ∀ {toks : List Name} {prev : Name} {s s' : LScan}, lscan E p prev toks s = .val s' → s.ec ≤ s'.ec
  | [], _, _, _, h => by cases h; exact Nat.le_refl _
  | t :: ts, prev, s, s', h => by
    unfold lscan at h
    cases h1 : lscanTok E p prev t s with
    | val s1 =>
      rw [h1, Out.bind_val] at h
      exact Nat.le_trans (lscanTok_ec h1) (lscan_ec h)
    | ub => rw [h1] at h; cases h
    | bug n => rw [h1] at h; cases h
    | fuel => rw [h1] at h; cases h

/-- The scan, when it reports nothing of class 2: the tokens form items (and possibly declarations at the end), and the
state says so.  All labels declared are admissible. -/
theorem lscan_items : ∀ {toks : List Name} {prev : Name} {xs : List Item} {ls : List Name} {r e : Nat} {s' : LScan},
    Colons toks → lscan E p prev toks (mkState E p xs ls r e) = .val s' → s'.ret < 2 →
    (ls = [] → ∀ ys y, xs = ys ++ [y] → prev = y.tok) → (ls ≠ [] → prev = [':']) →
    (xs = [] → ls = [] → ∀ t, toks.head? = some t → t.head? ≠ some ':') →
    (∀ x ∈ xs, (∀ l ∈ x.labels, LocalOk E p l) ∧ x.tok.head? ≠ some ':') → (∀ l ∈ ls, LocalOk E p l) →
    ∃ ys ls', s' = mkState E p ys ls' r e ∧ text xs ++ declText ls ++ toks = text ys ++ declText ls' ∧
      (∀ x ∈ ys, (∀ l ∈ x.labels, LocalOk E p l) ∧ x.tok.head? ≠ some ':') ∧ (∀ l ∈ ls', LocalOk E p l)
  | [], prev, xs, ls, r, e, s', _, h, _, _, _, _, h4, h5 => by
    cases h
    exact ⟨xs, ls, rfl, by simp, h4, h5⟩
  | t :: ts, prev, xs, ls, r, e, s', hc, h, hr, h1, h2, h3, h4, h5 => by
    unfold lscan at h
    have hc' : Colons ts := fun x hx => hc x (List.mem_cons_of_mem _ hx)
    by_cases ht : t.head? = some ':'
    · have htc := hc t List.mem_cons_self ht
      by_cases hls : ls = []
      · subst hls
        rcases List.eq_nil_or_concat xs with hx | ⟨ys, y, hx⟩
        · exact absurd ht (h3 hx rfl t rfl)
        · rw [List.concat_eq_append] at hx
          subst hx
          have hp := h1 rfl ys y rfl
          subst hp
          obtain ⟨r', e', a1, _, _, _, a4, a5⟩ := lscanTok_colon (E := E) (p := p) (t := y.tok) ht (xs := ys) (ls := y.labels) (r := r) (e := e)
          have hy : (⟨y.labels, y.tok⟩ : Item) = y := rfl
          rw [hy] at a4 a5
          cases hs1 : lscanTok E p y.tok t (mkState E p (ys ++ [y]) [] r e) with
          | val s1 =>
            rw [hs1, Out.bind_val] at h
            have hr1 : r' < 2 := by
              rw [← (a5 s1 hs1).1]; exact Nat.lt_of_le_of_lt (lscan_ret h) hr
            rw [a4 (Or.inl hr1)] at hs1
            cases hs1
            obtain ⟨_, hL, rfl, rfl⟩ := a1 hr1
            have hyL := h4 y (by simp)
            obtain ⟨zs, ls', b1, b2, b3, b4⟩ := lscan_items (xs := ys) (ls := y.labels ++ [y.tok]) hc' h hr (by simp) (by simp [htc])
              (by simp) (fun x hx => h4 x (by simp [hx])) (by
                intro l hl
                rcases List.mem_append.mp hl with h6 | h6
                · exact hyL.1 l h6
                · rw [List.mem_singleton] at h6; rw [h6]; exact hL)
            refine ⟨zs, ls', b1, ?_, b3, b4⟩
            rw [← b2, htc]
            simp [text, declText]
          | ub => rw [hs1] at h; cases h
          | bug n => rw [hs1] at h; cases h
          | fuel => rw [hs1] at h; cases h
      · -- two colons in a row
        exfalso
        have hp := h2 hls
        subst hp
        cases hs1 : lscanTok E p [':'] t (mkState E p xs ls r e) with
        | val s1 =>
          rw [hs1, Out.bind_val] at h
          have hr1 : s1.ret < 2 := Nat.lt_of_le_of_lt (lscan_ret h) hr
          unfold lscanTok at hs1
          rw [if_neg (by simp [mkState]), if_neg (by simpa using ht)] at hs1
          cases hs1
          dsimp only at hr1
          have := (of_ite_max_lt hr1).1
          exact this (Or.inl (by decide))
        | ub => rw [hs1] at h; cases h
        | bug n => rw [hs1] at h; cases h
        | fuel => rw [hs1] at h; cases h
    · rw [lscanTok_tok ht, Out.bind_val] at h
      obtain ⟨zs, ls', b1, b2, b3, b4⟩ := lscan_items (xs := xs ++ [⟨ls, t⟩]) (ls := []) hc' h hr (by
          intro _ ys y hy
          obtain ⟨_, h7⟩ := List.append_inj' hy rfl
          simp at h7; rw [← h7]) (by simp) (by simp) (by
          intro x hx
          rcases List.mem_append.mp hx with h6 | h6
          · exact h4 x h6
          · rw [List.mem_singleton] at h6; subst h6; exact ⟨h5, ht⟩) (by simp)
      refine ⟨zs, ls', b1, ?_, b3, b4⟩
      rw [← b2]
      simp [text, declText]

/-- The scan of the text of admissible items reports nothing. -/
theorem lscan_decls {rest : List Name} {tok : Name} (htok : tok.head? ≠ some ':') : ∀ {ls : List Name} {prev : Name} {xs : List Item} {ls0 : List Name} {r e : Nat},
    (∀ l ∈ ls, LocalOk E p l ∧ l.head? ≠ some ':') →
    lscan E p prev (declText ls ++ tok :: rest) (mkState E p xs ls0 r e) = lscan E p tok rest (mkState E p (xs ++ [⟨ls0 ++ ls, tok⟩]) [] r e)
  | [], prev, xs, ls0, r, e, _ => by
    simp only [declText, List.flatMap_nil, List.nil_append, List.append_nil]
    rw [lscan, lscanTok_tok htok, Out.bind_val]
  | l :: ls, prev, xs, ls0, r, e, h => by
    obtain ⟨hL, hl⟩ := h l (by simp)
    have : declText (l :: ls) ++ tok :: rest = l :: [':'] :: (declText ls ++ tok :: rest) := by simp [declText]
    rw [this, lscan, lscanTok_tok hl, Out.bind_val, lscan]
    obtain ⟨r', e', _, a2, _, _, a4, _⟩ := lscanTok_colon (E := E) (p := p) (t := l) (tok := [':']) rfl (xs := xs) (ls := ls0) (r := r) (e := e)
    obtain ⟨rfl, rfl⟩ := a2 hL
    rw [a4 (Or.inr hL), Out.bind_val, lscan_decls htok (fun x hx => h x (by simp [hx]))]
    simp

theorem lscan_text : ∀ {ys : List Item} {prev : Name} {xs : List Item} {r e : Nat},
    (∀ x ∈ ys, (∀ l ∈ x.labels, LocalOk E p l ∧ l.head? ≠ some ':') ∧ x.tok.head? ≠ some ':') →
    lscan E p prev (text ys) (mkState E p xs [] r e) = .val (mkState E p (xs ++ ys) [] r e)
  | [], _, xs, r, e, _ => by simp [text, lscan]
  | y :: ys, prev, xs, r, e, h => by
    have hy := h y (by simp)
    have : text (y :: ys) = declText y.labels ++ y.tok :: text ys := by simp [text]
    rw [this, lscan_decls hy.2 hy.1, lscan_text (fun x hx => h x (by simp [hx]))]
    simp

end MM.Proof
