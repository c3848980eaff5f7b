import Verif.Iso.Props
/-!
# C92: a step proves a hypothesis of one step only
-/
namespace MM.Iso
open MM.Veri MM.Proof MM.Data MM.Tree MM.Pfas MM.Byrep MM.Pars MM.Spec

variable {E : Env} {proof : List Int}

theorem row_le {b e : Nat} {l : List Nat} (h : Row E proof b l e) : b ≤ e := by
  induction h with
  | nil => exact Nat.le_refl _
  | cons h _ ih => have := h.1; omega

theorem row_len {b e : Nat} {l : List Nat} (h : Row E proof b l e) : b ≤ proof.length → e ≤ proof.length := by
  induction h with
  | nil => exact id
  | cons h _ ih => intro _; exact ih (by have := h.2.1; omega)

/-- The steps `b` up to but not including `e`. -/
def part (proof : List Int) (b e : Nat) : List Int := (proof.take e).drop b

theorem part_append {b m e : Nat} (h1 : b ≤ m) (h2 : m ≤ e) : part proof b e = part proof b m ++ part proof m e := by
  unfold part
  rw [show proof.take m = (proof.take e).take m by rw [List.take_take, Nat.min_eq_left h2]]
  generalize proof.take e = l
  rw [← List.take_append_drop m l]
  by_cases h : m ≤ l.length
  · rw [List.drop_append_of_le_length (by simp; omega)]
    simp [List.take_append_drop]
  · rw [List.drop_of_length_le (l := l) (by omega)]
    simp [List.take_take]

theorem row_rpn {b e : Nat} {l : List Nat} (h : Row E proof b l e) (k : Nat) : rpnCount E (part proof b e) k = some (k + l.length) := by
  induction h generalizing k with
  | nil b => unfold part; rw [List.drop_of_length_le (by simp)]; simp [rpnCount]
  | @cons b j e l h h' ih =>
    obtain ⟨h1, h2, h3⟩ := h
    rw [part_append (m := j + 1) (by omega) (row_le h'), rpn_append]
    have h3 : rpnCount E (part proof b (j + 1)) 0 = some 1 := h3
    have := rpn_shift _ _ _ k h3
    rw [Nat.zero_add] at this
    rw [this, Option.bind_some, ih]
    simp only [List.length_cons]
    congr 1; omega

/-- The number of subproofs that a step takes. -/
theorem hyp_arity {q : Nat} {js : List Nat} {k : Nat} (h : HypSteps E proof q js) (hk : k ∈ js) : q < proof.length ∧ ∀ st, st < js.length → rpnCount E (part proof q (q + 1)) st = none := by
  obtain ⟨⟨b, ⟨h1, h2, h3⟩, hr⟩, _⟩ := h
  refine ⟨h2, fun st hst => ?_⟩
  have h3 : rpnCount E (part proof b (q + 1)) 0 = some 1 := h3
  rw [part_append h1 (Nat.le_succ q), rpn_append, row_rpn hr, Option.bind_some, Nat.zero_add] at h3
  have e : part proof q (q + 1) = [proof[q]] := by
    unfold part
    rw [List.take_succ_eq_append_getElem h2, List.drop_left' (by simp; omega)]
  have hpos := List.length_pos_of_mem hk
  rw [e, rpnCount] at h3 ⊢
  generalize (if 1 ≤ proof[q] ∧ ((E.stmt proof[q].toNat).kind = .a ∨ (E.stmt proof[q].toNat).kind = .p) then (E.stmt proof[q].toNat).reqHyp.length else 0) = ar at h3 ⊢
  split at h3
  · rw [rpnCount] at h3
    have := Option.some.inj h3
    rw [if_neg (by omega)]
  · cases h3

theorem row_split {b e k : Nat} {l : List Nat} (h : Row E proof b l e) (hk : k ∈ l) : ∃ b' l1 l2, l = l1 ++ k :: l2 ∧ Row E proof b l1 b' ∧ IsSub E proof b' k ∧ Row E proof (k + 1) l2 e := by
  induction h with
  | nil => cases hk
  | @cons b j e l h h' ih =>
    by_cases c : k = j
    · subst c
      exact ⟨b, [], l, rfl, .nil _, h, h'⟩
    · obtain ⟨b', l1, l2, e1, e2, e3, e4⟩ := ih (by simpa [c] using hk)
      exact ⟨b', j :: l1, l2, by rw [e1]; rfl, .cons h e2, e3, e4⟩

theorem not_lt {q q' k : Nat} {js js' : List Nat} (h : HypSteps E proof q js) (hk : k ∈ js) (h' : HypSteps E proof q' js') (hk' : k ∈ js') : ¬ q < q' := by
  intro hlt
  obtain ⟨hq, ha⟩ := hyp_arity h hk
  obtain ⟨⟨b, _, hr⟩, _⟩ := h
  obtain ⟨⟨b', _, hr'⟩, _⟩ := h'
  obtain ⟨_, l1, l2, e1, _, _, r2⟩ := row_split hr hk
  obtain ⟨_, m1, m2, _, _, _, r2'⟩ := row_split hr' hk'
  have hle := row_le r2
  have := row_rpn r2' 0
  rw [part_append (m := q) (by omega) (by omega), rpn_append, row_rpn r2, Option.bind_some, part_append (m := q + 1) (by omega) (by omega), rpn_append,
    ha _ (by rw [e1]; simp; omega)] at this
  cases this

theorem row_last {b e : Nat} {l : List Nat} {j : Nat} (h : Row E proof b (l ++ [j]) e) : ∃ c, Row E proof b l c ∧ IsSub E proof c j ∧ e = j + 1 := by
  generalize hx : l ++ [j] = x at h
  induction h generalizing l with
  | nil => simp at hx
  | @cons b i e x h h' ih =>
    cases l with
    | nil =>
      obtain ⟨rfl, rfl⟩ := List.cons.inj hx
      cases h'
      exact ⟨b, .nil _, h, rfl⟩
    | cons a l =>
      rw [List.cons_append] at hx
      obtain ⟨rfl, hx2⟩ := List.cons.inj hx
      obtain ⟨c, c1, c2, c3⟩ := ih hx2
      exact ⟨c, .cons h c1, c2, c3⟩

theorem row_unique : ∀ (n : Nat) {b e : Nat} {l l' : List Nat}, l.length = n → Row E proof b l e → Row E proof b l' e → l = l'
  | 0, b, e, l, l', hn, h, h' => by
    obtain rfl := List.length_eq_zero_iff.mp hn
    cases h
    cases h' with
    | nil => rfl
    | cons h h' => have := h.1; have := row_le h'; omega
  | n + 1, b, e, l, l', hn, h, h' => by
    have hne : l ≠ [] := by rintro rfl; simp at hn
    obtain ⟨l, j, rfl⟩ : ∃ a b, l = a ++ [b] := ⟨l.dropLast, l.getLast hne, (List.dropLast_append_getLast hne).symm⟩
    obtain ⟨c, c1, c2, rfl⟩ := row_last h
    by_cases hne' : l' = []
    · subst hne'
      have := row_le c1
      have := c2.1
      cases h'
      omega
    obtain ⟨l', j', rfl⟩ : ∃ a b, l' = a ++ [b] := ⟨l'.dropLast, l'.getLast hne', (List.dropLast_append_getLast hne').symm⟩
    obtain ⟨c', d1, d2, d3⟩ := row_last h'
    obtain rfl : j = j' := by omega
    obtain rfl := isSub_unique c2 d2
    rw [row_unique n (by simpa using hn) c1 d1]

theorem hypSteps_unique {q q' k : Nat} {js js' : List Nat} (h : HypSteps E proof q js) (hk : k ∈ js) (h' : HypSteps E proof q' js') (hk' : k ∈ js') : q = q' ∧ js = js' := by
  have e : q = q' := by
    have := not_lt h hk h' hk'
    have := not_lt h' hk' h hk
    omega
  subst e
  obtain ⟨⟨b, s1, r1⟩, _⟩ := h
  obtain ⟨⟨b', s2, r2⟩, _⟩ := h'
  obtain rfl := isSub_unique s1 s2
  exact ⟨rfl, row_unique _ rfl r1 r2⟩

/-- The last step proves no hypothesis. -/
theorem not_last {q k : Nat} {js : List Nat} (h : HypSteps E proof q js) (hk : k ∈ js) : k + 1 < proof.length := by
  obtain ⟨⟨b, s, r⟩, _⟩ := h
  obtain ⟨_, _, _, _, _, _, r2⟩ := row_split r hk
  have := row_le r2
  have := s.2.1
  omega

variable {src : List Src} {s : PState} {look : Look} {U : Unifier} {prove n : Nat} {a : MM.Pfas.St}

/-- C92: `getParentStep` gives `q` for a step exactly if it proves a hypothesis of `q`, or if `q` is that step and the last one. -/
theorem C92_parent_iff (hs : Accepted src s) (hp : kindAt (kinds src) prove = .p) (hU : U.Ok (envOf look src s)) (h : Reach n (envOf look src s) U prove a) {k : Nat}
    (hk : k < a.pip.proof.length) (q : Nat) :
    getParentStep (envOf look src s) a.pip k = .val q ↔ (k + 1 = a.pip.proof.length ∧ q = k) ∨ ∃ js, HypSteps (envOf look src s) a.pip.proof q js ∧ k ∈ js := by
  obtain ⟨q0, e, h0⟩ := C92_parent_step hs hp hU h hk
  rw [e]
  constructor
  · intro hq
    obtain rfl := Out.val.inj hq
    exact h0
  · intro hq
    rcases h0 with ⟨h0, rfl⟩ | ⟨js0, h1, h2⟩
    · rcases hq with ⟨_, rfl⟩ | ⟨js, h3, h4⟩
      · rfl
      · have := not_last h3 h4; omega
    · rcases hq with ⟨h3, _⟩ | ⟨js, h3, h4⟩
      · have := not_last h1 h2; omega
      · rw [(hypSteps_unique h1 h2 h3 h4).1]

/-- C92: `checkDummyVarIsolation` gives 1 ("isolated") exactly if the step has dummy variables and, unless it is the last step, they are neither in the target of the step of which it proves a
hypothesis nor in those of the other `$e` hypotheses of that step; it gives 2 exactly if it has dummy variables and one of them is there. -/
theorem C92_isolated_iff (hs : Accepted src s) (hp : kindAt (kinds src) prove = .p) (hU : U.Ok (envOf look src s)) (h : Reach n (envOf look src s) U prove a) {k : Nat}
    (hk : k < a.pip.proof.length) :
    (checkDummyVarIsolation (envOf look src s) a.pip k = .val 1 ↔ (∃ t ∈ a.pip.target.getD k [], (envOf look src s).sep < t) ∧
      ∀ q js, HypSteps (envOf look src s) a.pip.proof q js → k ∈ js → Apart (envOf look src s) a.pip k q js) ∧
    (checkDummyVarIsolation (envOf look src s) a.pip k = .val 2 ↔ (∃ t ∈ a.pip.target.getD k [], (envOf look src s).sep < t) ∧
      ∃ q js, HypSteps (envOf look src s) a.pip.proof q js ∧ k ∈ js ∧ ¬ Apart (envOf look src s) a.pip k q js) := by
  obtain ⟨r, e, r1, r2, r3⟩ := C92_isolation hs hp hU h hk
  rw [e]
  have hd : r ≠ 0 ↔ ∃ t ∈ a.pip.target.getD k [], (envOf look src s).sep < t := by
    rw [Ne, r2]
    constructor
    · intro hn
      by_contra hc
      exact hn fun t ht => Nat.le_of_not_lt fun hl => hc ⟨t, ht, hl⟩
    · rintro ⟨t, h1, h2⟩ hn
      have := hn t h1
      omega
  rw [← hd]
  by_cases h0 : r = 0
  · subst h0
    exact ⟨⟨fun hq => (by cases hq), fun hq => absurd rfl hq.1⟩, ⟨fun hq => (by cases hq), fun hq => absurd rfl hq.1⟩⟩
  rcases r3 h0 with ⟨c1, rfl⟩ | ⟨q, js, h1, h2, h3⟩
  · refine ⟨⟨fun _ => ⟨h0, fun q js h1 h2 => ?_⟩, fun _ => rfl⟩, ⟨fun hq => (by cases hq), ?_⟩⟩
    · have := not_last h1 h2; omega
    · rintro ⟨_, q, js, h1, h2, _⟩
      have := not_last h1 h2; omega
  · have hA : (∀ q js, HypSteps (envOf look src s) a.pip.proof q js → k ∈ js → Apart (envOf look src s) a.pip k q js) ↔ r = 1 := by
      rw [h3]
      constructor
      · exact fun hq => hq q js h1 h2
      · intro hq q' js' h1' h2'
        obtain ⟨rfl, rfl⟩ := hypSteps_unique h1 h2 h1' h2'
        exact hq
    have hB : (∃ q js, HypSteps (envOf look src s) a.pip.proof q js ∧ k ∈ js ∧ ¬ Apart (envOf look src s) a.pip k q js) ↔ ¬ r = 1 := by
      rw [h3]
      constructor
      · rintro ⟨q', js', h1', h2', h3'⟩
        obtain ⟨rfl, rfl⟩ := hypSteps_unique h1 h2 h1' h2'
        exact h3'
      · exact fun hq => ⟨q, js, h1, h2, hq⟩
    rw [hA, hB]
    refine ⟨⟨fun hq => ⟨h0, Out.val.inj hq⟩, fun hq => by rw [hq.2]⟩, ⟨fun hq => ⟨h0, by rw [Out.val.inj hq]; decide⟩, fun hq => ?_⟩⟩
    rcases r1 with e | e | e
    · exact absurd e h0
    · exact absurd e hq.2
    · rw [e]

end MM.Iso
