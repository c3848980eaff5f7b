import Verif.Trace.Work
import Verif.Trace.Usage

/-!
# Properties C51, C52: SHOW TRACE_BACK and SHOW USAGE
-/
namespace MM.Trace
open MM.Veri MM.Proof

variable {D : TDb} {ess : Bool}

/-! ### / TO -/

/-- What the filter holds after the statements before `stmt`. -/
def FInv (D : TDb) (pat : List Char) (s stmt : Nat) (f : Nat → Bool) : Prop :=
  ∀ j, 1 ≤ j → (f j = true ↔ ∃ m, Matched D pat m ∧ m < stmt ∧ (j = m ∨ (j ≤ s ∧ Affects D m j)))

theorem filterLoop_ok (hD : Sane D false) {pat : List Char} {s : Nat} (hs : 1 ≤ s) (hs2 : s ≤ D.n)
    (hm : ∀ m, 1 ≤ m → m ≤ D.n → ∃ b, isMatch D m pat = .val b) : ∀ {count stmt : Nat} {f : Nat → Bool}, 1 ≤ stmt → stmt + count ≤ D.n + 1 →
    FInv D pat s stmt f → ∃ g, filterLoop D pat s count stmt f = .val g ∧ FInv D pat s (stmt + count) g
  | 0, stmt, f, _, _, h => ⟨f, rfl, h⟩
  | count + 1, stmt, f, h1, h2, h => by
    have hskip : ¬ Matched D pat stmt → FInv D pat s (stmt + 1) f := by
      intro hnm j hj
      rw [h j hj]
      constructor
      · rintro ⟨m, a, b, c⟩; exact ⟨m, a, by omega, c⟩
      · rintro ⟨m, a, b, c⟩
        have : m ≠ stmt := by rintro rfl; exact hnm a
        exact ⟨m, a, by omega, c⟩
    have hadd : stmt + (count + 1) = stmt + 1 + count := by omega
    rw [filterLoop, hadd]
    by_cases hk : D.kind stmt ≠ .a ∧ D.kind stmt ≠ .p
    · rw [if_pos hk]
      exact filterLoop_ok hD hs hs2 hm (by omega) (by omega) (hskip (by
        rintro ⟨_, _, h | h, _⟩
        · exact hk.1 h
        · exact hk.2 h))
    · rw [if_neg hk]
      have hk' : D.kind stmt = .a ∨ D.kind stmt = .p := by
        by_cases ha : D.kind stmt = .a
        · exact Or.inl ha
        · by_cases hp : D.kind stmt = .p
          · exact Or.inr hp
          · exact absurd ⟨ha, hp⟩ hk
      obtain ⟨b, hb⟩ := hm stmt h1 (by omega)
      rw [hb, Out.bind_val]
      cases b with
      | false =>
        rw [if_pos rfl]
        exact filterLoop_ok hD hs hs2 hm (by omega) (by omega) (hskip (by
          rintro ⟨_, _, _, h⟩; rw [hb] at h; cases h))
      | true =>
        rw [if_neg (by simp)]
        have hmt : Matched D pat stmt := ⟨h1, by omega, hk', hb⟩
        obtain ⟨g, hg, hg1, hg2⟩ := traceUsage_rec hD (s := stmt) (c := s) h1 (by omega) hs2
        have hco : cutoff D s = s := by unfold cutoff; rw [if_neg (by omega)]
        rw [hco] at hg1 hg2
        rw [hg, Out.bind_val]
        refine filterLoop_ok hD hs hs2 hm (by omega) (by omega) ?_
        intro j hj
        have hbase : upd f stmt true j = true ↔ ∃ m, Matched D pat m ∧ ((m < stmt ∧ (j = m ∨ (j ≤ s ∧ Affects D m j))) ∨ (m = stmt ∧ j = stmt)) := by
          by_cases hjs : j = stmt
          · subst hjs
            simp only [upd_same, true_iff]
            exact ⟨j, hmt, Or.inr (by simp)⟩
          · rw [upd_other _ _ hjs, h j hj]
            constructor
            · rintro ⟨m, a, b⟩; exact ⟨m, a, Or.inl b⟩
            · rintro ⟨m, a, b | b⟩
              · exact ⟨m, a, b⟩
              · exact absurd b.2 hjs
        unfold orUsage
        by_cases hu : g 0 = true
        · rw [if_pos hu]
          by_cases hc : stmt + 1 ≤ j ∧ j ≤ D.n ∧ g j = true
          · simp only [hc, and_self, if_true, true_iff]
            exact ⟨stmt, hmt, by omega, Or.inr ((hg1 j hj).1 hc.2.2)⟩
          · rw [if_neg hc, hbase]
            constructor
            · rintro ⟨m, a, b | ⟨rfl, b⟩⟩
              · exact ⟨m, a, by omega, b.2⟩
              · exact ⟨m, a, by omega, Or.inl b⟩
            · rintro ⟨m, a, b, c⟩
              by_cases hms : m = stmt
              · subst hms
                rcases c with c | ⟨c1, c2⟩
                · exact ⟨m, a, Or.inr ⟨rfl, c⟩⟩
                · refine absurd ⟨?_, by omega, (hg1 j hj).2 ⟨c1, c2⟩⟩ hc
                  have := affects_lt hD hj (by omega) c2
                  omega
              · exact ⟨m, a, Or.inl ⟨by omega, c⟩⟩
        · rw [if_neg hu, hbase]
          constructor
          · rintro ⟨m, a, b | ⟨rfl, b⟩⟩
            · exact ⟨m, a, by omega, b.2⟩
            · exact ⟨m, a, by omega, Or.inl b⟩
          · rintro ⟨m, a, b, c⟩
            by_cases hms : m = stmt
            · subst hms
              rcases c with c | ⟨c1, c2⟩
              · exact ⟨m, a, Or.inr ⟨rfl, c⟩⟩
              · exact absurd (hg2.2 ⟨j, hj, c1, c2⟩) hu
            · exact ⟨m, a, Or.inl ⟨by omega, c⟩⟩

/-- `q` passes / TO: it is an assertion matched by the list or uses one, directly or indirectly. -/
def LeadsTo (D : TDb) (pat : List Char) (q : Nat) : Prop := ∃ m, Matched D pat m ∧ (q = m ∨ Affects D m q)

theorem cites_refers {p q : Nat} (h : Cites D ess p q) : Refers D p q := by
  obtain ⟨h1, _, r, hr, hret, h | ⟨_, es, i, e, _, h, _⟩⟩ := h
  · exact ⟨h1, r, hr, hret, Or.inl ⟨rfl, h.2⟩⟩
  · exact ⟨h1, r, hr, hret, Or.inl ⟨rfl, List.mem_of_getElem? h⟩⟩

theorem reached_range (hD : Sane D false) {s q : Nat} (hs : 1 ≤ s) (hs2 : s ≤ D.n) (h : Reached D ess s q) : 1 ≤ q ∧ q ≤ s := by
  induction h with
  | self => omega
  | step _ hc ih =>
    have := refers_lt hD (by omega) (by omega) (cites_refers hc)
    omega

theorem leadsTo_up {pat : List Char} {p q : Nat} (hc : Cites D ess p q) (h : LeadsTo D pat q) : LeadsTo D pat p := by
  obtain ⟨m, hm, rfl | ha⟩ := h
  · exact ⟨q, hm, Or.inr (.direct (cites_refers hc))⟩
  · exact ⟨m, hm, Or.inr (.step ha (cites_refers hc))⟩

/-- The filter and the closure commute: what leads to a matched statement is reached through statements that lead there. -/
theorem reachedF_iff (hD : Sane D false) {s : Nat} (hs : 1 ≤ s) (hs2 : s ≤ D.n) {pat : List Char} {f : Nat → Bool} (hf : FInv D pat s (D.n + 1) f) (q : Nat) :
    ReachedF D ess (some f) s q ↔ q = s ∨ (Reached D ess s q ∧ LeadsTo D pat q) := by
  have hf' : ∀ j, 1 ≤ j → j ≤ s → (f j = true ↔ LeadsTo D pat j) := by
    intro j h1 h2
    rw [hf j h1]
    constructor
    · rintro ⟨m, a, _, b | b⟩
      · exact ⟨m, a, Or.inl b⟩
      · exact ⟨m, a, Or.inr b.2⟩
    · rintro ⟨m, a, b | b⟩
      · exact ⟨m, a, by have := a.2.1; omega, Or.inl b⟩
      · exact ⟨m, a, by have := a.2.1; omega, Or.inr ⟨h2, b⟩⟩
  constructor
  · intro h
    have hr : Reached D ess s q := by
      induction h with
      | self => exact .self
      | step _ hc _ ih => exact .step ih hc
    cases h with
    | self => exact Or.inl rfl
    | step _ hc hp =>
      have := reached_range hD hs hs2 hr
      exact Or.inr ⟨hr, (hf' q this.1 this.2).1 (hp f rfl)⟩
  · rintro (rfl | ⟨h, hl⟩)
    · exact .self
    · induction h with
      | self => exact .self
      | @step p q hp hc ih =>
        have := reached_range hD hs hs2 (.step hp hc)
        refine .step (ih (leadsTo_up hc hl)) hc ?_
        intro f' hf'e; cases hf'e
        exact (hf' q this.1 this.2).2 hl

theorem reachedF_none {s q : Nat} : ReachedF D ess none s q ↔ Reached D ess s q := by
  constructor
  · intro h
    induction h with
    | self => exact .self
    | step _ hc _ ih => exact .step ih hc
  · intro h
    induction h with
    | self => exact .self
    | step _ hc ih => exact .step ih hc (by intro f hf; cases hf)

/-- What `traceProofWork` computes. -/
theorem traceProofWork_ok (hD : Sane D ess) (hD0 : Sane D false) {s : Nat} (hs : 1 ≤ s) (hs2 : s ≤ D.n) {pat : List Char}
    (hm : pat ≠ [] → ∀ m, 1 ≤ m → m ≤ D.n → ∃ b, isMatch D m pat = .val b) :
    ∃ w, traceProofWork D ess pat s = .val w ∧
      (∀ q, w.flags q = true ↔ q = s ∨ (Reached D ess s q ∧ (pat = [] ∨ LeadsTo D pat q))) ∧
      w.unproved.Nodup ∧
      (∀ y, y ∈ w.unproved ↔ (y = s ∨ (Reached D ess s y ∧ (pat = [] ∨ LeadsTo D pat y))) ∧ Unproved D ess y) := by
  unfold traceProofWork toFilter
  by_cases hp : pat = []
  · rw [if_pos hp, Out.bind_val, if_neg (by omega)]
    obtain ⟨w, h1, h2, h3, h4⟩ := traceLoop_start hD (filter := none) hs hs2
    have hiff : ∀ q, ReachedF D ess none s q ↔ q = s ∨ (Reached D ess s q ∧ (pat = [] ∨ LeadsTo D pat q)) := by
      intro q
      rw [reachedF_none]
      constructor
      · intro h; exact Or.inr ⟨h, Or.inl hp⟩
      · rintro (rfl | h)
        · exact .self
        · exact h.1
    exact ⟨w, h1, fun q => by rw [h2.flags, h3, hiff], h2.unodup, fun y => by rw [h4, hiff]⟩
  · rw [if_neg hp]
    obtain ⟨f, hf1, hf2⟩ := filterLoop_ok hD0 hs hs2 (hm hp) (count := D.n) (stmt := 1) (f := fun _ => false) (by omega) (by omega) (by
      intro j hj
      constructor
      · intro h; simp at h
      · rintro ⟨m, a, b, _⟩; have := a.1; omega)
    rw [hf1, Out.bind_val, Out.bind_val, if_neg (by omega)]
    obtain ⟨w, h1, h2, h3, h4⟩ := traceLoop_start hD (filter := some f) hs hs2
    have hiff : ∀ q, ReachedF D ess (some f) s q ↔ q = s ∨ (Reached D ess s q ∧ (pat = [] ∨ LeadsTo D pat q)) := by
      intro q
      rw [reachedF_iff hD0 hs hs2 (by rw [show D.n + 1 = 1 + D.n by omega]; exact hf2)]
      constructor
      · rintro (h | h)
        · exact Or.inl h
        · exact Or.inr ⟨h.1, Or.inr h.2⟩
      · rintro (h | h)
        · exact Or.inl h
        · exact Or.inr ⟨h.1, h.2.resolve_left hp⟩
    exact ⟨w, h1, fun q => by rw [h2.flags, h3, hiff], h2.unodup, fun y => by rw [h4, hiff]⟩

theorem listLoop_ok {axm : Bool} {ml : List Char} {flags : Nat → Bool} : ∀ {count stmt : Nat},
    (∀ m, stmt ≤ m → m < stmt + count → ∃ b, passes D ml m = .val b) →
    ∃ l, listLoop D axm ml flags count stmt = .val l ∧ l.Pairwise (· < ·) ∧
      ∀ q, q ∈ l ↔ stmt ≤ q ∧ q < stmt + count ∧ flags q = true ∧ passes D ml q = .val true ∧ (axm = true → D.kind q = .a)
  | 0, stmt, _ => ⟨[], rfl, by simp, fun q => ⟨nofun, fun h => by omega⟩⟩
  | count + 1, stmt, h => by
    obtain ⟨l, h1, h2, h3⟩ := listLoop_ok (axm := axm) (flags := flags) (count := count) (stmt := stmt + 1) (fun m a b => h m (by omega) (by omega))
    have hadd : stmt + (count + 1) = stmt + 1 + count := by omega
    rw [listLoop, hadd]
    have hskip : ¬ (flags stmt = true ∧ passes D ml stmt = .val true ∧ (axm = true → D.kind stmt = .a)) →
        ∀ q, q ∈ l ↔ stmt ≤ q ∧ q < stmt + 1 + count ∧ flags q = true ∧ passes D ml q = .val true ∧ (axm = true → D.kind q = .a) := by
      intro hno q
      rw [h3]
      constructor
      · rintro ⟨a, b, c⟩; exact ⟨by omega, b, c⟩
      · rintro ⟨a, b, c⟩
        have : q ≠ stmt := by rintro rfl; exact hno c
        exact ⟨by omega, b, c⟩
    by_cases hf : flags stmt = true
    · rw [if_pos hf]
      obtain ⟨b, hb⟩ := h stmt (by omega) (by omega)
      rw [hb, Out.bind_val]
      by_cases hc : b = true ∧ (axm = false ∨ D.kind stmt = .a)
      · rw [if_pos hc, h1, Out.bind_val]
        refine ⟨_, rfl, ?_, fun q => ?_⟩
        · rw [List.pairwise_cons]
          exact ⟨fun q hq => by have := ((h3 q).1 hq).1; omega, h2⟩
        · rw [List.mem_cons, h3]
          constructor
          · rintro (rfl | ⟨a, b, c⟩)
            · refine ⟨by omega, by omega, hf, by rw [hb, hc.1], ?_⟩
              intro ha
              rcases hc.2 with h | h
              · rw [ha] at h; cases h
              · exact h
            · exact ⟨by omega, b, c⟩
          · rintro ⟨a, b, c⟩
            by_cases hq : q = stmt
            · exact Or.inl hq
            · exact Or.inr ⟨by omega, b, c⟩
      · rw [if_neg hc]
        refine ⟨l, h1, h2, hskip ?_⟩
        rintro ⟨_, a, c⟩
        rw [hb] at a; cases a
        apply hc
        refine ⟨rfl, ?_⟩
        cases axm with
        | false => exact Or.inl rfl
        | true => exact Or.inr (c rfl)
    · rw [if_neg hf]
      exact ⟨l, h1, h2, hskip (fun hh => hf hh.1)⟩

/-- **C51** SHOW TRACE_BACK s [/ ESSENTIAL] [/ AXIOMS] [/ MATCH ml] [/ TO pat]: the command never fails, the statements listed are, in the order of
the database and each once, exactly the assertions used directly or indirectly by the proof of `s` (by essential steps only under / ESSENTIAL) that
are axioms (under / AXIOMS), match the list (under / MATCH) and are matched by, or use, an assertion matched by `pat` (under / TO); the warning lists
exactly the traced theorems that are not proved. -/
theorem C51_trace_back (hD : Sane D ess) (hD0 : Sane D false) {s : Nat} (hs : 1 ≤ s) (hs2 : s ≤ D.n) (hk : D.kind s = .p) (axm : Bool)
    {ml pat : List Char} (hm : ∀ t, t = ml ∨ t = pat → t ≠ [] → ∀ m, 1 ≤ m → m ≤ D.n → ∃ b, isMatch D m t = .val b) :
    ∃ l un, traceProof D ess axm ml pat s = .val (l, un) ∧ l.Pairwise (· < ·) ∧ un.Nodup ∧
      (∀ q, q ∈ l ↔ q ≠ s ∧ Reached D ess s q ∧ (axm = true → D.kind q = .a) ∧ (ml = [] ∨ isMatch D q ml = .val true) ∧
        (pat = [] ∨ LeadsTo D pat q)) ∧
      (∀ q, q ∈ un ↔ (q = s ∨ (Reached D ess s q ∧ (pat = [] ∨ LeadsTo D pat q))) ∧ Unproved D ess q) := by
  obtain ⟨w, h1, h2, h3, h4⟩ := traceProofWork_ok hD hD0 hs hs2 (hm pat (Or.inr rfl))
  have hpass : ∀ m, 1 ≤ m → m < 1 + (s - 1) → ∃ b, passes D ml m = .val b := by
    intro m a b
    unfold passes
    by_cases hml : ml = []
    · rw [if_pos hml]; exact ⟨true, rfl⟩
    · rw [if_neg hml]; exact hm ml (Or.inl rfl) hml m a (by omega)
  obtain ⟨l, l1, l2, l3⟩ := listLoop_ok (axm := axm) (flags := w.flags) hpass
  refine ⟨l, w.unproved, ?_, l2, h3, fun q => ?_, h4⟩
  · unfold traceProof
    rw [if_neg (by simpa using hk), h1, Out.bind_val, l1]; rfl
  · have hpe : passes D ml q = .val true ↔ (ml = [] ∨ isMatch D q ml = .val true) := by
      unfold passes
      by_cases hml : ml = []
      · rw [if_pos hml]; simp [hml]
      · rw [if_neg hml]; simp [hml]
    rw [l3, h2, hpe]
    constructor
    · rintro ⟨a, b, c, d, e⟩
      have hne : q ≠ s := by omega
      obtain ⟨c1, c2⟩ := c.resolve_left hne
      exact ⟨hne, c1, e, d, c2⟩
    · rintro ⟨a, b, c, d, e⟩
      have := reached_range hD0 hs hs2 b
      exact ⟨this.1, by omega, Or.inr ⟨b, e⟩, d, c⟩

/-- **C51**, the plain command: every assertion used, nothing else. -/
theorem C51_trace_back_plain (hD0 : Sane D false) {s : Nat} (hs : 1 ≤ s) (hs2 : s ≤ D.n) (hk : D.kind s = .p) :
    ∃ l un, traceProof D false false [] [] s = .val (l, un) ∧ (∀ q, q ∈ l ↔ q ≠ s ∧ Reached D false s q) ∧
      (∀ q, q ∈ un ↔ Reached D false s q ∧ Unproved D false q) := by
  obtain ⟨l, un, h1, _, _, h4, h5⟩ := C51_trace_back hD0 hD0 hs hs2 hk false (ml := []) (pat := []) (by rintro t (rfl | rfl) h <;> exact absurd rfl h)
  refine ⟨l, un, h1, fun q => ?_, fun q => ?_⟩
  · rw [h4]; simp
  · rw [h5]
    constructor
    · rintro ⟨rfl | h, hu⟩
      · exact ⟨.self, hu⟩
      · exact ⟨h.1, hu⟩
    · rintro ⟨h, hu⟩; exact ⟨Or.inr ⟨h, Or.inl rfl⟩, hu⟩

theorem testLoop_ok {ml : List Char} {flags : Nat → Bool} : ∀ {count stmt : Nat},
    (∀ m, stmt ≤ m → m < stmt + count → ∃ b, passes D ml m = .val b) →
    ∃ b, testLoop D ml flags count stmt = .val b ∧
      (b = true ↔ ∃ q, stmt ≤ q ∧ q < stmt + count ∧ flags q = true ∧ passes D ml q = .val true)
  | 0, stmt, _ => ⟨false, rfl, ⟨nofun, fun ⟨q, h⟩ => by omega⟩⟩
  | count + 1, stmt, h => by
    obtain ⟨b, h1, h2⟩ := testLoop_ok (flags := flags) (count := count) (stmt := stmt + 1) (fun m a b => h m (by omega) (by omega))
    have hadd : stmt + (count + 1) = stmt + 1 + count := by omega
    rw [testLoop, hadd]
    have hskip : ¬ (flags stmt = true ∧ passes D ml stmt = .val true) →
        (b = true ↔ ∃ q, stmt ≤ q ∧ q < stmt + 1 + count ∧ flags q = true ∧ passes D ml q = .val true) := by
      intro hno
      rw [h2]
      constructor
      · rintro ⟨q, a, b, c⟩; exact ⟨q, by omega, b, c⟩
      · rintro ⟨q, a, b, c⟩
        have : q ≠ stmt := by rintro rfl; exact hno c
        exact ⟨q, by omega, b, c⟩
    by_cases hf : flags stmt = true
    · rw [if_pos hf]
      obtain ⟨b', hb⟩ := h stmt (by omega) (by omega)
      rw [hb, Out.bind_val]
      cases b' with
      | true => exact ⟨true, rfl, fun _ => ⟨stmt, by omega, by omega, hf, hb⟩, fun _ => rfl⟩
      | false =>
        rw [if_neg (by simp)]
        exact ⟨b, h1, hskip (by rintro ⟨_, a⟩; rw [hb] at a; cases a)⟩
    · rw [if_neg hf]
      exact ⟨b, h1, hskip (fun hh => hf hh.1)⟩

/-- **C51**, the test MINIMIZE_WITH / FORBID makes: does the proof of `s` use, directly or indirectly, an assertion matched by the list? -/
theorem C51_forbid_test (hD0 : Sane D false) {s : Nat} (hs : 1 ≤ s) (hs2 : s ≤ D.n) (hk : D.kind s = .p)
    {ml : List Char} (hml : ml ≠ []) (hm : ∀ m, 1 ≤ m → m ≤ D.n → ∃ b, isMatch D m ml = .val b) :
    ∃ b, traceTest D false ml [] s = .val b ∧ (b = true ↔ ∃ q, q ≠ s ∧ Reached D false s q ∧ isMatch D q ml = .val true) := by
  obtain ⟨w, h1, h2, _, _⟩ := traceProofWork_ok (pat := []) hD0 hD0 hs hs2 (fun h => absurd rfl h)
  have hpe : ∀ q, passes D ml q = isMatch D q ml := by intro q; unfold passes; rw [if_neg hml]
  obtain ⟨b, b1, b2⟩ := testLoop_ok (D := D) (ml := ml) (flags := w.flags) (count := s - 1) (stmt := 1)
    (fun m a b => by rw [hpe]; exact hm m a (by omega))
  refine ⟨b, ?_, ?_⟩
  · unfold traceTest
    rw [if_neg (by simpa using hk), h1, Out.bind_val, b1]
  · rw [b2]
    constructor
    · rintro ⟨q, a, b, c, d⟩
      have hne : q ≠ s := by omega
      rw [h2] at c
      rw [hpe] at d
      exact ⟨q, hne, (c.resolve_left hne).1, d⟩
    · rintro ⟨q, a, b, c⟩
      have := reached_range hD0 hs hs2 b
      exact ⟨q, this.1, by omega, (h2 q).2 (Or.inr ⟨b, Or.inl rfl⟩), by rw [hpe]; exact c⟩

/-- **C52** SHOW USAGE s / RECURSIVE: the command never fails and marks exactly the theorems that use `s` directly or indirectly. -/
theorem C52_usage_recursive (hD : Sane D false) {s : Nat} (hs : 1 ≤ s) (hs2 : s ≤ D.n) :
    ∃ g, traceUsage D true s 0 = .val g ∧ (∀ t, 1 ≤ t → t ≤ D.n → (g t = true ↔ Affects D s t)) ∧
      (g 0 = true ↔ ∃ t, 1 ≤ t ∧ t ≤ D.n ∧ Affects D s t) := by
  obtain ⟨g, h1, h2, h3⟩ := traceUsage_rec hD (s := s) (c := 0) hs hs2 (by omega)
  refine ⟨g, h1, fun t a b => ?_, h3⟩
  rw [h2 t a]
  exact ⟨fun h => h.2, fun h => ⟨b, h⟩⟩

/-- **C52** SHOW USAGE s / DIRECT of a hypothesis: exactly the theorems whose proofs have a step that refers to `s`. -/
theorem C52_usage_direct_hyp (hD : Sane D false) {s : Nat} (hs : 1 ≤ s) (hs2 : s ≤ D.n) (hk : D.kind s = .e ∨ D.kind s = .f) :
    ∃ g, traceUsage D false s 0 = .val g ∧ (∀ t, 1 ≤ t → t ≤ D.n → (g t = true ↔ Refers D t s)) ∧
      (g 0 = true ↔ ∃ t, 1 ≤ t ∧ t ≤ D.n ∧ Refers D t s) := by
  obtain ⟨g, h1, h2, h3⟩ := traceUsage_dir hD (s := s) hs hs2 (fun a b => absurd hk (by rintro (h | h); exacts [a h, b h]))
  refine ⟨g, h1, fun t a b => ?_, h3⟩
  rw [h2 t a]
  exact ⟨fun h => h.2, fun h => ⟨b, h⟩⟩

/-- **C52** SHOW USAGE s / DIRECT of an assertion: exactly the theorems whose proofs have a step that refers to `s`, provided the text search that
skips proofs without parsing them skips none of those (`TextShows`; see `Ex.C52_direct_misses` for a database where it does). -/
theorem C52_usage_direct_partial (hD : Sane D false) {s : Nat} (hs : 1 ≤ s) (hs2 : s ≤ D.n) (ht : TextShows D s) :
    ∃ g, traceUsage D false s 0 = .val g ∧ (∀ t, 1 ≤ t → t ≤ D.n → (g t = true ↔ Refers D t s)) ∧
      (g 0 = true ↔ ∃ t, 1 ≤ t ∧ t ≤ D.n ∧ Refers D t s) := by
  obtain ⟨g, h1, h2, h3⟩ := traceUsage_dir hD (s := s) hs hs2 (fun _ _ => ht)
  refine ⟨g, h1, fun t a b => ?_, h3⟩
  rw [h2 t a]
  exact ⟨fun h => h.2, fun h => ⟨b, h⟩⟩

theorem reached_affects {s t : Nat} (hst : s ≠ t) (h : Reached D false t s) : Affects D s t := by
  have key : ∀ {q}, Reached D false t q → q = t ∨ Affects D q t := by
    intro q hq
    induction hq with
    | self => exact Or.inl rfl
    | @step u r hu hc ih =>
      right
      have hr : Refers D u r := cites_refers hc
      have hpre : ∀ {v}, Affects D u v → Affects D r v := by
        intro v hv
        induction hv with
        | direct h => exact .step (.direct hr) h
        | step _ h ih => exact .step ih h
      rcases ih with rfl | ih
      · exact .direct hr
      · exact hpre ih
  exact (key h).resolve_left hst

theorem affects_reached {s t : Nat} (hk : D.kind s = .a ∨ D.kind s = .p) (h : Affects D s t) : Reached D false t s := by
  have key : ∀ {t}, Affects D s t → (D.kind s = .a ∨ D.kind s = .p) → Reached D false t s := by
    intro t h hk
    induction h with
    | direct h => exact .step .self ⟨h.1, hk, h.2⟩
    | @step u t hu h ih =>
      have hc : Cites D false t u := ⟨h.1, Or.inr (affects_p hu), h.2⟩
      have hpre : ∀ {v}, Reached D false u v → Reached D false t v := by
        intro v hv
        induction hv with
        | self => exact .step .self hc
        | step _ hc' ih => exact .step ih hc'
      exact hpre ih
  exact key h hk

/-- **C51/C52** The two commands agree: SHOW USAGE s / RECURSIVE marks `t` exactly when SHOW TRACE_BACK t lists `s`. -/
theorem C52_usage_is_trace_back (hD : Sane D false) {s t : Nat} (hs : 1 ≤ s) (hs2 : s ≤ D.n) (hks : D.kind s = .a ∨ D.kind s = .p)
    (ht : 1 ≤ t) (ht2 : t ≤ D.n) (hkt : D.kind t = .p) {g : Nat → Bool} {l un : List Nat}
    (hg : traceUsage D true s 0 = .val g) (hl : traceProof D false false [] [] t = .val (l, un)) : g t = true ↔ s ∈ l := by
  obtain ⟨g', h1, h2, _⟩ := C52_usage_recursive hD hs hs2
  rw [hg] at h1; cases h1
  obtain ⟨l', un', h3, h4, _⟩ := C51_trace_back_plain hD ht ht2 hkt
  rw [hl] at h3; cases h3
  rw [h2 t ht ht2, h4]
  constructor
  · intro h
    have := affects_lt hD ht ht2 h
    exact ⟨by omega, affects_reached hks h⟩
  · rintro ⟨hne, h⟩; exact reached_affects hne h

end MM.Trace
