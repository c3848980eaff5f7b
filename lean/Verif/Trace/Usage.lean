import Verif.Trace.Spec
import Mathlib.Data.List.Basic

/-!
# The scan of `traceUsage`
-/
namespace MM.Trace
open MM.Veri MM.Proof

variable {D : TDb}

theorem usesProof_ok (hD : Sane D false) {t : Nat} (h1 : 1 ≤ t) (h2 : t ≤ D.n) (hk : D.kind t = .p) (l : List Nat) :
    ∃ b, usesProof D t l = .val b ∧ (b = true ↔ ∃ q ∈ l, Refers D t q) := by
  obtain ⟨r, hr, hok⟩ := hD.parses t h1 h2 hk
  unfold usesProof proofOf
  rw [hr, Out.bind_val]
  by_cases hret : r.ret ≤ 1
  · rw [if_neg (by omega), Out.bind_val]
    refine ⟨_, rfl, ?_⟩
    unfold usesAny
    rw [List.any_eq_true]
    constructor
    · rintro ⟨q, hq, hm⟩
      exact ⟨q, hq, hk, r, hr, hret, Or.inl ⟨rfl, by simpa using hm⟩⟩
    · rintro ⟨q, hq, _, r', hr', _, ⟨_, hm⟩ | ⟨hf, _⟩⟩
      · rw [hr] at hr'; cases hr'
        exact ⟨q, hq, by simpa using hm⟩
      · cases hf
  · rw [if_pos (by omega), Out.bind_val]
    refine ⟨_, rfl, ?_⟩
    unfold usesAny
    rw [List.any_eq_true]
    constructor
    · rintro ⟨q, hq, hm⟩
      simp at hm
    · rintro ⟨q, hq, _, r', hr', h, _⟩
      rw [hr] at hr'; cases hr'
      exact absurd h hret

theorem refers_lt (hD : Sane D false) {t q : Nat} (h1 : 1 ≤ t) (h2 : t ≤ D.n) (h : Refers D t q) : 1 ≤ q ∧ q < t := by
  obtain ⟨hk, r, hr, hret, ⟨_, hm⟩ | ⟨hf, _⟩⟩ := h
  · obtain ⟨r', hr', hok⟩ := hD.parses t h1 h2 hk
    rw [hr] at hr'; cases hr'
    have := (hok hret).1 _ hm (by omega)
    simpa using this
  · cases hf

theorem affects_p {s t : Nat} (h : Affects D s t) : D.kind t = .p := by
  cases h with
  | direct h => exact h.1
  | step _ h => exact h.1

theorem affects_lt (hD : Sane D false) {s t : Nat} (h1 : 1 ≤ t) (h2 : t ≤ D.n) (h : Affects D s t) : s < t := by
  induction h with
  | direct h => exact (refers_lt hD h1 h2 h).2
  | step _ h ih =>
    have := refers_lt hD h1 h2 h
    have := ih (by omega) (by omega)
    omega

theorem affects_refers (hD : Sane D false) {s t : Nat} (h1 : 1 ≤ t) (h2 : t ≤ D.n) (h : Affects D s t) :
    ∃ q, (q = s ∨ (Affects D s q ∧ s < q ∧ q < t)) ∧ Refers D t q := by
  cases h with
  | direct h => exact ⟨s, Or.inl rfl, h⟩
  | @step u _ hu h =>
    have := refers_lt hD h1 h2 h
    exact ⟨u, Or.inr ⟨hu, affects_lt hD (by omega) (by omega) hu, this.2⟩, h⟩

/-! ### Recursive search -/

/-- What the list holds when all statements before `stmt` have been looked at. -/
def RecInv (D : TDb) (s stmt : Nat) (l : List Nat) : Prop :=
  ∃ r, l = s :: r ∧ ∀ q, q ∈ r ↔ (s < q ∧ q < stmt ∧ Affects D s q)

theorem usageLoop_rec (hD : Sane D false) {s : Nat} : ∀ {count stmt : Nat} {l : List Nat}, s < stmt → stmt + count ≤ D.n + 1 → RecInv D s stmt l →
    ∃ l', usageLoop D true false s count stmt l = .val l' ∧ RecInv D s (stmt + count) l'
  | 0, stmt, l, _, _, h => ⟨l, rfl, h⟩
  | count + 1, stmt, l, h1, h2, h => by
    obtain ⟨r, rfl, hr⟩ := h
    have key : ∃ b, usageTest D false s stmt (s :: r) = .val b ∧ (b = true ↔ Affects D s stmt) := by
      unfold usageTest
      by_cases hk : D.kind stmt = .p
      · rw [if_neg (by simpa using hk)]
        obtain ⟨b, hb, hb2⟩ := usesProof_ok hD (by omega) (by omega) hk (s :: r)
        refine ⟨b, by simpa using hb, ?_⟩
        rw [hb2]
        constructor
        · rintro ⟨q, hq, href⟩
          rcases List.mem_cons.1 hq with rfl | hq
          · exact .direct href
          · exact .step ((hr q).1 hq).2.2 href
        · intro ha
          obtain ⟨q, rfl | ⟨hq, hsq, hqt⟩, href⟩ := affects_refers hD (by omega) (by omega) ha
          · exact ⟨q, by simp, href⟩
          · exact ⟨q, List.mem_cons_of_mem _ ((hr q).2 ⟨hsq, hqt, hq⟩), href⟩
      · rw [if_pos hk]
        exact ⟨false, rfl, ⟨nofun, fun ha => absurd (affects_p ha) hk⟩⟩
    obtain ⟨b, hb, hb2⟩ := key
    have hinv : RecInv D s (stmt + 1) (if b then (s :: r) ++ [stmt] else s :: r) := by
      cases b with
      | true =>
        refine ⟨r ++ [stmt], by simp, fun q => ?_⟩
        rw [List.mem_append, hr, List.mem_singleton]
        constructor
        · rintro (h | rfl)
          · exact ⟨h.1, by omega, h.2.2⟩
          · exact ⟨h1, by omega, hb2.1 rfl⟩
        · rintro ⟨h3, h4, h5⟩
          by_cases h6 : q = stmt
          · exact Or.inr h6
          · exact Or.inl ⟨h3, by omega, h5⟩
      | false =>
        refine ⟨r, by simp, fun q => ?_⟩
        rw [hr]
        constructor
        · rintro h; exact ⟨h.1, by omega, h.2.2⟩
        · rintro ⟨h3, h4, h5⟩
          by_cases h6 : q = stmt
          · subst h6; exact absurd (hb2.2 h5) (by simp)
          · exact ⟨h3, by omega, h5⟩
    obtain ⟨l', hl, hinv'⟩ := usageLoop_rec hD (count := count) (stmt := stmt + 1) (by omega) (by omega) hinv
    refine ⟨l', ?_, by rw [show stmt + (count + 1) = stmt + 1 + count by omega]; exact hinv'⟩
    rw [usageLoop, if_pos rfl, hb, Out.bind_val]
    exact hl

theorem usageFlags_ok {s : Nat} : ∀ (l : List Nat) (f : Nat → Bool), (∀ x ∈ l, s < x ∧ D.kind x = .p ∧ x ≤ D.n) →
    ∃ g, usageFlags D s l f = .val g ∧ ∀ q, g q = true ↔ f q = true ∨ q ∈ l
  | [], f, _ => ⟨f, rfl, by simp⟩
  | x :: xs, f, h => by
    obtain ⟨h1, h2, h3⟩ := h x (by simp)
    obtain ⟨g, hg, hg2⟩ := usageFlags_ok xs (upd f x true) (fun y hy => h y (by simp [hy]))
    refine ⟨g, ?_, fun q => ?_⟩
    · rw [usageFlags, if_neg (by rintro (h | h | h) <;> first | omega | exact h h2)]; exact hg
    · rw [hg2, List.mem_cons]
      by_cases hq : q = x
      · subst hq; simp
      · rw [upd_other _ _ hq]; simp [hq]

/-- From the list to the flags. -/
theorem usage_finish {s : Nat} {r : List Nat} {P : Nat → Prop} (hr : ∀ q, q ∈ r ↔ P q) (hP : ∀ q, P q → s < q ∧ D.kind q = .p ∧ q ≤ D.n) :
    ∃ g, usageFlags D s (s :: r).tail (upd (fun _ => false) 0 (decide (1 < (s :: r).length))) = .val g ∧
      (∀ q, 1 ≤ q → (g q = true ↔ P q)) ∧ (g 0 = true ↔ ∃ q, P q) := by
  obtain ⟨g, hg, hg2⟩ := usageFlags_ok (D := D) (s := s) r (upd (fun _ => false) 0 (decide (1 < (s :: r).length))) (fun x hx => hP x ((hr x).1 hx))
  refine ⟨g, hg, fun q hq => ?_, ?_⟩
  · rw [hg2, upd_other _ _ (by omega), hr]; simp
  · rw [hg2, upd_same]
    constructor
    · rintro (h | h)
      · simp at h
        cases r with
        | nil => simp at h
        | cons x r => exact ⟨x, (hr x).1 (by simp)⟩
      · exact ⟨0, (hr 0).1 h⟩
    · rintro ⟨q, hq⟩
      left
      have hm := (hr q).2 hq
      cases r with
      | nil => cases hm
      | cons x r => simp

theorem cutoff_le {c : Nat} (h : c ≤ D.n) : cutoff D c ≤ D.n := by
  unfold cutoff
  split <;> omega

/-- The recursive search is exact. -/
theorem traceUsage_rec (hD : Sane D false) {s c : Nat} (hs : 1 ≤ s) (hs2 : s ≤ D.n) (hc : c ≤ D.n) :
    ∃ g, traceUsage D true s c = .val g ∧ (∀ q, 1 ≤ q → (g q = true ↔ (q ≤ cutoff D c ∧ Affects D s q))) ∧
      (g 0 = true ↔ ∃ q, 1 ≤ q ∧ q ≤ cutoff D c ∧ Affects D s q) := by
  have hc' := cutoff_le hc
  obtain ⟨l, hl, r, rfl, hr⟩ := usageLoop_rec hD (s := s) (count := cutoff D c - s) (stmt := s + 1) (l := [s]) (by omega) (by omega)
    ⟨[], rfl, fun q => ⟨nofun, fun h => by omega⟩⟩
  have hr' : ∀ q, q ∈ r ↔ (1 ≤ q ∧ q ≤ cutoff D c ∧ Affects D s q) := by
    intro q
    rw [hr]
    constructor
    · rintro ⟨h1, h2, h3⟩; exact ⟨by omega, by omega, h3⟩
    · rintro ⟨h1, h2, h3⟩
      have := affects_lt hD h1 (by omega) h3
      exact ⟨this, by omega, h3⟩
  obtain ⟨g, hg, hg1, hg2⟩ := usage_finish (D := D) hr' (fun q ⟨h1, h2, h3⟩ => ⟨affects_lt hD h1 (by omega) h3, affects_p h3, by omega⟩)
  refine ⟨g, ?_, fun q hq => ?_, hg2⟩
  · unfold traceUsage
    have hne : notEFRec D true s = false := by unfold notEFRec; simp
    rw [hne, hl, Out.bind_val]; exact hg
  · rw [hg1 q hq]
    exact ⟨fun h => h.2, fun h => ⟨hq, h⟩⟩

/-! ### Direct search -/

/-- What the list holds when all statements before `stmt` have been looked at. -/
def DirInv (D : TDb) (s stmt : Nat) (l : List Nat) : Prop :=
  ∃ r, l = s :: r ∧ ∀ q, q ∈ r ↔ (s < q ∧ q < stmt ∧ Refers D q s)

/-- The speed-up does not lose a theorem. -/
def TextShows (D : TDb) (s : Nat) : Prop :=
  ∀ t, s < t → t ≤ D.n → D.kind t = .p → ∃ b, mayUse D s t = .val b ∧ (Refers D t s → b = true)

theorem usageLoop_dir (hD : Sane D false) {s : Nat} {sp : Bool} (ht : sp = true → TextShows D s) : ∀ {count stmt : Nat} {l : List Nat}, s < stmt →
    stmt + count ≤ D.n + 1 → DirInv D s stmt l →
    ∃ l', usageLoop D false sp s count stmt l = .val l' ∧ DirInv D s (stmt + count) l'
  | 0, stmt, l, _, _, h => ⟨l, rfl, h⟩
  | count + 1, stmt, l, h1, h2, h => by
    obtain ⟨r, rfl, hr⟩ := h
    have key : ∃ b, usageTest D sp s stmt [s] = .val b ∧ (b = true ↔ Refers D stmt s) := by
      unfold usageTest
      by_cases hk : D.kind stmt = .p
      · rw [if_neg (by simpa using hk)]
        obtain ⟨b, hb, hb2⟩ := usesProof_ok hD (by omega) (by omega) hk [s]
        have hb2 : b = true ↔ Refers D stmt s := by simpa using hb2
        cases sp with
        | false => exact ⟨b, by simpa using hb, hb2⟩
        | true =>
          rw [if_pos rfl]
          obtain ⟨b', hb', hb3⟩ := ht rfl stmt h1 (by omega) hk
          rw [hb', Out.bind_val]
          cases b' with
          | true => exact ⟨b, by rw [if_pos rfl]; exact hb, hb2⟩
          | false => exact ⟨false, rfl, nofun, fun h => absurd (hb3 h) (by simp)⟩
      · rw [if_pos hk]
        exact ⟨false, rfl, ⟨nofun, fun ha => absurd ha.1 hk⟩⟩
    obtain ⟨b, hb, hb2⟩ := key
    have hinv : DirInv D s (stmt + 1) (if b then (s :: r) ++ [stmt] else s :: r) := by
      cases b with
      | true =>
        refine ⟨r ++ [stmt], by simp, fun q => ?_⟩
        rw [List.mem_append, hr, List.mem_singleton]
        constructor
        · rintro (h | rfl)
          · exact ⟨h.1, by omega, h.2.2⟩
          · exact ⟨h1, by omega, hb2.1 rfl⟩
        · rintro ⟨h3, h4, h5⟩
          by_cases h6 : q = stmt
          · exact Or.inr h6
          · exact Or.inl ⟨h3, by omega, h5⟩
      | false =>
        refine ⟨r, by simp, fun q => ?_⟩
        rw [hr]
        constructor
        · rintro h; exact ⟨h.1, by omega, h.2.2⟩
        · rintro ⟨h3, h4, h5⟩
          by_cases h6 : q = stmt
          · subst h6; exact absurd (hb2.2 h5) (by simp)
          · exact ⟨h3, by omega, h5⟩
    obtain ⟨l', hl, hinv'⟩ := usageLoop_dir hD ht (count := count) (stmt := stmt + 1) (by omega) (by omega) hinv
    refine ⟨l', ?_, by rw [show stmt + (count + 1) = stmt + 1 + count by omega]; exact hinv'⟩
    rw [usageLoop, if_neg (by simp), List.take_succ_cons, List.take_zero, hb, Out.bind_val]
    exact hl

/-- The direct search is exact when the text shows every use. -/
theorem traceUsage_dir (hD : Sane D false) {s : Nat} (hs : 1 ≤ s) (hs2 : s ≤ D.n) (ht : D.kind s ≠ .e → D.kind s ≠ .f → TextShows D s) :
    ∃ g, traceUsage D false s 0 = .val g ∧ (∀ q, 1 ≤ q → (g q = true ↔ (q ≤ D.n ∧ Refers D q s))) ∧
      (g 0 = true ↔ ∃ q, 1 ≤ q ∧ q ≤ D.n ∧ Refers D q s) := by
  have ht' : notEFRec D false s = true → TextShows D s := by
    intro h
    unfold notEFRec at h
    simp at h
    exact ht h.1 h.2
  obtain ⟨l, hl, r, rfl, hr⟩ := usageLoop_dir hD (s := s) ht' (count := D.n - s) (stmt := s + 1) (l := [s]) (by omega) (by omega)
    ⟨[], rfl, fun q => ⟨nofun, fun h => by omega⟩⟩
  have hr' : ∀ q, q ∈ r ↔ (1 ≤ q ∧ q ≤ D.n ∧ Refers D q s) := by
    intro q
    rw [hr]
    constructor
    · rintro ⟨h1, h2, h3⟩; exact ⟨by omega, by omega, h3⟩
    · rintro ⟨h1, h2, h3⟩
      have := refers_lt hD h1 (by omega) h3
      exact ⟨this.2, by omega, h3⟩
  obtain ⟨g, hg, hg1, hg2⟩ := usage_finish (D := D) hr' (fun q ⟨h1, h2, h3⟩ => ⟨(refers_lt hD h1 (by omega) h3).2, h3.1, by omega⟩)
  refine ⟨g, ?_, fun q hq => ?_, hg2⟩
  · unfold traceUsage
    have hco : cutoff D 0 = D.n := rfl
    rw [hco, hl, Out.bind_val]; exact hg
  · rw [hg1 q hq]
    exact ⟨fun h => h.2, fun h => ⟨hq, h⟩⟩

end MM.Trace
