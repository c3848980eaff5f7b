import Verif.Trace.Spec
import Mathlib.Data.List.Basic
import Mathlib.Data.List.Nodup
import Mathlib.Data.List.Perm.Subperm

/-!
# The worklist algorithm of `traceProofWork`
-/
namespace MM.Trace
open MM.Veri MM.Proof

variable {D : TDb} {ess : Bool}

/-- Steps selected by the essential-step flags. -/
def sel : List Int → Option (List Int) → List Int
  | [], _ => []
  | x :: xs, none => x :: sel xs none
  | _ :: _, some [] => []
  | x :: xs, some (e :: es) => if e = 0 then sel xs (some es) else x :: sel xs (some es)

theorem sel_none (xs : List Int) : sel xs none = xs := by
  induction xs with
  | nil => rfl
  | cons x xs ih => simp [sel, ih]

theorem mem_sel : ∀ (xs es : List Int), xs.length = es.length → ∀ y, y ∈ sel xs (some es) ↔ ∃ (i : Nat) (e : Int), xs[i]? = some y ∧ es[i]? = some e ∧ e ≠ 0
  | [], es, _, y => by simp [sel]
  | x :: xs, [], h, _ => by simp at h
  | x :: xs, e :: es, h, y => by
    have ih := mem_sel xs es (by simpa using h) y
    constructor
    · intro hy
      unfold sel at hy
      by_cases he : e = 0
      · rw [if_pos he] at hy
        obtain ⟨i, e', h1, h2, h3⟩ := ih.1 hy
        exact ⟨i + 1, e', by simpa using h1, by simpa using h2, h3⟩
      · rw [if_neg he] at hy
        rcases List.mem_cons.1 hy with rfl | hy
        · exact ⟨0, e, by simp, by simp, he⟩
        · obtain ⟨i, e', h1, h2, h3⟩ := ih.1 hy
          exact ⟨i + 1, e', by simpa using h1, by simpa using h2, h3⟩
    · rintro ⟨i, e', h1, h2, h3⟩
      unfold sel
      cases i with
      | zero =>
        simp at h1 h2
        subst h1 h2
        rw [if_neg h3]; simp
      | succ i =>
        have := ih.2 ⟨i, e', by simpa using h1, by simpa using h2, h3⟩
        by_cases he : e = 0
        · rw [if_pos he]; exact this
        · rw [if_neg he]; exact List.mem_cons_of_mem _ this

/-- The loop over the selected steps only. -/
def walkSteps (D : TDb) (filter : Option (Nat → Bool)) (cur : Nat) : List Int → WState → Out WState
  | [], w => .val w
  | x :: xs, w => traceStep D filter cur x w >>= walkSteps D filter cur xs

theorem traceSteps_eq (filter : Option (Nat → Bool)) (cur : Nat) : ∀ (xs : List Int) (es : Option (List Int)) (w : WState),
    (∀ l, es = some l → l.length = xs.length) → traceSteps D filter cur xs es w = walkSteps D filter cur (sel xs es) w
  | [], es, w, _ => by cases es <;> rfl
  | x :: xs, none, w, _ => by
    rw [traceSteps, sel, walkSteps]
    congr 1
    funext w'
    exact traceSteps_eq filter cur xs none w' (by nofun)
  | x :: xs, some [], w, h => by have := h [] rfl; simp at this
  | x :: xs, some (e :: es), w, h => by
    have hl : ∀ l, some es = some l → l.length = xs.length := by
      intro l hl; cases hl; have := h _ rfl; simpa using this
    rw [traceSteps, sel]
    by_cases he : e = 0
    · rw [if_pos he, if_pos he]; exact traceSteps_eq filter cur xs (some es) w hl
    · rw [if_neg he, if_neg he, walkSteps]
      congr 1
      funext w'
      exact traceSteps_eq filter cur xs (some es) w' hl

/-- Does the filter let `q` through? -/
def Pass (filter : Option (Nat → Bool)) (q : Nat) : Prop := ∀ f, filter = some f → f q = true

/-- The state is consistent: the list has no repetitions, holds statement numbers, and the flags say what is in it. -/
structure WOk (D : TDb) (w : WState) : Prop where
  nodup : w.list.Nodup
  range : ∀ q ∈ w.list, 1 ≤ q ∧ q ≤ D.n
  flags : ∀ q, w.flags q = true ↔ q ∈ w.list
  unodup : w.unproved.Nodup

theorem WOk.length_le {w : WState} (h : WOk D w) : w.list.length ≤ D.n := by
  have := (List.subperm_of_subset h.nodup (l₂ := List.range' 1 D.n) (by
    intro q hq
    have := h.range q hq
    simp; omega)).length_le
  simpa using this

theorem WOk.add {w : WState} (h : WOk D w) {q : Nat} (hq : 1 ≤ q ∧ q ≤ D.n) (hn : q ∉ w.list) :
    addStmt D q w = .val { w with list := w.list ++ [q], flags := upd w.flags q true } ∧
      WOk D { w with list := w.list ++ [q], flags := upd w.flags q true } := by
  have hok : WOk D { w with list := w.list ++ [q], flags := upd w.flags q true } := by
    refine ⟨?_, ?_, ?_, h.unodup⟩
    · refine List.nodup_append.2 ⟨h.nodup, by simp, ?_⟩
      rintro a ha b hb rfl
      simp at hb
      exact hn (hb ▸ ha)
    · intro x hx
      rcases List.mem_append.1 hx with hx | hx
      · exact h.range x hx
      · simp at hx; subst hx; exact hq
    · intro x
      by_cases hx : x = q
      · subst hx; simp
      · show upd w.flags q true x = true ↔ _
        rw [upd_other _ _ hx, h.flags]; simp [hx]
  refine ⟨?_, hok⟩
  have := hok.length_le
  simp at this
  unfold addStmt
  rw [if_pos (by omega)]

/-- What one step does. -/
theorem traceStep_ok {filter : Option (Nat → Bool)} {cur : Nat} {x : Int} {w : WState} (h : WOk D w) (hx : 0 ≤ x → 1 ≤ x.toNat ∧ x.toNat ≤ D.n) :
    ∃ w', traceStep D filter cur x w = .val w' ∧ WOk D w' ∧ (∃ new, w'.list = w.list ++ new) ∧
      (∀ q, q ∈ w'.list ↔ q ∈ w.list ∨ (x = (q : Int) ∧ (D.kind q = .a ∨ D.kind q = .p) ∧ Pass filter q)) ∧
      (∀ y, y ∈ w'.unproved ↔ y ∈ w.unproved ∨ (y = cur ∧ -1000 < x ∧ x < 0)) := by
  unfold traceStep
  by_cases h0 : x < 0
  · rw [if_pos h0]
    have hno : ∀ q : Nat, x ≠ (q : Int) := by intro q; omega
    by_cases h1 : x > -1000
    · rw [if_pos h1]
      by_cases h2 : cur ∈ w.unproved
      · rw [if_pos h2]
        refine ⟨w, rfl, h, ⟨[], by simp⟩, fun q => by simp [hno q], fun y => ?_⟩
        constructor
        · exact Or.inl
        · rintro (hy | ⟨rfl, _⟩)
          · exact hy
          · exact h2
      · rw [if_neg h2]
        refine ⟨_, rfl, ⟨h.nodup, h.range, h.flags, ?_⟩, ⟨[], by simp⟩, fun q => by simp [hno q], fun y => ?_⟩
        · refine List.nodup_append.2 ⟨h.unodup, by simp, ?_⟩
          rintro a ha b hb rfl
          simp at hb
          exact h2 (hb ▸ ha)
        · simp; constructor
          · rintro (hy | rfl)
            · exact Or.inl hy
            · exact Or.inr ⟨rfl, by omega, by omega⟩
          · rintro (hy | ⟨rfl, _⟩)
            · exact Or.inl hy
            · exact Or.inr rfl
    · rw [if_neg h1]
      refine ⟨w, rfl, h, ⟨[], by simp⟩, fun q => by simp [hno q], fun y => ?_⟩
      constructor
      · exact Or.inl
      · rintro (hy | ⟨_, hy, _⟩)
        · exact hy
        · omega
  · rw [if_neg h0]
    obtain ⟨hx1, hx2⟩ := hx (by omega)
    rw [if_neg (by omega)]
    have hu : ∀ y, y ∈ w.unproved ↔ y ∈ w.unproved ∨ (y = cur ∧ -1000 < x ∧ x < 0) := fun y =>
      ⟨Or.inl, fun hy => hy.elim id (fun hh => absurd hh.2.2 h0)⟩
    have hq : ∀ q : Nat, x = (q : Int) → q = x.toNat := by intro q; omega
    by_cases h1 : D.kind x.toNat ≠ .a ∧ D.kind x.toNat ≠ .p
    · rw [if_pos h1]
      refine ⟨w, rfl, h, ⟨[], by simp⟩, fun q => ⟨Or.inl, fun hh => hh.elim id ?_⟩, hu⟩
      rintro ⟨e, hk, _⟩
      rw [hq q e] at hk
      exact absurd hk (by rintro (hh | hh); exacts [h1.1 hh, h1.2 hh])
    · rw [if_neg h1]
      have hk : D.kind x.toNat = .a ∨ D.kind x.toNat = .p := by
        by_cases ha : D.kind x.toNat = .a
        · exact Or.inl ha
        · by_cases hp : D.kind x.toNat = .p
          · exact Or.inr hp
          · exact absurd ⟨ha, hp⟩ h1
      by_cases h2 : w.flags x.toNat = true
      · rw [if_pos h2]
        refine ⟨w, rfl, h, ⟨[], by simp⟩, fun q => ⟨Or.inl, fun hh => hh.elim id ?_⟩, hu⟩
        rintro ⟨e, _, _⟩
        rw [hq q e]; exact (h.flags _).1 h2
      · rw [if_neg h2]
        have hn : x.toNat ∉ w.list := fun hm => h2 ((h.flags _).2 hm)
        obtain ⟨ha, hok⟩ := h.add ⟨hx1, hx2⟩ hn
        have hin : Pass filter x.toNat → ∀ q, q ∈ w.list ++ [x.toNat] ↔ q ∈ w.list ∨ (x = (q : Int) ∧ (D.kind q = .a ∨ D.kind q = .p) ∧ Pass filter q) := by
          intro hp q
          rw [List.mem_append, List.mem_singleton]
          constructor
          · rintro (hm | rfl)
            · exact Or.inl hm
            · exact Or.inr ⟨by omega, hk, hp⟩
          · rintro (hm | ⟨e, _⟩)
            · exact Or.inl hm
            · exact Or.inr (hq q e)
        cases filter with
        | none =>
          rw [if_pos rfl, ha]
          exact ⟨_, rfl, hok, ⟨_, rfl⟩, hin (by intro f hf; cases hf), hu⟩
        | some f =>
          rw [if_neg (by nofun)]
          by_cases h3 : f x.toNat = true
          · rw [if_pos (by simp [h3]), ha]
            exact ⟨_, rfl, hok, ⟨_, rfl⟩, hin (by intro f' hf; cases hf; exact h3), hu⟩
          · rw [if_neg (by simpa using h3)]
            refine ⟨w, rfl, h, ⟨[], by simp⟩, fun q => ⟨Or.inl, fun hh => hh.elim id ?_⟩, hu⟩
            rintro ⟨e, _, hp⟩
            rw [hq q e] at hp
            exact absurd (hp f rfl) h3

/-- What a list of steps does. -/
theorem walkSteps_ok {filter : Option (Nat → Bool)} {cur : Nat} : ∀ {xs : List Int} {w : WState}, WOk D w →
    (∀ x ∈ xs, 0 ≤ x → 1 ≤ x.toNat ∧ x.toNat ≤ D.n) →
    ∃ w', walkSteps D filter cur xs w = .val w' ∧ WOk D w' ∧ (∃ new, w'.list = w.list ++ new) ∧
      (∀ q, q ∈ w'.list ↔ q ∈ w.list ∨ ((q : Int) ∈ xs ∧ (D.kind q = .a ∨ D.kind q = .p) ∧ Pass filter q)) ∧
      (∀ y, y ∈ w'.unproved ↔ y ∈ w.unproved ∨ (y = cur ∧ ∃ x ∈ xs, -1000 < x ∧ x < 0))
  | [], w, h, _ => ⟨w, rfl, h, ⟨[], by simp⟩, by simp, by simp⟩
  | x :: xs, w, h, hx => by
    obtain ⟨w1, e1, k1, ⟨n1, l1⟩, q1, u1⟩ := traceStep_ok (filter := filter) (cur := cur) h (hx x (by simp))
    obtain ⟨w2, e2, k2, ⟨n2, l2⟩, q2, u2⟩ := walkSteps_ok (filter := filter) (cur := cur) (xs := xs) k1 (fun y hy => hx y (by simp [hy]))
    refine ⟨w2, ?_, k2, ⟨n1 ++ n2, by rw [l2, l1, List.append_assoc]⟩, fun q => ?_, fun y => ?_⟩
    · rw [walkSteps, e1]; exact e2
    · rw [q2, q1, List.mem_cons]
      constructor
      · rintro ((h | ⟨rfl, h⟩) | ⟨h, h'⟩)
        · exact Or.inl h
        · exact Or.inr ⟨Or.inl rfl, h⟩
        · exact Or.inr ⟨Or.inr h, h'⟩
      · rintro (h | ⟨h | h, h'⟩)
        · exact Or.inl (Or.inl h)
        · exact Or.inl (Or.inr ⟨h.symm, h'⟩)
        · exact Or.inr ⟨h, h'⟩
    · rw [u2, u1]
      constructor
      · rintro ((h | ⟨rfl, h⟩) | ⟨rfl, z, hz, h⟩)
        · exact Or.inl h
        · exact Or.inr ⟨rfl, x, by simp, h⟩
        · exact Or.inr ⟨rfl, z, by simp [hz], h⟩
      · rintro (h | ⟨rfl, z, hz, h⟩)
        · exact Or.inl (Or.inl h)
        · rcases List.mem_cons.1 hz with rfl | hz
          · exact Or.inl (Or.inr ⟨rfl, h⟩)
          · exact Or.inr ⟨rfl, z, hz, h⟩

/-- The proof the algorithm looks at, and the steps it selects. -/
theorem proof_sel (hD : Sane D ess) {p : Nat} (h1 : 1 ≤ p) (h2 : p ≤ D.n) (hk : D.kind p = .p) :
    ∃ proof es, proofOf D p = .val proof ∧ essFlags D ess proof = .val es ∧ (∀ l, es = some l → l.length = proof.length) ∧
      (∀ x ∈ sel proof es, 0 ≤ x → 1 ≤ x.toNat ∧ x.toNat < p) ∧
      (∀ x : Int, 0 ≤ x → (x ∈ sel proof es ↔ StepOf D ess p x)) ∧
      ((∃ x ∈ sel proof es, -1000 < x ∧ x < 0) ↔ Unproved D ess p) := by
  obtain ⟨r, hr, hok⟩ := hD.parses p h1 h2 hk
  by_cases hret : r.ret ≤ 1
  · obtain ⟨he, hs⟩ := hok hret
    have hp : proofOf D p = .val r.proof := by unfold proofOf; rw [hr]; exact if_neg (by omega)
    have hun : ∀ z : Prop, (z ↔ ∃ x : Int, StepOf D ess p x ∧ -1000 < x ∧ x < 0) → (z ↔ Unproved D ess p) := by
      intro z hz
      rw [hz]
      refine ⟨fun h => ⟨hk, Or.inr h⟩, ?_⟩
      rintro ⟨_, ⟨r', h1, h2⟩ | h⟩
      · rw [hr] at h1; cases h1; omega
      · exact h
    cases ess with
    | false =>
      have hst : ∀ x : Int, x ∈ r.proof ↔ StepOf D false p x := by
        intro x
        constructor
        · intro hx; exact ⟨r, hr, hret, Or.inl ⟨rfl, hx⟩⟩
        · rintro ⟨r', h1, _, ⟨_, h⟩ | ⟨h, _⟩⟩
          · rw [hr] at h1; cases h1; exact h
          · cases h
      refine ⟨r.proof, none, hp, rfl, nofun, ?_, ?_, ?_⟩
      · rw [sel_none]; exact he
      · rw [sel_none]; exact fun x _ => hst x
      · apply hun
        rw [sel_none]
        exact ⟨fun ⟨x, hx, h⟩ => ⟨x, (hst x).1 hx, h⟩, fun ⟨x, hx, h⟩ => ⟨x, (hst x).2 hx, h⟩⟩
    | true =>
      obtain ⟨es, hes, hlen⟩ := hs rfl
      have hst : ∀ x : Int, x ∈ sel r.proof (some es) ↔ StepOf D true p x := by
        intro x
        rw [mem_sel _ _ hlen.symm]
        constructor
        · rintro ⟨i, e, h⟩; exact ⟨r, hr, hret, Or.inr ⟨rfl, es, i, e, hes, h⟩⟩
        · rintro ⟨r', h1, _, ⟨h, _⟩ | ⟨_, es', i, e, h2, h⟩⟩
          · cases h
          · rw [hr] at h1; cases h1
            rw [hes] at h2; cases h2
            exact ⟨i, e, h⟩
      refine ⟨r.proof, some es, hp, ?_, ?_, ?_, fun x _ => hst x, ?_⟩
      · unfold essFlags; rw [if_pos rfl, hes]; rfl
      · intro l hl; cases hl; exact hlen
      · intro x hx
        rw [mem_sel _ _ hlen.symm] at hx
        obtain ⟨i, e, h, _⟩ := hx
        exact he x (List.mem_of_getElem? h)
      · apply hun
        exact ⟨fun ⟨x, hx, h⟩ => ⟨x, (hst x).1 hx, h⟩, fun ⟨x, hx, h⟩ => ⟨x, (hst x).2 hx, h⟩⟩
  · have hp : proofOf D p = .val [-63] := by unfold proofOf; rw [hr]; exact if_pos (by omega)
    have hno : ∀ x : Int, ¬ StepOf D ess p x := by
      rintro x ⟨r', h1, h2, _⟩
      rw [hr] at h1; cases h1; exact hret h2
    have hsel : ∃ es, essFlags D ess [-63] = .val es ∧ (∀ l, es = some l → l.length = [(-63 : Int)].length) ∧ sel [-63] es = [-63] := by
      cases ess with
      | false => exact ⟨none, rfl, nofun, rfl⟩
      | true =>
        refine ⟨some [1], ?_, ?_, rfl⟩
        · unfold essFlags; rw [if_pos rfl, hD.unk rfl]; rfl
        · intro l hl; cases hl; rfl
    obtain ⟨es, h1, h2, h3⟩ := hsel
    refine ⟨[-63], es, hp, h1, h2, ?_, ?_, ?_⟩
    · rw [h3]; intro x hx h0; simp at hx; omega
    · rw [h3]; intro x h0
      exact ⟨fun hx => by simp at hx; omega, fun hx => absurd hx (hno x)⟩
    · rw [h3]
      exact ⟨fun _ => ⟨hk, Or.inl ⟨r, hr, by omega⟩⟩, fun _ => ⟨-63, by simp, by omega, by omega⟩⟩

/-- `q` is reached from `s` through statements the filter lets through. -/
inductive ReachedF (D : TDb) (ess : Bool) (filter : Option (Nat → Bool)) (p : Nat) : Nat → Prop
  | self : ReachedF D ess filter p p
  | step {q r : Nat} : ReachedF D ess filter p q → Cites D ess q r → Pass filter r → ReachedF D ess filter p r

/-- The invariant of the loop over the list. -/
structure LInv (D : TDb) (ess : Bool) (filter : Option (Nat → Bool)) (s pos : Nat) (w : WState) : Prop where
  ok : WOk D w
  start : s ∈ w.list
  inside : pos ≤ w.list.length
  sound : ∀ q ∈ w.list, ReachedF D ess filter s q
  closed : ∀ k < pos, ∀ p, w.list[k]? = some p → ∀ q, Cites D ess p q → Pass filter q → q ∈ w.list
  unpr : ∀ y, y ∈ w.unproved ↔ ∃ k < pos, w.list[k]? = some y ∧ Unproved D ess y

theorem traceLoop_ok (hD : Sane D ess) {filter : Option (Nat → Bool)} {s : Nat} : ∀ {fuel pos : Nat} {w : WState}, LInv D ess filter s pos w →
    D.n < fuel + pos →
    ∃ w', traceLoop D ess filter fuel pos w = .val w' ∧ WOk D w' ∧ (∀ q, q ∈ w'.list ↔ ReachedF D ess filter s q) ∧
      (∀ y, y ∈ w'.unproved ↔ ReachedF D ess filter s y ∧ Unproved D ess y)
  | 0, pos, w, h, hf => by
    have := h.ok.length_le; have := h.inside; omega
  | fuel + 1, pos, w, h, hf => by
    unfold traceLoop
    by_cases hp : pos < w.list.length
    · rw [if_pos hp]
      have hcur : w.list[pos]? = some w.list[pos] := List.getElem?_eq_getElem hp
      have hmem : w.list[pos] ∈ w.list := List.getElem_mem hp
      generalize hc : w.list[pos] = cur at hcur hmem
      have hrd : Out.read w.list pos = .val cur := by unfold Out.read; rw [hcur]
      rw [hrd, Out.bind_val]
      obtain ⟨c1, c2⟩ := h.ok.range cur hmem
      by_cases hk : D.kind cur = .p
      · rw [if_neg (by simpa using hk)]
        obtain ⟨proof, es, e1, e2, e3, e4, e5, e6⟩ := proof_sel hD c1 c2 hk
        rw [e1, Out.bind_val, e2, Out.bind_val, traceSteps_eq filter cur proof es w e3]
        obtain ⟨w1, f1, f2, ⟨new, f3⟩, f4, f5⟩ := walkSteps_ok (filter := filter) (cur := cur) h.ok (xs := sel proof es)
          (fun x hx h0 => by have := e4 x hx h0; omega)
        rw [f1, Out.bind_val]
        have hold : ∀ {k : Nat} {y : Nat}, w.list[k]? = some y → w1.list[k]? = some y := by
          intro k y hy
          have hlt := (List.getElem?_eq_some_iff.1 hy).1
          rw [f3, List.getElem?_append_left hlt]; exact hy
        have hold' : ∀ {k : Nat} {y : Nat}, k < pos + 1 → w1.list[k]? = some y → w.list[k]? = some y := by
          intro k y hk hy
          rw [f3, List.getElem?_append_left (by omega)] at hy; exact hy
        refine traceLoop_ok hD (fuel := fuel) (pos := pos + 1) ⟨f2, ?_, ?_, ?_, ?_, ?_⟩ (by omega)
        · exact (f4 s).2 (Or.inl h.start)
        · rw [f3]; simp; omega
        · intro q hq
          rcases (f4 q).1 hq with hq | ⟨hq, hkq, hpq⟩
          · exact h.sound q hq
          · exact .step (h.sound cur hmem) ⟨hk, hkq, (e5 q (by omega)).1 hq⟩ hpq
        · intro k hk1 p hp1 q hcit hpass
          have hp2 := hold' hk1 hp1
          by_cases hkp : k < pos
          · exact (f4 q).2 (Or.inl (h.closed k hkp p hp2 q hcit hpass))
          · have : k = pos := by omega
            subst this
            rw [hcur] at hp2; cases hp2
            exact (f4 q).2 (Or.inr ⟨(e5 q (by omega)).2 hcit.2.2, hcit.2.1, hpass⟩)
        · intro y
          rw [f5, h.unpr]
          constructor
          · rintro (⟨k, hk1, hk2, hk3⟩ | ⟨rfl, hx⟩)
            · exact ⟨k, by omega, hold hk2, hk3⟩
            · exact ⟨pos, by omega, hold hcur, e6.1 hx⟩
          · rintro ⟨k, hk1, hk2, hk3⟩
            have hk2' := hold' hk1 hk2
            by_cases hkp : k < pos
            · exact Or.inl ⟨k, hkp, hk2', hk3⟩
            · have : k = pos := by omega
              subst this
              rw [hcur] at hk2'; cases hk2'
              exact Or.inr ⟨rfl, e6.2 hk3⟩
      · rw [if_pos hk]
        refine traceLoop_ok hD (fuel := fuel) (pos := pos + 1) ⟨h.ok, h.start, by omega, h.sound, ?_, ?_⟩ (by omega)
        · intro k hk1 p hp1 q hcit hpass
          by_cases hkp : k < pos
          · exact h.closed k hkp p hp1 q hcit hpass
          · have : k = pos := by omega
            subst this
            rw [hcur] at hp1; cases hp1
            exact absurd hcit.1 hk
        · intro y
          rw [h.unpr]
          constructor
          · rintro ⟨k, hk1, hk2⟩; exact ⟨k, by omega, hk2⟩
          · rintro ⟨k, hk1, hk2, hk3⟩
            by_cases hkp : k < pos
            · exact ⟨k, hkp, hk2, hk3⟩
            · have : k = pos := by omega
              subst this
              rw [hcur] at hk2; cases hk2
              exact absurd hk3.1 hk
    · rw [if_neg hp]
      have hmem : ∀ q, ReachedF D ess filter s q → q ∈ w.list := by
        intro q hq
        induction hq with
        | self => exact h.start
        | step _ hc hp' ih =>
          obtain ⟨k, hk⟩ := List.getElem?_of_mem ih
          have := (List.getElem?_eq_some_iff.1 hk).1
          exact h.closed k (by omega) _ hk _ hc hp'
      refine ⟨w, rfl, h.ok, fun q => ⟨h.sound q, hmem q⟩, fun y => ?_⟩
      rw [h.unpr]
      constructor
      · rintro ⟨k, _, hk, hu⟩; exact ⟨h.sound y (List.mem_of_getElem? hk), hu⟩
      · rintro ⟨hr, hu⟩
        obtain ⟨k, hk⟩ := List.getElem?_of_mem (hmem y hr)
        have := (List.getElem?_eq_some_iff.1 hk).1
        exact ⟨k, by omega, hk, hu⟩

/-- The loop as started by `traceProofWork`. -/
theorem traceLoop_start (hD : Sane D ess) {filter : Option (Nat → Bool)} {s : Nat} (h1 : 1 ≤ s) (h2 : s ≤ D.n) :
    ∃ w', traceLoop D ess filter (D.n + 1) 0 ⟨[s], upd (fun _ => false) s true, []⟩ = .val w' ∧ WOk D w' ∧
      (∀ q, q ∈ w'.list ↔ ReachedF D ess filter s q) ∧ (∀ y, y ∈ w'.unproved ↔ ReachedF D ess filter s y ∧ Unproved D ess y) := by
  refine traceLoop_ok hD ⟨⟨by simp, ?_, ?_, by simp⟩, by simp, by simp, ?_, by omega, by simp⟩ (by omega)
  · intro q hq; simp at hq; omega
  · intro q
    by_cases h : q = s
    · subst h; simp
    · show upd (fun _ => false) s true q = true ↔ q ∈ [s]
      rw [upd_other _ _ h]; simp [h]
  · intro q hq; simp at hq; subst hq; exact .self

end MM.Trace
