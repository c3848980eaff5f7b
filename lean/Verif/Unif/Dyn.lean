import Verif.Unif.Core
import Verif.Unif.Spec
import Mathlib.Data.List.Perm.Subperm
/-!
# One round of `unify`
-/
namespace MM.Unif

variable {C : Cfg} {A0 B0 : List Nat}

theorem rd_at (a : List Nat) (c : Nat) (t : List Nat) : rd (a ++ c :: t) a.length = .val (c : Int) := by
  unfold rd; rw [if_pos (by simp)]; simp [List.getD_eq_getElem?_getD]

theorem rd_at' {l a t : List Nat} {c p : Nat} (h : l = a ++ c :: t) (hp : a.length = p) : rd l p = .val (c : Int) := by
  rw [h, ← hp]; exact rd_at a c t

theorem rd_end {l : List Nat} {p : Nat} (h : l.length = p) : rd l p = .val (-1) := by
  unfold rd; rw [if_neg (by omega), if_pos h.symm]

theorem split_at {l : List Nat} {p : Nat} (h : p < l.length) : ∃ c t, l = l.take p ++ c :: t :=
  ⟨l[p], l.drop (p + 1), by rw [List.getElem_cons_drop, List.take_append_drop]⟩

/-- If the schemes agree up to a position within the first, it is also within the second. -/
theorem both_lt {m : Nat} {A B A1 : List Nat} {p : Nat} (hA : A = A1 ++ [m]) (hc : A.count m = B.count m) (h : A.take p = B.take p)
    (hp : p < A.length) : p < B.length := by
  by_contra hn
  have h1 : B = A.take p := by rw [h, List.take_of_length_le (by omega)]
  have h2 : A.take p = A1.take p := by
    rw [hA, List.take_append_of_le_length]; rw [hA] at hp; simp at hp; omega
  have h3 : (A1.take p).count m ≤ A1.count m := (List.take_sublist p A1).count_le m
  rw [h1, h2, hA] at hc
  simp at hc; omega

theorem both_lt' {m : Nat} {A B B1 : List Nat} {p : Nat} (hB : B = B1 ++ [m]) (hc : A.count m = B.count m) (h : A.take p = B.take p)
    (hp : p < B.length) : p < A.length := both_lt hB hc.symm h.symm hp

/-- The scan stops at the first mismatch or at the end. -/
theorem scanLoop_ok {m : Nat} {A B A1 B1 : List Nat} (hA : A = A1 ++ [m]) (hB : B = B1 ++ [m]) (hc : A.count m = B.count m) :
    ∀ (n p : Nat), A.length ≤ n + p → p < A.length → A.take p = B.take p →
      ∃ a ca cb ta tb, scanLoop A B n p = .val a.length ∧ p ≤ a.length ∧ A = a ++ ca :: ta ∧ B = a ++ cb :: tb ∧ (ca ≠ cb ∨ (A = B ∧ ta = [] ∧ ca = m))
  | 0, p, hn, hp, _ => by omega
  | n + 1, p, hn, hp, he => by
    obtain ⟨ca, ta, h1⟩ := split_at hp
    obtain ⟨cb, tb, h2⟩ := split_at (both_lt hA hc he hp)
    rw [← he] at h2
    have hl : (A.take p).length = p := by simp; omega
    unfold scanLoop
    rw [rd_at' h1 hl, Out.bind_val, rd_at' h2 hl, Out.bind_val]
    by_cases hcc : ca = cb
    · rw [if_pos (by rw [hcc])]
      cases ta with
      | nil =>
        have hAl : A.length = p + 1 := by rw [h1]; simp; omega
        rw [rd_end hAl, Out.bind_val, if_neg (by simp)]
        have hcm : ca = m := by
          have := h1
          rw [hA] at this
          have := congrArg List.getLast? this
          simpa using this.symm
        refine ⟨A.take p, ca, cb, [], tb, by rw [hl], by omega, h1, h2, Or.inr ⟨?_, rfl, hcm⟩⟩
        cases htb : tb with
        | nil => rw [h1, hcc]; rw [htb] at h2; exact h2.symm
        | cons c tb' =>
          exfalso
          have hlB : A.length < B.length := by
            rw [htb] at h2; rw [h2]; simp; omega
          have hAB : B.take A.length = A.take A.length := by
            rw [List.take_length, hAl]
            rw [htb] at h2
            have e : B = (A.take p ++ [cb]) ++ c :: tb' := by
              conv => lhs; rw [h2]
              simp
            conv => lhs; rw [e]
            rw [List.take_left' (by simp; omega), ← hcc]
            exact h1.symm
          have := both_lt hB hc.symm hAB hlB
          omega
      | cons c ta' =>
        have h3 : A = (A.take p ++ [ca]) ++ c :: ta' := by
          conv => lhs; rw [h1]
          simp
        rw [rd_at' h3 (by simp; omega), Out.bind_val, if_pos (by omega)]
        have hp1 : p + 1 < A.length := by rw [h3]; simp; omega
        have ht : A.take (p + 1) = A.take p ++ [ca] := by
          conv => lhs; rw [h3]
          rw [List.take_left' (by simp; omega)]
        have he1 : A.take (p + 1) = B.take (p + 1) := by
          have h4 : B = (A.take p ++ [cb]) ++ tb := by
            conv => lhs; rw [h2]
            simp
          rw [ht]
          conv => rhs; rw [h4]
          rw [List.take_left' (by simp; omega), hcc]
        obtain ⟨a, x, y, s, t, e1, e2, e3, e4, e5⟩ := scanLoop_ok hA hB hc n (p + 1) (by omega) hp1 he1
        exact ⟨a, x, y, s, t, e1, by omega, e3, e4, e5⟩
    · rw [if_neg (by omega)]
      exact ⟨A.take p, ca, cb, ta, tb, by rw [hl], by omega, h1, h2, Or.inl hcc⟩

theorem scanLoop_mismatch {a ta tb : List Nat} {ca cb n : Nat} (h : ca ≠ cb) : scanLoop (a ++ ca :: ta) (a ++ cb :: tb) (n + 1) a.length = .val a.length := by
  unfold scanLoop
  rw [rd_at, Out.bind_val, rd_at, Out.bind_val, if_neg (by omega)]

theorem sim_head {b : List (Nat × List Nat)} {c : Nat} {l : List Nat} (h : assoc b c = [c]) : (sim b (c :: l)).head? = some c := by
  simp [sim, h]

theorem Core.heads (h : Core C A0 B0 vars seg A B p) (hP : Proper C A0 B0) (hm : C.min ≠ 1) {x : Nat} (hx : C.mt < x) : A.head? ≠ some x ∧ B.head? ≠ some x := by
  have key : ∀ (l : List Nat) (L : List Nat), l ≠ [] → l.headD 0 ≤ C.mt → L = sim (binds vars seg A) (l ++ [C.mt]) → L.head? ≠ some x := by
    intro l L hne hh hL
    cases l with
    | nil => simp at hne
    | cons c l =>
      simp at hh
      have e : assoc (binds vars seg A) c = [c] := by
        rcases assoc_mem (b := binds vars seg A) (t := c) with h1 | h1
        · exact h1
        · have := List.of_mem_zip h1
          have := (h.unk _ this.1).1
          omega
      rw [hL, List.cons_append, sim_head e]
      intro h'; cases h'; omega
  rcases hP.head with h1 | ⟨h1, h2⟩
  · exact absurd h1 hm
  · exact ⟨key A0 A hP.neA h1 h.hA, key B0 B hP.neB h2 h.hB⟩

/-- What `choose` does if the replacement is `v`. -/
structure Chosen (C : Cfg) (x : Nat) (v a : List Nat) (segs : List (Nat × Nat)) (s s2 : St) : Prop where
  stk : s2.stk = s.stk
  on : s2.on = s.on
  trials : s2.trials = s.trials
  A : s2.A = sub1 x v s.A
  B : s2.B = sub1 x v s.B
  seg : s2.seg = ((sub1 x v a).length, v.length) :: segs.map (cur x v a)
  p : s2.p = (sub1 x v a).length + v.length

theorem cur_top (x : Nat) (v a : List Nat) (n : Nat) : cur x v a (a.length, n) = ((sub1 x v a).length, n) := by
  unfold cur newPos
  dsimp only
  rw [List.take_length, List.take_of_length_le (by omega)]
  congr 1 <;> omega

theorem substitute_ok {x : Nat} {v a t b : List Nat} {segs : List (Nat × Nat)} {s : St} {inA : Bool} (hs : s.seg = (a.length, v.length) :: segs) (hp : s.p = a.length)
    (h : (inA = true ∧ s.A = a ++ x :: t ∧ s.B = a ++ (v ++ b)) ∨ (inA = false ∧ s.B = a ++ x :: t ∧ s.A = a ++ (v ++ b)))
    (hm : C.mt ∉ v) (hsafe : v ≠ [] ∨ (s.A.head? ≠ some x ∧ s.B.head? ≠ some x)) :
    (substitute C inA x v s = .val (.back, s) ∧ (x ∈ v ∨ passes C v = false)) ∨
    ∃ s2, substitute C inA x v s = .val (.scan, s2) ∧ x ∉ v ∧ passes C v = true ∧ Chosen C x v a segs s s2 := by
  unfold substitute
  by_cases h1 : x ∈ v
  · rw [if_pos h1]; exact Or.inl ⟨rfl, Or.inl h1⟩
  · rw [if_neg h1, if_neg (by intro h; exact hm (List.mem_of_head? h))]
    by_cases h2 : passes C v = false
    · rw [if_pos h2]; exact Or.inl ⟨rfl, Or.inr h2⟩
    · rw [if_neg h2]
      right
      have sA : v ≠ [] ∨ s.A.head? ≠ some x := by rcases hsafe with h | h; exact Or.inl h; exact Or.inr h.1
      have sB : v ≠ [] ∨ s.B.head? ≠ some x := by rcases hsafe with h | h; exact Or.inl h; exact Or.inr h.2
      have hseg : s.seg.map (cur x v a) = ((sub1 x v a).length, v.length) :: segs.map (cur x v a) := by
        rw [hs, List.map_cons, cur_top]
      have hpp : (((sub1 x v a).length : Int) + v.length - 1 + 1).toNat = (sub1 x v a).length + v.length := by omega
      rcases h with ⟨rfl, e1, e2⟩ | ⟨rfl, e1, e2⟩
      · rw [e1] at sA
        have r1 := repl_adj (seg := s.seg) sA
        rw [← e1, ← hp, hseg] at r1
        have r2 := repl_noadj (p := ((sub1 x v a).length : Int) + v.length - 1) (seg := ((sub1 x v a).length, v.length) :: segs.map (cur x v a)) sB
        rw [r1, Out.bind_val]
        rw [show (!true) = false from rfl]
        dsimp only
        rw [r2, Out.bind_val]
        exact ⟨_, rfl, h1, by simpa using h2, rfl, rfl, rfl, rfl, rfl, rfl, hpp⟩
      · rw [e1] at sB
        have r1 := repl_adj (seg := s.seg) sB
        rw [← e1, ← hp, hseg] at r1
        have r2 := repl_noadj (p := (s.p : Int)) (seg := s.seg) sA
        rw [r2, Out.bind_val]
        rw [show (!false) = true from rfl]
        dsimp only
        rw [r1, Out.bind_val]
        exact ⟨_, rfl, h1, by simpa using h2, rfl, rfl, rfl, rfl, rfl, rfl, hpp⟩

/-- A part without separator of a scheme that ends with one. -/
theorem take_no_mt {m : Nat} {O a r : List Nat} {len : Nat} (hO : ∃ O1, O = O1 ++ [m]) (ha : O = a ++ r) (hlt : a.length < O.length) (hm : m ∉ r.take len) :
    len < r.length := by
  by_contra hn
  rw [List.take_of_length_le (by omega)] at hm
  obtain ⟨O1, hO⟩ := hO
  have h1 : r ≠ [] := by rintro rfl; rw [ha] at hlt; simp at hlt
  cases r using List.reverseRecOn with
  | nil => exact h1 rfl
  | append_singleton r c =>
    rw [hO, ← List.append_assoc] at ha
    have := congrArg List.getLast? ha
    simp at this
    exact hm (by simp [this])

end MM.Unif
