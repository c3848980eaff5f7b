import Verif.Basic
import Mathlib.Data.List.Nodup
import Mathlib.Data.List.Basic
import Mathlib.Data.List.Perm.Basic
/-!
# Model of the set functions on `nmbrString`s (src/mmdata.c)

A `nmbrString` is an array of numbers ended by -1; the model is the list of the numbers before the end mark.  Property C35.
-/
namespace MM.Data

/-- `nmbrElementIn` (mmdata.c 1617–1624) on the part of the string from index `i` on: 1-based position of `x`, or 0. -/
def elementFrom (x : Int) : List Int → Nat → Nat
  | [], _ => 0
  | y :: g, i => if y = x then i + 1 else elementFrom x g (i + 1)

/-- `nmbrElementIn(start, g, x)` (mmdata.c 1617–1624), for a `start` that is not beyond the end mark. -/
def nmbrElementIn (start : Nat) (g : List Int) (x : Int) : Nat := elementFrom x (g.drop (start - 1)) (start - 1)

/-- `nmbrUnion` (mmdata.c 1639–1658): the loop over `m2`, `v` being the result so far. -/
def nmbrUnion (m1 m2 : List Int) : List Int := m2.foldl (fun v x => if nmbrElementIn 1 v x = 0 then v ++ [x] else v) m1

/-- `nmbrIntersection` (mmdata.c 1660–1678) -/
def nmbrIntersection (m1 m2 : List Int) : List Int := m2.foldl (fun v x => if nmbrElementIn 1 m1 x ≠ 0 then v ++ [x] else v) []

/-- `nmbrSetMinus` (mmdata.c 1680–1698) -/
def nmbrSetMinus (m1 m2 : List Int) : List Int := m1.foldl (fun v x => if nmbrElementIn 1 m2 x = 0 then v ++ [x] else v) []

/-- `nmbrAddElement` (mmdata.c 1626–1636) -/
def nmbrAddElement (g : List Int) (x : Int) : List Int := g ++ [x]

/-- `nmbrExtractVars` (mmdata.c 1591–1611): `isVar` is `g_MathToken[..].tokenType == var_`, `n` is `g_mathTokens`. -/
def nmbrExtractVars (isVar : Nat → Bool) (n : Nat) (m : List Int) : Out (List Int) :=
  m.foldlM (fun (v : List Int) (x : Int) => if x < 0 ∨ x > n then .bug 1328 else if isVar x.toNat = true ∧ nmbrElementIn 1 v x = 0 then .val (v ++ [x]) else .val v) []

/-! ### Properties -/

theorem elementFrom_spec (x : Int) : ∀ (g : List Int) (i : Nat), (elementFrom x g i = 0 ↔ x ∉ g) ∧
    (x ∈ g → elementFrom x g i = i + g.idxOf x + 1)
  | [], i => by simp [elementFrom]
  | y :: g, i => by
    have ih := elementFrom_spec x g (i + 1)
    unfold elementFrom
    by_cases h : y = x
    · subst h; simp
    · have h' : ¬ x = y := fun e => h e.symm
      simp only [if_neg h]
      constructor
      · rw [ih.1]; simp [h']
      · intro hm
        have hm' : x ∈ g := by simpa [h'] using hm
        rw [ih.2 hm', List.idxOf_cons_ne _ h]; omega

/-- `nmbrElementIn(1, g, x)` is the position of the first `x`, 0 if there is none. -/
theorem elementIn_zero (g : List Int) (x : Int) : nmbrElementIn 1 g x = 0 ↔ x ∉ g := by
  unfold nmbrElementIn; simpa using (elementFrom_spec x g 0).1

theorem elementIn_pos {g : List Int} {x : Int} (h : x ∈ g) : nmbrElementIn 1 g x = g.idxOf x + 1 := by
  unfold nmbrElementIn; simpa using (elementFrom_spec x g 0).2 h

/-- The members of `l` that are not in `seen`, without repetitions, in the order of their first occurrence. -/
def fresh : List Int → List Int → List Int
  | _, [] => []
  | seen, x :: l => if x ∈ seen then fresh seen l else x :: fresh (x :: seen) l

theorem fresh_congr : ∀ {l s1 s2 : List Int}, (∀ x, x ∈ s1 ↔ x ∈ s2) → fresh s1 l = fresh s2 l
  | [], _, _, _ => rfl
  | x :: l, s1, s2, h => by
    unfold fresh
    by_cases hx : x ∈ s1
    · rw [if_pos hx, if_pos ((h x).1 hx)]; exact fresh_congr h
    · rw [if_neg hx, if_neg (fun h2 => hx ((h x).2 h2)), fresh_congr (s1 := x :: s1) (s2 := x :: s2) (by intro y; simp [h y])]

theorem mem_fresh {x : Int} : ∀ {l s : List Int}, x ∈ fresh s l ↔ x ∈ l ∧ x ∉ s
  | [], s => by simp [fresh]
  | y :: l, s => by
    unfold fresh
    by_cases hy : y ∈ s
    · rw [if_pos hy, mem_fresh]
      constructor
      · rintro ⟨a, b⟩; exact ⟨by simp [a], b⟩
      · rintro ⟨a, b⟩
        refine ⟨?_, b⟩
        rcases List.mem_cons.1 a with rfl | a
        · exact absurd hy b
        · exact a
    · rw [if_neg hy, List.mem_cons, mem_fresh]
      by_cases e : x = y
      · subst e; simp [hy]
      · simp [e]

theorem fresh_nodup : ∀ {l s : List Int}, (fresh s l).Nodup
  | [], s => by simp [fresh]
  | y :: l, s => by
    unfold fresh
    by_cases hy : y ∈ s
    · rw [if_pos hy]; exact fresh_nodup
    · rw [if_neg hy, List.nodup_cons]
      exact ⟨fun h => (mem_fresh.1 h).2 (by simp), fresh_nodup⟩

theorem fresh_sublist : ∀ {l s : List Int}, (fresh s l).Sublist l
  | [], s => by simp [fresh]
  | y :: l, s => by
    unfold fresh
    by_cases hy : y ∈ s
    · rw [if_pos hy]; exact (fresh_sublist).cons _
    · rw [if_neg hy]; exact fresh_sublist.cons_cons _

theorem union_eq : ∀ (m2 m1 : List Int), nmbrUnion m1 m2 = m1 ++ fresh m1 m2
  | [], m1 => by simp [nmbrUnion, fresh]
  | x :: m2, m1 => by
    have ih := union_eq m2
    unfold nmbrUnion at ih ⊢
    rw [List.foldl_cons]
    unfold fresh
    by_cases hx : x ∈ m1
    · rw [if_neg (by rw [elementIn_zero]; simpa using hx), if_pos hx, ih]
    · rw [if_pos ((elementIn_zero _ _).2 hx), if_neg hx, ih, fresh_congr (s1 := m1 ++ [x]) (s2 := x :: m1) (by intro y; simp [or_comm])]
      simp

theorem foldl_filter (p : Int → Prop) [DecidablePred p] : ∀ (l v : List Int), l.foldl (fun v x => if p x then v ++ [x] else v) v = v ++ l.filter (fun x => decide (p x))
  | [], v => by simp
  | x :: l, v => by
    rw [List.foldl_cons, foldl_filter p l]
    by_cases h : p x <;> simp [h]

/-- **C35** Union: the first list, unchanged, followed by the members of the second list that are not in the first, each once, in the order of their first
occurrence. -/
theorem C35_union (m1 m2 : List Int) : ∃ t, nmbrUnion m1 m2 = m1 ++ t ∧ t.Nodup ∧ t.Sublist m2 ∧ (∀ x, x ∈ t ↔ x ∈ m2 ∧ x ∉ m1) ∧
    (∀ x y, x ∈ t → y ∈ t → (t.idxOf x < t.idxOf y ↔ m2.idxOf x < m2.idxOf y)) := by
  refine ⟨fresh m1 m2, union_eq m2 m1, fresh_nodup, fresh_sublist, fun x => mem_fresh, ?_⟩
  have key : ∀ (l s : List Int) (x y : Int), x ∈ fresh s l → y ∈ fresh s l → ((fresh s l).idxOf x < (fresh s l).idxOf y ↔ l.idxOf x < l.idxOf y) := by
    intro l
    induction l with
    | nil => intro s x y hx; simp [fresh] at hx
    | cons z l ih =>
      intro s x y hx hy
      by_cases hz : z ∈ s
      · have e : fresh s (z :: l) = fresh s l := by rw [fresh, if_pos hz]
        rw [e] at hx hy ⊢
        have nx : z ≠ x := by rintro rfl; exact (mem_fresh.1 hx).2 hz
        have ny : z ≠ y := by rintro rfl; exact (mem_fresh.1 hy).2 hz
        rw [ih s x y hx hy, List.idxOf_cons_ne _ nx, List.idxOf_cons_ne _ ny]; omega
      · have e : fresh s (z :: l) = z :: fresh (z :: s) l := by rw [fresh, if_neg hz]
        rw [e] at hx hy ⊢
        by_cases nx : z = x
        · subst nx
          by_cases ny : z = y
          · subst ny; simp
          · rw [List.idxOf_cons_self, List.idxOf_cons_self, List.idxOf_cons_ne _ ny, List.idxOf_cons_ne _ ny]; omega
        · by_cases ny : z = y
          · subst ny; rw [List.idxOf_cons_self, List.idxOf_cons_self]; omega
          · have hx' : x ∈ fresh (z :: s) l := by
              rcases List.mem_cons.1 hx with h | h
              · exact absurd h.symm nx
              · exact h
            have hy' : y ∈ fresh (z :: s) l := by
              rcases List.mem_cons.1 hy with h | h
              · exact absurd h.symm ny
              · exact h
            rw [List.idxOf_cons_ne _ nx, List.idxOf_cons_ne _ nx, List.idxOf_cons_ne _ ny, List.idxOf_cons_ne _ ny]
            have := ih (z :: s) x y hx' hy'
            omega
  exact key m2 m1

/-- **C35** Intersection: the entries of the second list that occur in the first, in place and with their repetitions. -/
theorem C35_intersection (m1 m2 : List Int) : nmbrIntersection m1 m2 = m2.filter (fun x => decide (x ∈ m1)) := by
  unfold nmbrIntersection
  rw [foldl_filter (fun x => nmbrElementIn 1 m1 x ≠ 0)]
  simp only [List.nil_append]
  congr 1
  funext x
  have := elementIn_zero m1 x
  by_cases h : x ∈ m1
  · simp [h, this]
  · simp [h, this]

/-- **C35** Difference: the entries of the first list that do not occur in the second, in place and with their repetitions. -/
theorem C35_setminus (m1 m2 : List Int) : nmbrSetMinus m1 m2 = m1.filter (fun x => decide (x ∉ m2)) := by
  unfold nmbrSetMinus
  rw [foldl_filter (fun x => nmbrElementIn 1 m2 x = 0)]
  simp only [List.nil_append]
  congr 1
  funext x
  simp [elementIn_zero m2 x]

/-- The variables among the tokens of `m`, each once, in the order of their first occurrence; no internal error as long as the tokens are valid. -/
theorem extractVars_eq (isVar : Nat → Bool) (n : Nat) (m : List Int) (h : ∀ x ∈ m, 0 ≤ x ∧ x ≤ n) :
    nmbrExtractVars isVar n m = .val (fresh [] (m.filter fun x => isVar x.toNat)) := by
  have key : ∀ (m v : List Int), (∀ x ∈ m, 0 ≤ x ∧ x ≤ n) →
      m.foldlM (fun (v : List Int) (x : Int) => if x < 0 ∨ x > n then Out.bug 1328 else if isVar x.toNat = true ∧ nmbrElementIn 1 v x = 0 then .val (v ++ [x]) else .val v) v =
        Out.val (v ++ fresh v (m.filter fun x => isVar x.toNat)) := by
    intro m
    induction m with
    | nil => intro v _; simp [fresh]
    | cons x m ih =>
      intro v h
      have hx := h x (by simp)
      have hm : ∀ y ∈ m, 0 ≤ y ∧ y ≤ n := fun y hy => h y (by simp [hy])
      rw [List.foldlM_cons, if_neg (by omega)]
      by_cases hv : isVar x.toNat = true
      · rw [List.filter_cons_of_pos (p := fun (x : Int) => isVar x.toNat) hv]
        unfold fresh
        by_cases hin : x ∈ v
        · rw [if_neg (by rw [elementIn_zero]; simp [hin]), Out.bind_val, ih v hm, if_pos hin]
        · rw [if_pos ⟨hv, (elementIn_zero _ _).2 hin⟩, Out.bind_val, ih _ hm, if_neg hin, fresh_congr (s1 := v ++ [x]) (s2 := x :: v) (by intro y; simp [or_comm])]
          simp
      · rw [List.filter_cons_of_neg (p := fun (x : Int) => isVar x.toNat) hv, if_neg (by simp [hv]), Out.bind_val, ih v hm]
  have := key m [] h
  rw [List.nil_append] at this
  exact this

/-- **C35** The variables among valid tokens: each once, in the order of the list, without internal error. -/
theorem C35_extractVars (isVar : Nat → Bool) (n : Nat) (m : List Int) (h : ∀ x ∈ m, 0 ≤ x ∧ x ≤ n) :
    ∃ t, nmbrExtractVars isVar n m = .val t ∧ t.Nodup ∧ t.Sublist m ∧ ∀ x, x ∈ t ↔ x ∈ m ∧ isVar x.toNat = true := by
  refine ⟨_, extractVars_eq isVar n m h, fresh_nodup, fresh_sublist.trans List.filter_sublist, ?_⟩
  intro x
  rw [mem_fresh, List.mem_filter]
  simp

example : nmbrUnion [3, 1, 3] [2, 1, 2, 5] = [3, 1, 3, 2, 5] ∧ nmbrIntersection [3, 1] [1, 2, 1, 3] = [1, 1, 3] ∧ nmbrSetMinus [3, 1, 3, 2] [1, 5] = [3, 3, 2] := by
  decide
example : nmbrExtractVars (fun x => x % 2 == 1) 9 [3, 2, 5, 3, 8] = .val [3, 5] := by decide

end MM.Data
