import Verif.Data.EncProps
/-!
# The re-ordering of the labels in `compressProof`
-/
namespace MM.Data
open MM.Veri MM.Pars MM.Proof

/-- Worths while the group `i` is being placed: the labels still to be placed have their size, the others -1. -/
def GInv (i : Nat) (labs : List ELab) : Prop :=
  ∀ x ∈ labs, 1 ≤ x.size ∧ (x.len = i ∧ x.used = false → x.worth = x.size) ∧ (¬ (x.len = i ∧ x.used = false) → x.worth = -1)

/-- How a label may change while the group `i` is placed on lines with at most `lim` characters. -/
structure Adv (i : Nat) (lim : Int) (x y : ELab) : Prop where
  stmt : y.stmt = x.stmt
  len : y.len = x.len
  size : y.size = x.size
  keep : x.used = true → y.used = true
  other : x.len ≠ i → y.used = x.used
  fits : y.used = true → x.used = true ∨ (x.size : Int) ≤ lim

theorem Adv.refl (i : Nat) (lim : Int) (x : ELab) : Adv i lim x x := ⟨rfl, rfl, rfl, id, fun _ => rfl, Or.inl⟩

theorem Adv.trans {i : Nat} {lim : Int} {x y z : ELab} (h1 : Adv i lim x y) (h2 : Adv i lim y z) : Adv i lim x z := by
  refine ⟨h2.stmt.trans h1.stmt, h2.len.trans h1.len, h2.size.trans h1.size, fun h => h2.keep (h1.keep h), ?_, ?_⟩
  · intro h; rw [h2.other (by rw [h1.len]; exact h), h1.other h]
  · intro h
    rcases h2.fits h with h3 | h3
    · exact h1.fits h3
    · rw [h1.size] at h3; exact Or.inr h3

theorem Adv.mono {i : Nat} {lim lim' : Int} {x y : ELab} (h : Adv i lim x y) (hl : lim ≤ lim') : Adv i lim' x y :=
  ⟨h.stmt, h.len, h.size, h.keep, h.other, fun h1 => (h.fits h1).imp id (fun h2 => le_trans h2 hl)⟩

theorem forall₂_mem_right {α β : Type} {R : α → β → Prop} {a : List α} {b : List β} (h : List.Forall₂ R a b) {y : β} (hy : y ∈ b) : ∃ x ∈ a, R x y := by
  induction h with
  | nil => cases hy
  | cons h1 _ ih =>
    rcases List.mem_cons.1 hy with rfl | hy
    · exact ⟨_, by simp, h1⟩
    · obtain ⟨x, hx, hr⟩ := ih hy
      exact ⟨x, by simp [hx], hr⟩

theorem forall₂_trans {α : Type} {R : α → α → Prop} (hR : ∀ x y z, R x y → R y z → R x z) : ∀ {a b c : List α}, List.Forall₂ R a b → List.Forall₂ R b c → List.Forall₂ R a c
  | _, _, _, .nil, .nil => .nil
  | _, _, _, .cons h1 t1, .cons h2 t2 => .cons (hR _ _ _ h1 h2) (forall₂_trans hR t1 t2)

/-- Label and group of an entry. -/
def pr (x : ELab) : Int × Nat := (x.stmt, x.len)

/-- Still to be placed. -/
def todo (i : Nat) (x : ELab) : Bool := x.len == i && !x.used

theorem takeSel_spec (i : Nat) {lim : Int} : ∀ {labs : List ELab} {sel : List Bool}, GInv i labs → sel.length = labs.length →
    (∀ (k : Nat) (x : ELab), labs[k]? = some x → sel[k]? = some true → 0 < x.worth ∧ (x.size : Int) ≤ lim) →
    ∃ r, takeSel i labs sel = .val r ∧ List.Forall₂ (Adv i lim) labs r.1 ∧ GInv i r.1 ∧ r.2.2.2 = r.1.countP (todo i) ∧
      ((labs.filter (·.used)).map pr ++ r.2.1.map (·, i)).Perm ((r.1.filter (·.used)).map pr) ∧
      r.2.2.1 = selSize (labs.map fun x => (x.size, x.worth)) sel ∧ r.2.1.length + r.2.2.2 = labs.countP (todo i) ∧
      ((∀ b ∈ sel, b = false) → r.2.1 = []) ∧ (r.2.1 = [] → ∀ b ∈ sel, b = false)
  | [], sel, _, hl, _ => by
    have : sel = [] := by simpa using hl
    subst this
    refine ⟨([], [], 0, 0), rfl, .nil, ?_, rfl, ?_, rfl, rfl, ?_, ?_⟩
    · intro x hx; cases hx
    · simp
    · intro _; rfl
    · intro _ b hb; cases hb
  | x :: labs, [], _, hl, _ => by simp at hl
  | x :: labs, b :: sel, hG, hl, hs => by
    have hG' : GInv i labs := fun y hy => hG y (List.mem_cons_of_mem _ hy)
    obtain ⟨r, h1, h2, h3, h4, h5, h6, h7, h8, h9⟩ := takeSel_spec i hG' (by simpa using hl) (fun k y hy hb => hs (k + 1) y (by simpa using hy) (by simpa using hb))
    obtain ⟨g1, g2, g3⟩ := hG x (by simp)
    unfold takeSel
    cases b with
    | true =>
      obtain ⟨hw, hlim⟩ := hs 0 x rfl rfl
      have ht : x.len = i ∧ x.used = false := by
        by_contra hc
        have := g3 hc
        omega
      have hp : todo i x = true := by simp [todo, ht.1, ht.2]
      rw [if_pos rfl, if_neg (by simp [ht.1]), if_neg (by omega), h1, Out.bind_val]
      refine ⟨_, rfl, .cons ⟨rfl, rfl, rfl, fun _ => rfl, fun h => absurd ht.1 h, fun _ => Or.inr hlim⟩ h2, ?_, ?_, ?_, ?_, ?_, ?_, ?_⟩
      · intro y hy
        rcases List.mem_cons.1 hy with rfl | hy
        · exact ⟨g1, by simp, fun _ => rfl⟩
        · exact h3 y hy
      · rw [List.countP_cons_of_neg (by simp [todo])]; exact h4
      · rw [List.filter_cons_of_neg (by simp [ht.2]), List.filter_cons_of_pos rfl]
        simp only [List.map_cons]
        have : pr { x with used := true, worth := -1 } = (x.stmt, i) := by simp [pr, ht.1]
        rw [this]
        exact List.perm_middle.trans (h5.cons _)
      · simp [selSize, h6]
      · rw [List.countP_cons_of_pos hp]; simp; omega
      · intro h; exact absurd (h true (by simp)) (by simp)
      · intro h; simp at h
    | false =>
      rw [if_neg (by simp)]
      by_cases ht : x.len = i ∧ x.used = false
      · have hp : todo i x = true := by simp [todo, ht.1, ht.2]
        rw [if_pos ht, if_neg (by simp [g2 ht]), h1, Out.bind_val]
        refine ⟨_, rfl, .cons (Adv.refl _ _ _) h2, ?_, ?_, ?_, ?_, ?_, ?_, ?_⟩
        · intro y hy
          rcases List.mem_cons.1 hy with rfl | hy
          · exact ⟨g1, g2, g3⟩
          · exact h3 y hy
        · rw [List.countP_cons_of_pos hp]; simp only; omega
        · rw [List.filter_cons_of_neg (by simp [ht.2]), List.filter_cons_of_neg (by simp [ht.2])]
          exact h5
        · simp [selSize, h6]
        · rw [List.countP_cons_of_pos hp]; simp only; omega
        · intro h; exact h8 (fun b hb => h b (by simp [hb]))
        · intro h b hb
          rcases List.mem_cons.1 hb with rfl | hb
          · rfl
          · exact h9 h b hb
      · have hp : ¬ todo i x = true := by
          unfold todo
          rw [Bool.and_eq_true]
          simpa using ht
        rw [if_neg ht, h1, Out.bind_val]
        refine ⟨_, rfl, .cons (Adv.refl _ _ _) h2, ?_, ?_, ?_, ?_, ?_, ?_, ?_⟩
        · intro y hy
          rcases List.mem_cons.1 hy with rfl | hy
          · exact ⟨g1, g2, g3⟩
          · exact h3 y hy
        · rw [List.countP_cons_of_neg hp]; exact h4
        · by_cases hu : x.used = true
          · rw [List.filter_cons_of_pos (by simpa using hu), List.filter_cons_of_pos (by simpa using hu)]
            simp only [List.map_cons, List.cons_append]
            exact h5.cons _
          · rw [List.filter_cons_of_neg (by simpa using hu), List.filter_cons_of_neg (by simpa using hu)]
            exact h5
        · simp [selSize, h6]
        · rw [List.countP_cons_of_neg hp]; exact h7
        · intro h; exact h8 (fun b hb => h b (by simp [hb]))
        · intro h b hb
          rcases List.mem_cons.1 hb with rfl | hb
          · rfl
          · exact h9 h b hb

/-- The output so far: the used labels, in the order of the groups. -/
def OutOk (s : FState) : Prop :=
  ∃ ls : List (Int × Nat), s.out = ls.map Prod.fst ∧ ls.Perm ((s.labs.filter (·.used)).map pr) ∧ ls.Pairwise (fun a b => a.2 ≤ b.2)

theorem selSize_false : ∀ {items : List (Nat × Int)} {sel : List Bool}, (∀ b ∈ sel, b = false) → selSize items sel = 0 ∧ selWorth items sel = 0
  | [], _, _ => by simp [selSize, selWorth]
  | _ :: _, [], _ => by simp [selSize, selWorth]
  | it :: items, b :: sel, h => by
    have hb := h b (by simp)
    have := selSize_false (items := items) (sel := sel) (fun c hc => h c (by simp [hc]))
    subst hb
    simp [selSize, selWorth, this]

/-- The selection of the one item `k`. -/
theorem selOne : ∀ {items : List (Nat × Int)} {k : Nat} {it : Nat × Int}, items[k]? = some it →
    ∃ sel : List Bool, sel.length = items.length ∧ selSize items sel = it.1 ∧ selWorth items sel = it.2
  | [], _, _, h => by simp at h
  | x :: items, 0, it, h => by
    simp at h; subst h
    have := selSize_false (items := items) (sel := List.replicate items.length false) (by simp)
    exact ⟨true :: List.replicate items.length false, by simp, by simp [selSize, this], by simp [selWorth, this]⟩
  | x :: items, k + 1, it, h => by
    obtain ⟨sel, h1, h2, h3⟩ := selOne (items := items) (k := k) (by simpa using h)
    exact ⟨false :: sel, by simp [h1], by simp [selSize, h2], by simp [selWorth, h3]⟩

theorem todo_mem {i : Nat} {labs : List ELab} (h : 0 < labs.countP (todo i)) : ∃ x ∈ labs, x.len = i ∧ x.used = false := by
  obtain ⟨x, hx, ht⟩ := List.countP_pos_iff.1 h
  simp [todo] at ht
  exact ⟨x, hx, ht⟩

theorem fillLines_spec {room : Int} {i : Nat} : ∀ {n : Nat} {s : FState}, GInv i s.labs → 0 ≤ room - s.offset + 1 → OutOk s →
    (∀ x ∈ s.labs, x.used = true → x.len ≤ i) →
    (fillLines room i n (s.labs.countP (todo i)) s = .fuel ∧ ¬ ((∀ x ∈ s.labs, (x.size : Int) ≤ room + 1) ∧
      (s.labs.countP (todo i) = 0 ∨ s.labs.countP (todo i) + (if s.offset = 0 then 0 else 1) ≤ n))) ∨
    ∃ s', fillLines room i n (s.labs.countP (todo i)) s = .val s' ∧ List.Forall₂ (Adv i (room + 1)) s.labs s'.labs ∧ OutOk s' ∧
      (∀ x ∈ s'.labs, x.len = i → x.used = true) ∧ 0 ≤ room - s'.offset + 1 := by
  intro n
  induction n with
  | zero =>
    intro s hG hoff hO hL
    cases hu : s.labs.countP (todo i) with
    | zero =>
      right
      refine ⟨s, rfl, List.forall₂_same.2 fun x _ => Adv.refl _ _ _, hO, ?_, hoff⟩
      intro x hx hl
      by_contra hc
      have := List.countP_eq_zero.1 hu x hx
      simp [todo, hl, hc] at this
    | succ u => exact Or.inl ⟨rfl, by omega⟩
  | succ n ih =>
    intro s hG hoff hO hL
    cases hu : s.labs.countP (todo i) with
    | zero =>
      right
      refine ⟨s, rfl, List.forall₂_same.2 fun x _ => Adv.refl _ _ _, hO, ?_, hoff⟩
      intro x hx hl
      by_contra hc
      have := List.countP_eq_zero.1 hu x hx
      simp [todo, hl, hc] at this
    | succ u =>
      unfold fillLines
      obtain ⟨lim, hlim⟩ : ∃ lim : Nat, (lim : Int) = room - s.offset + 1 := ⟨(room - s.offset + 1).toNat, by omega⟩
      obtain ⟨best, sel, k1, k2, k3, k4, k5⟩ := C30_knapsack_optimal (s.labs.map fun x => (x.size, x.worth)) (by
        intro it hit
        obtain ⟨x, hx, rfl⟩ := List.mem_map.1 hit
        exact (hG x hx).1) lim
      have hb0 : 0 ≤ best := by
        have := selSize_false (items := s.labs.map fun x => (x.size, x.worth)) (sel := List.replicate s.labs.length false) (by simp)
        have h2 := k5 (List.replicate s.labs.length false) (by simp) (by rw [this.1]; omega)
        rw [this.2] at h2; exact h2
      have hsel : ∀ (k : Nat) (x : ELab), s.labs[k]? = some x → sel[k]? = some true → 0 < x.worth ∧ (x.size : Int) ≤ lim := by
        intro k x hx hk
        have hk' := k1
        unfold knapsack01 at hk'
        rw [if_neg (by omega)] at hk'
        simp only [Int.toNat_natCast, Out.val.injEq, Prod.mk.injEq] at hk'
        rw [← hk'.2] at hk
        have := ksPick_worth lim (s.labs.map fun x => (x.size, x.worth)) lim (le_refl _) k (x.size, x.worth) (by rw [List.getElem?_map, hx]; rfl) hk
        refine ⟨this.1, ?_⟩
        have := this.2
        simp only at this
        omega
      obtain ⟨r, h1, h2, h3, h4, h5, h6, h7, h8, h9⟩ := takeSel_spec i hG (by simpa using k2) hsel
      rw [← hlim, k1, Out.bind_val, if_neg (by omega), h1, Out.bind_val]
      obtain ⟨ls, o1, o2, o3⟩ := hO
      have hlen2 : r.1.length = s.labs.length := h2.length_eq.symm
      have hperm : (ls ++ r.2.1.map (·, i)).Perm ((r.1.filter (·.used)).map pr) := (List.Perm.append_right _ o2).trans h5
      have hsz : s.out.length + r.2.1.length ≤ s.labs.length := by
        have := hperm.length_eq
        simp only [List.length_append, List.length_map] at this
        rw [o1, List.length_map]
        have h10 := List.length_filter_le (fun x : ELab => x.used) r.1
        omega
      rw [if_neg (by omega), h4]
      have hs0 : 0 ≤ r.2.2.1 ∧ (r.2.2.1 : Int) ≤ lim := by
        rw [h6]; omega
      generalize hs' : ({ labs := r.1, out := s.out ++ r.2.1, offset := if r.1.countP (todo i) > 0 then 0 else s.offset + r.2.2.1 } : FState) = s2
      have hO2 : OutOk s2 := by
        rw [← hs']
        refine ⟨ls ++ r.2.1.map (·, i), by simp [o1, Function.comp_def], hperm, ?_⟩
        rw [List.pairwise_append]
        refine ⟨o3, ?_, ?_⟩
        · rw [List.pairwise_map]
          exact List.pairwise_of_forall (fun _ _ => le_refl _)
        · intro a ha b hb
          obtain ⟨y, _, rfl⟩ := List.mem_map.1 hb
          have ha' := o2.mem_iff.1 ha
          obtain ⟨x, hx, rfl⟩ := List.mem_map.1 ha'
          rw [List.mem_filter] at hx
          exact hL x hx.1 hx.2
      have hL2 : ∀ x ∈ s2.labs, x.used = true → x.len ≤ i := by
        rw [← hs']
        intro y hy hu
        obtain ⟨x, hx, h⟩ := forall₂_mem_right h2 hy
        by_cases hi : x.len = i
        · rw [h.len, hi]
        · rw [h.len]
          exact hL x hx (by rw [← h.other hi]; exact hu)
      have hoff2 : 0 ≤ room - s2.offset + 1 := by
        rw [← hs']
        dsimp only
        split
        · omega
        · push_cast; omega
      have hlabs2 : s2.labs = r.1 := by rw [← hs']
      have hadv : List.Forall₂ (Adv i (room + 1)) s.labs s2.labs := by
        rw [hlabs2]; exact h2.imp fun _ _ h => h.mono (by omega)
      have hG2 : GInv i s2.labs := by rw [hlabs2]; exact h3
      rw [← hlabs2]
      rcases ih hG2 hoff2 hO2 hL2 with ⟨f1, f2⟩ | ⟨s', f1, f2, f3, f4, f5⟩
      · left
        refine ⟨f1, ?_⟩
        rintro ⟨q1, q2⟩
        apply f2
        constructor
        · intro y hy
          obtain ⟨x, hx, h⟩ := forall₂_mem_right hadv hy
          rw [h.size]; exact q1 x hx
        · rw [hlabs2]
          have ho : (if s2.offset = 0 then 0 else 1) = 0 ∨ r.1.countP (todo i) = 0 := by
            by_cases hc : r.1.countP (todo i) > 0
            · left
              rw [← hs']
              dsimp only
              rw [if_pos hc, if_pos rfl]
            · right; omega
          rcases ho with ho | ho
          swap
          · exact Or.inl ho
          right
          rw [ho]
          have q2 : s.labs.countP (todo i) + (if s.offset = 0 then 0 else 1) ≤ n + 1 := by
            rcases q2 with q2 | q2
            · omega
            · rw [hu]; exact q2
          by_cases hso : s.offset = 0
          · -- something was placed
            have hne : r.2.1 ≠ [] := by
              intro he
              have hall := h9 he
              have hz := selSize_false (items := s.labs.map fun x => (x.size, x.worth)) hall
              obtain ⟨x, hx, hxl⟩ := todo_mem (i := i) (labs := s.labs) (by omega)
              obtain ⟨k, hk⟩ := List.getElem?_of_mem hx
              obtain ⟨sel1, t1, t2, t3⟩ := selOne (items := s.labs.map fun x => (x.size, x.worth)) (k := k) (it := (x.size, x.worth)) (by rw [List.getElem?_map, hk]; rfl)
              have hq := q1 x hx
              have t4 := k5 sel1 t1 (by rw [t2]; simp only; omega)
              rw [t3, ← k4, hz.2] at t4
              obtain ⟨g1, g2, _⟩ := hG x hx
              have := g2 hxl
              simp only at t4
              omega
            have hpos := List.length_pos_iff.2 hne
            rw [if_pos hso] at q2
            omega
          · rw [if_neg hso] at q2
            omega
      · exact Or.inr ⟨s', f1, forall₂_trans (R := Adv i (room + 1)) (fun _ _ _ h1 h2 => h1.trans h2) hadv f2, f3, f4, f5⟩

/-- Nothing but `worth` differs. -/
structure SameLab (x y : ELab) : Prop where
  stmt : y.stmt = x.stmt
  len : y.len = x.len
  size : y.size = x.size
  used : y.used = x.used

theorem initWorth_spec (i : Nat) : ∀ {labs : List ELab}, (∀ x ∈ labs, 1 ≤ x.size ∧ (x.used = true ↔ x.len < i)) →
    ∃ labs', initWorth i labs = .val labs' ∧ List.Forall₂ SameLab labs labs' ∧ GInv i labs' ∧ labs'.countP (fun x => x.len == i) = labs'.countP (todo i)
  | [], _ => ⟨[], rfl, .nil, (by intro x hx; cases hx), rfl⟩
  | x :: labs, h => by
    obtain ⟨l, h1, h2, h3, h4⟩ := initWorth_spec i (labs := labs) (fun y hy => h y (by simp [hy]))
    obtain ⟨hs, hu⟩ := h x (by simp)
    unfold initWorth
    by_cases hl : x.len = i
    · have hu' : x.used = false := by
        by_contra hc
        have := hu.1 (by simpa using hc)
        omega
      rw [if_pos hl, if_neg (by simp [hu']), h1, Out.bind_val]
      refine ⟨_, rfl, .cons ⟨rfl, rfl, rfl, rfl⟩ h2, ?_, ?_⟩
      · intro y hy
        rcases List.mem_cons.1 hy with rfl | hy
        · exact ⟨hs, fun _ => rfl, fun hc => absurd ⟨hl, hu'⟩ hc⟩
        · exact h3 y hy
      · rw [List.countP_cons_of_pos (by simp [hl]), List.countP_cons_of_pos (by simp [todo, hl, hu']), h4]
    · rw [if_neg hl, h1, Out.bind_val]
      refine ⟨_, rfl, .cons ⟨rfl, rfl, rfl, rfl⟩ h2, ?_, ?_⟩
      · intro y hy
        rcases List.mem_cons.1 hy with rfl | hy
        · exact ⟨hs, fun hc => absurd hc.1 hl, fun _ => rfl⟩
        · exact h3 y hy
      · rw [List.countP_cons_of_neg (by simp [hl]), List.countP_cons_of_neg (by simp [todo, hl]), h4]

/-- How a label may change while several groups are placed. -/
structure Adv' (lim : Int) (x y : ELab) : Prop where
  stmt : y.stmt = x.stmt
  len : y.len = x.len
  size : y.size = x.size
  fits : y.used = true → x.used = true ∨ (x.size : Int) ≤ lim

theorem Adv'.trans {lim : Int} {x y z : ELab} (h1 : Adv' lim x y) (h2 : Adv' lim y z) : Adv' lim x z := by
  refine ⟨h2.stmt.trans h1.stmt, h2.len.trans h1.len, h2.size.trans h1.size, ?_⟩
  intro h
  rcases h2.fits h with h3 | h3
  · exact h1.fits h3
  · rw [h1.size] at h3; exact Or.inr h3

theorem sameLab_used : ∀ {a b : List ELab}, List.Forall₂ SameLab a b → (b.filter (·.used)).map pr = (a.filter (·.used)).map pr
  | _, _, .nil => rfl
  | _, _, .cons (a := x) (b := y) h t => by
    have ih := sameLab_used t
    have hp : pr y = pr x := by simp [pr, h.stmt, h.len]
    by_cases hu : x.used = true
    · have hy : y.used = true := by rw [h.used]; exact hu
      simp [List.filter_cons, hu, hy, ih, hp]
    · have hy : ¬ y.used = true := by rw [h.used]; exact hu
      simp [List.filter_cons, hu, hy, ih]

theorem groups_spec {room : Int} {fuel : Nat} : ∀ {n i : Nat} {s : FState}, (∀ x ∈ s.labs, 1 ≤ x.size ∧ (x.used = true ↔ x.len < i)) → 0 ≤ room - s.offset + 1 → OutOk s →
    (groups room fuel i n s = .fuel ∧ ¬ ((∀ x ∈ s.labs, (x.size : Int) ≤ room + 1) ∧ s.labs.length < fuel)) ∨
    ∃ s', groups room fuel i n s = .val s' ∧ List.Forall₂ (Adv' (room + 1)) s.labs s'.labs ∧ OutOk s' ∧ (∀ x ∈ s'.labs, x.used = true ↔ x.len < i + n) := by
  intro n
  induction n with
  | zero =>
    intro i s h1 h2 h3
    exact Or.inr ⟨s, rfl, List.forall₂_same.2 fun x _ => ⟨rfl, rfl, rfl, Or.inl⟩, h3, fun x hx => (h1 x hx).2⟩
  | succ n ih =>
    intro i s h1 h2 h3
    obtain ⟨labs, i1, i2, i3, i4⟩ := initWorth_spec i h1
    unfold groups
    rw [i1, Out.bind_val, i4]
    have hO : OutOk { s with labs := labs } := by
      obtain ⟨ls, o1, o2, o3⟩ := h3
      exact ⟨ls, o1, by rw [sameLab_used i2]; exact o2, o3⟩
    have hL : ∀ x ∈ labs, x.used = true → x.len ≤ i := by
      intro y hy hu
      obtain ⟨x, hx, h⟩ := forall₂_mem_right i2 hy
      rw [h.used] at hu
      rw [h.len]
      exact le_of_lt ((h1 x hx).2.1 hu)
    have hlen : labs.length = s.labs.length := i2.length_eq.symm
    rcases fillLines_spec (room := room) (i := i) (n := fuel) (s := { s with labs := labs }) i3 h2 hO hL with ⟨f1, f2⟩ | ⟨s', f1, f2, f3, f4, f5⟩
    · left
      rw [f1]
      refine ⟨rfl, ?_⟩
      rintro ⟨q1, q2⟩
      apply f2
      constructor
      · intro y hy
        obtain ⟨x, hx, h⟩ := forall₂_mem_right i2 hy
        rw [h.size]; exact q1 x hx
      · right
        have := List.countP_le_length (p := todo i) (l := labs)
        simp only
        split <;> omega
    · rw [f1, Out.bind_val]
      have hadv : List.Forall₂ (Adv' (room + 1)) s.labs s'.labs := by
        have e1 : List.Forall₂ (Adv' (room + 1)) s.labs labs := i2.imp fun x y h => ⟨h.stmt, h.len, h.size, fun hu => Or.inl (by rw [← h.used]; exact hu)⟩
        have e2 : List.Forall₂ (Adv' (room + 1)) labs s'.labs := f2.imp fun x y h => ⟨h.stmt, h.len, h.size, h.fits⟩
        exact forall₂_trans (R := Adv' (room + 1)) (fun _ _ _ a b => a.trans b) e1 e2
      have h1' : ∀ x ∈ s'.labs, 1 ≤ x.size ∧ (x.used = true ↔ x.len < i + 1) := by
        intro z hz
        obtain ⟨y, hy, h⟩ := forall₂_mem_right f2 hz
        obtain ⟨x, hx, h'⟩ := forall₂_mem_right i2 hy
        obtain ⟨a1, a2⟩ := h1 x hx
        refine ⟨by rw [h.size, h'.size]; exact a1, ?_⟩
        by_cases hi : z.len = i
        · rw [f4 z hz hi]; simp; omega
        · have hi' : y.len ≠ i := by rw [← h.len]; exact hi
          rw [h.other hi', h'.used, a2, h.len, h'.len]
          have : x.len ≠ i := by rw [← h'.len]; exact hi'
          omega
      rcases ih h1' f5 f3 with ⟨g1, g2⟩ | ⟨s2, g1, g2, g3, g4⟩
      · left
        refine ⟨g1, ?_⟩
        rintro ⟨q1, q2⟩
        apply g2
        constructor
        · intro y hy
          obtain ⟨x, hx, h⟩ := forall₂_mem_right hadv hy
          rw [h.size]; exact q1 x hx
        · rw [← hadv.length_eq]; exact q2
      · right
        refine ⟨s2, g1, forall₂_trans (R := Adv' (room + 1)) (fun _ _ _ a b => a.trans b) hadv g2, g3, ?_⟩
        intro x hx
        rw [g4 x hx]; omega

theorem le_foldl_max : ∀ {l : List Nat} {m x : Nat}, (x ∈ l ∨ x ≤ m) → x ≤ l.foldl max m
  | [], m, x, h => by simpa using h
  | y :: l, m, x, h => by
    rw [List.foldl_cons]
    apply le_foldl_max
    rcases h with h | h
    · rcases List.mem_cons.1 h with rfl | h
      · right; exact le_max_right _ _
      · exact Or.inl h
    · right; exact le_trans h (le_max_left _ _)

theorem mkLabs_stmt (E : Env) (k : Nat) (expl : List Int) (rc : List Nat) : (mkLabs E k expl rc).map ELab.stmt = expl := by
  unfold mkLabs
  rw [List.map_map]
  have : (ELab.stmt ∘ fun x : Int × Nat => ({ stmt := x.1, len := numChrs (k + (visitOrder rc).idxOf x.2), size := (E.lab x.1.toNat).length + 1 } : ELab)) = Prod.fst := by
    funext x; rfl
  rw [this, List.zipIdx_map_fst]

/-- What the re-ordering does: it does not end (a label does not fit on a line, or the bound on the iterations is too small), or gives the labels in an order in
which the groups follow each other. -/
theorem reorder_spec {E : Env} {p : Nat} {proof expl : List Int} {room : Int} {fuel : Nat} {rc : List Nat} (hrc : refCounts p proof expl = .val rc) (hroom : 1 ≤ room) :
    (reorder E p proof expl room fuel = .fuel ∧ ¬ ((∀ x ∈ expl, ((E.lab x.toNat).length : Int) ≤ room) ∧ expl.length < fuel)) ∨
    ∃ ls : List (Int × Nat), reorder E p proof expl room fuel = .val (ls.map Prod.fst) ∧ ls.Perm ((mkLabs E (E.stmt p).reqHyp.length expl rc).map pr) ∧
      ls.Pairwise (fun a b => a.2 ≤ b.2) ∧ (∀ x ∈ expl, ((E.lab x.toNat).length : Int) ≤ room) := by
  unfold reorder
  rw [hrc, Out.bind_val]
  dsimp only
  generalize hl : mkLabs E (E.stmt p).reqHyp.length expl rc = labs
  have hst : labs.map ELab.stmt = expl := by rw [← hl]; exact mkLabs_stmt _ _ _ _
  have hlen : labs.length = expl.length := by rw [← hst]; simp
  have hlab : ∀ x ∈ labs, x.size = (E.lab x.stmt.toNat).length + 1 ∧ 1 ≤ x.len ∧ x.used = false := by
    rw [← hl]
    intro x hx
    unfold mkLabs at hx
    obtain ⟨y, _, rfl⟩ := List.mem_map.1 hx
    exact ⟨rfl, by unfold numChrs; dsimp only; omega, rfl⟩
  have hfit : (∀ x ∈ labs, (x.size : Int) ≤ room + 1) ↔ ∀ x ∈ expl, ((E.lab x.toNat).length : Int) ≤ room := by
    constructor
    · intro h x hx
      rw [← hst] at hx
      obtain ⟨y, hy, rfl⟩ := List.mem_map.1 hx
      have := h y hy
      rw [(hlab y hy).1] at this
      push_cast at this; omega
    · intro h x hx
      have := h x.stmt (by rw [← hst]; exact List.mem_map_of_mem hx)
      rw [(hlab x hx).1]
      push_cast; omega
  have hO : OutOk { labs := labs } := by
    refine ⟨[], rfl, ?_, .nil⟩
    have : labs.filter (·.used) = [] := by
      rw [List.filter_eq_nil_iff]
      intro x hx; simp [(hlab x hx).2.2]
    rw [this]; simp
  rcases groups_spec (room := room) (fuel := fuel) (n := (labs.map ELab.len).foldl max 0) (i := 1) (s := { labs := labs })
    (by
      intro x hx
      obtain ⟨a, b, c⟩ := hlab x hx
      refine ⟨by omega, ?_⟩
      rw [c]; simp; omega) (by simp; omega) hO with ⟨g1, g2⟩ | ⟨s', g1, g2, g3, g4⟩
  · left
    rw [g1]
    refine ⟨rfl, ?_⟩
    rintro ⟨q1, q2⟩
    exact g2 ⟨hfit.2 q1, by simpa [hlen] using q2⟩
  · right
    have hall : ∀ x ∈ s'.labs, x.used = true := by
      intro y hy
      rw [g4 y hy]
      obtain ⟨x, hx, h⟩ := forall₂_mem_right g2 hy
      have := le_foldl_max (l := labs.map ELab.len) (m := 0) (x := x.len) (Or.inl (List.mem_map_of_mem hx))
      rw [h.len]; omega
    have hpr : s'.labs.map pr = labs.map pr := by
      have : ∀ {a b : List ELab}, List.Forall₂ (Adv' (room + 1)) a b → b.map pr = a.map pr := by
        intro a b h
        induction h with
        | nil => rfl
        | cons h _ ih => simp [ih, pr, h.stmt, h.len]
      exact this g2
    obtain ⟨ls, o1, o2, o3⟩ := g3
    have hf : s'.labs.filter (·.used) = s'.labs := List.filter_eq_self.2 (fun x hx => by simpa using hall x hx)
    rw [hf, hpr] at o2
    have hol : s'.out.length = expl.length := by
      rw [o1, List.length_map, o2.length_eq, List.length_map, hlen]
    rw [g1, Out.bind_val, if_neg (by omega)]
    refine ⟨ls, by rw [o1], o2, o3, ?_⟩
    rw [← hfit]
    intro x hx
    obtain ⟨k, hk⟩ := List.getElem?_of_mem hx
    have hk2 : k < s'.labs.length := by
      have := g2.length_eq
      have h3 := (List.getElem?_eq_some_iff.1 hk).1
      simp only at this
      omega
    have hrel : Adv' (room + 1) x s'.labs[k] := by
      have := (List.forall₂_iff_get.1 g2).2 k (List.getElem?_eq_some_iff.1 hk).1 hk2
      have e := (List.getElem?_eq_some_iff.1 hk).2
      simp only [List.get_eq_getElem] at this
      rw [← e]
      exact this
    rcases hrel.fits (hall _ (List.getElem_mem hk2)) with h | h
    · rw [(hlab x hx).2.2] at h; cases h
    · exact h

end MM.Data
