import Verif.Count.Spec
import Mathlib.Tactic.Linarith
import Mathlib.Data.List.Nodup

/-!
# The size of fully expanded proofs
-/
namespace MM.Count
open MM.Veri MM.Proof MM.Trace

variable {D : CDb} {ess : Bool} {s : Nat} {S F : Nat → List Int}

theorem stepsOf_unique {p : Nat} {l l' : List Int} (h : StepsOf D.toTDb ess p l) (h' : StepsOf D.toTDb ess p l') : l = l' := by
  obtain ⟨r, hr, h⟩ := h
  obtain ⟨r', hr', h'⟩ := h'
  have : r = r' := by rw [hr] at hr'; exact Out.val.inj hr'
  subst this
  rcases h with ⟨h1, h2⟩ | ⟨h1, h2, h3⟩ | ⟨h1, h2, es, h3, h4, h5⟩ <;> rcases h' with ⟨k1, k2⟩ | ⟨k1, k2, k3⟩ | ⟨k1, k2, es', k3, k4, k5⟩
  · rw [h2, k2]
  · omega
  · omega
  · omega
  · rw [h3, k3]
  · rw [h2] at k2; cases k2
  · omega
  · rw [h2] at k2; cases k2
  · have : es = es' := by rw [h3] at k3; exact Out.val.inj k3
    subst this
    rw [h5, k5]

theorem uses_lt (hS : Sane D ess) {p q : Nat} (h1 : 1 ≤ p) (h2 : p ≤ D.n) (h : Uses D ess p q) : 1 ≤ q ∧ q < p := by
  obtain ⟨hk, l, hl, hm⟩ := h
  obtain ⟨l', hl', hr⟩ := hS.steps p h1 h2 hk
  have e := stepsOf_unique hl hl'
  subst e
  have := hr q hm (by omega)
  simpa using this

theorem leads_range (hS : Sane D ess) (h1 : 1 ≤ s) (h2 : s ≤ D.n) {q : Nat} (h : Leads D ess s q) : 1 ≤ q ∧ q ≤ s := by
  induction h with
  | self => omega
  | step _ hu ih =>
    have := uses_lt hS ih.1 (by omega) hu
    omega

theorem step_range (hS : Sane D ess) (h1 : 1 ≤ s) (h2 : s ≤ D.n) (hP : Proofs D ess s S F) {p : Nat} (hl : Leads D ess s p) (hk : D.kind p = .p) {x : Int} (hx : x ∈ S p) (h0 : 0 ≤ x) :
    1 ≤ x.toNat ∧ x.toNat < p ∧ Leads D ess s x.toNat := by
  have hu : Uses D ess p x.toNat := ⟨hk, S p, hP.steps p hl hk, by rw [Int.toNat_of_nonneg h0]; exact hx⟩
  have hr := leads_range hS h1 h2 hl
  have := uses_lt hS hr.1 (by omega) hu
  exact ⟨this.1, this.2, .step hl hu⟩

/-! ### Sums over the expanded proof of a theorem -/

theorem sum_single {hs : List Nat} (hn : hs.Nodup) (v : Nat → Nat) {y : Nat} : (hs.map (fun h => if h = y then v h else 0)).sum = if y ∈ hs then v y else 0 := by
  induction hs with
  | nil => simp
  | cons h t ih =>
    obtain ⟨h1, h2⟩ := List.nodup_cons.1 hn
    rw [List.map_cons, List.sum_cons, ih h2]
    by_cases e : h = y
    · subst e
      rw [if_pos rfl, if_neg h1, if_pos List.mem_cons_self]
      omega
    · rw [if_neg e]
      by_cases m : y ∈ t
      · rw [if_pos m, if_pos (List.mem_cons_of_mem _ m)]; omega
      · rw [if_neg m, if_neg (by intro h; rcases List.mem_cons.1 h with h | h; exacts [e h.symm, m h])]

theorem sum_add {α : Type} (l : List α) (f g : α → Nat) : (l.map (fun a => f a + g a)).sum = (l.map f).sum + (l.map g).sum := by
  induction l with
  | nil => rfl
  | cons a t ih => rw [List.map_cons, List.map_cons, List.map_cons, List.sum_cons, List.sum_cons, List.sum_cons, ih]; omega

/-- Sum over `L` by kind of step. -/
theorem sum_split {hs : List Nat} (hn : hs.Nodup) (v : Nat → Nat) (w : Nat) (L : List Int) :
    (L.map (fun y => if 0 ≤ y ∧ y.toNat ∈ hs then v y.toNat else w)).sum =
      w * (L.filter (fun y => !decide (0 ≤ y ∧ y.toNat ∈ hs))).length + (hs.map (fun (h : Nat) => L.count (h : Int) * v h)).sum := by
  induction L with
  | nil =>
    have : (hs.map (fun (h : Nat) => ([] : List Int).count (h : Int) * v h)).sum = 0 := by
      induction hs with
      | nil => rfl
      | cons a t ih => rw [List.map_cons, List.sum_cons, ih (List.nodup_cons.1 hn).2]; simp
    rw [this]; simp
  | cons y t ih =>
    rw [List.map_cons, List.sum_cons, ih]
    have hc : (hs.map (fun (h : Nat) => (y :: t).count (h : Int) * v h)).sum =
        (hs.map (fun (h : Nat) => t.count (h : Int) * v h)).sum + (if 0 ≤ y ∧ y.toNat ∈ hs then v y.toNat else 0) := by
      have : (fun (h : Nat) => (y :: t).count (h : Int) * v h) = fun (h : Nat) => t.count (h : Int) * v h + (if (h : Int) = y then v h else 0) := by
        funext h
        rw [List.count_cons]
        by_cases e : y = (h : Int)
        · subst e; simp [Nat.add_mul]
        · have e' : ¬ (h : Int) = y := fun k => e k.symm
          simp [e, e']
      rw [this, sum_add]
      congr 1
      by_cases h0 : 0 ≤ y
      · have : (fun (h : Nat) => if (h : Int) = y then v h else 0) = fun h => if h = y.toNat then v h else 0 := by
          funext h
          by_cases e : h = y.toNat
          · rw [if_pos e, if_pos (by omega)]
          · rw [if_neg e, if_neg (by omega)]
        rw [this, sum_single hn]
        simp [h0]
      · rw [if_neg (by omega)]
        have : (fun (h : Nat) => if (h : Int) = y then v h else 0) = fun _ => 0 := by
          funext h; rw [if_neg (by omega)]
        rw [this]; simp
    rw [hc]
    by_cases hy : 0 ≤ y ∧ y.toNat ∈ hs
    · rw [if_pos hy, if_pos hy, List.filter_cons_of_neg (by simpa using hy)]
      omega
    · rw [if_neg hy, if_neg hy, List.filter_cons_of_pos (by rw [Bool.not_eq_true', decide_eq_false_iff_not]; exact hy), List.length_cons, Nat.mul_succ]
      omega

theorem map_idx {hs : List Nat} (hn : hs.Nodup) {args : List (List Int)} (hl : args.length = hs.length) :
    hs.map (fun h => args.getD (hs.idxOf h) []) = args := by
  apply List.ext_getElem
  · rw [List.length_map, hl]
  · intro i h1 h2
    rw [List.getElem_map, hn.idxOf_getElem, List.getD_eq_getElem?_getD, List.getElem?_eq_getElem h2, Option.getD_some]

/-- A weight of lists: additive, and 1-step lists outside the hypotheses have weight `w`. -/
theorem sum_graft {hs : List Nat} (hn : hs.Nodup) {args : List (List Int)} (hl : args.length = hs.length) (hk : ∀ h ∈ hs, D.kind h = .e ∨ D.kind h = .f)
    {L : List Int} (h1 : ∀ h ∈ hs, L.count (h : Int) = 1) (wt : List Int → Nat) (w : Nat) (hnil : wt [] = 0) (happ : ∀ a b, wt (a ++ b) = wt a + wt b)
    (hw : ∀ y ∈ L, ¬ (0 ≤ y ∧ y.toNat ∈ hs) → wt (graft1 D hs args y) = w) :
    wt (L.flatMap (graft1 D hs args)) = w * (L.filter (fun y => !decide (0 ≤ y ∧ y.toNat ∈ hs))).length + (args.map wt).sum := by
  have hflat : ∀ M : List Int, wt (M.flatMap (graft1 D hs args)) = (M.map (fun y => wt (graft1 D hs args y))).sum := by
    intro M
    induction M with
    | nil => simpa using hnil
    | cons a t ih => rw [List.flatMap_cons, happ, ih, List.map_cons, List.sum_cons]
  rw [hflat]
  have e1 : L.map (fun y => wt (graft1 D hs args y)) = L.map (fun y => if 0 ≤ y ∧ y.toNat ∈ hs then wt (args.getD (hs.idxOf y.toNat) []) else w) := by
    apply List.map_congr_left
    intro y hy
    by_cases h : 0 ≤ y ∧ y.toNat ∈ hs
    · rw [if_pos h]
      unfold graft1
      rw [if_pos ⟨h.1, hk _ h.2⟩, if_pos h.2]
    · rw [if_neg h, hw y hy h]
  rw [e1, sum_split hn (fun h => wt (args.getD (hs.idxOf h) [])) w L]
  congr 1
  have e2 : hs.map (fun (h : Nat) => L.count (h : Int) * wt (args.getD (hs.idxOf h) [])) = hs.map (fun h => wt (args.getD (hs.idxOf h) [])) := by
    apply List.map_congr_left
    intro h hh
    rw [h1 h hh, Nat.one_mul]
  rw [e2]
  conv_rhs => rw [← map_idx hn hl, List.map_map]
  rfl

theorem sum_ones {α : Type} (l : List α) : (l.map (fun _ => (1 : Nat))).sum = l.length := by
  induction l with
  | nil => rfl
  | cons a t ih => rw [List.map_cons, List.sum_cons, ih, List.length_cons]; omega

theorem length_once {hs : List Nat} (hn : hs.Nodup) {L : List Int} (h1 : ∀ h ∈ hs, L.count (h : Int) = 1) :
    L.length = (L.filter (fun y => !decide (0 ≤ y ∧ y.toNat ∈ hs))).length + hs.length := by
  have := sum_split hn (fun _ => 1) 1 L
  have e1 : (L.map (fun y => if 0 ≤ y ∧ y.toNat ∈ hs then 1 else 1)).sum = L.length := by
    have : (fun y : Int => if 0 ≤ y ∧ y.toNat ∈ hs then (1 : Nat) else 1) = fun _ => 1 := by
      funext y; split <;> rfl
    rw [this]
    exact sum_ones L
  have e2 : hs.map (fun (h : Nat) => L.count (h : Int) * 1) = hs.map (fun _ => 1) := by
    apply List.map_congr_left
    intro h hh
    rw [h1 h hh]
  have e3 : (hs.map (fun _ => (1 : Nat))).sum = hs.length := sum_ones hs
  rw [e1, e2, e3] at this
  omega

/-! ### The expansion machine -/

/-- Total size of the proofs on the stack. -/
def total (st : List (List Int)) : Nat := (st.map List.length).sum

theorem sum_take_drop (wt : List Int → Nat) (st : List (List Int)) (n : Nat) : (st.map wt).sum = ((st.take n).reverse.map wt).sum + ((st.drop n).map wt).sum := by
  rw [List.map_reverse, List.sum_reverse, ← List.sum_append, ← List.map_append, List.take_append_drop]

theorem hyps_nodup (hS : Sane D ess) {x : Nat} (h1 : 1 ≤ x) (h2 : x ≤ D.n) (hk : D.kind x = .p) : (hyps D ess x).Nodup ∧ ∀ h ∈ hyps D ess x, D.kind h = .e ∨ D.kind h = .f := by
  obtain ⟨a, b⟩ := hS.req x h1 h2 hk
  unfold hyps
  split
  · exact ⟨a.filter _, fun h hh => b h (List.mem_filter.1 hh).1⟩
  · exact ⟨List.nodup_nil, fun h hh => by cases hh⟩

theorem total_ge {st : List (List Int)} (h : ∀ l ∈ st, l ≠ []) : st.length ≤ total st := by
  unfold total
  induction st with
  | nil => simp
  | cons a t ih =>
    rw [List.map_cons, List.sum_cons, List.length_cons]
    have := ih (fun l hl => h l (List.mem_cons_of_mem _ hl))
    have := List.length_pos_iff.2 (h a List.mem_cons_self)
    omega

/-- What is known of the fully expanded proof of a theorem `x`. -/
structure Sized (D : CDb) (ess : Bool) (F : Nat → List Int) (x : Nat) : Prop where
  ne : F x ≠ []
  once : ∀ h ∈ hyps D ess x, (F x).count (h : Int) = 1

theorem fullStep_total (hS : Sane D ess) {st st' : List (List Int)} (hg : ∀ l ∈ st, l ≠ []) {x : Int} (hx : 0 ≤ x → 1 ≤ x.toNat ∧ x.toNat ≤ D.n ∧ (D.kind x.toNat = .p → Sized D ess F x.toNat))
    (h : fullStep D ess F st x = some st') :
    (∀ l ∈ st', l ≠ []) ∧ -1000 < x ∧
    (x < 0 → total st' = total st + 1) ∧
    (0 ≤ x → D.kind x.toNat ≠ .p → total st' = total st + 1) ∧
    (0 ≤ x → D.kind x.toNat = .p → total st' + (hyps D ess x.toNat).length = total st + (F x.toNat).length ∧ (hyps D ess x.toNat).length ≤ total st) ∧
    (∀ k : Nat, D.kind k = .e ∨ D.kind k = .f → (st'.map (List.count (k : Int))).sum = (st.map (List.count (k : Int))).sum + if x = k then 1 else 0) := by
  unfold fullStep at h
  by_cases hx0 : x < 0
  · rw [if_pos hx0] at h
    by_cases hx1 : x ≤ -1000
    · rw [if_pos hx1] at h; cases h
    rw [if_neg hx1] at h
    obtain rfl := Option.some.inj h
    refine ⟨?_, by omega, ?_, fun h => by omega, fun h => by omega, ?_⟩
    · intro l hl
      rcases List.mem_cons.1 hl with rfl | hl
      · simp
      · exact hg l hl
    · intro _
      unfold total
      rw [List.map_cons, List.sum_cons, List.length_singleton]
      omega
    · intro k _
      rw [List.map_cons, List.sum_cons, if_neg (by omega), List.count_eq_zero_of_not_mem (by simp; omega)]
      omega
  · rw [if_neg hx0] at h
    obtain ⟨hx1, hx2, hx3⟩ := hx (by omega)
    by_cases hl : (hyps D ess x.toNat).length ≤ st.length
    swap
    · rw [if_neg hl] at h; cases h
    rw [if_pos hl] at h
    have hargs : ((st.take (hyps D ess x.toNat).length).reverse).length = (hyps D ess x.toNat).length := by
      rw [List.length_reverse, List.length_take]; omega
    have hargsne : ∀ l ∈ (st.take (hyps D ess x.toNat).length).reverse, l ≠ [] := fun l hl => hg l (List.mem_of_mem_take (List.mem_reverse.1 hl))
    have hT : ∀ wt : List Int → Nat, _ := fun wt => sum_take_drop wt st (hyps D ess x.toNat).length
    generalize (st.take (hyps D ess x.toNat).length).reverse = args at *
    have hdr : ∀ l ∈ st.drop (hyps D ess x.toNat).length, l ≠ [] := fun l hl => hg l (List.mem_of_mem_drop hl)
    generalize st.drop (hyps D ess x.toNat).length = rest at *
    obtain rfl := Option.some.inj h
    by_cases hp : D.kind x.toNat = .p
    · rw [if_pos hp]
      obtain ⟨hn, hk⟩ := hyps_nodup (ess := ess) hS hx1 hx2 hp
      obtain ⟨f1, f2⟩ := hx3 hp
      have hlen := length_once hn f2
      have hL := sum_graft (D := D) hn hargs hk f2 List.length 1 rfl (fun a b => List.length_append) (by
        intro y _ hy
        unfold graft1
        split
        · next h => rw [if_neg (fun h' => hy ⟨h.1, h'⟩)]; rfl
        · rfl)
      rw [Nat.one_mul] at hL
      have hge : args.length ≤ (args.map List.length).sum := total_ge hargsne
      have hFx := List.length_pos_iff.2 f1
      have hTL := hT List.length
      refine ⟨?_, by omega, fun h => absurd h hx0, fun _ h => absurd hp h, fun _ _ => ?_, ?_⟩
      · intro l hm
        rcases List.mem_cons.1 hm with rfl | hm
        · intro e
          rw [e] at hL
          simp only [List.length_nil] at hL
          omega
        · exact hdr l hm
      · unfold total
        rw [List.map_cons, List.sum_cons, hL, hTL]
        omega
      · intro k hkk
        have hC := sum_graft (D := D) hn hargs hk f2 (List.count (k : Int)) 0 rfl (fun a b => List.count_append) (by
          intro y _ hy
          unfold graft1
          split
          · next h => rw [if_neg (fun h' => hy ⟨h.1, h'⟩)]; exact List.count_eq_zero_of_not_mem (by simp)
          · next h =>
            apply List.count_eq_zero_of_not_mem
            intro hm
            have e : (k : Int) = y := by simpa using hm
            exact h ⟨by omega, by rw [← e]; simpa using hkk⟩)
        rw [Nat.zero_mul, Nat.zero_add] at hC
        rw [List.map_cons, List.sum_cons, hC, hT, if_neg (by
          intro e
          rw [e] at hp
          rw [Int.toNat_natCast] at hp
          rw [hp] at hkk
          rcases hkk with h | h <;> cases h)]
        omega
    · rw [if_neg hp]
      refine ⟨?_, by omega, fun h => absurd h hx0, fun _ _ => ?_, fun _ h => absurd h hp, ?_⟩
      · intro l hm
        rcases List.mem_cons.1 hm with rfl | hm
        · simp
        · exact hdr l hm
      · unfold total
        rw [List.map_cons, List.sum_cons, List.length_append, List.length_flatten, hT, List.length_singleton]
        omega
      · intro k _
        rw [List.map_cons, List.sum_cons, List.count_append, List.count_flatten, hT, List.count_singleton]
        by_cases e : x = k
        · rw [if_pos e, if_pos (by simpa using e)]; omega
        · rw [if_neg e, if_neg (by simpa using e)]; omega

theorem fullRun_total (hS : Sane D ess) : ∀ {xs : List Int} {st st' : List (List Int)}, (∀ l ∈ st, l ≠ []) →
    (∀ x ∈ xs, 0 ≤ x → 1 ≤ x.toNat ∧ x.toNat ≤ D.n ∧ (D.kind x.toNat = .p → Sized D ess F x.toNat)) → fullRun D ess F xs st = some st' →
    (∀ l ∈ st', l ≠ []) ∧ ∀ k : Nat, D.kind k = .e ∨ D.kind k = .f → (st'.map (List.count (k : Int))).sum = (st.map (List.count (k : Int))).sum + xs.count (k : Int)
  | [], st, st', hg, _, h => by
    obtain rfl := Option.some.inj h
    exact ⟨hg, fun k _ => by simp⟩
  | x :: xs, st, st', hg, hx, h => by
    rw [fullRun] at h
    cases h1 : fullStep D ess F st x with
    | none => rw [h1] at h; cases h
    | some st1 =>
      rw [h1] at h
      obtain ⟨a, _, _, _, _, b⟩ := fullStep_total hS hg (hx x List.mem_cons_self) h1
      obtain ⟨c, d⟩ := fullRun_total hS a (fun y hy => hx y (List.mem_cons_of_mem _ hy)) h
      refine ⟨c, fun k hk => ?_⟩
      rw [d k hk, b k hk, List.count_cons]
      by_cases e : x = k
      · rw [if_pos e, if_pos (by simpa using e)]; omega
      · rw [if_neg e, if_neg (by simpa using e)]; omega

theorem sized (hS : Sane D ess) (h1 : 1 ≤ s) (h2 : s ≤ D.n) (hP : Proofs D ess s S F) (hO : Once D ess s S) : ∀ (n x : Nat), x < n → Leads D ess s x → x ≠ s → D.kind x = .p → Sized D ess F x
  | 0, _, h, _, _, _ => by omega
  | n + 1, x, h, hl, hne, hk => by
    have hr := leads_range hS h1 h2 hl
    have := fullRun_total hS (F := F) (xs := S x) (st := []) (st' := [F x]) (by intro l hl; cases hl) (by
      intro y hy h0
      obtain ⟨a, b, c⟩ := step_range hS h1 h2 hP hl hk hy h0
      exact ⟨a, by omega, fun hp => sized hS h1 h2 hP hO n y.toNat (by omega) c (by omega) hp⟩) (hP.full x hl hk)
    obtain ⟨a, b⟩ := this
    refine ⟨a _ List.mem_cons_self, fun h hh => ?_⟩
    have hb := b h ((hyps_nodup hS hr.1 (by omega) hk).2 h hh)
    have ho := hO x hl hne hk h hh
    simp only [List.map_cons, List.map_nil, List.sum_cons, List.sum_nil] at hb
    omega

end MM.Count
