import Verif.Unif.HeapSort
import Verif.Unif.Props
/-!
# What `hentyNormalize` computes
-/
namespace MM.Unif

variable {C : Cfg} {A B : List Nat}

theorem slice_get (l : List Nat) (e : Nat × Nat) (k : Nat) : (slice l e)[k]? = if k < e.2 then l[e.1 + k]? else none := by
  unfold slice
  rw [List.getElem?_take]
  by_cases h : k < e.2
  · rw [if_pos h, if_pos h, List.getElem?_drop]
  · rw [if_neg h, if_neg h]

theorem slice_set {l : List Nat} {e : Nat × Nat} {i x : Nat} (h : i < e.1 ∨ e.1 + e.2 ≤ i) : slice (l.set i x) e = slice l e := by
  apply List.ext_getElem?
  intro k
  rw [slice_get, slice_get]
  by_cases hk : k < e.2
  · rw [if_pos hk, if_pos hk, List.getElem?_set, if_neg (by omega)]
  · rw [if_neg hk, if_neg hk]

theorem slice_one {l : List Nat} {i : Nat} (h : i < l.length) : slice l (i, 1) = [l.getD i 0] := by
  apply List.ext_getElem?
  intro k
  rw [slice_get]
  cases k with
  | zero => simp [List.getD_eq_getElem?_getD, List.getElem?_eq_getElem h]
  | succ k => simp

theorem slice_length {l : List Nat} {e : Nat × Nat} (h : e.1 + e.2 ≤ l.length) : (slice l e).length = e.2 := by
  unfold slice; simp; omega

/-- The value of a row. -/
def Row.val (l : List Nat) (r : Row) : List Nat := slice l (r.start, r.len)

/-- A variable-for-variable substitution is reversed if that makes the replaced variable the smaller one. -/
def swp (mt : Nat) (e : Nat × List Nat) : Nat × List Nat :=
  if e.2.length = 1 ∧ mt < e.2.headD 0 ∧ e.2.headD 0 < e.1 then (e.2.headD 0, [e.1]) else e

theorem swapVal_eq {i v1 v2 : Nat} (hne : v1 ≠ v2) : ∀ (n : Nat) {l : List Nat}, i < l.length → (l.getD i 0 ≠ v2) → swapVal i v1 v2 n l = l
  | 0, _, _, _ => rfl
  | n + 1, l, h, hv => by unfold swapVal; rw [if_neg hv]; exact swapVal_eq hne n h hv

theorem swapVal_set {i v1 v2 : Nat} (hne : v1 ≠ v2) {n : Nat} {l : List Nat} (hn : 0 < n) (h : i < l.length) (hv : l.getD i 0 = v2) : swapVal i v1 v2 n l = l.set i v1 := by
  obtain ⟨m, rfl⟩ : ∃ m, n = m + 1 := ⟨n - 1, by omega⟩
  unfold swapVal
  rw [if_pos hv]
  refine swapVal_eq hne m (by simp; exact h) ?_
  rw [List.getD_eq_getElem?_getD, List.getElem?_set, if_pos rfl, if_pos h]
  exact hne

theorem swapRows_ok (C : Cfg) : ∀ (rs dn : List Row) (l : List Nat), (∀ r ∈ dn ++ rs, r.start + r.len ≤ l.length) →
    (dn ++ rs).Pairwise (fun r r' => r.start + r.len ≤ r'.start) →
    ∃ rows l', swapRows C dn rs l = .val (rows, l') ∧ (∀ r ∈ rows, r.start + r.len ≤ l'.length) ∧
      rows.map (fun r => (r.var, r.val l')) = dn.map (fun r => (r.var, r.val l)) ++ rs.map fun r => swp C.mt (r.var, r.val l)
  | [], dn, l, h1, h2 => ⟨dn, l, rfl, by simpa using h1, by simp⟩
  | r :: rs, dn, l, h1, h2 => by
    have keep : ∀ (e : swp C.mt (r.var, r.val l) = (r.var, r.val l)) (hu : swapRows C dn (r :: rs) l = swapRows C (dn ++ [r]) rs l),
        ∃ rows l', swapRows C dn (r :: rs) l = .val (rows, l') ∧ (∀ r ∈ rows, r.start + r.len ≤ l'.length) ∧
      rows.map (fun r => (r.var, r.val l')) = dn.map (fun r => (r.var, r.val l)) ++ (r :: rs).map fun r => swp C.mt (r.var, r.val l) := by
      intro e hu
      obtain ⟨rows, l', e1, e2, e3⟩ := swapRows_ok C rs (dn ++ [r]) l (by simpa using h1) (by simpa using h2)
      refine ⟨rows, l', hu.trans e1, e2, ?_⟩
      rw [e3]
      simp [e]
    by_cases hl : r.len = 1
    · have hr := h1 r (by simp)
      have hst : r.start < l.length := by omega
      have hval : r.val l = [l.getD r.start 0] := by unfold Row.val; rw [hl]; exact slice_one hst
      have hu : swapRows C dn (r :: rs) l = if ((l.getD r.start 0 : Nat) : Int) > C.mt ∧ (r.var : Int) > ((l.getD r.start 0 : Nat) : Int) then
          swapRows C (dn ++ [{ r with var := l.getD r.start 0 }]) rs (swapVal r.start r.var (l.getD r.start 0) l.length l) else swapRows C (dn ++ [r]) rs l := by
        conv => lhs; unfold swapRows
        rw [if_pos hl]
        unfold rd
        rw [if_pos hst, Out.bind_val]
        rfl
      by_cases hc : C.mt < l.getD r.start 0 ∧ l.getD r.start 0 < r.var
      · rw [if_pos (by omega), swapVal_set (by omega) (by omega) hst rfl] at hu
        have hd : ∀ r' ∈ dn, r'.start + r'.len ≤ r.start := fun r' hr' => (List.pairwise_append.mp h2).2.2 r' hr' r (by simp)
        have hrs : ∀ r' ∈ rs, r.start + r.len ≤ r'.start := fun r' hr' => (List.pairwise_cons.mp (List.pairwise_append.mp h2).2.1).1 r' hr'
        obtain ⟨rows, l', e1, e2, e3⟩ := swapRows_ok C rs (dn ++ [{ r with var := l.getD r.start 0 }]) (l.set r.start r.var) (by
          intro r' hr'
          rw [List.length_set]
          simp only [List.mem_append, List.mem_singleton] at hr'
          rcases hr' with (hr' | rfl) | hr'
          · exact h1 r' (by simp [hr'])
          · exact hr
          · exact h1 r' (by simp [hr'])) (by
          have := List.pairwise_append.mp h2
          obtain ⟨p1, p2, p3⟩ := this
          obtain ⟨p4, p5⟩ := List.pairwise_cons.mp p2
          refine List.pairwise_append.mpr ⟨List.pairwise_append.mpr ⟨p1, by simp, ?_⟩, p5, ?_⟩
          · intro a ha b hb
            simp only [List.mem_singleton] at hb
            subst hb
            exact hd a ha
          · intro a ha b hb
            simp only [List.mem_append, List.mem_singleton] at ha
            rcases ha with ha | rfl
            · exact p3 a ha b (by simp [hb])
            · exact p4 b hb)
        refine ⟨rows, l', hu.trans e1, e2, ?_⟩
        rw [e3]
        have k1 : ∀ r' ∈ dn, r'.val (l.set r.start r.var) = r'.val l := fun r' hr' => slice_set (Or.inr (hd r' hr'))
        have k2 : ∀ r' ∈ rs, r'.val (l.set r.start r.var) = r'.val l := fun r' hr' => slice_set (Or.inl (by have := hrs r' hr'; show r.start < r'.start; omega))
        have k3 : swp C.mt (r.var, r.val l) = (l.getD r.start 0, [r.var]) := by
          unfold swp
          rw [hval]
          simp only [List.length_singleton, List.headD_cons, true_and]
          rw [if_pos hc]
        have k4 : Row.val (l.set r.start r.var) { r with var := l.getD r.start 0 } = [r.var] := by
          unfold Row.val
          rw [hl, slice_one (by simpa using hst), List.getD_eq_getElem?_getD, List.getElem?_set, if_pos rfl, if_pos hst]
          rfl
        rw [List.map_append, List.map_cons, List.map_cons, k3, List.append_assoc]
        congr 1
        · exact List.map_congr_left fun r' hr' => by rw [k1 r' hr']
        · rw [List.map_nil, k4, List.singleton_append]
          congr 1
          exact List.map_congr_left fun r' hr' => by rw [k2 r' hr']
      · rw [if_neg (by omega)] at hu
        refine keep ?_ hu
        unfold swp
        rw [hval]
        simp only [List.length_singleton, List.headD_cons, true_and]
        rw [if_neg hc]
    · refine keep ?_ ?_
      · unfold swp
        rw [if_neg]
        rintro ⟨h, _⟩
        have := slice_length (e := (r.start, r.len)) (h1 r (by simp))
        exact hl (this.symm.trans h)
      · conv => lhs; unfold swapRows
        rw [if_neg hl]

/-- The starts of consecutive parts of given lengths. -/
def cum : Nat → List Nat → List Nat
  | _, [] => []
  | p, n :: ns => p :: cum (p + n) ns

theorem copyVal_ok {l : List Nat} : ∀ (n start : Nat), start + n ≤ l.length → copyVal l start n = .val (slice l (start, n))
  | 0, start, _ => by simp [copyVal, slice]
  | n + 1, start, h => by
    unfold copyVal rd
    rw [if_pos (by omega), Out.bind_val, copyVal_ok n (start + 1) (by omega), Out.bind_val]
    congr 1
    unfold slice
    dsimp only
    rw [show l.drop start = l.getD start 0 :: l.drop (start + 1) from by
      rw [List.getD_eq_getElem?_getD, List.getElem?_eq_getElem (by omega), Option.getD_some, List.getElem_cons_drop], List.take_succ_cons]
    simp

theorem rebuild_ok {l : List Nat} : ∀ (rows : List Row) (pos : Nat), (∀ r ∈ rows, r.start + r.len ≤ l.length) →
    rebuild l rows pos = .val (cum pos (rows.map fun r => (r.val l).length), (rows.map fun r => r.val l).flatten)
  | [], pos, _ => rfl
  | r :: rs, pos, h => by
    unfold rebuild
    have hr := h r (by simp)
    rw [copyVal_ok r.len r.start hr, Out.bind_val, rebuild_ok rs _ (fun r' hr' => h r' (by simp [hr'])), Out.bind_val]
    have hl : (r.val l).length = r.len := slice_length (e := (r.start, r.len)) hr
    simp only [List.map_cons, cum, hl, List.flatten_cons]
    rfl

/-- How a list of substitutions is stored in the filter. -/
def encode (ps : List (Nat × List Nat)) : HEnt := ⟨ps.map Prod.fst, cum 0 (ps.map fun e => e.2.length), (ps.map Prod.snd).flatten⟩

theorem cum_length : ∀ (l : List Nat) (p : Nat), (cum p l).length = l.length
  | [], _ => rfl
  | n :: l, p => by simp [cum, cum_length l]

theorem cum_inj : ∀ {vs ws : List (List Nat)} {p : Nat}, cum p (vs.map List.length) = cum p (ws.map List.length) → vs.flatten = ws.flatten → vs = ws
  | [], [], _, _, _ => rfl
  | [], w :: ws, p, h, _ => by simp [cum] at h
  | v :: vs, [], p, h, _ => by simp [cum] at h
  | v :: vs, w :: ws, p, h, hf => by
    simp only [List.map_cons, cum, List.cons.injEq, true_and] at h
    simp only [List.flatten_cons] at hf
    have hlen := congrArg List.length h
    rw [cum_length, cum_length, List.length_map, List.length_map] at hlen
    cases vs with
    | nil =>
      cases ws with
      | nil => simp at hf; rw [hf]
      | cons w' ws => simp at hlen
    | cons v' vs =>
      cases ws with
      | nil => simp at hlen
      | cons w' ws =>
        have hh := h
        simp only [List.map_cons, cum, List.cons.injEq] at hh
        have he : v.length = w.length := by omega
        obtain ⟨e1, e2⟩ := List.append_inj hf he
        subst e1
        rw [cum_inj h e2]

theorem encode_inj {ps qs : List (Nat × List Nat)} (h : encode ps = encode qs) : ps = qs := by
  unfold encode at h
  simp only [HEnt.mk.injEq] at h
  obtain ⟨h1, h2, h3⟩ := h
  have h4 : ps.map Prod.snd = qs.map Prod.snd := cum_inj (p := 0) (by rw [List.map_map, List.map_map]; exact h2) h3
  have e : ∀ l : List (Nat × List Nat), l = (l.map Prod.fst).zip (l.map Prod.snd) := by
    intro l
    induction l with
    | nil => rfl
    | cons x l ih => simp [← ih]
  rw [e ps, e qs, h1, h4]

/-- The substitutions of an answer. -/
def pairs (s : St) : List (Nat × List Nat) := binds (vars s.stk) s.seg s.A

/-- `hentyNormalize` sorts the substitutions, some reversed, by their variables. -/
theorem normalize_ok {s : St} {p : Nat} (hc : Core C A B (vars s.stk) s.seg s.A s.B p) (t : Nat) :
    ∃ ps, hentyNormalize C { svOf s with trials := t } = .val (encode ps) ∧ ps.Perm ((pairs s).map (swp C.mt)) ∧ ps.Pairwise fun x y => x.1 ≤ y.1 := by
  have hp := hc.pA
  obtain ⟨rows0, hrows0⟩ : ∃ r, hRows { svOf s with trials := t } = r := ⟨_, rfl⟩
  have hr0 : rows0 = (((vars s.stk).zip s.seg).reverse.map fun e => ⟨e.1, e.2.1, e.2.2⟩) := hrows0.symm
  have hb0 : ∀ r ∈ rows0, r.start + r.len ≤ p := by
    intro r hr
    rw [hr0] at hr
    obtain ⟨e, he, rfl⟩ := List.mem_map.mp hr
    exact (hc.segs e.2 (List.of_mem_zip (List.mem_reverse.mp he)).2).1
  have hul : (svOf s).unified.length = s.A.length - 1 := by simp [svOf]
  have hpw : rows0.Pairwise fun r r' => r.start + r.len ≤ r'.start := by
    rw [hr0, List.pairwise_map, List.pairwise_reverse]
    have hz : ∀ (vs : List Nat) (sg : List (Nat × Nat)), sg.Pairwise (fun e e' => e'.1 + e'.2 ≤ e.1) →
        (vs.zip sg).Pairwise fun a b => b.2.1 + b.2.2 ≤ a.2.1 := by
      intro vs
      induction vs with
      | nil => intro sg _; simp
      | cons v vs ih =>
        intro sg hsg
        cases sg with
        | nil => simp
        | cons e sg =>
          obtain ⟨q1, q2⟩ := List.pairwise_cons.mp hsg
          rw [List.zip_cons_cons]
          exact List.pairwise_cons.mpr ⟨fun b hb => q1 b.2 (List.of_mem_zip hb).2, ih sg q2⟩
    exact hz _ _ hc.ord
  obtain ⟨rows, l', e1, e2, e3⟩ := swapRows_ok C rows0 [] (svOf s).unified (by intro r hr; have := hb0 r (by simpa using hr); omega) (by simpa using hpw)
  obtain ⟨srt, f1, f2, f3⟩ := heapSort_ok rows
  refine ⟨srt.map fun r => (r.var, r.val l'), ?_, ?_, ?_⟩
  · unfold hentyNormalize
    rw [hrows0]
    rw [show ({ svOf s with trials := t } : SV).unified = (svOf s).unified from rfl, e1, Out.bind_val, f1, Out.bind_val,
      rebuild_ok srt 0 (fun r hr => e2 r (f2.mem_iff.mp hr)), Out.bind_val]
    congr 1
    unfold encode
    simp only [List.map_map]
    rfl
  · refine (f2.map _).trans ?_
    rw [e3, List.map_nil, List.nil_append, hr0, List.map_map, List.map_reverse]
    refine (List.reverse_perm _).trans ?_
    have : pairs s = ((vars s.stk).zip s.seg).map fun e => (e.1, slice s.A e.2) := by
      unfold pairs binds
      rw [List.zip_map_right]
      rfl
    rw [this, List.map_map]
    rw [List.map_congr_left]
    intro e he
    have hs := (hc.segs e.2 (List.of_mem_zip he).2).1
    have : slice (svOf s).unified e.2 = slice s.A e.2 := by
      simp only [svOf, slice]
      rw [List.drop_take, List.take_take, Nat.min_eq_left (by omega)]
    show swp C.mt (e.1, slice (svOf s).unified e.2) = swp C.mt (e.1, slice s.A e.2)
    rw [this]
  · rw [List.pairwise_map]
    exact f3

end MM.Unif
