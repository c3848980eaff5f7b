import Verif.Unif.Repl
import Mathlib.Data.List.Induction
/-!
# The invariant of `unify`
-/
namespace MM.Unif

/-- A part of a scheme, given by its start and length. -/
def slice (l : List Nat) (e : Nat × Nat) : List Nat := (l.drop e.1).take e.2

/-- The value of a token under a list of bindings. -/
def assoc : List (Nat × List Nat) → Nat → List Nat
  | [], t => [t]
  | (y, v) :: b, t => if t = y then v else assoc b t

/-- Simultaneous substitution. -/
def sim (b : List (Nat × List Nat)) (l : List Nat) : List Nat := l.flatMap (assoc b)

def binds (vars : List Nat) (seg : List (Nat × Nat)) (A : List Nat) : List (Nat × List Nat) := vars.zip (seg.map (slice A))

@[simp] theorem sim_append (b : List (Nat × List Nat)) (l m : List Nat) : sim b (l ++ m) = sim b l ++ sim b m := by simp [sim]

theorem assoc_notin : ∀ {vars : List Nat} {vals : List (List Nat)} {t : Nat}, t ∉ vars → assoc (vars.zip vals) t = [t]
  | [], vals, t, _ => by simp [assoc]
  | y :: vars, [], t, _ => by simp [assoc]
  | y :: vars, v :: vals, t, h => by
    rw [List.zip_cons_cons, assoc, if_neg (by rintro rfl; simp at h), assoc_notin (by intro h'; exact h (by simp [h']))]

theorem assoc_comp (x : Nat) (v : List Nat) : ∀ {vars : List Nat} {vals : List (List Nat)} {t : Nat}, t ≠ x →
    assoc (vars.zip (vals.map (sub1 x v))) t = sub1 x v (assoc (vars.zip vals) t)
  | [], vals, t, h => by simp [assoc, sub1, h]
  | y :: vars, [], t, h => by simp [assoc, sub1, h]
  | y :: vars, w :: vals, t, h => by
    rw [List.map_cons, List.zip_cons_cons, List.zip_cons_cons, assoc, assoc]
    by_cases hy : t = y
    · rw [if_pos hy, if_pos hy]
    · rw [if_neg hy, if_neg hy, assoc_comp x v h]

theorem sim_comp {x : Nat} {v : List Nat} {vars : List Nat} {vals : List (List Nat)} (hx : x ∉ vars) :
    ∀ l : List Nat, sim ((x, v) :: vars.zip (vals.map (sub1 x v))) l = sub1 x v (sim (vars.zip vals) l)
  | [] => rfl
  | t :: l => by
    have e : ∀ (b : List (Nat × List Nat)), sim b (t :: l) = assoc b t ++ sim b l := by intro b; simp [sim]
    rw [e, e, sub1_append, sim_comp hx l]
    congr 1
    rw [assoc]
    by_cases h : t = x
    · subst h; rw [if_pos rfl, assoc_notin hx]; simp [sub1]
    · rw [if_neg h, assoc_comp x v h]

theorem slice_cur {x : Nat} {v a R r : List Nat} {e : Nat × Nat} (h : e.1 + e.2 ≤ a.length) :
    slice (sub1 x v a ++ R) (cur x v a e) = sub1 x v (slice (a ++ r) e) := by
  have h1 : a = a.take e.1 ++ ((a.drop e.1).take e.2 ++ a.drop (e.1 + e.2)) := by
    have : a.drop (e.1 + e.2) = (a.drop e.1).drop e.2 := by rw [List.drop_drop]
    rw [this, List.take_append_drop, List.take_append_drop]
  have h2 : slice (a ++ r) e = (a.drop e.1).take e.2 := by
    unfold slice
    rw [List.drop_append_of_le_length (by omega), List.take_append_of_le_length (by simp; omega)]
  have h3 : a.take (e.1 + e.2) = a.take e.1 ++ (a.drop e.1).take e.2 := by rw [List.take_add]
  have n1 : newPos x v a e.1 = (sub1 x v (a.take e.1)).length := by unfold newPos; omega
  have n2 : newPos x v a (e.1 + e.2) = (sub1 x v (a.take e.1)).length + (sub1 x v ((a.drop e.1).take e.2)).length := by
    unfold newPos; rw [h3, sub1_append, List.length_append]; omega
  have h4 : sub1 x v a = sub1 x v (a.take e.1) ++ (sub1 x v ((a.drop e.1).take e.2) ++ sub1 x v (a.drop (e.1 + e.2))) := by
    rw [← sub1_append, ← sub1_append, ← h1]
  rw [h2]
  unfold slice cur
  dsimp only
  rw [n1, n2, h4, List.append_assoc, List.drop_left, Nat.add_sub_cancel_left, List.append_assoc, List.take_left]

theorem cur_end {x : Nat} {v a : List Nat} {e : Nat × Nat} (h : e.1 + e.2 ≤ a.length) :
    (cur x v a e).1 + (cur x v a e).2 ≤ (sub1 x v a).length ∧ (cur x v a e).2 = (sub1 x v (slice a e)).length := by
  have a1 := newPos_mono x v a (show e.1 ≤ e.1 + e.2 by omega)
  have a2 := newPos_le_of_le x v a h
  refine ⟨by unfold cur; dsimp only; omega, ?_⟩
  have h3 : a.take (e.1 + e.2) = a.take e.1 ++ (a.drop e.1).take e.2 := by rw [List.take_add]
  unfold cur newPos slice
  dsimp only
  rw [h3, sub1_append, List.length_append]; omega

theorem length_sub1 (x : Nat) {v : List Nat} (hv : v ≠ []) : ∀ l : List Nat, l.length ≤ (sub1 x v l).length
  | [] => by simp
  | c :: t => by
    have := length_sub1 x hv t
    have h1 := List.length_pos_iff.2 hv
    rw [sub1_cons]
    by_cases h : c = x
    · rw [if_pos h]; simp; omega
    · rw [if_neg h]; simp; omega

/-- The invariant at the label `scan`: the schemes are the given ones under the substitution given by the stack; the variables on the stack are replaced
everywhere; the schemes agree up to the scan position. -/
structure Core (C : Cfg) (A0 B0 : List Nat) (vars : List Nat) (seg : List (Nat × Nat)) (A B : List Nat) (p : Nat) : Prop where
  hA : A = sim (binds vars seg A) (A0 ++ [C.mt])
  hB : B = sim (binds vars seg A) (B0 ++ [C.mt])
  len : seg.length = vars.length
  nodup : vars.Nodup
  unk : ∀ x ∈ vars, C.mt < x ∧ (x ∈ A0 ∨ x ∈ B0)
  notA : ∀ x ∈ vars, x ∉ A
  notB : ∀ x ∈ vars, x ∉ B
  pA : p < A.length
  pre : A.take p = B.take p
  segs : ∀ e ∈ seg, e.1 + e.2 ≤ p ∧ C.mt ∉ slice A e ∧ C.min ≤ e.2
  toks : ∀ y, C.mt < y → y ∈ A ∨ y ∈ B → y ∈ A0 ∨ y ∈ B0
  ord : seg.Pairwise fun e e' => e'.1 + e'.2 ≤ e.1

theorem assoc_mem : ∀ {b : List (Nat × List Nat)} {t : Nat}, assoc b t = [t] ∨ (t, assoc b t) ∈ b
  | [], t => Or.inl rfl
  | (y, v) :: b, t => by
    rw [assoc]
    by_cases h : t = y
    · rw [if_pos h, h]; exact Or.inr (by simp)
    · rw [if_neg h]
      rcases assoc_mem (b := b) (t := t) with h1 | h1
      · exact Or.inl h1
      · exact Or.inr (by simp [h1])

theorem count_sim {b : List (Nat × List Nat)} {m : Nat} (h : ∀ e ∈ b, e.1 ≠ m ∧ m ∉ e.2) : ∀ l : List Nat, (sim b l).count m = l.count m
  | [] => rfl
  | t :: l => by
    have e : sim b (t :: l) = assoc b t ++ sim b l := by simp [sim]
    rw [e, List.count_append, count_sim h l]
    have e2 : (t :: l).count m = [t].count m + l.count m := by rw [← List.count_append]; rfl
    rw [e2]
    congr 1
    rcases assoc_mem (b := b) (t := t) with h1 | h1
    · rw [h1]
    · have h2 := h _ h1
      dsimp only at h2
      rw [List.count_eq_zero.2 h2.2]
      have : ¬ m = t := fun h => h2.1 h.symm
      symm
      rw [List.count_eq_zero]
      simp [this]

theorem Core.mt_binds {C : Cfg} {A0 B0 vars : List Nat} {seg : List (Nat × Nat)} {A B : List Nat} {p : Nat} (h : Core C A0 B0 vars seg A B p) :
    ∀ e ∈ binds vars seg A, e.1 ≠ C.mt ∧ C.mt ∉ e.2 := by
  intro e he
  have h1 := List.of_mem_zip he
  refine ⟨?_, ?_⟩
  · have := (h.unk _ h1.1).1; omega
  · obtain ⟨e', h2, h3⟩ := List.mem_map.1 h1.2
    rw [← h3]; exact (h.segs e' h2).2.1

theorem Core.assoc_mt {C : Cfg} {A0 B0 vars : List Nat} {seg : List (Nat × Nat)} {A B : List Nat} {p : Nat} (h : Core C A0 B0 vars seg A B p) :
    assoc (binds vars seg A) C.mt = [C.mt] := by
  rcases assoc_mem (b := binds vars seg A) (t := C.mt) with h1 | h1
  · exact h1
  · exact absurd rfl (h.mt_binds _ h1).1

theorem Core.endA {C : Cfg} {A0 B0 vars : List Nat} {seg : List (Nat × Nat)} {A B : List Nat} {p : Nat} (h : Core C A0 B0 vars seg A B p) :
    ∃ A1, A = A1 ++ [C.mt] := by
  refine ⟨sim (binds vars seg A) A0, ?_⟩
  have := h.hA
  rw [sim_append] at this
  have e : sim (binds vars seg A) [C.mt] = [C.mt] := by simp [sim, h.assoc_mt]
  rw [e] at this
  exact this

theorem Core.endB {C : Cfg} {A0 B0 vars : List Nat} {seg : List (Nat × Nat)} {A B : List Nat} {p : Nat} (h : Core C A0 B0 vars seg A B p) :
    ∃ B1, B = B1 ++ [C.mt] := by
  refine ⟨sim (binds vars seg A) B0, ?_⟩
  have := h.hB
  rw [sim_append] at this
  have e : sim (binds vars seg A) [C.mt] = [C.mt] := by simp [sim, h.assoc_mt]
  rw [e] at this
  exact this

theorem Core.countA {C : Cfg} {A0 B0 vars : List Nat} {seg : List (Nat × Nat)} {A B : List Nat} {p : Nat} (h : Core C A0 B0 vars seg A B p) :
    A.count C.mt = A0.count C.mt + 1 := by
  have := congrArg (List.count C.mt) h.hA
  rw [count_sim h.mt_binds] at this
  rw [this]; simp

theorem Core.countB {C : Cfg} {A0 B0 vars : List Nat} {seg : List (Nat × Nat)} {A B : List Nat} {p : Nat} (h : Core C A0 B0 vars seg A B p) :
    B.count C.mt = B0.count C.mt + 1 := by
  have := congrArg (List.count C.mt) h.hB
  rw [count_sim h.mt_binds] at this
  rw [this]; simp

theorem core_gen {C : Cfg} {A0 B0 vars : List Nat} {seg : List (Nat × Nat)} {A B : List Nat} {p x : Nat} {v a r r' R R' : List Nat}
    (h : Core C A0 B0 vars seg A B p) (ha : A = a ++ r) (hb : B = a ++ r') (hp : a.length = p) (hr : sub1 x v r = v ++ R) (hr' : sub1 x v r' = v ++ R') (hR : R ≠ [])
    (hx : C.mt < x) (hxm : x ∈ A ∨ x ∈ B) (hv : ∀ y ∈ v, y ∈ A ∨ y ∈ B) (hxv : x ∉ v) (hm : C.mt ∉ v) (hmin : C.min ≤ v.length) :
    Core C A0 B0 (x :: vars) (((sub1 x v a).length, v.length) :: seg.map (cur x v a)) (sub1 x v A) (sub1 x v B) ((sub1 x v a).length + v.length) := by
  have hxn : x ∉ vars := by
    intro h'
    rcases hxm with h1 | h1
    · exact h.notA x h' h1
    · exact h.notB x h' h1
  have eA : sub1 x v A = sub1 x v a ++ (v ++ R) := by rw [ha, sub1_append, hr]
  have eB : sub1 x v B = sub1 x v a ++ (v ++ R') := by rw [hb, sub1_append, hr']
  have eS : ∀ e ∈ seg, slice (sub1 x v A) (cur x v a e) = sub1 x v (slice A e) := by
    intro e he
    rw [eA, ha]
    exact slice_cur (by have := (h.segs e he).1; omega)
  have eT : slice (sub1 x v A) ((sub1 x v a).length, v.length) = v := by
    unfold slice; dsimp only; rw [eA, List.drop_left, List.take_left]
  have eb : binds (x :: vars) (((sub1 x v a).length, v.length) :: seg.map (cur x v a)) (sub1 x v A) =
      (x, v) :: vars.zip ((seg.map (slice A)).map (sub1 x v)) := by
    unfold binds
    rw [List.map_cons, List.zip_cons_cons, eT, List.map_map, List.map_map]
    congr 2
    apply List.map_congr_left
    intro e he
    exact eS e he
  have nm : ∀ {y : Nat} {l : List Nat}, y ∉ v → y ∉ l → y ∉ sub1 x v l := by
    intro y l h1 h2 h3
    rcases mem_sub1.1 h3 with ⟨h4, _⟩ | ⟨h4, _⟩
    · exact h2 h4
    · exact h1 h4
  have vn : ∀ y ∈ vars, y ∉ v := by
    intro y hy h1
    rcases hv y h1 with h2 | h2
    · exact h.notA y hy h2
    · exact h.notB y hy h2
  have xn : ∀ l, x ∉ sub1 x v l := by
    intro l h3
    rcases mem_sub1.1 h3 with ⟨_, h4⟩ | ⟨h4, _⟩
    · exact h4 rfl
    · exact hxv h4
  refine ⟨?_, ?_, ?_, ?_, ?_, ?_, ?_, ?_, ?_, ?_, ?_, ?_⟩
  · rw [eb, sim_comp hxn]; exact congrArg (sub1 x v) h.hA
  · rw [eb, sim_comp hxn]; exact congrArg (sub1 x v) h.hB
  · simp [h.len]
  · exact List.nodup_cons.2 ⟨hxn, h.nodup⟩
  · intro y hy
    rcases List.mem_cons.1 hy with rfl | hy
    · exact ⟨hx, h.toks _ hx hxm⟩
    · exact h.unk y hy
  · intro y hy
    rcases List.mem_cons.1 hy with rfl | hy
    · exact xn _
    · exact nm (vn y hy) (h.notA y hy)
  · intro y hy
    rcases List.mem_cons.1 hy with rfl | hy
    · exact xn _
    · exact nm (vn y hy) (h.notB y hy)
  · rw [eA]; have := List.length_pos_iff.2 hR; simp; omega
  · rw [eA, eB, ← List.append_assoc, ← List.append_assoc, List.take_left' (by simp), List.take_left' (by simp)]
  · intro e he
    rcases List.mem_cons.1 he with rfl | he
    · refine ⟨Nat.le_refl _, by rw [eT]; exact hm, hmin⟩
    · obtain ⟨e0, he0, rfl⟩ := List.mem_map.1 he
      obtain ⟨s1, s2, s3⟩ := h.segs e0 he0
      have hc := cur_end (x := x) (v := v) (a := a) (e := e0) (by omega)
      refine ⟨by omega, ?_, ?_⟩
      · rw [eS e0 he0]; exact nm hm s2
      · rw [hc.2]
        by_cases hv0 : v = []
        · rw [hv0] at hmin; simp at hmin; omega
        · have h5 := length_sub1 x hv0 (slice a e0)
          have : (slice a e0).length = e0.2 := by unfold slice; simp; omega
          omega
  · intro y hy hm'
    have key : ∀ l, (∀ z ∈ l, z ∈ A ∨ z ∈ B) → y ∈ sub1 x v l → y ∈ A ∨ y ∈ B := by
      intro l hl h3
      rcases mem_sub1.1 h3 with ⟨h4, _⟩ | ⟨h4, _⟩
      · exact hl y h4
      · exact hv y h4
    rcases hm' with h3 | h3
    · exact h.toks y hy (key A (fun z hz => Or.inl hz) h3)
    · exact h.toks y hy (key B (fun z hz => Or.inr hz) h3)
  · rw [List.pairwise_cons]
    constructor
    · intro e he
      obtain ⟨e0, he0, rfl⟩ := List.mem_map.1 he
      have := (h.segs e0 he0).1
      exact (cur_end (x := x) (v := v) (a := a) (e := e0) (by omega)).1
    · rw [List.pairwise_map]
      refine h.ord.imp ?_
      intro e e' hee
      have h1 := newPos_mono x v a (show e'.1 ≤ e'.1 + e'.2 by omega)
      have h2 := newPos_mono x v a hee
      unfold cur
      dsimp only
      omega

/-- Replacing a variable of the first scheme. -/
theorem core_inA {C : Cfg} {A0 B0 vars : List Nat} {seg : List (Nat × Nat)} {A B : List Nat} {p x : Nat} {v a t b : List Nat}
    (h : Core C A0 B0 vars seg A B p) (ha : A = a ++ x :: t) (hb : B = a ++ (v ++ b)) (hp : a.length = p)
    (hx : C.mt < x) (hxv : x ∉ v) (hm : C.mt ∉ v) (hmin : C.min ≤ v.length) :
    Core C A0 B0 (x :: vars) (((sub1 x v a).length, v.length) :: seg.map (cur x v a)) (sub1 x v A) (sub1 x v B) ((sub1 x v a).length + v.length) :=
  core_gen h ha hb hp (R := sub1 x v t) (R' := sub1 x v b) (sub1_cons_eq _ _ _) (by rw [sub1_append, sub1_none v hxv]) (by
    obtain ⟨A1, e1⟩ := h.endA
    have hmt : C.mt ∈ t := by
      have h1 : (a ++ x :: t).getLast? = some C.mt := by rw [← ha, e1]; simp
      cases t with
      | nil => simp at h1; omega
      | cons c t => rw [List.getLast?_append_cons, List.getLast?_cons_cons] at h1; exact List.mem_of_getLast? h1
    have : C.mt ∈ sub1 x v t := mem_sub1.2 (Or.inl ⟨hmt, by omega⟩)
    intro h0; rw [h0] at this; simp at this) hx (Or.inl (by rw [ha]; simp))
    (by intro y hy; right; rw [hb]; simp [hy]) hxv hm hmin

/-- Replacing a variable of the second scheme. -/
theorem core_inB {C : Cfg} {A0 B0 vars : List Nat} {seg : List (Nat × Nat)} {A B : List Nat} {p x : Nat} {v a t b : List Nat}
    (h : Core C A0 B0 vars seg A B p) (ha : B = a ++ x :: t) (hb : A = a ++ (v ++ b)) (hp : a.length = p)
    (hx : C.mt < x) (hxv : x ∉ v) (hm : C.mt ∉ v) (hmin : C.min ≤ v.length) :
    Core C A0 B0 (x :: vars) (((sub1 x v a).length, v.length) :: seg.map (cur x v a)) (sub1 x v A) (sub1 x v B) ((sub1 x v a).length + v.length) :=
  core_gen h hb ha hp (R := sub1 x v b) (R' := sub1 x v t) (by rw [sub1_append, sub1_none v hxv]) (sub1_cons_eq _ _ _) (by
    obtain ⟨A1, e1⟩ := h.endA
    have hmt : C.mt ∈ b := by
      have h1 : (a ++ (v ++ b)).getLast? = some C.mt := by rw [← hb, e1]; simp
      cases b with
      | nil =>
        have hl := h.pA
        rw [hb] at hl
        cases v using List.reverseRecOn with
        | nil => simp at hl; omega
        | append_singleton v c => simp [← List.append_assoc] at h1; subst h1; simp at hm
      | cons c t => rw [← List.append_assoc, List.getLast?_append_cons] at h1; exact List.mem_of_getLast? h1
    have : C.mt ∈ sub1 x v b := mem_sub1.2 (Or.inl ⟨hmt, by omega⟩)
    intro h0; rw [h0] at this; simp at this) hx (Or.inr (by rw [ha]; simp))
    (by intro y hy; left; rw [hb]; simp [hy]) hxv hm hmin

theorem core_start (C : Cfg) (A0 B0 : List Nat) : Core C A0 B0 [] [] (A0 ++ [C.mt]) (B0 ++ [C.mt]) 0 := by
  have e : ∀ l : List Nat, sim [] l = l := by intro l; simp [sim, assoc]
  refine ⟨by simp [binds, e], by simp [binds, e], rfl, List.nodup_nil, by simp, by simp, by simp, by simp, by simp, by simp, ?_, List.Pairwise.nil⟩
  intro y hy h
  simp only [List.mem_append, List.mem_singleton] at h
  rcases h with (h | h) | (h | h)
  · exact Or.inl h
  · omega
  · exact Or.inr h
  · omega

end MM.Unif
