import Verif.Pool.Sane
/-!
# C85: the allocator
-/
namespace MM.Pool

section
variable {s : St} {held : List Nat}

theorem purgeGo_spec (max : Int) (u : Bool) : ∀ (l : List Nat) (s : St), s.free = l → Sane s held →
    ∃ s', purgeGo max u l s = .val s' ∧ Sane s' held ∧ s'.used = s.used ∧ (∀ q ∈ held, s'.heap q = s.heap q) ∧
      (u = false → s'.free = []) ∧ (u = true → s'.total ≤ max ∨ s'.free = [])
  | [], s, hf, H => by
    refine ⟨_, rfl, ⟨H.nodup, H.live, H.used, H.freeLoc, H.held, H.total, H.usedMax, ?_⟩, rfl, fun _ _ => rfl, fun _ => hf, fun _ => .inr hf⟩
    show s.free.length ≤ grow
    rw [hf]; simp
  | p :: r, s, hf, H => by
    obtain ⟨b, hb⟩ := H.blk (p := p) (by simp [hf])
    have H1 := H.drop hf hb
    have hq : ∀ q ∈ held, (s.heap.del p) q = s.heap q := fun q hq => del_other _ (fun e => H.not_free hq (by rw [hf, e]; simp))
    rw [purgeGo, get_some hb]; simp only [Out.bind_val]
    split
    · rename_i h
      simp only [Bool.and_eq_true, decide_eq_true_eq] at h
      exact ⟨_, rfl, H1, rfl, hq, fun e => by simp [h.1] at e, fun _ => .inl h.2⟩
    · obtain ⟨s', e, H', hu, hh, h1, h2⟩ := purgeGo_spec max u r { s with free := r, total := s.total - b.alloc, heap := s.heap.del p } rfl H1
      exact ⟨s', e, H', hu, fun q h => (hh q h).trans (hq q h), h1, h2⟩

theorem purge_spec (max : Int) (u : Bool) (H : Sane s held) :
    ∃ s', purge max u s = .val s' ∧ Sane s' held ∧ s'.used = s.used ∧ (∀ q ∈ held, s'.heap q = s.heap q) ∧
      (u = false → s'.free = []) ∧ (u = true → s'.total ≤ max ∨ s'.free = []) := purgeGo_spec max u s.free s rfl H

/-- The outcome of an allocation: either `malloc` failed and the program ends with one of the messages `errs`, or the program holds one more block, of the size it asked for, and
nothing happens to the others. -/
def Gives (m1 : Malloc) (errs : List Nat) (s : St) (held : List Nat) (size : Nat) (o : Out (St × Nat)) : Prop :=
  (∃ n ∈ errs, o = .bug n ∧ ∃ h, m1 h = none) ∨
  ∃ s' p b, o = .val (s', p) ∧ Sane s' (p :: held) ∧ s'.heap p = some b ∧ b.actual = size ∧ size ≤ b.alloc ∧ ∀ q ∈ held, s'.heap q = s.heap q

theorem fresh_gives {m1 : Malloc} {errs : List Nat} {s0 : St} (H : Sane s held) {a size : Nat} (ha : s.heap a = none) (h0 : ∀ q ∈ held, s.heap q = s0.heap q) :
    Gives m1 errs s0 held size (fresh s a size) := by
  refine .inr ⟨_, a, { actual := size, alloc := size, loc := -1 }, rfl, H.new ha (Nat.le_refl _) rfl, set_same _ _ _, rfl, Nat.le_refl _, fun q hq => ?_⟩
  show s.heap.set a _ q = s0.heap q
  rw [set_other _ _ (fun e => ?_), h0 q hq]
  subst e; exact (H.live q).2 (by simp [hq]) ha

theorem twice_gives {max : Int} {n : Nat} {m1 m2 : Malloc} {errs : List Nat} {s0 : St} (p1 : Promise m1) (p2 : Promise m2) (H : Sane s held) (size : Nat) (hn : n ∈ errs)
    (h0 : ∀ q ∈ held, s.heap q = s0.heap q) : Gives m1 errs s0 held size (twice max n m1 m2 s size) := by
  rw [twice]
  cases e : m1 s.heap with
  | some a => exact fresh_gives H (p1 _ _ e) h0
  | none =>
    obtain ⟨s', e', H', -, hh, -, -⟩ := purge_spec max false H
    simp only [Option.elim, e', Out.bind_val]
    cases e2 : m2 s'.heap with
    | some a => exact fresh_gives H' (p2 _ _ e2) fun q hq => (hh q hq).trans (h0 q hq)
    | none => exact .inl ⟨n, hn, rfl, _, e⟩

theorem poolFixedMalloc_spec {max : Int} {m1 m2 : Malloc} (p1 : Promise m1) (p2 : Promise m2) (H : Sane s held) (size : Nat) :
    Gives m1 [25, 26, 1382] s held size (poolFixedMalloc max m1 m2 size s) := by
  rw [poolFixedMalloc.eq_def]
  cases hf : s.free with
  | nil =>
    dsimp only
    cases e : m1 s.heap with
    | some a => exact fresh_gives H (p1 _ _ e) fun _ _ => rfl
    | none => exact .inl ⟨25, by simp, rfl, _, e⟩
  | cons p r =>
    obtain ⟨b, hb⟩ := H.blk (p := p) (by simp [hf])
    have H1 := H.drop hf hb
    have hq : ∀ q ∈ held, (s.heap.del p) q = s.heap q := fun q hq => del_other _ (fun e => H.not_free hq (by rw [hf, e]; simp))
    dsimp only; rw [get_some hb]; simp only [Out.bind_val]
    split
    · cases e : m1 (s.heap.del p) with
      | some a => exact fresh_gives H1 (p1 _ _ e) hq
      | none => exact .inl ⟨1382, by simp, rfl, _, e⟩
    · exact twice_gives p1 p2 H1 size (by simp) hq

theorem pushUsed_spec (H : Sane s held) {p : Nat} {b : Blk} (hp : p ∈ held) (hb : s.heap p = some b) (hl : b.loc = -1) {t : Int} :
    ∃ s', pushUsed { s with total := t } p = .val s' ∧ (∃ m, s.used.length < m ∧
      s' = { s with used := s.used ++ [p], usedMax := m, heap := s.heap.set p { b with loc := s.used.length }, total := t }) := by
  have hm : s.used.length < if s.used.length ≥ s.usedMax then s.usedMax + grow else s.usedMax := by
    have := H.usedMax; simp only [grow]; split <;> omega
  rw [pushUsed]; dsimp only
  rw [if_pos hm, get_some hb]
  exact ⟨_, rfl, _, hm, rfl⟩

theorem poolMalloc_spec {max : Int} {m1 m2 : Malloc} (p1 : Promise m1) (p2 : Promise m2) (H : Sane s held) (size : Nat) :
    Gives m1 [27, 28] s held size (poolMalloc max m1 m2 size s) := by
  obtain ⟨s1, e1, H1, h1⟩ : ∃ s1, (if s.total > max then purge max true s else .val s) = .val s1 ∧ Sane s1 held ∧ ∀ q ∈ held, s1.heap q = s.heap q := by
    split
    · obtain ⟨s', e, H', -, hh, -, -⟩ := purge_spec max true H
      exact ⟨s', e, H', hh⟩
    · exact ⟨s, rfl, H, fun _ _ => rfl⟩
  rw [poolMalloc, e1]; simp only [Out.bind_val]
  cases hf : s1.free with
  | nil =>
    dsimp only
    cases e : m1 s1.heap with
    | some a => exact fresh_gives H1 (p1 _ _ e) h1
    | none => exact .inl ⟨27, by simp, rfl, _, e⟩
  | cons p r =>
    obtain ⟨b, hb⟩ := H1.blk (p := p) (by simp [hf])
    have hpn : p ∉ held := fun h => H1.not_free h (by simp [hf])
    have hq : ∀ q ∈ held, (s1.heap.del p) q = s.heap q := fun q hq => (del_other _ (ne_of hpn hq)).trans (h1 q hq)
    dsimp only; rw [get_some hb]; simp only [Out.bind_val]
    by_cases hs : size ≤ b.alloc
    · rw [if_pos hs]
      have H2 := H1.reuse (c := { b with actual := size, loc := -1 }) hf hb hs rfl
      have hv : ∀ c, ∀ q ∈ held, (s1.heap.set p c) q = s.heap q := fun c q hq => (set_other _ _ (ne_of hpn hq)).trans (h1 q hq)
      by_cases he : size = b.alloc
      · rw [if_pos he]
        exact .inr ⟨_, p, _, rfl, H2, set_same _ _ _, rfl, hs, hv _⟩
      · rw [if_neg he]
        obtain ⟨s3, e3, m, hm, hs3⟩ := pushUsed_spec H2 (p := p) (by simp) (set_same _ _ _) rfl (t := s1.total - b.alloc + b.alloc - size)
        rw [e3]; simp only [Out.bind_val]
        have H3 := H2.add (p := p) (by simp) (set_same _ _ _) rfl hm
        refine .inr ⟨s3, p, { b with actual := size, loc := s1.used.length }, rfl, by rw [hs3]; exact H3, ?_, rfl, hs, fun q hq => ?_⟩
        · rw [hs3]; exact set_same _ _ _
        · rw [hs3]; show ((s1.heap.set p _).set p _) q = _; rw [set_set]; exact hv _ q hq
    · rw [if_neg hs]
      exact twice_gives p1 p2 (H1.drop hf hb) size (by simp) hq

theorem poolFree_spec (H : Sane s held) {p : Nat} (hp : p ∈ held) :
    ∃ s', poolFree p s = .val s' ∧ Sane s' (held.erase p) ∧ s'.free = p :: s.free ∧ ∀ q, q ≠ p → s'.heap.view q = s.heap.view q := by
  obtain ⟨b, hb⟩ := H.blk (p := p) (by simp [hp])
  obtain ⟨s1, e1, hb1, hf1, hm1, hv, H1⟩ := unuse_spec H hp hb
  rw [poolFree, get_some hb]; simp only [Out.bind_val]
  rw [e1]; simp only [Out.bind_val]
  have hm : s1.free.length < if s1.free.length ≥ s1.freeMax then s1.freeMax + grow else s1.freeMax := by
    have := H1.freeMax; dsimp only at this; simp only [grow]; split <;> omega
  rw [if_pos hm, get_some hb1]
  have H2 := H1.release hp (set_same _ _ _) rfl hm
  dsimp only at H2; rw [set_set] at H2
  refine ⟨_, rfl, H2, by simp [hf1], fun q hq => ?_⟩
  show (s1.heap.set p _).view q = _
  rw [view_eq (set_other _ _ hq)]; exact hv q

theorem addToUsedPool_spec (H : Sane s held) {p : Nat} {b : Blk} (hp : p ∈ held) (hb : s.heap p = some b) (hl : b.loc = -1) (hne : b.actual ≠ b.alloc) :
    ∃ s', addToUsedPool p s = .val s' ∧ Sane s' held ∧ s'.heap.view p = s.heap.view p ∧ ∀ q, q ≠ p → s'.heap q = s.heap q := by
  rw [addToUsedPool, get_some hb]; simp only [Out.bind_val]
  rw [if_neg hne]
  obtain ⟨s3, e3, m, hm, hs3⟩ := pushUsed_spec H hp hb hl (t := s.total)
  rw [show pushUsed s p = .val s3 from e3]
  have := H.add hp hb hl hm
  subst hs3
  exact ⟨_, rfl, this, by simp [Heap.view, set_same, hb], fun q hq => set_other _ _ hq⟩

theorem setActual_spec (H : Sane s held) {p n : Nat} {b : Blk} (hp : p ∈ held) (hb : s.heap p = some b) (hn : n ≤ b.alloc) :
    ∃ s', setActual p n s = .val s' ∧ Sane s' held ∧ s'.heap.view p = some (n, b.alloc, b.data) ∧ ∀ q, q ≠ p → s'.heap q = s.heap q := by
  have H1 := H.change (c := { b with actual := n }) hp hb rfl rfl hn
  rw [setActual, get_some hb]; simp only [Out.bind_val]
  have hoth : ∀ q, q ≠ p → s.heap.set p { b with actual := n } q = s.heap q := fun q hq => set_other _ _ hq
  have hvp : (s.heap.set p { b with actual := n }).view p = some (n, b.alloc, b.data) := by simp [Heap.view, set_same]
  by_cases e : n ≠ b.alloc
  · rw [if_pos e, if_neg (by omega)]
    by_cases hl : b.loc = -1
    · rw [if_pos hl]
      rw [if_neg (by simp [hl])] at H1
      obtain ⟨s', e', H', hv, hh⟩ := addToUsedPool_spec H1 hp (set_same _ _ _) hl e
      exact ⟨s', e', H', hv.trans hvp, fun q hq => (hh q hq).trans (hoth q hq)⟩
    · rw [if_neg hl]
      rw [if_pos hl] at H1
      exact ⟨_, rfl, by rw [show s.total + ((b.actual : Int) - n) = s.total + b.actual - n by omega]; exact H1, hvp, hoth⟩
  · rw [if_neg e]
    by_cases hl : b.loc = -1
    · rw [if_neg (by simp [hl])] at H1 ⊢
      exact ⟨_, rfl, H1, hvp, hoth⟩
    · rw [if_pos hl] at H1 ⊢
      exact ⟨_, rfl, by rw [show s.total + ((b.actual : Int) - n) = s.total + b.actual - n by omega]; exact H1, hvp, hoth⟩

theorem nmbrZapLen_spec (H : Sane s held) {p n : Nat} {b : Blk} (hp : p ∈ held) (hb : s.heap p = some b) (hn : (n + 1) * w ≤ b.alloc) :
    ∃ s', nmbrZapLen p n s = .val s' ∧ Sane s' held ∧ s'.heap.view p = some ((n + 1) * w, b.alloc, b.data.take n) ∧ ∀ q, q ≠ p → s'.heap q = s.heap q := by
  have H1 := H.change (c := { b with actual := (n + 1) * w, data := b.data.take n }) hp hb rfl rfl hn
  rw [nmbrZapLen, get_some hb]; simp only [Out.bind_val]
  exact ⟨_, rfl, H1, by simp [Heap.view, set_same], fun q hq => set_other _ _ hq⟩

theorem sumOver_tot (h : Heap) (f : Blk → Int) : ∀ l : List Nat, (∀ p ∈ l, h p ≠ none) → sumOver h f l = .val (tot (fun p => (h p).elim 0 f) l)
  | [], _ => rfl
  | p :: l, hl => by
    cases e : h p with
    | none => exact absurd e (hl p (by simp))
    | some b => rw [sumOver, get_some e, sumOver_tot h f l fun q hq => hl q (by simp [hq])]; simp [tot, e]

theorem stats_spec (H : Sane s held) : ∃ a u, getPoolStats s = .val (a, u) ∧ s.total = a + u := by
  rw [getPoolStats, sumOver_tot _ _ _ (fun p hp => (H.live p).2 (by simp [hp])), sumOver_tot _ _ _ (fun p hp => (H.live p).2 (by simp [H.mem_used hp]))]
  exact ⟨_, _, rfl, H.total⟩

end

/-! ## Histories -/

/-- What the program may ask of the allocator. -/
inductive Op where
  | malloc (m1 m2 : Malloc) (size : Nat)
  | fixedMalloc (m1 m2 : Malloc) (size : Nat)
  | free (p : Nat)
  | resize (p n : Nat)
  | zap (p n : Nat)
  | purge (untilOK : Bool)

/-- The program frees and shortens only blocks that it holds. -/
def Legal (s : St) (held : List Nat) : Op → Prop
  | .malloc m1 m2 _ | .fixedMalloc m1 m2 _ => Promise m1 ∧ Promise m2
  | .free p => p ∈ held
  | .resize p n => p ∈ held ∧ ∃ b, s.heap p = some b ∧ n ≤ b.alloc
  | .zap p n => p ∈ held ∧ ∃ b, s.heap p = some b ∧ (n + 1) * w ≤ b.alloc
  | .purge _ => True

def exec (max : Int) (s : St) (held : List Nat) : Op → Out (St × List Nat)
  | .malloc m1 m2 size => poolMalloc max m1 m2 size s >>= fun r => .val (r.1, r.2 :: held)
  | .fixedMalloc m1 m2 size => poolFixedMalloc max m1 m2 size s >>= fun r => .val (r.1, r.2 :: held)
  | .free p => poolFree p s >>= fun s => .val (s, held.erase p)
  | .resize p n => setActual p n s >>= fun s => .val (s, held)
  | .zap p n => nmbrZapLen p n s >>= fun s => .val (s, held)
  | .purge u => purge max u s >>= fun s => .val (s, held)

/-- The states the program can reach from its start. -/
inductive Reach (max : Int) : St → List Nat → Prop
  | start : Reach max {} []
  | step {s held s' held' op} : Reach max s held → Legal s held op → exec max s held op = .val (s', held') → Reach max s' held'

theorem start_sane : Sane {} [] :=
  ⟨by simp, by simp, by simp, by simp, by simp, by simp [tot], by simp, by simp⟩

theorem exec_spec {max : Int} {s : St} {held : List Nat} (H : Sane s held) {op : Op} (L : Legal s held op) :
    (∃ n ∈ [25, 26, 27, 28, 1382], exec max s held op = .bug n) ∨ ∃ s' held', exec max s held op = .val (s', held') ∧ Sane s' held' := by
  cases op with
  | malloc m1 m2 size =>
    rcases poolMalloc_spec (max := max) L.1 L.2 H size with ⟨n, hn, e, -⟩ | ⟨s', p, b, e, H', -⟩
    · exact .inl ⟨n, by simp at hn ⊢; omega, by simp [exec, e]⟩
    · exact .inr ⟨s', p :: held, by simp [exec, e], H'⟩
  | fixedMalloc m1 m2 size =>
    rcases poolFixedMalloc_spec (max := max) L.1 L.2 H size with ⟨n, hn, e, -⟩ | ⟨s', p, b, e, H', -⟩
    · exact .inl ⟨n, by simp at hn ⊢; omega, by simp [exec, e]⟩
    · exact .inr ⟨s', p :: held, by simp [exec, e], H'⟩
  | free p =>
    obtain ⟨s', e, H', -⟩ := poolFree_spec H L
    exact .inr ⟨s', _, by simp [exec, e], H'⟩
  | resize p n =>
    obtain ⟨hp, b, hb, hn⟩ := L
    obtain ⟨s', e, H', -⟩ := setActual_spec H hp hb hn
    exact .inr ⟨s', held, by simp [exec, e], H'⟩
  | zap p n =>
    obtain ⟨hp, b, hb, hn⟩ := L
    obtain ⟨s', e, H', -⟩ := nmbrZapLen_spec H hp hb hn
    exact .inr ⟨s', held, by simp [exec, e], H'⟩
  | purge u =>
    obtain ⟨s', e, H', -⟩ := purge_spec max u H
    exact .inr ⟨s', held, by simp [exec, e], H'⟩

theorem Reach.sane {max : Int} {s : St} {held : List Nat} (R : Reach max s held) : Sane s held := by
  induction R with
  | start => exact start_sane
  | step R L e ih =>
    rcases exec_spec (max := max) ih L with ⟨n, -, e'⟩ | ⟨s', held', e', H'⟩
    · rw [e'] at e; cases e
    · rw [e'] at e; cases e; exact H'

/-- **C85** (no undefined behaviour): whatever a program that frees and shortens only what it holds asks of the allocator, after any history, no array of the pools is exceeded and no block that is
not allocated is used; the only failures are those of `malloc`. -/
theorem C85_pool_no_ub {max : Int} {s : St} {held : List Nat} (R : Reach max s held) (op : Op) (L : Legal s held op) :
    (∃ n ∈ [25, 26, 27, 28, 1382], exec max s held op = .bug n) ∨ ∃ s' held', exec max s held op = .val (s', held') := by
  rcases exec_spec (max := max) R.sane L with h | ⟨s', held', e, -⟩
  · exact .inl h
  · exact .inr ⟨s', held', e⟩

/-- **C85** (no block twice, no leak): the blocks the program holds are distinct, none of them is in the free pool, and the allocated blocks are those held and those in the free pool. -/
theorem C85_pool_no_leak {max : Int} {s : St} {held : List Nat} (R : Reach max s held) :
    held.Nodup ∧ s.free.Nodup ∧ (∀ p, p ∈ held → p ∉ s.free) ∧ ∀ p, s.heap p ≠ none ↔ p ∈ held ∨ p ∈ s.free := by
  have H := R.sane
  refine ⟨H.held_nodup, (List.nodup_append.1 H.nodup).1, fun p h => H.not_free h, fun p => ?_⟩
  rw [H.live p, List.mem_append]; exact or_comm

/-- **C85** (the count): `poolTotalFree` is always the number that `getPoolStats` finds by adding up, which is the number of bytes in the free pool and of spare bytes in the used pool. -/
theorem C85_pool_count {max : Int} {s : St} {held : List Nat} (R : Reach max s held) :
    ∃ a u, getPoolStats s = .val (a, u) ∧ s.total = a + u ∧ 0 ≤ a ∧ 0 ≤ u := by
  have H := R.sane
  have hnn : ∀ (f : Nat → Int) (l : List Nat), (∀ p ∈ l, 0 ≤ f p) → 0 ≤ tot f l := by
    intro f l; induction l with
    | nil => intro _; simp [tot]
    | cons a l ih => intro h; have := h a (by simp); have := ih fun p hp => h p (by simp [hp]); simp only [tot]; omega
  have h1 := sumOver_tot s.heap (fun b => (b.alloc : Int)) s.free (fun p hp => (H.live p).2 (by simp [hp]))
  have h2 := sumOver_tot s.heap (fun b => (b.alloc : Int) - b.actual) s.used (fun p hp => (H.live p).2 (by simp [H.mem_used hp]))
  refine ⟨_, _, by rw [getPoolStats, h1, h2]; rfl, H.total, hnn _ _ fun p _ => ?_, hnn _ _ fun p hp => ?_⟩
  · show 0 ≤ bytes s.heap p
    unfold bytes; cases s.heap p <;> simp
  · show 0 ≤ slack s.heap p
    unfold slack
    cases e : s.heap p with
    | none => simp
    | some b => have := (H.held p (H.mem_used hp) b e).1; simp; omega

/-- **C85** (`poolMalloc`): unless `malloc` fails, the program gets a block that it did not hold, with the size it asked for and room for it; the other blocks it holds are untouched. -/
theorem C85_pool_malloc {max : Int} {s : St} {held : List Nat} (R : Reach max s held) {m1 m2 : Malloc} (p1 : Promise m1) (p2 : Promise m2) (size : Nat) :
    (∃ n, poolMalloc max m1 m2 size s = .bug n ∧ (n = 27 ∨ n = 28) ∧ ∃ h, m1 h = none) ∨
    ∃ s' p b, poolMalloc max m1 m2 size s = .val (s', p) ∧ p ∉ held ∧ s'.heap p = some b ∧ b.actual = size ∧ size ≤ b.alloc ∧ (∀ q ∈ held, s'.heap q = s.heap q) ∧
      Reach max s' (p :: held) := by
  rcases poolMalloc_spec (max := max) p1 p2 R.sane size with ⟨n, hn, e, hm⟩ | ⟨s', p, b, e, H', hb, ha, hs, hh⟩
  · exact .inl ⟨n, e, by simpa using hn, hm⟩
  · exact .inr ⟨s', p, b, e, (List.nodup_cons.1 H'.held_nodup).1, hb, ha, hs, hh, R.step (op := .malloc m1 m2 size) ⟨p1, p2⟩ (by simp [exec, e])⟩

/-- **C85** (`poolFixedMalloc`): the same, and the block is not longer than asked for. -/
theorem C85_pool_fixed {max : Int} {s : St} {held : List Nat} (R : Reach max s held) {m1 m2 : Malloc} (p1 : Promise m1) (p2 : Promise m2) (size : Nat) :
    (∃ n, poolFixedMalloc max m1 m2 size s = .bug n ∧ (n = 25 ∨ n = 26 ∨ n = 1382) ∧ ∃ h, m1 h = none) ∨
    ∃ s' p b, poolFixedMalloc max m1 m2 size s = .val (s', p) ∧ p ∉ held ∧ s'.heap p = some b ∧ b.actual = size ∧ b.alloc = size ∧ (∀ q ∈ held, s'.heap q = s.heap q) ∧
      Reach max s' (p :: held) := by
  rcases poolFixedMalloc_spec (max := max) p1 p2 R.sane size with ⟨n, hn, e, hm⟩ | ⟨s', p, b, e, H', hb, ha, hs, hh⟩
  · exact .inl ⟨n, e, by simpa using hn, hm⟩
  · refine .inr ⟨s', p, b, e, (List.nodup_cons.1 H'.held_nodup).1, hb, ha, ?_, hh, R.step (op := .fixedMalloc m1 m2 size) ⟨p1, p2⟩ (by simp [exec, e])⟩
    have hfr : ∀ (s0 : St) (a : Nat), fresh s0 a size = .val (s', p) → b.alloc = size := by
      intro s0 a h
      simp only [fresh, Out.val.injEq, Prod.mk.injEq] at h
      obtain ⟨h1, h2⟩ := h
      subst h1; subst h2
      rw [show ({ s0 with heap := s0.heap.set a { actual := size, alloc := size, loc := -1 } } : St).heap a = _ from set_same _ _ _] at hb
      cases hb; rfl
    have htw : ∀ (s0 : St), twice max 26 m1 m2 s0 size = .val (s', p) → b.alloc = size := by
      intro s0 h
      rw [twice] at h
      cases e1 : m1 s0.heap with
      | some a => rw [e1] at h; exact hfr _ _ h
      | none =>
        rw [e1] at h
        simp only [Option.elim] at h
        cases e2 : purge max false s0 with
        | val s1 =>
          rw [e2] at h; simp only [Out.bind_val] at h
          cases e3 : m2 s1.heap with
          | some a => rw [e3] at h; exact hfr _ _ h
          | none => rw [e3] at h; cases h
        | ub => rw [e2] at h; cases h
        | bug n => rw [e2] at h; cases h
        | fuel => rw [e2] at h; cases h
    rw [poolFixedMalloc.eq_def] at e
    cases hf : s.free with
    | nil =>
      rw [hf] at e; dsimp only at e
      cases e1 : m1 s.heap with
      | some a => rw [e1] at e; exact hfr _ _ e
      | none => rw [e1] at e; cases e
    | cons q r =>
      obtain ⟨c, hc⟩ := R.sane.blk (p := q) (by simp [hf])
      rw [hf] at e; dsimp only at e
      rw [get_some hc] at e; simp only [Out.bind_val] at e
      split at e
      · cases e1 : m1 (s.heap.del q) with
        | some a => rw [e1] at e; exact hfr _ _ e
        | none => rw [e1] at e; cases e
      · exact htw _ e

/-- **C85** (`poolFree`): a block that the program holds can be freed; nothing else it holds changes for it, and the block is the next one `poolMalloc` tries. -/
theorem C85_pool_free {max : Int} {s : St} {held : List Nat} (R : Reach max s held) {p : Nat} (hp : p ∈ held) :
    ∃ s', poolFree p s = .val s' ∧ (∀ q, q ≠ p → s'.heap.view q = s.heap.view q) ∧ s'.free = p :: s.free ∧ Reach max s' (held.erase p) := by
  obtain ⟨s', e, -, hf, hv⟩ := poolFree_spec R.sane hp
  exact ⟨s', e, hv, hf, R.step (op := .free p) hp (by simp [exec, e])⟩

/-- **C85** (`memFreePoolPurge`): `memFreePoolPurge(0)` gives back to the system all that the program does not hold; `memFreePoolPurge(1)` gives back blocks until the count is not above
the maximum, or all. -/
theorem C85_pool_purge {max : Int} {s : St} {held : List Nat} (R : Reach max s held) :
    (∃ s', purge max false s = .val s' ∧ (∀ p, s'.heap p ≠ none ↔ p ∈ held) ∧ ∀ q ∈ held, s'.heap q = s.heap q) ∧
    ∃ s', purge max true s = .val s' ∧ (s'.total ≤ max ∨ ∀ p, s'.heap p ≠ none ↔ p ∈ held) ∧ ∀ q ∈ held, s'.heap q = s.heap q := by
  constructor
  · obtain ⟨s', e, H', -, hh, hf, -⟩ := purge_spec max false R.sane
    exact ⟨s', e, fun p => by rw [H'.live p, hf rfl]; simp, hh⟩
  · obtain ⟨s', e, H', -, hh, -, hf⟩ := purge_spec max true R.sane
    exact ⟨s', e, (hf rfl).imp id fun h p => by rw [H'.live p, h]; simp, hh⟩

/-- A `malloc` for examples. -/
def bump (h : Heap) : Option Nat := (List.range 50).find? fun p => (h p).isNone

theorem bump_promise : Promise bump := by
  intro h a e
  have := List.find?_some e
  simpa using this

/-- Three blocks, one of them freed, used again with room to spare, and freed again. -/
example : ((exec 100 {} [] (.malloc bump bump 40)) >>= fun r => exec 100 r.1 r.2 (.malloc bump bump 24) >>= fun r => exec 100 r.1 r.2 (.free 0) >>= fun r =>
    exec 100 r.1 r.2 (.malloc bump bump 16) >>= fun r => exec 100 r.1 r.2 (.resize 1 8) >>= fun r => exec 100 r.1 r.2 (.free 0) >>= fun r =>
    .val (r.1.used, r.1.free, r.1.total, r.2, r.1.heap 1)) = .val ([1], [0], 56, [1], some { actual := 8, alloc := 24, loc := 0 }) := by decide +kernel

end MM.Pool
