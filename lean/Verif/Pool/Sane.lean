import Verif.Pool.Model
import Mathlib.Data.List.Nodup
/-!
# The invariant of the pools, and the steps it survives
-/
namespace MM.Pool

/-- What `malloc` promises. -/
def Promise (m : Malloc) : Prop := ∀ h a, m h = some a → h a = none

/-- A sum over a list. -/
def tot (f : Nat → Int) : List Nat → Int
  | [] => 0
  | p :: ps => f p + tot f ps

/-- The bytes of a block. -/
def bytes (h : Heap) (p : Nat) : Int := (h p).elim 0 fun b => b.alloc
/-- The bytes of a block that its user does not need. -/
def slack (h : Heap) (p : Nat) : Int := (h p).elim 0 fun b => b.alloc - b.actual

/-- The pools are consistent, when the program holds the blocks `held`: no block is both held and free, or twice; the allocated blocks are those (no leak, no dangling pointer);
the used pool and the `loc` elements agree; and `poolTotalFree` counts the bytes of the free pool and the spare bytes of the used pool. -/
structure Sane (s : St) (held : List Nat) : Prop where
  nodup : (s.free ++ held).Nodup
  live : ∀ p, s.heap p ≠ none ↔ p ∈ s.free ++ held
  used : ∀ (i : Nat) p, s.used[i]? = some p → ∃ b, s.heap p = some b ∧ b.loc = i
  freeLoc : ∀ p ∈ s.free, ∀ b, s.heap p = some b → b.loc = -2
  held : ∀ p ∈ held, ∀ b, s.heap p = some b → b.actual ≤ b.alloc ∧ (b.loc = -1 ∨ ∃ i : Nat, b.loc = i ∧ s.used[i]? = some p)
  total : s.total = tot (bytes s.heap) s.free + tot (slack s.heap) s.used
  usedMax : s.used.length ≤ s.usedMax
  freeMax : s.free.length ≤ s.freeMax

/-- What the user of a block sees of it. -/
def Heap.view (h : Heap) (p : Nat) : Option (Nat × Nat × List Int) := (h p).map fun b => (b.actual, b.alloc, b.data)

theorem view_eq {h h' : Heap} {p : Nat} (e : h' p = h p) : h'.view p = h.view p := by simp [Heap.view, e]

theorem tot_append (f : Nat → Int) : ∀ a b, tot f (a ++ b) = tot f a + tot f b
  | [], b => by simp [tot]
  | p :: a, b => by simp [tot, tot_append f a b]; omega

theorem tot_congr {f g : Nat → Int} : ∀ {l : List Nat}, (∀ p ∈ l, f p = g p) → tot f l = tot g l
  | [], _ => rfl
  | p :: l, h => by simp [tot, h p (by simp), tot_congr (l := l) (fun q hq => h q (by simp [hq]))]

theorem tot_upd {f g : Nat → Int} {p : Nat} : ∀ {l : List Nat}, l.Nodup → p ∈ l → (∀ q, q ≠ p → g q = f q) → tot g l = tot f l + g p - f p
  | q :: l, hn, hp, h => by
    rw [List.nodup_cons] at hn
    by_cases e : q = p
    · subst e
      have := tot_congr (f := g) (g := f) (l := l) (fun r hr => h r (fun e => hn.1 (e ▸ hr)))
      simp only [tot]; omega
    · have hp' : p ∈ l := by simpa [Ne.symm e] using hp
      have := tot_upd (f := f) (g := g) hn.2 hp' h
      have := h q e
      simp only [tot]; omega

theorem tot_set (f : Nat → Int) (a p : Nat) : ∀ (l : List Nat) (i : Nat), l[i]? = some p → tot f (l.set i a) = tot f l - f p + f a
  | [], i, h => by simp at h
  | q :: l, 0, h => by simp at h; subst h; simp only [List.set_cons_zero, tot]; omega
  | q :: l, i + 1, h => by
    have := tot_set f a p l i (by simpa using h)
    simp only [List.set_cons_succ, tot]; omega

theorem get_some {h : Heap} {p : Nat} {b : Blk} (e : h p = some b) : h.get p = .val b := by simp [Heap.get, e]

theorem ne_of {l : List Nat} {p q : Nat} (h : p ∉ l) (hq : q ∈ l) : q ≠ p := fun e => h (e ▸ hq)

theorem set_same (h : Heap) (p : Nat) (b : Blk) : (h.set p b) p = some b := by simp [Heap.set]
theorem set_other (h : Heap) {p q : Nat} (b : Blk) (n : q ≠ p) : (h.set p b) q = h q := by simp [Heap.set, n]
theorem set_set (h : Heap) (p : Nat) (b c : Blk) : (h.set p b).set p c = h.set p c := by funext q; simp only [Heap.set]; split <;> rfl
theorem del_same (h : Heap) (p : Nat) : (h.del p) p = none := by simp [Heap.del]
theorem del_other (h : Heap) {p q : Nat} (n : q ≠ p) : (h.del p) q = h q := by simp [Heap.del, n]

section
variable {s : St} {held : List Nat}

theorem Sane.blk (H : Sane s held) {p : Nat} (hp : p ∈ s.free ++ held) : ∃ b, s.heap p = some b := by
  have := (H.live p).2 hp
  cases e : s.heap p with
  | none => exact absurd e this
  | some b => exact ⟨b, rfl⟩

theorem Sane.used_held (H : Sane s held) {i p : Nat} (h : s.used[i]? = some p) : p ∈ held := by
  obtain ⟨b, hb, hl⟩ := H.used i p h
  have := (H.live p).1 (by simp [hb])
  rcases List.mem_append.1 this with hf | hh
  · have := H.freeLoc p hf b hb; omega
  · exact hh

theorem Sane.mem_used (H : Sane s held) {p : Nat} (h : p ∈ s.used) : p ∈ held := by
  obtain ⟨i, hi⟩ := List.mem_iff_getElem?.1 h
  exact H.used_held hi

theorem Sane.used_nodup (H : Sane s held) : s.used.Nodup := by
  rw [List.nodup_iff_getElem?_ne_getElem?]
  intro i j hij hj e
  have h1 : s.used[j]? = some s.used[j] := List.getElem?_eq_getElem hj
  obtain ⟨b, hb, hl⟩ := H.used j _ h1
  obtain ⟨c, hc, hl'⟩ := H.used i _ (e.trans h1)
  rw [hb] at hc; cases hc; omega

theorem Sane.not_free (H : Sane s held) {p : Nat} (h : p ∈ held) : p ∉ s.free := fun hf =>
  (List.nodup_append.1 H.nodup).2.2 p hf p h rfl

theorem Sane.held_nodup (H : Sane s held) : held.Nodup := (List.nodup_append.1 H.nodup).2.1

/-- The last block of the free pool is given back to the system. -/
theorem Sane.drop (H : Sane s held) {p : Nat} {r : List Nat} {b : Blk} (hf : s.free = p :: r) (hb : s.heap p = some b) :
    Sane { s with free := r, total := s.total - b.alloc, heap := s.heap.del p } held := by
  have hn := H.nodup; rw [hf, List.cons_append, List.nodup_cons] at hn
  have hnf : ∀ q ∈ r ++ held, q ≠ p := fun q hq e => hn.1 (e ▸ hq)
  refine ⟨hn.2, ?_, ?_, ?_, ?_, ?_, H.usedMax, ?_⟩
  · intro q
    by_cases e : q = p
    · subst e; simp only [del_same]; simpa using hn.1
    · show s.heap.del p q ≠ none ↔ q ∈ r ++ held
      rw [del_other _ e, H.live q, hf, List.cons_append, List.mem_cons]; simp [e]
  · intro i q hq
    obtain ⟨c, hc, hl⟩ := H.used i q hq
    exact ⟨c, by show s.heap.del p q = _; rw [del_other _ (hnf q (by simp [H.used_held hq])), hc], hl⟩
  · intro q hq c hc
    rw [show ({ s with free := r, total := s.total - b.alloc, heap := s.heap.del p } : St).heap q = s.heap q from del_other _ (hnf q (by simp [show q ∈ r from hq]))] at hc
    exact H.freeLoc q (by rw [hf]; simp [show q ∈ r from hq]) c hc
  · intro q hq c hc
    rw [show ({ s with free := r, total := s.total - b.alloc, heap := s.heap.del p } : St).heap q = s.heap q from del_other _ (hnf q (by simp [hq]))] at hc
    exact H.held q hq c hc
  · have h1 : tot (bytes (s.heap.del p)) r = tot (bytes s.heap) r := tot_congr fun q hq => by simp [bytes, del_other _ (hnf q (by simp [hq]))]
    have h2 : tot (slack (s.heap.del p)) s.used = tot (slack s.heap) s.used :=
      tot_congr fun q hq => by simp [slack, del_other _ (hnf q (by simp [H.mem_used hq]))]
    show s.total - (b.alloc : Int) = tot (bytes (s.heap.del p)) r + tot (slack (s.heap.del p)) s.used
    have := H.total; rw [hf] at this; simp only [tot] at this
    have hbb : bytes s.heap p = b.alloc := by simp [bytes, hb]
    omega
  · have := H.freeMax; rw [hf] at this; simp at this; show r.length ≤ s.freeMax; omega

/-- The program gets a new block. -/
theorem Sane.new (H : Sane s held) {a : Nat} (ha : s.heap a = none) {b : Blk} (hb : b.actual ≤ b.alloc) (hl : b.loc = -1) :
    Sane { s with heap := s.heap.set a b } (a :: held) := by
  have hna : a ∉ s.free ++ held := fun h => (H.live a).2 h ha
  have hne : ∀ q ∈ s.free ++ held, q ≠ a := fun q hq e => hna (e ▸ hq)
  refine ⟨?_, ?_, ?_, ?_, ?_, ?_, H.usedMax, H.freeMax⟩
  · rw [List.nodup_middle]; exact List.nodup_cons.2 ⟨hna, H.nodup⟩
  · intro q
    show s.heap.set a b q ≠ none ↔ _
    by_cases e : q = a
    · subst e; simp [set_same]
    · rw [set_other _ _ e, H.live q]; simp [e]
  · intro i q hq
    obtain ⟨c, hc, hl⟩ := H.used i q hq
    exact ⟨c, by show s.heap.set a b q = _; rw [set_other _ _ (hne q (by simp [H.used_held hq])), hc], hl⟩
  · intro q hq c hc
    have hc : s.heap.set a b q = some c := hc
    rw [set_other _ _ (hne q (by simp [show q ∈ s.free from hq]))] at hc
    exact H.freeLoc q hq c hc
  · intro q hq c hc
    have hc : s.heap.set a b q = some c := hc
    by_cases e : q = a
    · subst e; rw [set_same] at hc; cases hc; exact ⟨hb, .inl hl⟩
    · rw [set_other _ _ e] at hc
      exact H.held q (by simpa [e] using hq) c hc
  · show s.total = tot (bytes (s.heap.set a b)) s.free + tot (slack (s.heap.set a b)) s.used
    rw [H.total]
    have h1 : tot (bytes (s.heap.set a b)) s.free = tot (bytes s.heap) s.free := tot_congr fun q hq => by simp [bytes, set_other _ _ (hne q (by simp [hq]))]
    have h2 : tot (slack (s.heap.set a b)) s.used = tot (slack s.heap) s.used :=
      tot_congr fun q hq => by simp [slack, set_other _ _ (hne q (by simp [H.mem_used hq]))]
    rw [h1, h2]

theorem del_set (h : Heap) (p : Nat) (b : Blk) : (h.del p).set p b = h.set p b := by funext q; simp only [Heap.set, Heap.del]; split <;> rfl

/-- The program gets the last block of the free pool. -/
theorem Sane.reuse (H : Sane s held) {p : Nat} {r : List Nat} {b c : Blk} (hf : s.free = p :: r) (hb : s.heap p = some b) (hc : c.actual ≤ c.alloc) (hl : c.loc = -1) :
    Sane { s with free := r, total := s.total - b.alloc, heap := s.heap.set p c } (p :: held) := by
  have := (H.drop hf hb).new (a := p) (by exact del_same _ _) hc hl
  rw [del_set] at this; exact this

/-- Held blocks change, but not their place in the used pool. -/
theorem Sane.change (H : Sane s held) {p : Nat} {b c : Blk} (hp : p ∈ held) (hb : s.heap p = some b) (hl : c.loc = b.loc) (ha : c.alloc = b.alloc) (hc : c.actual ≤ c.alloc) :
    Sane { s with heap := s.heap.set p c, total := if b.loc ≠ -1 then s.total + b.actual - c.actual else s.total } held := by
  refine ⟨H.nodup, ?_, ?_, ?_, ?_, ?_, H.usedMax, H.freeMax⟩
  · intro q
    show s.heap.set p c q ≠ none ↔ q ∈ s.free ++ held
    by_cases e : q = p
    · subst e; simp [set_same, hp]
    · rw [set_other _ _ e, H.live q]
  · intro i q hq
    show ∃ d, s.heap.set p c q = some d ∧ _
    obtain ⟨d, hd, hdl⟩ := H.used i q hq
    by_cases e : q = p
    · subst e; rw [hb] at hd; cases hd; exact ⟨c, set_same _ _ _, hl.trans hdl⟩
    · exact ⟨d, by rw [set_other _ _ e, hd], hdl⟩
  · intro q hq d hd
    have hd : s.heap.set p c q = some d := hd
    rw [set_other _ _ (ne_of (H.not_free hp) hq)] at hd
    exact H.freeLoc q hq d hd
  · intro q hq d hd
    have hd : s.heap.set p c q = some d := hd
    by_cases e : q = p
    · subst e; rw [set_same] at hd; cases hd
      refine ⟨hc, ?_⟩
      rw [hl]; exact (H.held q hq b hb).2
    · rw [set_other _ _ e] at hd; exact H.held q hq d hd
  · show (if b.loc ≠ -1 then s.total + b.actual - c.actual else s.total) = tot (bytes (s.heap.set p c)) s.free + tot (slack (s.heap.set p c)) s.used
    have h1 : tot (bytes (s.heap.set p c)) s.free = tot (bytes s.heap) s.free :=
      tot_congr fun q hq => by simp [bytes, set_other s.heap c (show q ≠ p from fun e => H.not_free hp (e ▸ hq))]
    rw [h1, H.total]
    rcases (H.held p hp b hb).2 with hb1 | ⟨i, hi, hu⟩
    · have h2 : tot (slack (s.heap.set p c)) s.used = tot (slack s.heap) s.used := tot_congr fun q hq => by
        have : q ≠ p := fun e => by
          obtain ⟨j, hj⟩ := List.mem_iff_getElem?.1 hq
          obtain ⟨d, hd, hdl⟩ := H.used j q hj
          subst e; rw [hb] at hd; cases hd; omega
        simp [slack, set_other s.heap c this]
      rw [h2, if_neg (by simp [hb1])]
    · have h2 := tot_upd (f := slack s.heap) (g := slack (s.heap.set p c)) H.used_nodup (List.mem_of_getElem? hu) (fun q hq => by simp [slack, set_other s.heap c hq])
      have e1 : slack s.heap p = b.alloc - b.actual := by simp [slack, hb]
      have e2 : slack (s.heap.set p c) p = b.alloc - c.actual := by simp [slack, set_same, ha]
      rw [h2, e1, e2, if_pos (by omega)]; omega

/-- A held block enters the used pool. -/
theorem Sane.add (H : Sane s held) {p : Nat} {b : Blk} {m : Nat} (hp : p ∈ held) (hb : s.heap p = some b) (hl : b.loc = -1) (hm : s.used.length < m) :
    Sane { s with used := s.used ++ [p], usedMax := m, heap := s.heap.set p { b with loc := s.used.length }, total := s.total + b.alloc - b.actual } held := by
  have hnu : p ∉ s.used := fun h => by
    obtain ⟨j, hj⟩ := List.mem_iff_getElem?.1 h
    obtain ⟨d, hd, hdl⟩ := H.used j p hj
    rw [hb] at hd; cases hd; omega
  refine ⟨H.nodup, ?_, ?_, ?_, ?_, ?_, by simp; omega, H.freeMax⟩
  · intro q
    show s.heap.set p _ q ≠ none ↔ q ∈ s.free ++ held
    by_cases e : q = p
    · subst e; simp [set_same, hp]
    · rw [set_other _ _ e, H.live q]
  · intro i q hq
    show ∃ d, s.heap.set p _ q = some d ∧ _
    have hq : (s.used ++ [p])[i]? = some q := hq
    rcases Nat.lt_or_ge i s.used.length with hi | hi
    · rw [List.getElem?_append_left hi] at hq
      obtain ⟨d, hd, hdl⟩ := H.used i q hq
      exact ⟨d, by rw [set_other _ _ (ne_of hnu (List.mem_of_getElem? hq)), hd], hdl⟩
    · rw [List.getElem?_append_right hi] at hq
      have : i - s.used.length = 0 := by
        rcases Nat.eq_zero_or_pos (i - s.used.length) with h | h
        · exact h
        · rw [List.getElem?_eq_none (by simp; omega)] at hq; cases hq
      rw [this] at hq; simp at hq; subst hq
      exact ⟨_, set_same _ _ _, by show (s.used.length : Int) = i; omega⟩
  · intro q hq d hd
    have hd : s.heap.set p _ q = some d := hd
    rw [set_other _ _ (ne_of (H.not_free hp) hq)] at hd
    exact H.freeLoc q hq d hd
  · intro q hq d hd
    have hd : s.heap.set p _ q = some d := hd
    show _ ∧ (_ ∨ ∃ i : Nat, d.loc = i ∧ (s.used ++ [p])[i]? = some q)
    by_cases e : q = p
    · subst e; rw [set_same] at hd; cases hd
      exact ⟨(H.held q hq b hb).1, .inr ⟨s.used.length, rfl, by simp⟩⟩
    · rw [set_other _ _ e] at hd
      obtain ⟨h1, h2⟩ := H.held q hq d hd
      refine ⟨h1, h2.imp id fun ⟨i, hi, hu⟩ => ⟨i, hi, ?_⟩⟩
      have : i < s.used.length := (List.getElem?_eq_some_iff.1 hu).1
      rw [List.getElem?_append_left this]; exact hu
  · show s.total + b.alloc - b.actual = tot (bytes (s.heap.set p _)) s.free + tot (slack (s.heap.set p _)) (s.used ++ [p])
    have h1 : tot (bytes (s.heap.set p { b with loc := s.used.length })) s.free = tot (bytes s.heap) s.free :=
      tot_congr fun q hq => by simp [bytes, set_other s.heap _ (show q ≠ p from fun e => H.not_free hp (e ▸ hq))]
    have h2 : tot (slack (s.heap.set p { b with loc := s.used.length })) s.used = tot (slack s.heap) s.used :=
      tot_congr fun q hq => by simp [slack, set_other s.heap _ (show q ≠ p from fun e => hnu (e ▸ hq))]
    rw [h1, tot_append, h2, H.total]
    simp [tot, slack, set_same]; omega

/-- A held block that is not in the used pool enters the free pool. -/
theorem Sane.release (H : Sane s held) {p : Nat} {b : Blk} {m : Nat} (hp : p ∈ held) (hb : s.heap p = some b) (hl : b.loc = -1) (hm : s.free.length < m) :
    Sane { s with free := p :: s.free, freeMax := m, heap := s.heap.set p { b with loc := -2 }, total := s.total + b.alloc } (held.erase p) := by
  have hpf := H.not_free hp
  have hnu : p ∉ s.used := fun h => by
    obtain ⟨j, hj⟩ := List.mem_iff_getElem?.1 h
    obtain ⟨d, hd, hdl⟩ := H.used j p hj
    rw [hb] at hd; cases hd; omega
  have hmem : ∀ q, q ∈ held.erase p ↔ q ≠ p ∧ q ∈ held := fun q => H.held_nodup.mem_erase_iff
  refine ⟨?_, ?_, ?_, ?_, ?_, ?_, H.usedMax, by simp; omega⟩
  · show ((p :: s.free) ++ held.erase p).Nodup
    have h := H.nodup
    rw [List.nodup_append] at h
    rw [List.cons_append, List.nodup_cons, List.nodup_append]
    refine ⟨by simp [hpf, hmem], h.1, h.2.1.erase p, fun a ha b hb => h.2.2 a ha b ((hmem b).1 hb).2⟩
  · intro q
    show s.heap.set p _ q ≠ none ↔ q ∈ (p :: s.free) ++ held.erase p
    by_cases e : q = p
    · subst e; simp [set_same]
    · rw [set_other _ _ e, H.live q]; simp [hmem, e]
  · intro i q hq
    show ∃ d, s.heap.set p _ q = some d ∧ _
    obtain ⟨d, hd, hdl⟩ := H.used i q hq
    exact ⟨d, by rw [set_other _ _ (ne_of hnu (List.mem_of_getElem? hq)), hd], hdl⟩
  · intro q hq d hd
    have hd : s.heap.set p _ q = some d := hd
    by_cases e : q = p
    · subst e; rw [set_same] at hd; cases hd; rfl
    · rw [set_other _ _ e] at hd
      exact H.freeLoc q (by simpa [e] using hq) d hd
  · intro q hq d hd
    have hd : s.heap.set p _ q = some d := hd
    have := (hmem q).1 hq
    rw [set_other _ _ this.1] at hd
    exact H.held q this.2 d hd
  · show s.total + b.alloc = tot (bytes (s.heap.set p _)) (p :: s.free) + tot (slack (s.heap.set p _)) s.used
    have h1 : tot (bytes (s.heap.set p { b with loc := -2 })) s.free = tot (bytes s.heap) s.free :=
      tot_congr fun q hq => by simp [bytes, set_other s.heap _ (show q ≠ p from fun e => hpf (e ▸ hq))]
    have h2 : tot (slack (s.heap.set p { b with loc := -2 })) s.used = tot (slack s.heap) s.used :=
      tot_congr fun q hq => by simp [slack, set_other s.heap _ (show q ≠ p from fun e => hnu (e ▸ hq))]
    simp only [tot, h1, h2, H.total]
    simp [bytes, set_same]; omega

theorem mem_take_set {l : List Nat} {i k a : Nat} (hi : i < k) (hk : k < l.length) (j : Nat) :
    ((l.set i a).take k)[j]? = if j < k then if j = i then some a else l[j]? else none := by
  rw [List.getElem?_take]
  split
  · rw [List.getElem?_set]
    by_cases e : i = j
    · subst e; simp; omega
    · simp [e, Ne.symm e]
  · rfl

/-- A block leaves the used pool. -/
theorem unuse_spec (H : Sane s held) {p : Nat} {b : Blk} (hp : p ∈ held) (hb : s.heap p = some b) :
    ∃ s', unuse s b = .val s' ∧ s'.heap p = some b ∧ s'.free = s.free ∧ s'.freeMax = s.freeMax ∧ (∀ q, s'.heap.view q = s.heap.view q) ∧
      Sane { s' with heap := s'.heap.set p { b with loc := -1 } } held := by
  have h0 := H.held p hp b hb
  rcases h0.2 with hl | ⟨i, hi, hu⟩
  · refine ⟨s, by rw [unuse, if_neg (by omega)], hb, rfl, rfl, fun _ => rfl, ?_⟩
    have : s.heap.set p { b with loc := -1 } = s.heap := by
      funext q; simp only [Heap.set]; split
      · rename_i e; subst e; rw [hb]; congr 1; cases b; simp at hl; simp [hl]
      · rfl
    rw [this]; exact H
  · have hlt : i < s.used.length := (List.getElem?_eq_some_iff.1 hu).1
    have hne : s.used ≠ [] := by intro e; simp [e] at hlt
    have hpf := H.not_free hp
    have hin : ∀ q d, s.heap q = some d → q ∈ held → ∀ j : Nat, d.loc = j → s.used[j]? = some q := by
      intro q d hd hq j hj
      rcases (H.held q hq d hd).2 with h | ⟨j', h, h'⟩
      · omega
      · have : j = j' := by omega
        subst this; exact h'
    have huniq : ∀ j : Nat, s.used[j]? = some p → j = i := fun j hj => by
      obtain ⟨d, hd, hdl⟩ := H.used j p hj
      rw [hb] at hd; cases hd; omega
    rw [unuse, if_pos (by omega), if_neg hne]
    dsimp only
    have hin' : b.loc.toNat = i := by omega
    rw [hin']
    by_cases hk : i < s.used.length - 1
    · rw [if_pos hk]
      have hq : s.used[s.used.length - 1]? = some (s.used[s.used.length - 1]'(by omega)) := List.getElem?_eq_getElem (by omega)
      obtain ⟨q, hq⟩ : ∃ q, s.used[s.used.length - 1]? = some q := ⟨_, hq⟩
      obtain ⟨c, hc, hcl⟩ := H.used _ q hq
      have hqp : q ≠ p := fun e => by have := huniq _ (e ▸ hq); omega
      rw [Out.read, hq]; simp only [Out.bind_val]
      rw [get_some hc]; simp only [Out.bind_val]
      refine ⟨_, rfl, (set_other _ _ hqp.symm).trans hb, rfl, rfl, ?_, ?_⟩
      · intro r
        show (s.heap.set q _).view r = s.heap.view r
        by_cases e : r = q
        · subst e; simp [Heap.view, set_same, hc]
        · exact view_eq (set_other _ _ e)
      · have hset : ∀ r, r ≠ p → r ≠ q → ((s.heap.set q { c with loc := b.loc }).set p { b with loc := -1 }) r = s.heap r := fun r h1 h2 => by
          rw [set_other _ _ h1, set_other _ _ h2]
        have hsq : ((s.heap.set q { c with loc := b.loc }).set p { b with loc := -1 }) q = some { c with loc := b.loc } := by
          rw [set_other _ _ hqp, set_same]
        have hqh : q ∈ held := H.used_held hq
        refine ⟨H.nodup, ?_, ?_, ?_, ?_, ?_, ?_, H.freeMax⟩
        · intro r
          show ((s.heap.set q { c with loc := b.loc }).set p { b with loc := -1 }) r ≠ none ↔ r ∈ s.free ++ held
          by_cases e : r = p
          · subst e; simp [set_same, hp]
          · by_cases e' : r = q
            · subst e'; rw [hsq]; simp [hqh]
            · rw [hset r e e', H.live r]
        · intro j r hj
          show ∃ d, ((s.heap.set q { c with loc := b.loc }).set p { b with loc := -1 }) r = some d ∧ _
          have hj2 : ((s.used.set i q).take (s.used.length - 1))[j]? = some r := hj
          rw [mem_take_set hk (by omega)] at hj2
          split at hj2
          · split at hj2
            · rename_i e; cases hj2; subst e; exact ⟨_, hsq, hi⟩
            · rename_i hji
              have hrp : r ≠ p := fun e => by subst e; exact hji (huniq _ hj2)
              obtain ⟨d, hd, hdl⟩ := H.used j r hj2
              have hrq : r ≠ q := fun e => by subst e; rw [hc] at hd; cases hd; omega
              exact ⟨d, by rw [hset r hrp hrq, hd], hdl⟩
          · cases hj2
        · intro r hr d hd
          have hd : ((s.heap.set q { c with loc := b.loc }).set p { b with loc := -1 }) r = some d := hd
          rw [hset r (ne_of hpf hr) (ne_of (H.not_free hqh) hr)] at hd
          exact H.freeLoc r hr d hd
        · intro r hr d hd
          have hd : ((s.heap.set q { c with loc := b.loc }).set p { b with loc := -1 }) r = some d := hd
          show _ ∧ (_ ∨ ∃ j : Nat, d.loc = j ∧ ((s.used.set i q).take (s.used.length - 1))[j]? = some r)
          by_cases e : r = p
          · subst e; rw [set_same] at hd; cases hd; exact ⟨h0.1, .inl rfl⟩
          · by_cases e' : r = q
            · subst e'; rw [hsq] at hd; cases hd
              exact ⟨(H.held r hr c hc).1, .inr ⟨i, hi, by rw [mem_take_set hk (by omega), if_pos hk, if_pos rfl]⟩⟩
            · rw [hset r e e'] at hd
              obtain ⟨h1, h2⟩ := H.held r hr d hd
              refine ⟨h1, h2.imp id fun ⟨j, hj, hju⟩ => ⟨j, hj, ?_⟩⟩
              have hjl : j < s.used.length := (List.getElem?_eq_some_iff.1 hju).1
              have : j ≠ s.used.length - 1 := fun e'' => by rw [e''] at hju; rw [hq] at hju; cases hju; exact e' rfl
              have hji : j ≠ i := fun e'' => by rw [e''] at hju; rw [hu] at hju; cases hju; exact e rfl
              rw [mem_take_set hk (by omega), if_pos (by omega), if_neg hji]; exact hju
        · show s.total - (b.alloc : Int) + b.actual = tot (bytes ((s.heap.set q { c with loc := b.loc }).set p { b with loc := -1 })) s.free
            + tot (slack ((s.heap.set q { c with loc := b.loc }).set p { b with loc := -1 })) ((s.used.set i q).take (s.used.length - 1))
          have h1 : tot (bytes ((s.heap.set q { c with loc := b.loc }).set p { b with loc := -1 })) s.free = tot (bytes s.heap) s.free :=
            tot_congr fun r hr => by
              simp only [bytes]; rw [hset r (ne_of hpf hr) (ne_of (H.not_free hqh) hr)]
          have h2 : ∀ l, tot (slack ((s.heap.set q { c with loc := b.loc }).set p { b with loc := -1 })) l = tot (slack s.heap) l := fun l =>
            tot_congr fun r hr => by
              simp only [slack]
              by_cases e : r = p
              · subst e; rw [set_same, hb]; rfl
              · by_cases e' : r = q
                · subst e'; rw [hsq, hc]; rfl
                · rw [hset r e e']
          rw [h1, h2, List.take_set, tot_set _ _ p _ _ (by rw [List.getElem?_take, if_pos hk]; exact hu), H.total]
          have h3 : tot (slack s.heap) s.used = tot (slack s.heap) (s.used.take (s.used.length - 1)) + slack s.heap q := by
            have : s.used = s.used.take (s.used.length - 1) ++ [q] := by
              conv => lhs; rw [← List.take_append_drop (s.used.length - 1) s.used]
              congr 1
              have hq' : s.used[s.used.length - 1]'(by omega) = q := by
                have := List.getElem?_eq_getElem (l := s.used) (i := s.used.length - 1) (by omega)
                rw [this] at hq; exact Option.some.inj hq
              rw [List.drop_eq_getElem_cons (by omega), hq', List.drop_of_length_le (by omega)]
            conv => lhs; rw [this]
            rw [tot_append]; simp [tot]
          have h4 : slack s.heap p = b.alloc - b.actual := by simp [slack, hb]
          omega
        · show ((s.used.set i q).take (s.used.length - 1)).length ≤ s.usedMax
          have := H.usedMax; rw [List.length_take, List.length_set]; omega
    · rw [if_neg hk]
      have hil : i = s.used.length - 1 := by omega
      refine ⟨_, rfl, hb, rfl, rfl, fun _ => rfl, ?_⟩
      have hget : ∀ j : Nat, (s.used.take (s.used.length - 1))[j]? = if j < s.used.length - 1 then s.used[j]? else none := fun j => List.getElem?_take
      refine ⟨H.nodup, ?_, ?_, ?_, ?_, ?_, ?_, H.freeMax⟩
      · intro r
        show (s.heap.set p { b with loc := -1 }) r ≠ none ↔ r ∈ s.free ++ held
        by_cases e : r = p
        · subst e; simp [set_same, hp]
        · rw [set_other _ _ e, H.live r]
      · intro j r hj
        show ∃ d, (s.heap.set p { b with loc := -1 }) r = some d ∧ _
        have hj : (s.used.take (s.used.length - 1))[j]? = some r := hj
        rw [hget] at hj
        split at hj
        · obtain ⟨d, hd, hdl⟩ := H.used j r hj
          have hrp : r ≠ p := fun e => by have := huniq _ (e ▸ hj); omega
          exact ⟨d, by rw [set_other _ _ hrp, hd], hdl⟩
        · cases hj
      · intro r hr d hd
        have hd : (s.heap.set p { b with loc := -1 }) r = some d := hd
        rw [set_other _ _ (ne_of hpf hr)] at hd
        exact H.freeLoc r hr d hd
      · intro r hr d hd
        have hd : (s.heap.set p { b with loc := -1 }) r = some d := hd
        show _ ∧ (_ ∨ ∃ j : Nat, d.loc = j ∧ (s.used.take (s.used.length - 1))[j]? = some r)
        by_cases e : r = p
        · subst e; rw [set_same] at hd; cases hd; exact ⟨h0.1, .inl rfl⟩
        · rw [set_other _ _ e] at hd
          obtain ⟨h1, h2⟩ := H.held r hr d hd
          refine ⟨h1, h2.imp id fun ⟨j, hj, hju⟩ => ⟨j, hj, ?_⟩⟩
          have hjl : j < s.used.length := (List.getElem?_eq_some_iff.1 hju).1
          have hji : j ≠ i := fun e'' => by rw [e''] at hju; rw [hu] at hju; cases hju; exact e rfl
          rw [hget, if_pos (by omega)]; exact hju
      · show s.total - (b.alloc : Int) + b.actual = tot (bytes (s.heap.set p { b with loc := -1 })) s.free
            + tot (slack (s.heap.set p { b with loc := -1 })) (s.used.take (s.used.length - 1))
        have h1 : tot (bytes (s.heap.set p { b with loc := -1 })) s.free = tot (bytes s.heap) s.free :=
          tot_congr fun r hr => by
            simp only [bytes]; rw [set_other _ _ (ne_of hpf hr)]
        have h2 : ∀ l, tot (slack (s.heap.set p { b with loc := -1 })) l = tot (slack s.heap) l := fun l =>
          tot_congr fun r hr => by
            simp only [slack]
            by_cases e : r = p
            · subst e; rw [set_same, hb]; rfl
            · rw [set_other _ _ e]
        have h3 : tot (slack s.heap) s.used = tot (slack s.heap) (s.used.take (s.used.length - 1)) + slack s.heap p := by
          have : s.used = s.used.take (s.used.length - 1) ++ [p] := by
            conv => lhs; rw [← List.take_append_drop (s.used.length - 1) s.used]
            congr 1
            have hq' : s.used[s.used.length - 1]'(by omega) = p := by
              have := List.getElem?_eq_getElem (l := s.used) (i := s.used.length - 1) (by omega)
              rw [hil, this] at hu; exact Option.some.inj hu
            rw [List.drop_eq_getElem_cons (by omega), hq', List.drop_of_length_le (by omega)]
          conv => lhs; rw [this]
          rw [tot_append]; simp [tot]
        have h4 : slack s.heap p = b.alloc - b.actual := by simp [slack, hb]
        rw [h1, h2, H.total]; omega
      · show (s.used.take (s.used.length - 1)).length ≤ s.usedMax
        have := H.usedMax; rw [List.length_take]; omega

end
end MM.Pool
