import Verif.Pfas.UndoSpec

/-!
# Property C53: UNDO, REDO and the warning at EXIT
-/
namespace MM.Pfas
open MM.Veri

theorem copyPip_ok {p : Pip} (h : p.Ok) : copyPip p = .val p := by
  obtain ⟨h1, h2, h3, h4⟩ := h
  unfold copyPip
  rw [if_neg (by simpa using h1), if_neg (by simp [h2]), if_neg (by simp [h3]), if_neg (by simp [h4])]

theorem setSlot_at (a : List Slot) (x y : Slot) (c : List Slot) : setSlot (a ++ x :: c) (a.length : Int) y = .val (a ++ y :: c) := by
  unfold setSlot
  rw [if_pos ⟨by omega, by simp⟩]
  simp

theorem getSlot_at (a : List Slot) (x : Slot) (c : List Slot) : getSlot (a ++ x :: c) (a.length : Int) = .val x := by
  unfold getSlot
  rw [if_pos (by omega)]
  unfold Out.read
  simp

theorem clear_at : ∀ (b a c : List Slot) {i : Int}, i = a.length → ∃ b', b'.length = b.length ∧ clear b.length i (a ++ (b ++ c)) = .val (a ++ (b' ++ c))
  | [], a, c, _, _ => ⟨[], rfl, rfl⟩
  | x :: b, a, c, i, hi => by
    obtain ⟨b', h1, h2⟩ := clear_at b (a ++ [(Pip.empty, [])]) c (i := i + 1) (by simp [hi])
    refine ⟨(Pip.empty, []) :: b', by simp [h1], ?_⟩
    show clear (b.length + 1) i _ = _
    subst hi
    rw [clear, List.cons_append, setSlot_at, Out.bind_val]
    simpa using h2

theorem moveDown_at : ∀ (b a c : List Slot) (x : Slot) {i : Int}, i = a.length → ∃ y, moveDown b.length i (a ++ x :: (b ++ c)) = .val (a ++ (b ++ y :: c))
  | [], a, c, x, _, _ => ⟨x, rfl⟩
  | z :: b, a, c, x, i, hi => by
    obtain ⟨y, h⟩ := moveDown_at b (a ++ [z]) c z (i := i + 1) (by simp [hi])
    refine ⟨y, ?_⟩
    show moveDown (b.length + 1) i _ = _
    subst hi
    have e1 : getSlot (a ++ x :: (z :: b ++ c)) ((a.length : Int) + 1) = .val z := by
      have := getSlot_at (a ++ [x]) z (b ++ c)
      simpa using this
    rw [moveDown, e1, Out.bind_val, setSlot_at, Out.bind_val]
    simpa using h

/-- The static variables hold the history. -/
structure Holds (u : UStack) (h : Hist) : Prop where
  size : u.size = h.limit + 1
  len : u.slots.length = h.limit + 1
  ptr : u.ptr = h.past.length
  last : u.last = h.past.length + h.future.length
  fits : h.past.length + h.future.length ≤ h.limit
  slots : ∃ rest, u.slots = h.past.reverse ++ h.cur :: (h.future ++ rest)
  over : u.overflowed = h.lost
  abor : u.aborted = h.cut
  okP : ∀ x ∈ h.past, x.1.Ok
  okC : h.cur.1.Ok
  okF : ∀ x ∈ h.future, x.1.Ok

theorem Holds.good {u : UStack} {h : Hist} (H : Holds u h) : badPtr u = false := by
  have h1 := H.size; have h2 := H.ptr; have h3 := H.last; have h4 := H.fits
  unfold badPtr
  simp only [Bool.or_eq_false_iff, decide_eq_false_iff_not]
  omega

theorem action_push (u : UStack) (p : Pip) (info : List Char) : action u p info .push =
    (dropRedo u >>= fun v => makeRoom v >>= fun w => store w p info >>= fun x => .val (x, p, .none)) := rfl

/-- `PUS_PUSH` on a stack whose entries 0..ptr are `a` (nonempty or not). -/
theorem push_ok {u : UStack} {a b rest : List Slot} {p : Pip} {info : List Char} {n : Nat} (hp : p.Ok) (hs : u.slots = a ++ (b ++ rest))
    (hl : u.slots.length = n + 1) (hsz : u.size = n + 1) (hptr : u.ptr = (a.length : Int) - 1) (hlast : u.last = (a.length : Int) + b.length - 1) :
    ∃ u' rest', action u p info .push = .val (u', p, .none) ∧ u'.slots = (if a.length = n + 1 then a.tail else a) ++ (p, info) :: rest' ∧
      u'.slots.length = n + 1 ∧ u'.size = n + 1 ∧ u'.ptr = ((if a.length = n + 1 then a.tail else a).length : Int) ∧ u'.last = u'.ptr ∧
      u'.overflowed = (u.overflowed || decide (a.length = n + 1)) ∧ u'.aborted = u.aborted := by
  -- the REDO part
  have h1 : ∃ v r1, dropRedo u = .val v ∧ v.slots = a ++ r1 ∧ v.slots.length = n + 1 ∧ v.size = u.size ∧ v.ptr = u.ptr ∧ v.last = u.ptr ∧ v.overflowed = u.overflowed ∧ v.aborted = u.aborted := by
    unfold dropRedo
    by_cases hb : b = []
    · subst hb
      rw [if_neg (by simp at hlast; omega)]
      exact ⟨u, rest, rfl, by simpa using hs, hl, rfl, rfl, by simp at hlast; omega, rfl, rfl⟩
    · have : 0 < b.length := List.length_pos_iff.2 hb
      rw [if_pos (by omega), show (u.last - u.ptr).toNat = b.length by omega, hs]
      obtain ⟨b', hb1, hb2⟩ := clear_at b a rest (i := u.ptr + 1) (by omega)
      rw [hb2, Out.bind_val]
      refine ⟨_, b' ++ rest, rfl, rfl, ?_, rfl, rfl, rfl, rfl, rfl⟩
      rw [hs] at hl
      simp only [List.length_append, hb1] at hl ⊢
      exact hl
  obtain ⟨v, r1, e1, vs, vl, vsz, vp, vla, vo, va⟩ := h1
  rw [action_push, e1, Out.bind_val]
  have hstore : ∀ (w : UStack) (a' r : List Slot), w.slots = a' ++ r → w.slots.length = n + 1 → w.ptr = (a'.length : Int) - 1 → w.last = w.ptr → a'.length < n + 1 →
      ∃ r', store w p info = .val { w with slots := a' ++ (p, info) :: r', ptr := w.ptr + 1, last := w.last + 1 } ∧ (a' ++ (p, info) :: r').length = n + 1 := by
    intro w a' r hw hwl hwp hwla hlt
    unfold store
    rw [if_neg (by omega), copyPip_ok hp, Out.bind_val, hw]
    cases r with
    | nil => rw [hw] at hwl; simp at hwl; omega
    | cons x r =>
      have e : setSlot (a' ++ x :: r) (w.ptr + 1) (p, info) = .val (a' ++ (p, info) :: r) := by
        rw [show w.ptr + 1 = (a'.length : Int) by omega, setSlot_at]
      rw [e, Out.bind_val]
      rw [hw] at hwl
      exact ⟨r, rfl, by simpa using hwl⟩
  unfold makeRoom
  by_cases hfull : a.length = n + 1
  · rw [if_pos (by omega)]
    have hr1 : r1 = [] := by
      rw [vs] at vl
      simp only [List.length_append] at vl
      exact List.length_eq_zero_iff.1 (by omega)
    subst hr1
    cases a with
    | nil => simp at hfull
    | cons x a =>
      have hset : setSlot v.slots 0 (Pip.empty, []) = .val ((Pip.empty, []) :: a) := by
        rw [vs, List.append_nil]
        exact setSlot_at [] x _ a
      obtain ⟨y, hmv⟩ := moveDown_at a [] [] (Pip.empty, []) (i := 0) rfl
      simp only [List.nil_append, List.append_nil] at hmv
      have hmv' : moveDown (v.size - 1).toNat 0 ((Pip.empty, []) :: a) = .val (a ++ [y]) := by
        rw [show (v.size - 1).toNat = a.length by simp at hfull; omega]
        exact hmv
      have hset2 : setSlot (a ++ [y]) v.ptr (Pip.empty, []) = .val (a ++ [(Pip.empty, [])]) := by
        rw [show v.ptr = (a.length : Int) by simp at hptr; omega]
        exact setSlot_at a y _ []
      rw [hset, Out.bind_val, hmv', Out.bind_val, hset2, Out.bind_val, if_neg (by omega), Out.bind_val]
      obtain ⟨r', hst, hlen⟩ := hstore { v with slots := a ++ [(Pip.empty, [])], ptr := v.ptr - 1, last := v.last - 1, overflowed := true } a [(Pip.empty, [])] rfl
        (by simp at hfull ⊢; omega) (by simp at hptr ⊢; omega) (by simp; omega) (by simp at hfull; omega)
      rw [hst, Out.bind_val]
      simp only [if_pos hfull, List.tail_cons]
      refine ⟨_, r', rfl, rfl, hlen, by simp only []; omega, by simp only []; simp at hptr; omega, by simp only []; omega, by simp [hfull], va⟩
  · have hle : a.length < n + 1 := by
      have := hl
      rw [hs] at this
      simp only [List.length_append] at this
      omega
    rw [if_neg (by omega), Out.bind_val]
    obtain ⟨r', hst, hlen⟩ := hstore v a r1 vs vl (by omega) (by omega) hle
    rw [hst, Out.bind_val]
    simp only [if_neg hfull]
    refine ⟨_, r', rfl, rfl, hlen, by simp only []; omega, by simp only []; omega, by simp only []; omega, by simp [hfull, vo], va⟩

theorem reset_ok {u : UStack} {a rest : List Slot} (hs : u.slots = a ++ rest) (hlast : u.last = (a.length : Int) - 1) :
    ∃ l, reset u = .val { u with slots := l, last := -1, ptr := -1, overflowed := false } ∧ l.length = u.slots.length := by
  unfold reset
  obtain ⟨b', h1, h2⟩ := clear_at a [] rest (i := 0) rfl
  rw [hs, show (u.last + 1).toNat = a.length by omega]
  simp only [List.nil_append] at h2
  rw [h2, Out.bind_val]
  exact ⟨_, rfl, by simp [h1]⟩

/-- The oldest state kept. -/
def Hist.oldest (h : Hist) : Pip := (h.past.getLast?.getD h.cur).1

structure HoldsS (s : Sess) (h : Hist) : Prop where
  stack : Holds s.stack h
  pip : s.pip = h.cur.1
  clean : s.changed = false → h.stored = h.cur.1
  base : s.saved = false → h.lost = false → h.cut = false → h.stored = h.oldest

theorem undoStack_of {u u' : UStack} {p q : Pip} {info : List Char} {a : Act} {m : Msg} (h1 : badPtr u = false) (h2 : action u p info a = .val (u', q, m))
    (h3 : badPtr u' = false) : undoStack u p info a = .val ((u', q, m), retVal u' a) := by
  unfold undoStack
  rw [h1, h2]
  simp only [Out.bind_val, h3]
  rfl

theorem fresh_length (n : Nat) : (fresh ((n : Int) + 1)).length = n + 1 := by
  unfold fresh
  rw [List.length_replicate]; omega

/-- Pushing on the empty stack. -/
theorem push_empty {u : UStack} {p : Pip} {info : List Char} {n : Nat} (hp : p.Ok) (hl : u.slots.length = n + 1) (hsz : u.size = n + 1) (hptr : u.ptr = -1) (hlast : u.last = -1)
    (hov : u.overflowed = false) (st : Pip) :
    ∃ u', undoStack u p info .push = .val ((u', p, .none), (n : Int)) ∧ Holds u' ⟨[], (p, info), [], n, false, u.aborted, st⟩ := by
  obtain ⟨u', rest', h1, h2, h3, h4, h5, h6, h7, h8⟩ := push_ok (u := u) (a := []) (b := []) (rest := u.slots) (info := info) (n := n) hp (by simp) hl hsz (by simp [hptr]) (by simp [hlast])
  simp at h2 h5
  have hb : badPtr u = false := by unfold badPtr; simp only [Bool.or_eq_false_iff, decide_eq_false_iff_not]; omega
  have H : Holds u' ⟨[], (p, info), [], n, false, u.aborted, st⟩ :=
    ⟨by simpa using h4, h3, by simpa using h5, by simp only [List.length_nil]; omega, by simp, ⟨rest', by simpa using h2⟩, by simp [h7, hov], h8, by simp, hp, by simp⟩
  refine ⟨u', ?_, H⟩
  rw [undoStack_of hb h1 H.good]
  simp only [retVal, h4]
  congr 1
  simp

theorem status_ok {u : UStack} {h : Hist} (H : Holds u h) (p : Pip) :
    undoStack u p [] .getStatus = .val ((u, p, .none), if h.lost || h.cut || !h.past.isEmpty then 1 else 0) := by
  rw [undoStack_of H.good rfl H.good]
  unfold retVal
  rw [H.over, H.abor, H.ptr]
  have e : decide ((h.past.length : Int) ≠ 0) = !h.past.isEmpty := by cases h.past <;> simp; omega
  rw [e]

/-- Each command does to the history what the specification says. -/
theorem step_ok {s : Sess} {h : Hist} {c : Cmd} (H : HoldsS s h) (hc : CmdOk c) : ∃ s', runCmd s c = .val (s', (h.step c).2) ∧ HoldsS s' (h.step c).1 := by
  obtain ⟨rest, hslots⟩ := H.stack.slots
  have hsz := H.stack.size
  have hl := H.stack.len
  have hptr := H.stack.ptr
  have hlast := H.stack.last
  have hfits := H.stack.fits
  cases c with
  | change p info =>
    obtain ⟨u', rest', h1, h2, h3, h4, h5, h6, h7, h8⟩ := push_ok (u := s.stack) (a := h.past.reverse ++ [h.cur]) (b := h.future) (rest := rest) (info := info) (n := h.limit) hc
      (by simp [hslots]) hl hsz (by simp; omega) (by simp; omega)
    have hcut : (if (h.past.reverse ++ [h.cur]).length = h.limit + 1 then (h.past.reverse ++ [h.cur]).tail else h.past.reverse ++ [h.cur]) = ((h.cur :: h.past).take h.limit).reverse := by
      simp only [List.length_append, List.length_reverse, List.length_singleton]
      by_cases hf : h.past.length + 1 = h.limit + 1
      · rw [if_pos hf, ← List.reverse_cons, List.tail_reverse, List.dropLast_eq_take]
        congr 2
        simp only [List.length_cons]; omega
      · rw [if_neg hf, ← List.reverse_cons, List.take_of_length_le (by simp only [List.length_cons]; omega)]
    rw [hcut] at h2 h5
    have hst : Holds u' (h.step (.change p info)).1 := by
      refine ⟨by simpa [Hist.step] using h4, h3, by simpa [Hist.step] using h5, ?_, ?_, ⟨rest', by simpa [Hist.step] using h2⟩, ?_, ?_, ?_, hc, by simp [Hist.step]⟩
      · simp only [Hist.step, List.length_nil]
        rw [h6, h5]; simp
      · simp only [Hist.step, List.length_nil]
        have := List.length_take_le h.limit (h.cur :: h.past)
        omega
      · rw [h7, H.stack.over]
        simp only [Hist.step, List.length_append, List.length_reverse, List.length_singleton]
        congr 1
        apply decide_eq_decide.2
        omega
      · rw [h8, H.stack.abor]; rfl
      · intro x hx
        have := List.mem_of_mem_take hx
        rcases List.mem_cons.1 this with rfl | hx
        · exact H.stack.okC
        · exact H.stack.okP x hx
    refine ⟨⟨p, u', true, s.saved⟩, ?_, hst, rfl, by simp, ?_⟩
    · unfold runCmd
      simp only [undoStack_of H.stack.good h1 hst.good, Out.bind_val]
      rfl
    · intro hs hlost hcut'
      simp only [Hist.step, Bool.or_eq_false_iff, decide_eq_false_iff_not] at hlost hcut'
      rw [show (h.step (.change p info)).1.stored = h.stored from rfl, H.base hs hlost.1 hcut']
      unfold Hist.oldest
      have hlt : (h.cur :: h.past).take h.limit = h.cur :: h.past := List.take_of_length_le (by simp only [List.length_cons]; omega)
      simp only [Hist.step, hlt]
      cases hp : h.past with
      | nil => simp
      | cons x l => simp [List.getLast?_cons]
  | undo =>
    cases hp : h.past with
    | nil =>
      have h1 : action s.stack s.pip [] .undo = .val (s.stack, s.pip, if h.lost then .exceeded h.limit else .noUndo) := by
        unfold action
        simp only [hptr, hp, List.length_nil]
        rw [if_neg (by simp), if_pos (by simp), H.stack.over, hsz]
        cases h.lost <;> simp
      have e : h.step .undo = (h, if h.lost then .exceeded h.limit else .noUndo) := by simp only [Hist.step, hp]
      rw [e]
      refine ⟨⟨s.pip, s.stack, true, s.saved⟩, ?_, H.stack, H.pip, by simp, H.base⟩
      unfold runCmd
      simp only [undoStack_of H.stack.good h1 H.stack.good, Out.bind_val]
    | cons x l =>
      have e : h.step .undo = ({ h with past := l, cur := x, future := h.cur :: h.future }, .undid h.cur.2) := by simp only [Hist.step, hp]
      rw [e]
      have hlen : h.past.length = l.length + 1 := by rw [hp]; rfl
      have g1 : getSlot s.stack.slots s.stack.ptr = .val h.cur := by
        have := getSlot_at h.past.reverse h.cur (h.future ++ rest)
        rw [hslots, hptr]
        simpa using this
      have g2 : getSlot s.stack.slots (s.stack.ptr - 1) = .val x := by
        have := getSlot_at l.reverse x (h.cur :: (h.future ++ rest))
        rw [hslots, hptr, hlen, hp, List.reverse_cons]
        simpa using this
      have h1 : action s.stack s.pip [] .undo = .val ({ s.stack with ptr := s.stack.ptr - 1 }, x.1, .undid h.cur.2) := by
        unfold action
        simp only []
        rw [if_neg (by omega), if_neg (by omega), g1, Out.bind_val, g2, Out.bind_val, copyPip_ok (H.stack.okP x (by simp [hp])), Out.bind_val]
      have hst : Holds { s.stack with ptr := s.stack.ptr - 1 } { h with past := l, cur := x, future := h.cur :: h.future } := by
        refine ⟨hsz, hl, by simp only []; omega, by simp only [List.length_cons]; omega, by simp only [List.length_cons]; omega, ⟨rest, ?_⟩, H.stack.over, H.stack.abor, ?_, H.stack.okP x (by simp [hp]), ?_⟩
        · simp only [hslots, hp]; simp
        · intro y hy; exact H.stack.okP y (by simp [hp, hy])
        · intro y hy
          rcases List.mem_cons.1 hy with rfl | hy
          · exact H.stack.okC
          · exact H.stack.okF y hy
      refine ⟨⟨x.1, { s.stack with ptr := s.stack.ptr - 1 }, true, s.saved⟩, ?_, hst, rfl, by simp, ?_⟩
      · unfold runCmd
        simp only [undoStack_of H.stack.good h1 hst.good, Out.bind_val]
      · intro hs h1 h2
        have := H.base hs h1 h2
        simp only [] at this ⊢
        rw [this]
        unfold Hist.oldest
        simp only [hp, List.getLast?_cons, Option.getD_some]
  | redo =>
    cases hf : h.future with
    | nil =>
      have h1 : action s.stack s.pip [] .redo = .val (s.stack, s.pip, .noRedo) := by
        unfold action
        simp only []
        rw [if_pos (by simp [hptr, hlast, hf])]
      have e : h.step .redo = (h, .noRedo) := by simp only [Hist.step, hf]
      rw [e]
      refine ⟨⟨s.pip, s.stack, true, s.saved⟩, ?_, H.stack, H.pip, by simp, H.base⟩
      unfold runCmd
      simp only [undoStack_of H.stack.good h1 H.stack.good, Out.bind_val]
    | cons x l =>
      have e : h.step .redo = ({ h with past := h.cur :: h.past, cur := x, future := l }, .redid x.2) := by simp only [Hist.step, hf]
      rw [e]
      have hlen : h.future.length = l.length + 1 := by rw [hf]; rfl
      have g1 : getSlot s.stack.slots (s.stack.ptr + 1) = .val x := by
        have := getSlot_at (h.past.reverse ++ [h.cur]) x (l ++ rest)
        rw [hslots, hptr, hf]
        simpa using this
      have h1 : action s.stack s.pip [] .redo = .val ({ s.stack with ptr := s.stack.ptr + 1 }, x.1, .redid x.2) := by
        unfold action
        simp only []
        rw [if_neg (by omega), g1, Out.bind_val, copyPip_ok (H.stack.okF x (by simp [hf])), Out.bind_val]
      have hst : Holds { s.stack with ptr := s.stack.ptr + 1 } { h with past := h.cur :: h.past, cur := x, future := l } := by
        refine ⟨hsz, hl, by simp only [List.length_cons]; omega, by simp only [List.length_cons]; omega, by simp only [List.length_cons]; omega, ⟨rest, ?_⟩, H.stack.over, H.stack.abor, ?_, H.stack.okF x (by simp [hf]), ?_⟩
        · simp only [hslots, hf]; simp
        · intro y hy
          rcases List.mem_cons.1 hy with rfl | hy
          · exact H.stack.okC
          · exact H.stack.okP y hy
        · intro y hy; exact H.stack.okF y (by simp [hf, hy])
      refine ⟨⟨x.1, { s.stack with ptr := s.stack.ptr + 1 }, true, s.saved⟩, ?_, hst, rfl, by simp, ?_⟩
      · unfold runCmd
        simp only [undoStack_of H.stack.good h1 hst.good, Out.bind_val]
      · intro hs h1 h2
        have := H.base hs h1 h2
        simp only [] at this ⊢
        rw [this]
        unfold Hist.oldest
        cases hp : h.past with
        | nil => simp
        | cons y k => simp [List.getLast?_cons]
  | save =>
    have hst : Holds s.stack { h with stored := h.cur.1 } := ⟨hsz, hl, hptr, hlast, hfits, ⟨rest, hslots⟩, H.stack.over, H.stack.abor, H.stack.okP, H.stack.okC, H.stack.okF⟩
    refine ⟨⟨s.pip, s.stack, false, if (if h.lost || h.cut || !h.past.isEmpty then (1 : Int) else 0) ≠ 0 then true else s.saved⟩, ?_, hst, H.pip, fun _ => rfl, ?_⟩
    · unfold runCmd
      simp only [status_ok H.stack, Out.bind_val]
      rfl
    · intro hs h1 h2
      simp only [Hist.step] at h1 h2 ⊢
      cases hp : h.past with
      | nil => unfold Hist.oldest; simp
      | cons x l => simp [hp] at hs
  | setUndo n =>
    have hsize : undoStack s.stack s.pip [] .getSize = .val ((s.stack, s.pip, .none), (h.limit : Int)) := by
      rw [undoStack_of H.stack.good rfl H.stack.good]
      simp only [retVal, hsz]
      congr 1
      simp
    have hm : (if n < 0 then 0 else n) = max n 0 := by rw [Int.max_def]; split <;> split <;> omega
    unfold runCmd
    simp only [hsize, Out.bind_val, hm]
    by_cases he : (h.limit : Int) = max n 0
    · have e : h.step (.setUndo n) = (h, .none) := by simp only [Hist.step, if_pos he]
      rw [e, if_neg (by simpa using he)]
      exact ⟨_, rfl, H.stack, H.pip, H.clean, H.base⟩
    · have e : h.step (.setUndo n) = ({ h with past := [], cur := (h.cur.1, []), future := [], limit := n.toNat, lost := false, cut := h.cut || h.lost || !h.past.isEmpty },
          if h.past = [] then .none else .discarded) := by simp only [Hist.step, if_neg he]
      rw [e, if_pos (by simpa using he)]
      have hn : max n 0 = (n.toNat : Int) := by rw [Int.max_def]; split <;> omega
      rw [hn]
      obtain ⟨l, hr1, hr2⟩ := reset_ok (u := s.stack) (a := h.past.reverse ++ h.cur :: h.future) (rest := rest) (by simp [hslots]) (by simp; omega)
      have hpp : decide (s.stack.ptr > 0) = !h.past.isEmpty := by rw [hptr]; cases h.past with
        | nil => simp
        | cons _ _ => simp
      have h1 : action s.stack s.pip [] (.newSize n.toNat) = .val ({ slots := fresh (n.toNat + 1), size := n.toNat + 1, last := -1, ptr := -1, overflowed := false, aborted := h.cut || !h.past.isEmpty || h.lost }, s.pip, if h.past = [] then .none else .discarded) := by
        unfold action
        simp only [hr1, Out.bind_val]
        rw [if_neg (by omega), H.stack.abor, hpp, H.stack.over, hptr]
        cases h.past <;> simp
      have hb : badPtr { slots := fresh (n.toNat + 1), size := n.toNat + 1, last := -1, ptr := -1, overflowed := false, aborted := h.cut || !h.past.isEmpty || h.lost } = false := by
        unfold badPtr
        simp only [Bool.or_eq_false_iff, decide_eq_false_iff_not]; omega
      rw [undoStack_of H.stack.good h1 hb]
      simp only [Out.bind_val]
      obtain ⟨u', h2, h3⟩ := push_empty (u := { slots := fresh (n.toNat + 1), size := n.toNat + 1, last := -1, ptr := -1, overflowed := false, aborted := h.cut || !h.past.isEmpty || h.lost })
        (p := s.pip) (info := []) (n := n.toNat) (by rw [H.pip]; exact H.stack.okC) (fresh_length _) rfl rfl rfl rfl h.stored
      rw [h2]
      simp only [Out.bind_val]
      have ec : (h.cut || !h.past.isEmpty || h.lost) = (h.cut || h.lost || !h.past.isEmpty) := by cases h.cut <;> cases h.lost <;> cases h.past.isEmpty <;> rfl
      simp only [ec, H.pip] at h3
      refine ⟨_, rfl, h3, H.pip, H.clean, ?_⟩
      intro hs _ h5
      simp only [Bool.or_eq_false_iff, Bool.not_eq_false', List.isEmpty_iff] at h5
      have := H.base hs h5.1.2 h5.1.1
      unfold Hist.oldest at this ⊢
      simpa [h5.2] using this

theorem run_ok {s : Sess} {h : Hist} : ∀ {cs : List Cmd}, HoldsS s h → (∀ c ∈ cs, CmdOk c) → ∃ s', runCmds s cs = .val (s', (h.run cs).2) ∧ HoldsS s' (h.run cs).1 := by
  intro cs
  induction cs generalizing s h with
  | nil => exact fun H _ => ⟨s, rfl, H⟩
  | cons c cs ih =>
    intro H hc
    obtain ⟨s1, h1, h2⟩ := step_ok H (hc c (by simp))
    obtain ⟨s2, h3, h4⟩ := ih h2 (fun c h => hc c (by simp [h]))
    refine ⟨s2, ?_, h4⟩
    rw [runCmds, h1, Out.bind_val]
    simp only [h3, Out.bind_val]
    rfl

/-! ### Sessions -/

/-- The static variables between calls. -/
structure UValid (u : UStack) : Prop where
  pos : 1 ≤ u.size
  len : (u.slots.length : Int) = u.size
  good : badPtr u = false

theorem start_valid : UValid .start := ⟨by decide, by decide, by decide⟩

theorem Holds.valid {u : UStack} {h : Hist} (H : Holds u h) : UValid u := by
  refine ⟨?_, ?_, H.good⟩
  · have := H.size; omega
  · have := H.size; have := H.len; omega

theorem init_ok {u : UStack} (hu : UValid u) (p : Pip) :
    ∃ l, undoStack u p [] .init = .val (({ u with slots := l, last := -1, ptr := -1, overflowed := false, aborted := false }, p, .none), u.size - 1) ∧
      l.length = u.slots.length := by
  have hb := hu.good
  have h1 := hu.pos; have h2 := hu.len
  have hb' := hb
  unfold badPtr at hb'
  simp only [Bool.or_eq_false_iff, decide_eq_false_iff_not] at hb'
  obtain ⟨l, hl, hll⟩ := reset_ok (u := u) (a := u.slots.take (u.last + 1).toNat) (rest := u.slots.drop (u.last + 1).toNat) (by simp) (by rw [List.length_take]; omega)
  refine ⟨l, ?_, hll⟩
  rw [undoStack_of hb (u' := { u with slots := l, last := -1, ptr := -1, overflowed := false, aborted := false }) (q := p) (m := .none)]
  · rfl
  · unfold action
    simp only [hl, Out.bind_val]
  · unfold badPtr
    simp only [Bool.or_eq_false_iff, decide_eq_false_iff_not]; omega

theorem init_valid {u : UStack} (hu : UValid u) {p : Pip} {r} (h : undoStack u p [] .init = .val r) : UValid r.1.1 := by
  obtain ⟨l, h1, h2⟩ := init_ok hu p
  rw [h1] at h; cases h
  have := hu.pos; have := hu.len
  refine ⟨hu.pos, by simp only [h2]; exact hu.len, ?_⟩
  unfold badPtr
  simp only [Bool.or_eq_false_iff, decide_eq_false_iff_not]; omega

theorem enter_ok {u : UStack} (hu : UValid u) {p : Pip} (hp : p.Ok) : ∃ s, enter u p = .val s ∧ HoldsS s (Hist.begin p (u.size - 1).toNat) := by
  obtain ⟨l, h1, h2⟩ := init_ok hu p
  have := hu.pos; have := hu.len
  unfold enter
  rw [h1, Out.bind_val]
  obtain ⟨u', h3, h4⟩ := push_empty (u := { u with slots := l, last := -1, ptr := -1, overflowed := false, aborted := false }) (info := []) (n := (u.size - 1).toNat) hp
    (by simp only []; omega) (by simp only []; omega) rfl rfl rfl p
  simp only [h3, Out.bind_val]
  exact ⟨_, rfl, h4, rfl, fun _ => rfl, fun _ _ _ => rfl⟩

/-- One Proof Assistant session: enter, any commands, exit. -/
def session (u : UStack) (x : Pip × List Cmd) : Out UStack :=
  enter u x.1 >>= fun s => runCmds s x.2 >>= fun r => undoStack r.1.stack r.1.pip [] .init >>= fun q => .val q.1.1

/-- **C53** No history of sessions calls one of the internal errors of the stack or leaves its arrays. -/
theorem C53_no_bug {u : UStack} (hu : UValid u) : ∀ {xs : List (Pip × List Cmd)}, (∀ x ∈ xs, x.1.Ok ∧ ∀ c ∈ x.2, CmdOk c) →
    ∃ u', xs.foldlM session u = .val u' ∧ UValid u' := by
  intro xs
  induction xs generalizing u with
  | nil => exact fun _ => ⟨u, rfl, hu⟩
  | cons x xs ih =>
    intro h
    obtain ⟨s, h1, h2⟩ := enter_ok hu (h x (by simp)).1
    obtain ⟨s', h3, h4⟩ := run_ok h2 (h x (by simp)).2
    obtain ⟨l, h5, _⟩ := init_ok h4.stack.valid s'.pip
    have hv := init_valid h4.stack.valid h5
    obtain ⟨u', h6, h7⟩ := ih hv (fun y hy => h y (by simp [hy]))
    refine ⟨u', ?_, h7⟩
    rw [List.foldlM_cons]
    have : session u x = .val { s'.stack with slots := l, last := -1, ptr := -1, overflowed := false, aborted := false } := by
      unfold session
      rw [h1, Out.bind_val, h3, Out.bind_val]
      simp only [h5, Out.bind_val]
    rw [this, Out.bind_val]
    exact h6

/-- **C53** UNDO and REDO: after any commands of a session the proof in progress and the messages are those of a history with a cursor that keeps
at most `SET UNDO` older states. -/
theorem C53_undo_redo {u : UStack} (hu : UValid u) {p : Pip} (hp : p.Ok) {cs : List Cmd} (hc : ∀ c ∈ cs, CmdOk c) :
    ∃ s, (enter u p >>= fun s => runCmds s cs) = .val (s, ((Hist.begin p (u.size - 1).toNat).run cs).2) ∧
      s.pip = ((Hist.begin p (u.size - 1).toNat).run cs).1.cur.1 := by
  obtain ⟨s, h1, h2⟩ := enter_ok hu hp
  obtain ⟨s', h3, h4⟩ := run_ok h2 hc
  rw [h1, Out.bind_val, h3]
  exact ⟨s', rfl, h4.pip⟩

/-- **C53** EXIT never drops changes silently: if it gives no warning, the proof in progress is the one at entry or at the last SAVE NEW_PROOF. -/
theorem C53_exit_safe {u : UStack} (hu : UValid u) {p : Pip} (hp : p.Ok) {cs : List Cmd} (hc : ∀ c ∈ cs, CmdOk c) :
    ∃ s m b, (enter u p >>= fun s => runCmds s cs) = .val (s, m) ∧ exitWarns s = .val b ∧
      (b = false → s.pip = ((Hist.begin p (u.size - 1).toNat).run cs).1.stored) := by
  obtain ⟨s, h1, h2⟩ := enter_ok hu hp
  obtain ⟨s', h3, h4⟩ := run_ok h2 hc
  rw [h1, Out.bind_val, h3]
  generalize (Hist.begin p (u.size - 1).toNat).run cs = g at *
  by_cases hch : s'.changed = true
  · have e : exitWarns s' = .val (decide ((if g.1.lost || g.1.cut || !g.1.past.isEmpty then (1 : Int) else 0) ≠ 0) || s'.saved) := by
      unfold exitWarns
      rw [if_pos hch, status_ok h4.stack, Out.bind_val]
    refine ⟨s', _, _, rfl, e, fun hb => ?_⟩
    simp only [Bool.or_eq_false_iff, decide_eq_false_iff_not, ne_eq, Decidable.not_not] at hb
    obtain ⟨hb1, hb2⟩ := hb
    have hz : (g.1.lost || g.1.cut || !g.1.past.isEmpty) = false := by
      cases hx : (g.1.lost || g.1.cut || !g.1.past.isEmpty) with
      | false => rfl
      | true =>
        rw [if_pos hx] at hb1; simp at hb1
    simp only [Bool.or_eq_false_iff, Bool.not_eq_false', List.isEmpty_iff] at hz
    rw [h4.pip, h4.base hb2 hz.1.1 hz.1.2]
    unfold Hist.oldest
    simp [hz.2]
  · have e : exitWarns s' = .val false := by unfold exitWarns; rw [if_neg hch]
    refine ⟨s', _, _, rfl, e, fun _ => ?_⟩
    rw [h4.pip, h4.clean (by simpa using hch)]

/-! ### What the history means -/

theorem hist_run_append (h : Hist) : ∀ (cs ds : List Cmd), (h.run (cs ++ ds)).1 = ((h.run cs).1.run ds).1
  | [], ds => rfl
  | c :: cs, ds => by
    rw [List.cons_append, Hist.run, Hist.run]
    exact hist_run_append _ cs ds

theorem hist_changes : ∀ {ps : List (Pip × List Char)} {h : Hist}, h.past.length ≤ h.limit → ps ≠ [] →
    ∃ b, (h.run (ps.map fun x => .change x.1 x.2)).1 = { h with past := (ps.reverse ++ h.cur :: h.past).tail.take h.limit, cur := (ps.getLast?).getD h.cur, future := [], lost := b } := by
  intro ps
  induction ps with
  | nil => intro h _ h0; exact absurd rfl h0
  | cons x ps ih =>
    intro h hl _
    rw [List.map_cons, Hist.run]
    by_cases hps : ps = []
    · subst hps
      exact ⟨_, rfl⟩
    · obtain ⟨b, hb⟩ := ih (h := (h.step (.change x.1 x.2)).1) (by simp only [Hist.step]; exact List.length_take_le _ _) hps
      refine ⟨b, ?_⟩
      rw [hb]
      have e1 : (ps.reverse ++ x :: (h.cur :: h.past).take h.limit).tail.take h.limit = ((x :: ps).reverse ++ h.cur :: h.past).tail.take h.limit := by
        have e2 : (x :: ps).reverse ++ h.cur :: h.past = ps.reverse ++ x :: (h.cur :: h.past) := by simp
        rw [e2]
        cases hr : ps.reverse with
        | nil => simp at hr; exact absurd hr hps
        | cons y r =>
          simp only [List.cons_append, List.tail_cons]
          rw [List.take_append, List.take_append]
          congr 1
          cases hk : h.limit - r.length with
          | zero => rfl
          | succ k =>
            simp only [List.take_succ_cons, List.cons.injEq, true_and]
            rw [List.take_take]
            congr 1
            omega
      simp only [Hist.step]
      rw [e1]
      cases ps with
      | nil => exact absurd rfl hps
      | cons y ps => simp [List.getLast?_cons]

theorem hist_undos : ∀ {l : List Slot} {h : Hist} {x : Slot} {k : List Slot}, h.past = l ++ x :: k →
    (h.run (List.replicate (l.length + 1) .undo)).1 = { h with past := k, cur := x, future := l.reverse ++ h.cur :: h.future } := by
  intro l
  induction l with
  | nil => intro h x k hp; simp only [List.length_nil, List.replicate, Hist.run, Hist.step, hp, List.nil_append]; rfl
  | cons y l ih =>
    intro h x k hp
    show (h.run (.undo :: List.replicate (l.length + 1) .undo)).1 = _
    rw [Hist.run]
    have e : h.step .undo = ({ h with past := l ++ x :: k, cur := y, future := h.cur :: h.future }, .undid h.cur.2) := by simp only [Hist.step, hp, List.cons_append]
    rw [e]
    simp only []
    rw [ih rfl]
    simp

theorem hist_redos : ∀ {l : List Slot} {h : Hist} {x : Slot} {k : List Slot}, h.future = l ++ x :: k →
    (h.run (List.replicate (l.length + 1) .redo)).1 = { h with past := l.reverse ++ h.cur :: h.past, cur := x, future := k } := by
  intro l
  induction l with
  | nil => intro h x k hp; simp only [List.length_nil, List.replicate, Hist.run, Hist.step, hp, List.nil_append]; rfl
  | cons y l ih =>
    intro h x k hp
    show (h.run (.redo :: List.replicate (l.length + 1) .redo)).1 = _
    rw [Hist.run]
    have e : h.step .redo = ({ h with past := h.cur :: h.past, cur := y, future := l ++ x :: k }, .redid y.2) := by simp only [Hist.step, hp, List.cons_append]
    rw [e]
    simp only []
    rw [ih rfl]
    simp

theorem hist_fits : ∀ {cs : List Cmd} {h : Hist}, h.past.length + h.future.length ≤ h.limit → (h.run cs).1.past.length + (h.run cs).1.future.length ≤ (h.run cs).1.limit := by
  intro cs
  induction cs with
  | nil => intro h hh; exact hh
  | cons c cs ih =>
    intro h hh
    rw [Hist.run]
    apply ih
    cases c with
    | change p info =>
      simp only [Hist.step, List.length_nil]
      have := List.length_take_le h.limit (h.cur :: h.past)
      omega
    | undo =>
      cases hp : h.past with
      | nil => simpa [Hist.step, hp] using hh
      | cons x l => rw [hp] at hh; simp only [Hist.step, hp, List.length_cons] at hh ⊢; omega
    | redo =>
      cases hp : h.future with
      | nil => simpa [Hist.step, hp] using hh
      | cons x l => rw [hp] at hh; simp only [Hist.step, hp, List.length_cons] at hh ⊢; omega
    | save => exact hh
    | setUndo n =>
      simp only [Hist.step]
      by_cases he : (h.limit : Int) = max n 0
      · rw [if_pos he]; exact hh
      · rw [if_neg he]; simp

/-- The number of UNDOs allowed after some commands: the last SET UNDO, or the number at entry. -/
def limitAfter : Nat → List Cmd → Nat
  | n, [] => n
  | _, .setUndo k :: cs => limitAfter k.toNat cs
  | n, _ :: cs => limitAfter n cs

theorem hist_limit : ∀ {cs : List Cmd} {h : Hist}, (h.run cs).1.limit = limitAfter h.limit cs := by
  intro cs
  induction cs with
  | nil => intro h; rfl
  | cons c cs ih =>
    intro h
    rw [Hist.run]
    simp only []
    rw [ih]
    cases c with
    | change p info => rfl
    | undo =>
      show limitAfter _ cs = limitAfter _ cs
      congr 1
      cases hp : h.past <;> simp [Hist.step, hp]
    | redo =>
      show limitAfter _ cs = limitAfter _ cs
      congr 1
      cases hp : h.future <;> simp [Hist.step, hp]
    | save => rfl
    | setUndo n =>
      show limitAfter _ cs = limitAfter _ cs
      congr 1
      simp only [Hist.step]
      by_cases he : (h.limit : Int) = max n 0
      · rw [if_pos he]
        simp only []
        rw [Int.max_def] at he
        split at he <;> omega
      · rw [if_neg he]

/-- **C53** At any time in a session: after `n` changes (1 ≤ n ≤ the number of UNDOs allowed), `n` UNDOs bring back exactly the proof before them, and
`n` REDOs then exactly the proof after them. -/
theorem C53_undo_restores {u : UStack} (hu : UValid u) {p : Pip} (hp : p.Ok) {cs : List Cmd} (hc : ∀ c ∈ cs, CmdOk c)
    {ps : List (Pip × List Char)} {q : Pip × List Char} (hps : ∀ x ∈ ps ++ [q], x.1.Ok) (hn : ps.length + 1 ≤ limitAfter (u.size - 1).toNat cs) :
    ∃ s0 s1 s2 m0 m1 m2, (enter u p >>= fun s => runCmds s cs) = .val (s0, m0) ∧
      runCmds s0 ((ps ++ [q]).map (fun x => .change x.1 x.2) ++ List.replicate (ps.length + 1) .undo) = .val (s1, m1) ∧ s1.pip = s0.pip ∧
      runCmds s1 (List.replicate (ps.length + 1) .redo) = .val (s2, m2) ∧ s2.pip = q.1 := by
  obtain ⟨s, h1, h2⟩ := enter_ok hu hp
  obtain ⟨s0, h3, h4⟩ := run_ok h2 hc
  have hfit := hist_fits (cs := cs) (h := Hist.begin p (u.size - 1).toNat) (by simp [Hist.begin])
  have hlim := hist_limit (cs := cs) (h := Hist.begin p (u.size - 1).toNat)
  rw [show (Hist.begin p (u.size - 1).toNat).limit = (u.size - 1).toNat from rfl] at hlim
  rw [h1, Out.bind_val, h3]
  generalize (Hist.begin p (u.size - 1).toNat).run cs = g at *
  obtain ⟨s1, h5, h6⟩ := run_ok (cs := (ps ++ [q]).map (fun x => .change x.1 x.2) ++ List.replicate (ps.length + 1) .undo) h4 (by
    intro c hc
    rcases List.mem_append.1 hc with hc | hc
    · obtain ⟨x, hx, rfl⟩ := List.mem_map.1 hc
      exact hps x hx
    · rw [List.eq_of_mem_replicate hc]; trivial)
  obtain ⟨s2, h7, h8⟩ := run_ok (cs := List.replicate (ps.length + 1) .redo) h6 (by intro c hc; rw [List.eq_of_mem_replicate hc]; trivial)
  have hu' : (g.1.run ((ps ++ [q]).map (fun x => .change x.1 x.2) ++ List.replicate (ps.length + 1) .undo)).1.cur = g.1.cur ∧
      (g.1.run ((ps ++ [q]).map (fun x => .change x.1 x.2) ++ List.replicate (ps.length + 1) .undo)).1.future = ps ++ [q] := by
    rw [hist_run_append]
    obtain ⟨b, hb⟩ := hist_changes (ps := ps ++ [q]) (h := g.1) (by omega) (by simp)
    rw [hb]
    have e1 : ((ps ++ [q]).reverse ++ g.1.cur :: g.1.past).tail.take g.1.limit = ps.reverse ++ g.1.cur :: g.1.past.take (g.1.limit - ps.length - 1) := by
      rw [List.reverse_append, List.reverse_singleton, List.singleton_append, List.cons_append, List.tail_cons, List.take_append, List.take_of_length_le (by simp; omega)]
      congr 1
      rw [List.length_reverse, show g.1.limit - ps.length = (g.1.limit - ps.length - 1) + 1 by omega, List.take_succ_cons]
      simp
    rw [e1]
    have := hist_undos (l := ps.reverse) (h := { g.1 with past := ps.reverse ++ g.1.cur :: g.1.past.take (g.1.limit - ps.length - 1), cur := ((ps ++ [q]).getLast?).getD g.1.cur, future := [], lost := b }) rfl
    rw [List.length_reverse] at this
    rw [this]
    simp
  refine ⟨s0, s1, s2, _, _, _, rfl, h5, ?_, h7, ?_⟩
  · rw [h6.pip, hu'.1, h4.pip]
  · rw [h8.pip, hist_redos hu'.2]

end MM.Pfas
