import Verif.Unif.Visit
/-!
# Backtracking in `unify`, and the tree of its search
-/
namespace MM.Unif

variable {C : Cfg} {A0 B0 : List Nat}

theorem rdEnd_at {l a r : List Nat} {n : Nat} (h : l = a ++ r) (hn : n < r.length) : rdEnd l a.length (n + 1) = .val ((r.getD n 0 : Nat) : Int) := by
  unfold rdEnd rd
  rw [if_neg (by omega), if_pos (by rw [h]; simp; omega), h]
  congr 2
  rw [List.getD_eq_getElem?_getD, List.getD_eq_getElem?_getD, show a.length + (n + 1) - 1 = a.length + n by omega, List.getElem?_append_right (by omega)]
  rw [Nat.add_sub_cancel_left]

theorem doSwitch_eq {s : St} {f fs} (h : s.stk = f :: fs) : doSwitch C s = (do
    let a ← rd s.A s.p
    if (f.var : Int) = a then do
      let e ← rdEnd s.B s.p (f.seg.headD (0, 0)).2
      if e = C.mt then do
        let b ← rd s.B s.p
        if b > C.mt then
          if (if b = (f.var : Int) then false else s.on b.toNat) = true then .bug 1905
          else .val (.switch, { s with
            stk := { f with var := b.toNat, seg := setLen C.min f.seg } :: fs, seg := setLen C.min f.seg
            on := fun y => if y = b.toNat then true else if y = f.var then false else s.on y })
        else .val (.back, pop s)
      else .val (.scan, { s with seg := f.seg })
    else do
      let e ← rdEnd s.A s.p (f.seg.headD (0, 0)).2
      if e = C.mt then .val (.back, pop s) else .val (.scan, { s with seg := f.seg })) := by
  unfold doSwitch
  rw [h]

theorem step_switch {s : St} {room : Nat} : step C room (.switch, s) = doSwitch C s := rfl
theorem step_back {s : St} {room : Nat} : step C room (.back, s) = doBack C s := rfl
theorem step_scan {s : St} {room : Nat} : step C room (.scan, s) = doScan C room s := rfl

theorem take_succ_no {m n : Nat} {r : List Nat} (h : m ∉ r.take n) (hn : n < r.length) (hne : r.getD n 0 ≠ m) : m ∉ r.take (n + 1) := by
  rw [List.take_succ_eq_append_getElem hn]
  intro h'
  rcases List.mem_append.1 h' with h' | h'
  · exact h h'
  · simp at h'
    rw [List.getD_eq_getElem?_getD, List.getElem?_eq_getElem hn] at hne
    exact hne h'.symm

theorem take_succ_yes {m n : Nat} {r : List Nat} (hn : n < r.length) (he : r.getD n 0 = m) : m ∈ r.take (n + 1) := by
  rw [List.take_succ_eq_append_getElem hn]
  rw [List.getD_eq_getElem?_getD, List.getElem?_eq_getElem hn] at he
  simp at he
  simp [he]

/-- The label `switchVarToB` when the stack top was switched already. -/
theorem switchB_ok {f fs a ta ca segs} {room : Nat} {s : St} (hstk : s.stk = f :: fs) (hA : s.A = a ++ ca :: ta) (hp : s.p = a.length)
    (hne : f.var ≠ ca) (hseg : f.seg = (a.length, len) :: segs) (hlen : len ≤ (ca :: ta).length) (h0 : 0 < len ∨ a ≠ []) :
    (step C room (.switch, s) = .val (.back, pop s) ∧ (0 < len → (ca :: ta).getD (len - 1) 0 = C.mt)) ∨
    (step C room (.switch, s) = .val (.scan, { s with seg := f.seg }) ∧ (0 < len → (ca :: ta).getD (len - 1) 0 ≠ C.mt)) := by
  have hz : ∃ z : Nat, rdEnd s.A s.p len = .val (z : Int) ∧ (0 < len → z = (ca :: ta).getD (len - 1) 0) := by
    cases len with
    | zero =>
      have ha : a ≠ [] := by rcases h0 with h | h; omega; exact h
      refine ⟨a.getD (a.length - 1) 0, ?_, by omega⟩
      have := List.length_pos_iff.2 ha
      unfold rdEnd rd
      rw [if_neg (by omega), if_pos (by rw [hA, hp]; simp; omega), hA, hp]
      congr 2
      rw [List.getD_eq_getElem?_getD, List.getD_eq_getElem?_getD, Nat.add_zero, List.getElem?_append_left (by omega)]
    | succ n =>
      refine ⟨_, ?_, fun _ => rfl⟩
      rw [hp]
      exact rdEnd_at hA (by omega)
  obtain ⟨z, hz, hz2⟩ := hz
  have e : step C room (.switch, s) = (if (z : Int) = C.mt then .val (.back, pop s) else .val (.scan, { s with seg := f.seg })) := by
    rw [step_switch, doSwitch_eq hstk]
    rw [rd_at' hA hp.symm, Out.bind_val, if_neg (by omega), hseg, List.headD_cons, hz, Out.bind_val]
  rw [e]
  by_cases hzm : z = C.mt
  · left
    rw [if_pos (by rw [hzm])]
    exact ⟨rfl, fun h => by rw [← hz2 h]; exact hzm⟩
  · right
    rw [if_neg (by omega)]
    exact ⟨rfl, fun h => by rw [← hz2 h]; exact hzm⟩

/-- A jump that is not the end. -/
def Goes (C : Cfg) (room : Nat) (x y : Lbl × St) : Prop := x.1 ≠ .done ∧ x.1 ≠ .abort ∧ x.1 ≠ .timeout ∧ step C room x = .val y

inductive Steps (C : Cfg) (room : Nat) : Lbl × St → Lbl × St → Prop
  | refl (x) : Steps C room x x
  | head {x y z} : Goes C room x y → Steps C room y z → Steps C room x z

theorem goes_back {s : St} {y} {room : Nat} (h : step C room (.back, s) = .val y) : Goes C room (.back, s) y := ⟨nofun, nofun, nofun, h⟩
theorem goes_switch {s : St} {y} {room : Nat} (h : step C room (.switch, s) = .val y) : Goes C room (.switch, s) y := ⟨nofun, nofun, nofun, h⟩
theorem goes_scan {s : St} {y} {room : Nat} (h : step C room (.scan, s) = .val y) : Goes C room (.scan, s) y := ⟨nofun, nofun, nofun, h⟩

/-- How many choices are left for a stack entry, with the given position of its mismatch. -/
def left (f : Frame) (ca len : Nat) (ta tb : List Nat) : Nat :=
  if f.var = ca then (tb.length + 1 - len) + (ta.length + 1) else ta.length + 1 - len

theorem pop_on {s : St} {f fs} (hstk : s.stk = f :: fs) (hon : OnOk s) (hn : f.var ∉ vars fs) : OnOk (pop s) := by
  intro y
  simp only [pop, hstk, List.head?_cons, Option.map_some, List.tail_cons, Option.some.injEq]
  by_cases h1 : y = f.var
  · rw [if_pos h1, h1]; simp [hn]
  · rw [if_neg h1, hon y, hstk]
    simp [vars, h1]

/-- `backtrack` with a stack entry. -/
theorem back_ok (hP : Proper C A0 B0) {f fs a ta tb ca cb len segs} (h : Act C A0 B0 f fs a ta tb ca cb len segs) {s : St} (hstk : s.stk = f :: fs) (hon : OnOk s)
    (room : Nat) :
    (∃ s', Steps C room (.back, s) (.timeout, s') ∧ 0 < s.trials) ∨
    (∃ s', Steps C room (.back, s) (.back, s') ∧ s'.stk = fs ∧ OnOk s' ∧ (f.var = ca → C.mt ∈ (cb :: tb).take (len + 1)) ∧
      (f.var = cb → C.mt ∈ (ca :: ta).take (len + 1))) ∨
    ∃ s' f' len', Steps C room (.back, s) (.scan, s') ∧ Act C A0 B0 f' fs a ta tb ca cb len' segs ∧ Active s' f' fs a ∧ left f' ca len' ta tb < left f ca len ta tb ∧
      f'.A = f.A ∧ f'.B = f.B ∧ ((f'.var = f.var ∧ len' = len + 1) ∨ (f.var = ca ∧ C.mt < cb)) := by
  by_cases htr : s.trials > 0 ∧ s.trials + 1 > C.maxTrials
  · left
    refine ⟨{ s with trials := s.trials + 1 }, .head (goes_back ?_) (.refl _), htr.1⟩
    rw [step_back]
    unfold doBack
    rw [hstk]
    dsimp only
    rw [if_pos htr]
  · right
    -- the state at `switchVarToB`
    obtain ⟨s1, hs1⟩ : ∃ s1 : St, s1 = { s with
      A := f.A, B := f.B, p := (f.seg.headD (0, 0)).1, seg := bump f.seg, stk := { f with seg := bump f.seg } :: fs
      trials := if s.trials > 0 then s.trials + 1 else 0 } := ⟨_, rfl⟩
    have st1 : Goes C room (.back, s) (.switch, s1) := by
      refine goes_back ?_
      rw [step_back]
      unfold doBack
      rw [hstk]
      dsimp only
      rw [if_neg htr, hs1]
    have hseg1 : bump f.seg = (a.length, len + 1) :: segs := by rw [h.seg]; rfl
    have hstk1 : s1.stk = { f with seg := (a.length, len + 1) :: segs } :: fs := by rw [hs1, hseg1]
    have hA1 : s1.A = f.A := by rw [hs1]
    have hB1 : s1.B = f.B := by rw [hs1]
    have hp1 : s1.p = a.length := by rw [hs1]; dsimp only; rw [h.seg]; rfl
    have hsg1 : s1.seg = (a.length, len + 1) :: segs := by rw [hs1]; exact hseg1
    have hon1 : OnOk s1 := by
      intro y
      have := hon y
      rw [hstk] at this
      rw [hstk1]
      have e : s1.on = s.on := by rw [hs1]
      rw [e, this]
      simp [vars]
    have hA := h.hA
    have hB := h.hB
    rcases h.side with ⟨e, hm⟩ | ⟨e, hm⟩
    · -- the variable is in the first scheme
      have hl := h.ltB hm
      have sw : step C room (.switch, s1) = (if (((cb :: tb).getD len 0 : Nat) : Int) = C.mt then
          (if (cb : Int) > C.mt then
            if (if (cb : Int) = (f.var : Int) then false else s1.on cb) = true then .bug 1905
            else .val (.switch, { s1 with
              stk := { var := cb, seg := (a.length, C.min) :: segs, A := f.A, B := f.B } :: fs, seg := (a.length, C.min) :: segs
              on := fun y => if y = cb then true else if y = f.var then false else s1.on y })
          else .val (.back, pop s1)) else .val (.scan, { s1 with seg := (a.length, len + 1) :: segs })) := by
        rw [step_switch, doSwitch_eq hstk1]
        dsimp only
        rw [rd_at' (hA1.trans hA) hp1.symm, Out.bind_val, if_pos (by rw [e]), List.headD_cons]
        dsimp only
        rw [hp1, rdEnd_at (hB1.trans hB) hl, Out.bind_val]
        by_cases h1 : (((cb :: tb).getD len 0 : Nat) : Int) = C.mt
        · rw [if_pos h1, if_pos h1, rd_at' (hB1.trans hB) rfl, Out.bind_val, Int.toNat_natCast]
          rfl
        · rw [if_neg h1, if_neg h1]
      by_cases h1 : (((cb :: tb).getD len 0 : Nat) : Int) = C.mt
      · rw [if_pos h1] at sw
        have hin : C.mt ∈ (cb :: tb).take (len + 1) := take_succ_yes hl (by omega)
        by_cases h2 : (cb : Int) > C.mt
        · rw [if_pos h2] at sw
          have hcbon : s1.on cb = false := hon1.off (by
            rw [hstk1]; simp only [vars, List.map_cons, List.mem_cons]; rintro (h' | h')
            · exact h.ne (by rw [h', e])
            · exact h.notB h')
          rw [if_neg (by rw [hcbon]; simp)] at sw
          obtain ⟨f2, hf2⟩ : ∃ f2 : Frame, f2 = { var := cb, seg := (a.length, C.min) :: segs, A := f.A, B := f.B } := ⟨_, rfl⟩
          obtain ⟨s2, hs2⟩ : ∃ s2 : St, s2 = { s1 with stk := f2 :: fs, seg := (a.length, C.min) :: segs, on := fun y => if y = cb then true else if y = f.var then false else s1.on y } := ⟨_, rfl⟩
          rw [← hf2, ← hs2] at sw
          have st2 := goes_switch sw
          have hfne : f.var ≠ cb := by rw [e]; exact h.ne
          have hon2 : OnOk s2 := by
            intro y
            rw [hs2]
            simp only [vars, List.map_cons, List.mem_cons, hf2]
            by_cases g1 : y = cb
            · simp [g1]
            · rw [if_neg g1]
              by_cases g2 : y = f.var
              · rw [if_pos g2]
                simp only [g1, false_or, Bool.false_eq_true, false_iff]
                rw [g2]; exact h.notVar
              · rw [if_neg g2, hon1 y, hstk1]
                simp [vars, g1, g2]
          have hmin := hP.min1
          have h0 : 0 < C.min ∨ a ≠ [] := by
            by_cases hc : C.min = 1
            · left; omega
            · right
              rintro rfl
              have := (h.core.heads hP hc (x := cb) (by omega)).2
              rw [hB] at this
              simp at this
          rcases switchB_ok (C := C) (room := room) (s := s2) (f := f2) (fs := fs) (a := a) (ta := ta) (ca := ca) (len := C.min) (segs := segs)
            (by rw [hs2]) (by rw [hs2]; exact hA1.trans hA) (by rw [hs2]; exact hp1) (by rw [hf2]; exact fun h' => h.ne h'.symm) (by rw [hf2])
            (Nat.le_of_lt (h.ltA (by
              by_cases hc : C.min = 0
              · rw [hc]; simp
              · have : C.min = 1 := by omega
                rw [this]
                have := h.unk
                simp; omega))) h0 with ⟨e1, e2⟩ | ⟨e1, e2⟩
          · left
            refine ⟨_, .head st1 (.head st2 (.head (goes_switch e1) (.refl _))), by rw [hs2]; rfl, ?_, fun _ => hin, fun h' => absurd h' hfne⟩
            exact pop_on (by rw [hs2]) hon2 (by rw [hf2]; exact h.notB)
          · right
            refine ⟨_, f2, C.min, .head st1 (.head st2 (.head (goes_switch e1) (.refl _))),
              ⟨by rw [hf2]; exact hA, by rw [hf2]; exact hB, h.ne, by rw [hf2], by rw [hf2]; exact h.core, by rw [hf2]; dsimp only; omega, Nat.le_refl _, Or.inr ⟨by rw [hf2], ?_⟩⟩,
              ⟨by rw [hs2], by rw [hs2, hf2]; exact hA1, by rw [hs2, hf2]; exact hB1, rfl, by rw [hs2]; exact hp1, hon2⟩, ?_, by rw [hf2], by rw [hf2], Or.inr ⟨e, by omega⟩⟩
            · by_cases hc : C.min = 0
              · rw [hc]; simp
              · have hc1 : C.min = 1 := by omega
                have := e2 (by omega)
                rw [hc1] at this ⊢
                simp at this ⊢; omega
            · unfold left
              rw [hf2]
              dsimp only
              rw [if_neg (fun h' => h.ne h'.symm), if_pos e]
              simp at hl
              omega
        · rw [if_neg h2] at sw
          left
          refine ⟨_, .head st1 (.head (goes_switch sw) (.refl _)), by simp only [pop]; rw [hstk1]; rfl, pop_on hstk1 hon1 h.notVar, fun _ => hin, ?_⟩
          intro h'; exact absurd (e.symm.trans h') h.ne
      · rw [if_neg h1] at sw
        right
        have hm1 : C.mt ∉ (cb :: tb).take (len + 1) := take_succ_no hm hl (by omega)
        have hmin := h.min
        refine ⟨_, { f with seg := (a.length, len + 1) :: segs }, len + 1, .head st1 (.head (goes_switch sw) (.refl _)),
          ⟨hA, hB, h.ne, rfl, h.core, h.unk, by omega, Or.inl ⟨e, hm1⟩⟩, ⟨hstk1, hA1, hB1, rfl, hp1, hon1⟩, ?_, rfl, rfl, Or.inl ⟨rfl, rfl⟩⟩
        unfold left
        dsimp only
        rw [if_pos e, if_pos e]
        simp at hl
        omega
    · -- the variable is in the second scheme
      have hl := h.ltA hm
      have hne : f.var ≠ ca := by rw [e]; exact fun h' => h.ne h'.symm
      rcases switchB_ok (C := C) (room := room) (s := s1) (f := { f with seg := (a.length, len + 1) :: segs }) (fs := fs) (a := a) (ta := ta) (ca := ca)
        (len := len + 1) (segs := segs) hstk1 (hA1.trans hA) hp1 hne rfl (by omega) (Or.inl (by omega)) with ⟨e1, e2⟩ | ⟨e1, e2⟩
      · left
        refine ⟨_, .head st1 (.head (goes_switch e1) (.refl _)), by simp only [pop]; rw [hstk1]; rfl, pop_on hstk1 hon1 h.notVar, fun h' => absurd h' hne, ?_⟩
        intro _
        exact take_succ_yes hl (by simpa using e2 (by omega))
      · right
        have hm1 : C.mt ∉ (ca :: ta).take (len + 1) := take_succ_no hm hl (by simpa using e2 (by omega))
        have hmin := h.min
        refine ⟨_, { f with seg := (a.length, len + 1) :: segs }, len + 1, .head st1 (.head (goes_switch e1) (.refl _)),
          ⟨hA, hB, h.ne, rfl, h.core, h.unk, by omega, Or.inr ⟨e, hm1⟩⟩, ⟨hstk1, hA1, hB1, rfl, hp1, hon1⟩, ?_, rfl, rfl, Or.inl ⟨rfl, rfl⟩⟩
        unfold left
        dsimp only
        rw [if_neg hne, if_neg hne]
        simp at hl
        omega

end MM.Unif
