import Verif.Unif.Dyn
/-!
# The search of `unify`
-/
namespace MM.Unif

variable {C : Cfg} {A0 B0 : List Nat}

/-- The variables on the stack. -/
def vars (l : List Frame) : List Nat := l.map Frame.var

/-- What holds for a stack entry: the mismatch where it was pushed, and the current choice of its length. -/
structure Act (C : Cfg) (A0 B0 : List Nat) (f : Frame) (fs : List Frame) (a ta tb : List Nat) (ca cb len : Nat) (segs : List (Nat × Nat)) : Prop where
  hA : f.A = a ++ ca :: ta
  hB : f.B = a ++ cb :: tb
  ne : ca ≠ cb
  seg : f.seg = (a.length, len) :: segs
  core : Core C A0 B0 (vars fs) segs f.A f.B a.length
  unk : C.mt < f.var
  min : C.min ≤ len
  side : (f.var = ca ∧ C.mt ∉ (cb :: tb).take len) ∨ (f.var = cb ∧ C.mt ∉ (ca :: ta).take len)

def StkOk (C : Cfg) (A0 B0 : List Nat) : List Frame → Prop
  | [] => True
  | f :: fs => (∃ a ta tb ca cb len segs, Act C A0 B0 f fs a ta tb ca cb len segs) ∧ StkOk C A0 B0 fs

def OnOk (s : St) : Prop := ∀ y, s.on y = true ↔ y ∈ vars s.stk

theorem OnOk.off {s : St} (h : OnOk s) {y : Nat} (hy : y ∉ vars s.stk) : s.on y = false := by
  cases e : s.on y with
  | false => rfl
  | true => exact absurd ((h y).1 e) hy

theorem Act.mem {f fs a ta tb ca cb len segs} (h : Act C A0 B0 f fs a ta tb ca cb len segs) : ca ∈ f.A ∧ cb ∈ f.B := by
  rw [h.hA, h.hB]; simp

theorem Act.notA {f fs a ta tb ca cb len segs} (h : Act C A0 B0 f fs a ta tb ca cb len segs) : ca ∉ vars fs :=
  fun h' => h.core.notA _ h' h.mem.1

theorem Act.notB {f fs a ta tb ca cb len segs} (h : Act C A0 B0 f fs a ta tb ca cb len segs) : cb ∉ vars fs :=
  fun h' => h.core.notB _ h' h.mem.2

theorem Act.notVar {f fs a ta tb ca cb len segs} (h : Act C A0 B0 f fs a ta tb ca cb len segs) : f.var ∉ vars fs := by
  rcases h.side with ⟨e, _⟩ | ⟨e, _⟩
  · rw [e]; exact h.notA
  · rw [e]; exact h.notB

theorem Act.ltB {f fs a ta tb ca cb len segs} (h : Act C A0 B0 f fs a ta tb ca cb len segs) (hm : C.mt ∉ (cb :: tb).take n) : n < (cb :: tb).length :=
  take_no_mt h.core.endB h.hB (by rw [h.hB]; simp) hm

theorem Act.ltA {f fs a ta tb ca cb len segs} (h : Act C A0 B0 f fs a ta tb ca cb len segs) (hm : C.mt ∉ (ca :: ta).take n) : n < (ca :: ta).length :=
  take_no_mt h.core.endA h.hA (by rw [h.hA]; simp) hm

/-- The state in which the top of the stack is to be tried. -/
structure Active (s : St) (f : Frame) (fs : List Frame) (a : List Nat) : Prop where
  stk : s.stk = f :: fs
  A : s.A = f.A
  B : s.B = f.B
  seg : s.seg = f.seg
  p : s.p = a.length
  on : OnOk s

theorem midTok_at {l a r : List Nat} {p n : Nat} (h : l = a ++ r) (hp : p = a.length) : midTok l p n = .val (r.take n) := by
  unfold midTok
  rw [if_neg (by rw [h, hp]; simp), h, hp, List.drop_left]

/-- What follows once a variable and its length are chosen. -/
theorem choose_ok (hP : Proper C A0 B0) {f fs a ta tb ca cb len segs} (h : Act C A0 B0 f fs a ta tb ca cb len segs) {s : St} (hs : Active s f fs a) :
    let inA := decide (f.var = ca)
    let v := (if f.var = ca then cb :: tb else ca :: ta).take len
    (choose C inA f.var s = .val (.back, s) ∧ (f.var ∈ v ∨ passes C v = false)) ∨
    ∃ s2, choose C inA f.var s = .val (.scan, s2) ∧ s2.stk = s.stk ∧ OnOk s2 ∧ s2.trials = s.trials ∧
      Core C A0 B0 (vars s2.stk) s2.seg s2.A s2.B s2.p ∧ f.var ∉ v ∧ passes C v = true ∧
      s2.A = sub1 f.var v s.A ∧ s2.B = sub1 f.var v s.B ∧ s2.seg = ((sub1 f.var v a).length, v.length) :: segs.map (cur f.var v a) := by
  intro inA v
  have hseg : s.seg = (a.length, len) :: segs := by rw [hs.seg, h.seg]
  have hsafe : ∀ v : List Nat, v.length = len → v ≠ [] ∨ (s.A.head? ≠ some f.var ∧ s.B.head? ≠ some f.var) := by
    intro v hv
    by_cases h0 : v = []
    · right
      rw [hs.A, hs.B]
      have := h.min
      rw [h0] at hv
      simp at hv
      exact h.core.heads hP (by omega) h.unk
    · exact Or.inl h0
  have ech : choose C inA f.var s = (do
      let sub ← midTok (if inA then s.B else s.A) s.p len
      substitute C inA f.var sub s) := by
    unfold choose
    rw [hs.stk, hseg]
    dsimp only
    rw [if_neg (by simp)]
  rcases h.side with ⟨e, hm⟩ | ⟨e, hm⟩
  · have hi : inA = true := by simp [inA, e]
    have hv : v = (cb :: tb).take len := by simp only [v]; rw [if_pos e]
    rw [hi] at ech ⊢
    have hl := h.ltB hm
    rw [ech, if_pos rfl, hs.B, midTok_at h.hB hs.p, Out.bind_val]
    have hvl : ((cb :: tb).take len).length = len := by rw [List.length_take]; omega
    rcases substitute_ok (C := C) (x := f.var) (v := (cb :: tb).take len) (a := a) (t := ta) (b := (cb :: tb).drop len) (segs := segs) (s := s) (inA := true)
      (by rw [hseg, hvl]) hs.p (Or.inl ⟨rfl, by rw [hs.A, h.hA, e], by rw [hs.B, h.hB, List.take_append_drop]⟩) hm (hsafe _ hvl) with ⟨e1, e2⟩ | ⟨s2, e1, e2, e3, e4⟩
    · exact Or.inl ⟨e1, by rw [hv]; exact e2⟩
    · right
      refine ⟨s2, e1, e4.stk, ?_, e4.trials, ?_, by rw [hv]; exact e2, by rw [hv]; exact e3, by rw [e4.A, hv], by rw [e4.B, hv, hs.B], by rw [e4.seg, hv]⟩
      · intro y; rw [e4.on, e4.stk]; exact hs.on y
      · rw [e4.stk, hs.stk, e4.seg, e4.A, e4.B, e4.p, hs.A, hs.B]
        exact core_inA h.core (by rw [h.hA, e]) (by rw [h.hB, List.take_append_drop]) rfl h.unk e2 hm (by rw [hvl]; exact h.min)
  · have hne : f.var ≠ ca := by rw [e]; exact fun h' => h.ne h'.symm
    have hi : inA = false := by simp [inA, hne]
    have hv : v = (ca :: ta).take len := by simp only [v]; rw [if_neg hne]
    rw [hi] at ech ⊢
    have hl := h.ltA hm
    rw [ech, if_neg (by simp), hs.A, midTok_at h.hA hs.p, Out.bind_val]
    have hvl : ((ca :: ta).take len).length = len := by rw [List.length_take]; omega
    rcases substitute_ok (C := C) (x := f.var) (v := (ca :: ta).take len) (a := a) (t := tb) (b := (ca :: ta).drop len) (segs := segs) (s := s) (inA := false)
      (by rw [hseg, hvl]) hs.p (Or.inr ⟨rfl, by rw [hs.B, h.hB, e], by rw [hs.A, h.hA, List.take_append_drop]⟩) hm (hsafe _ hvl) with ⟨e1, e2⟩ | ⟨s2, e1, e2, e3, e4⟩
    · exact Or.inl ⟨e1, by rw [hv]; exact e2⟩
    · right
      refine ⟨s2, e1, e4.stk, ?_, e4.trials, ?_, by rw [hv]; exact e2, by rw [hv]; exact e3, by rw [e4.A, hv, hs.A], by rw [e4.B, hv], by rw [e4.seg, hv]⟩
      · intro y; rw [e4.on, e4.stk]; exact hs.on y
      · rw [e4.stk, hs.stk, e4.seg, e4.A, e4.B, e4.p, hs.A, hs.B]
        exact core_inB h.core (by rw [h.hB, e]) (by rw [h.hA, List.take_append_drop]) rfl h.unk e2 hm (by rw [hvl]; exact h.min)

/-- The rest of `scan` after the loop has stopped at a mismatch. -/
def atTok (C : Cfg) (room : Nat) (a b : Nat) (s : St) : Out (Lbl × St) :=
  if a ≤ C.mt ∧ b ≤ C.mt then .val (.back, s) else mismatch C room a b s

theorem doScan_mismatch {s : St} {a ta tb : List Nat} {ca cb room : Nat} (hl : scanLoop s.A s.B (s.A.length + 1) s.p = .val a.length)
    (hA : s.A = a ++ ca :: ta) (hB : s.B = a ++ cb :: tb) (hne : ca ≠ cb) : doScan C room s = atTok C room ca cb { s with p := a.length } := by
  unfold doScan atTok
  rw [hl, Out.bind_val, rd_at' hA rfl, Out.bind_val, rd_at' hB rfl, Out.bind_val]
  dsimp only
  have hne' : (ca : Int) ≠ cb := by omega
  by_cases h1 : (ca : Int) = C.mt ∨ (cb : Int) = C.mt
  · rw [if_pos h1, if_pos hne']
    by_cases h2 : ca ≤ C.mt ∧ cb ≤ C.mt
    · rw [if_pos h2, if_pos (by omega)]
    · rw [if_neg h2, if_neg (by omega)]
  · rw [if_neg h1]
    by_cases h2 : ca ≤ C.mt ∧ cb ≤ C.mt
    · rw [if_pos h2]
      unfold mismatch
      rw [if_neg (by omega), if_neg (by omega), if_neg (by omega)]
    · rw [if_neg h2]

theorem active_ok {f fs a ta tb ca cb len segs} (h : Act C A0 B0 f fs a ta tb ca cb len segs) {s : St} (hs : Active s f fs a) (room : Nat) :
    doScan C room s = choose C (decide (f.var = ca)) f.var s := by
  have hl : scanLoop s.A s.B (s.A.length + 1) s.p = .val a.length := by
    rw [hs.A, hs.B, h.hA, h.hB, hs.p]; exact scanLoop_mismatch h.ne
  rw [doScan_mismatch hl (by rw [hs.A]; exact h.hA) (by rw [hs.B]; exact h.hB) h.ne]
  have hsp : { s with p := a.length } = s := by rw [← hs.p]
  rw [hsp]
  have hu := h.unk
  have hon : s.on f.var = true := (hs.on _).2 (by rw [hs.stk]; simp [vars])
  unfold atTok mismatch
  rcases h.side with ⟨e, _⟩ | ⟨e, _⟩
  · rw [if_neg (by omega)]
    have hd : decide (f.var = ca) = true := by simp [e]
    have hass : assign C room true ca s = choose C true f.var s := by
      unfold assign; rw [← e, hon, if_neg (by simp)]
    rw [hd, ← hass]
    have hcb : s.on cb = false := hs.on.off (by
      rw [hs.stk]; simp only [vars, List.map_cons, List.mem_cons]; rintro (h' | h')
      · exact h.ne (by rw [h', e])
      · exact h.notB h')
    by_cases h2 : C.mt < cb
    · rw [if_pos (by omega), Int.toNat_natCast, hcb, if_pos rfl, Int.toNat_natCast]
    · rw [if_neg (by omega), if_neg (by omega), if_pos (by omega), Int.toNat_natCast]
  · rw [if_neg (by omega)]
    have hd : decide (f.var = ca) = false := by simp [e]; exact fun h' => h.ne h'.symm
    have hass : assign C room false cb s = choose C false f.var s := by
      unfold assign; rw [← e, hon, if_neg (by simp)]
    rw [hd, ← hass]
    have hca : s.on ca = false := hs.on.off (by
      rw [hs.stk]; simp only [vars, List.map_cons, List.mem_cons]; rintro (h' | h')
      · exact h.ne (by rw [h', e])
      · exact h.notA h')
    have hcb : s.on cb = true := by rw [← e]; exact hon
    by_cases h2 : C.mt < ca
    · rw [if_pos (by omega), Int.toNat_natCast, hcb, if_neg (by simp), Int.toNat_natCast, hca, if_neg (by simp)]
    · rw [if_neg (by omega), if_pos (by omega), Int.toNat_natCast]

theorem Core.advance (h : Core C A0 B0 vs seg A B p) (hp : p ≤ q) (hq : q < A.length) (he : A.take q = B.take q) : Core C A0 B0 vs seg A B q :=
  ⟨h.hA, h.hB, h.len, h.nodup, h.unk, h.notA, h.notB, hq, he, fun e he' => ⟨by have := (h.segs e he').1; omega, (h.segs e he').2⟩, h.toks, h.ord⟩

theorem addUnk_mem {y : Nat} : ∀ {l v : List Nat}, y ∈ addUnk C l v ↔ y ∈ v ∨ (C.mt < y ∧ y ∈ l)
  | [], v => by simp [addUnk]
  | t :: l, v => by
    rw [addUnk, addUnk_mem]
    by_cases h : t > C.mt ∧ t ∉ v
    · rw [if_pos h]
      simp only [List.mem_append, List.mem_cons, List.not_mem_nil, or_false]
      constructor
      · rintro ((h1 | rfl) | h1)
        · exact Or.inl h1
        · exact Or.inr ⟨h.1, Or.inl rfl⟩
        · exact Or.inr ⟨h1.1, Or.inr h1.2⟩
      · rintro (h1 | ⟨h1, rfl | h2⟩)
        · exact Or.inl (Or.inl h1)
        · exact Or.inl (Or.inr rfl)
        · exact Or.inr ⟨h1, h2⟩
    · rw [if_neg h]
      simp only [List.mem_cons]
      constructor
      · rintro (h1 | h1)
        · exact Or.inl h1
        · exact Or.inr ⟨h1.1, Or.inr h1.2⟩
      · rintro (h1 | ⟨h1, rfl | h2⟩)
        · exact Or.inl h1
        · left
          by_contra hn
          exact h ⟨h1, hn⟩
        · exact Or.inr ⟨h1, h2⟩

theorem unkVars_mem {y : Nat} : y ∈ unkVars C A0 B0 ↔ Unknown C A0 B0 y := by
  unfold unkVars Unknown
  rw [addUnk_mem, addUnk_mem]
  simp only [List.not_mem_nil, false_or]
  tauto

theorem room_ok {l : List Nat} (hn : l.Nodup) (h : ∀ y ∈ l, Unknown C A0 B0 y) : l.length ≤ (unkVars C A0 B0).length :=
  (List.subperm_of_subset hn (fun y hy => unkVars_mem.2 (h y hy))).length_le

/-- A state at `scan` in which nothing was tried yet at the position. -/
structure Fresh (C : Cfg) (A0 B0 : List Nat) (s : St) : Prop where
  core : Core C A0 B0 (vars s.stk) s.seg s.A s.B s.p
  ok : StkOk C A0 B0 s.stk
  on : OnOk s

/-- What `scan` does then: done; or back; or a variable is pushed on the stack. -/
theorem fresh_ok (hP : Proper C A0 B0) {s : St} (hs : Fresh C A0 B0 s) :
    (∃ q, doScan C (unkVars C A0 B0).length s = .val (.done, { s with p := q }) ∧ s.A = s.B) ∨
    (∃ s', doScan C (unkVars C A0 B0).length s = .val (.back, s') ∧ s'.stk = s.stk ∧ OnOk s' ∧
      ∃ a ta tb ca cb, s.A = a ++ ca :: ta ∧ s.B = a ++ cb :: tb ∧ ca ≠ cb ∧
        ((ca ≤ C.mt ∧ cb ≤ C.mt) ∨ (C.mt < ca ∧ cb = C.mt ∧ C.min = 1) ∨ (C.mt < cb ∧ ca = C.mt ∧ C.min = 1))) ∨
    ∃ s' f a ta tb ca cb, doScan C (unkVars C A0 B0).length s = choose C (decide (f.var = ca)) f.var s' ∧
      Act C A0 B0 f s.stk a ta tb ca cb C.min s.seg ∧ Active s' f s.stk a ∧ f.A = s.A ∧ f.B = s.B ∧ (C.mt < ca → f.var = ca) ∧ s'.trials = s.trials := by
  have hc : s.A.count C.mt = s.B.count C.mt := by rw [hs.core.countA, hs.core.countB, hP.sep]
  obtain ⟨A1, eA⟩ := hs.core.endA
  obtain ⟨B1, eB⟩ := hs.core.endB
  obtain ⟨a, ca, cb, ta, tb, hl, hpa, hA, hB, hcase⟩ := scanLoop_ok eA eB hc (s.A.length + 1) s.p (by omega) hs.core.pA hs.core.pre
  by_cases hne : ca ≠ cb
  swap
  · rcases hcase with h' | ⟨h1, h2, h3⟩
    · exact absurd h' hne
    · left
      refine ⟨a.length, ?_, h1⟩
      unfold doScan
      have e : ca = cb := by simpa using hne
      rw [hl, Out.bind_val, rd_at' hA rfl, Out.bind_val, rd_at' hB rfl, Out.bind_val]
      dsimp only
      rw [if_pos (by left; rw [h3]), if_neg (by simp [e]), rd_end (by rw [hA, h2]; simp), Out.bind_val, if_pos rfl]
  · right
    have hco : Core C A0 B0 (vars s.stk) s.seg s.A s.B a.length := hs.core.advance hpa (by rw [hA]; simp) (by
      conv => lhs; rw [hA]
      conv => rhs; rw [hB]
      rw [List.take_left, List.take_left])
    rw [doScan_mismatch hl hA hB hne]
    by_cases hboth : ca ≤ C.mt ∧ cb ≤ C.mt
    · left
      unfold atTok
      rw [if_pos hboth]
      exact ⟨_, rfl, rfl, hs.on, a, ta, tb, ca, cb, hA, hB, hne, Or.inl hboth⟩
    · have ha : s.on ca = false := hs.on.off (fun h' => hs.core.notA _ h' (by rw [hA]; simp))
      have hb : s.on cb = false := hs.on.off (fun h' => hs.core.notB _ h' (by rw [hB]; simp))
      have hroom : ∀ y, C.mt < y → y ∈ s.A ∨ y ∈ s.B → y ∉ vars s.stk → s.stk.length < (unkVars C A0 B0).length := by
        intro y hy hm hn
        have h1 := room_ok (C := C) (A0 := A0) (B0 := B0) (l := y :: vars s.stk) (List.nodup_cons.2 ⟨hn, hs.core.nodup⟩) (by
          intro z hz
          rcases List.mem_cons.1 hz with rfl | hz
          · exact ⟨hy, hs.core.toks _ hy hm⟩
          · exact hs.core.unk z hz)
        simp [vars] at h1
        omega
      have hbig : C.mt < ca ∨ C.mt < cb := by omega
      have key : ∃ (x other : Nat) (inA : Bool), C.mt < x ∧ (x = ca ∧ other = cb ∧ inA = true ∨ x = cb ∧ other = ca ∧ inA = false) ∧ (C.mt < ca → x = ca) ∧
          atTok C (unkVars C A0 B0).length ca cb { s with p := a.length } = choose C inA x (push C x { s with p := a.length }) := by
        by_cases h1 : C.mt < ca
        · refine ⟨ca, cb, true, h1, Or.inl ⟨rfl, rfl, rfl⟩, fun _ => rfl, ?_⟩
          unfold atTok mismatch
          rw [if_neg hboth]
          have hass : assign C (unkVars C A0 B0).length true ca { s with p := a.length } = choose C true ca (push C ca { s with p := a.length }) := by
            unfold assign
            dsimp only
            rw [ha, if_pos rfl, if_pos (hroom ca h1 (Or.inl (by rw [hA]; simp)) (fun h' => by rw [(hs.on ca).2 h'] at ha; cases ha))]
          by_cases h2 : C.mt < cb
          · rw [if_pos (by omega), Int.toNat_natCast]
            dsimp only
            rw [hb, if_pos rfl, Int.toNat_natCast, hass]
          · rw [if_neg (by omega), if_neg (by omega), if_pos (by omega), Int.toNat_natCast, hass]
        · have h2 : C.mt < cb := by omega
          refine ⟨cb, ca, false, h2, Or.inr ⟨rfl, rfl, rfl⟩, fun h' => absurd h' h1, ?_⟩
          unfold atTok mismatch
          rw [if_neg hboth, if_neg (by omega), if_pos (by omega), Int.toNat_natCast]
          unfold assign
          dsimp only
          rw [hb, if_pos rfl, if_pos (hroom cb h2 (Or.inr (by rw [hB]; simp)) (fun h' => by rw [(hs.on cb).2 h'] at hb; cases hb))]
      obtain ⟨x, other, inA, hx, hside, hpref, hch⟩ := key
      rw [hch]
      have hxo : x ≠ other := by
        rcases hside with ⟨r1, r2, _⟩ | ⟨r1, r2, _⟩
        · rw [r1, r2]; exact hne
        · rw [r1, r2]; exact fun h' => hne h'.symm
      have hxn : x ∉ vars s.stk := by
        intro h'
        rcases hside with ⟨r1, _⟩ | ⟨r1, _⟩
        · rw [← r1, (hs.on x).2 h'] at ha; cases ha
        · rw [← r1, (hs.on x).2 h'] at hb; cases hb
      have hinA : inA = decide (x = ca) := by
        rcases hside with ⟨r1, _, r3⟩ | ⟨r1, _, r3⟩
        · rw [r3, r1]; simp
        · rw [r3, r1]; symm; simp; exact fun h' => hne h'.symm
      have hPon : OnOk (push C x { s with p := a.length }) := by
        intro y
        simp only [push, vars, List.map_cons, List.mem_cons]
        by_cases h1 : y = x
        · simp [h1]
        · rw [if_neg h1]
          simp only [h1, false_or]
          exact hs.on y
      by_cases hbad : C.min = 1 ∧ other = C.mt
      · left
        -- the other token is the separator
        have hv : midTok (if inA then s.B else s.A) a.length 1 = .val [other] := by
          rcases hside with ⟨r1, r2, r3⟩ | ⟨r1, r2, r3⟩
          · rw [r3, if_pos rfl, midTok_at hB rfl, r2]; rfl
          · rw [r3, if_neg (by simp), midTok_at hA rfl, r2]; rfl
        have e : choose C inA x (push C x { s with p := a.length }) = .val (.back, pop (push C x { s with p := a.length })) := by
          unfold choose
          simp only [push]
          rw [if_neg (by simp), hbad.1, hv, Out.bind_val]
          unfold substitute
          rw [if_neg (by simp; exact hxo), if_pos (by simp [hbad.2])]
        rw [e]
        refine ⟨_, rfl, rfl, ?_, a, ta, tb, ca, cb, hA, hB, hne, ?_⟩
        · intro y
          simp only [pop, push, List.head?_cons, Option.map_some, List.tail_cons, Option.some.injEq]
          by_cases h1 : y = x
          · rw [if_pos h1, h1]; simp [hxn]
          · rw [if_neg h1, if_neg h1]; exact hs.on y
        · right
          rcases hside with ⟨r1, r2, _⟩ | ⟨r1, r2, _⟩
          · exact Or.inl ⟨by omega, by omega, hbad.1⟩
          · exact Or.inr ⟨by omega, by omega, hbad.1⟩
      · right
        have hmin := hP.min1
        have hno : ∀ t, C.mt ∉ (other :: t).take C.min := by
          intro t
          by_cases h0 : C.min = 0
          · rw [h0]; simp
          · have h1 : C.min = 1 := by omega
            rw [h1]; simp; omega
        refine ⟨push C x { s with p := a.length }, { var := x, seg := (a.length, C.min) :: s.seg, A := s.A, B := s.B }, a, ta, tb, ca, cb, by rw [hinA],
          ⟨hA, hB, hne, rfl, hco, hx, Nat.le_refl _, ?_⟩, ⟨rfl, rfl, rfl, rfl, rfl, hPon⟩, rfl, rfl, hpref, rfl⟩
        rcases hside with ⟨r1, r2, _⟩ | ⟨r1, r2, _⟩
        · left; exact ⟨r1, by rw [← r2]; exact hno tb⟩
        · right; exact ⟨r1, by rw [← r2]; exact hno ta⟩

end MM.Unif
