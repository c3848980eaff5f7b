import Verif.Pfas.Known

/-!
# `assignKnownSteps`, `assignKnownSubProofs`
-/
namespace MM.Pfas
open MM.Veri MM.Proof MM.Data MM.Tree AF Cx
open MM.Spec (subst)

variable {E : Env} {U : Unifier} {P Q : Node → List (List Nat) → Prop}

/-- Every target replaced by the source. -/
def AF.tcp : AF → AF
  | nil => nil
  | snoc l x ch => snoc (AF.tcp l) ⟨x.stmt, x.src, x.src, x.usr⟩ (AF.tcp ch)

theorem tcp_tgts : ∀ g : AF, g.tcp.tgts = g.srcs
  | nil => rfl
  | snoc l x ch => by simp [AF.tcp, tgts, srcs, tcp_tgts l]

theorem tcp_flat : ∀ g : AF, g.tcp.flat = g.flat.map fun x => ⟨x.stmt, x.src, x.src, x.usr⟩
  | nil => rfl
  | snoc l x ch => by simp [AF.tcp, AF.flat, tcp_flat l, tcp_flat ch]

theorem all_tcp : ∀ {f g : AF}, SameS f g → All (Shape E) f → (∀ x ∈ f.flat, x.stmt ≠ unk) → SrcOk E g → All (NodeOk E) g.tcp
  | nil, nil, _, _, _, _ => trivial
  | snoc l x ch, snoc l' x' ch', h, hS, hn, hk => by
    refine ⟨all_tcp h.1 hS.1 (fun x hx => hn x (by simp [AF.flat, hx])) hk.1, all_tcp h.2.1 hS.2.1 (fun x hx => hn x (by simp [AF.flat, hx])) hk.2.1, ?_⟩
    have hs := hS.2.2
    have hx := hn x (by simp [AF.flat])
    refine ⟨?_, fun h1 => ?_, fun _ h1 => ?_, fun _ h1 => ?_⟩
    · rw [tcp_tgts]
      refine ⟨?_, ?_, ?_⟩
      · dsimp only; rw [h.2.2.1]; exact hs.1
      · dsimp only; rw [h.2.2.1, srcs_length, h.2.1.length.2, ← tgts_length]; exact hs.2.1
      · dsimp only; rw [h.2.2.1]; exact hs.2.2
    · dsimp only at h1; rw [h.2.2.1] at h1; exact absurd h1 hx
    · exact hk.2.2.2.1 h1
    · rw [tcp_tgts]; exact hk.2.2.2.2 h1
  | nil, snoc _ _ _, h, _, _, _ => h.elim
  | snoc _ _ _, nil, h, _, _, _ => h.elim

theorem copyTargets_eq : ∀ {M T A A' B B' : List (List Nat)} {pos : Nat}, A.length = pos → A'.length = pos → M.length = T.length →
    copyTargets (A ++ M ++ B) M.length pos (A' ++ T ++ B') = .val (A' ++ M ++ B')
  | [], [], A, A', B, B', pos, _, _, _ => by simp [copyTargets]
  | m :: M, t :: T, A, A', B, B', pos, hA, hA', hl => by
    have e1 : A ++ m :: M ++ B = A ++ m :: (M ++ B) := by simp
    have e2 : A' ++ t :: T ++ B' = A' ++ t :: (T ++ B') := by simp
    rw [List.length_cons, copyTargets, e1, e2, getF_at' (by omega), Out.bind_val, setF_at (by omega), Out.bind_val]
    have := copyTargets_eq (M := M) (T := T) (A := A ++ [m]) (A' := A' ++ [m]) (B := B) (B' := B') (pos := pos + 1) (by simp [hA]) (by simp [hA']) (by simpa using hl)
    simpa using this
  | [], _ :: _, _, _, _, _, _, _, _, h => by simp at h
  | _ :: _, [], _, _, _, _, _, _, _, h => by simp at h

/-- Trees with other sources and targets. -/
theorem refill : ∀ (f : AF) (S T : List (List Nat)), S.length = f.flat.length → T.length = f.flat.length →
    ∃ g : AF, g.flat.map Node.src = S ∧ g.flat.map Node.tgt = T ∧ g.flat.map Node.stmt = f.flat.map Node.stmt ∧ g.flat.map Node.usr = f.flat.map Node.usr ∧
      g.count = f.count ∧ (All (Shape E) f → All (Shape E) g)
  | nil, S, T, h1, h2 => by
    refine ⟨nil, ?_, ?_, rfl, rfl, rfl, fun _ => trivial⟩
    · exact (List.length_eq_zero_iff.mp h1).symm
    · exact (List.length_eq_zero_iff.mp h2).symm
  | snoc l x ch, S, T, h1, h2 => by
    have h1' : S.length = l.flat.length + ch.flat.length + 1 := by rw [h1]; simp [AF.flat]; omega
    have h2' : T.length = l.flat.length + ch.flat.length + 1 := by rw [h2]; simp [AF.flat]; omega
    have split : ∀ X : List (List Nat), X.length = l.flat.length + ch.flat.length + 1 → ∃ X1 X2 m, X = X1 ++ X2 ++ [m] ∧ X1.length = l.flat.length ∧ X2.length = ch.flat.length := by
      intro X hX
      refine ⟨X.take l.flat.length, (X.drop l.flat.length).take ch.flat.length, X.getLast (by rintro rfl; simp at hX), ?_, by simp; omega, by simp; omega⟩
      conv => lhs; rw [← List.dropLast_append_getLast (l := X) (by rintro rfl; simp at hX)]
      congr 1
      rw [List.dropLast_eq_take, hX, ← List.take_add]
      rfl
    obtain ⟨S1, S2, m, rfl, hs1, hs2⟩ := split S h1'
    obtain ⟨T1, T2, t, rfl, ht1, ht2⟩ := split T h2'
    obtain ⟨gl, a1, a2, a3, a4, a5, a6⟩ := refill l S1 T1 hs1 ht1
    obtain ⟨gc, b1, b2, b3, b4, b5, b6⟩ := refill ch S2 T2 hs2 ht2
    refine ⟨snoc gl ⟨x.stmt, t, m, x.usr⟩ gc, by simp [AF.flat, a1, b1], by simp [AF.flat, a2, b2], by simp [AF.flat, a3, b3], by simp [AF.flat, a4, b4], by simp [AF.count, a5], ?_⟩
    intro h
    refine ⟨a6 h.1, b6 h.2.1, h.2.2.1, ?_, h.2.2.2.2⟩
    rw [tgts_length, b5, ← tgts_length]
    exact h.2.2.2.1

/-- `assignKnownSteps` on a tree without unknown steps: either everything in the tree satisfies the invariant, or an error is reported and the tree keeps its shape. -/
theorem assignKnownSteps_rep (G : GoodEnv E) (hU : U.Ok E) {d : Nat} {p : Pip} {c : Cx} {x : Node} {f : AF} (h : Rep p (c.plug x f)) (hf : All (Shape E) f)
    (hx : Shape E x f.tgts) (hn : ∀ y ∈ f.flat, y.stmt ≠ unk) (hn' : x.stmt ≠ unk) :
    (∃ q g x', assignKnownSteps E U d p c.pre.length (f.flat.length + 1) = .val (q, false) ∧ Rep q (c.plug x' g) ∧ x'.stmt = x.stmt ∧ x'.tgt = x.tgt ∧
      All (NodeOk E) g ∧ NodeOk E x' g.tgts ∧ g.flat.map Node.stmt = f.flat.map Node.stmt ∧ ∀ y ∈ g.flat, y.tgt = y.src) ∨
    (∃ q g x', assignKnownSteps E U d p c.pre.length (f.flat.length + 1) = .val (q, true) ∧ Rep q (c.plug x' g) ∧ x'.stmt = x.stmt ∧ x'.tgt = x.tgt ∧
      All (Shape E) g ∧ Shape E x' g.tgts ∧ g.flat.map Node.stmt = f.flat.map Node.stmt) := by
  obtain ⟨e1, e2, e3, e4⟩ := h.at
  have key := knownLoop_forest G hU (d := d) (f := snoc nil x f) ⟨trivial, hf, hx⟩ (by
      intro y hy
      simp only [AF.flat, List.nil_append, List.mem_append, List.mem_singleton] at hy
      rcases hy with hy | rfl
      · exact hn y hy
      · exact hn') (a := c.pre.map Node.stmt) (b := c.post.map Node.stmt) (A := c.pre.map Node.src) (B := c.post.map Node.src) (by simp) [] 0
  have p1 : c.pre.map Node.stmt ++ (snoc nil x f).flat.map Node.stmt ++ c.post.map Node.stmt = p.proof := by rw [e1]; simp [AF.flat]
  have p2 : c.pre.map Node.src ++ (snoc nil x f).flat.map Node.src ++ c.post.map Node.src = p.source := by rw [e3]; simp [AF.flat]
  have p3 : (snoc nil x f).flat.length + 0 = f.flat.length + 1 := by simp [AF.flat]
  rw [p1, p2, p3, List.length_map] at key
  have e2' : p.target = c.pre.map Node.tgt ++ f.flat.map Node.tgt ++ (x.tgt :: c.post.map Node.tgt) := e2
  unfold assignKnownSteps
  rcases key with ⟨g, g1, g2, g3⟩ | ⟨M, stk1, g3, g4⟩
  · left
    rw [g3, knownLoop, Out.bind_val]
    obtain ⟨gl, y, gc, rfl⟩ : ∃ gl y gc, g = snoc gl y gc := by
      cases g with
      | nil => exact g1.elim
      | snoc gl y gc => exact ⟨gl, y, gc, rfl⟩
    have hgl : gl = nil := by
      cases gl with
      | nil => rfl
      | snoc _ _ _ => exact g1.1.elim
    subst hgl
    have hlen : (gc.flat.map Node.src).length = (f.flat.map Node.tgt).length := by simp [g1.2.1.length.1]
    have hct := copyTargets_eq (M := gc.flat.map Node.src) (T := f.flat.map Node.tgt) (A := c.pre.map Node.src) (A' := c.pre.map Node.tgt) (B := y.src :: c.post.map Node.src)
      (B' := x.tgt :: c.post.map Node.tgt) (pos := c.pre.length) (by simp) (by simp) hlen
    have hl2 : (gc.flat.map Node.src).length = f.flat.length := by simp [g1.2.1.length.1]
    have e5 : c.pre.map Node.src ++ (snoc nil y gc).flat.map Node.src ++ c.post.map Node.src = c.pre.map Node.src ++ gc.flat.map Node.src ++ (y.src :: c.post.map Node.src) := by
      simp [AF.flat]
    rw [if_neg (by simp [rootN]), Nat.add_sub_cancel]
    dsimp only
    rw [e5, e2', ← hl2, hct, Out.bind_val]
    obtain ⟨m1, m2, m3, m4⟩ := g1.2.1.maps
    have hall := all_tcp (E := E) (f := snoc nil x f) (g := snoc nil y gc) g1 ⟨trivial, hf, hx⟩ (by
      intro y hy
      simp only [AF.flat, List.nil_append, List.mem_append, List.mem_singleton] at hy
      rcases hy with hy | rfl
      · exact hn y hy
      · exact hn') g2
    refine ⟨_, gc.tcp, ⟨x.stmt, x.tgt, y.src, x.usr⟩, rfl, ⟨?_, ?_, ?_, ?_⟩, rfl, rfl, hall.2.1, ?_, ?_, ?_⟩
    · have t1 : List.map (fun x : Node => x.stmt) gc.flat = gc.flat.map Node.stmt := rfl
      rw [flat_plug, tcp_flat, e1]; simp [Function.comp_def, t1, m1]
    · have t1 : List.map (fun x : Node => x.src) gc.flat = gc.flat.map Node.src := rfl
      rw [flat_plug, tcp_flat]; simp [Function.comp_def, t1]
    · have t1 : List.map (fun x : Node => x.src) gc.flat = gc.flat.map Node.src := rfl
      rw [flat_plug, tcp_flat]; simp [Function.comp_def, t1]
    · have t1 : List.map (fun x : Node => x.usr) gc.flat = gc.flat.map Node.usr := rfl
      rw [flat_plug, tcp_flat, e4]; simp [Function.comp_def, t1, m3]
    · have := hall.2.2
      rw [g1.2.2.1] at this
      exact this
    · have t1 : List.map (fun x : Node => x.stmt) gc.flat = gc.flat.map Node.stmt := rfl
      rw [tcp_flat]; simp [Function.comp_def, t1, m1]
    · intro z hz
      rw [tcp_flat] at hz
      obtain ⟨w, _, rfl⟩ := List.mem_map.mp hz
      rfl
  · right
    rw [g3, Out.bind_val, if_neg (by simp)]
    have hM : M.length = f.flat.length + 1 := by rw [g4]; simp [AF.flat]
    obtain ⟨M1, m, rfl⟩ : ∃ M1 m, M = M1 ++ [m] := ⟨M.dropLast, M.getLast (by rintro rfl; simp at hM), (List.dropLast_append_getLast _).symm⟩
    have hM1 : M1.length = f.flat.length := by simpa using hM
    have hct := copyTargets_eq (M := M1) (T := f.flat.map Node.tgt) (A := c.pre.map Node.src) (A' := c.pre.map Node.tgt) (B := m :: c.post.map Node.src)
      (B' := x.tgt :: c.post.map Node.tgt) (pos := c.pre.length) (by simp) (by simp) (by simp [hM1])
    have e5 : c.pre.map Node.src ++ (M1 ++ [m]) ++ c.post.map Node.src = c.pre.map Node.src ++ M1 ++ (m :: c.post.map Node.src) := by simp
    rw [Nat.add_sub_cancel]
    dsimp only
    rw [e5, e2', ← hM1, hct, Out.bind_val]
    obtain ⟨g, a1, a2, a3, a4, a5, a6⟩ := refill (E := E) f M1 M1 hM1 hM1
    refine ⟨_, g, ⟨x.stmt, x.tgt, m, x.usr⟩, rfl, ⟨?_, ?_, ?_, ?_⟩, rfl, rfl, a6 hf, ⟨hx.1, ?_, hx.2.2⟩, a3⟩
    · rw [flat_plug, e1]; simp [a3]
    · rw [flat_plug]; simp [a2]
    · rw [flat_plug]; simp [a1]
    · rw [flat_plug, e4]; simp [a4]
    · rw [tgts_length, a5, ← tgts_length]; exact hx.2.1

/-- The part of the invariant that also holds after an error. -/
def Basic (E : Env) (x : Node) (ts : List (List Nat)) : Prop := Shape E x ts ∧ (x.stmt = unk → x.src = [])

theorem NodeOk.basic {x : Node} {ts : List (List Nat)} (h : NodeOk E x ts) : Basic E x ts := ⟨h.1, h.2.1⟩

theorem basic_tgtFree : TgtFree (Basic E) := fun _ _ _ h => h

theorem all_basic : ∀ {f : AF}, All (Shape E) f → (∀ x ∈ f.flat, x.stmt ≠ unk) → All (Basic E) f
  | nil, _, _ => trivial
  | snoc _ x _, h, hn => ⟨all_basic h.1 (fun x hx => hn x (by simp [AF.flat, hx])), all_basic h.2.1 (fun x hx => hn x (by simp [AF.flat, hx])),
      h.2.2, fun hu => absurd hu (hn x (by simp [AF.flat]))⟩

theorem no_unk {f g : AF} (h : g.flat.map Node.stmt = f.flat.map Node.stmt) (hn : ∀ x ∈ f.flat, x.stmt ≠ unk) : ∀ x ∈ g.flat, x.stmt ≠ unk := by
  intro x hx hu
  have : x.stmt ∈ g.flat.map Node.stmt := List.mem_map.mpr ⟨x, hx, rfl⟩
  rw [h] at this
  obtain ⟨y, hy, e⟩ := List.mem_map.mp this
  exact hn y hy (e.trans hu)

theorem nmbrSeg_at {a m b : List Int} {i j : Int} (h1 : i = a.length + 1) (h2 : j = a.length + m.length) : nmbrSeg (a ++ m ++ b) i j = .val m := by
  subst h1; subst h2
  unfold nmbrSeg
  have e1 : (max ((a.length : Int) + 1) 1 - 1).toNat = a.length := by omega
  have e2 : ((if (a.length : Int) + m.length < 1 then 0 else (a.length : Int) + m.length) - max ((a.length : Int) + 1) 1 + 1).toNat = m.length := by
    split <;> omega
  simp only [e1, e2]
  rw [if_pos (by simp)]
  simp

/-- A property between `Basic` and the invariant. -/
structure Mid (E : Env) (P : Node → List (List Nat) → Prop) : Prop where
  free : TgtFree P
  ok : ∀ x ts, NodeOk E x ts → P x ts
  basic : ∀ x ts, P x ts → Basic E x ts

theorem mid_nodeOk : Mid E (NodeOk E) := ⟨nodeOk_tgtFree, fun _ _ h => h, fun _ _ h => h.basic⟩

theorem mid_basic : Mid E (Basic E) := ⟨basic_tgtFree, fun _ _ h => h.basic, fun _ _ h => h⟩

theorem knownSubs_rep (G : GoodEnv E) (hU : U.Ok E) {d : Nat} (hP : Mid E P) : ∀ (n k : Nat) {p : Pip} {f : AF} (err : Bool), k ≤ n → k ≤ f.flat.length → Rep p f →
    All (Basic E) f → (err = false → All P f) →
    ∃ q e g, knownSubs E U d n k p err = .val (q, e) ∧ Rep q g ∧ All (Basic E) g ∧ g.tgts = f.tgts ∧ g.flat.map Node.stmt = f.flat.map Node.stmt ∧
      (e = false → err = false ∧ All P g) := by
  intro n
  induction n with
  | zero =>
    intro k p f err hk _ hr hb hp
    have : k = 0 := by omega
    subst this
    exact ⟨p, err, f, rfl, hr, hb, rfl, rfl, fun h => ⟨h, hp h⟩⟩
  | succ n ih =>
    intro k p f err hk hkl hr hb hp
    rw [knownSubs]
    by_cases h0 : k = 0
    · rw [if_pos h0]
      exact ⟨p, err, f, rfl, hr, hb, rfl, rfl, fun h => ⟨h, hp h⟩⟩
    rw [if_neg h0]
    obtain ⟨c, x, ch, rfl, hi⟩ := locate f (i := k - 1) (by omega)
    obtain ⟨hbc, hbx⟩ := all_plug hb
    obtain ⟨e1, e2, e3, e4⟩ := hr.at
    have hsp := subproofLen_at (hbc.mono fun _ _ h => h.1) hbx.1 (proof := p.proof) (pre := c.pre.map Node.stmt) (post := c.post.map Node.stmt) (by rw [e1]; simp)
    rw [List.length_map] at hsp
    have ek : (k : Int) - 1 = ((c.pre.length + ch.flat.length : Nat) : Int) := by omega
    rw [ek, hsp, Out.bind_val]
    have hseg : nmbrSeg p.proof ((k : Int) - ((ch.flat.length : Int) + 1) + 1) k = .val (ch.flat.map Node.stmt ++ [x.stmt]) := by
      have : p.proof = c.pre.map Node.stmt ++ (ch.flat.map Node.stmt ++ [x.stmt]) ++ c.post.map Node.stmt := by rw [e1]; simp
      rw [this]
      exact nmbrSeg_at (by simp; omega) (by simp; omega)
    rw [hseg, Out.bind_val]
    by_cases hu : unk ∈ ch.flat.map Node.stmt ++ [x.stmt]
    · rw [if_pos hu]
      exact ih (k - 1) err (by omega) (by omega) hr hb hp
    rw [if_neg hu]
    have hn : ∀ y ∈ ch.flat, y.stmt ≠ unk := fun y hy e => hu (List.mem_append_left _ (List.mem_map.mpr ⟨y, hy, e⟩))
    have hn' : x.stmt ≠ unk := fun e => hu (List.mem_append_right _ (by rw [e]; exact List.mem_singleton_self _))
    have e5 : k - ((ch.flat.length : Int) + 1).toNat = c.pre.length := by omega
    have e6 : ((ch.flat.length : Int) + 1).toNat = ch.flat.length + 1 := by omega
    rw [e5, e6]
    have hlen : ∀ (x' : Node) (g : AF), g.flat.map Node.stmt = ch.flat.map Node.stmt → c.pre.length ≤ (c.plug x' g).flat.length := by
      intro x' g _; rw [flat_plug]; simp
    have hst : ∀ (x' : Node) (g : AF), x'.stmt = x.stmt → g.flat.map Node.stmt = ch.flat.map Node.stmt →
        (c.plug x' g).flat.map Node.stmt = (c.plug x ch).flat.map Node.stmt := by
      intro x' g h1 h2; rw [flat_plug, flat_plug]; simp [h1, h2]
    rcases assignKnownSteps_rep G hU (d := d) hr (hbc.mono fun _ _ h => h.1) hbx.1 hn hn' with ⟨q, g, x', a1, a2, a3, a4, a5, a6, a7, _⟩ | ⟨q, g, x', a1, a2, a3, a4, a5, a6, a7⟩
    · rw [a1, Out.bind_val]
      dsimp only
      rw [Bool.or_false]
      obtain ⟨q', e, g', b1, b2, b3, b4, b5, b6⟩ := ih c.pre.length err (by omega) (hlen x' g a7) a2
        (all_replug hb a4 (a5.mono fun _ _ h => h.basic) a6.basic) (fun he => all_replug (hp he) a4 (a5.mono hP.ok) (hP.ok _ _ a6))
      exact ⟨q', e, g', b1, b2, b3, b4.trans (tgts_replug c _ _ a4), b5.trans (hst x' g a3 a7), b6⟩
    · rw [a1, Out.bind_val]
      dsimp only
      rw [Bool.or_true]
      obtain ⟨q', e, g', b1, b2, b3, b4, b5, b6⟩ := ih c.pre.length true (by omega) (hlen x' g a7) a2
        (all_replug hb a4 (all_basic a5 (no_unk a7 hn)) ⟨a6, fun h => absurd (a3 ▸ h) hn'⟩) (by nofun)
      exact ⟨q', e, g', b1, b2, b3, b4.trans (tgts_replug c _ _ a4), b5.trans (hst x' g a3 a7), fun he => absurd (b6 he).1 (by nofun)⟩

theorem assignKnownSubProofs_rep (G : GoodEnv E) (hU : U.Ok E) {d : Nat} (hP : Mid E P) {p : Pip} {f : AF} (hr : Rep p f) (hb : All P f) :
    ∃ q e g, assignKnownSubProofs E U d p = .val (q, e) ∧ Rep q g ∧ All (Basic E) g ∧ g.tgts = f.tgts ∧ g.flat.map Node.stmt = f.flat.map Node.stmt ∧
      (e = false → All P g) := by
  have hl : p.proof.length = f.flat.length := by rw [hr.proof, List.length_map]
  obtain ⟨q, e, g, h1, h2, h3, h4, h5, h6⟩ := knownSubs_rep G hU (d := d) hP p.proof.length p.proof.length false (Nat.le_refl _) (by omega) hr (hb.mono hP.basic) (fun _ => hb)
  exact ⟨q, e, g, h1, h2, h3, h4, h5, fun he => (h6 he).2⟩

/-! ### Initialising the remaining steps -/

/-- Not initialised yet, or satisfying the invariant. -/
def Weak (E : Env) (x : Node) (ts : List (List Nat)) : Prop := Shape E x ts ∧ (x.src = [] ∨ NodeOk E x ts)

theorem mid_weak : Mid E (Weak E) := ⟨fun _ _ _ h => h, fun _ _ h => ⟨h.1, Or.inr h⟩, fun _ _ h => ⟨h.1, fun hu => h.2.elim id fun h' => h'.2.1 hu⟩⟩

theorem subst_ne {σ : Nat → List Nat} {m : List Nat} (h : ∃ k l, m = k :: l ∧ E.isVar k = false) : subst E.isVar σ m ≠ [] := by
  obtain ⟨k, l, rfl, hk⟩ := h
  rw [MM.Spec.subst_cons, hk]
  simp

/-- Only unknown steps have no source. -/
theorem NodeOk.src_ne (G : GoodEnv E) {x : Node} {ts : List (List Nat)} (h : NodeOk E x ts) (hn : x.stmt ≠ unk) : x.src ≠ [] := by
  obtain ⟨h1, _, h3, h4⟩ := h
  rcases h1.cases with ⟨h, _⟩ | ⟨h, hk, _⟩ | ⟨h, hk, _⟩
  · exact absurd h hn
  · rw [h3 (by omega) hk]
    obtain ⟨k, m, e, _⟩ := G.hypHead _ hk.symm
    rw [e]; simp
  · obtain ⟨σ, e, _⟩ := h4 (by omega) hk
    rw [e]
    exact subst_ne (G.ass _ hk).concl

/-- The steps before `k` that have no source are unknown. -/
def Done (p : Pip) (k : Nat) : Prop := ∀ i < k, p.source.getD i [] = [] → p.proof.getD i 0 = unk

theorem getD_mid {a b : List (List Nat)} {m m' : List Nat} {j : Nat} (hj : j ≠ a.length) : (a ++ m :: b).getD j [] = (a ++ m' :: b).getD j [] := by
  rw [List.getD_eq_getElem?_getD, List.getD_eq_getElem?_getD]
  rcases Nat.lt_or_gt_of_ne hj with h | h
  · rw [List.getElem?_append_left h, List.getElem?_append_left h]
  · rw [List.getElem?_append_right (by omega), List.getElem?_append_right (by omega)]
    obtain ⟨n, hn⟩ : ∃ n, j - a.length = n + 1 := ⟨j - a.length - 1, by omega⟩
    rw [hn]
    simp

/-- `initStep` on step number `i`. -/
theorem initStep_at (G : GoodEnv E) {d : Nat} (hP : Mid E P) {p : Pip} {f : AF} (hr : Rep p f) (hb : All P f) {i : Nat} (hi : i < f.flat.length) :
    ∃ q d' g, initStep E p d (i : Int) = .val (q, d') ∧ Rep q g ∧ All P g ∧ g.tgts = f.tgts ∧ g.flat.map Node.stmt = f.flat.map Node.stmt ∧
      (∀ j, j ≠ i → q.source.getD j [] = p.source.getD j []) ∧ (q.source.getD i [] = [] → q.proof.getD i 0 = unk) := by
  obtain ⟨c, x, ch, rfl, hi'⟩ := locate f hi
  obtain ⟨q, d', x', ts, h1, h2, h3, h4, h5, h6⟩ := initStep_all G (d := d) hr hP.free hP.ok (fun x ts h => (hP.basic x ts h).1) hb
  change i = pos c ch at hi'
  subst hi'
  obtain ⟨s1, s2, s3, s4⟩ := setR_flat ch ts
  obtain ⟨_, _, e3, _⟩ := hr.at
  obtain ⟨f1, _, f3, _⟩ := h2.at
  refine ⟨q, d', _, h1, h2, h5, tgts_replug c _ _ h4, ?_, ?_, ?_⟩
  · rw [flat_plug, flat_plug]; simp [s2, h3]
  · intro j hj
    rw [e3, f3, s3]
    exact getD_mid (by simp only [List.length_append, List.length_map]; exact hj)
  · intro hs
    have g1 : q.source.getD (pos c ch) [] = x'.src := by rw [f3]; simp [pos, s1]
    have g2 : q.proof.getD (pos c ch) 0 = x'.stmt := by rw [f1]; simp [pos, s1]
    rw [g1] at hs
    rw [g2]
    rcases Classical.em (x'.stmt = unk) with h | h
    · exact h
    · exact absurd hs (h6.src_ne G h)

theorem getF_val {l : List (List Nat)} {i : Nat} (h : i < l.length) : getF l (i : Int) = .val (l.getD i []) := by
  unfold getF
  rw [if_pos ⟨by omega, by simpa using h⟩]
  simp

theorem initEmpty_rep (G : GoodEnv E) (hP : Mid E P) : ∀ (count step : Nat) {p : Pip} {d : Nat} {f : AF}, Rep p f → All P f → step + count = f.flat.length → Done p step →
    ∃ q d' g, initEmpty E count step p d = .val (q, d') ∧ Rep q g ∧ All P g ∧ g.tgts = f.tgts ∧ g.flat.map Node.stmt = f.flat.map Node.stmt ∧ Done q f.flat.length
  | 0, step, p, d, f, hr, hb, hl, hd => ⟨p, d, f, rfl, hr, hb, rfl, rfl, by
      have : step = f.flat.length := by omega
      rw [← this]; exact hd⟩
  | count + 1, step, p, d, f, hr, hb, hl, hd => by
    have hsl : step < p.source.length := by rw [hr.source, List.length_map]; omega
    rw [initEmpty, getF_val hsl, Out.bind_val]
    by_cases hm : p.source.getD step [] = []
    · rw [if_pos hm]
      obtain ⟨q, d', g, h1, h2, h3, h4, h5, h6, h7⟩ := initStep_at G (d := d) hP hr hb (i := step) (by omega)
      rw [h1, Out.bind_val]
      have hgl : g.flat.length = f.flat.length := by have := congrArg List.length h5; simpa using this
      have hpq : q.proof = p.proof := by rw [h2.proof, hr.proof, h5]
      obtain ⟨q', d'', g', k1, k2, k3, k4, k5, k6⟩ := initEmpty_rep G hP count (step + 1) (d := d') h2 h3 (by omega) (by
        intro i hi hs
        by_cases hi' : i = step
        · subst hi'; exact h7 hs
        · rw [hpq]; exact hd i (by omega) (by rw [← h6 i hi']; exact hs))
      exact ⟨q', d'', g', k1, k2, k3, k4.trans h4, k5.trans h5, by rw [← hgl]; exact k6⟩
    · rw [if_neg hm]
      exact initEmpty_rep G hP count (step + 1) hr hb (by omega) (by
        intro i hi hs
        by_cases hi' : i = step
        · subst hi'; exact absurd hs hm
        · exact hd i (by omega) hs)

theorem initEach_rep (G : GoodEnv E) (hP : Mid E P) : ∀ (count step : Nat) {p : Pip} {d : Nat} {f : AF}, Rep p f → All P f → step + count = f.flat.length →
    ∃ q d' g, initEach E count step p d = .val (q, d') ∧ Rep q g ∧ All P g ∧ g.tgts = f.tgts ∧ g.flat.map Node.stmt = f.flat.map Node.stmt
  | 0, step, p, d, f, hr, hb, hl => ⟨p, d, f, rfl, hr, hb, rfl, rfl⟩
  | count + 1, step, p, d, f, hr, hb, hl => by
    rw [initEach]
    obtain ⟨q, d', g, h1, h2, h3, h4, h5, h6, h7⟩ := initStep_at G (d := d) hP hr hb (i := step) (by omega)
    rw [h1, Out.bind_val]
    have hgl : g.flat.length = f.flat.length := by have := congrArg List.length h5; simpa using this
    obtain ⟨q', d'', g', k1, k2, k3, k4, k5⟩ := initEach_rep G hP count (step + 1) (d := d') h2 h3 (by omega)
    exact ⟨q', d'', g', k1, k2, k3, k4.trans h4, k5.trans h5⟩

/-- After the loop all steps satisfy the invariant. -/
theorem weak_done {p : Pip} {f : AF} (hr : Rep p f) (h : All (Weak E) f) (hd : Done p f.flat.length) : All (NodeOk E) f := by
  refine h.of_mem (R := fun x => x.src = [] → x.stmt = unk) ?_ ?_
  · intro x ts hw hu
    rcases hw.2 with hs | hs
    · refine ⟨hw.1, fun _ => hs, fun h0 => ?_, fun h0 => ?_⟩ <;> rw [hu hs] at h0 <;> exact absurd h0 (by decide)
    · exact hs
  · intro x hx hs
    obtain ⟨i, hi, rfl⟩ := List.mem_iff_getElem.mp hx
    have := hd i hi (by rw [hr.source]; simp [hi, hs])
    rw [hr.proof] at this
    simpa [hi] using this

end MM.Pfas
