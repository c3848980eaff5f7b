import Verif.Expl.Block
/-!
# The references after the rearrangement: renumbering and moving subproofs
-/
namespace MM.Expl
open MM.Veri MM.Pars MM.Proof MM.Data MM.Tree MM.Pfas

variable {E : Env} {ρ : List (List Int)}

/-- The step a reference is to. -/
def refId (x : Int) : Nat := (-1000 - x).toNat

/-- A step of the proof, with its reference to an original number replaced by the reference to the place where that step is now. -/
def ren (I : List Nat) (x : Int) : Int := if x ≤ -1000 then -1000 - (I.idxOf (refId x) : Int) else x

def renG (G : List (Nat × Int)) : List Int := G.map fun g => ren (G.map Prod.fst) g.2

theorem ren_map (I : List Nat) : RefMap (ren I) := by
  intro x
  unfold ren
  constructor
  · intro h; rw [if_pos h]; omega
  · intro h; rw [if_neg (by omega)]

theorem ren_le {I : List Nat} {x : Int} : ren I x ≤ -1000 ↔ x ≤ -1000 := by
  constructor
  · intro h
    by_cases hx : x ≤ -1000
    · exact hx
    · rw [(ren_map I x).2 (by omega)] at h; exact h
  · exact (ren_map I x).1

/-- What is known of the steps with their original numbers. -/
structure J (E : Env) (G : List (Nat × Int)) : Prop where
  nodup : (G.map Prod.fst).Nodup
  ok : ∀ g ∈ G, StepOk E g.2
  refs : ∀ g ∈ G, g.2 ≤ -1000 → ∃ y, (refId g.2, y) ∈ G ∧ -1000 < y

theorem J.perm {G G' : List (Nat × Int)} (h : J E G) (hp : G'.Perm G) : J E G' where
  nodup := (hp.map Prod.fst).nodup_iff.2 h.nodup
  ok := fun g hg => h.ok g (hp.mem_iff.1 hg)
  refs := fun g hg hx => by
    obtain ⟨y, h1, h2⟩ := h.refs g (hp.mem_iff.1 hg) hx
    exact ⟨y, hp.mem_iff.2 h1, h2⟩

/-- Equal numbers, equal steps. -/
theorem J.eq {G : List (Nat × Int)} (h : J E G) {a b : Nat × Int} (ha : a ∈ G) (hb : b ∈ G) (he : a.1 = b.1) : a = b :=
  List.inj_on_of_nodup_map h.nodup ha hb he

theorem crun_ref : ∀ {L : List (Nat × Int)} {st fin : List (List Int)}, crun E ρ L st = some fin → ∀ g ∈ L, g.2 ≤ -1000 → ρ.getD g.1 [] = ρ.getD (refId g.2) []
  | [], _, _, _, _, hg, _ => by cases hg
  | a :: L, st, fin, h, g, hg, hx => by
    have h' : (cstep E ρ st a).bind (crun E ρ L) = some fin := h
    cases hc : cstep E ρ st a with
    | none => rw [hc] at h'; cases h'
    | some s =>
      rw [hc, Option.bind_some] at h'
      rcases List.mem_cons.1 hg with rfl | hg
      · unfold cstep at hc
        rw [if_pos hx] at hc
        by_cases h2 : ρ.getD g.1 [] = ρ.getD (-1000 - g.2).toNat []
        · exact h2
        · rw [if_neg h2] at hc; cases hc
      · exact crun_ref h' g hg hx

theorem cstep_ref {a : Nat × Int} (hx : a.2 ≤ -1000) (he : ρ.getD a.1 [] = ρ.getD (refId a.2) []) (st : List (List Int)) : cstep E ρ st a = some (ρ.getD a.1 [] :: st) := by
  unfold cstep
  rw [if_pos hx]
  unfold refId at he
  rw [if_pos he]

theorem crun_split {a b : List (Nat × Int)} {st fin : List (List Int)} (h : crun E ρ (a ++ b) st = some fin) : ∃ mid, crun E ρ a st = some mid ∧ crun E ρ b mid = some fin := by
  rw [crun_append] at h
  cases hc : crun E ρ a st with
  | none => rw [hc] at h; cases h
  | some m => rw [hc] at h; exact ⟨m, rfl, h⟩

theorem crun_join {a b : List (Nat × Int)} {st mid fin : List (List Int)} (h1 : crun E ρ a st = some mid) (h2 : crun E ρ b mid = some fin) : crun E ρ (a ++ b) st = some fin := by
  rw [crun_append, h1]; exact h2

theorem findFwd_some : ∀ {P : List Int} {off step : Nat} {k : Int}, findFwd P off = some (step, k) →
    ∃ A x R, P = A ++ x :: R ∧ step = off + A.length ∧ x ≤ -1000 ∧ k = -1000 - x ∧ k > step ∧ ∀ i y, A[i]? = some y → y ≤ -1000 → -1000 - y ≤ ((off + i : Nat) : Int)
  | [], _, _, _, h => by cases h
  | x :: xs, off, step, k, h => by
    unfold findFwd at h
    by_cases hc : x ≤ -1000 ∧ -1000 - x > off
    · rw [if_pos hc] at h
      cases h
      exact ⟨[], x, xs, rfl, rfl, hc.1, rfl, hc.2, by simp⟩
    · rw [if_neg hc] at h
      obtain ⟨A, y, R, h1, h2, h3, h4, h5, h6⟩ := findFwd_some h
      refine ⟨x :: A, y, R, by rw [h1]; rfl, by simp [h2]; omega, h3, h4, h5, ?_⟩
      intro i z hi hz
      cases i with
      | zero => simp at hi; subst hi; simp only [Nat.add_zero]; omega
      | succ i =>
        have := h6 i z (by simpa using hi) hz
        have e : off + 1 + i = off + (i + 1) := by omega
        rw [e] at this; exact this

theorem findFwd_none : ∀ {P : List Int} {off : Nat}, findFwd P off = none → ∀ i y, P[i]? = some y → y ≤ -1000 → -1000 - y ≤ ((off + i : Nat) : Int)
  | [], _, _, i, y, hi, _ => by simp at hi
  | x :: xs, off, h, i, y, hi, hy => by
    unfold findFwd at h
    by_cases hc : x ≤ -1000 ∧ -1000 - x > off
    · rw [if_pos hc] at h; cases h
    · rw [if_neg hc] at h
      cases i with
      | zero => simp at hi; subst hi; simp only [Nat.add_zero]; omega
      | succ i =>
        have := findFwd_none h i y (by simpa using hi) hy
        have e : off + 1 + i = off + (i + 1) := by omega
        rw [e] at this; exact this

theorem map_split {α β : Type} {f : α → β} : ∀ {l : List α} {A : List β} {x : β} {R : List β}, l.map f = A ++ x :: R → ∃ A' x' R', l = A' ++ x' :: R' ∧ A'.map f = A ∧ f x' = x ∧ R'.map f = R := by
  intro l A x R h
  obtain ⟨l1, l2, h1, h2, h3⟩ := List.map_eq_append_iff.1 h
  obtain ⟨y, l3, h4, h5, h6⟩ := List.map_eq_cons_iff.1 h3
  exact ⟨l1, y, l3, by rw [h1, h4], h2, h5, h6⟩

/-- A forward reference: the step, the steps between, the subproof it refers to, and the rest. -/
theorem fwd_split {G : List (Nat × Int)} (hJ : J E G) {fin : List (List Int)} (hr : crun E ρ G [] = some fin) {step : Nat} {k : Int} (hf : findFwd (renG G) 0 = some (step, k)) :
    ∃ A a B S C, G = A ++ a :: B ++ S ++ C ∧ step = A.length ∧ a.2 ≤ -1000 ∧ Blk E ρ S (refId a.2) ∧ (∃ c y, S = c ++ [(refId a.2, y)] ∧ -1000 < y) ∧ k + 1 = ((A ++ a :: B ++ S).length : Int) ∧
      (∀ i g, A[i]? = some g → g.2 ≤ -1000 → (A.map Prod.fst).idxOf (refId g.2) ≤ i) := by
  obtain ⟨PA, x, PR, h1, h2, h3, h4, h5, h6⟩ := findFwd_some hf
  obtain ⟨A, a, R, g1, g2, g3, g4⟩ := map_split (h1 : G.map _ = _)
  have hlenA : A.length = PA.length := by rw [← g2]; simp
  have hax : a.2 ≤ -1000 := by rw [← g3] at h3; exact ren_le.1 h3
  obtain ⟨y, hy1, hy2⟩ := hJ.refs a (by rw [g1]; simp) hax
  obtain ⟨X, C, hX⟩ := List.append_of_mem hy1
  have hidx : (G.map Prod.fst).idxOf (refId a.2) = X.length := by
    have hn := hJ.nodup
    rw [hX, List.map_append, List.map_cons] at hn
    have hnot : refId a.2 ∉ X.map Prod.fst := by
      intro hm
      exact (List.nodup_append.1 hn).2.2 _ hm _ (List.mem_cons_self ..) rfl
    rw [hX, List.map_append, List.idxOf_append, if_neg hnot]
    simp
  have hk : k = X.length := by
    rw [h4, ← g3]
    unfold ren
    rw [if_pos hax, hidx]; omega
  have hGX : G = (X ++ [(refId a.2, y)]) ++ C := by rw [hX]; simp
  obtain ⟨mid, m1, m2⟩ := crun_split (hGX ▸ hr)
  obtain ⟨bs, e1, e2, e3⟩ := run_blks (fun g hg => hJ.ok g (by rw [hGX]; exact List.mem_append_left _ hg)) m1
  cases bs with
  | nil => simp at e1
  | cons b bs =>
    have hb := e2 b (List.mem_cons_self ..)
    have e1' : X ++ [(refId a.2, y)] = (bs.reverse.map Prod.fst).flatten ++ b.1 := by rw [e1]; simp
    obtain ⟨c, z, c1, c2⟩ := blk_shorter hb
    rw [c1, ← List.append_assoc] at e1'
    obtain ⟨e4, e5⟩ := List.append_inj' e1' rfl
    have e6 : refId a.2 = b.2 ∧ y = z := by simpa using e5
    have hG2 : G = (bs.reverse.map Prod.fst).flatten ++ b.1 ++ C := by rw [hGX, e1', ← e6.1, ← e6.2, c1, ← e6.1, ← e6.2]; simp
    generalize (bs.reverse.map Prod.fst).flatten = D at *
    have hstep : A.length < D.length := by
      refine Nat.lt_of_not_le fun hle => ?_
      have hm : a ∈ c := by
        have hlt : A.length < X.length := by omega
        have ha : X[A.length]? = some a := by
          have : G[A.length]? = some a := by rw [g1]; simp
          rw [hX, List.getElem?_append_left hlt] at this; exact this
        rw [e4, List.getElem?_append_right hle] at ha
        exact List.mem_of_getElem? ha
      have := c2 a hm
      rw [crun_ref hr a (by rw [g1]; simp) hax, ← e6.1] at this
      omega
    obtain ⟨B, hB⟩ : ∃ B, D = A ++ a :: B := by
      have h7 : A ++ [a] <+: G := ⟨R, by rw [g1]; simp⟩
      have h8 : D <+: G := ⟨b.1 ++ C, by rw [hG2]; simp⟩
      obtain ⟨B, hB⟩ := List.prefix_of_prefix_length_le h7 h8 (by simp; omega)
      exact ⟨B, by rw [← hB]; simp⟩
    refine ⟨A, a, B, b.1, C, by rw [hG2, hB], by omega, hax, by rw [e6.1]; exact hb, ⟨c, y, by rw [c1, e6.1, e6.2], hy2⟩, ?_, ?_⟩
    · rw [hk, ← hB, c1]
      have : X.length = (D ++ c).length := by rw [e4]
      rw [List.length_append] at this
      simp only [List.length_append, List.length_singleton]
      omega
    · intro i g hi hgx
      have h9 := h6 i (ren (G.map Prod.fst) g.2) (by rw [← g2, List.getElem?_map, hi]; rfl) (ren_le.2 hgx)
      unfold ren at h9
      rw [if_pos hgx] at h9
      have hiA : i < A.length := (List.getElem?_eq_some_iff.1 hi).1
      have h10 : (G.map Prod.fst).idxOf (refId g.2) ≤ i := by omega
      rw [g1, List.map_append, List.idxOf_append] at h10
      by_cases hm : refId g.2 ∈ A.map Prod.fst
      · rw [if_pos hm] at h10; exact h10
      · rw [if_neg hm, List.length_map] at h10; omega

theorem seg_mid {U M W : List Int} {a b : Int} (ha : a = (U.length : Int) + 1) (hb : b = (U.length : Int) + M.length) : nmbrSeg (U ++ M ++ W) a b = .val M := by
  unfold nmbrSeg
  have e1 : (max a 1 - 1).toNat = U.length := by omega
  have e2 : ((if b < 1 then 0 else b) - max a 1 + 1).toNat = M.length := by split <;> omega
  dsimp only
  rw [e1, e2, if_pos (by simp)]
  simp

theorem mid_mid {U M W : List Int} {a n : Int} (ha : a = (U.length : Int) + 1) (hn : n = M.length) : nmbrMid (U ++ M ++ W) a n = .val M := by
  unfold nmbrMid
  have e1 : (max a 1 - 1).toNat = U.length := by omega
  have e2 : n.toNat = M.length := by omega
  dsimp only
  rw [e1, e2, if_pos (by simp)]
  simp

theorem left_mid {U W : List Int} {n : Int} (hn : n = U.length) : nmbrLeft (U ++ W) n = .val U := by
  unfold nmbrLeft
  have e : n.toNat = U.length := by omega
  rw [e, if_pos (by simp)]
  simp

theorem right_mid {U W : List Int} {n : Int} (hn : n = (U.length : Int) + 1) : nmbrRight (U ++ W) n = W := by
  unfold nmbrRight
  have e : (max n 1 - 1).toNat = U.length := by omega
  rw [e]; simp

theorem fixAll_map {step num : Nat} {k m : Int} {I I' : List Nat} : ∀ (L : List (Nat × Int)), (∀ g ∈ L, fix1 step k m num (ren I g.2) = .val (ren I' g.2)) →
    fixAll step k m num (L.map fun g => ren I g.2) = .val (L.map fun g => ren I' g.2)
  | [], _ => rfl
  | g :: L, h => by
    show (fix1 step k m num (ren I g.2) >>= fun y => fixAll step k m num (L.map fun g => ren I g.2) >>= fun ys => .val (y :: ys)) = _
    rw [h g (List.mem_cons_self ..), Out.bind_val, fixAll_map L (fun g hg => h g (List.mem_cons_of_mem _ hg)), Out.bind_val]
    rfl

theorem moved_perm (A : List (Nat × Int)) (a : Nat × Int) (B S C : List (Nat × Int)) : (A ++ S ++ B ++ a :: C).Perm (A ++ a :: B ++ S ++ C) := by
  rw [List.append_assoc, List.append_assoc, List.append_assoc, List.append_assoc, List.cons_append]
  apply List.Perm.append_left
  have h1 : (S ++ (B ++ a :: C)).Perm (S ++ a :: (B ++ C)) := List.Perm.append_left _ List.perm_middle
  have h2 : (S ++ a :: (B ++ C)).Perm (a :: (S ++ (B ++ C))) := List.perm_middle
  have h3 : (S ++ (B ++ C)).Perm (B ++ (S ++ C)) := by
    rw [← List.append_assoc, ← List.append_assoc]
    exact List.Perm.append_right _ List.perm_append_comm
  exact h1.trans (h2.trans (h3.cons a))

/-- One move of a subproof. -/
theorem moveOne_ok {A B S C : List (Nat × Int)} {a : Nat × Int} (hJ : J E (A ++ a :: B ++ S ++ C)) (hax : a.2 ≤ -1000)
    (hS : Blk E ρ S (refId a.2)) {k : Int} (hk : k + 1 = ((A ++ a :: B ++ S).length : Int)) :
    moveOne E (renG (A ++ a :: B ++ S ++ C)) A.length k = .val (renG (A ++ S ++ B ++ a :: C)) := by
  have hG : renG (A ++ a :: B ++ S ++ C) = (A ++ a :: B ++ S ++ C).map fun g => ren ((A ++ a :: B ++ S ++ C).map Prod.fst) g.2 := rfl
  have hG' : renG (A ++ S ++ B ++ a :: C) = (A ++ S ++ B ++ a :: C).map fun g => ren ((A ++ S ++ B ++ a :: C).map Prod.fst) g.2 := rfl
  have hJm := hJ
  rw [hG, hG']
  generalize hI : (A ++ a :: B ++ S ++ C).map Prod.fst = I
  generalize hI' : (A ++ S ++ B ++ a :: C).map Prod.fst = I'
  have hkl : k = (A.length : Int) + 1 + B.length + S.length - 1 := by
    simp only [List.length_append, List.length_cons] at hk; omega
  have hSpos : 1 ≤ S.length := by obtain ⟨c, x, e⟩ := blk_last hS; rw [e]; simp
  have hfix : ∀ g ∈ A ++ S ++ B ++ a :: C, fix1 A.length k S.length (A ++ a :: B ++ S ++ C).length (ren I g.2) = .val (ren I' g.2) := by
    intro g hg
    have hg' := (moved_perm A a B S C).mem_iff.1 hg
    by_cases hx : g.2 ≤ -1000
    · obtain ⟨y, hy1, hy2⟩ := hJ.refs g hg' hx
      have hne : refId g.2 ≠ a.1 := by
        intro he
        have := hJ.eq hy1 (b := a) (by simp) he
        rw [← this] at hax; simp only at hax; omega
      have hr : ren I g.2 = -1000 - (I.idxOf (refId g.2) : Int) := by unfold ren; rw [if_pos hx]
      have hr' : ren I' g.2 = -1000 - (I'.idxOf (refId g.2) : Int) := by unfold ren; rw [if_pos hx]
      rw [hr, hr']
      have hmem : refId g.2 ∈ (A ++ a :: B ++ S ++ C).map Prod.fst := List.mem_map.2 ⟨_, hy1, rfl⟩
      have hnd := hJ.nodup
      generalize refId g.2 = id at *
      unfold fix1
      rw [if_neg (by omega)]
      dsimp only
      have hj : -1000 - (-1000 - (I.idxOf id : Int)) = (I.idxOf id : Int) := by omega
      rw [hj]
      have i1 : I.idxOf id = if id ∈ A.map Prod.fst then (A.map Prod.fst).idxOf id else A.length + (if id ∈ B.map Prod.fst then 1 + (B.map Prod.fst).idxOf id else
          1 + B.length + (if id ∈ S.map Prod.fst then (S.map Prod.fst).idxOf id else S.length + (C.map Prod.fst).idxOf id)) := by
        rw [← hI]
        simp only [List.map_append, List.map_cons, List.append_assoc, List.cons_append]
        rw [List.idxOf_append]
        split
        · rfl
        · rw [List.length_map, List.idxOf_cons_ne _ (fun e => hne e.symm), List.idxOf_append]
          split
          · omega
          · rw [List.length_map, List.idxOf_append]
            split
            · omega
            · rw [List.length_map]; omega
      have i2 : I'.idxOf id = if id ∈ A.map Prod.fst then (A.map Prod.fst).idxOf id else A.length + (if id ∈ S.map Prod.fst then (S.map Prod.fst).idxOf id else
          S.length + (if id ∈ B.map Prod.fst then (B.map Prod.fst).idxOf id else B.length + 1 + (C.map Prod.fst).idxOf id)) := by
        rw [← hI']
        simp only [List.map_append, List.map_cons, List.append_assoc]
        rw [List.idxOf_append]
        split
        · rfl
        · rw [List.length_map, List.idxOf_append]
          split
          · omega
          · rw [List.length_map, List.idxOf_append]
            split
            · omega
            · rw [List.length_map, List.idxOf_cons_ne _ (fun e => hne e.symm)]; omega
      simp only [List.map_append, List.map_cons, List.mem_append, List.mem_cons] at hmem
      have hdis : ∀ {x}, x ∈ B.map Prod.fst → x ∉ S.map Prod.fst := by
        intro x h1 h2
        simp only [List.map_append, List.map_cons] at hnd
        have := (List.nodup_append.1 (List.nodup_append.1 hnd).1).2.2 x (by simp only [List.mem_append, List.mem_cons]; exact Or.inr (Or.inr h1)) x h2
        exact this rfl
      have hlen : ((A ++ a :: B ++ S ++ C).length : Int) = A.length + 1 + B.length + S.length + C.length := by
        simp only [List.length_append, List.length_cons]; omega
      rw [hlen]
      by_cases hA : id ∈ A.map Prod.fst
      · rw [if_pos hA] at i1 i2
        have := List.idxOf_lt_length_iff.2 hA
        rw [List.length_map] at this
        rw [if_pos ⟨by omega, by omega⟩, i1, i2]
        congr 1; omega
      · rw [if_neg hA] at i1 i2
        by_cases hB : id ∈ B.map Prod.fst
        · rw [if_pos hB] at i1 i2
          rw [if_neg (hdis hB)] at i2
          have := List.idxOf_lt_length_iff.2 hB
          rw [List.length_map] at this
          rw [if_neg (by omega), if_neg (by omega), if_pos ⟨by omega, by omega⟩]
          congr 1; omega
        · rw [if_neg hB] at i1 i2
          by_cases hS' : id ∈ S.map Prod.fst
          · rw [if_pos hS'] at i1 i2
            have := List.idxOf_lt_length_iff.2 hS'
            rw [List.length_map] at this
            rw [if_neg (by omega), if_neg (by omega), if_neg (by omega), if_pos ⟨by omega, by omega⟩]
            congr 1; omega
          · rw [if_neg hS'] at i1 i2
            have hC : id ∈ C.map Prod.fst := by
              rcases hmem with ((h | h | h) | h) | h
              · exact absurd h hA
              · exact absurd h hne
              · exact absurd h hB
              · exact absurd h hS'
              · exact h
            have := List.idxOf_lt_length_iff.2 hC
            rw [List.length_map] at this
            rw [if_neg (by omega), if_neg (by omega), if_neg (by omega), if_neg (by omega), if_pos ⟨by omega, by omega⟩]
            congr 1; omega
    · have hr : ∀ I, ren I g.2 = g.2 := fun I => (ren_map I g.2).2 (by omega)
      rw [hr, hr]
      unfold fix1
      rw [if_pos (by omega)]
  have hmap : (A ++ a :: B ++ S ++ C).map (fun g => ren I g.2) = (A.map fun g => ren I g.2) ++ [ren I a.2] ++ (B.map fun g => ren I g.2) ++ (S.map fun g => ren I g.2) ++ (C.map fun g => ren I g.2) := by simp
  have hfixA := fixAll_map (I := I) (I' := I') _ hfix
  have hwrk : (A ++ S ++ B ++ a :: C).map (fun g => ren I g.2) = (A.map fun g => ren I g.2) ++ (S.map fun g => ren I g.2) ++ (B.map fun g => ren I g.2) ++ [ren I a.2] ++ (C.map fun g => ren I g.2) := by simp
  have hnum : (A ++ a :: B ++ S ++ C).length = ((A ++ a :: B ++ S ++ C).map (fun g => ren I g.2)).length := by rw [List.length_map]
  rw [hwrk, hnum] at hfixA
  have hsub := subproofLen_blk (E := E) (ren_map I) hS (proof := (A ++ a :: B ++ S ++ C).map (fun g => ren I g.2)) (pre := (A.map fun g => ren I g.2) ++ [ren I a.2] ++ (B.map fun g => ren I g.2))
    (post := C.map fun g => ren I g.2) (by rw [hmap]) (k := k) (by simp; omega)
  unfold moveOne
  rw [hsub, Out.bind_val]
  have hl : nmbrLeft ((A ++ a :: B ++ S ++ C).map (fun g => ren I g.2)) (A.length : Int) = .val (A.map fun g => ren I g.2) := by
    rw [hmap, List.append_assoc, List.append_assoc, List.append_assoc]; exact left_mid (by simp)
  have hm1 : nmbrMid ((A ++ a :: B ++ S ++ C).map (fun g => ren I g.2)) (k - S.length + 2) S.length = .val (S.map fun g => ren I g.2) := by
    rw [hmap]; exact mid_mid (by simp; omega) (by simp)
  have hs1 : nmbrSeg ((A ++ a :: B ++ S ++ C).map (fun g => ren I g.2)) ((A.length : Int) + 2) (k - S.length + 1) = .val (B.map fun g => ren I g.2) := by
    rw [hmap, List.append_assoc _ (S.map _)]; exact seg_mid (by simp; omega) (by simp; omega)
  have hm2 : nmbrMid ((A ++ a :: B ++ S ++ C).map (fun g => ren I g.2)) ((A.length : Int) + 1) 1 = .val [ren I a.2] := by
    rw [hmap, List.append_assoc _ (S.map _), List.append_assoc _ (B.map _)]; exact mid_mid (by simp) (by simp)
  have hrt : nmbrRight ((A ++ a :: B ++ S ++ C).map (fun g => ren I g.2)) (k + 2) = C.map fun g => ren I g.2 := by
    rw [hmap]; exact right_mid (by simp; omega)
  rw [hl, Out.bind_val, hm1, Out.bind_val, hs1, Out.bind_val, hm2, Out.bind_val, hrt]
  dsimp only
  rw [if_neg, if_neg, hfixA]
  · have e1 : k.toNat = ((A.map fun g => ren I g.2) ++ (S.map fun g => ren I g.2) ++ (B.map fun g => ren I g.2)).length := by simp; omega
    rw [e1, hmap]
    simp [List.getD_eq_getElem?_getD]
  · simp; omega

/-- A move keeps what the proof stands for. -/
theorem moved_run {A B S C : List (Nat × Int)} {a : Nat × Int} {fin : List (List Int)} (hr : crun E ρ (A ++ a :: B ++ S ++ C) [] = some fin) (hax : a.2 ≤ -1000)
    (hS : Blk E ρ S (refId a.2)) : crun E ρ (A ++ S ++ B ++ a :: C) [] = some fin := by
  have he := crun_ref hr a (by simp) hax
  obtain ⟨s3, h3, h4⟩ := crun_split hr
  obtain ⟨s2, h1, h2⟩ := crun_split h3
  obtain ⟨s1, h5, h6⟩ := crun_split h1
  rw [blk_run hS] at h2
  cases h2
  have h6' : (cstep E ρ s1 a).bind (crun E ρ B) = some s2 := h6
  rw [cstep_ref hax he, Option.bind_some] at h6'
  refine crun_join (crun_join (crun_join h5 (blk_run hS s1)) ?_) ?_ (mid := s2)
  · rw [← he]; exact h6'
  · show (cstep E ρ s2 a).bind (crun E ρ C) = some fin
    rw [cstep_ref hax he, Option.bind_some, he]; exact h4

/-- After a move the first forward reference is not earlier, and if it is at the same step, it refers to a shorter proof. -/
theorem moved_next {A B S C : List (Nat × Int)} {a : Nat × Int} (hJ : J E (A ++ S ++ B ++ a :: C)) {c : List (Nat × Int)} {y : Int} (hc : S = c ++ [(refId a.2, y)]) (hy : -1000 < y)
    (hS : Blk E ρ S (refId a.2)) (hA : ∀ i g, A[i]? = some g → g.2 ≤ -1000 → (A.map Prod.fst).idxOf (refId g.2) ≤ i) {A' B' S' C' : List (Nat × Int)} {a' : Nat × Int} (hax' : a'.2 ≤ -1000)
    (he : A ++ S ++ B ++ a :: C = A' ++ a' :: B' ++ S' ++ C') (hS' : Blk E ρ S' (refId a'.2)) :
    A.length < A'.length ∨ (A.length = A'.length ∧ (ρ.getD a'.1 []).length < (ρ.getD (refId a.2) []).length) := by
  have hget : (A ++ S ++ B ++ a :: C)[A'.length]? = some a' := by rw [he]; simp
  rcases Nat.lt_trichotomy A.length A'.length with h | h | h
  · exact Or.inl h
  · right
    refine ⟨h, ?_⟩
    rw [← h, List.append_assoc, List.append_assoc, List.getElem?_append_right (Nat.le_refl _), Nat.sub_self, hc] at hget
    obtain ⟨c', x', e', hlt⟩ := blk_shorter hS
    have hcc : c' = c := (List.append_inj' (e'.symm.trans hc) rfl).1
    cases hcs : c with
    | nil =>
      rw [hcs] at hget
      simp at hget
      rw [← hget] at hax'; simp only at hax'; omega
    | cons g gs =>
      rw [hcs] at hget
      simp at hget
      apply hlt
      rw [hcc, hcs, hget]
      exact List.mem_cons_self ..
  · exfalso
    have ha' : A[A'.length]? = some a' := by
      rw [List.append_assoc, List.append_assoc, List.getElem?_append_left h] at hget
      exact hget
    have h1 := hA _ a' ha' hax'
    have h2 : ((A ++ S ++ B ++ a :: C).map Prod.fst).idxOf (refId a'.2) ≤ A'.length := by
      rw [List.append_assoc, List.append_assoc, List.map_append, List.idxOf_append, if_pos]
      · exact h1
      · apply List.idxOf_lt_length_iff.1
        rw [List.length_map]; omega
    obtain ⟨c', y', e'⟩ := blk_last hS'
    have hnd := hJ.nodup
    rw [he] at h2 hnd
    have e2 : A' ++ a' :: B' ++ S' ++ C' = (A' ++ [a']) ++ (B' ++ S' ++ C') := by simp
    rw [e2, List.map_append] at h2 hnd
    rw [List.idxOf_append, if_neg] at h2
    · simp at h2; omega
    · intro hm
      exact (List.nodup_append.1 hnd).2.2 _ hm _ (List.mem_map.2 ⟨(refId a'.2, y'), by rw [e']; simp, rfl⟩) rfl

theorem moveLoop_mono : ∀ {n m : Nat} {P P' : List Int}, moveLoop E n P = .val P' → n ≤ m → moveLoop E m P = .val P'
  | 0, _, _, _, h, _ => by cases h
  | n + 1, 0, _, _, _, hm => absurd hm (by omega)
  | n + 1, m + 1, P, P', h, hm => by
    unfold moveLoop at h ⊢
    cases hf : findFwd P 0 with
    | none => rw [hf] at h; exact h
    | some sk =>
      obtain ⟨step, k⟩ := sk
      rw [hf] at h
      dsimp only at h ⊢
      cases h1 : moveOne E P step k <;> rw [h1] at h
      · exact moveLoop_mono h (by omega)
      all_goals cases h

/-- The loop that moves subproofs ends, and the result has no forward references. -/
theorem moveLoop_ok : ∀ (d L : Nat) {G : List (Nat × Int)} {fin : List (List Int)}, J E G → crun E ρ G [] = some fin →
    (∀ A a B S C, G = A ++ a :: B ++ S ++ C → a.2 ≤ -1000 → (∃ k, findFwd (renG G) 0 = some (A.length, k)) → G.length < A.length + d ∨ (G.length = A.length + d ∧ (ρ.getD a.1 []).length < L)) →
    ∃ F G', G'.Perm G ∧ crun E ρ G' [] = some fin ∧ findFwd (renG G') 0 = none ∧ moveLoop E F (renG G) = .val (renG G') := by
  intro d
  induction d with
  | zero =>
    intro L G fin hJ hr hm
    cases hf : findFwd (renG G) 0 with
    | none => exact ⟨1, G, List.Perm.refl _, hr, hf, by unfold moveLoop; rw [hf]⟩
    | some sk =>
      exfalso
      obtain ⟨step, k⟩ := sk
      obtain ⟨A, a, B, S, C, h1, h2, h3, h4, h5, h6, h7⟩ := fwd_split hJ hr hf
      have := hm A a B S C h1 h3 ⟨k, by rw [← h2]; exact hf⟩
      have hl : G.length = A.length + 1 + B.length + S.length + C.length := by rw [h1]; simp; omega
      omega
  | succ d ihd =>
    intro L
    induction L with
    | zero =>
      intro G fin hJ hr hm
      refine ihd ((ρ.map List.length).sum + 1) hJ hr ?_
      intro A a B S C h1 h2 h3
      have := hm A a B S C h1 h2 h3
      have hb : (ρ.getD a.1 []).length < (ρ.map List.length).sum + 1 := by
        rw [List.getD_eq_getElem?_getD]
        cases hg : ρ[a.1]? with
        | none => simp
        | some l =>
          obtain ⟨s, t, e⟩ := List.append_of_mem (List.mem_of_getElem? hg)
          rw [e]; simp; omega
      omega
    | succ L ihL =>
      intro G fin hJ hr hm
      cases hf : findFwd (renG G) 0 with
      | none => exact ⟨1, G, List.Perm.refl _, hr, hf, by unfold moveLoop; rw [hf]⟩
      | some sk =>
        obtain ⟨step, k⟩ := sk
        obtain ⟨A, a, B, S, C, h1, h2, h3, h4, ⟨c, y, h5, h5'⟩, h6, h7⟩ := fwd_split hJ hr hf
        have hmeas := hm A a B S C h1 h3 ⟨k, by rw [← h2]; exact hf⟩
        have hper := moved_perm A a B S C
        have hJ' : J E (A ++ S ++ B ++ a :: C) := (h1 ▸ hJ).perm hper
        have hr' : crun E ρ (A ++ S ++ B ++ a :: C) [] = some fin := moved_run (h1 ▸ hr) h3 h4
        have hlen : (A ++ S ++ B ++ a :: C).length = G.length := by rw [h1]; exact hper.length_eq
        have hρa := crun_ref hr a (by rw [h1]; simp) h3
        obtain ⟨F, G', g1, g2, g3, g4⟩ := ihL hJ' hr' (by
          intro A' a' B' S' C' e1 e2 ⟨k', e3⟩
          obtain ⟨A2, a2, B2, S2, C2, f1, f2, f3, f4, _, _, _⟩ := fwd_split hJ' hr' e3
          have hAA : A' = A2 ∧ a' = a2 := by
            have hh : A' ++ a' :: (B' ++ S' ++ C') = A2 ++ a2 :: (B2 ++ S2 ++ C2) := by
              have := e1.symm.trans f1
              simpa using this
            obtain ⟨q1, q2⟩ := List.append_inj hh f2
            exact ⟨q1, (List.cons.inj q2).1⟩
          have := moved_next hJ' h5 h5' h4 h7 f3 f1 f4
          rw [hlen, hAA.1, hAA.2]
          rw [← hρa] at this
          omega)
        refine ⟨F + 1, G', g1.trans (by rw [h1]; exact hper), g2, g3, ?_⟩
        unfold moveLoop
        rw [hf]
        dsimp only
        rw [h2, h1, moveOne_ok (h1 ▸ hJ) h3 h4 h6, Out.bind_val]
        exact g4

/-- The renumbering after the walk. -/
theorem renumAll_ok {G : List (Nat × Int)} (hJ : J E G) {num : Nat} (hn : num = G.length) (hperm : (G.map Prod.fst).Perm (List.range num)) :
    renumAll ((G.map Prod.fst).map Int.ofNat) num (G.map Prod.snd) = .val (renG G) := by
  have key : ∀ (L : List (Nat × Int)), (∀ g ∈ L, g ∈ G) → renumAll ((G.map Prod.fst).map Int.ofNat) num (L.map Prod.snd) = .val (L.map fun g => ren (G.map Prod.fst) g.2) := by
    intro L
    induction L with
    | nil => intro _; rfl
    | cons g L ih =>
      intro h
      have h1 : renum1 ((G.map Prod.fst).map Int.ofNat) num g.2 = .val (ren (G.map Prod.fst) g.2) := by
        unfold renum1 ren
        by_cases hx : g.2 ≤ -1000
        · rw [if_pos hx, if_pos hx]
          dsimp only
          obtain ⟨y, hy1, hy2⟩ := hJ.refs g (h g (List.mem_cons_self ..)) hx
          have hid : -1000 - g.2 = ((refId g.2 : Nat) : Int) := by unfold refId; omega
          have hmem : refId g.2 ∈ G.map Prod.fst := List.mem_map.2 ⟨_, hy1, rfl⟩
          have hlt : refId g.2 < num := List.mem_range.1 (hperm.mem_iff.1 hmem)
          rw [hid]
          generalize refId g.2 = id at *
          rw [if_neg (by omega)]
          have hidx : ∀ (l : List Nat), (l.map Int.ofNat).idxOf (id : Int) = l.idxOf id := by
            intro l
            induction l with
            | nil => rfl
            | cons a l ih =>
              by_cases he : a = id
              · subst he; rw [List.map_cons]; simp
              · rw [List.map_cons, List.idxOf_cons_ne _ (by intro hc; exact he (Int.ofNat.inj hc)), List.idxOf_cons_ne _ he, ih]
          have hil := List.idxOf_lt_length_iff.2 hmem
          rw [List.length_map, ← hn] at hil
          have hrd : rdN ((G.map Prod.fst).map Int.ofNat) (id : Int) = .val (((G.map Prod.fst).getD id 0 : Nat) : Int) := by
            unfold rdN
            rw [if_neg (by omega), if_pos (by simp; omega)]
            congr 1
            rw [List.getD_eq_getElem?_getD, List.getD_eq_getElem?_getD, Int.toNat_natCast, List.getElem?_map]
            cases (G.map Prod.fst)[id]? <;> rfl
          rw [hrd, Out.bind_val, hidx]
          by_cases hc : (((G.map Prod.fst).getD id 0 : Nat) : Int) = (id : Int)
          · rw [if_pos hc]
            congr 1
            have hc' : (G.map Prod.fst).getD id 0 = id := by omega
            have hl : id < (G.map Prod.fst).length := by rw [List.length_map]; omega
            have : (G.map Prod.fst).idxOf id = id := by
              rw [List.getD_eq_getElem?_getD, List.getElem?_eq_getElem hl, Option.getD_some] at hc'
              have h7 := hJ.nodup.idxOf_getElem id hl
              rw [hc'] at h7
              exact h7
            rw [this]; omega
          · rw [if_neg hc, if_pos hil]
        · rw [if_neg hx, if_neg hx]
      show (renum1 _ num g.2 >>= fun y => renumAll _ num (L.map Prod.snd) >>= fun ys => .val (y :: ys)) = _
      rw [h1, Out.bind_val, ih (fun g hg => h g (List.mem_cons_of_mem _ hg)), Out.bind_val]
      rfl
  exact key G fun g hg => hg

/-- Without forward references, the machine for packed proofs finds the same proof. -/
theorem expand_ok {G : List (Nat × Int)} (hJ : J E G) {fin : List (List Int)} (hr : crun E ρ G [] = some fin) (hf : findFwd (renG G) 0 = none) :
    expandRun E (renG G) ([], []) = some (fin, G.map fun g => ρ.getD g.1 []) := by
  have key : ∀ (R L : List (Nat × Int)) (st : List (List Int)), G = L ++ R → crun E ρ R st = some fin →
      expandRun E (R.map fun g => ren (G.map Prod.fst) g.2) (st, L.map fun g => ρ.getD g.1 []) = some (fin, G.map fun g => ρ.getD g.1 []) := by
    intro R
    induction R with
    | nil =>
      intro L st h1 h2
      cases h2
      rw [h1, List.append_nil]; rfl
    | cons g R ih =>
      intro L st h1 h2
      have h2' : (cstep E ρ st g).bind (crun E ρ R) = some fin := h2
      cases hc : cstep E ρ st g with
      | none => rw [hc] at h2'; cases h2'
      | some s =>
        rw [hc, Option.bind_some] at h2'
        have h3 := ih (L ++ [g]) s (by rw [h1]; simp) h2'
        have hgG : g ∈ G := by rw [h1]; simp
        have hstep : expandStep E (st, L.map fun g => ρ.getD g.1 []) (ren (G.map Prod.fst) g.2) = some (s, (L ++ [g]).map fun g => ρ.getD g.1 []) := by
          unfold expandStep
          by_cases hx : g.2 ≤ -1000
          · rw [if_pos (ren_le.2 hx)]
            have hρ := crun_ref hr g hgG hx
            rw [cstep_ref hx hρ] at hc
            cases hc
            have hren : ren (G.map Prod.fst) g.2 = -1000 - ((G.map Prod.fst).idxOf (refId g.2) : Int) := by unfold ren; rw [if_pos hx]
            have hle := findFwd_none hf L.length (ren (G.map Prod.fst) g.2) (by
              unfold renG
              rw [List.getElem?_map]
              have : G[L.length]? = some g := by rw [h1]; simp
              rw [this]; rfl) (ren_le.2 hx)
            rw [hren]
            rw [hren] at hle
            have e1 : (-1000 - (-1000 - ((G.map Prod.fst).idxOf (refId g.2) : Int))).toNat = (G.map Prod.fst).idxOf (refId g.2) := by omega
            dsimp only
            rw [e1]
            obtain ⟨y, hy1, hy2⟩ := hJ.refs g hgG hx
            have hmem : refId g.2 ∈ G.map Prod.fst := List.mem_map.2 ⟨_, hy1, rfl⟩
            have hil := List.idxOf_lt_length_iff.2 hmem
            have hget := List.getElem_idxOf hil
            generalize hq : (G.map Prod.fst).idxOf (refId g.2) = q at *
            have hq2 : G[q]? = some (refId g.2, y) := by
              rw [List.length_map] at hil
              rw [List.getElem?_eq_getElem hil]
              congr 1
              apply hJ.eq (List.getElem_mem ..) hy1
              rw [List.getElem_map] at hget
              exact hget
            have hqlt : q < L.length := by
              rcases Nat.lt_or_ge q L.length with h | h
              · exact h
              · exfalso
                have : q = L.length := by omega
                rw [this, h1] at hq2
                simp at hq2
                rw [hq2] at hx; simp only at hx; omega
            have hLq : L[q]? = some (refId g.2, y) := by rw [h1, List.getElem?_append_left hqlt] at hq2; exact hq2
            rw [List.getElem?_map, hLq]
            simp only [Option.map_some]
            rw [List.map_append, List.map_singleton, ← hρ]
          · have hrx : ren (G.map Prod.fst) g.2 = g.2 := (ren_map _ _).2 (by omega)
            rw [hrx, if_neg hx]
            unfold cstep at hc
            rw [if_neg hx] at hc
            by_cases h5 : arity E g.2 ≤ st.length ∧ ρ.getD g.1 [] = (st.take (arity E g.2)).reverse.flatten ++ [g.2]
            · rw [if_pos h5] at hc
              cases hc
              rw [if_pos h5.1]
              dsimp only
              rw [← h5.2]
              simp
            · rw [if_neg h5] at hc; cases hc
        show (expandStep E _ (ren (G.map Prod.fst) g.2)).bind _ = _
        rw [hstep, Option.bind_some]
        exact h3
  exact key G [] [] rfl hr

end MM.Expl
