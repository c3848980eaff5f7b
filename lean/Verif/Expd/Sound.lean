import Verif.Expd.Props

/-!
# C58: expanding a correct proof with correct proofs gives a correct proof
-/
namespace MM.Expd
open MM.Veri MM.Pars MM.Spec MM.Proof MM.Data MM.Tree MM.Pfas MM.Match MM.Vstr Tree.Forest

variable {src : List Src} {s : PState} {look : Look} {E : Env} {prove : Nat} {db : Db} {dv : Nat → Nat → Prop}

/-! ### Substitution -/

theorem subst_subst (isVar : Nat → Bool) (σ τ : Nat → List Nat) : ∀ m, subst isVar σ (subst isVar τ m) = subst isVar (fun v => subst isVar σ (τ v)) m
  | [] => rfl
  | t :: m => by
    rw [subst_cons, subst_cons, subst_append, subst_subst isVar σ τ m]
    congr 1
    by_cases h : isVar t = true
    · rw [if_pos h, if_pos h]
    · rw [if_neg h, if_neg h, subst_singleton, if_neg h]

theorem mem_subst {isVar : Nat → Bool} {σ : Nat → List Nat} {m : List Nat} {a : Nat} (ha : a ∈ subst isVar σ m) (hv : isVar a = true) : ∃ u ∈ m, isVar u = true ∧ a ∈ σ u := by
  obtain ⟨u, hu, h1⟩ := List.mem_flatMap.1 ha
  by_cases h : isVar u = true
  · rw [if_pos h] at h1; exact ⟨u, hu, h, h1⟩
  · rw [if_neg h] at h1
    simp only [List.mem_singleton] at h1
    rw [h1] at hv; exact absurd hv h

theorem subst_mem {isVar : Nat → Bool} {σ : Nat → List Nat} {m : List Nat} {a u : Nat} (hu : u ∈ m) (hv : isVar u = true) (ha : a ∈ σ u) : a ∈ subst isVar σ m :=
  List.mem_flatMap.2 ⟨u, hu, by rw [if_pos hv]; exact ha⟩

/-- All variables of the formulas are among `vs`. -/
def VarsIn (isVar : Nat → Bool) (vs : List Nat) (st : List (List Nat)) : Prop := ∀ f ∈ st, ∀ v ∈ f, isVar v = true → v ∈ vs

theorem dvOk_comp {i : Nat} {A B : Assertion} {σ τ : Nat → List Nat} {st : List (List Nat)} (hA : DvOk db.isVar dv A σ) (hsym : ∀ a b, dv a b → dv b a) (hB : DvOk db.isVar (dvOf db i) B τ)
    (hAd : ∀ a b, a ∈ (db.stmt i).reqVars → b ∈ (db.stmt i).reqVars → dvOf db i a b → (a, b) ∈ A.dv ∨ (b, a) ∈ A.dv)
    (hBv : ∀ x y, (x, y) ∈ B.dv → VarIn db.isVar B.hyps x ∧ VarIn db.isVar B.hyps y) (hst : ∀ f ∈ B.hyps.map (subst db.isVar τ), f ∈ st) (hvs : VarsIn db.isVar (db.stmt i).reqVars st) :
    DvOk db.isVar dv B (fun v => subst db.isVar σ (τ v)) := by
  intro x y hxy a ha b hb va vb
  obtain ⟨u, hu, vu, hau⟩ := mem_subst ha va
  obtain ⟨w, hw, vw, hbw⟩ := mem_subst hb vb
  obtain ⟨h1, h2⟩ := hB x y hxy u hu w hw vu vw
  have key : ∀ {x u}, VarIn db.isVar B.hyps x → u ∈ τ x → db.isVar u = true → u ∈ (db.stmt i).reqVars := by
    rintro x u ⟨hv, g, hg, hxg⟩ hu vu
    exact hvs _ (hst _ (List.mem_map_of_mem hg)) u (subst_mem hxg hv hu) vu
  obtain ⟨kx, ky⟩ := hBv x y hxy
  rcases hAd u w (key kx hu vu) (key ky hw vw) h2 with h3 | h3
  · exact hA u w h3 a hau b hbw va vb
  · obtain ⟨h4, h5⟩ := hA w u h3 b hbw a hau vb va
    exact ⟨fun e => h4 e.symm, hsym _ _ h5⟩

/-! ### The proof of a theorem, with proofs for its hypotheses put in -/

theorem goodAss_use (hg : ∀ x, GoodRef db x) {x : Int} {A : Assertion} (h : decode db x = some (.use A)) : GoodAss db x.toNat ∧ A = frameOf db x.toNat := by
  obtain ⟨h1, h2, h3⟩ := decode_use h
  have := hg x h1
  rcases h2 with h2 | h2 <;> rw [h2] at this <;> exact ⟨this, h3⟩

theorem decode_isHyp {x : Int} : (∃ e, decode E.toDb x = some (.hyp e)) → isHyp E x = true := by
  rintro ⟨e, h⟩
  obtain ⟨h1, h2, _⟩ := decode_hyp h
  exact isHyp_iff.2 ⟨h1, h2⟩

theorem decode_notHyp {x : Int} {A : Assertion} (h : decode E.toDb x = some (.use A)) : isHyp E x = false := by
  obtain ⟨h1, h2, _⟩ := decode_use h
  cases hc : isHyp E x with
  | false => rfl
  | true =>
    have h3 := (isHyp_iff.1 hc).2
    have h2' : (E.stmt x.toNat).kind = .a ∨ (E.stmt x.toNat).kind = .p := h2
    rcases h2' with h2 | h2 <;> rw [h2] at h3 <;> simp at h3

theorem forall₂_getD {bs : List (List Int)} {fs : List (List Nat)} (h : List.Forall₂ (Yields db dv) bs fs) {i : Nat} (hi : i < fs.length) : Yields db dv (bs.getD i []) (fs.getD i []) := by
  have hb : i < bs.length := by rw [h.length_eq]; exact hi
  refine forall₂_get h (i := i) ?_ ?_
  · rw [List.getD_eq_getElem _ _ hb]; exact List.getElem?_eq_getElem hb
  · rw [List.getD_eq_getElem _ _ hi]; exact List.getElem?_eq_getElem hi

theorem graft_cons (req : List Nat) (args : List (List Int)) (x : Int) (l : List Int) : graft E req args (x :: l) = graft1 E req args x ++ graft E req args l := rfl

theorem go_graft {i : Nat} (hg : ∀ x, GoodRef E.toDb x) (hi : GoodAss E.toDb i) {σ : Nat → List Nat} {args : List (List Int)}
    (hargs : List.Forall₂ (Yields E.toDb dv) args ((frameOf E.toDb i).hyps.map (subst E.isVar σ))) (hdv : DvOk E.isVar dv (frameOf E.toDb i) σ) (hsym : ∀ a b, dv a b → dv b a)
    (hAd : ∀ a b, a ∈ (E.stmt i).reqVars → b ∈ (E.stmt i).reqVars → dvOf E.toDb i a b → (a, b) ∈ (E.stmt i).reqDisj ∨ (b, a) ∈ (E.stmt i).reqDisj) :
    ∀ {l : List Int} {h0 st0 h1 st1}, (∀ x ∈ l, -1000 < x) → (∀ x ∈ l, isHyp E x = true → x.toNat ∈ (E.stmt i).reqHyp) → VarsIn E.isVar (E.stmt i).reqVars st0 →
      Go E.toDb (dvOf E.toDb i) l h0 st0 h1 st1 → ∀ H S, ∃ H', Go E.toDb dv (graft E (E.stmt i).reqHyp args l) H (st0.map (subst E.isVar σ) ++ S) H' (st1.map (subst E.isVar σ) ++ S)
  | [], _, _, _, _, _, _, _, .nil _ _, H, S => ⟨H, .nil _ _⟩
  | x :: l, h0, st0, h1, st1, hr, hh, hv, .cons (f := f) (st1 := stm) g g', H, S => by
    have hx := hr x (by simp)
    -- the step
    have key : (∃ H1, Go E.toDb dv (graft1 E (E.stmt i).reqHyp args x) H (st0.map (subst E.isVar σ) ++ S) H1 ((f :: stm).map (subst E.isVar σ) ++ S)) ∧ VarsIn E.isVar (E.stmt i).reqVars (f :: stm) := by
      cases g with
      | hyp e hd =>
        have hy := decode_isHyp ⟨_, hd⟩
        have hm := hh x (by simp) hy
        obtain ⟨_, _, he⟩ := decode_hyp hd
        have hidx : (E.stmt i).reqHyp.idxOf x.toNat < (E.stmt i).reqHyp.length := List.idxOf_lt_length_iff.2 hm
        have hf : ((frameOf E.toDb i).hyps.map (subst E.isVar σ)).getD ((E.stmt i).reqHyp.idxOf x.toNat) [] = subst E.isVar σ f := by
          have hl : (E.stmt i).reqHyp.idxOf x.toNat < ((frameOf E.toDb i).hyps.map (subst E.isVar σ)).length := by simpa [frameOf, Veri.hypsOf] using hidx
          rw [List.getD_eq_getElem _ _ hl]
          simp only [frameOf, Veri.hypsOf, List.map_map, List.getElem_map, Function.comp_apply, List.getElem_idxOf]
          rw [he]
        refine ⟨?_, ?_⟩
        · unfold graft1
          rw [if_pos hy, if_pos hm]
          have := forall₂_getD hargs (i := (E.stmt i).reqHyp.idxOf x.toNat) (by simpa [frameOf, Veri.hypsOf] using hidx)
          rw [hf] at this
          exact this H _
        · intro f' hf' v hvf hvv
          rcases List.mem_cons.1 hf' with rfl | hf'
          · refine (hi.vars v).2 ⟨hvv, _, ?_, hvf⟩
            rw [he]
            exact List.mem_map_of_mem hm
          · exact hv f' hf' v hvf hvv
      | back j e hd _ => have := decode_ref hd; omega
      | use B τ st2 hd hst hB =>
        obtain ⟨hgB, hBe⟩ := goodAss_use hg hd
        have hn := decode_notHyp hd
        subst hst
        have hBv : ∀ x y, (x, y) ∈ B.dv → VarIn E.isVar B.hyps x ∧ VarIn E.isVar B.hyps y := by
          intro a b hab
          rw [hBe] at hab ⊢
          obtain ⟨h1, h2⟩ := hgB.disjVars _ hab
          exact ⟨(hgB.vars _).1 h1, (hgB.vars _).1 h2⟩
        refine ⟨?_, ?_⟩
        · unfold graft1
          rw [if_neg (by rw [hn]; simp)]
          refine ⟨H ++ [subst E.isVar (fun v => subst E.isVar σ (τ v)) B.concl], ?_⟩
          have hc := dvOk_comp (db := E.toDb) (dv := dv) (i := i) (A := frameOf E.toDb i) (B := B) (σ := σ) (τ := τ) hdv hsym hB hAd hBv (fun f hf => by simpa using Or.inl (by simpa using hf)) hv
          have hs := StepI.use (db := E.toDb) (dv := dv) (x := x) (h := H) (st := ((B.hyps.map (subst E.isVar τ)).reverse ++ stm).map (subst E.isVar σ) ++ S) B (fun v => subst E.isVar σ (τ v))
            (stm.map (subst E.isVar σ) ++ S) hd (by
              rw [List.map_append, List.append_assoc, List.map_reverse, List.map_map]
              congr 2
              refine List.map_congr_left (fun f _ => ?_)
              exact subst_subst _ _ _ _) hc
          rw [List.map_cons, subst_subst]
          exact .cons hs (.nil _ _)
        · intro f' hf' v hvf hvv
          rcases List.mem_cons.1 hf' with rfl | hf'
          · obtain ⟨u, hu, vu, hvu⟩ := mem_subst hvf hvv
            have h4 : u ∈ (E.stmt x.toNat).reqVars := hgB.mathVars u (by rw [hBe] at hu; exact hu) vu
            obtain ⟨_, g2, hg2, hug⟩ := (hgB.vars u).1 h4
            refine hv (subst E.isVar τ g2) ?_ v (subst_mem hug vu hvu) hvv
            rw [List.mem_append]
            left
            rw [List.mem_reverse]
            refine List.mem_map_of_mem ?_
            rw [hBe]; exact hg2
          · exact hv f' (by simp [hf']) v hvf hvv
    obtain ⟨⟨H1, k1⟩, k2⟩ := key
    obtain ⟨H2, k3⟩ := go_graft hg hi hargs hdv hsym hAd (fun y hy => hr y (by simp [hy])) (fun y hy => hh y (by simp [hy])) k2 g' H1 S
    exact ⟨H2, by rw [graft_cons]; exact k1.append k3⟩

/-- Running the expanded proof does what running the proof does. -/
theorem go_inl {i : Nat} {p : List Int} (hg : ∀ x, GoodRef E.toDb x) (hik : (E.stmt i).kind = .p) (hsym : ∀ a b, dv a b → dv b a)
    (hAd : ∀ a b, a ∈ (E.stmt i).reqVars → b ∈ (E.stmt i).reqVars → dvOf E.toDb i a b → (a, b) ∈ (E.stmt i).reqDisj ∨ (b, a) ∈ (E.stmt i).reqDisj)
    (hpr : ∀ x ∈ p, -1000 < x) (hph : ∀ x ∈ p, isHyp E x = true → x.toNat ∈ (E.stmt i).reqHyp) {k : List (List Nat)} (hp : Go E.toDb (dvOf E.toDb i) p [] [] k [(E.stmt i).math]) :
    ∀ {q : List Int} {h st h' st'} {bs fin : List (List Int)}, (∀ x ∈ q, StepOk E x ∧ -1000 < x) → Go E.toDb dv q h st h' st' → inlRun E i p q bs = some fin →
      List.Forall₂ (Yields E.toDb dv) bs st → List.Forall₂ (Yields E.toDb dv) fin st'
  | [], _, _, _, _, bs, fin, _, .nil _ _, he, h1 => by simp only [inlRun, Option.some.injEq] at he; subst he; exact h1
  | x :: q, h, st, h', st', bs, fin, hok, .cons (f := f) (st1 := stm) g g', he, h1 => by
    obtain ⟨hx, hx1⟩ := hok x (by simp)
    rw [inlRun] at he
    unfold inlStep at he
    by_cases ha : arity E x ≤ bs.length
    swap
    · rw [if_neg ha] at he; cases he
    rw [if_pos ha] at he
    dsimp only [Option.bind_some] at he
    refine go_inl hg hik hsym hAd hpr hph hp (fun y hy => hok y (by simp [hy])) g' he ?_
    have hgi : GoodAss E.toDb i := by
      have := hg (i : Int) (by omega)
      rw [Int.toNat_natCast, show (E.toDb.stmt i).kind = .p from hik] at this
      exact this
    cases g with
    | hyp e hd =>
      have har := arity_decode_hyp hd
      have hne : x ≠ (i : Int) := by
        rintro rfl
        obtain ⟨_, h2, _⟩ := decode_hyp hd
        rw [Int.toNat_natCast, show (E.toDb.stmt i).kind = .p from hik] at h2
        simp at h2
      rw [har, if_neg hne]
      have hy : Yields E.toDb dv [x] f := fun h st => ⟨_, .cons (.hyp f hd) (.nil _ _)⟩
      exact .cons (by simpa using hy) (by simpa using h1)
    | back j e hd _ => have := decode_ref hd; omega
    | use A σ st1 hd hst hdv =>
      obtain ⟨har, hA⟩ := arity_decode_use hx hd
      rw [har]
      subst hst
      have hl : (A.hyps.map (subst E.isVar σ)).reverse.length = A.hyps.length := by simp
      have h2 : List.Forall₂ (Yields E.toDb dv) (bs.take A.hyps.length) (A.hyps.map (subst E.isVar σ)).reverse := by
        have := List.forall₂_take A.hyps.length h1
        rwa [List.take_left' hl] at this
      have hb : List.Forall₂ (Yields E.toDb dv) (bs.drop A.hyps.length) stm := by
        have := List.forall₂_drop A.hyps.length h1
        rwa [List.drop_left' hl] at this
      refine .cons ?_ hb
      by_cases hxi : x = (i : Int)
      · rw [if_pos hxi]
        subst hxi
        rw [Int.toNat_natCast] at hA
        subst hA
        have h3 : List.Forall₂ (Yields E.toDb dv) (bs.take (frameOf E.toDb i).hyps.length).reverse ((frameOf E.toDb i).hyps.map (subst E.isVar σ)) := by
          have := List.rel_reverse h2
          rwa [List.reverse_reverse] at this
        intro H S
        have := go_graft hg hgi h3 hdv hsym hAd hpr hph (by intro f hf; cases hf) hp H S
        exact this
      · rw [if_neg hxi]
        intro H S
        obtain ⟨k', g⟩ := yields_flatten h2 H S
        exact ⟨_, g.append (.cons (.use A σ S hd rfl hdv) (.nil _ _))⟩

/-! ### The theorems -/

theorem run_mem : ∀ {l : List Int} {st fin : List (List Int) × List (List Int)}, expandRun E l st = some fin → ∀ {P : Int → Prop}, (∀ x ∈ l, P x) → (∀ b ∈ st.1 ++ st.2, ∀ x ∈ b, P x) →
    ∀ b ∈ fin.1 ++ fin.2, ∀ x ∈ b, P x
  | [], st, fin, h, P, _, h2 => by cases h; exact h2
  | y :: l, st, fin, h, P, h1, h2 => by
    rw [expandRun] at h
    cases hs : expandStep E st y with
    | none => rw [hs] at h; cases h
    | some st' =>
      rw [hs] at h
      refine run_mem (st := st') h (fun x hx => h1 x (by simp [hx])) ?_
      have hl : ∀ b ∈ st.1, ∀ x ∈ b, P x := fun b hb => h2 b (List.mem_append_left _ hb)
      have hr : ∀ b ∈ st.2, ∀ x ∈ b, P x := fun b hb => h2 b (List.mem_append_right _ hb)
      by_cases hy : y ≤ -1000
      · obtain ⟨hlt, rfl⟩ := step_ref hy hs
        have hm := mem_getD hlt
        generalize st.2.getD (-1000 - y).toNat [] = b0 at hm
        intro b hb
        simp only [List.cons_append, List.mem_cons, List.mem_append, List.not_mem_nil, or_false] at hb
        rcases hb with rfl | hb | hb | rfl
        · exact hr _ hm
        · exact hl _ hb
        · exact hr _ hb
        · exact hr _ hm
      · obtain ⟨hlt, rfl⟩ := step_stmt (by omega) hs
        have hnew : ∀ x ∈ (st.1.take (arity E y)).reverse.flatten ++ [y], P x := by
          intro x hx
          rcases List.mem_append.1 hx with hx | hx
          · obtain ⟨b, hb, hxb⟩ := List.mem_flatten.1 hx
            exact hl b (List.mem_of_mem_take (List.mem_reverse.1 hb)) x hxb
          · rw [List.mem_singleton] at hx; subst hx; exact h1 x (by simp)
        intro b hb
        simp only [List.cons_append, List.mem_cons, List.mem_append, List.not_mem_nil, or_false] at hb
        rcases hb with rfl | hb | hb | rfl
        · exact hnew
        · exact hl _ (List.mem_of_mem_drop hb)
        · exact hr _ hb
        · exact hnew

theorem expands_mem {q p : List Int} (h : Expands E q p) : ∀ x ∈ p, x ∈ q := by
  obtain ⟨rec, h⟩ := h
  exact run_mem h (P := fun x => x ∈ q) (fun _ h => h) (by intro b hb; cases hb) p (by simp)

theorem inl_mem {i : Nat} {src : List Int} {P : Int → Prop} (hu : P unk) (hs : ∀ x ∈ src, P x) : ∀ {l : List Int} {st fin : List (List Int)}, inlRun E i src l st = some fin →
    (∀ x ∈ l, P x) → (∀ b ∈ st, ∀ x ∈ b, P x) → ∀ b ∈ fin, ∀ x ∈ b, P x
  | [], st, fin, h, _, h2 => by cases h; exact h2
  | y :: l, st, fin, h, h1, h2 => by
    rw [inlRun] at h
    unfold inlStep at h
    by_cases ha : arity E y ≤ st.length
    swap
    · rw [if_neg ha] at h; cases h
    rw [if_pos ha] at h
    dsimp only [Option.bind_some] at h
    refine inl_mem hu hs h (fun x hx => h1 x (by simp [hx])) ?_
    intro b hb x hx
    rcases List.mem_cons.1 hb with rfl | hb
    · have harg : ∀ b ∈ (st.take (arity E y)).reverse, ∀ x ∈ b, P x := fun b hb => h2 b (List.mem_of_mem_take (List.mem_reverse.1 hb))
      by_cases hy : y = (i : Int)
      · rw [if_pos hy] at hx
        rcases graft_mem hx with rfl | ⟨h3, _⟩ | ⟨b, hb, hxb⟩
        · exact hu
        · exact hs x h3
        · exact harg b hb x hxb
      · rw [if_neg hy] at hx
        rcases List.mem_append.1 hx with hx | hx
        · obtain ⟨b, hb, hxb⟩ := List.mem_flatten.1 hx
          exact harg b hb x hxb
        · rw [List.mem_singleton] at hx; subst hx; exact h1 x (by simp)
    · exact h2 b (List.mem_of_mem_drop hb) x hx

theorem covered_req (h : Accepted src s) {i : Nat} (hp : kindAt (kinds src) i = .p) {a b : Nat} (ha : a ∈ (s.stmt i).reqVars) (hb : b ∈ (s.stmt i).reqVars) (hd : dvOf (toDb src s) i a b) :
    (a, b) ∈ (s.stmt i).reqDisj ∨ (b, a) ∈ (s.stmt i).reqDisj := by
  obtain ⟨_, hv⟩ := C12_mandatory_vars h (i := i) (Or.inr hp)
  obtain ⟨_, h1, h2⟩ := C13_disjoint_pairs h (i := i) (Or.inr hp)
  obtain ⟨_, h3⟩ := h2 hp
  have hm : (min a b, max a b) ∈ (s.stmt i).reqDisj := by
    rcases List.mem_append.1 hd with h4 | h4
    · exact h4
    · exfalso
      obtain ⟨_, h5, _⟩ := (h3 _ _).1 h4
      apply h5
      rcases Nat.le_total a b with hab | hab
      · rw [Nat.min_eq_left hab, Nat.max_eq_right hab]; exact ⟨(hv a).1 ha, (hv b).1 hb⟩
      · rw [Nat.min_eq_right hab, Nat.max_eq_left hab]; exact ⟨(hv b).1 hb, (hv a).1 ha⟩
  rcases Nat.le_total a b with hab | hab
  · rw [Nat.min_eq_left hab, Nat.max_eq_right hab] at hm; exact Or.inl hm
  · rw [Nat.min_eq_right hab, Nat.max_eq_left hab] at hm; exact Or.inr hm

theorem dvOf_symm {i : Nat} (a b : Nat) (h : dvOf db i a b) : dvOf db i b a := by
  unfold dvOf Covered at h ⊢
  rw [Nat.min_comm b a, Nat.max_comm b a]
  exact h

theorem backOk_none {l : List Int} (h : ∀ x ∈ l, -1000 < x) : BackOk 0 l := backOk_get (fun k x hk hx => by have := h x (List.mem_of_getElem? hk); omega)

/-- The proof of theorem `i` in the database is complete and correct, and uses no hypothesis of a dummy variable. -/
def SoundSource (src : List Src) (s : PState) (i : Nat) (q : List Int) : Prop :=
  Verified (toDb src s) i q ∧ ∀ j : Nat, (j : Int) ∈ q → (kindAt (kinds src) j = .e ∨ kindAt (kinds src) j = .f) → MandHyp (isVarOf src) (kinds src) s.math i j

/-- One theorem. -/
theorem inlines_verified (h : Accepted src s) (hp : kindAt (kinds src) prove = .p) {i : Nat} (hi : kindAt (kinds src) i = .p) {q p raw out : List Int} (hS : Stored (envOf look src s) i q p)
    (hU : SoundSource src s i q) (hI : Inlines (envOf look src s) i p raw out) (hraw : ∀ x ∈ raw, StepOk (envOf look src s) x ∧ -1000 < x) (hv : Verified (toDb src s) prove raw) :
    Verified (toDb src s) prove out ∧ ∀ x ∈ out, StepOk (envOf look src s) x ∧ -1000 < x := by
  have hq : q ≠ [] := by
    rintro rfl
    obtain ⟨rec, hr⟩ := hS.expands
    simp [expandRun] at hr
  have hr0 : raw ≠ [] := by
    rintro rfl
    simp [Inlines, inlRun] at hI
  obtain ⟨_, _, _, _, hpr⟩ := hS.normal
  have hgo := (packed_proves_iff (E := envOf look src s) (goodRef_of_parse h) hS.ok hS.expands (f := s.math i)).1 ((verified_iff h hi hq hS.back).1 hU.1)
  obtain ⟨k, hgo⟩ := hgo
  obtain ⟨k2, hgr⟩ := (verified_iff h hp hr0 (backOk_none fun x hx => (hraw x hx).2)).1 hv
  have hout : ∀ x ∈ out, StepOk (envOf look src s) x ∧ -1000 < x :=
    inl_mem (P := fun x => StepOk (envOf look src s) x ∧ -1000 < x) ⟨Or.inl rfl, by decide⟩ (fun x hx => stepOk_legal (hS.legal x hx)) hI hraw (by intro b hb; cases hb) out (by simp)
  have hy := go_inl (E := envOf look src s) (dv := dvOf (toDb src s) prove) (i := i) (p := p) (goodRef_of_parse h) (by rw [kind_env h]; exact hi) dvOf_symm
    (fun a b ha hb hd => covered_req h hi ha hb hd) hpr (by
      intro x hx hxh
      obtain ⟨h0, hk⟩ := isHyp_iff.1 hxh
      refine ((C12_mandatory_hyps h (Or.inr hi)).2.1 _).2 (hU.2 _ ?_ ?_)
      · rw [Int.toNat_of_nonneg h0]; exact expands_mem hS.expands x hx
      · rw [← kind_env (look := look) h]; exact hk) hgo hraw hgr hI .nil
  obtain ⟨k3, hfin⟩ : ∃ k, Go (toDb src s) (dvOf (toDb src s) prove) out [] [] k [s.math prove] := by
    cases hy with
    | cons h1 _ => exact h1 [] []
  refine ⟨(verified_iff h hp ?_ (backOk_none fun x hx => (hout x hx).2)).2 ⟨k3, hfin⟩, hout⟩
  rintro rfl
  cases hfin

theorem inlinesAll_verified (h : Accepted src s) (hp : kindAt (kinds src) prove = .p) {prf : Nat → List Int}
    (hst : ∀ i, ((envOf look src s).stmt i).kind = .p → 1 ≤ i ∧ ∃ p, Stored (envOf look src s) i (prf i) p ∧ SrcOk (envOf look src s) i p) {sel : List Nat} {raw out : List Int}
    (hI : InlinesAll (envOf look src s) (fun i p => Expands (envOf look src s) (prf i) p) sel raw out) : (∀ i ∈ sel, kindAt (kinds src) i = .p ∧ SoundSource src s i (prf i)) →
    (∀ x ∈ raw, StepOk (envOf look src s) x ∧ -1000 < x) → Verified (toDb src s) prove raw → Verified (toDb src s) prove out := by
  induction hI with
  | nil p => exact fun _ _ hv => hv
  | cons hs h1 _ ih =>
    rename_i i sel p q r src' _
    intro hsel hraw hv
    obtain ⟨hi, hU⟩ := hsel i (by simp)
    obtain ⟨_, p', hS, _⟩ := hst i (by rw [kind_env h]; exact hi)
    have e : p' = src' := by
      obtain ⟨r1, e1⟩ := hS.expands
      obtain ⟨r2, e2⟩ := hs
      rw [e1] at e2
      simp only [Option.some.injEq, Prod.mk.injEq, List.cons.injEq, and_true] at e2
      exact e2.1
    subst e
    obtain ⟨k1, k2⟩ := inlines_verified h hp hi hS hU h1 hraw hv
    exact ih (fun j hj => hsel j (by simp [hj])) k2 k1

/-- **C58**.  The verifier accepts the proof; EXPAND replaces uses of theorems whose proofs in the database the verifier accepts and which have no dummy variables.  Then the
verifier accepts the expanded proof. -/
theorem C58_expanded_proof_is_correct (h : Accepted src s) (hl : LookOk look) {W : Nat} {sec : Nat → List Char} {len : Nat → Nat} {prf : Nat → List Int}
    (hf : Fetched (envOf look src s) W sec len prf) {M : MEnv} (hM : M.toEnv = envOf look src s) {arg : List Char} (hne : arg ≠ []) (hpl : ∀ e ∈ split arg, Plain e) (hlab : ∀ i, '*' ∉ M.lab i)
    {proof : List Int} (hF : Formed (envOf look src s) prove proof) (hp : kindAt (kinds src) prove = .p) (hv : Verified (toDb src s) prove proof)
    (hsrc : ∀ i, i < prove → kindAt (kinds src) i = .p → (∃ e ∈ split arg, Glob '*' '?' e (M.lab i)) → SoundSource src s i (prf i)) :
    ∃ N, ∀ fuel, N ≤ fuel → ∃ r, expandCmd M fuel prf arg prove proof = .val r ∧ Verified (toDb src s) prove (r.getD proof) := by
  obtain ⟨r, q, N, h1, h2, _, _, sel, h5, _, h7⟩ := C58_expand_command h hl hf hM hne hpl hlab hF
  refine ⟨N, fun fuel hfu => ⟨r, h1 fuel hfu, ?_⟩⟩
  have hq := inlinesAll_verified (look := look) h hp (fetched h hl hf) h5 (fun i hi => by
    obtain ⟨k1, k2, k3⟩ := (h7 i).1 hi
    exact ⟨k2, hsrc i k1 k2 k3⟩) (fun x hx => stepOk_legal (hF.2 x hx)) hv
  rcases h2 with ⟨rfl, rfl⟩ | rfl
  · exact hq
  · exact hq

/-- **C58** with C55: in a session of the Proof Assistant, EXPAND ends, and the proof that it hands to the session is a legal one (so C54, C55 and C57 hold of the session after it). -/
theorem C58_expand_in_session (h : Accepted src s) (hl : LookOk look) {W : Nat} {sec : Nat → List Char} {len : Nat → Nat} {prf : Nat → List Int}
    (hf : Fetched (envOf look src s) W sec len prf) {M : MEnv} (hM : M.toEnv = envOf look src s) {arg : List Char} (hne : arg ≠ []) (hpl : ∀ e ∈ split arg, Plain e) (hlab : ∀ i, '*' ∉ M.lab i)
    (hp : kindAt (kinds src) prove = .p) {U : Unifier} (hU : U.Ok (envOf look src s)) {n : Nat} {t : St} (hr : Reach n (envOf look src s) U prove t) :
    ∃ r N, (∀ fuel, N ≤ fuel → expandCmd M fuel prf arg prove t.pip.proof = .val r) ∧ ∀ q, r = some q → PAct.Ok (envOf look src s) prove (.rebuild q) := by
  obtain ⟨_, hF, _⟩ := C55_session_shape h hp hU hr
  obtain ⟨r, q, N, h1, h2, h3, _⟩ := C58_expand_command h hl hf hM hne hpl hlab hF
  refine ⟨r, N, h1, ?_⟩
  intro q' e
  rcases h2 with ⟨h2, _⟩ | h2
  · rw [h2] at e; cases e
  · rw [h2] at e; cases e; exact h3

end MM.Expd
