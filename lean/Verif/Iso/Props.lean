import Verif.Iso.Model
import Verif.Iso.Spec
import Verif.Byrep.Props
/-!
# C92: the parent of a step, and isolated dummy variables
-/
namespace MM.Iso
open MM.Veri MM.Proof MM.Data MM.Tree MM.Pfas MM.Byrep MM.Pars MM.Spec
open MM.Pfas.AF MM.Pfas.Cx

variable {E : Env}

theorem parent_scan : ∀ {f : AF}, All (Shape E) f → ∀ (rest : List Int) (st : Int) (i : Nat), 0 ≤ st →
    parentLoop E (f.flat.map Node.stmt ++ rest) st i = parentLoop E rest (st + f.count) (i + f.flat.length)
  | .nil, _, rest, st, i, _ => by simp [AF.flat, AF.count]
  | .snoc l x ch, h, rest, st, i, h0 => by
    obtain ⟨h1, h2, h3⟩ := h
    have e : (AF.snoc l x ch).flat.map Node.stmt ++ rest = l.flat.map Node.stmt ++ (ch.flat.map Node.stmt ++ (x.stmt :: rest)) := by simp [AF.flat]
    rw [e, parent_scan h1 _ _ _ h0, parent_scan h2 _ _ _ (by omega)]
    have e2 : i + (AF.snoc l x ch).flat.length = i + l.flat.length + ch.flat.length + 1 := by simp [AF.flat]; omega
    rw [e2]
    rcases h3.cases with ⟨g1, g2⟩ | ⟨g0, g1, g2⟩ | ⟨g0, g1, g2⟩
    · have hc := tgts_nil g2
      subst hc
      rw [parentLoop, if_pos (by rw [g1]; unfold unk; omega), if_neg (fun e => e g1)]
      simp [AF.count, Int.add_assoc]
    · have hc := tgts_nil g2
      subst hc
      rw [parentLoop, if_neg (by omega), if_pos g1]
      simp [AF.count, Int.add_assoc]
    · rw [tgts_length] at g2
      rw [parentLoop, if_neg (by omega), if_neg (by rcases g1 with g | g <;> rw [g] <;> simp), if_neg (by rintro ⟨q1, q2⟩; rcases g1 with g | g; exact q1 g; exact q2 g), ← g2,
        if_neg (by omega)]
      congr 1
      simp only [AF.count]
      omega

/-- Position `i` is that of a root. -/
def Root : AF → Nat → Prop
  | .nil, _ => False
  | .snoc l _ ch, i => i = l.flat.length + ch.flat.length ∨ Root l i

/-- The positions of the roots. -/
def ends : AF → List Nat
  | .nil => []
  | .snoc l _ ch => ends l ++ [l.flat.length + ch.flat.length]

theorem root_ends : ∀ {g : AF} {i : Nat}, Root g i → i ∈ ends g
  | .snoc l x ch, i, h => by
    rcases h with h | h
    · simp [ends, h]
    · exact List.mem_append_left _ (root_ends h)

theorem ends_length : ∀ g : AF, (ends g).length = g.count
  | .nil => rfl
  | .snoc l x ch => by simp [ends, AF.count, ends_length l]

theorem ends_lt : ∀ {g : AF} {i : Nat}, i ∈ ends g → i < g.flat.length
  | .snoc l x ch, i, h => by
    rcases List.mem_append.mp h with h | h
    · have := ends_lt h; simp [AF.flat]; omega
    · simp at h; simp [AF.flat]; omega

theorem parent_of : ∀ (f : AF) {i : Nat}, i < f.flat.length → Root f i ∨ ∃ (c : Cx) (nd : Node) (g : AF) (j : Nat), f = c.plug nd g ∧ i = c.pre.length + j ∧ Root g j
  | .nil, i, h => by simp [AF.flat] at h
  | .snoc l nd ch, i, h => by
    by_cases h1 : i < l.flat.length
    · rcases parent_of l h1 with e | ⟨c, y, g, j, e, hi, hg⟩
      · exact Or.inl (Or.inr e)
      · exact Or.inr ⟨.right c nd ch, y, g, j, by rw [plug, ← e], hi, hg⟩
    · by_cases h2 : i - l.flat.length < ch.flat.length
      · rcases parent_of ch h2 with e | ⟨c, y, g, j, e, hi, hg⟩
        · exact Or.inr ⟨.top l, nd, ch, i - l.flat.length, rfl, by simp only [pre]; omega, e⟩
        · exact Or.inr ⟨.down l c nd, y, g, j, by rw [plug, ← e], by simp only [pre, List.length_append]; omega, hg⟩
      · left; left
        simp only [AF.flat, List.length_append, List.length_singleton] at h
        omega

theorem root_rest : ∀ {g : AF} {j : Nat}, Root g j → All (Shape E) g → ∃ g2 : AF, g.flat.drop (j + 1) = g2.flat ∧ All (Shape E) g2 ∧ g2.count < g.count
  | .snoc l x ch, j, h, hA => by
    rcases h with h | h
    · refine ⟨.nil, ?_, trivial, by simp [AF.count]⟩
      rw [List.drop_of_length_le (by simp [AF.flat]; omega)]
      rfl
    · obtain ⟨g2, e1, e2, e3⟩ := root_rest h hA.1
      have := ends_lt (root_ends h)
      refine ⟨.snoc g2 x ch, ?_, ⟨e2, hA.2.1, hA.2.2⟩, by simp only [AF.count]; omega⟩
      rw [AF.flat, AF.flat, List.append_assoc, List.drop_append_of_le_length (by omega), e1, List.append_assoc]

theorem Row.append {proof : List Int} {b m e : Nat} {l l' : List Nat} (h : Row E proof b l m) (h' : Row E proof m l' e) : Row E proof b (l ++ l') e := by
  induction h with
  | nil => exact h'
  | cons h _ ih => exact .cons h (ih h')

theorem row_of : ∀ {g : AF}, All (Shape E) g → ∀ {proof pre post : List Int}, proof = pre ++ g.flat.map Node.stmt ++ post →
    Row E proof pre.length ((ends g).map fun i => pre.length + i) (pre.length + g.flat.length)
  | .nil, _, _, _, _, _ => .nil _
  | .snoc l x ch, h, proof, pre, post, hp => by
    obtain ⟨h1, h2, h3⟩ := h
    have r1 := row_of h1 (proof := proof) (pre := pre) (post := ch.flat.map Node.stmt ++ [x.stmt] ++ post) (by rw [hp]; simp [AF.flat])
    have e : (ends (AF.snoc l x ch)).map (fun i => pre.length + i) = (ends l).map (fun i => pre.length + i) ++ [pre.length + (l.flat.length + ch.flat.length)] := by simp [ends]
    rw [e]
    refine r1.append (.cons ⟨by omega, by rw [hp]; simp [AF.flat], ?_⟩ ?_)
    · have hs : seg proof (pre.length + l.flat.length) (pre.length + (l.flat.length + ch.flat.length)) = (AF.snoc .nil x ch).flat.map Node.stmt ++ [] := by
        unfold seg
        have e4 : proof = ((pre ++ l.flat.map Node.stmt) ++ (ch.flat.map Node.stmt ++ [x.stmt])) ++ post := by rw [hp]; simp [AF.flat]
        rw [e4, List.take_left' (by simp; omega), List.drop_left' (by simp)]
        simp [AF.flat]
      rw [hs, rpn_af (f := .snoc .nil x ch) ⟨trivial, h2, h3⟩]
      simp [AF.count, rpnCount]
    · have : pre.length + (AF.snoc l x ch).flat.length = pre.length + (l.flat.length + ch.flat.length) + 1 := by simp [AF.flat]; omega
      rw [this]
      exact .nil _

theorem sub_of {proof pre post : List Int} {x : Node} {g : AF} (h1 : All (Shape E) g) (h2 : Shape E x g.tgts) (hp : proof = pre ++ (g.flat.map Node.stmt ++ [x.stmt]) ++ post) :
    IsSub E proof pre.length (pre.length + g.flat.length) := by
  have := row_of (E := E) (g := .snoc .nil x g) ⟨trivial, h1, h2⟩ (proof := proof) (pre := pre) (post := post) (by rw [hp]; simp [AF.flat])
  cases this with
  | cons h _ => simpa [AF.flat] using h

theorem getF_at {l : List (List Nat)} {i : Nat} (h : i < l.length) : getF l (i : Int) = .val (l.getD i []) := by
  unfold getF; rw [if_pos ⟨by omega, by rw [Int.toNat_natCast]; exact h⟩, Int.toNat_natCast]

theorem dummies_nil {m : List Nat} : dummies E m = [] ↔ ∀ t ∈ m, t ≤ E.sep := by
  unfold dummies
  rw [List.filter_eq_nil_iff]
  simp

theorem meets_iff {m m' : List Nat} : meets E (dummies E m) m' = true ↔ ∃ t, E.sep < t ∧ t ∈ m ∧ t ∈ m' := by
  unfold meets dummies
  simp only [List.any_eq_true, Bool.and_eq_true, decide_eq_true_eq, List.contains_iff_mem, List.mem_filter]
  constructor
  · rintro ⟨t, h1, h2, h3, _⟩; exact ⟨t, h2, h3, h1⟩
  · rintro ⟨t, h1, h2, h3⟩; exact ⟨t, h3, h1, h2, h1⟩

theorem hyps_ok {p : Pip} {k : Nat} (ht : p.target.length = p.proof.length) : ∀ {g : AF}, All (Shape E) g → ∀ {hs : List Nat}, hs.length = g.count →
    (∀ h ∈ hs, (E.stmt h).kind = .f ∨ (E.stmt h).kind = .e) → ∀ {pre post : List Int}, p.proof = pre ++ g.flat.map Node.stmt ++ post → ∀ {prf : Int} {first seen : Bool},
    (g.count ≠ 0 → (if first = true then Out.val prf else subproofLen E p.proof prf >>= fun len => .val (prf - len)) = .val ((pre.length : Int) + g.flat.length - 1)) →
    (seen = true ∨ ∃ j, Root g j ∧ k = pre.length + j) →
    ∃ r, hypLoop E p k (dummies E (p.target.getD k [])) hs.reverse prf first seen = .val r ∧ (r = 1 ∨ r = 2) ∧
      (r = 2 ↔ ∃ h j, (h, j) ∈ hs.zip ((ends g).map fun i => pre.length + i) ∧ (E.stmt h).kind = .e ∧ j ≠ k ∧ Share E p k j)
  | .nil, _, hs, hl, _, pre, post, _, prf, first, seen, _, hk => by
    obtain rfl : hs = [] := List.length_eq_zero_iff.mp hl
    have : seen = true := by
      rcases hk with h | ⟨_, h, _⟩
      · exact h
      · cases h
    subst this
    exact ⟨1, rfl, Or.inl rfl, by simp⟩
  | .snoc l x ch, hA, hs, hl, hkd, pre, post, hp, prf, first, seen, hprf, hk => by
    obtain ⟨h1, h2, h3⟩ := hA
    have hne : hs ≠ [] := by rintro rfl; simp [AF.count] at hl
    obtain ⟨hs0, y, rfl⟩ : ∃ a b, hs = a ++ [b] := ⟨hs.dropLast, hs.getLast hne, (List.dropLast_append_getLast hne).symm⟩
    have hl0 : hs0.length = l.count := by simpa [AF.count] using hl
    have hP : ((pre.length : Int) + (AF.snoc l x ch).flat.length - 1) = ((pre.length + l.flat.length + ch.flat.length : Nat) : Int) := by simp [AF.flat]; omega
    have hz : (hs0 ++ [y]).zip ((ends (AF.snoc l x ch)).map fun i => pre.length + i) =
        hs0.zip ((ends l).map fun i => pre.length + i) ++ [(y, pre.length + l.flat.length + ch.flat.length)] := by
      rw [ends, List.map_append, List.zip_append (by rw [List.length_map, ends_length, hl0])]
      simp [Nat.add_assoc]
    have hpl : p.proof = pre ++ l.flat.map Node.stmt ++ (ch.flat.map Node.stmt ++ [x.stmt] ++ post) := by rw [hp]; simp [AF.flat]
    have hsl := subproofLen_at h2 h3 (proof := p.proof) (pre := pre ++ l.flat.map Node.stmt) (post := post) (by rw [hp]; simp [AF.flat])
    have hnext : l.count ≠ 0 → (if false = true then Out.val ((pre.length + l.flat.length + ch.flat.length : Nat) : Int) else
        subproofLen E p.proof ((pre.length + l.flat.length + ch.flat.length : Nat) : Int) >>= fun len => .val (((pre.length + l.flat.length + ch.flat.length : Nat) : Int) - len)) =
        .val ((pre.length : Int) + l.flat.length - 1) := by
      intro _
      rw [if_neg (by decide)]
      rw [List.length_append, List.length_map] at hsl
      rw [hsl, Out.bind_val]
      congr 1
      omega
    have hlen : pre.length + l.flat.length + ch.flat.length < p.proof.length := by rw [hp]; simp [AF.flat]; omega
    rw [List.reverse_append, List.reverse_singleton, List.singleton_append, hypLoop, hprf (by simp [AF.count]), Out.bind_val, hP, hz]
    have hmem : ∀ {P : Nat → Nat → Prop}, (∃ h j, (h, j) ∈ hs0.zip ((ends l).map fun i => pre.length + i) ++ [(y, pre.length + l.flat.length + ch.flat.length)] ∧ P h j) ↔
        (∃ h j, (h, j) ∈ hs0.zip ((ends l).map fun i => pre.length + i) ∧ P h j) ∨ P y (pre.length + l.flat.length + ch.flat.length) := by
      intro P
      constructor
      · rintro ⟨h, j, hm, hq⟩
        rcases List.mem_append.mp hm with hm | hm
        · exact Or.inl ⟨h, j, hm, hq⟩
        · obtain ⟨rfl, rfl⟩ := Prod.mk.inj (List.mem_singleton.mp hm)
          exact Or.inr hq
      · rintro (⟨h, j, hm, hq⟩ | hq)
        · exact ⟨h, j, List.mem_append_left _ hm, hq⟩
        · exact ⟨_, _, List.mem_append_right _ (List.mem_singleton.mpr rfl), hq⟩
    by_cases c1 : ((pre.length + l.flat.length + ch.flat.length : Nat) : Int) = (k : Int)
    · rw [if_pos c1]
      obtain ⟨r, e1, e2, e3⟩ := hyps_ok ht h1 hl0 (fun h hh => hkd h (List.mem_append_left _ hh)) hpl hnext (Or.inl rfl)
      refine ⟨r, e1, e2, ?_⟩
      rw [e3, hmem]
      constructor
      · exact Or.inl
      · rintro (h | ⟨_, h, _⟩)
        · exact h
        · omega
    rw [if_neg c1]
    have hk' : seen = true ∨ ∃ j, Root l j ∧ k = pre.length + j := by
      rcases hk with h | ⟨j, hj, hkj⟩
      · exact Or.inl h
      · rcases hj with hj | hj
        · omega
        · exact Or.inr ⟨j, hj, hkj⟩
    obtain ⟨r, e1, e2, e3⟩ := hyps_ok ht h1 hl0 (fun h hh => hkd h (List.mem_append_left _ hh)) hpl hnext hk'
    by_cases c2 : (E.stmt y).kind = .e
    · rw [if_pos c2, getF_at (by rw [ht]; exact hlen), Out.bind_val]
      by_cases c3 : meets E (dummies E (p.target.getD k [])) (p.target.getD (pre.length + l.flat.length + ch.flat.length) []) = true
      · rw [if_pos c3]
        refine ⟨2, rfl, Or.inr rfl, iff_of_true rfl ?_⟩
        exact hmem.mpr (Or.inr ⟨c2, by omega, meets_iff.mp c3⟩)
      · rw [if_neg c3]
        refine ⟨r, e1, e2, ?_⟩
        rw [e3, hmem]
        constructor
        · exact Or.inl
        · rintro (h | ⟨_, _, h⟩)
          · exact h
          · exact absurd (meets_iff.mpr h) c3
    · rw [if_neg c2, if_neg]
      · refine ⟨r, e1, e2, ?_⟩
        rw [e3, hmem]
        constructor
        · exact Or.inl
        · rintro (h | ⟨h, _⟩)
          · exact h
          · exact absurd h c2
      · rcases hkd y (by simp) with h | h
        · exact fun e => e h
        · exact absurd h c2

variable {U : Unifier} {prove n : Nat} {a : MM.Pfas.St}

/-- The last step, or a step with its parent. -/
theorem parent_cases (G : GoodEnv E) (hU : U.Ok E) (hm : ∀ t ∈ (E.stmt prove).math, t < E.sep) (h : Reach n E U prove a) {k : Nat} (hk : k < a.pip.proof.length) :
    a.pip.target.length = a.pip.proof.length ∧ ((k + 1 = a.pip.proof.length ∧ getParentStep E a.pip k = .val k) ∨
    ∃ (c : Cx) (x : Node) (g : AF) (j : Nat), Rep a.pip (c.plug x g) ∧ All (Shape E) g ∧ Shape E x g.tgts ∧ Root g j ∧ k = c.pre.length + j ∧
      getParentStep E a.pip k = .val (c.pre.length + g.flat.length)) := by
  obtain ⟨f, hr, hA, hf, _⟩ := (reach_inv G hU hm h).1
  have hA : All (Shape E) f := hA.mono fun _ _ h => h.1
  refine ⟨by rw [hr.target, hr.proof, List.length_map, List.length_map], ?_⟩
  have hkf : k < f.flat.length := by rw [hr.proof] at hk; simpa using hk
  rcases parent_of f hkf with e | ⟨c, x, g, j, rfl, hi, hg⟩
  · left
    have hlast : k + 1 = a.pip.proof.length := by
      rw [hr.proof, List.length_map]
      cases f with
      | nil => cases e
      | snoc l x ch =>
        have hl : l = .nil := by
          cases l with
          | nil => rfl
          | snoc l' y d =>
            have := congrArg List.length hf
            simp [AF.tgts] at this
        subst hl
        rcases e with e | e
        · simp [AF.flat] at e ⊢; omega
        · cases e
    refine ⟨hlast, ?_⟩
    unfold getParentStep
    rw [List.drop_of_length_le (by omega), parentLoop, Out.bind_val]
    dsimp only
    rw [if_neg (fun e => e hlast)]
  · right
    obtain ⟨h1, h2⟩ := all_plug hA
    refine ⟨c, x, g, j, hr, h1, h2, hg, hi, ?_⟩
    obtain ⟨g2, q1, q2, q3⟩ := root_rest hg h1
    have hj := ends_lt (root_ends hg)
    have hlen : g2.flat.length = g.flat.length - (j + 1) := by rw [← q1, List.length_drop]
    have hd : a.pip.proof.drop (k + 1) = g2.flat.map Node.stmt ++ (x.stmt :: c.post.map Node.stmt) := by
      rw [hr.proof, flat_plug, hi, ← q1, List.map_append, List.map_append, List.map_append, List.append_assoc, List.append_assoc, List.drop_append, List.drop_of_length_le (by simp; omega)]
      rw [List.length_map, show c.pre.length + j + 1 - c.pre.length = j + 1 by omega, List.drop_append_of_le_length (by simp; omega), List.map_drop]
      simp
    unfold getParentStep
    rw [hd, parent_scan q2 _ _ _ (Int.le_refl _)]
    rcases h2.cases with ⟨_, t2⟩ | ⟨_, _, t2⟩ | ⟨g0, g1, t2⟩
    · rw [tgts_nil t2] at hg; cases hg
    · rw [tgts_nil t2] at hg; cases hg
    · rw [tgts_length] at t2
      rw [parentLoop, if_neg (by omega), if_neg (by rcases g1 with g | g <;> rw [g] <;> simp), if_neg (by rintro ⟨q1, q2⟩; rcases g1 with g | g; exact q1 g; exact q2 g),
        if_pos (by omega), Out.bind_val]
      dsimp only
      congr 1
      omega

theorem hypSteps_of {c : Cx} {x : Node} {g : AF} (hr : Rep a.pip (c.plug x g)) (h1 : All (Shape E) g) (h2 : Shape E x g.tgts) (hne : g.count ≠ 0) :
    HypSteps E a.pip.proof (c.pre.length + g.flat.length) ((ends g).map fun i => c.pre.length + i) ∧ a.pip.proof.getD (c.pre.length + g.flat.length) 0 = x.stmt ∧ 1 ≤ x.stmt ∧
      ((E.stmt x.stmt.toNat).kind = .a ∨ (E.stmt x.stmt.toNat).kind = .p) ∧ (E.stmt x.stmt.toNat).reqHyp.length = g.count := by
  have hp : a.pip.proof = c.pre.map Node.stmt ++ (g.flat.map Node.stmt ++ [x.stmt]) ++ c.post.map Node.stmt := by rw [hr.proof, flat_plug]; simp
  have hx : a.pip.proof.getD (c.pre.length + g.flat.length) 0 = x.stmt := by
    rw [hp]; simp [List.getD_eq_getElem?_getD]
  have hc : 1 ≤ x.stmt ∧ ((E.stmt x.stmt.toNat).kind = .a ∨ (E.stmt x.stmt.toNat).kind = .p) ∧ (E.stmt x.stmt.toNat).reqHyp.length = g.count := by
    rcases h2.cases with ⟨_, t2⟩ | ⟨_, _, t2⟩ | ⟨g0, g1, t2⟩
    · rw [tgts_nil t2] at hne; exact absurd rfl hne
    · rw [tgts_nil t2] at hne; exact absurd rfl hne
    · exact ⟨g0, g1, by rw [← t2, tgts_length]⟩
  have s1 := sub_of h1 h2 hp
  have s2 := row_of h1 (proof := a.pip.proof) (pre := c.pre.map Node.stmt) (post := x.stmt :: c.post.map Node.stmt) (by rw [hp]; simp)
  rw [List.length_map] at s1 s2
  exact ⟨⟨⟨_, s1, s2⟩, by rw [hx, hc.2.2, List.length_map, ends_length]⟩, hx, hc⟩

variable {src : List Src} {s : PState} {look : Look}

/-- C92: `getParentStep` never fails in a session; it gives the step one of whose hypotheses is proved by the given step, or the last step itself. -/
theorem C92_parent_step (hs : Accepted src s) (hp : kindAt (kinds src) prove = .p) (hU : U.Ok (envOf look src s)) (h : Reach n (envOf look src s) U prove a) {k : Nat}
    (hk : k < a.pip.proof.length) :
    ∃ q, getParentStep (envOf look src s) a.pip k = .val q ∧ ((k + 1 = a.pip.proof.length ∧ q = k) ∨ ∃ js, HypSteps (envOf look src s) a.pip.proof q js ∧ k ∈ js) := by
  obtain ⟨hm, _⟩ := math_of_parse (look := look) hs hp
  have G := goodEnv_of_parse (look := look) hs
  obtain ⟨_, ⟨h1, h2⟩ | ⟨c, x, g, j, hr, h1, h2, hg, hi, hq⟩⟩ := parent_cases G hU hm h hk
  · exact ⟨k, h2, Or.inl ⟨h1, rfl⟩⟩
  · have hne : g.count ≠ 0 := by cases g with | nil => cases hg | snoc _ _ _ => simp [AF.count]
    exact ⟨_, hq, Or.inr ⟨_, (hypSteps_of hr h1 h2 hne).1, List.mem_map.mpr ⟨j, root_ends hg, hi.symm⟩⟩⟩

/-- C92: `checkDummyVarIsolation` never fails in a session.  It gives 0 exactly if the target of the step has no dummy variable; otherwise 1 for the last step, and for a step that proves a
hypothesis of `q` exactly if neither the target of `q` nor the target of another `$e` hypothesis of `q` has one of the dummy variables; otherwise 2. -/
theorem C92_isolation (hs : Accepted src s) (hp : kindAt (kinds src) prove = .p) (hU : U.Ok (envOf look src s)) (h : Reach n (envOf look src s) U prove a) {k : Nat}
    (hk : k < a.pip.proof.length) :
    ∃ r, checkDummyVarIsolation (envOf look src s) a.pip k = .val r ∧ (r = 0 ∨ r = 1 ∨ r = 2) ∧ (r = 0 ↔ ∀ t ∈ a.pip.target.getD k [], t ≤ (envOf look src s).sep) ∧ (r ≠ 0 →
      (k + 1 = a.pip.proof.length ∧ r = 1) ∨
      ∃ q js, HypSteps (envOf look src s) a.pip.proof q js ∧ k ∈ js ∧ (r = 1 ↔ Apart (envOf look src s) a.pip k q js)) := by
  obtain ⟨hm, _⟩ := math_of_parse (look := look) hs hp
  have G := goodEnv_of_parse (look := look) hs
  generalize envOf look src s = E at *
  obtain ⟨ht, hc⟩ := parent_cases G hU hm h hk
  unfold checkDummyVarIsolation
  rw [getF_at (by rw [ht]; exact hk), Out.bind_val]
  by_cases c0 : dummies E (a.pip.target.getD k []) = []
  · rw [if_pos c0]
    exact ⟨0, rfl, Or.inl rfl, iff_of_true rfl (dummies_nil.mp c0), fun e => absurd rfl e⟩
  have c0' : ¬ ∀ t ∈ a.pip.target.getD k [], t ≤ E.sep := fun e => c0 (dummies_nil.mpr e)
  rw [if_neg c0]
  by_cases c1 : k + 1 = a.pip.proof.length
  · rw [if_pos c1]
    exact ⟨1, rfl, Or.inr (Or.inl rfl), iff_of_false (by decide) c0', fun _ => Or.inl ⟨c1, rfl⟩⟩
  rw [if_neg c1]
  obtain ⟨h1, _⟩ | ⟨c, x, g, j, hr, h1, h2, hg, hi, hq⟩ := hc
  · exact absurd h1 c1
  have hne : g.count ≠ 0 := by cases g with | nil => cases hg | snoc _ _ _ => simp [AF.count]
  obtain ⟨s1, s2, s3, s4, s5⟩ := hypSteps_of hr h1 h2 hne
  have hp : a.pip.proof = c.pre.map Node.stmt ++ g.flat.map Node.stmt ++ (x.stmt :: c.post.map Node.stmt) := by rw [hr.proof, flat_plug]; simp
  have hql : c.pre.length + g.flat.length < a.pip.proof.length := by rw [hp]; simp
  have hkj : k ∈ (ends g).map fun i => c.pre.length + i := List.mem_map.mpr ⟨j, root_ends hg, hi.symm⟩
  rw [hq, Out.bind_val, getF_at (by rw [ht]; exact hql), Out.bind_val]
  by_cases c2 : meets E (dummies E (a.pip.target.getD k [])) (a.pip.target.getD (c.pre.length + g.flat.length) []) = true
  · rw [if_pos c2]
    exact ⟨2, rfl, Or.inr (Or.inr rfl), iff_of_false (by decide) c0', fun _ => Or.inr ⟨_, _, s1, hkj, iff_of_false (by decide) fun e => e.1 (meets_iff.mp c2)⟩⟩
  rw [if_neg c2]
  have hx : rdN a.pip.proof ((c.pre.length + g.flat.length : Nat) : Int) = .val x.stmt := by
    unfold rdN; rw [if_neg (by omega), Int.toNat_natCast, if_pos hql, s2]
  rw [hx, Out.bind_val, if_neg (by omega), if_neg (by rintro ⟨q1, q2⟩; rcases s4 with g | g; exact q1 g; exact q2 g)]
  obtain ⟨r, e1, e2, e3⟩ := hyps_ok (p := a.pip) (k := k) ht h1 s5 (fun y hy => G.hypKind _ s4 y hy) hp (prf := ((c.pre.length + g.flat.length : Nat) : Int) - 1) (first := true) (seen := false)
    (fun _ => by rw [if_pos rfl]; simp) (Or.inr ⟨j, hg, by rw [List.length_map]; exact hi⟩)
  refine ⟨r, e1, by rcases e2 with e | e <;> simp [e], iff_of_false (by rcases e2 with e | e <;> omega) c0', fun _ => Or.inr ⟨_, _, s1, hkj, ?_⟩⟩
  rw [List.length_map] at e3
  unfold Apart
  rw [s2]
  constructor
  · rintro rfl
    exact ⟨fun e => c2 (meets_iff.mpr e), fun y i hm hk hne hs => absurd (e3.mpr ⟨y, i, hm, hk, hne, hs⟩) (by decide)⟩
  · rintro ⟨_, h⟩
    rcases e2 with e | e
    · exact e
    · obtain ⟨y, i, q1, q2, q3, q4⟩ := e3.mp e
      exact absurd q4 (h y i q1 q2 q3)

end MM.Iso
