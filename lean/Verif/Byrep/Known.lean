import Verif.Byrep.Model
import Verif.Repl.Ends3
/-!
# What `getKnownSubProofs` and `getIndepKnownSteps` return
-/
namespace MM.Byrep
open MM.Veri MM.Proof MM.Data MM.Tree MM.Pfas MM.Impr MM.Repl
open MM.Pfas.AF MM.Pfas.Cx
open MM.Unif (bind_inv)

variable {E : Env}

/-- No step of the trees is unknown. -/
def kn (f : AF) : Bool := f.flat.all fun y => decide (y.stmt ≠ unk)

/-- No step of the tree is unknown. -/
def kt (x : Node) (ch : AF) : Bool := kn ch && decide (x.stmt ≠ unk)

def flags : AF → List Bool
  | .nil => []
  | .snoc l x ch => flags l ++ flags ch ++ [kt x ch]

/-- Of the roots, last one first. -/
def roots : AF → List Bool
  | .nil => []
  | .snoc l x ch => kt x ch :: roots l

theorem flags_length : ∀ f : AF, (flags f).length = f.flat.length
  | .nil => rfl
  | .snoc l x ch => by simp [flags, AF.flat, flags_length l, flags_length ch]

theorem roots_length : ∀ f : AF, (roots f).length = f.count
  | .nil => rfl
  | .snoc l x ch => by simp [roots, AF.count, roots_length l]

theorem kn_snoc (l : AF) (x : Node) (ch : AF) : kn (.snoc l x ch) = (kn l && kt x ch) := by
  unfold kn kt kn
  simp [AF.flat, List.all_append, Bool.and_assoc]

theorem pop_val : ∀ (f : AF) (st : List Bool) (b : Bool), popHyps f.count (roots f ++ st) b = .val (st, b && kn f)
  | .nil, st, b => by simp [roots, AF.count, popHyps, kn, AF.flat]
  | .snoc l x ch, st, b => by
    rw [AF.count, roots, List.cons_append, popHyps, pop_val l st, kn_snoc]
    cases b <;> cases kt x ch <;> cases kn l <;> rfl

theorem bind_assoc' {α β γ : Type} (o : Out α) (f : α → Out β) (g : β → Out γ) : ((o >>= f) >>= g) = (o >>= fun a => f a >>= g) := by
  cases o <;> rfl

theorem known_forest : ∀ {f : AF}, All (Shape E) f → ∀ (rest : List Int) (st : List Bool),
    knownScan E (f.flat.map Node.stmt ++ rest) st = knownScan E rest (roots f ++ st) >>= fun r => .val (flags f ++ r)
  | .nil, _, rest, st => by
    simp only [AF.flat, List.map_nil, List.nil_append, roots, flags]
    cases knownScan E rest st <;> rfl
  | .snoc l x ch, h, rest, st => by
    obtain ⟨h1, h2, h3⟩ := h
    have e : (AF.snoc l x ch).flat.map Node.stmt ++ rest = l.flat.map Node.stmt ++ (ch.flat.map Node.stmt ++ (x.stmt :: rest)) := by simp [AF.flat]
    rw [e, known_forest h1, known_forest h2, bind_assoc']
    have key : knownScan E (x.stmt :: rest) (roots ch ++ (roots l ++ st)) = knownScan E rest (kt x ch :: (roots l ++ st)) >>= fun r => .val (kt x ch :: r) := by
      rcases h3.cases with ⟨g1, g2⟩ | ⟨g0, g1, g2⟩ | ⟨g0, g1, g2⟩
      · have hc := tgts_nil g2
        subst hc
        rw [knownScan, if_pos (by rw [g1]; unfold unk; omega), if_pos g1]
        simp [kt, g1, roots]
      · have hc := tgts_nil g2
        subst hc
        rw [knownScan, if_neg (by omega), if_pos g1]
        have : x.stmt ≠ unk := by unfold unk; omega
        simp [kt, kn, AF.flat, this, roots]
      · have hn : (E.stmt x.stmt.toNat).reqHyp.length = ch.count := by
          have := h3.2.1
          unfold arity at this
          rw [if_pos ⟨by omega, g1⟩, tgts_length] at this
          exact this
        rw [knownScan, if_neg (by omega), if_neg (by rcases g1 with g | g <;> rw [g] <;> simp), if_neg (by rintro ⟨q1, q2⟩; rcases g1 with g | g; exact q1 g; exact q2 g), hn, pop_val,
          Out.bind_val]
        have : x.stmt ≠ unk := by unfold unk; omega
        have ek : (true && kn ch) = kt x ch := by simp [kt, this]
        dsimp only
        rw [ek]
    rw [key, bind_assoc']
    show _ = knownScan E rest (kt x ch :: (roots l ++ st)) >>= _
    cases knownScan E rest (kt x ch :: (roots l ++ st)) with
    | val r => simp [Out.bind_val, flags]
    | _ => rfl

theorem known_val {f : AF} (hA : All (Shape E) f) (hc : f.count = 1) {p : Pip} (hr : Rep p f) : getKnownSubProofs E p = .val (flags f) := by
  unfold getKnownSubProofs
  have := known_forest hA [] []
  rw [List.append_nil, List.append_nil] at this
  rw [hr.proof, this, knownScan, if_pos (by rw [roots_length, hc]), Out.bind_val, List.append_nil]

theorem flags_plug : ∀ (c : Cx) (x : Node) (ch : AF), ∃ a b, flags (c.plug x ch) = a ++ flags ch ++ [kt x ch] ++ b ∧ a.length = c.pre.length
  | .top l, x, ch => ⟨flags l, [], by simp [plug, flags], flags_length l⟩
  | .right c nd d, x, ch => by
    obtain ⟨a, b, h1, h2⟩ := flags_plug c x ch
    exact ⟨a, b ++ flags d ++ [kt nd d], by simp [plug, flags, h1], h2⟩
  | .down l c nd, x, ch => by
    obtain ⟨a, b, h1, h2⟩ := flags_plug c x ch
    exact ⟨flags l ++ a, b ++ [kt nd (c.plug x ch)], by simp [plug, flags, h1], by simp [pre, flags_length, h2]⟩

theorem flag_at (c : Cx) (x : Node) (ch : AF) : (flags (c.plug x ch)).getD (c.pre.length + ch.flat.length) false = kt x ch := by
  obtain ⟨a, b, h1, h2⟩ := flags_plug c x ch
  rw [h1, ← h2, ← flags_length ch]
  simp [List.getD_eq_getElem?_getD]

/-! ### The steps independent of a step -/

/-- `len` gives the lengths of the subproofs, which are nested. -/
structure Lens (E : Env) (proof : List Int) (len : Nat → Nat) : Prop where
  val : ∀ k < proof.length, subproofLen E proof k = .val (len k : Int)
  pos : ∀ k < proof.length, 1 ≤ len k ∧ len k ≤ k + 1
  nest : ∀ k < proof.length, ∀ j ≤ k, k + 1 ≤ j + len k → len j + (k + 1 - len k) ≤ j + 1

theorem lens_forest {f : AF} (hA : All (Shape E) f) {proof : List Int} (hp : proof = f.flat.map Node.stmt) : ∃ len, Lens E proof len ∧
    ∀ (c : Cx) (x : Node) (ch : AF), f = c.plug x ch → len (c.pre.length + ch.flat.length) = ch.flat.length + 1 := by
  have hat : ∀ (c : Cx) (x : Node) (ch : AF), f = c.plug x ch → subproofLen E proof ((c.pre.length + ch.flat.length : Nat) : Int) = .val ((ch.flat.length : Int) + 1) := by
    rintro c x ch rfl
    obtain ⟨h1, h2⟩ := all_plug hA
    have := subproofLen_at h1 h2 (proof := proof) (pre := c.pre.map Node.stmt) (post := c.post.map Node.stmt) (by rw [hp, flat_plug]; simp)
    rwa [List.length_map] at this
  have ex : ∀ k, ∃ L : Nat, k < proof.length → subproofLen E proof k = .val (L : Int) := by
    intro k
    by_cases hk : k < proof.length
    · obtain ⟨c, x, ch, e, rfl⟩ := locate f (i := k) (by rw [hp] at hk; simpa using hk)
      exact ⟨ch.flat.length + 1, fun _ => by rw [hat c x ch e]; rfl⟩
    · exact ⟨0, fun h => absurd h hk⟩
  choose len hlen using ex
  have hl : ∀ (c : Cx) (x : Node) (ch : AF), f = c.plug x ch → len (c.pre.length + ch.flat.length) = ch.flat.length + 1 := by
    intro c x ch e
    have h1 := hlen (c.pre.length + ch.flat.length) (by rw [hp, e, flat_plug]; simp)
    rw [hat c x ch e] at h1
    have := Out.val.inj h1
    omega
  refine ⟨len, ⟨hlen, ?_, ?_⟩, hl⟩
  · intro k hk
    obtain ⟨c, x, ch, e, rfl⟩ := locate f (i := k) (by rw [hp] at hk; simpa using hk)
    rw [hl c x ch e]
    omega
  · intro k hk j hj hjk
    obtain ⟨c, x, ch, e, rfl⟩ := locate f (i := k) (by rw [hp] at hk; simpa using hk)
    rw [hl c x ch e] at hjk ⊢
    by_cases ej : j = c.pre.length + ch.flat.length
    · rw [ej, hl c x ch e]; omega
    obtain ⟨c', y, ch', e', hi⟩ := locate ch (i := j - c.pre.length) (by omega)
    obtain ⟨g1, _⟩ := all_plug (e ▸ hA)
    obtain ⟨g3, g4⟩ := all_plug (e' ▸ g1)
    have := subproofLen_at g3 g4 (proof := proof) (pre := c.pre.map Node.stmt ++ c'.pre.map Node.stmt) (post := c'.post.map Node.stmt ++ [x.stmt] ++ c.post.map Node.stmt)
      (by rw [hp, e, flat_plug, e', flat_plug]; simp)
    have h1 := hlen j (by omega)
    simp only [List.length_append, List.length_map] at this
    rw [show c.pre.length + c'.pre.length + ch'.flat.length = j by omega, h1] at this
    have := Out.val.inj this
    omega

/-- The subproof of step `j` contains step `ref`. -/
def Has (len : Nat → Nat) (ref j : Nat) : Prop := j + 1 ≤ ref + len j ∧ ref ≤ j

theorem indep_val {proof : List Int} {len : Nat → Nat} (hL : Lens E proof len) (ref : Nat) : ∀ (f : Nat) (k : Int) (r : Nat → Bool), k + 1 < f → k + 1 < proof.length → -1 ≤ k →
    (∀ j, r j = true ↔ k < j ∧ j + 1 < proof.length ∧ ¬ Has len ref j) →
    ∃ r', indepScan E proof ref f k r = .val r' ∧ ∀ j, r' j = true ↔ j + 1 < proof.length ∧ ¬ Has len ref j
  | 0, k, r, h, _, h0, _ => by omega
  | f + 1, k, r, hf, hk, h0, hr => by
    rw [indepScan]
    by_cases c1 : k < 0
    · rw [if_pos c1]
      exact ⟨r, rfl, fun j => by rw [hr j]; constructor <;> intro h; exact h.2; exact ⟨by omega, h⟩⟩
    rw [if_neg c1]
    obtain ⟨k, rfl⟩ := Int.eq_ofNat_of_zero_le (show 0 ≤ k by omega)
    rw [hL.val k (by omega), Out.bind_val]
    obtain ⟨l1, l2⟩ := hL.pos k (by omega)
    by_cases c2 : (ref : Int) ≤ k ∧ (k : Int) - (len k : Int) + 1 ≤ ref
    · rw [if_pos c2]
      refine indep_val hL ref f _ r (by omega) (by omega) (by omega) fun j => ?_
      rw [hr j]
      constructor
      · rintro ⟨h1, h2⟩; exact ⟨by omega, h2⟩
      · rintro ⟨h1, h2, h3⟩
        refine ⟨?_, h2, h3⟩
        by_cases e : j = k
        · subst e
          exact absurd ⟨by omega, by omega⟩ h3
        · omega
    rw [if_neg c2, if_neg (by omega), if_neg]
    swap
    · intro h
      obtain ⟨j, hj, h⟩ := List.any_eq_true.mp h
      rw [Bool.and_eq_true] at h
      have := ((hr j).mp h.1).1
      have := List.mem_range.mp hj
      omega
    refine indep_val hL ref f _ _ (by omega) (by omega) (by omega) fun j => ?_
    rw [Bool.or_eq_true, Bool.and_eq_true, decide_eq_true_eq, decide_eq_true_eq, hr j]
    constructor
    · rintro (⟨h1, h2⟩ | ⟨h1, h2⟩)
      · exact ⟨by omega, h2⟩
      · refine ⟨by omega, by omega, fun h => c2 ?_⟩
        have := hL.nest k (by omega) j (by omega) (by omega)
        obtain ⟨g1, g2⟩ := h
        have := (hL.pos j (by omega)).1
        constructor <;> omega
    · rintro ⟨h1, h2⟩
      by_cases e : (k : Int) < j
      · exact Or.inl ⟨e, h2⟩
      · exact Or.inr ⟨by omega, by omega⟩

theorem recheckAll_val {p : Pip} {r : Nat → Bool} {Q : Nat → Prop} : ∀ (c j : Nat), (∀ i, j ≤ i → i < j + c → ∃ b, recheck E p r i = .val b ∧ (b = true ↔ Q i)) →
    ∃ l, recheckAll E p r c j = .val l ∧ l.length = c ∧ ∀ i < c, (l.getD i false = true ↔ Q (j + i))
  | 0, j, _ => ⟨[], rfl, rfl, fun i hi => by omega⟩
  | c + 1, j, h => by
    obtain ⟨b, b1, b2⟩ := h j (by omega) (by omega)
    obtain ⟨l, l1, l2, l3⟩ := recheckAll_val c (j + 1) fun i h1 h2 => h i (by omega) (by omega)
    refine ⟨b :: l, by rw [recheckAll, b1, Out.bind_val, l1, Out.bind_val], by simp [l2], fun i hi => ?_⟩
    cases i with
    | zero => simpa using b2
    | succ i =>
      rw [List.getD_cons_succ, l3 i (by omega)]
      rw [show j + 1 + i = j + (i + 1) by omega]

/-- The step is offered: not the last one, its subproof does not contain `ref` and has no unknown step, it cites an assertion, and its target has no dummy variable. -/
def Offered (E : Env) (p : Pip) (len : Nat → Nat) (ref j : Nat) : Prop :=
  j + 1 < p.proof.length ∧ ¬ Has len ref j ∧ 1 ≤ p.proof.getD j 0 ∧
  ((E.stmt (p.proof.getD j 0).toNat).kind = .a ∨ (E.stmt (p.proof.getD j 0).toNat).kind = .p) ∧ (∀ t ∈ p.target.getD j [], t ≤ E.sep) ∧
  unk ∉ (p.proof.take (j + 1)).drop (j + 1 - len j)

theorem indepKnown_val {p : Pip} {f : AF} (hr : Rep p f) (hA : All (Shape E) f) (hc : f.count = 1) (hF : ∀ m ∈ p.target, m ≠ []) (ref : Nat) :
    ∃ len l, Lens E p.proof len ∧ getIndepKnownSteps E p ref = .val l ∧ l.length = p.proof.length ∧ ∀ j < p.proof.length, (l.getD j false = true ↔ Offered E p len ref j) := by
  obtain ⟨len, hL, hlen⟩ := lens_forest hA hr.proof
  have hpos : 1 ≤ p.proof.length := by
    cases f with
    | nil => cases hc
    | snoc l x ch => rw [hr.proof]; simp [AF.flat]; omega
  obtain ⟨r, r1, r2⟩ := indep_val hL ref (p.proof.length + 1) ((p.proof.length : Int) - 2) (fun _ => false) (by omega) (by omega) (by omega) (by
    intro j
    constructor
    · intro h; cases h
    · rintro ⟨h1, h2, _⟩; omega)
  have hK := known_val hA hc hr
  have hstep : ∀ j < p.proof.length, ∃ (c : Cx) (x : Node) (ch : AF), f = c.plug x ch ∧ j = c.pre.length + ch.flat.length ∧ p.proof.getD j 0 = x.stmt ∧ p.target.getD j [] = x.tgt ∧ Shape E x ch.tgts := by
    intro j hj
    obtain ⟨c, x, ch, e, hi⟩ := locate f (i := j) (by rw [hr.proof] at hj; simpa using hj)
    refine ⟨c, x, ch, e, hi, ?_, ?_, (all_plug (e ▸ hA)).2⟩
    · rw [hr.proof, e, flat_plug, hi]; simp [List.getD_eq_getElem?_getD]
    · rw [hr.target, e, flat_plug, hi]; simp [List.getD_eq_getElem?_getD]
  obtain ⟨l, l1, l2, l3⟩ := recheckAll_val (E := E) (p := p) (r := r) (Q := fun j => (j + 1 < p.proof.length ∧ ¬ Has len ref j) ∧
      (p.proof.getD j 0 < 0 ∨ (E.stmt (p.proof.getD j 0).toNat).kind = .a ∨ (E.stmt (p.proof.getD j 0).toNat).kind = .p) ∧ ∀ t ∈ p.target.getD j [], t ≤ E.sep) p.proof.length 0 (by
    intro j _ hj
    have hj : j < p.proof.length := by omega
    obtain ⟨c, x, ch, e, hi, e1, e2, hS⟩ := hstep j hj
    have ht : getF p.target (j : Int) = .val x.tgt := by rw [hi]; exact target_at (e ▸ hr)
    have hne : x.tgt ≠ [] := hF _ (by rw [hr.target, e, flat_plug]; simp)
    have hrd : rdN p.proof (j : Int) = .val x.stmt := by
      unfold rdN
      rw [if_neg (by omega), if_pos (by omega), Int.toNat_natCast, e1]
    rw [e1, e2]
    unfold recheck
    by_cases c1 : r j = false
    · rw [if_pos c1]
      refine ⟨false, rfl, ?_⟩
      rw [← r2 j, c1]; simp
    have c1' : r j = true := by simpa using c1
    have hq := (r2 j).mp c1'
    rw [if_neg c1, hrd, Out.bind_val]
    have hany : ((!x.tgt.any fun t => decide (E.sep < t)) = true) ↔ ∀ t ∈ x.tgt, t ≤ E.sep := by
      rw [Bool.not_eq_true', List.any_eq_false]
      constructor
      · intro h t ht; have := h t ht; simpa using this
      · intro h t ht; have := h t ht; simpa using this
    rcases hS.cases with ⟨g1, g2⟩ | ⟨g0, g1, g2⟩ | ⟨g0, g1, g2⟩
    · rw [if_pos (by rw [g1]; unfold unk; omega), if_pos g1, Out.bind_val, if_neg (by simp), ht, Out.bind_val, if_neg hne]
      refine ⟨_, rfl, ?_⟩
      rw [hany]
      exact ⟨fun h => ⟨hq, Or.inl (by rw [g1]; unfold unk; omega), h⟩, fun h => h.2.2⟩
    · rw [if_neg (by omega), if_pos g1, Out.bind_val, if_pos rfl]
      refine ⟨false, rfl, ?_⟩
      constructor
      · intro h; cases h
      · rintro ⟨_, h | h, _⟩
        · omega
        · exfalso
          rcases g1 with g | g <;> rw [g] at h <;> rcases h with h | h <;> cases h
    · rw [if_neg (by omega), if_neg (by rcases g1 with g | g <;> rw [g] <;> simp), if_neg (by rintro ⟨q1, q2⟩; rcases g1 with g | g; exact q2 g; exact q1 g), Out.bind_val, if_neg (by simp), ht,
        Out.bind_val, if_neg hne]
      refine ⟨_, rfl, ?_⟩
      rw [hany]
      exact ⟨fun h => ⟨hq, Or.inr g1, h⟩, fun h => h.2.2⟩)
  have hfl : (flags f).length = p.proof.length := by rw [flags_length, hr.proof, List.length_map]
  refine ⟨len, l.zipWith (fun a b => a && b) (flags f), hL, ?_, by rw [List.length_zipWith, l2, hfl]; simp, fun j hj => ?_⟩
  · unfold getIndepKnownSteps
    rw [r1, Out.bind_val, l1, Out.bind_val, hK, Out.bind_val]
  obtain ⟨c, x, ch, e, hi, e1, e2, hS⟩ := hstep j hj
  have hz : (l.zipWith (fun a b => a && b) (flags f)).getD j false = (l.getD j false && (flags f).getD j false) := by
    rw [List.getD_eq_getElem _ _ (by rw [List.length_zipWith]; omega), List.getD_eq_getElem _ _ (by omega), List.getD_eq_getElem _ _ (by omega), List.getElem_zipWith]
  have hfa : (flags f).getD j false = kt x ch := by rw [hi, e]; exact flag_at c x ch
  have hseg : (p.proof.take (j + 1)).drop (j + 1 - len j) = ch.flat.map Node.stmt ++ [x.stmt] := by
    have hlj : len j = ch.flat.length + 1 := by rw [hi]; exact hlen c x ch e
    rw [hlj, hr.proof, e, flat_plug, show j + 1 - (ch.flat.length + 1) = c.pre.length by omega]
    have e4 : (c.pre ++ ch.flat ++ [x] ++ c.post).map Node.stmt = (c.pre.map Node.stmt ++ (ch.flat.map Node.stmt ++ [x.stmt])) ++ c.post.map Node.stmt := by simp
    rw [e4, List.take_left' (by simp; omega), List.drop_left' (by simp)]
  have hkt : kt x ch = true ↔ unk ∉ (p.proof.take (j + 1)).drop (j + 1 - len j) := by
    rw [hseg]
    unfold kt kn
    rw [Bool.and_eq_true, List.all_eq_true, decide_eq_true_eq]
    constructor
    · rintro ⟨h1, h2⟩ h
      rcases List.mem_append.mp h with h | h
      · obtain ⟨y, hy, e⟩ := List.mem_map.mp h
        have := h1 y hy
        rw [decide_eq_true_eq] at this
        exact this e
      · exact h2 (List.mem_singleton.mp h).symm
    · intro h
      exact ⟨fun y hy => decide_eq_true fun e => h (List.mem_append_left _ (List.mem_map.mpr ⟨y, hy, e⟩)), fun e => h (List.mem_append_right _ (List.mem_singleton.mpr e.symm))⟩
  rw [hz, Bool.and_eq_true, hfa, l3 j hj, Nat.zero_add, hkt]
  unfold Offered
  constructor
  · rintro ⟨⟨⟨h1, h2⟩, h3, h4⟩, h5⟩
    have hx : x.stmt ≠ unk := by
      rw [hseg] at h5
      exact fun e => h5 (List.mem_append_right _ (List.mem_singleton.mpr e.symm))
    rw [e1] at h3 ⊢
    rcases hS.cases with ⟨g1, g2⟩ | ⟨g0, g1, g2⟩ | ⟨g0, g1, g2⟩
    · exact absurd g1 hx
    · rcases h3 with h3 | h3
      · omega
      · exfalso
        rcases g1 with g | g <;> rw [g] at h3 <;> rcases h3 with h | h <;> cases h
    · exact ⟨h1, h2, by omega, g1, h4, h5⟩
  · rintro ⟨h1, h2, h3, h4, h5, h6⟩
    exact ⟨⟨⟨h1, h2⟩, Or.inr h4, h5⟩, h6⟩

end MM.Byrep
