import Verif.Tree.SubLen
/-!
# Indentation, essential steps and target hypotheses follow the proof tree (C34)
-/
namespace MM.Tree
open MM.Veri MM.Proof MM.Data Forest

variable {E : Env}

/-- Values for all steps of a forest: `g` for the roots (by tree number), `down` from a node to its subtrees. -/
def ann (down : Int → Int → Nat → Int) (g : Nat → Int) : Forest → List Int
  | nil => []
  | snoc l x ch => ann down g l ++ ann down (fun j => down (g (count l)) x j) ch ++ [g (count l)]

theorem ann_length (down : Int → Int → Nat → Int) : ∀ (f : Forest) (g : Nat → Int), (ann down g f).length = f.flat.length
  | nil, g => rfl
  | snoc l x ch, g => by simp [ann, flat, ann_length down l, ann_length down ch]

theorem ann_get (down : Int → Int → Nat → Int) {f : Forest} {j : Nat} {path : List (Int × Nat)} {pre : List Int} {x : Int} {ch : Forest}
    (h : Occurs f j path pre x ch) : ∀ g, (ann down g f)[pre.length + ch.flat.length]? = some (path.foldr (fun y a => down a y.1 y.2) (g j)) := by
  induction h with
  | here l x ch =>
    intro g
    have e : l.flat.length + ch.flat.length = (ann down g l ++ ann down (fun j => down (g (count l)) x j) ch).length := by simp [ann_length]
    rw [ann, e]; simp
  | left x ch h ih =>
    intro g
    rw [ann, List.append_assoc, List.getElem?_append_left (by rw [ann_length]; exact occurs_end h)]
    exact ih g
  | child l x h ih =>
    intro g
    have he := occurs_end h
    rw [ann, List.append_assoc, List.getElem?_append_right (by rw [ann_length, List.length_append]; omega),
      List.getElem?_append_left (by rw [ann_length, ann_length, List.length_append]; omega), ann_length]
    have := ih (fun j => down (g (count l)) x j)
    rw [List.length_append, show ∀ a b c : Nat, a + b + c - a = b + c by omega, this, List.foldr_append]
    rfl

theorem rep_split (a b : Nat) : List.replicate (a + b) (0 : Int) = List.replicate a 0 ++ List.replicate b 0 := List.replicate_add _ _ _

theorem blit_mid {U M W S : List Int} {off len : Int} (hm : M.length = S.length) (ho : off = U.length) (hl : len = S.length) :
    blit (U ++ (M ++ W)) off S len = .val (U ++ (S ++ W)) := by
  subst ho hl
  unfold blit
  rw [if_neg (by simp only [List.length_append]; omega)]
  simp only [Int.toNat_natCast, List.take_left, List.take_length]
  rw [← hm, ← List.append_assoc U M W, List.drop_left' (by simp)]
  simp

theorem spaceLast_succ (n : Nat) (v : Int) : spaceLast (n + 1) v = List.replicate n 0 ++ [v] := by
  unfold spaceLast
  rw [List.replicate_succ', Nat.add_sub_cancel, List.set_append_right _ _ (by simp)]
  simp

theorem seg_tree {A q r : List Int} {x : Int} {ch : Forest} {a b : Int} (hA : A = q ++ ch.flat ++ x :: r) (ha : a = (q.length : Int) + 1) (hb : b = (q.length : Int) + ch.flat.length + 1) :
    nmbrSeg A a b = .val (tree x ch).flat := by
  subst ha hb
  rw [hA]
  unfold nmbrSeg
  dsimp only
  have e1 : (max ((q.length : Int) + 1) 1 - 1).toNat = q.length := by omega
  have e2 : ((if (q.length : Int) + ch.flat.length + 1 < 1 then 0 else (q.length : Int) + ch.flat.length + 1) - max ((q.length : Int) + 1) 1 + 1).toNat = (ch.flat ++ [x]).length := by
    rw [if_neg (by omega), List.length_append, List.length_singleton]; omega
  rw [e1, e2, if_pos (by simp only [List.length_append, List.length_cons, List.length_nil]; omega)]
  simp only [List.append_assoc, List.drop_left, tree, flat, List.nil_append]
  rw [show ch.flat ++ x :: r = (ch.flat ++ [x]) ++ r by simp, List.take_left]

theorem tree_flat_length (x : Int) (ch : Forest) : (tree x ch).flat.length = ch.flat.length + 1 := by simp [tree, flat]

theorem rdN_last (x : Int) (ch : Forest) : rdN (tree x ch).flat (((tree x ch).flat.length : Int) - 1) = .val x := by
  have := rdN_append ch.flat [] x
  rw [tree_flat_length]
  simp only [tree, flat, List.nil_append]
  rw [← this]; congr 1; omega

/-! ### Indentation -/

def downI : Int → Int → Nat → Int := fun a _ _ => a + 1

theorem indentLoop_flat {A : List Int} {f : List Int → Out (List Int)} {lev : Int} : ∀ (F : Forest) (q r W : List Int), F.Wf E → A = q ++ F.flat ++ r →
    (∀ x ch, (tree x ch).Wf E → (tree x ch).flat.length ≤ F.flat.length → f (tree x ch).flat = .val (ann downI (fun _ => lev) (tree x ch))) →
    indentLoop E A f F.count ((q.length : Int) + F.flat.length - 1) (List.replicate (q.length + F.flat.length) 0 ++ W) =
      .val (List.replicate q.length 0 ++ (ann downI (fun _ => lev) F ++ W), (q.length : Int) - 1)
  | nil, q, r, W, _, _, _ => by simp [count, indentLoop, flat, ann]
  | snoc l x ch, q, r, W, hw, hA, hf => by
    obtain ⟨hl, hc, hx, ha⟩ := hw
    have hA' : A = (q ++ l.flat) ++ ch.flat ++ x :: r := by rw [hA]; simp [flat]
    have hT : (tree x ch).Wf E := ⟨trivial, hc, hx, ha⟩
    have hs := subLen_tree hT hA'
    have e1 : (q.length : Int) + (snoc l x ch).flat.length - 1 = ((q ++ l.flat).length : Int) + ch.flat.length := by
      rw [flat_snoc_length, List.length_append]; omega
    unfold count indentLoop
    rw [e1, hs, Out.bind_val, seg_tree hA' (by omega) (by omega), Out.bind_val,
      hf x ch hT (by rw [tree_flat_length, flat_snoc_length]; omega), Out.bind_val]
    rw [show q.length + (snoc l x ch).flat.length = (q.length + l.flat.length) + (ch.flat.length + 1) by rw [flat_snoc_length]; omega, rep_split, List.append_assoc,
      blit_mid (by rw [ann_length, tree_flat_length, List.length_replicate]) (by rw [List.length_replicate, List.length_append]; omega) (by rw [ann_length, tree_flat_length]; omega), Out.bind_val]
    have ih := indentLoop_flat (A := A) (f := f) (lev := lev) l q (ch.flat ++ x :: r) (ann downI (fun _ => lev) (tree x ch) ++ W) hl (by rw [hA]; simp [flat])
      (fun y c h1 h2 => hf y c h1 (by rw [flat_snoc_length]; omega))
    rw [show ((q ++ l.flat).length : Int) + ch.flat.length - (ch.flat.length + 1) = (q.length : Int) + l.flat.length - 1 by rw [List.length_append]; omega, ih]
    simp [ann, tree]

theorem indentF_tree : ∀ (n : Nat) (x : Int) (ch : Forest) (lev : Int), (tree x ch).Wf E → (tree x ch).flat.length < n →
    indentF E n (tree x ch).flat lev = .val (ann downI (fun _ => lev) (tree x ch))
  | 0, _, _, _, _, h => absurd h (Nat.not_lt_zero _)
  | n + 1, x, ch, lev, hw, hn => by
    obtain ⟨_, hc, hx, ha⟩ := hw
    unfold indentF
    rw [rdN_last, Out.bind_val]
    have hleaf : ch.count = 0 → (if (tree x ch).flat.length ≠ 1 then (Out.bug 1330 : Out (List Int)) else .val (spaceLast (tree x ch).flat.length lev)) = .val (ann downI (fun _ => lev) (tree x ch)) ∧
        (if (tree x ch).flat.length ≠ 1 then (Out.bug 1331 : Out (List Int)) else .val (spaceLast (tree x ch).flat.length lev)) = .val (ann downI (fun _ => lev) (tree x ch)) := by
      intro h; rw [count_zero h]; simp [tree, flat, ann, spaceLast]
    by_cases h0 : x < 0
    · rw [if_pos h0]
      exact (hleaf (ha.symm.trans (arity_hyp (Or.inl h0)))).1
    · rw [if_neg h0]
      have hle : x ≤ E.n := by
        rcases hx with hx | hx | hx
        · unfold unk at hx; omega
        · omega
        · exact hx.2.1
      unfold stmtAt
      rw [if_neg (by omega), Out.bind_val]
      by_cases hk : (E.stmt x.toNat).kind = .f ∨ (E.stmt x.toNat).kind = .e
      · rw [if_pos hk]
        exact (hleaf (ha.symm.trans (arity_hyp (Or.inr hk)))).2
      · obtain ⟨h1, _, h3, h4⟩ := arity_ap hx h0 hk
        rw [if_neg hk, if_neg (by rintro ⟨a, b⟩; rcases h3 with h3 | h3 <;> contradiction), ← h4, ha]
        have hl := indentLoop_flat (E := E) (A := (tree x ch).flat) (f := fun sub => indentF E n sub (lev + 1)) (lev := lev + 1) ch [] [x] [lev] hc (by simp [tree, flat])
          (fun y c h5 h6 => indentF_tree n y c (lev + 1) h5 (by rw [tree_flat_length] at hn; omega))
        rw [tree_flat_length, spaceLast_succ]
        rw [show (((ch.flat.length + 1 : Nat)) : Int) - 2 = (([] : List Int).length : Int) + ch.flat.length - 1 by simp; omega]
        simp only [List.length_nil, Nat.zero_add] at hl ⊢
        rw [hl]
        simp [ann, tree, downI]

/-- **C34** (indentation).  The indentation of every step is its depth in the proof tree. -/
theorem C34_indentation_is_depth {t : Int} {f : Forest} (hw : (tree t f).Wf E) : ∃ out, indentation E (tree t f).flat 0 = .val out ∧ out.length = (tree t f).flat.length ∧
    ∀ {j path pre x ch}, Occurs (tree t f) j path pre x ch → out[pre.length + ch.flat.length]? = some (path.length : Int) := by
  refine ⟨_, indentF_tree _ t f 0 hw (Nat.lt_succ_self _), ann_length _ _ _, fun h => ?_⟩
  rw [ann_get downI h]
  congr 1
  rename_i path _ _ _
  clear h
  induction path with
  | nil => rfl
  | cons y p ih => rw [List.foldr_cons, ih]; simp [downI]

/-! ### Essential steps -/

/-- The hypothesis of `y` in slot `k`. -/
def slotHyp (E : Env) (y : Int) (k : Nat) : Nat := (E.stmt y.toNat).reqHyp.getD k 0

def downE (E : Env) : Int → Int → Nat → Int := fun a y k => if (E.stmt (slotHyp E y k)).kind = .e then a else 0

theorem ann_zero {down : Int → Int → Nat → Int} (hd : ∀ y k, down 0 y k = 0) : ∀ (f : Forest) (g : Nat → Int), (∀ j, g j = 0) → ann down g f = List.replicate f.flat.length 0
  | nil, _, _ => rfl
  | snoc l x ch, g, hg => by
    rw [ann, ann_zero hd l g hg, ann_zero hd ch _ (by intro j; rw [hg]; exact hd _ _), hg, flat_snoc_length, rep_split, rep_split]; rfl

theorem ann_congr {down : Int → Int → Nat → Int} : ∀ (f : Forest) {g g' : Nat → Int}, (∀ j, j < f.count → g j = g' j) → ann down g f = ann down g' f
  | nil, _, _, _ => rfl
  | snoc l x ch, g, g', h => by
    have e : g (count l) = g' (count l) := h _ (by simp [count])
    rw [ann, ann, ann_congr l (g := g) (g' := g') (fun j hj => h j (by simp only [count]; omega)), e]

theorem stmtAt_ok {x : Int} (h : x ≤ E.n) : stmtAt E x = .val (E.stmt x.toNat) := by unfold stmtAt; rw [if_neg (by omega)]

theorem essLoop_flat {A : List Int} {f : List Int → Out (List Int)} : ∀ (F : Forest) (hs : List Nat) (q r W : List Int), F.Wf E → A = q ++ F.flat ++ r →
    hs.length = F.count → (∀ h ∈ hs, h ≤ E.n) →
    (∀ x ch, (tree x ch).Wf E → (tree x ch).flat.length ≤ F.flat.length → f (tree x ch).flat = .val (ann (downE E) (fun _ => 1) (tree x ch))) →
    essLoop E A f hs.reverse ((q.length : Int) + F.flat.length - 1) (List.replicate (q.length + F.flat.length) 0 ++ W) =
      .val (List.replicate q.length 0 ++ (ann (downE E) (fun j => if (E.stmt (hs.getD j 0)).kind = .e then 1 else 0) F ++ W), (q.length : Int) - 1)
  | nil, hs, q, r, W, _, _, hl, _, _ => by
    have : hs = [] := List.length_eq_zero_iff.1 hl
    subst this; simp [essLoop, flat, ann]
  | snoc l x ch, hs, q, r, W, hw, hA, hlen, hh, hf => by
    obtain ⟨hl, hc, hx, ha⟩ := hw
    have hA' : A = (q ++ l.flat) ++ ch.flat ++ x :: r := by rw [hA]; simp [flat]
    have hT : (tree x ch).Wf E := ⟨trivial, hc, hx, ha⟩
    have hs' := subLen_tree hT hA'
    rcases List.eq_nil_or_concat hs with rfl | ⟨hs0, h0, rfl⟩
    · simp [count] at hlen
    have hlen0 : hs0.length = l.count := by simpa [count] using hlen
    rw [List.concat_eq_append, List.reverse_append, List.reverse_singleton, List.singleton_append]
    have e1 : (q.length : Int) + (snoc l x ch).flat.length - 1 = ((q ++ l.flat).length : Int) + ch.flat.length := by
      rw [flat_snoc_length, List.length_append]; omega
    unfold essLoop
    rw [e1, hs', Out.bind_val, stmtAt_ok (by have := hh h0 (by simp); omega), Out.bind_val]
    rw [show q.length + (snoc l x ch).flat.length = (q.length + l.flat.length) + (ch.flat.length + 1) by rw [flat_snoc_length]; omega, rep_split, List.append_assoc]
    have hgd : (hs0 ++ [h0]).getD (count l) 0 = h0 := by rw [← hlen0]; simp [List.getD]
    have hcong : ann (downE E) (fun j => if (E.stmt ((hs0 ++ [h0]).getD j 0)).kind = .e then 1 else 0) l = ann (downE E) (fun j => if (E.stmt (hs0.getD j 0)).kind = .e then 1 else 0) l := by
      apply ann_congr
      intro j hj
      have : (hs0 ++ [h0]).getD j 0 = hs0.getD j 0 := by rw [List.getD_append _ _ _ _ (by omega)]
      simp only [this]
    have ih := fun W' => essLoop_flat (A := A) (f := f) l hs0 q (ch.flat ++ x :: r) W' hl (by rw [hA]; simp [flat]) hlen0 (fun h hm => hh h (by simp [hm]))
      (fun y c h1 h2 => hf y c h1 (by rw [flat_snoc_length]; omega))
    have e2 : ((q ++ l.flat).length : Int) + ch.flat.length - (ch.flat.length + 1) = (q.length : Int) + l.flat.length - 1 := by rw [List.length_append]; omega
    rw [Int.toNat_natCast]
    by_cases hk : (E.stmt h0).kind = .e
    · rw [if_pos hk, seg_tree hA' (by omega) (by omega), Out.bind_val,
        hf x ch hT (by rw [tree_flat_length, flat_snoc_length]; omega), Out.bind_val,
        blit_mid (by rw [ann_length, tree_flat_length, List.length_replicate]) (by rw [List.length_replicate, List.length_append]; omega) (by rw [ann_length, tree_flat_length]; omega), Out.bind_val,
        e2, ih]
      rw [ann, hcong, hgd, if_pos hk]
      simp [ann, tree]
    · rw [if_neg hk, e2, ih]
      rw [ann, hcong, hgd, if_neg hk, ann_zero (by intro y k; simp [downE]) ch _ (by intro j; simp [downE])]
      rw [rep_split]
      simp

/-- The hypotheses of assertions are statements of the database. -/
def HypsIn (E : Env) : Prop := ∀ i, (E.stmt i).kind = .a ∨ (E.stmt i).kind = .p → ∀ h ∈ (E.stmt i).reqHyp, h ≤ E.n

theorem essF_tree (hH : HypsIn E) : ∀ (n : Nat) (x : Int) (ch : Forest), (tree x ch).Wf E → (tree x ch).flat.length < n →
    essF E n (tree x ch).flat = .val (ann (downE E) (fun _ => 1) (tree x ch))
  | 0, _, _, _, h => absurd h (Nat.not_lt_zero _)
  | n + 1, x, ch, hw, hn => by
    obtain ⟨_, hc, hx, ha⟩ := hw
    unfold essF
    rw [rdN_last, if_neg (by rw [tree_flat_length]; omega), Out.bind_val]
    have hleaf : ch.count = 0 → (tree x ch).flat.length = 1 ∧ spaceLast (tree x ch).flat.length 1 = ann (downE E) (fun _ => 1) (tree x ch) := by
      intro h; rw [count_zero h]; simp [tree, flat, ann, spaceLast]
    by_cases h0 : x < 0
    · rw [if_pos h0]
      obtain ⟨h1, h2⟩ := hleaf (ha.symm.trans (arity_hyp (Or.inl h0)))
      rw [if_neg (by omega), h2, if_neg]
      rintro ⟨h3, h4⟩
      rcases hx with hx | hx | hx
      · exact h3 hx
      · omega
      · omega
    · rw [if_neg h0]
      have hle : x ≤ E.n := by
        rcases hx with hx | hx | hx
        · unfold unk at hx; omega
        · omega
        · exact hx.2.1
      rw [stmtAt_ok hle, Out.bind_val]
      by_cases hk : (E.stmt x.toNat).kind = .f ∨ (E.stmt x.toNat).kind = .e
      · rw [if_pos hk]
        obtain ⟨h1, h2⟩ := hleaf (ha.symm.trans (arity_hyp (Or.inr hk)))
        rw [if_neg (by omega), h2]
      · obtain ⟨h1, _, h3, h4⟩ := arity_ap hx h0 hk
        rw [if_neg hk, if_neg (by rintro ⟨a, b⟩; rcases h3 with h3 | h3 <;> contradiction)]
        have hl := essLoop_flat (E := E) (A := (tree x ch).flat) (f := fun sub => essF E n sub) ch (E.stmt x.toNat).reqHyp [] [x] [1] hc (by simp [tree, flat])
          (by rw [← ha, h4]) (hH _ h3)
          (fun y c h5 h6 => essF_tree hH n y c h5 (by rw [tree_flat_length] at hn; omega))
        rw [tree_flat_length, spaceLast_succ]
        rw [show (((ch.flat.length + 1 : Nat)) : Int) - 2 = (([] : List Int).length : Int) + ch.flat.length - 1 by simp; omega]
        simp only [List.length_nil, Nat.zero_add] at hl ⊢
        rw [hl]
        simp [ann, tree, downE, slotHyp]

/-- **C34** (essential steps).  The flag of a step is 1 if every ancestor is reached through a `$e` hypothesis, otherwise 0. -/
theorem C34_essential_iff {t : Int} {f : Forest} (hH : HypsIn E) (hw : (tree t f).Wf E) : ∃ out, essential E (tree t f).flat = .val out ∧ out.length = (tree t f).flat.length ∧
    ∀ {j path pre x ch}, Occurs (tree t f) j path pre x ch →
      (out[pre.length + ch.flat.length]? = some 1 ∧ ∀ y ∈ path, (E.stmt (slotHyp E y.1 y.2)).kind = .e) ∨
      (out[pre.length + ch.flat.length]? = some 0 ∧ ∃ y ∈ path, (E.stmt (slotHyp E y.1 y.2)).kind ≠ .e) := by
  refine ⟨_, essF_tree hH _ t f hw (Nat.lt_succ_self _), ann_length _ _ _, fun h => ?_⟩
  rw [ann_get (downE E) h]
  rename_i path _ _ _
  clear h
  induction path with
  | nil => left; simp
  | cons y p ih =>
    rw [List.foldr_cons]
    by_cases hk : (E.stmt (slotHyp E y.1 y.2)).kind = .e
    · rcases ih with ⟨h1, h2⟩ | ⟨h1, z, h2, h3⟩
      · left
        simp only [Option.some.injEq] at h1 ⊢
        rw [h1]
        exact ⟨by simp [downE, hk], by simpa [hk] using h2⟩
      · right
        simp only [Option.some.injEq] at h1 ⊢
        rw [h1]
        exact ⟨by simp [downE], z, by simp [h2], h3⟩
    · right; exact ⟨by simp [downE, hk], y, by simp, hk⟩

/-! ### Target hypotheses -/

def downT (E : Env) : Int → Int → Nat → Int := fun _ y k => (slotHyp E y k : Int)

theorem put_mid {U W : List Int} {v w : Int} {pos : Int} (h : pos = U.length) : put (U ++ v :: W) pos w = .val (U ++ w :: W) := by
  subst h
  unfold put
  rw [if_neg (by simp only [List.length_append, List.length_cons]; omega), Int.toNat_natCast]
  simp

theorem targLoop_flat {A : List Int} {f : List Int → Int → Out (List Int)} : ∀ (F : Forest) (hs : List Nat) (q r W : List Int), F.Wf E → A = q ++ F.flat ++ r →
    hs.length = F.count →
    (∀ x ch (h : Nat), (tree x ch).Wf E → 1 < (tree x ch).flat.length → (tree x ch).flat.length ≤ F.flat.length → f (tree x ch).flat h = .val (ann (downT E) (fun _ => h) (tree x ch))) →
    targLoop E A f hs.reverse ((q.length : Int) + F.flat.length - 1) (List.replicate (q.length + F.flat.length) 0 ++ W) =
      .val (List.replicate q.length 0 ++ (ann (downT E) (fun j => (hs.getD j 0 : Int)) F ++ W), (q.length : Int) - 1)
  | nil, hs, q, r, W, _, _, hl, _ => by
    have : hs = [] := List.length_eq_zero_iff.1 hl
    subst this; simp [targLoop, flat, ann]
  | snoc l x ch, hs, q, r, W, hw, hA, hlen, hf => by
    obtain ⟨hl, hc, hx, ha⟩ := hw
    have hA' : A = (q ++ l.flat) ++ ch.flat ++ x :: r := by rw [hA]; simp [flat]
    have hT : (tree x ch).Wf E := ⟨trivial, hc, hx, ha⟩
    have hs' := subLen_tree hT hA'
    rcases List.eq_nil_or_concat hs with rfl | ⟨hs0, h0, rfl⟩
    · simp [count] at hlen
    have hlen0 : hs0.length = l.count := by simpa [count] using hlen
    rw [List.concat_eq_append, List.reverse_append, List.reverse_singleton, List.singleton_append]
    have e1 : (q.length : Int) + (snoc l x ch).flat.length - 1 = ((q ++ l.flat).length : Int) + ch.flat.length := by
      rw [flat_snoc_length, List.length_append]; omega
    unfold targLoop
    rw [e1, hs', Out.bind_val]
    rw [show q.length + (snoc l x ch).flat.length = (q.length + l.flat.length) + (ch.flat.length + 1) by rw [flat_snoc_length]; omega, rep_split, List.append_assoc]
    have hgd : (hs0 ++ [h0]).getD (count l) 0 = h0 := by rw [← hlen0]; simp [List.getD]
    have hcong : ann (downT E) (fun j => ((hs0 ++ [h0]).getD j 0 : Int)) l = ann (downT E) (fun j => (hs0.getD j 0 : Int)) l := by
      apply ann_congr
      intro j hj
      have : (hs0 ++ [h0]).getD j 0 = hs0.getD j 0 := by rw [List.getD_append _ _ _ _ (by omega)]
      simp only [this]
    have ih := fun W' => targLoop_flat (A := A) (f := f) l hs0 q (ch.flat ++ x :: r) W' hl (by rw [hA]; simp [flat]) hlen0
      (fun y c h h1 h2 h3 => hf y c h h1 h2 (by rw [flat_snoc_length]; omega))
    have e2 : ((q ++ l.flat).length : Int) + ch.flat.length - (ch.flat.length + 1) = (q.length : Int) + l.flat.length - 1 := by rw [List.length_append]; omega
    by_cases hk : (ch.flat.length : Int) + 1 > 1
    · rw [if_pos hk, seg_tree hA' (by omega) (by omega), Out.bind_val,
        hf x ch h0 hT (by rw [tree_flat_length]; omega) (by rw [tree_flat_length, flat_snoc_length]; omega), Out.bind_val,
        blit_mid (by rw [ann_length, tree_flat_length, List.length_replicate]) (by rw [List.length_replicate, List.length_append]; omega) (by rw [ann_length, tree_flat_length]; omega), Out.bind_val,
        e2, ih]
      rw [ann, hcong, hgd]
      simp [ann, tree]
    · rw [if_neg hk]
      have hn : ch.flat = [] := List.length_eq_zero_iff.1 (by omega)
      have hcn : ch = nil := by
        cases ch with
        | nil => rfl
        | snoc _ _ _ => simp [flat] at hn
      subst hcn
      rw [show (nil.flat.length + 1) = 1 from rfl, List.replicate_one, List.singleton_append, put_mid (by rw [List.length_replicate, List.length_append]; simp [flat]), Out.bind_val, e2, ih]
      rw [ann, hcong, hgd]
      simp [ann]

theorem targInit_eq (n : Nat) (v : Int) : targInit (n + 1) v = List.replicate n 0 ++ [v] := by
  unfold targInit
  by_cases h : v = 0
  · subst h; simp [List.replicate_succ']
  · rw [if_pos h, spaceLast_succ]

theorem targF_tree : ∀ (n : Nat) (x : Int) (ch : Forest) (v : Int), (tree x ch).Wf E → -1000 < x → (tree x ch).flat.length < n →
    targF E n (tree x ch).flat v = .val (ann (downT E) (fun _ => v) (tree x ch))
  | 0, _, _, _, _, _, h => absurd h (Nat.not_lt_zero _)
  | n + 1, x, ch, v, hw, hr, hn => by
    obtain ⟨_, hc, hx, ha⟩ := hw
    unfold targF
    rw [rdN_last, Out.bind_val]
    have hleaf : ch.count = 0 → (tree x ch).flat.length = 1 ∧ targInit (tree x ch).flat.length v = ann (downT E) (fun _ => v) (tree x ch) := by
      intro h; rw [count_zero h, tree_flat_length, targInit_eq]; simp [tree, flat, ann]
    by_cases h0 : x < 0
    · rw [if_pos h0]
      obtain ⟨h1, h2⟩ := hleaf (ha.symm.trans (arity_hyp (Or.inl h0)))
      rw [if_neg (by omega), h2, if_neg]
      rcases hx with hx | hx | hx
      · simpa using hx
      · omega
      · omega
    · rw [if_neg h0]
      have hle : x ≤ E.n := by
        rcases hx with hx | hx | hx
        · unfold unk at hx; omega
        · omega
        · exact hx.2.1
      rw [stmtAt_ok hle, Out.bind_val]
      by_cases hk : (E.stmt x.toNat).kind = .f ∨ (E.stmt x.toNat).kind = .e
      · rw [if_pos hk]
        obtain ⟨h1, h2⟩ := hleaf (ha.symm.trans (arity_hyp (Or.inr hk)))
        rw [if_neg (by omega), h2]
      · obtain ⟨h1, _, h3, h4⟩ := arity_ap hx h0 hk
        rw [if_neg hk, if_neg (by rintro ⟨a, b⟩; rcases h3 with h3 | h3 <;> contradiction)]
        have hl := targLoop_flat (E := E) (A := (tree x ch).flat) (f := fun sub h => targF E n sub h) ch (E.stmt x.toNat).reqHyp [] [x] [v] hc (by simp [tree, flat])
          (by rw [← ha, h4])
          (fun y c h h5 h6 h7 => targF_tree n y c h h5 (by
            by_contra hneg
            have hcn := count_zero (h5.2.2.2.symm.trans (arity_hyp (E := E) (x := y) (Or.inl (by omega))))
            rw [hcn] at h6; simp [tree, flat] at h6) (by rw [tree_flat_length] at hn; omega))
        rw [tree_flat_length, targInit_eq]
        rw [show (((ch.flat.length + 1 : Nat)) : Int) - 2 = (([] : List Int).length : Int) + ch.flat.length - 1 by simp; omega]
        simp only [List.length_nil, Nat.zero_add] at hl ⊢
        rw [hl]
        simp [ann, tree, downT, slotHyp]

/-- **C34** (target hypotheses).  The target of the last step is the statement being proved, the target of any other step is the hypothesis of its parent in the
slot that the step fills.  (`-1000 < t`: the proof is not a mere reference.) -/
theorem C34_target_is_slot {t : Int} {f : Forest} (hw : (tree t f).Wf E) (hr : -1000 < t) (statemNum : Int) :
    ∃ out, targetHyp E (tree t f).flat statemNum = .val out ∧ out.length = (tree t f).flat.length ∧
    ∀ {j path pre x ch}, Occurs (tree t f) j path pre x ch →
      (path = [] ∧ out[pre.length + ch.flat.length]? = some statemNum) ∨
      (∃ y k rest, path = (y, k) :: rest ∧ out[pre.length + ch.flat.length]? = some (slotHyp E y k : Int)) := by
  refine ⟨_, targF_tree _ t f statemNum hw hr (Nat.lt_succ_self _), ann_length _ _ _, fun h => ?_⟩
  rw [ann_get (downT E) h]
  rename_i path _ _ _
  cases path with
  | nil => left; simp
  | cons y p => right; exact ⟨y.1, y.2, p, rfl, rfl⟩

end MM.Tree
