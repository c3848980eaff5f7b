import Verif.Expd.Forest

/-!
# `expandProof` ends and replaces all uses
-/
namespace MM.Expd
open MM.Veri MM.Proof MM.Data MM.Tree MM.Pfas Forest Ctx

variable {E : Env} {α : Type} {s : Nat} {src : List Int}

/-- What is needed of the source proof (without references): it is a tree, does not use `s`, and its `$e` steps are hypotheses of `s`. -/
structure SrcOk (E : Env) (s : Nat) (src : List Int) : Prop where
  normal : NormalProof E src
  free : (s : Int) ∉ src
  hyps : ∀ y ∈ src, 0 ≤ y → (E.stmt y.toNat).kind = .e → y.toNat ∈ (E.stmt s).reqHyp

theorem stmtAt_of {x : Int} (h : StepOk E x) (h0 : 0 ≤ x) : stmtAt E x = .val (E.stmt x.toNat) := by
  unfold stmtAt
  rcases h with h | h | h
  · rw [h] at h0; exact absurd h0 (by decide)
  · omega
  · rw [if_neg (by omega)]

theorem srcStep_ok {req : List Nat} {subs : List (List Int)} {x : Int} (hx : StepOk E x) (hr : -1000 < x) (he : 0 ≤ x → (E.stmt x.toNat).kind = .e → x.toNat ∈ req) :
    srcStep E req subs x = .val (graft1 E req subs x) := by
  unfold srcStep graft1
  by_cases h0 : x < 0
  · have hu : x = unk := by
      rcases hx with h | h | h
      · exact h
      · omega
      · omega
    rw [if_pos h0, if_pos hu, hu, isHyp_unk]
    rfl
  · rw [if_neg h0, stmtAt_of hx (by omega), Out.bind_val]
    by_cases hk : (E.stmt x.toNat).kind = .e ∨ (E.stmt x.toNat).kind = .f
    · rw [if_pos hk, if_pos (isHyp_iff.2 ⟨by omega, hk⟩)]
      by_cases hm : x.toNat ∈ req
      · rw [if_pos hm, if_pos hm]
      · rw [if_neg hm, if_neg hm, if_neg (fun h => hm (he (by omega) h))]
    · rw [if_neg hk, if_neg (fun h => hk (isHyp_iff.1 h).2), if_neg]
      rcases hx with h | h | ⟨_, _, h⟩
      · rw [h] at h0; exact absurd (by decide) h0
      · omega
      · rintro ⟨h1, h2⟩
        rcases h with h | h | h | h
        · exact hk (Or.inr h)
        · exact hk (Or.inl h)
        · exact h1 h
        · exact h2 h

theorem buildSub_ok {req : List Nat} {subs : List (List Int)} : ∀ {l : List Int}, (∀ x ∈ l, StepOk E x ∧ -1000 < x) →
    (∀ x ∈ l, 0 ≤ x → (E.stmt x.toNat).kind = .e → x.toNat ∈ req) → buildSub E req subs l = .val (graft E req subs l)
  | [], _, _ => rfl
  | x :: l, h1, h2 => by
    rw [buildSub, srcStep_ok (h1 x List.mem_cons_self).1 (h1 x List.mem_cons_self).2 (h2 x List.mem_cons_self), Out.bind_val,
      buildSub_ok (fun y hy => h1 y (List.mem_cons_of_mem _ hy)) (fun y hy => h2 y (List.mem_cons_of_mem _ hy)), Out.bind_val]
    rfl

theorem arity_ps (hs : 1 ≤ s) (hk : (E.stmt s).kind = .p) : arity E (s : Int) = (E.stmt s).reqHyp.length := by
  unfold arity
  rw [if_pos ⟨by omega, Or.inr hk⟩]
  rfl

theorem left_len (a b : List Int) {n : Int} (h : n = a.length) : nmbrLeft (a ++ b) n = .val a := by
  unfold nmbrLeft
  rw [if_pos (by rw [h]; simp)]
  rw [h]; simp

theorem right_len (a b : List Int) {n : Int} (h : n = a.length + 1) : nmbrRight (a ++ b) n = b := by
  unfold nmbrRight
  rw [show (max n 1 - 1).toNat = a.length by omega]
  simp

/-- One round of the loop: nothing to do, or the last use of `s` is replaced. -/
theorem expandOnce_ok (hs : 1 ≤ s) (hk : (E.stmt s).kind = .p) (hS : SrcOk E s src) {S : Forest} (hSf : S.flat = src) (hSw : S.Wf E) {f : Forest} (hw : f.Wf E) (hr : ∀ x ∈ f.flat, -1000 < x) :
    ∀ (k : Nat), k ≤ f.flat.length → (∀ y ∈ f.flat.drop k, y ≠ s) →
      (expandOnce E s src f.flat k = .val none ∧ (s : Int) ∉ f.flat) ∨
      ∃ c ch, f = Ctx.plug c (tree s ch) ∧ (∀ y ∈ c.post, y ≠ s) ∧ ch.count = (E.stmt s).reqHyp.length ∧
        expandOnce E s src f.flat k = .val (some (Ctx.plug c (graftF E (E.stmt s).reqHyp (kids ch) S)).flat)
  | 0, _, hd => Or.inl ⟨rfl, fun h => hd _ (by simpa using h) rfl⟩
  | k + 1, hle, hd => by
    obtain ⟨c, x, ch, hf, hi⟩ := locate f (i := k) (by omega)
    have hflat : f.flat = (c.pre ++ ch.flat) ++ x :: c.post := by rw [hf, plug_flat]; simp [tree, Forest.flat]
    have hrd : rdN f.flat (k : Int) = .val x := by
      rw [hflat, hi]
      have := rdN_append (c.pre ++ ch.flat) c.post x
      rwa [List.length_append] at this
    rw [expandOnce, hrd, Out.bind_val]
    have hdrop : f.flat.drop k = x :: c.post := by
      rw [hflat, hi]
      exact List.drop_left' (by rw [List.length_append])
    by_cases hx : x = s
    · subst hx
      right
      have hwt : (tree (s : Int) ch).Wf E := plug_wf_inv (c := c) (by rw [← hf]; exact hw)
      have hcnt : ch.count = (E.stmt s).reqHyp.length := by rw [← hwt.2.2.2, arity_ps hs hk]
      have hrch : ∀ y ∈ (tree (s : Int) ch).flat, -1000 < y := fun y hy => hr y (by rw [hf, plug_flat]; simp [hy])
      refine ⟨c, ch, hf, ?_, hcnt, ?_⟩
      · intro y hy
        have h2 : f.flat.drop (k + 1) = c.post := by
          rw [← List.tail_drop, hdrop]; rfl
        exact hd y (by rw [h2]; exact hy)
      rw [if_neg (by simp)]
      have hlen := subproofLen_tree (E := E) hwt hrch (proof := f.flat) (pre := c.pre) (post := c.post) (by rw [hf, plug_flat])
      rw [hi, hlen, Out.bind_val]
      have hh := hypSubs_forest (E := E) (f := ch) hwt.2.1 (fun y hy => hrch y (by simp [tree, Forest.flat, hy])) (proof := f.flat) (pre := c.pre) (post := (s : Int) :: c.post)
        (by rw [hflat]) 0 []
      rw [hcnt] at hh
      rw [hh, Out.bind_val, if_neg (by dsimp only; omega)]
      have hb := buildSub_ok (E := E) (req := (E.stmt s).reqHyp) (subs := blocks ch ++ []) (l := src)
        (fun y hy => ⟨wf_ok hSw y (by rw [hSf]; exact hy), by obtain ⟨_, _, _, _, h⟩ := hS.normal; exact h y hy⟩) hS.hyps
      dsimp only
      rw [hb, Out.bind_val, List.append_nil]
      have hL : nmbrLeft f.flat (((c.pre.length + ch.flat.length : Nat) : Int) + 1 - ((ch.flat.length : Int) + 1)) = .val c.pre := by
        rw [hflat, List.append_assoc]
        exact left_len _ _ (by omega)
      have hR : nmbrRight f.flat (((c.pre.length + ch.flat.length : Nat) : Int) + 1 + 1) = c.post := by
        have e : f.flat = (c.pre ++ ch.flat ++ [(s : Int)]) ++ c.post := by rw [hflat]; simp
        rw [e]
        exact right_len _ _ (by simp; omega)
      rw [hL, Out.bind_val, hR, plug_flat, graftF_flat hcnt hSw, hSf]
    · rw [if_pos hx]
      refine expandOnce_ok hs hk hS hSf hSw hw hr k (by omega) ?_
      rw [hdrop]
      intro y hy
      rcases List.mem_cons.1 hy with rfl | hy
      · exact hx
      · have h2 : f.flat.drop (k + 1) = c.post := by
          rw [← List.tail_drop, hdrop]; rfl
        exact hd y (by rw [h2]; exact hy)

/-! ### What stays the same -/

/-- The expanded proofs of the trees (as in the specification). -/
def algB (E : Env) (s : Nat) (src : List Int) (x : Int) (args : List (List Int)) : List Int :=
  if x = s then graft E (E.stmt s).reqHyp args.reverse src else args.reverse.flatten ++ [x]

theorem inlRun_forest : ∀ {f : Forest}, f.Wf E → ∀ (rest : List Int) (st : List (List Int)), inlRun E s src (f.flat ++ rest) st = inlRun E s src rest (ev (algB E s src) f ++ st)
  | nil, _, rest, st => rfl
  | snoc l x ch, h, rest, st => by
    have e : (snoc l x ch).flat ++ rest = l.flat ++ (ch.flat ++ (x :: rest)) := by simp [Forest.flat]
    rw [e, inlRun_forest h.1, inlRun_forest h.2.1, inlRun, inlStep]
    have hlen := ev_length (algB E s src) ch
    rw [if_pos (by rw [h.2.2.2, List.length_append, hlen]; omega)]
    dsimp only
    rw [Option.bind_some, h.2.2.2, ← hlen, List.take_left, List.drop_left]
    rfl

theorem ev_graft {vals : List (List Int)} {req : List Nat} (h0 : (s : Int) ≠ unk) : ∀ {f : Forest}, f.Wf E → (s : Int) ∉ f.flat →
    (ev (algG E req (algB E s src) [] vals) f).reverse.flatten = graft E req vals f.flat
  | nil, _, _ => rfl
  | snoc l y c, h, hn => by
    simp only [Forest.flat, List.mem_append, List.mem_singleton, not_or] at hn
    have hg : graft E req vals (snoc l y c).flat = graft E req vals l.flat ++ graft E req vals c.flat ++ graft1 E req vals y := by simp [graft, Forest.flat]
    rw [ev, List.reverse_cons, List.flatten_append, ev_graft h0 h.1 hn.1.1, hg, List.append_assoc]
    congr 1
    rw [List.flatten_singleton, algG, graft1]
    by_cases hy : isHyp E y = true
    · have hc : c = nil := count_zero (by rw [← h.2.2.2]; exact isHyp_arity hy)
      have hc2 : graft E req vals c.flat = [] := by rw [hc]; rfl
      rw [if_pos hy, if_pos hy, hc2, List.nil_append]
      by_cases hm : y.toNat ∈ req
      · rw [if_pos hm, if_pos hm]
      · rw [if_neg hm, if_neg hm, algB, if_neg (Ne.symm h0)]; rfl
    · rw [if_neg hy, if_neg hy, algB, if_neg (Ne.symm hn.2), ev_graft h0 h.2.1 hn.1.2]

theorem nat_ne_unk : ((s : Nat) : Int) ≠ unk := by unfold unk; omega

theorem ev_single {alg : Int → List α → α} {f : Forest} (h : f.count = 1) : ∃ v, ev alg f = [v] := List.length_eq_one_iff.1 (by rw [ev_length, h])

theorem algB_graft {S ch : Forest} (hSw : S.Wf E) (hSf : S.flat = src) (hS1 : S.count = 1) (hfree : (s : Int) ∉ src) (hcnt : ch.count = (E.stmt s).reqHyp.length) :
    ev (algB E s src) (graftF E (E.stmt s).reqHyp (kids ch) S) = ev (algB E s src) (tree s ch) := by
  rw [graftF_ev (algB E s src) [] (by rw [kids_length, hcnt]), kids_ev]
  obtain ⟨v, hv⟩ := ev_single (alg := algG E (E.stmt s).reqHyp (algB E s src) [] (ev (algB E s src) ch).reverse) hS1
  have := ev_graft (E := E) (s := s) (src := src) (vals := (ev (algB E s src) ch).reverse) (req := (E.stmt s).reqHyp) nat_ne_unk hSw (by rw [hSf]; exact hfree)
  rw [hv, hSf] at this
  rw [hv]
  simp only [List.reverse_cons, List.reverse_nil, List.nil_append, List.flatten_singleton] at this
  rw [this]
  simp [tree, ev, algB]

/-! ### The loop ends -/

/-- The number of rounds for a tree. -/
def algC (E : Env) (s : Nat) (src : List Int) (x : Int) (args : List Nat) : Nat :=
  if x = s then 1 + (src.map fun y => if isHyp E y then (if y.toNat ∈ (E.stmt s).reqHyp then args.reverse.getD ((E.stmt s).reqHyp.idxOf y.toNat) 0 else 0) else 0).sum else args.sum

def cost (E : Env) (s : Nat) (src : List Int) (f : Forest) : Nat := (ev (algC E s src) f).sum

theorem ev_cost {vals : List Nat} {req : List Nat} : ∀ {f : Forest}, f.Wf E → (s : Int) ∉ f.flat →
    (ev (algG E req (algC E s src) 0 vals) f).sum = (f.flat.map fun y => if isHyp E y then (if y.toNat ∈ req then vals.getD (req.idxOf y.toNat) 0 else 0) else 0).sum
  | nil, _, _ => rfl
  | snoc l y c, h, hn => by
    simp only [Forest.flat, List.mem_append, List.mem_singleton, not_or] at hn
    have e1 := ev_cost (vals := vals) (req := req) h.1 hn.1.1
    have e2 := ev_cost (vals := vals) (req := req) h.2.1 hn.1.2
    rw [ev, List.sum_cons, e1, Forest.flat, List.map_append, List.map_append, List.sum_append, List.sum_append, List.map_singleton, List.sum_singleton, ← e2, algG]
    by_cases hy : isHyp E y = true
    · have hc : c = nil := count_zero (by rw [← h.2.2.2]; exact isHyp_arity hy)
      have hc2 : (ev (algG E req (algC E s src) 0 vals) c).sum = 0 := by rw [hc]; rfl
      rw [if_pos hy, if_pos hy, hc2]
      by_cases hm : y.toNat ∈ req
      · rw [if_pos hm, if_pos hm]; omega
      · rw [if_neg hm, if_neg hm, algC, if_neg (Ne.symm nat_ne_unk)]
        simp
    · rw [if_neg hy, if_neg hy, algC, if_neg (Ne.symm hn.2)]
      omega

theorem cost_graft {S ch : Forest} (hSw : S.Wf E) (hSf : S.flat = src) (hfree : (s : Int) ∉ src) (hcnt : ch.count = (E.stmt s).reqHyp.length) :
    cost E s src (tree s ch) = cost E s src (graftF E (E.stmt s).reqHyp (kids ch) S) + 1 := by
  unfold cost
  rw [graftF_ev (algC E s src) 0 (by rw [kids_length, hcnt]), kids_ev, ev_cost hSw (by rw [hSf]; exact hfree), hSf]
  simp only [tree, ev, algC, if_pos, List.sum_cons, List.sum_nil]
  omega

theorem cost_plug {c : Ctx} (h : ∀ y ∈ c.post, y ≠ s) : ∃ K, ∀ g, cost E s src (c.plug g) = K + cost E s src g := by
  induction c with
  | top l => exact ⟨cost E s src l, fun g => by simp only [cost, plug, ev_app, List.sum_append]; omega⟩
  | right c x ch ih =>
    obtain ⟨K, hK⟩ := ih (fun y hy => h y (by simp [post, hy]))
    refine ⟨algC E s src x (ev (algC E s src) ch) + K, fun g => ?_⟩
    have := hK g
    simp only [cost] at this
    simp only [cost, plug, ev, List.sum_cons, this]
    omega
  | down l c x ih =>
    obtain ⟨K, hK⟩ := ih (fun y hy => h y (by simp [post, hy]))
    refine ⟨K + cost E s src l, fun g => ?_⟩
    have := hK g
    simp only [cost] at this
    have hx : x ≠ s := h x (by simp [post])
    simp only [cost, plug, ev, List.sum_cons, algC, if_neg hx, this]
    omega

theorem graft_mem {req : List Nat} {args : List (List Int)} {l : List Int} {x : Int} (h : x ∈ graft E req args l) : x = unk ∨ (x ∈ l ∧ isHyp E x = false) ∨ ∃ a ∈ args, x ∈ a := by
  obtain ⟨y, hy, hx⟩ := List.mem_flatMap.1 h
  unfold graft1 at hx
  by_cases h1 : isHyp E y = true
  · rw [if_pos h1] at hx
    split at hx
    · by_cases h2 : req.idxOf y.toNat < args.length
      · rw [List.getD_eq_getElem _ _ h2] at hx
        exact Or.inr (Or.inr ⟨_, List.getElem_mem h2, hx⟩)
      · rw [List.getD_eq_default _ _ (by omega)] at hx; simp at hx
    · exact Or.inl (by simpa using hx)
  · rw [if_neg h1] at hx
    simp at hx
    subst hx
    exact Or.inr (Or.inl ⟨hy, by simpa using h1⟩)

/-- The steps after a round: those before, unknown steps, and assertions of the source proof. -/
theorem round_mem {c : Ctx} {ch S : Forest} (hcnt : ch.count = (E.stmt s).reqHyp.length) (hSw : S.Wf E) {x : Int} (h : x ∈ (c.plug (graftF E (E.stmt s).reqHyp (kids ch) S)).flat) :
    x ∈ (c.plug (tree s ch)).flat ∨ x = unk ∨ (x ∈ S.flat ∧ isHyp E x = false) := by
  rw [plug_flat, graftF_flat hcnt hSw] at h
  rw [plug_flat]
  simp only [List.mem_append] at h ⊢
  rcases h with (h | h) | h
  · exact Or.inl (Or.inl (Or.inl h))
  · rcases graft_mem h with h | h | ⟨a, ha, hx⟩
    · exact Or.inr (Or.inl h)
    · exact Or.inr (Or.inr h)
    · left; left; right
      have : x ∈ (blocks ch).flatten := List.mem_flatten.2 ⟨a, ha, hx⟩
      rw [blocks_flatten] at this
      simp [tree, Forest.flat, this]
  · exact Or.inl (Or.inr h)

/-- The loop ends, with a proof that does not use `s` and has the same expansion. -/
theorem expandLoop_ok (hs : 1 ≤ s) (hk : (E.stmt s).kind = .p) (hS : SrcOk E s src) : ∀ (n : Nat) {f : Forest}, f.Wf E → f.count = 1 → (∀ x ∈ f.flat, -1000 < x) → cost E s src f < n →
    ∃ g : Forest, expandLoop E s src n f.flat = .val g.flat ∧ g.Wf E ∧ g.count = 1 ∧ (s : Int) ∉ g.flat ∧ ev (algB E s src) g = ev (algB E s src) f ∧
      ∀ x ∈ g.flat, x ∈ f.flat ∨ x = unk ∨ (x ∈ src ∧ isHyp E x = false)
  | 0, _, _, _, _, h => absurd h (Nat.not_lt_zero _)
  | n + 1, f, hw, h1, hr, hc => by
    obtain ⟨y, cy, hSw, hSf, hSr⟩ := hS.normal
    have h := expandOnce_ok hs hk hS hSf hSw hw hr f.flat.length (Nat.le_refl _) (by simp)
    rw [expandLoop]
    rcases h with ⟨h, hn⟩ | ⟨c, ch, hf, hpost, hcnt, h⟩
    · rw [h, Out.bind_val]
      exact ⟨f, rfl, hw, h1, hn, rfl, fun x hx => Or.inl hx⟩
    · rw [h, Out.bind_val]
      have e : (if (some (Ctx.plug c (graftF E (E.stmt s).reqHyp (kids ch) (tree y cy))).flat).isSome = true then
          expandLoop E s src n ((some (Ctx.plug c (graftF E (E.stmt s).reqHyp (kids ch) (tree y cy))).flat).getD []) else .val f.flat) =
          expandLoop E s src n (Ctx.plug c (graftF E (E.stmt s).reqHyp (kids ch) (tree y cy))).flat := rfl
      rw [e]
      have hwt : (tree (s : Int) ch).Wf E := plug_wf_inv (c := c) (by rw [← hf]; exact hw)
      have hgw := graftF_wf (E := E) (req := (E.stmt s).reqHyp) (ks := kids ch) (by rw [kids_length, hcnt]) (kids_wf hwt.2.1) hSw
      have hgc : (graftF E (E.stmt s).reqHyp (kids ch) (tree y cy)).count = (tree (s : Int) ch).count := by rw [graftF_count]; rfl
      obtain ⟨K, hK⟩ := cost_plug (E := E) (src := src) hpost
      have hcost := cost_graft (E := E) (s := s) (src := src) (ch := ch) hSw hSf hS.free hcnt
      have hmem : ∀ x ∈ (Ctx.plug c (graftF E (E.stmt s).reqHyp (kids ch) (tree y cy))).flat, x ∈ f.flat ∨ x = unk ∨ (x ∈ src ∧ isHyp E x = false) := by
        intro x hx
        rw [hf, ← hSf]
        exact round_mem hcnt hSw hx
      obtain ⟨g, g1, g2, g3, g4, g5, g6⟩ := expandLoop_ok hs hk hS n (f := Ctx.plug c (graftF E (E.stmt s).reqHyp (kids ch) (tree y cy)))
        (plug_wf hgc hgw (by rw [← hf]; exact hw)) (by rw [plug_count hgc, ← hf, h1])
        (by
          intro x hx
          rcases hmem x hx with h | h | ⟨h, _⟩
          · exact hr x h
          · rw [h]; decide
          · exact hSr x h)
        (by
          have := hK (graftF E (E.stmt s).reqHyp (kids ch) (tree y cy))
          have h3 := hK (tree s ch)
          rw [← hf] at h3
          omega)
      refine ⟨g, g1, g2, g3, g4, ?_, ?_⟩
      · rw [g5, plug_ev (algB E s src) (algB_graft hSw hSf rfl hS.free hcnt) c, ← hf]
      · intro x hx
        rcases g6 x hx with h | h
        · exact hmem x h
        · exact Or.inr h

/-- Without uses of `s` a proof is its own expansion. -/
theorem ev_free : ∀ {f : Forest}, (s : Int) ∉ f.flat → (ev (algB E s src) f).reverse.flatten = f.flat
  | nil, _ => rfl
  | snoc l x ch, h => by
    simp only [Forest.flat, List.mem_append, List.mem_singleton, not_or] at h
    rw [ev, List.reverse_cons, List.flatten_append, ev_free h.1.1, algB, if_neg (Ne.symm h.2), ev_free h.1.2]
    simp [Forest.flat]

theorem inlines_of {f g : Forest} (hw : f.Wf E) (hg1 : g.count = 1) (hn : (s : Int) ∉ g.flat) (he : ev (algB E s src) g = ev (algB E s src) f) : Inlines E s src f.flat g.flat := by
  unfold Inlines
  have := inlRun_forest (E := E) (s := s) (src := src) hw [] []
  rw [List.append_nil, List.append_nil, inlRun] at this
  rw [this, ← he]
  obtain ⟨v, hv⟩ := ev_single (alg := algB E s src) hg1
  have h2 := ev_free (E := E) (src := src) hn
  rw [hv] at h2 ⊢
  simp at h2
  rw [h2]

end MM.Expd
