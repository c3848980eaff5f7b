import Verif.Expd.Model
import Verif.Expd.Spec
import Verif.Pfas.Forest
import Verif.Tree.Expand
import Mathlib.Data.List.GetD

/-!
# Proof trees with the uses of a theorem replaced
-/
namespace MM.Expd
open MM.Veri MM.Proof MM.Data MM.Tree MM.Pfas Forest

variable {E : Env} {α : Type} {s : Nat} {src : List Int}

/-! ### Evaluating trees -/

/-- The values of the trees, last one first. -/
def ev (alg : Int → List α → α) : Forest → List α
  | nil => []
  | snoc l x ch => alg x (ev alg ch) :: ev alg l

theorem ev_length (alg : Int → List α → α) : ∀ f, (ev alg f).length = f.count
  | nil => rfl
  | snoc l x ch => by simp [ev, count, ev_length alg l]

theorem ev_app (alg : Int → List α → α) (l : Forest) : ∀ r, ev alg (app l r) = ev alg r ++ ev alg l
  | nil => rfl
  | snoc r x ch => by simp [app, ev, ev_app alg l r]

theorem app_count (l : Forest) : ∀ r, (app l r).count = l.count + r.count
  | nil => rfl
  | snoc r x ch => by simp only [app, count, app_count l r]; omega

/-! ### Trees with a hole -/

/-- A list of trees with a hole for trees. -/
inductive Ctx where
  | top (l : Forest)
  | right (c : Ctx) (x : Int) (ch : Forest)
  | down (l : Forest) (c : Ctx) (x : Int)

namespace Ctx

def plug : Ctx → Forest → Forest
  | top l, g => app l g
  | right c x ch, g => snoc (plug c g) x ch
  | down l c x, g => snoc l x (plug c g)

def pre : Ctx → List Int
  | top l => l.flat
  | right c _ _ => pre c
  | down l c _ => l.flat ++ pre c

def post : Ctx → List Int
  | top _ => []
  | right c x ch => post c ++ ch.flat ++ [x]
  | down _ c x => post c ++ [x]

end Ctx
open Ctx

theorem plug_flat (g : Forest) : ∀ c : Ctx, (c.plug g).flat = c.pre ++ g.flat ++ c.post
  | top l => by simp [plug, pre, post, app_flat]
  | right c x ch => by simp [plug, pre, post, Forest.flat, plug_flat g c]
  | down l c x => by simp [plug, pre, post, Forest.flat, plug_flat g c]

theorem plug_count {g h : Forest} (e : h.count = g.count) : ∀ c : Ctx, (c.plug h).count = (c.plug g).count
  | top l => by simp only [plug, app_count, e]
  | right c x ch => by simp only [plug, count, plug_count e c]
  | down l c x => by simp [plug, count]

theorem app_wf_inv {l : Forest} : ∀ {r : Forest}, (app l r).Wf E → l.Wf E ∧ r.Wf E
  | nil, h => ⟨h, trivial⟩
  | snoc _ _ _, h => ⟨(app_wf_inv h.1).1, (app_wf_inv h.1).2, h.2⟩

theorem plug_wf_inv {g : Forest} : ∀ {c : Ctx}, (c.plug g).Wf E → g.Wf E
  | top _, h => (app_wf_inv h).2
  | right _ _ _, h => plug_wf_inv h.1
  | down _ _ _, h => plug_wf_inv h.2.1

theorem plug_wf {g h : Forest} (e : h.count = g.count) (hh : h.Wf E) : ∀ {c : Ctx}, (c.plug g).Wf E → (c.plug h).Wf E
  | top _, hw => app_wf (app_wf_inv hw).1 hh
  | right _ _ _, hw => ⟨plug_wf e hh hw.1, hw.2⟩
  | down l c x, hw => ⟨hw.1, plug_wf e hh hw.2.1, hw.2.2.1, by rw [hw.2.2.2]; exact (plug_count e c).symm⟩

theorem plug_ev (alg : Int → List α → α) {g h : Forest} (e : ev alg h = ev alg g) : ∀ c : Ctx, ev alg (c.plug h) = ev alg (c.plug g)
  | top l => by simp only [plug, ev_app, e]
  | right c x ch => by simp only [plug, ev, plug_ev alg e c]
  | down l c x => by simp only [plug, ev, plug_ev alg e c]

theorem locate : ∀ (f : Forest) {i : Nat}, i < f.flat.length → ∃ c x ch, f = Ctx.plug c (tree x ch) ∧ i = c.pre.length + ch.flat.length
  | nil, i, h => by simp [Forest.flat] at h
  | snoc l x ch, i, h => by
    by_cases h1 : i < l.flat.length
    · obtain ⟨c, y, g, e, hi⟩ := locate l h1
      exact ⟨right c x ch, y, g, by rw [plug, ← e], hi⟩
    · by_cases h2 : i - l.flat.length < ch.flat.length
      · obtain ⟨c, y, g, e, hi⟩ := locate ch h2
        exact ⟨down l c x, y, g, by rw [plug, ← e], by simp only [pre, List.length_append]; omega⟩
      · refine ⟨top l, x, ch, rfl, ?_⟩
        simp only [Forest.flat, List.length_append, List.length_singleton] at h
        simp only [pre]
        omega

/-! ### `subproofLen` -/

def toAF : Forest → AF
  | nil => .nil
  | snoc l x ch => .snoc (toAF l) ⟨x, [], [], []⟩ (toAF ch)

theorem toAF_flat : ∀ f, (toAF f).flat.map Node.stmt = f.flat
  | nil => rfl
  | snoc l x ch => by simp [toAF, AF.flat, Forest.flat, toAF_flat l, toAF_flat ch]

theorem toAF_len (f : Forest) : (toAF f).flat.length = f.flat.length := by rw [← toAF_flat f, List.length_map]

theorem toAF_count : ∀ f, (toAF f).count = f.count
  | nil => rfl
  | snoc l x ch => by simp [toAF, AF.count, count, toAF_count l]

theorem toAF_shape : ∀ {f : Forest}, f.Wf E → (∀ x ∈ f.flat, -1000 < x) → AF.All (Shape E) (toAF f)
  | nil, _, _ => trivial
  | snoc l x ch, h, hr => ⟨toAF_shape h.1 (fun y hy => hr y (by simp [Forest.flat, hy])), toAF_shape h.2.1 (fun y hy => hr y (by simp [Forest.flat, hy])),
      h.2.2.1, by rw [tgts_length, toAF_count]; exact h.2.2.2, hr x (by simp [Forest.flat])⟩

theorem subproofLen_tree {x : Int} {ch : Forest} (hw : (tree x ch).Wf E) (hr : ∀ y ∈ (tree x ch).flat, -1000 < y) {proof pre post : List Int}
    (hp : proof = pre ++ (tree x ch).flat ++ post) : subproofLen E proof ((pre.length + ch.flat.length : Nat) : Int) = .val ((ch.flat.length : Int) + 1) := by
  have h := toAF_shape hw hr
  have := subproofLen_at (E := E) (x := ⟨x, [], [], []⟩) (f := toAF ch) h.2.1 h.2.2 (proof := proof) (pre := pre) (post := post)
    (by rw [hp, toAF_flat]; simp [tree, Forest.flat])
  rwa [toAF_len] at this

/-! ### The proofs of the hypotheses -/

/-- The steps of each tree. -/
def blocks : Forest → List (List Int)
  | nil => []
  | snoc l x ch => blocks l ++ [ch.flat ++ [x]]

theorem blocks_length : ∀ f, (blocks f).length = f.count
  | nil => rfl
  | snoc l x ch => by simp [blocks, count, blocks_length l]

theorem blocks_flatten : ∀ f, (blocks f).flatten = f.flat
  | nil => rfl
  | snoc l x ch => by simp [blocks, Forest.flat, blocks_flatten l]

theorem nmbrMid_at {a b c : List Int} {st len : Int} (h1 : st = a.length + 1) (h2 : len = b.length) : nmbrMid (a ++ b ++ c) st len = .val b := by
  unfold nmbrMid
  have e : (max st 1 - 1).toNat = a.length := by omega
  have e2 : len.toNat = b.length := by omega
  simp only [e, e2]
  rw [if_pos (by simp only [List.length_append]; omega)]
  simp

theorem hypSubs_forest : ∀ {f : Forest} (_ : f.Wf E) (_ : ∀ x ∈ f.flat, -1000 < x) {proof pre post : List Int} (_ : proof = pre ++ f.flat ++ post) (total : Int) (acc : List (List Int)),
    hypSubs E proof f.count (((pre.length + f.flat.length : Nat) : Int) - 1) total acc = .val (blocks f ++ acc, total + f.flat.length)
  | nil, _, _, proof, pre, post, _, total, acc => by simp [hypSubs, count, blocks, Forest.flat]
  | snoc l x ch, hw, hr, proof, pre, post, hp, total, acc => by
    have hl : (snoc l x ch).flat.length = l.flat.length + ch.flat.length + 1 := by simp only [Forest.flat, List.length_append, List.length_singleton]
    have e1 : (((pre.length + (snoc l x ch).flat.length : Nat) : Int) - 1) = (((pre ++ l.flat).length + ch.flat.length : Nat) : Int) := by
      rw [hl, List.length_append]; omega
    have hp1 : proof = (pre ++ l.flat) ++ (tree x ch).flat ++ post := by rw [hp]; simp [tree, Forest.flat]
    have hrt : ∀ y ∈ (tree x ch).flat, -1000 < y := fun y hy => hr y (by simp only [tree, Forest.flat, List.nil_append] at hy; simp only [Forest.flat, List.append_assoc]; exact List.mem_append_right _ hy)
    have hs := subproofLen_tree (E := E) (x := x) (ch := ch) ⟨trivial, hw.2⟩ hrt hp1
    rw [count, hypSubs, e1, hs, Out.bind_val]
    have ht : (tree x ch).flat = ch.flat ++ [x] := by simp [tree, Forest.flat]
    have hm := nmbrMid_at (a := pre ++ l.flat) (b := (tree x ch).flat) (c := post) (st := (((pre ++ l.flat).length + ch.flat.length : Nat) : Int) + 1 - ((ch.flat.length : Int) + 1 - 1))
      (len := (ch.flat.length : Int) + 1) (by omega) (by rw [ht]; simp)
    rw [hp1, hm, Out.bind_val, ← hp1]
    have e2 : (((pre ++ l.flat).length + ch.flat.length : Nat) : Int) - ((ch.flat.length : Int) + 1) = ((pre.length + l.flat.length : Nat) : Int) - 1 := by
      rw [List.length_append]; omega
    rw [e2, hypSubs_forest hw.1 (fun y hy => hr y (by simp [Forest.flat, hy])) (proof := proof) (pre := pre) (post := ch.flat ++ [x] ++ post) (by rw [hp]; simp [Forest.flat])]
    congr 2
    · rw [ht]; simp [blocks]
    · rw [hl]; push_cast; omega

/-! ### Replacing hypotheses by proofs -/

/-- The trees of a list of trees. -/
def kids : Forest → List (Int × Forest)
  | nil => []
  | snoc l x ch => kids l ++ [(x, ch)]

theorem kids_length : ∀ f, (kids f).length = f.count
  | nil => rfl
  | snoc l x ch => by simp [kids, count, kids_length l]

theorem kids_ev (alg : Int → List α → α) : ∀ f, (kids f).map (fun k => alg k.1 (ev alg k.2)) = (ev alg f).reverse
  | nil => rfl
  | snoc l x ch => by simp [kids, ev, kids_ev alg l]

theorem kids_blocks : ∀ f, (kids f).map (fun k => k.2.flat ++ [k.1]) = blocks f
  | nil => rfl
  | snoc l x ch => by simp [kids, blocks, kids_blocks l]

theorem kids_wf : ∀ {f : Forest}, f.Wf E → ∀ k ∈ kids f, k.2.Wf E ∧ StepOk E k.1 ∧ arity E k.1 = k.2.count
  | nil, _, k, hk => by simp [kids] at hk
  | snoc l x ch, h, k, hk => by
    simp only [kids, List.mem_append, List.mem_singleton] at hk
    rcases hk with hk | rfl
    · exact kids_wf h.1 k hk
    · exact ⟨h.2.1, h.2.2.1, h.2.2.2⟩

/-- The trees of a proof with its hypotheses replaced by the trees `ks`. -/
def graftF (E : Env) (req : List Nat) (ks : List (Int × Forest)) : Forest → Forest
  | nil => nil
  | snoc l y c =>
    if isHyp E y then
      if y.toNat ∈ req then snoc (graftF E req ks l) (ks.getD (req.idxOf y.toNat) (unk, nil)).1 (ks.getD (req.idxOf y.toNat) (unk, nil)).2
      else snoc (graftF E req ks l) unk nil
    else snoc (graftF E req ks l) y (graftF E req ks c)

theorem isHyp_iff {y : Int} : isHyp E y = true ↔ 0 ≤ y ∧ ((E.stmt y.toNat).kind = .e ∨ (E.stmt y.toNat).kind = .f) := by
  simp [isHyp]

theorem isHyp_arity {y : Int} (h : isHyp E y = true) : arity E y = 0 := by
  obtain ⟨_, h2⟩ := isHyp_iff.1 h
  exact arity_hyp (Or.inr (by rcases h2 with h2 | h2 <;> simp [h2]))

theorem isHyp_unk : isHyp E unk = false := by simp [isHyp, unk]

theorem graftF_count (req : List Nat) (ks : List (Int × Forest)) : ∀ f, (graftF E req ks f).count = f.count
  | nil => rfl
  | snoc l y c => by
    rw [graftF]
    split
    · split <;> simp [count, graftF_count req ks l]
    · simp [count, graftF_count req ks l]

theorem getD_map {β γ : Type} (f : β → γ) (d : β) (d' : γ) {l : List β} {i : Nat} (h : i < l.length) : (l.map f).getD i d' = f (l.getD i d) := by
  rw [List.getD_eq_getElem _ _ (by simpa using h), List.getD_eq_getElem _ _ h]
  simp

theorem graftF_wf {req : List Nat} {ks : List (Int × Forest)} (hl : ks.length = req.length) (hk : ∀ k ∈ ks, k.2.Wf E ∧ StepOk E k.1 ∧ arity E k.1 = k.2.count) :
    ∀ {f : Forest}, f.Wf E → (graftF E req ks f).Wf E
  | nil, _ => trivial
  | snoc l y c, h => by
    rw [graftF]
    by_cases hy : isHyp E y = true
    · rw [if_pos hy]
      by_cases hm : y.toNat ∈ req
      · rw [if_pos hm]
        have hi : req.idxOf y.toNat < ks.length := by rw [hl]; exact List.idxOf_lt_length_iff.2 hm
        have := hk (ks.getD (req.idxOf y.toNat) (unk, nil)) (by rw [List.getD_eq_getElem _ _ hi]; exact List.getElem_mem hi)
        exact ⟨graftF_wf hl hk h.1, this⟩
      · rw [if_neg hm]
        exact ⟨graftF_wf hl hk h.1, trivial, Or.inl rfl, by simp [arity, unk, count]⟩
    · rw [if_neg hy]
      exact ⟨graftF_wf hl hk h.1, graftF_wf hl hk h.2.1, h.2.2.1, by rw [graftF_count]; exact h.2.2.2⟩

/-- Evaluation of the trees with replaced hypotheses. -/
def algG (E : Env) (req : List Nat) (alg : Int → List α → α) (d : α) (vals : List α) (y : Int) (args : List α) : α :=
  if isHyp E y then (if y.toNat ∈ req then vals.getD (req.idxOf y.toNat) d else alg unk []) else alg y args

theorem graftF_ev (alg : Int → List α → α) (d : α) {req : List Nat} {ks : List (Int × Forest)} (hl : ks.length = req.length) :
    ∀ (f : Forest), ev alg (graftF E req ks f) = ev (algG E req alg d (ks.map fun k => alg k.1 (ev alg k.2))) f
  | nil => rfl
  | snoc l y c => by
    rw [graftF, ev]
    by_cases hy : isHyp E y = true
    · rw [if_pos hy]
      by_cases hm : y.toNat ∈ req
      · rw [if_pos hm, ev, graftF_ev alg d hl l, algG, if_pos hy, if_pos hm]
        have hi : req.idxOf y.toNat < ks.length := by rw [hl]; exact List.idxOf_lt_length_iff.2 hm
        rw [getD_map _ (unk, nil) d hi]
      · rw [if_neg hm, ev, graftF_ev alg d hl l, algG, if_pos hy, if_neg hm]
        rfl
    · rw [if_neg hy, ev, graftF_ev alg d hl l, graftF_ev alg d hl c, algG, if_neg hy]

theorem graftF_flat {req : List Nat} {ch : Forest} (hl : ch.count = req.length) : ∀ {f : Forest}, f.Wf E → (graftF E req (kids ch) f).flat = graft E req (blocks ch) f.flat
  | nil, _ => rfl
  | snoc l y c, h => by
    have hg : graft E req (blocks ch) (snoc l y c).flat = graft E req (blocks ch) l.flat ++ graft E req (blocks ch) c.flat ++ graft1 E req (blocks ch) y := by
      simp [graft, Forest.flat]
    rw [hg, graftF]
    by_cases hy : isHyp E y = true
    · have hc : c = nil := count_zero (by rw [← h.2.2.2]; exact isHyp_arity hy)
      rw [if_pos hy]
      have hc2 : graft E req (blocks ch) c.flat = [] := by rw [hc]; rfl
      rw [hc2, List.append_nil]
      by_cases hm : y.toNat ∈ req
      · rw [if_pos hm, Forest.flat, graftF_flat hl h.1, graft1, if_pos hy, if_pos hm, List.append_assoc]
        have hi : req.idxOf y.toNat < (kids ch).length := by rw [kids_length, hl]; exact List.idxOf_lt_length_iff.2 hm
        rw [← kids_blocks, getD_map _ (unk, nil) [] hi]
      · rw [if_neg hm, Forest.flat, graftF_flat hl h.1, graft1, if_pos hy, if_neg hm]
        simp [Forest.flat]
    · rw [if_neg hy, Forest.flat, graftF_flat hl h.1, graftF_flat hl h.2.1, graft1, if_neg hy]

end MM.Expd
