import Verif.Expl.Model
import Verif.Expl.Spec
import Verif.Pfas.Forest
import Mathlib.Data.List.Perm.Basic
import Mathlib.Data.List.GetD
/-!
# Blocks: subproofs whose steps carry their original numbers

`ρ` gives for the original number of a step the proof that the step stands for.
-/
namespace MM.Expl
open MM.Veri MM.Pars MM.Proof MM.Data MM.Tree MM.Pfas

variable {E : Env}

/-- A subproof with root `r`: each step is a pair of its original number and its code (references are to original numbers). -/
inductive Blk (E : Env) (ρ : List (List Int)) : List (Nat × Int) → Nat → Prop
  | ref (i : Nat) (x : Int) : x ≤ -1000 → ρ.getD i [] = ρ.getD (-1000 - x).toNat [] → Blk E ρ [(i, x)] i
  | node (i : Nat) (x : Int) (bs : List (List (Nat × Int) × Nat)) : -1000 < x → StepOk E x → bs.length = arity E x → (∀ b ∈ bs, Blk E ρ b.1 b.2) →
      ρ.getD i [] = (bs.map fun b => ρ.getD b.2 []).flatten ++ [x] → Blk E ρ ((bs.map Prod.fst).flatten ++ [(i, x)]) i

/-- The same as a check on a stack of proofs, one step. -/
def cstep (E : Env) (ρ : List (List Int)) (st : List (List Int)) (g : Nat × Int) : Option (List (List Int)) :=
  if g.2 ≤ -1000 then if ρ.getD g.1 [] = ρ.getD (-1000 - g.2).toNat [] then some (ρ.getD g.1 [] :: st) else none
  else if arity E g.2 ≤ st.length ∧ ρ.getD g.1 [] = (st.take (arity E g.2)).reverse.flatten ++ [g.2] then some (ρ.getD g.1 [] :: st.drop (arity E g.2)) else none

def crun (E : Env) (ρ : List (List Int)) : List (Nat × Int) → List (List Int) → Option (List (List Int))
  | [], st => some st
  | g :: gs, st => (cstep E ρ st g).bind (crun E ρ gs)

theorem crun_append (ρ : List (List Int)) : ∀ (a b : List (Nat × Int)) (st : List (List Int)), crun E ρ (a ++ b) st = (crun E ρ a st).bind (crun E ρ b)
  | [], b, st => rfl
  | g :: a, b, st => by
    show (cstep E ρ st g).bind (crun E ρ (a ++ b)) = ((cstep E ρ st g).bind (crun E ρ a)).bind (crun E ρ b)
    cases cstep E ρ st g with
    | none => rfl
    | some s => exact crun_append ρ a b s

theorem crun_one (ρ : List (List Int)) (g : Nat × Int) (st : List (List Int)) : crun E ρ [g] st = cstep E ρ st g := by
  show (cstep E ρ st g).bind _ = _
  cases cstep E ρ st g <;> rfl

theorem crun_blks {ρ : List (List Int)} : ∀ (bs : List (List (Nat × Int) × Nat)), (∀ b ∈ bs, ∀ st, crun E ρ b.1 st = some (ρ.getD b.2 [] :: st)) → ∀ st,
    crun E ρ (bs.map Prod.fst).flatten st = some ((bs.map fun b => ρ.getD b.2 []).reverse ++ st)
  | [], _, st => rfl
  | b :: bs, h, st => by
    show crun E ρ (b.1 ++ (bs.map Prod.fst).flatten) st = _
    rw [crun_append, h b (List.mem_cons_self ..), Option.bind_some, crun_blks bs (fun b hb => h b (List.mem_cons_of_mem _ hb))]
    simp

theorem blk_run {ρ : List (List Int)} {b : List (Nat × Int)} {r : Nat} (h : Blk E ρ b r) : ∀ st, crun E ρ b st = some (ρ.getD r [] :: st) := by
  induction h with
  | ref i x hx he =>
    intro st
    rw [crun_one]; unfold cstep
    dsimp only
    rw [if_pos hx, if_pos he]
  | node i x bs hx hok hl hb he ih =>
    intro st
    rw [crun_append, crun_blks bs ih, Option.bind_some, crun_one]
    unfold cstep
    dsimp only
    have h1 : ((bs.map fun b => ρ.getD b.2 []).reverse ++ st).take (arity E x) = (bs.map fun b => ρ.getD b.2 []).reverse := by
      rw [← hl]; apply List.take_left'; simp
    have h2 : ((bs.map fun b => ρ.getD b.2 []).reverse ++ st).drop (arity E x) = st := by
      rw [← hl]; apply List.drop_left'; simp
    rw [if_neg (by omega), h1, h2, if_pos]
    refine ⟨by rw [← hl]; simp, ?_⟩
    rw [List.reverse_reverse]; exact he

/-- A list of steps that passes the check is a sequence of blocks (the last one first). -/
theorem run_blks {ρ : List (List Int)} {L : List (Nat × Int)} : ∀ {st : List (List Int)}, (∀ g ∈ L, StepOk E g.2) → crun E ρ L [] = some st →
    ∃ bs : List (List (Nat × Int) × Nat), L = (bs.reverse.map Prod.fst).flatten ∧ (∀ b ∈ bs, Blk E ρ b.1 b.2) ∧ st = bs.map fun b => ρ.getD b.2 [] := by
  induction L using List.reverseRecOn with
  | nil => intro st _ h; cases h; exact ⟨[], rfl, by simp, rfl⟩
  | append_singleton L g ih =>
    intro st hok h
    rw [crun_append] at h
    cases h1 : crun E ρ L [] with
    | none => rw [h1] at h; cases h
    | some s =>
      rw [h1, Option.bind_some, crun_one] at h
      obtain ⟨bs, e1, e2, e3⟩ := ih (fun g hg => hok g (List.mem_append_left _ hg)) h1
      unfold cstep at h
      by_cases hx : g.2 ≤ -1000
      · rw [if_pos hx] at h
        by_cases hc : ρ.getD g.1 [] = ρ.getD (-1000 - g.2).toNat []
        · rw [if_pos hc] at h
          cases h
          refine ⟨([g], g.1) :: bs, by simp [e1], ?_, by simp [e3]⟩
          intro b hb
          rcases List.mem_cons.1 hb with rfl | hb
          · exact .ref g.1 g.2 hx hc
          · exact e2 b hb
        · rw [if_neg hc] at h; cases h
      · rw [if_neg hx] at h
        by_cases hc : arity E g.2 ≤ s.length ∧ ρ.getD g.1 [] = (s.take (arity E g.2)).reverse.flatten ++ [g.2]
        · rw [if_pos hc] at h
          cases h
          have hlen : s.length = bs.length := by rw [e3]; simp
          refine ⟨((((bs.take (arity E g.2)).reverse).map Prod.fst).flatten ++ [g], g.1) :: bs.drop (arity E g.2), ?_, ?_, ?_⟩
          · have e : bs.reverse = (bs.drop (arity E g.2)).reverse ++ (bs.take (arity E g.2)).reverse := by rw [← List.reverse_append, List.take_append_drop]
            rw [e1, e, List.reverse_cons, List.map_append, List.map_append, List.flatten_append, List.flatten_append, List.append_assoc]
            simp only [List.map_cons, List.map_nil, List.flatten_cons, List.flatten_nil, List.append_nil]
          · intro b hb
            rcases List.mem_cons.1 hb with rfl | hb
            · refine .node g.1 g.2 _ (by omega) (hok g (by simp)) ?_ ?_ ?_
              · rw [List.length_reverse, List.length_take]; omega
              · intro b hb; exact e2 b (List.mem_of_mem_take (List.mem_reverse.1 hb))
              · rw [hc.2, e3]
                simp [List.map_take]
            · exact e2 b (List.mem_of_mem_drop hb)
          · rw [e3]; simp [List.map_drop]
        · rw [if_neg hc] at h; cases h

/-- The root is the last step of the block. -/
theorem blk_last {ρ : List (List Int)} {b : List (Nat × Int)} {r : Nat} (h : Blk E ρ b r) : ∃ c x, b = c ++ [(r, x)] := by
  cases h with
  | ref i x => exact ⟨[], x, rfl⟩
  | node i x bs => exact ⟨_, x, rfl⟩

/-- The other steps of a block stand for shorter proofs than the root. -/
theorem blk_shorter {ρ : List (List Int)} {b : List (Nat × Int)} {r : Nat} (h : Blk E ρ b r) : ∃ c x, b = c ++ [(r, x)] ∧
    ∀ g ∈ c, (ρ.getD g.1 []).length < (ρ.getD r []).length := by
  induction h with
  | ref i x => exact ⟨[], x, rfl, by simp⟩
  | node i x bs hx hok hl hb he ih =>
    refine ⟨_, x, rfl, ?_⟩
    intro g hg
    obtain ⟨l, hl1, hl2⟩ := List.mem_flatten.1 hg
    obtain ⟨b, hb1, rfl⟩ := List.mem_map.1 hl1
    have hle : (ρ.getD g.1 []).length ≤ (ρ.getD b.2 []).length := by
      obtain ⟨c, y, e, hc⟩ := ih b hb1
      rw [e] at hl2
      rcases List.mem_append.1 hl2 with h1 | h1
      · exact Nat.le_of_lt (hc g h1)
      · rw [List.mem_singleton.1 h1]
    have : (ρ.getD b.2 []).length ≤ ((bs.map fun b => ρ.getD b.2 []).flatten).length := by
      obtain ⟨s, t, e⟩ := List.append_of_mem hb1
      rw [e]; simp; omega
    rw [he, List.length_append, List.length_singleton]
    omega

theorem blk_ok {ρ : List (List Int)} {b : List (Nat × Int)} {r : Nat} (h : Blk E ρ b r) : ∀ g ∈ b, StepOk E g.2 := by
  induction h with
  | ref i x hx => intro g hg; rw [List.mem_singleton.1 hg]; exact Or.inr (Or.inl hx)
  | node i x bs hx hok hl hb he ih =>
    intro g hg
    rcases List.mem_append.1 hg with hg | hg
    · obtain ⟨l, hl1, hl2⟩ := List.mem_flatten.1 hg
      obtain ⟨b, hb1, rfl⟩ := List.mem_map.1 hl1
      exact ih b hb1 g hl2
    · rw [List.mem_singleton.1 hg]; exact hok

/-! ### `subproofLen` -/

/-- A change of the numbers in the references. -/
def RefMap (f : Int → Int) : Prop := ∀ x, (x ≤ -1000 → f x ≤ -1000) ∧ (-1000 < x → f x = x)

theorem refMap_id : RefMap id := fun _ => ⟨fun h => h, fun _ => rfl⟩

theorem forest_of_blks {f : Int → Int} : ∀ (bs : List (List (Nat × Int) × Nat)), (∀ b ∈ bs, ∃ x ch, (Forest.tree x ch).Wf E ∧ (Forest.tree x ch).flat = b.1.map fun g => f g.2) →
    ∃ F : Forest, F.Wf E ∧ F.flat = ((bs.map Prod.fst).flatten).map (fun g => f g.2) ∧ F.count = bs.length := by
  intro bs
  induction bs using List.reverseRecOn with
  | nil => intro _; exact ⟨.nil, trivial, rfl, rfl⟩
  | append_singleton bs b ih =>
    intro h
    obtain ⟨F, h1, h2, h3⟩ := ih (fun b hb => h b (List.mem_append_left _ hb))
    obtain ⟨x, ch, h4, h5⟩ := h b (by simp)
    refine ⟨.snoc F x ch, ⟨h1, h4.2⟩, ?_, by simp [Forest.count, h3]⟩
    simp only [Forest.flat, Forest.tree, List.nil_append] at h5 ⊢
    rw [List.append_assoc, h5, h2]; simp

theorem blk_tree {ρ : List (List Int)} {f : Int → Int} (hf : RefMap f) {b : List (Nat × Int)} {r : Nat} (h : Blk E ρ b r) :
    ∃ x ch, (Forest.tree x ch).Wf E ∧ (Forest.tree x ch).flat = b.map fun g => f g.2 := by
  induction h with
  | ref i x hx =>
    refine ⟨f x, .nil, ⟨trivial, trivial, Or.inr (Or.inl ((hf x).1 hx)), ?_⟩, rfl⟩
    have := (hf x).1 hx
    rw [Tree.arity, if_neg (by omega)]; rfl
  | node i x bs hx hok hl hb he ih =>
    obtain ⟨F, h1, h2, h3⟩ := forest_of_blks bs ih
    refine ⟨x, F, ⟨trivial, h1, hok, ?_⟩, ?_⟩
    · rw [h3, hl]
    · simp only [Forest.flat, Forest.tree, List.nil_append, h2]
      rw [List.map_append, List.map_singleton, (hf x).2 hx]

/-- The loop of `subproofLen` from the end of a forest. -/
theorem spLoop_flat {proof : List Int} : ∀ (f : Forest) (pre post : List Int), f.Wf E → proof = pre ++ f.flat ++ post → ∀ (k : Nat) (lvl : Int), 0 ≤ lvl →
    spLoop E proof (f.flat.length + k) ((pre.length : Int) + f.flat.length) (lvl + f.count) = spLoop E proof k pre.length lvl
  | .nil, pre, post, _, _, k, lvl, _ => by simp [Forest.flat, Forest.count]
  | .snoc l x ch, pre, post, hw, hp, k, lvl, hl => by
    obtain ⟨hw1, hw2, hok, har⟩ := hw
    have e1 : (Forest.snoc l x ch).flat.length + k = (ch.flat.length + (l.flat.length + k)) + 1 := by
      simp only [Forest.flat, List.length_append, List.length_singleton]; omega
    rw [e1]
    show (if lvl + ((Forest.snoc l x ch).count : Int) = 0 then _ else _) = _
    have hc : ((Forest.snoc l x ch).count : Int) = l.count + 1 := by simp [Forest.count]
    have hlen : (((Forest.snoc l x ch).flat.length : Nat) : Int) = l.flat.length + ch.flat.length + 1 := by
      simp only [Forest.flat, List.length_append, List.length_singleton]; omega
    have hp2 : proof = (pre ++ l.flat ++ ch.flat) ++ x :: post := by rw [hp]; simp [Forest.flat]
    rw [if_neg (by omega), if_neg (by omega)]
    have hrd : rdN proof ((pre.length : Int) + ((Forest.snoc l x ch).flat.length : Nat) - 1) = .val x := by
      unfold rdN
      have : ((pre.length : Int) + ((Forest.snoc l x ch).flat.length : Nat) - 1).toNat = (pre ++ l.flat ++ ch.flat).length := by
        simp only [List.length_append]; omega
      rw [if_neg (by omega), this, hp2, if_pos (by simp)]
      congr 1
      simp [List.getD_eq_getElem?_getD]
    rw [hrd, Out.bind_val]
    have hpos : (pre.length : Int) + ((Forest.snoc l x ch).flat.length : Nat) - 1 = ((pre ++ l.flat).length : Int) + ch.flat.length := by
      simp only [List.length_append]; omega
    have key : ∀ lv : Int, lv = (lvl + l.count) + ch.count → spLoop E proof (ch.flat.length + (l.flat.length + k)) ((pre.length : Int) + ((Forest.snoc l x ch).flat.length : Nat) - 1) lv =
        spLoop E proof k pre.length lvl := by
      intro lv hlv
      rw [hpos, hlv, spLoop_flat ch (pre ++ l.flat) (x :: post) hw2 (by rw [hp2]) _ _ (by omega)]
      have : (((pre ++ l.flat).length : Nat) : Int) = (pre.length : Int) + l.flat.length := by simp
      rw [this, spLoop_flat l pre (ch.flat ++ x :: post) hw1 (by rw [hp2]; simp) _ _ hl]
    by_cases h0 : x < 0
    · rw [if_pos h0]
      apply key
      have : arity E x = 0 := by unfold arity; rw [if_neg (by omega)]
      omega
    · rw [if_neg h0]
      rcases hok with h1 | h1 | ⟨h1, h2, h3⟩
      · simp only [unk] at h1; omega
      · omega
      · have hst : stmtAt E x = .val (E.stmt x.toNat) := by unfold stmtAt; rw [if_neg (by omega)]
        rw [hst, Out.bind_val]
        by_cases hk : (E.stmt x.toNat).kind = .e ∨ (E.stmt x.toNat).kind = .f
        · rw [if_pos hk]
          apply key
          have : arity E x = 0 := by
            unfold arity; rw [if_neg]; rintro ⟨_, hc⟩; rcases hk with hk | hk <;> rw [hk] at hc <;> simp at hc
          omega
        · rw [if_neg hk]
          apply key
          have hap : (E.stmt x.toNat).kind = .a ∨ (E.stmt x.toNat).kind = .p := by
            rcases h3 with h3 | h3 | h3 | h3
            · exact absurd (Or.inr h3) hk
            · exact absurd (Or.inl h3) hk
            · exact Or.inl h3
            · exact Or.inr h3
          have : arity E x = (E.stmt x.toNat).reqHyp.length := by unfold arity; rw [if_pos ⟨h1, hap⟩]
          omega

/-- `subproofLen` at the root of a tree gives the number of its steps. -/
theorem subproofLen_forest {x : Int} {ch : Forest} (hw : (Forest.tree x ch).Wf E) {proof pre post : List Int} (hp : proof = pre ++ (Forest.tree x ch).flat ++ post) {n : Nat}
    (hlen : (Forest.tree x ch).flat.length = n) {k : Int} (hk : k = (pre.length : Int) + n - 1) : subproofLen E proof k = .val (n : Int) := by
  have hpos : 1 ≤ n := by rw [← hlen]; simp [Forest.tree, Forest.flat]
  unfold subproofLen
  have e := spLoop_flat (E := E) (proof := proof) (Forest.tree x ch) pre post hw hp (pre.length + 2) 0 (Int.le_refl _)
  rw [hlen] at e
  have e1 : k.toNat + 3 = n + (pre.length + 2) := by omega
  have e2 : k + 1 = (pre.length : Int) + n := by omega
  have e3 : (0 : Int) + ((Forest.tree x ch).count : Int) = 1 := by simp [Forest.tree, Forest.count]
  rw [e3] at e
  rw [e1, e2, e]
  have : spLoop E proof (pre.length + 2) (pre.length : Int) 0 = .val (pre.length : Int) := by
    show (if (0 : Int) = 0 then _ else _) = _
    rw [if_pos rfl]
  rw [this, Out.bind_val]
  congr 1
  omega

/-- `subproofLen` at the root of a block gives the length of the block. -/
theorem subproofLen_blk {ρ : List (List Int)} {f : Int → Int} (hf : RefMap f) {b : List (Nat × Int)} {r : Nat} (h : Blk E ρ b r) {proof pre post : List Int}
    (hp : proof = pre ++ b.map (fun g => f g.2) ++ post) {k : Int} (hk : k = (pre.length : Int) + b.length - 1) : subproofLen E proof k = .val (b.length : Int) := by
  obtain ⟨x, ch, hw, hfl⟩ := blk_tree hf h
  exact subproofLen_forest hw (by rw [hp, hfl]) (by rw [hfl, List.length_map]) hk

end MM.Expl
