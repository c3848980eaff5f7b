import Verif.Pfas.Model
import Verif.Tree.Spec

/-!
# Proofs in progress as trees
-/
namespace MM.Pfas
open MM.Veri MM.Proof MM.Data MM.Tree

/-- A step with its three strings. -/
structure Node where
  stmt : Int
  tgt : List Nat
  src : List Nat
  usr : List Nat

/-- Lists of trees of steps (`Forest` with the strings). -/
inductive AF where
  | nil
  | snoc (left : AF) (nd : Node) (ch : AF)

namespace AF

def flat : AF → List Node
  | nil => []
  | snoc l nd ch => flat l ++ flat ch ++ [nd]

def count : AF → Nat
  | nil => 0
  | snoc l _ _ => count l + 1

/-- The targets of the roots. -/
def tgts : AF → List (List Nat)
  | nil => []
  | snoc l nd _ => tgts l ++ [nd.tgt]

/-- The sources of the roots. -/
def srcs : AF → List (List Nat)
  | nil => []
  | snoc l nd _ => srcs l ++ [nd.src]

/-- `P` holds of every node and the targets of its children. -/
def All (P : Node → List (List Nat) → Prop) : AF → Prop
  | nil => True
  | snoc l nd ch => All P l ∧ All P ch ∧ P nd ch.tgts

/-- New targets for the roots, last one first. -/
def setR : AF → List (List Nat) → AF
  | nil, _ => nil
  | snoc l nd ch, t :: ts => snoc (setR l ts) { nd with tgt := t } ch
  | snoc l nd ch, [] => snoc l nd ch

end AF
open AF

/-- A list of trees with a hole for a tree. -/
inductive Cx where
  | top (l : AF)
  | right (c : Cx) (nd : Node) (ch : AF)
  | down (l : AF) (c : Cx) (nd : Node)

namespace Cx

def plug : Cx → Node → AF → AF
  | top l, x, f => snoc l x f
  | right c nd ch, x, f => snoc (plug c x f) nd ch
  | down l c nd, x, f => snoc l nd (plug c x f)

def pre : Cx → List Node
  | top l => l.flat
  | right c _ _ => pre c
  | down l c _ => l.flat ++ pre c

def post : Cx → List Node
  | top _ => []
  | right c nd ch => post c ++ ch.flat ++ [nd]
  | down _ c nd => post c ++ [nd]

end Cx
open Cx

theorem flat_plug : ∀ (c : Cx) (x : Node) (f : AF), (c.plug x f).flat = c.pre ++ f.flat ++ [x] ++ c.post
  | top l, x, f => by simp [plug, AF.flat, pre, post]
  | right c nd ch, x, f => by simp [plug, AF.flat, pre, post, flat_plug c]
  | down l c nd, x, f => by simp [plug, AF.flat, pre, post, flat_plug c]

theorem locate : ∀ (f : AF) {i : Nat}, i < f.flat.length → ∃ c x ch, f = Cx.plug c x ch ∧ i = c.pre.length + ch.flat.length
  | nil, i, h => by simp [AF.flat] at h
  | snoc l nd ch, i, h => by
    by_cases h1 : i < l.flat.length
    · obtain ⟨c, x, f, e, hi⟩ := locate l h1
      exact ⟨right c nd ch, x, f, by rw [plug, ← e], hi⟩
    · by_cases h2 : i - l.flat.length < ch.flat.length
      · obtain ⟨c, x, f, e, hi⟩ := locate ch h2
        exact ⟨down l c nd, x, f, by rw [plug, ← e], by simp only [pre, List.length_append]; omega⟩
      · refine ⟨top l, nd, ch, rfl, ?_⟩
        simp only [AF.flat, List.length_append, List.length_singleton] at h
        simp only [pre]
        omega

theorem tgts_length : ∀ f : AF, f.tgts.length = f.count
  | nil => rfl
  | snoc l nd ch => by simp [tgts, AF.count, tgts_length l]

theorem srcs_length : ∀ f : AF, f.srcs.length = f.count
  | nil => rfl
  | snoc l nd ch => by simp [srcs, AF.count, srcs_length l]

theorem tgts_replug : ∀ (c : Cx) {x y : Node} (f g : AF), y.tgt = x.tgt → (c.plug y g).tgts = (c.plug x f).tgts
  | top l, x, y, f, g, h => by simp [plug, tgts, h]
  | right c nd ch, x, y, f, g, h => by simp [plug, tgts, tgts_replug c f g h]
  | down l c nd, x, y, f, g, h => by simp [plug, tgts]

variable {P Q : Node → List (List Nat) → Prop} {E : Env}

theorem all_plug : ∀ {c : Cx} {x : Node} {f : AF}, All P (c.plug x f) → All P f ∧ P x f.tgts
  | top _, _, _, h => ⟨h.2.1, h.2.2⟩
  | right c _ _, _, _, h => all_plug (c := c) h.1
  | down _ c _, _, _, h => all_plug (c := c) h.2.1

theorem all_replug : ∀ {c : Cx} {x y : Node} {f g : AF}, All P (c.plug x f) → y.tgt = x.tgt → All P g → P y g.tgts → All P (c.plug y g)
  | top _, _, _, _, _, h, _, h1, h2 => ⟨h.1, h1, h2⟩
  | right c _ _, _, _, _, _, h, ht, h1, h2 => ⟨all_replug (c := c) h.1 ht h1 h2, h.2⟩
  | down l c nd, x, y, f, g, h, ht, h1, h2 => ⟨h.1, all_replug (c := c) h.2.1 ht h1 h2, by
      have := h.2.2
      rwa [tgts_replug c f g ht]⟩

theorem AF.All.mono (hPQ : ∀ x ts, P x ts → Q x ts) : ∀ {f : AF}, All P f → All Q f
  | nil, _ => trivial
  | snoc _ _ _, h => ⟨h.1.mono hPQ, h.2.1.mono hPQ, hPQ _ _ h.2.2⟩

/-- From a property of the steps (as members of the list) to one of the nodes. -/
theorem AF.All.of_mem {R : Node → Prop} (hPQ : ∀ x ts, P x ts → R x → Q x ts) : ∀ {f : AF}, All P f → (∀ x ∈ f.flat, R x) → All Q f
  | nil, _, _ => trivial
  | snoc _ _ _, h, hm => ⟨h.1.of_mem hPQ (fun x hx => hm x (by simp [AF.flat, hx])), h.2.1.of_mem hPQ (fun x hx => hm x (by simp [AF.flat, hx])),
      hPQ _ _ h.2.2 (hm _ (by simp [AF.flat]))⟩

theorem AF.All.mem {R : Node → Prop} (hPQ : ∀ x ts, P x ts → R x) : ∀ {f : AF}, All P f → ∀ x ∈ f.flat, R x
  | nil, _, x, hx => by simp [AF.flat] at hx
  | snoc _ _ _, h, x, hx => by
    simp only [AF.flat, List.mem_append, List.mem_singleton] at hx
    rcases hx with (hx | hx) | rfl
    · exact h.1.mem hPQ x hx
    · exact h.2.1.mem hPQ x hx
    · exact hPQ _ _ h.2.2

/-- The proof in progress holds the steps of the trees. -/
structure Rep (p : Pip) (f : AF) : Prop where
  proof : p.proof = f.flat.map Node.stmt
  target : p.target = f.flat.map Node.tgt
  source : p.source = f.flat.map Node.src
  user : p.user = f.flat.map Node.usr

/-- A proper step with the right number of children. -/
def Shape (E : Env) (x : Node) (ts : List (List Nat)) : Prop := StepOk E x.stmt ∧ arity E x.stmt = ts.length ∧ -1000 < x.stmt

theorem rdN_at {a b : List Int} {x : Int} : rdN (a ++ x :: b) a.length = .val x := by
  unfold rdN
  rw [if_neg (by omega), if_pos (by simp)]
  simp

theorem stmtAt_ok {x : Int} (h : StepOk E x) (h0 : 0 ≤ x) : stmtAt E x = .val (E.stmt x.toNat) := by
  unfold stmtAt
  rcases h with h | h | h
  · simp only [unk] at h; omega
  · omega
  · rw [if_neg (by omega)]

theorem spLoop_forest : ∀ {f : AF} (_ : All (Shape E) f) (pre post : List Int) {proof : List Int} (_ : proof = pre ++ f.flat.map Node.stmt ++ post) (k : Nat) (lvl : Int) (_ : 0 ≤ lvl),
    spLoop E proof (f.flat.length + k) (pre.length + f.flat.length) (lvl + f.count) = spLoop E proof k pre.length lvl
  | nil, _, pre, post, proof, _, k, lvl, _ => by simp [AF.flat, AF.count]
  | snoc l nd ch, h, pre, post, proof, hp, k, lvl, hl => by
    obtain ⟨h1, h2, h3, h4, h5⟩ := h
    have e : (snoc l nd ch).flat.length + k = (ch.flat.length + (l.flat.length + k)) + 1 := by simp [AF.flat]; omega
    rw [e, spLoop, if_neg (by simp only [AF.count]; omega), if_neg (by simp only [AF.flat, List.length_append, List.length_singleton]; omega)]
    have hrd : rdN proof ((pre.length : Int) + ((snoc l nd ch).flat.length : Nat) - 1) = .val nd.stmt := by
      have : proof = (pre ++ l.flat.map Node.stmt ++ ch.flat.map Node.stmt) ++ nd.stmt :: post := by rw [hp]; simp [AF.flat]
      rw [this, ← rdN_at (a := pre ++ l.flat.map Node.stmt ++ ch.flat.map Node.stmt) (b := post)]
      congr 1
      simp [AF.flat]
      omega
    rw [hrd, Out.bind_val]
    have hpos : (pre.length : Int) + ((snoc l nd ch).flat.length : Nat) - 1 = ((pre ++ l.flat.map Node.stmt).length : Int) + ch.flat.length := by simp [AF.flat]; omega
    rw [hpos]
    have hlvl : lvl + ((snoc l nd ch).count : Nat) - 1 + (arity E nd.stmt : Int) = (lvl + l.count) + ch.count := by rw [h4, tgts_length]; simp [AF.count]; omega
    have key : spLoop E proof (ch.flat.length + (l.flat.length + k)) (((pre ++ l.flat.map Node.stmt).length : Int) + ch.flat.length) ((lvl + l.count) + ch.count) = spLoop E proof k pre.length lvl := by
      rw [spLoop_forest h2 (pre ++ l.flat.map Node.stmt) (nd.stmt :: post) (by rw [hp]; simp [AF.flat]) (l.flat.length + k) (lvl + l.count) (by omega)]
      have := spLoop_forest h1 pre (ch.flat.map Node.stmt ++ nd.stmt :: post) (proof := proof) (by rw [hp]; simp [AF.flat]) k lvl hl
      rw [← this]
      congr 1
      simp
    by_cases h0 : nd.stmt < 0
    · rw [if_pos h0, ← key, ← hlvl]
      congr 1
      have : arity E nd.stmt = 0 := by unfold arity; rw [if_neg (by omega)]
      omega
    · rw [if_neg h0, stmtAt_ok h3 (by omega), Out.bind_val]
      by_cases hk : (E.stmt nd.stmt.toNat).kind = .e ∨ (E.stmt nd.stmt.toNat).kind = .f
      · rw [if_pos hk, ← key, ← hlvl]
        congr 1
        have : arity E nd.stmt = 0 := by unfold arity; rw [if_neg]; rintro ⟨_, hc⟩; rcases hk with hk | hk <;> rw [hk] at hc <;> simp at hc
        omega
      · rw [if_neg hk, ← key, ← hlvl]
        congr 2
        have h3' : 1 ≤ nd.stmt ∧ ((E.stmt nd.stmt.toNat).kind = .a ∨ (E.stmt nd.stmt.toNat).kind = .p) := by
          rcases h3 with h3 | h3 | ⟨h3, _, h6⟩
          · simp only [unk] at h3; omega
          · exfalso; omega
          · refine ⟨h3, ?_⟩
            rcases h6 with h6 | h6 | h6 | h6
            · exact absurd (Or.inr h6) hk
            · exact absurd (Or.inl h6) hk
            · exact Or.inl h6
            · exact Or.inr h6
        unfold arity
        rw [if_pos h3']

theorem subproofLen_at {x : Node} {f : AF} (hf : All (Shape E) f) (hx : Shape E x f.tgts) {proof : List Int} {pre post : List Int}
    (hp : proof = pre ++ (f.flat.map Node.stmt ++ [x.stmt]) ++ post) :
    subproofLen E proof ((pre.length + f.flat.length : Nat) : Int) = .val ((f.flat.length : Int) + 1) := by
  unfold subproofLen
  have := spLoop_forest (E := E) (f := snoc nil x f) ⟨trivial, hf, hx⟩ pre post (proof := proof) (by rw [hp]; simp [AF.flat]) (pre.length + 2) 0 (Int.le_refl _)
  simp only [AF.flat, AF.count, List.nil_append, List.length_append, List.length_singleton, Nat.zero_add] at this
  have e1 : ((pre.length + f.flat.length : Nat) : Int).toNat + 3 = f.flat.length + 1 + (pre.length + 2) := by omega
  have e2 : ((pre.length + f.flat.length : Nat) : Int) + 1 = (pre.length : Int) + ((f.flat.length + 1 : Nat) : Int) := by omega
  have e3 : (0 : Int) + ((1 : Nat) : Int) = 1 := by omega
  rw [e3] at this
  rw [e1, e2, this, spLoop, if_pos rfl, Out.bind_val]
  congr 1
  omega

end MM.Pfas
