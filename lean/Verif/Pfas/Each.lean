import Verif.Pfas.Auto

/-!
# INITIALIZE ALL makes every step consistent
-/
namespace MM.Pfas
open MM.Veri MM.Proof MM.Data MM.Tree MM.Spec AF Cx
variable {P : Node → List (List Nat) → Prop} {E : Env} {U : Unifier}

/-- `P` holds of the nodes at the positions below `k`. -/
def AllB (P : Node → List (List Nat) → Prop) : Nat → AF → Prop
  | _, nil => True
  | k, snoc l nd ch => AllB P k l ∧ AllB P (k - l.flat.length) ch ∧ (l.flat.length + ch.flat.length < k → P nd ch.tgts)

theorem allB_zero : ∀ f : AF, AllB P 0 f
  | nil => trivial
  | snoc l _ ch => ⟨allB_zero l, by rw [Nat.zero_sub]; exact allB_zero ch, fun h => absurd h (Nat.not_lt_zero _)⟩

theorem allB_of_all : ∀ {f : AF} (k : Nat), All P f → AllB P k f
  | nil, _, _ => trivial
  | snoc _ _ _, k, h => ⟨allB_of_all k h.1, allB_of_all _ h.2.1, fun _ => h.2.2⟩

theorem all_of_allB : ∀ {f : AF} {k : Nat}, f.flat.length ≤ k → AllB P k f → All P f
  | nil, _, _, _ => trivial
  | snoc l nd ch, k, hk, h => by
    simp only [AF.flat, List.length_append, List.length_singleton] at hk
    exact ⟨all_of_allB (by omega) h.1, all_of_allB (by omega) h.2.1, h.2.2 (by omega)⟩

theorem allB_setR (hP : TgtFree P) : ∀ {f : AF} {k : Nat} {ts : List (List Nat)}, AllB P k f → AllB P k (f.setR ts)
  | nil, _, _, _ => trivial
  | snoc _ _ _, _, [], h => h
  | snoc l nd ch, k, _ :: ts, h => ⟨allB_setR hP h.1, by rw [(setR_flat l ts).1]; exact h.2.1, fun hk => by
      rw [(setR_flat l ts).1] at hk
      exact hP _ _ _ (h.2.2 hk)⟩

theorem allB_plug : ∀ {c : Cx} {x : Node} {f : AF} {k : Nat}, AllB P k (c.plug x f) → AllB P (k - c.pre.length) f
  | top _, _, _, _, h => h.2.1
  | right c _ _, _, _, _, h => allB_plug (c := c) h.1
  | down l c _, _, _, k, h => by
    have := allB_plug (c := c) h.2.1
    rw [pre, List.length_append, ← Nat.sub_sub]
    exact this

theorem plug_length (c : Cx) (x : Node) (f : AF) : (c.plug x f).flat.length = c.pre.length + f.flat.length + 1 + c.post.length := by
  rw [flat_plug]; simp only [List.length_append, List.length_singleton]

theorem allB_replug : ∀ {c : Cx} {x y : Node} {f g : AF} {k : Nat}, AllB P k (c.plug x f) → c.pre.length + f.flat.length = k → y.tgt = x.tgt → g.flat.length = f.flat.length →
    AllB P (k - c.pre.length) g → P y g.tgts → AllB P (k + 1) (c.plug y g)
  | top l, x, y, f, g, k, h, hk, ht, hl, hg, hy => by
    simp only [pre] at hk hg
    exact ⟨allB_of_all _ (all_of_allB (by omega) h.1), allB_of_all _ (all_of_allB (by omega) hg), fun _ => hy⟩
  | right c nd ch, x, y, f, g, k, h, hk, ht, hl, hg, hy => by
    simp only [pre] at hk hg
    refine ⟨allB_replug (c := c) h.1 hk ht hl hg hy, ?_, fun h1 => ?_⟩
    · have : k + 1 - (c.plug y g).flat.length = 0 := by rw [plug_length]; omega
      rw [this]
      exact allB_zero _
    · rw [plug_length] at h1
      omega
  | down l c nd, x, y, f, g, k, h, hk, ht, hl, hg, hy => by
    simp only [pre, List.length_append] at hk hg
    have e : k + 1 - l.flat.length = k - l.flat.length + 1 := by omega
    refine ⟨allB_of_all _ (all_of_allB (by omega) h.1), ?_, fun h1 => ?_⟩
    · rw [e]
      exact allB_replug (c := c) h.2.1 (by omega) ht hl (by rw [Nat.sub_sub]; exact hg) hy
    · have h1 : l.flat.length + (c.plug y g).flat.length < k + 1 := h1
      rw [plug_length] at h1
      omega

theorem initEach_ok (G : GoodEnv E) : ∀ (count step : Nat) {p : Pip} {d : Nat} {f : AF}, Rep p f → All (Basic E) f → AllB (NodeOk E) step f → step + count = f.flat.length →
    ∃ q d' g, initEach E count step p d = .val (q, d') ∧ Rep q g ∧ All (NodeOk E) g ∧ g.tgts = f.tgts ∧ g.flat.map Node.stmt = f.flat.map Node.stmt
  | 0, step, p, d, f, hr, _, hB, hl => ⟨p, d, f, rfl, hr, all_of_allB (by omega) hB, rfl, rfl⟩
  | count + 1, step, p, d, f, hr, hb, hB, hl => by
    obtain ⟨c, x, ch, rfl, hi⟩ := locate f (i := step) (by omega)
    obtain ⟨q, d', x', ts, h1, h2, h3, h4, h5, h6⟩ := initStep_all G (d := d) hr basic_tgtFree (fun _ _ h => h.basic) (fun x ts h => h.1) hb
    have hlen : (ch.setR ts).flat.length = ch.flat.length := (setR_flat ch ts).1
    have hst : (c.plug x' (ch.setR ts)).flat.map Node.stmt = (c.plug x ch).flat.map Node.stmt := by
      rw [flat_plug, flat_plug]
      simp only [List.map_append, List.map_cons, List.map_nil, (setR_flat ch ts).2.1, h3]
    have hB' : AllB (NodeOk E) (step + 1) (c.plug x' (ch.setR ts)) :=
      allB_replug hB hi.symm h4 hlen (allB_setR nodeOk_tgtFree (allB_plug hB)) h6
    obtain ⟨q2, d2, g, k1, k2, k3, k4, k5⟩ := initEach_ok G count (step + 1) (d := d') h2 h5 hB' (by
      have := congrArg List.length hst
      simp only [List.length_map] at this
      omega)
    refine ⟨q2, d2, g, ?_, k2, k3, k4.trans (tgts_replug c _ _ h4), k5.trans hst⟩
    rw [initEach]
    have : initStep E p d (step : Int) = .val (q, d') := by rw [hi]; exact h1
    rw [this, Out.bind_val]
    exact k1

end MM.Pfas
