import Verif.Expd.Source
import Verif.Tree.Verdict
import Verif.Match.Props

/-!
# C58: EXPAND replaces the uses of theorems by their proofs
-/
namespace MM.Expd
open MM.Veri MM.Pars MM.Spec MM.Proof MM.Data MM.Tree MM.Pfas MM.Match MM.Vstr Tree.Forest

variable {src : List Src} {s : PState} {look : Look} {E : Env} {prove : Nat}

/-! ### Proofs in reverse Polish notation are trees -/

theorem rpn_depth : ∀ {l l0 : List Int} {k m : Nat}, Depth E.toDb l0 k → (∀ x ∈ l, Legal E prove x) → rpnCount E l k = some m → Depth E.toDb (l0 ++ l) m
  | [], l0, k, m, h, _, hc => by cases hc; simpa using h
  | x :: l, l0, k, m, h, hL, hc => by
    have e : rpnCount E (x :: l) k = if arity E x ≤ k then rpnCount E l (k - arity E x + 1) else none := rfl
    rw [e] at hc
    by_cases ha : arity E x ≤ k
    · rw [if_pos ha] at hc
      have hd : Depth E.toDb (l0 ++ [x]) (k - arity E x + 1) := by
        have h0 : (x = unk ∨ x ≤ -1000 ∨ (0 ≤ x ∧ ((E.stmt x.toNat).kind = .e ∨ (E.stmt x.toNat).kind = .f))) → arity E x = 0 := by
          rintro (h1 | h1 | ⟨_, h1 | h1⟩)
          · exact arity_hyp (Or.inl (by rw [h1]; decide))
          · exact arity_hyp (Or.inl (by omega))
          · exact arity_hyp (Or.inr (Or.inr h1))
          · exact arity_hyp (Or.inr (Or.inl h1))
        rcases hL x (by simp) with h1 | ⟨h1, h2, ⟨_, h3⟩ | ⟨_, h3⟩⟩
        · have := Depth.push (db := E.toDb) (a := x) h (Or.inl h1)
          rwa [h0 (Or.inl h1)]
        · have := Depth.push (db := E.toDb) (a := x) h (Or.inr (Or.inr ⟨by omega, h3⟩))
          rwa [h0 (Or.inr (Or.inr ⟨by omega, h3⟩))]
        · have e : arity E x = (E.stmt x.toNat).reqHyp.length := by unfold arity; rw [if_pos ⟨h1, h3⟩]
          rw [e] at ha ⊢
          exact Depth.use (db := E.toDb) h (by omega) h3 ha
      have := rpn_depth hd (fun y hy => hL y (by simp [hy])) hc
      simpa using this
    · rw [if_neg ha] at hc; cases hc

theorem rpn_forest' : ∀ {f : Forest}, f.Wf E → ∀ (rest : List Int) (k : Nat), rpnCount E (f.flat ++ rest) k = rpnCount E rest (k + f.count)
  | nil, _, _, _ => rfl
  | snoc l x ch, ⟨hl, hc, _, ha⟩, rest, k => by
    have e : (snoc l x ch).flat ++ rest = l.flat ++ (ch.flat ++ (x :: rest)) := by simp [Forest.flat]
    rw [e, rpn_forest' hl, rpn_forest' hc]
    have e2 : rpnCount E (x :: rest) (k + l.count + ch.count) = if arity E x ≤ k + l.count + ch.count then rpnCount E rest (k + l.count + ch.count - arity E x + 1) else none := rfl
    rw [e2, if_pos (by omega)]
    congr 1
    simp only [Forest.count]
    omega

theorem formed_tree {l : List Int} (h : Formed E prove l) : ∃ f : Forest, f.Wf E ∧ f.flat = l ∧ f.count = 1 ∧ ∀ x ∈ f.flat, -1000 < x := by
  have hd := rpn_depth (l0 := []) (k := 0) Depth.nil h.2 h.1
  rw [List.nil_append] at hd
  obtain ⟨f, h1, h2, h3⟩ := forest_of_depth hd (fun x hx => (stepOk_legal (h.2 x hx)).1)
  exact ⟨f, h1, h2, h3, fun x hx => (stepOk_legal (h.2 x (by rw [← h2]; exact hx))).2⟩

theorem formed_normal {l : List Int} (h : Formed E prove l) : NormalProof E l := by
  obtain ⟨f, h1, h2, h3, h4⟩ := formed_tree h
  cases f with
  | nil => simp [Forest.count] at h3
  | snoc L x ch =>
    have : L = nil := count_zero (by simpa [Forest.count] using h3)
    subst this
    exact ⟨x, ch, h1, h2, fun y hy => h4 y (by rw [h2]; exact hy)⟩

theorem unpack_formed {l : List Int} (h : Formed E prove l) {fuel : Nat} (hf : l.length < fuel) : unsquish E fuel l = .val l := by
  refine C21_unpack_references (fun x hx => (stepOk_legal (h.2 x hx)).1) ?_ (normal_expands (formed_normal h)) hf
  intro x hx hx1
  have := (stepOk_legal (h.2 x hx)).2
  omega

theorem formed_of {f : Forest} (hw : f.Wf E) (h1 : f.count = 1) (hL : ∀ x ∈ f.flat, Legal E prove x) : Formed E prove f.flat := by
  refine ⟨?_, hL⟩
  have := rpn_forest' hw [] 0
  rw [List.append_nil, h1] at this
  rw [this]
  rfl

/-! ### One theorem -/

/-- What `expandProof` does for a proper source. -/
theorem expandProof_ok {i : Nat} {prf : Nat → List Int} {p raw : List Int} (hi : 1 ≤ i) (hk : (E.stmt i).kind = .p) (hS : Stored E i (prf i) p) (hO : SrcOk E i p) (hlt : i < prove)
    (hF : Formed E prove raw) : ∃ q N, (∀ fuel, N ≤ fuel → expandProof E fuel prf raw i = .val q) ∧ Inlines E i p raw q ∧ (i : Int) ∉ q ∧ Formed E prove q ∧
      ∀ x ∈ q, x ∈ raw ∨ x = unk ∨ (x ∈ p ∧ isHyp E x = false) := by
  obtain ⟨f, h1, h2, h3, h4⟩ := formed_tree hF
  obtain ⟨g, g1, g2, g3, g4, g5, g6⟩ := expandLoop_ok hi hk hO (cost E i p f + 1) h1 h3 h4 (Nat.lt_succ_self _)
  refine ⟨g.flat, cost E i p f + raw.length + p.length + 1, ?_, ?_, g4, ?_, ?_⟩
  · intro fuel hfu
    obtain ⟨g', k1, _, k3, k4, k5, _⟩ := expandLoop_ok hi hk hO fuel h1 h3 h4 (by omega)
    unfold expandProof
    rw [hS.unpack fuel (by omega), Out.bind_val, unpack_formed hF (by omega), Out.bind_val, if_neg (by rw [hk]; simp), ← h2, k1]
    have e1 := inlines_of h1 k3 k4 k5
    have e2 := inlines_of h1 g3 g4 g5
    unfold Inlines at e1 e2
    rw [e1] at e2
    simp only [Option.some.injEq, List.cons.injEq, and_true] at e2
    rw [e2]
  · rw [← h2]; exact inlines_of h1 g3 g4 g5
  · refine formed_of g2 g3 ?_
    intro x hx
    rcases g6 x hx with h5 | h5 | ⟨h5, h6⟩
    · exact hF.2 x (by rw [← h2]; exact h5)
    · exact Or.inl h5
    · rcases hS.legal x h5 with h7 | ⟨h7, h8, ⟨_, h9⟩ | ⟨h9, h10⟩⟩
      · exact Or.inl h7
      · exfalso
        have : isHyp E x = true := isHyp_iff.2 ⟨by omega, h9⟩
        rw [h6] at this; cases this
      · exact Or.inr ⟨h7, h8, Or.inr ⟨by omega, h10⟩⟩
  · rw [← h2]; exact g6

/-- The proofs that `getProof` returns: those of the proof sections `sec i` of the theorems. -/
def Fetched (E : Env) (W : Nat) (sec : Nat → List Char) (len : Nat → Nat) (prf : Nat → List Int) : Prop :=
  ∀ i, (E.stmt i).kind = .p → ∃ r, parseProofText E W i (sec i) (len i) = .val r ∧ prf i = getProof r

theorem fetched (h : Accepted src s) (hl : LookOk look) {W : Nat} {sec : Nat → List Char} {len : Nat → Nat} {prf : Nat → List Int} (hf : Fetched (envOf look src s) W sec len prf)
    (i : Nat) (hk : ((envOf look src s).stmt i).kind = .p) : 1 ≤ i ∧ ∃ p, Stored (envOf look src s) i (prf i) p ∧ SrcOk (envOf look src s) i p := by
  have hp : kindAt (kinds src) i = .p := by rw [← kind_env (look := look) h]; exact hk
  refine ⟨(kindAt_pos (by rw [hp]; simp)).1, ?_⟩
  obtain ⟨r, hr, e⟩ := hf i hk
  obtain ⟨p, hS⟩ := stored_of_parse h hl hp hr
  rw [e]
  exact ⟨p, hS, hS.srcOk h hp⟩

/-- **C58**.  Expanding the uses of a theorem in a proof: `expandProof` ends, does not stop with an internal error, and gives the proof in which each use of the theorem is
replaced by the proof the database has for the theorem, with the proofs of the hypotheses of the use put in for the hypotheses of the theorem (and an unknown step for
the hypothesis of a dummy variable).  The theorem is not used any more, and the result has the form of a proof. -/
theorem C58_expand_one (h : Accepted src s) (hl : LookOk look) {W : Nat} {sec : Nat → List Char} {len : Nat → Nat} {prf : Nat → List Int} (hf : Fetched (envOf look src s) W sec len prf)
    {i : Nat} (hp : kindAt (kinds src) i = .p) (hlt : i < prove) {raw : List Int} (hF : Formed (envOf look src s) prove raw) :
    ∃ p q N, Expands (envOf look src s) (prf i) p ∧ (∀ fuel, N ≤ fuel → expandProof (envOf look src s) fuel prf raw i = .val q) ∧ Inlines (envOf look src s) i p raw q ∧ (i : Int) ∉ q ∧
      Formed (envOf look src s) prove q := by
  have hk : ((envOf look src s).stmt i).kind = .p := by rw [kind_env h]; exact hp
  obtain ⟨hi, p, hS, hO⟩ := fetched h hl hf i hk
  obtain ⟨q, N, h1, h2, h3, h4, _⟩ := expandProof_ok hi hk hS hO hlt hF
  exact ⟨p, q, N, hS.expands, h1, h2, h3, h4⟩

/-! ### The command -/

/-- The proofs that EXPAND goes through: one theorem after the other, the last one first; `sel` are the theorems to be expanded, `stored i` is the proof of theorem `i`. -/
inductive InlinesAll (E : Env) (stored : Nat → List Int → Prop) : List Nat → List Int → List Int → Prop
  | nil (p) : InlinesAll E stored [] p p
  | cons {i sel p q r src} : stored i src → Inlines E i src p q → InlinesAll E stored sel q r → InlinesAll E stored (i :: sel) p r

theorem expandAll_ok {M : MEnv} {prf : Nat → List Int} {arg : List Char} (hst : ∀ i, (M.stmt i).kind = .p → 1 ≤ i ∧ ∃ p, Stored M.toEnv i (prf i) p ∧ SrcOk M.toEnv i p)
    {sel : Nat → Bool} (hm : ∀ i, matchesList M (M.lab i) arg '*' '?' = .val (sel i)) :
    ∀ (k : Nat) (proof : List Int) (ch : Bool), k ≤ prove → Formed M.toEnv prove proof → (∀ x ∈ proof, 0 ≤ x → (M.stmt x.toNat).kind = .p → sel x.toNat = true → x.toNat < k) →
      ∃ q ch' N, (∀ fuel, N ≤ fuel → expandAll M fuel prf arg k proof ch = .val (q, ch')) ∧ Formed M.toEnv prove q ∧
        (∀ x ∈ q, 0 ≤ x → (M.stmt x.toNat).kind = .p → sel x.toNat = false) ∧
        InlinesAll M.toEnv (fun i p => Expands M.toEnv (prf i) p) ((List.range k).reverse.filter (fun i => decide ((M.stmt i).kind = .p) && sel i)) proof q ∧
        (ch = true → ch' = true) ∧ (ch' = false → q = proof)
  | 0, proof, ch, _, hF, hx => ⟨proof, ch, 0, fun _ _ => rfl, hF, fun x hxq h0 hkx => by
      cases hs : sel x.toNat with
      | false => rfl
      | true => exact absurd (hx x hxq h0 hkx hs) (by omega), .nil _, fun h => h, fun _ => rfl⟩
  | i + 1, proof, ch, hle, hF, hx => by
    have er : (List.range (i + 1)).reverse.filter (fun i => decide ((M.stmt i).kind = .p) && sel i) =
        (if (M.stmt i).kind = .p ∧ sel i = true then [i] else []) ++ (List.range i).reverse.filter (fun i => decide ((M.stmt i).kind = .p) && sel i) := by
      rw [List.range_succ, List.reverse_append, List.reverse_singleton, List.singleton_append, List.filter_cons]
      by_cases hc : (M.stmt i).kind = .p ∧ sel i = true
      · rw [if_pos hc, if_pos (by simp [hc.1, hc.2])]; rfl
      · rw [if_neg hc, if_neg (by simpa using hc)]; rfl
    -- the statement is not expanded
    have skip : ¬ ((M.stmt i).kind = .p ∧ sel i = true) → (∀ fuel, expandAll M fuel prf arg (i + 1) proof ch = expandAll M fuel prf arg i proof ch) →
        ∃ q ch' N, (∀ fuel, N ≤ fuel → expandAll M fuel prf arg (i + 1) proof ch = .val (q, ch')) ∧ Formed M.toEnv prove q ∧
        (∀ x ∈ q, 0 ≤ x → (M.stmt x.toNat).kind = .p → sel x.toNat = false) ∧
        InlinesAll M.toEnv (fun i p => Expands M.toEnv (prf i) p) ((List.range (i + 1)).reverse.filter (fun i => decide ((M.stmt i).kind = .p) && sel i)) proof q ∧
        (ch = true → ch' = true) ∧ (ch' = false → q = proof) := by
      intro hc he
      obtain ⟨q, ch', N, h1, h2⟩ := expandAll_ok hst hm i proof ch (by omega) hF (by
        intro x hxp h0 hkx hs
        have := hx x hxp h0 hkx hs
        rcases Nat.lt_or_ge x.toNat i with h | h
        · exact h
        · have e : x.toNat = i := by omega
          rw [e] at hkx hs
          exact absurd ⟨hkx, hs⟩ hc)
      refine ⟨q, ch', N, fun fuel hfu => by rw [he, h1 fuel hfu], ?_⟩
      rw [er, if_neg hc]
      exact h2
    by_cases hi0 : i = 0
    · subst hi0
      have hn : ¬ ((M.stmt 0).kind = .p ∧ sel 0 = true) := fun h => by have := (hst 0 h.1).1; omega
      refine skip hn (fun fuel => ?_)
      rfl
    by_cases hk : (M.stmt i).kind = .p
    swap
    · refine skip (fun h => hk h.1) (fun fuel => ?_)
      rw [expandAll, if_neg hi0, if_pos hk]
    cases hs : sel i with
    | false =>
      refine skip (fun h => by rw [hs] at h; cases h.2) (fun fuel => ?_)
      rw [expandAll, if_neg hi0, if_neg (by simp [hk]), hm, Out.bind_val, if_pos hs]
    | true =>
      obtain ⟨hi, p, hS, hO⟩ := hst i hk
      obtain ⟨q1, N1, h1, h2, h3, h4, h5⟩ := expandProof_ok hi hk hS hO (by omega) hF
      have hq1 : ∀ x ∈ q1, 0 ≤ x → (M.stmt x.toNat).kind = .p → sel x.toNat = true → x.toNat < i := by
        intro x hxq h0 hkx hsx
        rcases h5 x hxq with h6 | rfl | ⟨h6, h7⟩
        · have := hx x h6 h0 hkx hsx
          rcases Nat.lt_or_ge x.toNat i with h | h
          · exact h
          · have e : x = i := by omega
            exact absurd (by rw [← e]; exact hxq) h3
        · exact absurd h0 (by decide)
        · rcases hS.legal x h6 with rfl | ⟨_, _, ⟨_, h9⟩ | ⟨h9, _⟩⟩
          · exact absurd h0 (by decide)
          · rw [hkx] at h9; simp at h9
          · exact h9
      by_cases hne : q1 ≠ proof
      · obtain ⟨q, ch', N, g1, g2, g3, g4, g5, g6⟩ := expandAll_ok hst hm i q1 true (by omega) h4 hq1
        have hct := g5 rfl
        refine ⟨q, ch', max N N1, ?_, g2, g3, ?_, fun _ => hct, fun h => by rw [hct] at h; cases h⟩
        · intro fuel hfu
          rw [expandAll, if_neg hi0, if_neg (by simp [hk]), hm, Out.bind_val, if_neg (by rw [hs]; simp), h1 fuel (by omega), Out.bind_val, if_pos hne]
          exact g1 fuel (by omega)
        · rw [er, if_pos ⟨hk, hs⟩]
          exact .cons hS.expands h2 g4
      · have hne' : q1 = proof := Decidable.not_not.1 hne
        subst hne'
        obtain ⟨q, ch', N, g1, g2, g3, g4, g5, g6⟩ := expandAll_ok hst hm i q1 ch (by omega) h4 hq1
        refine ⟨q, ch', max N N1, ?_, g2, g3, ?_, g5, g6⟩
        · intro fuel hfu
          rw [expandAll, if_neg hi0, if_neg (by simp [hk]), hm, Out.bind_val, if_neg (by rw [hs]; simp), h1 fuel (by omega), Out.bind_val, if_neg hne]
          exact g1 fuel (by omega)
        · rw [er, if_pos ⟨hk, hs⟩]
          exact .cons hS.expands h2 g4

/-- **C58**.  The command EXPAND, whose argument is a list of patterns: it ends without an internal error.  Either nothing changes and no theorem whose label matches
is used by the proof; or the new proof is that in which the uses of the matching theorems have been replaced by their proofs, the last theorem first.  No matching theorem is used
any more, not even by the inserted proofs, and the result has the form of a proof of the statement. -/
theorem C58_expand_command (h : Accepted src s) (hl : LookOk look) {W : Nat} {sec : Nat → List Char} {len : Nat → Nat} {prf : Nat → List Int} (hf : Fetched (envOf look src s) W sec len prf)
    {M : MEnv} (hM : M.toEnv = envOf look src s) {arg : List Char} (hne : arg ≠ []) (hpl : ∀ e ∈ split arg, Plain e) (hlab : ∀ i, '*' ∉ M.lab i)
    {proof : List Int} (hF : Formed (envOf look src s) prove proof) :
    ∃ r q N, (∀ fuel, N ≤ fuel → expandCmd M fuel prf arg prove proof = .val r) ∧ (r = none ∧ q = proof ∨ r = some q) ∧ Formed (envOf look src s) prove q ∧
      (∀ i : Nat, kindAt (kinds src) i = .p → (∃ e ∈ split arg, Glob '*' '?' e (M.lab i)) → (i : Int) ∉ q) ∧
      ∃ sel, InlinesAll (envOf look src s) (fun i p => Expands (envOf look src s) (prf i) p) sel proof q ∧ sel.Pairwise (· > ·) ∧
        ∀ i, i ∈ sel ↔ i < prove ∧ kindAt (kinds src) i = .p ∧ ∃ e ∈ split arg, Glob '*' '?' e (M.lab i) := by
  have hsel : ∀ i, ∃ b, matchesList M (M.lab i) arg '*' '?' = .val b ∧ (b = true ↔ ∃ e ∈ split arg, Glob '*' '?' e (M.lab i)) := fun i => C28_list M hne hpl (hlab i)
  obtain ⟨sel, hsel⟩ := Classical.axiomOfChoice hsel
  have hk : ∀ i, (M.stmt i).kind = kindAt (kinds src) i := by intro i; rw [hM]; exact kind_env h i
  obtain ⟨q, ch, N, h1, h2, h3, h4, _, h6⟩ := expandAll_ok (M := M) (prf := prf) (arg := arg) (sel := sel) (prove := prove) (by rw [hM]; exact fetched h hl hf) (fun i => (hsel i).1) prove proof false
    (Nat.le_refl _) (by rw [hM]; exact hF) (by
      intro x hx h0 hkx _
      rw [hk] at hkx
      rcases hF.2 x hx with rfl | ⟨_, _, ⟨_, h9⟩ | ⟨h9, _⟩⟩
      · exact absurd h0 (by decide)
      · rw [kind_env h, hkx] at h9; simp at h9
      · exact h9)
  rw [hM] at h2 h4
  refine ⟨if ch then some q else none, q, N, ?_, ?_, h2, ?_, _, h4, ?_, ?_⟩
  · intro fuel hfu
    unfold expandCmd
    rw [h1 fuel hfu, Out.bind_val]
  · cases ch with
    | true => exact Or.inr rfl
    | false => exact Or.inl ⟨rfl, h6 rfl⟩
  · intro i hi hg hq
    have := h3 i hq (by omega) (by rw [Int.toNat_natCast, hk]; exact hi)
    rw [Int.toNat_natCast, ← Bool.not_eq_true, (hsel i).2] at this
    exact this hg
  · exact List.Pairwise.filter _ (List.pairwise_reverse.2 (List.pairwise_lt_range))
  · intro i
    rw [List.mem_filter, List.mem_reverse, List.mem_range, Bool.and_eq_true, decide_eq_true_eq, (hsel i).2, ← hk i, hM]

end MM.Expd
