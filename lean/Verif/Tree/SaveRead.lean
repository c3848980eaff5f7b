import Verif.Tree.Unsquish
import Verif.Tree.Classify
import Verif.Data.RoundTrip
/-!
# C21 with C18: SAVE PROOF /COMPRESSED and reading back, from a normal proof to a normal proof
-/
namespace MM.Tree
open MM.Veri MM.Pars MM.Spec MM.Proof MM.Data Forest

variable {src : List Src} {s : PState} {look : Look} {p : Nat}

/-- Statement `j` may be used in a proof of `p`: it is an active hypothesis of `p` or an assertion before `p`. -/
def Usable (src : List Src) (s : PState) (p j : Nat) : Prop :=
  MandHyp (isVarOf src) (kinds src) s.math p j ∨ OptHyp (isVarOf src) (kinds src) s.math p j ∨ (j < p ∧ IsAssert src j)

/-- A normal proof of statement `p` of the source: every step names an active hypothesis of `p` or an assertion before `p`, and the steps form one proof tree. -/
structure PlainProof (src : List Src) (s : PState) (p : Nat) (steps : List Nat) : Prop where
  stmts : ∀ j ∈ steps, Usable src s p j
  tree : Depth (toDb src s) (steps.map Int.ofNat) 1

theorem usable_kind {j : Nat} (h : Usable src s p j) :
    1 ≤ j ∧ j ≤ src.length ∧ (kindAt (kinds src) j = .f ∨ kindAt (kinds src) j = .e ∨ kindAt (kinds src) j = .a ∨ kindAt (kinds src) j = .p) := by
  have hk : kindAt (kinds src) j = .f ∨ kindAt (kinds src) j = .e ∨ kindAt (kinds src) j = .a ∨ kindAt (kinds src) j = .p := by
    rcases h with h | h | h
    · rcases h.2 with h | ⟨h, _⟩
      · exact Or.inr (Or.inl h)
      · exact Or.inl h
    · exact Or.inl h.2.1
    · exact Or.inr (Or.inr h.2)
  have := kindAt_pos (ks := kinds src) (i := j) (by rcases hk with e | e | e | e <;> rw [e] <;> simp)
  refine ⟨this.1, ?_, hk⟩
  have h2 := this.2
  simpa [kinds] using h2

/-- After READ the hypotheses of assertions are statements of the database (the premise of C34). -/
theorem hypsIn_of (h : Accepted src s) : HypsIn (envOf look src s) := by
  intro i hi j hj
  rw [kind_env h] at hi
  have h2 := ((C12_mandatory_hyps h hi).2.1 j).1 hj
  exact (usable_kind (s := s) (p := i) (Or.inl h2)).2.1

theorem stepOk_of (h : Accepted src s) {j : Nat} (hj : Usable src s p j) : StepOk (envOf look src s) j := by
  obtain ⟨h1, h2, h3⟩ := usable_kind hj
  refine Or.inr (Or.inr ⟨by omega, by simp only [envOf]; omega, ?_⟩)
  simpa only [Int.toNat_natCast, kind_env h] using h3

/-- A list of proper steps that keeps the stack is the list of the steps of proof trees. -/
theorem forest_of_depth {E : Env} {l : List Int} {n : Nat} (h : Depth E.toDb l n) : (∀ x ∈ l, StepOk E x) → ∃ f : Forest, f.Wf E ∧ f.flat = l ∧ f.count = n := by
  induction h with
  | nil => exact fun _ => ⟨nil, trivial, rfl, rfl⟩
  | push _ ha ih =>
    rename_i l n a _
    intro hs
    obtain ⟨f, h1, h2, h3⟩ := ih (fun x hx => hs x (by simp [hx]))
    refine ⟨snoc f a nil, ⟨h1, trivial, hs a (by simp), arity_hyp ?_⟩, by simp [flat, h2], by simp [count, h3]⟩
    rcases ha with rfl | ha | ⟨_, ha | ha⟩
    · left; decide
    · left; omega
    · exact Or.inr (Or.inr ha)
    · exact Or.inr (Or.inl ha)
  | use _ ha hk hle ih =>
    rename_i l n a _
    intro hs
    obtain ⟨f, h1, h2, h3⟩ := ih (fun x hx => hs x (by simp [hx]))
    have hx := hs a (by simp)
    have hnk : ¬ ((E.stmt a.toNat).kind = .f ∨ (E.stmt a.toNat).kind = .e) := by
      rcases hk with hk | hk <;> rw [hk] <;> simp
    obtain ⟨_, _, _, har⟩ := arity_ap hx (by omega) hnk
    obtain ⟨l', ch, rfl, h5, h6, h7⟩ := split_last (k := (E.stmt a.toNat).reqHyp.length) h1 (by rw [h3]; exact hle)
    refine ⟨snoc l' a ch, ⟨h5, h6, hx, by rw [har, h7]⟩, by rw [flat, ← h2, app_flat], ?_⟩
    have e := app_entries [] l' ch
    have e1 := congrArg List.length e
    rw [List.length_append, entries_length, entries_length, entries_length] at e1
    simp only [count]
    omega

/-- A normal proof of the source is a normal proof in the sense of C21. -/
theorem normal_of_plain (h : Accepted src s) {steps : List Nat} (hP : PlainProof src s p steps) : NormalProof (envOf look src s) (steps.map Int.ofNat) := by
  have hok : ∀ x ∈ steps.map Int.ofNat, StepOk (envOf look src s) x := by
    intro x hx
    obtain ⟨j, hj, rfl⟩ := List.mem_map.1 hx
    exact stepOk_of h (hP.stmts j hj)
  obtain ⟨f, h1, h2, h3⟩ := forest_of_depth (E := envOf look src s) hP.tree hok
  cases f with
  | nil => simp [count] at h3
  | snoc l x ch =>
    have : l = nil := count_zero (by simpa [count] using h3)
    subst this
    refine ⟨x, ch, h1, h2, ?_⟩
    intro y hy
    obtain ⟨j, _, rfl⟩ := List.mem_map.1 hy
    simp only [Int.ofNat_eq_natCast]; omega

/-- The steps of proof trees keep the stack. -/
theorem depth_of_forest {E : Env} : ∀ {f : Forest}, f.Wf E → ∀ {l : List Int} {n : Nat}, Depth E.toDb l n → Depth E.toDb (l ++ f.flat) (n + f.count)
  | nil, _, l, n, h => by simpa [flat, count] using h
  | snoc L x ch, ⟨hl, hc, hx, ha⟩, l, n, h => by
    have d1 := depth_of_forest hc (depth_of_forest hl h)
    have e : l ++ (snoc L x ch).flat = (l ++ L.flat ++ ch.flat) ++ [x] := by simp [flat]
    rw [e]
    by_cases hap : 1 ≤ x ∧ ((E.stmt x.toNat).kind = .a ∨ (E.stmt x.toNat).kind = .p)
    · have hx' : arity E x = (E.stmt x.toNat).reqHyp.length := by unfold arity; rw [if_pos hap]
      have d2 := Depth.use (db := E.toDb) d1 (by omega) hap.2 (by show (E.stmt x.toNat).reqHyp.length ≤ _; omega)
      have e2 : n + (snoc L x ch).count = n + L.count + ch.count - (E.toDb.stmt x.toNat).reqHyp.length + 1 := by
        show n + (L.count + 1) = n + L.count + ch.count - (E.stmt x.toNat).reqHyp.length + 1
        omega
      rw [e2]; exact d2
    · have h0 : arity E x = 0 := by unfold arity; rw [if_neg hap]
      have hch : ch = nil := count_zero (by omega)
      subst hch
      have d2 := Depth.push (db := E.toDb) (a := x) d1 (by
        rcases hx with hx | hx | ⟨h1, h2, h3⟩
        · exact Or.inl hx
        · exact Or.inr (Or.inl hx)
        · rcases h3 with h3 | h3 | h3
          · exact Or.inr (Or.inr ⟨by omega, Or.inr h3⟩)
          · exact Or.inr (Or.inr ⟨by omega, Or.inl h3⟩)
          · exact absurd ⟨h1, h3⟩ hap)
      exact d2

/-- What a step of a proof string stands for. -/
def refOf (x : Int) : Ref := if x ≤ -1000 then .step (-1000 - x).toNat else .stmt x.toNat

theorem refOf_code {x : Int} (h : x ≤ -1000 ∨ 0 ≤ x) : (refOf x).code = x := by
  unfold refOf
  split
  · simp only [Ref.code]; omega
  · simp only [Ref.code]; omega

/-- The steps of a packed proof that are not references are steps of the proof it stands for. -/
theorem expands_sub {E : Env} {q l : List Int} (hok : ∀ x ∈ q, StepOk E x) (h : Expands E q l) : ∀ x ∈ q, -1000 < x → x ∈ l := by
  obtain ⟨rec, hrun⟩ := h
  obtain ⟨g, hg, hgf, hge⟩ := run_forest (E := E) (l := q) (f := nil) (st := []) (sv := []) trivial hok (fun _ _ => rfl) hrun
  have hp : expL rec q = l := by
    have := entries_flatten rec g
    simp only at hge
    rw [← hge, hgf] at this
    simpa [flat] using this.symm
  intro x hx hx1
  rw [← hp]
  refine List.mem_flatMap.2 ⟨x, hx, ?_⟩
  unfold exp1
  rw [if_neg (by omega)]
  simp

/-- A packed form of a normal proof of the source is a packed proof of the source in the sense of C18. -/
theorem packed_of_expands (h : Accepted src s) {steps : List Nat} (hP : PlainProof src s p steps) {q : List Int}
    (hok : ∀ x ∈ q, StepOk (envOf look src s) x) (hr : RefsOk (envOf look src s) q) (he : Expands (envOf look src s) q (steps.map Int.ofNat)) :
    ∃ refs, q = refs.map Ref.code ∧ PackedProof src s p refs := by
  have hsub := expands_sub hok he
  have hx : ∀ x ∈ q, x ≤ -1000 ∨ 0 ≤ x := by
    intro x hx
    by_cases h1 : x ≤ -1000
    · exact Or.inl h1
    · obtain ⟨j, _, rfl⟩ := List.mem_map.1 (hsub x hx (by omega))
      right; simp only [Int.ofNat_eq_natCast]; omega
  have hq : q = (q.map refOf).map Ref.code := by
    rw [List.map_map]
    conv_lhs => rw [← List.map_id q]
    exact List.map_congr_left (fun x h => (refOf_code (hx x h)).symm)
  refine ⟨q.map refOf, hq, ?_, ?_, ?_⟩
  · intro j hj
    obtain ⟨x, hx1, hx2⟩ := List.mem_map.1 hj
    unfold refOf at hx2
    split at hx2
    · cases hx2
    · rename_i hlt
      injection hx2 with hx2
      obtain ⟨i, hi, rfl⟩ := List.mem_map.1 (hsub x hx1 (by omega))
      have : i = j := by simp only [Int.ofNat_eq_natCast] at hx2; omega
      subst this
      exact hP.stmts i hi
  · intro k i hk
    rw [List.getElem?_map] at hk
    obtain ⟨x, hx1, hx2⟩ := Option.map_eq_some_iff.1 hk
    unfold refOf at hx2
    split at hx2
    · rename_i hle
      injection hx2 with hx2
      obtain ⟨i', y, h1, h2, h3, h4⟩ := hr k x hx1 hle
      have : i' = i := by omega
      subst this
      have hy : 1 ≤ y ∧ ((envOf look src s).stmt y.toNat).kind = .a ∨ 1 ≤ y ∧ ((envOf look src s).stmt y.toNat).kind = .p := by
        unfold arity at h4
        split at h4
        · rename_i hh; rcases hh with ⟨ha, hb | hb⟩
          · exact Or.inl ⟨ha, hb⟩
          · exact Or.inr ⟨ha, hb⟩
        · omega
      refine ⟨h2, y.toNat, ?_, ?_⟩
      · rw [List.getElem?_map, h3]
        simp only [Option.map_some, refOf]
        rw [if_neg (by omega)]
      · rw [kind_env h] at hy
        rcases hy with hy | hy
        · exact Or.inl hy.2
        · exact Or.inr hy.2
    · cases hx2
  · rw [← hq]
    obtain ⟨rec, hrun⟩ := he
    obtain ⟨g, hg, hgf, hge⟩ := run_forest (E := envOf look src s) (l := q) (f := nil) (st := []) (sv := []) trivial hok (fun _ _ => rfl) hrun
    have d := depth_of_forest (E := envOf look src s) hg Depth.nil
    have hc : g.count = 1 := by
      have := congrArg List.length hge
      rw [entries_length] at this
      simpa using this.symm
    rw [hc, hgf] at d
    have d' : Depth (envOf look src s).toDb q 1 := by simpa [flat] using d
    exact d'

/-- **C21** with **C18**: a normal proof of `p` is packed, written in compressed form, read back and unpacked; the result is the same normal proof, and reading the text gives no
message.  (At most 120 mandatory hypotheses, as in C18.) -/
theorem C21_save_read_back (h : Accepted src s) (hl : LookOk look) (hL : SrcLabels src)
    (hLC : ∀ i, 1 ≤ i → i ≤ src.length → ∀ c ∈ srcLabel src i, LabelChar c)
    (hp : kindAt (kinds src) p = .p) {steps : List Nat} (hP : PlainProof src s p steps) (hreq : ∀ hs, MandList src s p hs → hs.length ≤ 120)
    {old : Bool} {width : Int} {indent fuel : Nat} (hroom : old = true ∨ 1 ≤ width - indent) {fuel2 : Nat} (hf2 : steps.length < fuel2) :
    ∃ q, squish (envOf look src s) (steps.map Int.ofNat) = .val q ∧ q.length ≤ steps.length ∧
      ∀ out, compressProof (envOf look src s) p q old width indent fuel = .val out →
        ∀ (W : Nat), (∀ hs, MandList src s p hs → hs.length + out.length ≤ W) → W ≤ 2 ^ 63 → ∀ r : List Char,
          ∃ q', parseProofText (envOf look src s) W p (out ++ '$' :: '.' :: r) out.length = .val ⟨q', 0, 0⟩ ∧
            unsquish (envOf look src s) fuel2 q' = .val (steps.map Int.ofNat) := by
  have hN := normal_of_plain (look := look) h hP
  obtain ⟨q, h1, h2, h3, h4, h5⟩ := C21_pack_keeps_meaning hN
  obtain ⟨refs, rfl, hPk⟩ := packed_of_expands h hP h5 h4 h3
  refine ⟨_, h1, by simpa using h2, ?_⟩
  intro out hrun W hW hW2 r
  exact ⟨_, C18_compressed_round_trip h hl hL hLC hp hPk hroom hreq hrun hW hW2 r, C21_unpack_gives_meaning h5 h4 h3 (by simpa using hf2)⟩

end MM.Tree
