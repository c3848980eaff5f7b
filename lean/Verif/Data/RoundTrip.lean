import Verif.Data.CompressSpec
import Mathlib.Data.List.Count
/-!
# `compressProof`: the labels, the lengths of the numbers, and reading the text back
-/
namespace MM.Data
open MM.Veri MM.Pars MM.Proof MM.Lex MM.Spec

variable {E : Env} {p : Nat}

/-! ### C31: the label list -/

/-- The list of explicit labels is a permutation of the labels that are needed. -/
theorem explicit_perm (hH : HypsOk E p) {refs : List Ref} (hP : PackedE E p refs) {old : Bool} {room : Int} {fuel : Nat} {expl : List Int}
    (hroom : old = true ∨ 1 ≤ room) (he : explicit E p (refs.map Ref.code) old room fuel = .val expl) : expl.Perm (needed E p (refs.map Ref.code)) := by
  cases old with
  | true => rw [explicit_old hH] at he; cases he; exact List.Perm.refl _
  | false =>
    rw [explicit_new hH] at he
    have hroom : 1 ≤ room := by rcases hroom with h | h; cases h; exact h
    have hrc := refCounts_ok (packed_lt hP) (packed_pos hP)
    rcases reorder_spec (E := E) (fuel := fuel) hrc hroom with ⟨h, _⟩ | ⟨ls, h, hperm, _⟩
    · rw [h] at he; cases he
    · rw [h] at he
      cases he
      have := hperm.map Prod.fst
      rw [List.map_map] at this
      have e : Prod.fst ∘ pr = ELab.stmt := rfl
      rwa [e, mkLabs_stmt] at this

/-! ### C44: label numbers -/

theorem foldl_max_ge : ∀ (l : List Nat) (m : Nat), m ≤ l.foldl max m ∧ ∀ x ∈ l, x ≤ l.foldl max m
  | [], m => ⟨le_refl _, by simp⟩
  | x :: l, m => by
    obtain ⟨h1, h2⟩ := foldl_max_ge l (max m x)
    rw [List.foldl_cons]
    refine ⟨by omega, ?_⟩
    intro y hy
    rcases List.mem_cons.1 hy with rfl | hy
    · omega
    · exact h2 y hy

theorem visitOrder_mem {rc : List Nat} (h : ∀ x ∈ rc, 1 ≤ x) {j : Nat} : j ∈ visitOrder rc ↔ j < rc.length := by
  unfold visitOrder
  rw [List.mem_flatMap]
  constructor
  · rintro ⟨i, _, hj⟩
    rw [List.mem_filter, List.mem_range] at hj
    exact hj.1
  · intro hj
    have hm : rc.getD j 0 ∈ rc := by rw [List.getD_eq_getElem _ _ hj]; exact List.getElem_mem _
    have h1 := h _ hm
    have h2 := (foldl_max_ge rc 0).2 _ hm
    refine ⟨rc.getD j 0 - 1, ?_, ?_⟩
    · rw [List.mem_reverse, List.mem_range]; omega
    · rw [List.mem_filter, List.mem_range]
      refine ⟨hj, ?_⟩
      rw [beq_iff_eq]; omega

/-- Indices with more references come first; equal ones in increasing order. -/
theorem visitOrder_sorted (rc : List Nat) : (visitOrder rc).Pairwise (fun a b => rc.getD b 0 < rc.getD a 0 ∨ (rc.getD a 0 = rc.getD b 0 ∧ a < b)) := by
  unfold visitOrder
  rw [List.pairwise_flatMap]
  constructor
  · intro i _
    have : ((List.range rc.length).filter fun j => rc.getD j 0 == i + 1).Pairwise (· < ·) := List.pairwise_lt_range.filter _
    refine List.Pairwise.imp_of_mem ?_ this
    intro a b ha hb hlt
    rw [List.mem_filter, beq_iff_eq] at ha hb
    right
    exact ⟨by rw [ha.2, hb.2], hlt⟩
  · rw [List.pairwise_reverse]
    refine List.pairwise_lt_range.imp ?_
    intro i k hik x hx y hy
    rw [List.mem_filter, beq_iff_eq] at hx hy
    left
    omega

theorem visitOrder_nodup (rc : List Nat) : (visitOrder rc).Nodup := by
  refine (visitOrder_sorted rc).imp ?_
  rintro a b h rfl
  omega

theorem visitOrder_perm {rc : List Nat} (h : ∀ x ∈ rc, 1 ≤ x) : (visitOrder rc).Perm (List.range rc.length) := by
  rw [List.perm_ext_iff_of_nodup (visitOrder_nodup rc) List.nodup_range]
  intro a
  rw [visitOrder_mem h, List.mem_range]

theorem idxOf_self_map {l : List Nat} (h : l.Nodup) : l.map (fun x => l.idxOf x) = List.range l.length := by
  apply List.ext_getElem
  · simp
  · intro i h1 h2
    simp only [List.getElem_map, List.getElem_range]
    exact h.idxOf_getElem i (by simpa using h1)

theorem mkLabs_lens {k : Nat} {expl : List Int} {rc : List Nat} (hlen : rc.length = expl.length) (h : ∀ x ∈ rc, 1 ≤ x) :
    ((mkLabs E k expl rc).map ELab.len).Perm ((List.range expl.length).map fun i => numChrs (k + i)) := by
  have e1 : (mkLabs E k expl rc).map ELab.len = (List.range expl.length).map fun i => numChrs (k + (visitOrder rc).idxOf i) := by
    unfold mkLabs
    rw [List.map_map]
    apply List.ext_getElem
    · simp
    · intro i h1 h2
      simp
  rw [e1]
  have h2 : (List.range expl.length).Perm (visitOrder rc) := by rw [← hlen]; exact (visitOrder_perm h).symm
  refine (h2.map _).trans ?_
  have e2 : (visitOrder rc).map (fun i => numChrs (k + (visitOrder rc).idxOf i)) = ((visitOrder rc).map (fun x => (visitOrder rc).idxOf x)).map fun i => numChrs (k + i) := by
    rw [List.map_map]; rfl
  rw [e2, idxOf_self_map (visitOrder_nodup rc)]
  have : (visitOrder rc).length = expl.length := by rw [(visitOrder_perm h).length_eq, List.length_range, hlen]
  rw [this]

/-- **C44** for the environment: label number `i` (counted from 0 in the explicit list) that is used more often than label number `j` gets a number that is not
longer. -/
theorem explicit_lengths (hH : HypsOk E p) {refs : List Ref} (hP : PackedE E p refs) {room : Int} {fuel : Nat} {expl : List Int}
    (hroom : 1 ≤ room) (he : explicit E p (refs.map Ref.code) false room fuel = .val expl) {i j : Nat} {x y : Int}
    (hi : expl[i]? = some x) (hj : expl[j]? = some y) (hc : (refs.map Ref.code).count y < (refs.map Ref.code).count x) :
    (encLabel ((E.stmt p).reqHyp.length + i)).length ≤ (encLabel ((E.stmt p).reqHyp.length + j)).length := by
  rw [explicit_new hH] at he
  generalize hN : needed E p (refs.map Ref.code) = N at he
  have hpos := packed_pos hP
  rw [hN] at hpos
  have hnd : N.Nodup := by rw [← hN]; exact needed_nodup
  have hrc := refCounts_ok (packed_lt hP) hpos
  generalize hrcd : N.map (fun x => (refs.map Ref.code).count x) = rc at hrc
  have hlen : rc.length = N.length := by rw [← hrcd]; simp
  have hge : ∀ x ∈ rc, 1 ≤ x := by
    rw [← hrcd]
    intro c hc
    obtain ⟨z, hz, rfl⟩ := List.mem_map.1 hc
    exact List.count_pos_iff.2 (hpos z hz).2
  rcases reorder_spec (E := E) (fuel := fuel) hrc hroom with ⟨h, _⟩ | ⟨ls, h, hperm, hsort, _⟩
  · rw [h] at he; cases he
  · rw [h] at he
    cases he
    generalize hk : (E.stmt p).reqHyp.length = k at hperm ⊢
    -- the planned lengths are those of the positions
    have hlens : ls.map Prod.snd = (List.range N.length).map fun i => numChrs (k + i) := by
      apply List.Perm.eq_of_pairwise (le := (· ≤ ·))
      · intro a b _ _ h1 h2; omega
      · exact List.pairwise_map.2 hsort
      · refine List.pairwise_map.2 (List.pairwise_lt_range.imp ?_)
        intro a b hab
        exact numChrs_mono (by omega)
      · have := hperm.map Prod.snd
        rw [List.map_map] at this
        exact this.trans (mkLabs_lens hlen hge)
    have hlsl : ls.length = N.length := by
      have := congrArg List.length hlens
      simpa using this
    -- a label, its position and its planned length
    have key : ∀ {i : Nat} {x : Int}, (ls.map Prod.fst)[i]? = some x → ∃ m : Nat, N[m]? = some x ∧ m < N.length ∧
        numChrs (k + i) = numChrs (k + (visitOrder rc).idxOf m) := by
      intro i x hi
      rw [List.getElem?_map] at hi
      cases hl : ls[i]? with
      | none => rw [hl] at hi; cases hi
      | some ab =>
        rw [hl] at hi
        simp only [Option.map_some, Option.some.injEq] at hi
        have hilt : i < ls.length := (List.getElem?_eq_some_iff.1 hl).1
        have hm : ab ∈ (mkLabs E k N rc).map pr := hperm.mem_iff.1 (List.mem_of_getElem? hl)
        obtain ⟨el, hel, rfl⟩ := List.mem_map.1 hm
        unfold mkLabs at hel
        obtain ⟨⟨z, m⟩, hz, rfl⟩ := List.mem_map.1 hel
        rw [List.mk_mem_zipIdx_iff_getElem?] at hz
        have hlen2 : (ls.map Prod.snd)[i]? = some (numChrs (k + i)) := by
          rw [hlens, List.getElem?_map, List.getElem?_range (by omega)]; rfl
        rw [List.getElem?_map, hl] at hlen2
        simp only [Option.map_some, pr, Option.some.injEq] at hlen2 hi
        exact ⟨m, by rw [hz, hi], (List.getElem?_eq_some_iff.1 hz).1, hlen2.symm⟩
    obtain ⟨a, ha1, ha2, ha3⟩ := key hi
    obtain ⟨b, hb1, hb2, hb3⟩ := key hj
    rw [C17_encoding_length, C17_encoding_length, ha3, hb3]
    apply numChrs_mono
    have hrcx : ∀ {m : Nat} {x : Int}, N[m]? = some x → rc.getD m 0 = (refs.map Ref.code).count x := by
      intro m x hm
      rw [← hrcd, List.getD_eq_getElem?_getD, List.getElem?_map, hm]; rfl
    have hva : a ∈ visitOrder rc := (visitOrder_mem hge).2 (by omega)
    have hvb : b ∈ visitOrder rc := (visitOrder_mem hge).2 (by omega)
    have hne : ¬ (visitOrder rc).idxOf b < (visitOrder rc).idxOf a := by
      intro hlt
      have hs := List.pairwise_iff_getElem.1 (visitOrder_sorted rc) _ _ (List.idxOf_lt_length_of_mem hvb) (List.idxOf_lt_length_of_mem hva) hlt
      rw [List.getElem_idxOf, List.getElem_idxOf, hrcx ha1, hrcx hb1] at hs
      omega
    omega

/-! ### Packed proofs of the source -/

variable {src : List Src} {s : PState} {look : Look}

/-- A packed proof of statement `p`: every step is an active hypothesis of `p`, an assertion before `p`, or refers to an earlier step that uses an assertion;
and the steps form one proof tree (one entry is left on the stack). -/
structure PackedProof (src : List Src) (s : PState) (p : Nat) (refs : List Ref) : Prop where
  stmts : ∀ j, Ref.stmt j ∈ refs → MandHyp (isVarOf src) (kinds src) s.math p j ∨ OptHyp (isVarOf src) (kinds src) s.math p j ∨ (j < p ∧ IsAssert src j)
  steps : ∀ (k i : Nat), refs[k]? = some (.step i) → i < k ∧ ∃ j, refs[i]? = some (.stmt j) ∧ IsAssert src j
  tree : Depth (toDb src s) (refs.map Ref.code) 1

theorem packedE_of (h : Accepted src s) (hp : kindAt (kinds src) p = .p) {refs : List Ref} (hP : PackedProof src s p refs) :
    PackedE (envOf look src s) p refs where
  stmts := by
    intro j hj
    have hm : ∀ {j}, j ∈ ((envOf look src s).stmt p).reqHyp ++ ((envOf look src s).stmt p).optHyp →
        1 ≤ j ∧ j < p ∧ (j ∈ ((envOf look src s).stmt p).reqHyp ++ ((envOf look src s).stmt p).optHyp ∨ ((envOf look src s).stmt j).kind = .a ∨ ((envOf look src s).stmt j).kind = .p) := by
      intro j hj
      obtain ⟨h1, h2, _⟩ := (hypsOk_of (look := look) h hp).mem j hj
      exact ⟨h1, h2, Or.inl hj⟩
    rcases hP.stmts j hj with h1 | h1 | ⟨h1, h2⟩
    · exact hm (List.mem_append_left _ (((mandList_req h hp).2 j).2 h1))
    · exact hm (List.mem_append_right _ ((mem_opt_iff h hp j).2 h1))
    · have hpos := kindAt_pos (ks := kinds src) (i := j) (by rcases h2 with e | e <;> rw [e] <;> simp)
      refine ⟨hpos.1, h1, Or.inr ?_⟩
      rw [kind_env h]; exact h2
  steps := by
    intro k i hk
    obtain ⟨h1, j, h2, h3⟩ := hP.steps k i hk
    exact ⟨h1, j, h2, by rw [kind_env h]; exact h3⟩

/-- Statement `j` must be listed in a compressed proof `refs` of `p`: it occurs in the proof and is not a mandatory hypothesis. -/
def MustList (src : List Src) (s : PState) (p : Nat) (refs : List Ref) (j : Nat) : Prop :=
  Ref.stmt j ∈ refs ∧ ¬ MandHyp (isVarOf src) (kinds src) s.math p j

theorem needed_iff (h : Accepted src s) (hp : kindAt (kinds src) p = .p) {refs : List Ref} {x : Int} :
    x ∈ needed (envOf look src s) p (refs.map Ref.code) ↔ ∃ j : Nat, x = j ∧ MustList src s p refs j := by
  rw [mem_needed]
  constructor
  · rintro ⟨h1, h2, h3⟩
    obtain ⟨r, hr, rfl⟩ := mem_codes h1
    cases r with
    | step i => simp only [Ref.code] at h2; omega
    | stmt j =>
      refine ⟨j, rfl, hr, fun hm => h3 ?_⟩
      exact List.mem_map.2 ⟨j, ((mandList_req h hp).2 j).2 hm, rfl⟩
  · rintro ⟨j, rfl, h1, h2⟩
    refine ⟨List.mem_map.2 ⟨_, h1, rfl⟩, by omega, ?_⟩
    intro hc
    obtain ⟨i, hi, e⟩ := List.mem_map.1 hc
    have : i = j := by omega
    subst this
    exact h2 (((mandList_req h hp).2 i).1 hi)

/-- What `compressProof` writes for a packed proof: `( labels ) letters`. -/
theorem compress_out (h : Accepted src s) (hp : kindAt (kinds src) p = .p) {refs : List Ref} (hP : PackedProof src s p refs)
    {old : Bool} {width : Int} {indent fuel : Nat} {out : List Char} (hroom : old = true ∨ 1 ≤ width - indent)
    (hrun : compressProof (envOf look src s) p (refs.map Ref.code) old width indent fuel = .val out) :
    ∃ expl : List Int, explicit (envOf look src s) p (refs.map Ref.code) old (width - indent) fuel = .val expl ∧
      expl.Perm (needed (envOf look src s) p (refs.map Ref.code)) ∧
      out = ['(', ' '] ++ spaced (expl.map fun x => srcLabel src x.toNat) ++ [' ', ')', ' '] ++ codeText (cstepsOf (envOf look src s) p refs expl) := by
  have hPE := packedE_of (look := look) h hp hP
  have hH := hypsOk_of (look := look) h hp
  have hk : ((envOf look src s).stmt p).kind = .p := by rw [kind_env h]; exact hp
  cases he : explicit (envOf look src s) p (refs.map Ref.code) old (width - indent) fuel with
  | val expl =>
    have hperm := explicit_perm hH hPE hroom he
    refine ⟨expl, rfl, hperm, ?_⟩
    rw [compressProof_eq hH hPE hk he hperm] at hrun
    injection hrun with hrun
    exact hrun.symm
  | _ =>
    exfalso
    unfold compressProof at hrun
    rw [if_neg (by simp [hk])] at hrun
    dsimp only at hrun
    have hlen : (refs.map Ref.code).length = refs.length := List.length_map _
    generalize hsc : splitCheck (refs.map Ref.code).length (nmbrUnion (((envOf look src s).stmt p).reqHyp.map fun (i : Nat) => (i : Int)) (refs.map Ref.code)) = sc at hrun
    cases sc with
    | val u =>
      rw [Out.bind_val] at hrun
      split at hrun
      · cases hrun
      · rw [he] at hrun; cases hrun
    | _ => cases hrun

/-- **C31**.  The labels in the parentheses of the compressed proof are those of a list of statements without repetition, that has exactly the statements of the
proof that are not mandatory hypotheses. -/
theorem C31_labels_listed_once (h : Accepted src s) (hp : kindAt (kinds src) p = .p) {refs : List Ref} (hP : PackedProof src s p refs)
    {old : Bool} {width : Int} {indent fuel : Nat} {out : List Char} (hroom : old = true ∨ 1 ≤ width - indent)
    (hrun : compressProof (envOf look src s) p (refs.map Ref.code) old width indent fuel = .val out) :
    ∃ (js : List Nat) (xs : List CStep), out = ['(', ' '] ++ spaced (js.map (srcLabel src)) ++ [' ', ')', ' '] ++ codeText xs ∧
      js.Nodup ∧ ∀ j, j ∈ js ↔ MustList src s p refs j := by
  obtain ⟨expl, he, hperm, rfl⟩ := compress_out h hp hP hroom hrun
  refine ⟨expl.map Int.toNat, cstepsOf (envOf look src s) p refs expl, ?_, ?_, ?_⟩
  · rw [List.map_map]; rfl
  · have hnd : expl.Nodup := hperm.nodup_iff.2 needed_nodup
    refine List.Nodup.map_on ?_ hnd
    intro x hx y hy e
    obtain ⟨a, rfl, _⟩ := (needed_iff h hp).1 (hperm.mem_iff.1 hx)
    obtain ⟨b, rfl, _⟩ := (needed_iff h hp).1 (hperm.mem_iff.1 hy)
    simpa using e
  · intro j
    rw [List.mem_map]
    constructor
    · rintro ⟨x, hx, rfl⟩
      obtain ⟨a, rfl, ha⟩ := (needed_iff h hp).1 (hperm.mem_iff.1 hx)
      simpa using ha
    · intro hj
      exact ⟨j, hperm.mem_iff.2 ((needed_iff h hp).2 ⟨j, rfl, hj⟩), by simp⟩

/-- The text means the proof. -/
theorem comp_means (h : Accepted src s) (hp : kindAt (kinds src) p = .p) {refs : List Ref} (hP : PackedProof src s p refs) {expl : List Int}
    (hperm : expl.Perm (needed (envOf look src s) p (refs.map Ref.code))) :
    CompMeans src s p (expl.map fun x => srcLabel src x.toNat) (cstepsOf (envOf look src s) p refs expl) refs := by
  have hPE := packedE_of (look := look) h hp hP
  refine ⟨⟨(s.stmt p).reqHyp, expl.map Int.toNat, mandList_req h hp, ?_, cstepsOf_decodes hPE hperm⟩, ?_⟩
  · rw [List.forall₂_map_left_iff, List.forall₂_map_right_iff, List.forall₂_same]
    intro x hx
    obtain ⟨j, rfl, h1, h2⟩ := (needed_iff h hp).1 (hperm.mem_iff.1 hx)
    refine ⟨rfl, ?_⟩
    rw [Int.toNat_natCast]
    rcases hP.stmts j h1 with h3 | h3 | h3
    · exact absurd h3 h2
    · exact Or.inl h3
    · exact Or.inr h3
  · intro k x ref hx hr h0
    obtain ⟨j, rfl, hj⟩ := cstepsOf_marks hPE hx hr h0
    rw [kind_env h] at hj
    exact ⟨j, rfl, hj⟩

/-- **C18**, for the text in any layout.  Let `compressProof` write the packed proof `refs` of `p`.  The text is `( labels ) letters`; and any proof section that
consists of these labels and these letters - whatever the line breaks, blanks and comments - is read back as exactly the proof `refs`, without any message,
unless the heuristic for the old algorithm fires and some number has more than one digit. -/
theorem C18_round_trip_layout (h : Accepted src s) (hl : LookOk look) (hL : SrcLabels src) (hp : kindAt (kinds src) p = .p) {refs : List Ref}
    (hP : PackedProof src s p refs) {old : Bool} {width : Int} {indent fuel : Nat} {out : List Char} (hroom : old = true ∨ 1 ≤ width - indent)
    (hrun : compressProof (envOf look src s) p (refs.map Ref.code) old width indent fuel = .val out) :
    ∃ (labs : List Name) (xs : List CStep), out = ['(', ' '] ++ spaced labs ++ [' ', ')', ' '] ++ codeText xs ∧ CompMeans src s p labs xs refs ∧
      ∀ (t r : List Char) (W : Nat), SourceChars t → (∃ tail, CompSection t labs (codeText xs) tail) →
        ((∀ tail, CompSection t labs (codeText xs) tail → ¬ OldLooking tail) ∨ ∀ x ∈ xs, x.num.digs.length ≤ 1) →
        (∀ hs, MandList src s p hs → hs.length + t.length ≤ W) → W ≤ 2 ^ 63 →
        parseProofText (envOf look src s) W p (t ++ '$' :: '.' :: r) t.length = .val ⟨refs.map Ref.code, 0, 0⟩ := by
  obtain ⟨expl, he, hperm, rfl⟩ := compress_out h hp hP hroom hrun
  have hM := comp_means (look := look) h hp hP hperm
  refine ⟨_, _, rfl, hM, ?_⟩
  rintro t r W hT ⟨tail, hsec⟩ hold hW hW2
  exact C39_compressed_complete h hl hL hp hT hsec hold hM hW hW2 hP.tree

/-! ### The text itself as a proof section -/

/-- A legal label. -/
def LabelWord (w : Name) : Prop := w ≠ [] ∧ ∀ c ∈ w, LabelChar c

theorem labelChar_graph {c : Char} (h : LabelChar c) : isGraph c = true ∧ isSingle c = false ∧ c ≠ '$' ∧ c ≠ ')' := by
  have hr : (45 ≤ c.toNat ∧ c.toNat ≤ 46) ∨ (48 ≤ c.toNat ∧ c.toNat ≤ 57) ∨ (65 ≤ c.toNat ∧ c.toNat ≤ 90) ∨ c.toNat = 95 ∨ (97 ≤ c.toNat ∧ c.toNat ≤ 122) := by
    unfold LabelChar at h
    simp only [Char.le_def, UInt32.le_iff_toNat_le] at h
    rcases h with h | h | h | rfl | rfl | rfl
    · right; right; left; exact h
    · right; right; right; right; exact h
    · right; left; exact h
    · left; decide
    · right; right; right; left; decide
    · left; decide
  have hne : ∀ d : Char, c = d → c.toNat = d.toNat := fun d e => by rw [e]
  have n1 : c ≠ ':' := fun e => by have := hne _ e; simp at this; omega
  have n2 : c ≠ '?' := fun e => by have := hne _ e; simp at this; omega
  have n3 : c ≠ '(' := fun e => by have := hne _ e; simp at this; omega
  have n4 : c ≠ ')' := fun e => by have := hne _ e; simp at this; omega
  have n5 : c ≠ '=' := fun e => by have := hne _ e; simp at this; omega
  have n6 : c ≠ '$' := fun e => by have := hne _ e; simp at this; omega
  refine ⟨?_, ?_, n6, n4⟩
  · unfold isGraph; simp; omega
  · unfold isSingle; simp [n1, n2, n3, n4, n5]

theorem spread_plain : ∀ {u : List Char}, (∀ c ∈ u, isSingle c = false) → spreadBy isSingle u = u
  | [], _ => rfl
  | c :: u, h => by
    rw [spread_cons, if_neg (by rw [h c (by simp)]; simp), spread_plain (fun x hx => h x (by simp [hx]))]; rfl

theorem spaced_cons2 (w v : Name) (ws : List Name) : spaced (w :: v :: ws) = w ++ ' ' :: spaced (v :: ws) := by simp [spaced, List.intercalate]
theorem spaced_one (w : Name) : spaced [w] = w := by simp [spaced, List.intercalate]

theorem words_spaced : ∀ {ws : List Name}, (∀ w ∈ ws, w ≠ [] ∧ ∀ c ∈ w, isGraph c = true) → words (spaced ws ++ [' ']) = ws
  | [], _ => by
    show words ([' ']) = []
    rw [words_blank (by decide), words_nil]
  | [w], h => by
    obtain ⟨h1, h2⟩ := h w (by simp)
    rw [spaced_one, words_word h2 h1 (by intro c hc; simp at hc; subst hc; decide), words_blank (by decide), words_nil]
  | w :: v :: ws, h => by
    obtain ⟨h1, h2⟩ := h w (by simp)
    rw [spaced_cons2, List.append_assoc, List.cons_append, words_word h2 h1 (by intro c hc; simp at hc; subst hc; decide), words_blank (by decide),
      words_spaced (fun x hx => h x (by simp [hx]))]

theorem mem_spaced : ∀ {ws : List Name} {c : Char}, c ∈ spaced ws → c = ' ' ∨ ∃ w ∈ ws, c ∈ w
  | [], c, h => by simp [spaced, List.intercalate] at h
  | [w], c, h => by rw [spaced_one] at h; exact Or.inr ⟨w, by simp, h⟩
  | w :: v :: ws, c, h => by
    rw [spaced_cons2, List.mem_append, List.mem_cons] at h
    rcases h with h | rfl | h
    · exact Or.inr ⟨w, by simp, h⟩
    · exact Or.inl rfl
    · rcases mem_spaced h with h | ⟨x, hx, hc⟩
      · exact Or.inl h
      · exact Or.inr ⟨x, List.mem_cons_of_mem _ hx, hc⟩

theorem proofWords_spaced {ws : List Name} (h : ∀ w ∈ ws, LabelWord w) : proofWords (' ' :: (spaced ws ++ [' '])) = ws := by
  unfold proofWords
  rw [isSingle_eq, spread_plain, words_blank (by decide), words_spaced]
  · intro w hw
    exact ⟨(h w hw).1, fun c hc => (labelChar_graph ((h w hw).2 c hc)).1⟩
  · intro c hc
    rcases List.mem_cons.1 hc with rfl | hc
    · decide
    rcases List.mem_append.1 hc with hc | hc
    · rcases mem_spaced hc with rfl | ⟨w, hw, hc⟩
      · decide
      · exact (labelChar_graph ((h w hw).2 c hc)).2.1
    · simp at hc; subst hc; decide

theorem digit_chars : ∀ d : Fin 5, isGraph (digitChar d) = true ∧ digitChar d ≠ '$' ∧ digitChar d ≠ ')' := by decide
theorem letter_chars : ∀ d : Fin 20, isGraph (letterChar d) = true ∧ letterChar d ≠ '$' ∧ letterChar d ≠ ')' := by decide

theorem code_chars {xs : List CStep} : ∀ c ∈ codeText xs, isGraph c = true ∧ c ≠ '$' ∧ c ≠ ')' := by
  intro c hc
  unfold codeText at hc
  obtain ⟨x, _, hc⟩ := List.mem_flatMap.1 hc
  rcases List.mem_append.1 hc with hc | hc
  · unfold CNum.text at hc
    rcases List.mem_append.1 hc with hc | hc
    · obtain ⟨d, _, rfl⟩ := List.mem_map.1 hc
      exact digit_chars d
    · simp at hc; subst hc; exact letter_chars _
  · rw [List.eq_of_mem_replicate hc]; decide

theorem blank_self : ∀ {t : List Char}, '$' ∉ t → Blank t t
  | [], _ => .nil
  | c :: t, h => by
    simp at h
    exact .char c (Ne.symm h.1) (blank_self h.2)

theorem blank_eq {t u : List Char} (hB : Blank t u) : '$' ∉ t → u = t := by
  induction hB with
  | nil => intro _; rfl
  | char c _ _ ih => intro h; simp at h; rw [ih h.2]
  | comment _ _ _ => intro h; simp at h

/-- The text with the labels `labs` and the letters `xs`. -/
def outText (labs : List Name) (xs : List CStep) : List Char := ['(', ' '] ++ spaced labs ++ [' ', ')', ' '] ++ codeText xs

theorem outText_eq (labs : List Name) (xs : List CStep) : outText labs xs = '(' :: ((' ' :: (spaced labs ++ [' '])) ++ ')' :: (' ' :: codeText xs)) := by
  simp [outText]

theorem outText_no_dollar {labs : List Name} {xs : List CStep} (h : ∀ w ∈ labs, LabelWord w) : '$' ∉ outText labs xs := by
  rw [outText_eq]
  simp only [List.mem_cons, List.mem_append, List.not_mem_nil, or_false, not_or]
  refine ⟨by decide, ⟨by decide, ⟨fun hc => ?_, by decide⟩⟩, by decide, by decide, fun hc => (code_chars _ hc).2.1 rfl⟩
  rcases mem_spaced hc with hc | ⟨w, hw, hc⟩
  · exact absurd hc (by decide)
  · exact (labelChar_graph ((h w hw).2 _ hc)).2.2.1 rfl

theorem spaced_no_paren {labs : List Name} (h : ∀ w ∈ labs, LabelWord w) : ')' ∉ ' ' :: (spaced labs ++ [' ']) := by
  simp only [List.mem_cons, List.mem_append, List.not_mem_nil, or_false, not_or]
  refine ⟨by decide, fun hc => ?_, by decide⟩
  rcases mem_spaced hc with hc | ⟨w, hw, hc⟩
  · exact absurd hc (by decide)
  · exact (labelChar_graph ((h w hw).2 _ hc)).2.2.2 rfl

theorem outText_chars {labs : List Name} {xs : List CStep} (h : ∀ w ∈ labs, LabelWord w) : SourceChars (outText labs xs) := by
  have g : ∀ c, isGraph c = true ∨ c = ' ' → printable c = true ∨ c.toNat ∈ [9, 10, 11, 12, 13, 32] := by
    rintro c (h | rfl)
    · left; rw [printable_eq]; exact h
    · right; decide
  intro c hc
  apply g
  rw [outText_eq] at hc
  simp only [List.mem_cons, List.mem_append, List.not_mem_nil, or_false] at hc
  rcases hc with rfl | (rfl | hc | rfl) | rfl | rfl | hc
  · left; decide
  · right; rfl
  · rcases mem_spaced hc with hc | ⟨w, hw, hc⟩
    · exact Or.inr hc
    · exact Or.inl (labelChar_graph ((h w hw).2 _ hc)).1
  · right; rfl
  · left; decide
  · right; rfl
  · exact Or.inl (code_chars _ hc).1

theorem code_filter (xs : List CStep) : codeText xs = (' ' :: codeText xs).filter printable := by
  rw [List.filter_cons_of_neg (by decide)]
  symm
  rw [List.filter_eq_self]
  intro c hc
  rw [printable_eq]; exact (code_chars c hc).1

theorem spaced_last : ∀ {ws : List Name} {w : Name}, ws.getLast? = some w → ∃ a, spaced ws = a ++ w
  | [v], w, h => by simp at h; subst h; exact ⟨[], by rw [spaced_one]; rfl⟩
  | v :: u :: ws, w, h => by
    rw [List.getLast?_cons_cons] at h
    obtain ⟨a, ha⟩ := spaced_last h
    exact ⟨v ++ ' ' :: a, by rw [spaced_cons2, ha]; simp⟩

theorem outText_section {labs : List Name} {xs : List CStep} (h : ∀ w ∈ labs, LabelWord w) : ∃ tail, CompSection (outText labs xs) labs (codeText xs) tail := by
  have hB : Blank (outText labs xs) ([] ++ '(' :: ((' ' :: (spaced labs ++ [' '])) ++ ')' :: (' ' :: codeText xs))) := by
    rw [List.nil_append, ← outText_eq]; exact blank_self (outText_no_dollar h)
  have hnd := outText_no_dollar (xs := xs) h
  cases hw : labs.getLast? with
  | none =>
    have : labs = [] := List.getLast?_eq_none_iff.1 hw
    refine ⟨' ' :: codeText xs, [], _, _, hB, by simp, spaced_no_paren h, (proofWords_spaced h).symm, code_filter xs, ?_, ?_, ?_⟩
    · rw [outText_eq]
      exact ⟨'(' :: ((' ' :: (spaced labs ++ [' '])) ++ [')']), by simp⟩
    · intro _
      apply blank_self
      intro hc; apply hnd; rw [outText_eq]; simp only [List.mem_cons, List.mem_append]
      right; right; right; simpa using hc
    · intro w hw'; rw [hw] at hw'; cases hw'
  | some w =>
    obtain ⟨a, ha⟩ := spaced_last hw
    have hsuf : w ++ [' '] ++ ')' :: (' ' :: codeText xs) <:+ outText labs xs := by
      rw [outText_eq, ha]
      exact ⟨'(' :: ' ' :: a, by simp⟩
    refine ⟨w ++ [' '] ++ ')' :: (' ' :: codeText xs), [], _, _, hB, by simp, spaced_no_paren h, (proofWords_spaced h).symm, code_filter xs, hsuf, ?_, ?_⟩
    · intro h0; rw [h0] at hw; cases hw
    · intro w' hw'
      rw [hw] at hw'; cases hw'
      refine ⟨[' '], blank_self ?_, by decide⟩
      intro hc; exact hnd (hsuf.subset hc)

/-- The part the heuristic looks at contains all the letters, in one piece. -/
theorem outText_tail {labs : List Name} {xs : List CStep} (h : ∀ w ∈ labs, LabelWord w) {tail : List Char}
    (hsec : CompSection (outText labs xs) labs (codeText xs) tail) : ∃ z, tail = z ++ codeText xs := by
  obtain ⟨b, u1, u2, hB, hb, hu1, _, _, hsuf, h1, h2⟩ := hsec
  have hnd := outText_no_dollar (xs := xs) h
  have e := blank_eq hB hnd
  have hnt : '$' ∉ tail := fun hc => hnd (hsuf.subset hc)
  -- the text after the `)`
  have hu2 : u2 = ' ' :: codeText xs := by
    rw [outText_eq, ← List.cons_append] at e
    have hp2 : ')' ∉ b ++ '(' :: u1 := by
      simp only [List.mem_append, List.mem_cons, not_or]
      refine ⟨fun hc => ?_, by decide, hu1⟩
      have := hb _ hc
      exact absurd this (by decide)
    have e' : (b ++ '(' :: u1) ++ ')' :: u2 = ('(' :: ' ' :: (spaced labs ++ [' '])) ++ ')' :: (' ' :: codeText xs) := by simpa using e
    have hp3 : ')' ∉ '(' :: ' ' :: (spaced labs ++ [' ']) := by
      rw [List.mem_cons, not_or]
      exact ⟨by decide, spaced_no_paren h⟩
    have uniq : ∀ (a b x y : List Char), ')' ∉ a → ')' ∉ b → a ++ ')' :: x = b ++ ')' :: y → x = y := by
      intro a
      induction a with
      | nil =>
        intro b x y _ hb he
        cases b with
        | nil => simpa using he
        | cons c b => simp at he hb; exact absurd he.1 hb.1
      | cons c a ih =>
        intro b x y ha hb he
        cases b with
        | nil => simp at he ha; exact absurd he.1.symm ha.1
        | cons d b => simp at he ha hb; exact ih b x y ha.2 hb.2 he.2
    exact uniq _ _ _ _ hp2 hp3 e'
  cases hw : labs.getLast? with
  | none =>
    have := blank_eq (h1 (List.getLast?_eq_none_iff.1 hw)) hnt
    rw [← this, hu2]
    exact ⟨[' '], rfl⟩
  | some w =>
    obtain ⟨v, hv, _⟩ := h2 w hw
    have := blank_eq hv hnt
    rw [← this, hu2]
    exact ⟨w ++ v ++ ')' :: [' '], by simp⟩


/-! ### C19: the heuristic for the old algorithm -/

theorem digVal_two {ds : List (Fin 5)} (h : 2 ≤ ds.length) : 6 ≤ ds.foldl (fun v (d : Fin 5) => 5 * v + (d.val + 1)) 0 := by
  have hmono : ∀ (l : List (Fin 5)) (a : Nat), a ≤ l.foldl (fun v (d : Fin 5) => 5 * v + (d.val + 1)) a := by
    intro l
    induction l with
    | nil => intro a; exact le_refl _
    | cons x l ihl => intro a; rw [List.foldl_cons]; have := ihl (5 * a + (x.val + 1)); omega
  match ds, h with
  | a :: b :: ds, _ =>
    rw [List.foldl_cons, List.foldl_cons]
    have := hmono ds (5 * (5 * 0 + (a.val + 1)) + (b.val + 1))
    omega

theorem numOf_120 : (numOf 120).text = ['U', 'U', 'A'] := by decide

/-- With at most 120 required hypotheses, either all numbers have at most one digit, or label number 120 is in use and the letters contain `UU`. -/
theorem code_has_UU (hH : HypsOk E p) {refs : List Ref} (hP : PackedE E p refs) {expl : List Int} (hperm : expl.Perm (needed E p (refs.map Ref.code)))
    (hreq : (E.stmt p).reqHyp.length ≤ 120) :
    (∀ x ∈ cstepsOf E p refs expl, x.num.digs.length ≤ 1) ∨ ['U', 'U'] <:+: codeText (cstepsOf E p refs expl) := by
  by_cases hall : ∀ x ∈ cstepsOf E p refs expl, x.num.digs.length ≤ 1
  · exact Or.inl hall
  · right
    push Not at hall
    obtain ⟨x, hx, hd⟩ := hall
    generalize hl : reqZ E p ++ expl ++ localsOf (l0Of E p (refs.map Ref.code)) refs.length = l
    have hnd : l.Nodup := by
      rw [← hl, List.nodup_append, List.nodup_append]
      refine ⟨⟨?_, hperm.nodup_iff.2 needed_nodup, ?_⟩, ?_, ?_⟩
      · unfold reqZ
        apply List.Nodup.map
        · intro a b e; simp only at e; omega
        · exact (List.nodup_append.1 hH.nodup).1
      · intro a ha b hb e
        subst e
        exact (mem_needed.1 (hperm.mem_iff.1 hb)).2.2 ha
      · unfold localsOf
        apply List.Nodup.map
        · intro a b e; simp only at e; omega
        · exact List.nodup_range.filter _
      · intro a ha b hb e
        subst e
        unfold localsOf at hb
        obtain ⟨k, _, rfl⟩ := List.mem_map.1 hb
        rcases List.mem_append.1 ha with ha | ha
        · have := (reqZ_hyp hH ha).1; omega
        · have := (packed_pos hP _ (hperm.mem_iff.1 ha)).1; omega
    have hmemx : ∀ {k : Nat} {r : Ref}, refs[k]? = some r →
        (cstepsOf E p refs expl)[k]? = some ⟨numOf (l.idxOf r.code), if isLocal (l0Of E p (refs.map Ref.code)) k then 1 else 0⟩ := by
      intro k r hr
      unfold cstepsOf
      rw [stepsOf_get, hl, List.getElem?_map, hr]
      simp
    -- the label list has more than 120 entries
    have hlen : 120 < l.length := by
      obtain ⟨k, hk⟩ := List.getElem?_of_mem hx
      have hk' : k < refs.length := by
        have := (List.getElem?_eq_some_iff.1 hk).1
        unfold cstepsOf at this
        rw [stepsOf_length, List.length_map] at this; exact this
      obtain ⟨r, hr⟩ : ∃ r, refs[k]? = some r := ⟨_, List.getElem?_eq_getElem hk'⟩
      rw [hmemx hr] at hk
      cases hk
      dsimp only at hd
      have h6 := digVal_two hd
      have hv := numOf_value (l.idxOf r.code)
      unfold CNum.value at hv
      have hmem : r.code ∈ l := by
        rw [← hl, List.mem_append, List.mem_append]
        have hrm := List.mem_of_getElem? hr
        cases r with
        | stmt j =>
          left
          by_cases hq : (Ref.stmt j).code ∈ reqZ E p
          · exact Or.inl hq
          · right
            rw [hperm.mem_iff, mem_needed]
            exact ⟨List.mem_map.2 ⟨_, hrm, rfl⟩, by simp [Ref.code], hq⟩
        | step i =>
          right
          unfold localsOf
          refine List.mem_map.2 ⟨i, ?_, rfl⟩
          rw [List.mem_filter, isLocal_iff, List.mem_range]
          exact ⟨packed_step_lt hP hrm, hrm⟩
      have := List.idxOf_lt_length_of_mem hmem
      omega
    -- entry 120 is used
    have hused : l[120] ∈ refs.map Ref.code := by
      have h120 : l[120] ∈ expl ++ localsOf (l0Of E p (refs.map Ref.code)) refs.length := by
        have hq : (reqZ E p).length ≤ 120 := by simpa [reqZ] using hreq
        generalize hv : l[120] = v
        have e : l[120]? = some v := by rw [List.getElem?_eq_getElem hlen, hv]
        rw [← hl, List.append_assoc, List.getElem?_append_right hq] at e
        exact List.mem_of_getElem? e
      rcases List.mem_append.1 h120 with hm | hm
      · exact (packed_pos hP _ (hperm.mem_iff.1 hm)).2
      · unfold localsOf at hm
        obtain ⟨k, hk, e⟩ := List.mem_map.1 hm
        rw [List.mem_filter, isLocal_iff] at hk
        rw [← e]
        exact List.mem_map.2 ⟨_, hk.2, rfl⟩
    obtain ⟨r, hr, e⟩ := mem_codes hused
    obtain ⟨k, hk⟩ := List.getElem?_of_mem hr
    have hst := hmemx hk
    rw [e, hnd.idxOf_getElem 120 hlen] at hst
    have hm := List.mem_of_getElem? hst
    obtain ⟨a, b, hab⟩ := List.append_of_mem hm
    rw [hab]
    unfold codeText
    rw [List.flatMap_append, List.flatMap_cons]
    dsimp only
    rw [numOf_120]
    exact ⟨_, _, by simp only [List.append_assoc]; rfl⟩

/-- **C19** (partial: statements with at most 120 mandatory hypotheses).  Let `compressProof` write a packed proof of `p`.  The part of the text the heuristic
examines does not look like the output of the old algorithm, or all numbers have at most one digit, in which case both algorithms read the same.
For statements with more mandatory hypotheses the claim is false, see `C19_heuristic_corrupts`. -/
theorem C19_heuristic_harmless_partial (h : Accepted src s) (hLC : ∀ i, 1 ≤ i → i ≤ src.length → ∀ c ∈ srcLabel src i, LabelChar c) (hL : SrcLabels src)
    (hp : kindAt (kinds src) p = .p) {refs : List Ref}
    (hP : PackedProof src s p refs) {old : Bool} {width : Int} {indent fuel : Nat} {out : List Char} (hroom : old = true ∨ 1 ≤ width - indent)
    (hreq : ∀ hs, MandList src s p hs → hs.length ≤ 120)
    (hrun : compressProof (envOf look src s) p (refs.map Ref.code) old width indent fuel = .val out) :
    ∃ (labs : List Name) (xs : List CStep), out = ['(', ' '] ++ spaced labs ++ [' ', ')', ' '] ++ codeText xs ∧ CompMeans src s p labs xs refs ∧
      SourceChars out ∧ (∃ tail, CompSection out labs (codeText xs) tail) ∧
      ((∀ tail, CompSection out labs (codeText xs) tail → ¬ OldLooking tail) ∨ ∀ x ∈ xs, x.num.digs.length ≤ 1) := by
  obtain ⟨expl, he, hperm, rfl⟩ := compress_out h hp hP hroom hrun
  have hM := comp_means (look := look) h hp hP hperm
  have hPE := packedE_of (look := look) h hp hP
  have hH := hypsOk_of (look := look) h hp
  have hlw : ∀ w ∈ expl.map (fun x => srcLabel src x.toNat), LabelWord w := by
    intro w hw
    obtain ⟨x, hx, rfl⟩ := List.mem_map.1 hw
    obtain ⟨h1, h2⟩ := packed_pos hPE x (hperm.mem_iff.1 hx)
    obtain ⟨r, hr, rfl⟩ := mem_codes h2
    cases r with
    | step i => simp only [Ref.code] at h1; omega
    | stmt j =>
      have hj := hPE.stmts j hr
      have hn : j ≤ src.length := by have := hH.range; simp only [envOf] at this; omega
      simp only [Ref.code, Int.toNat_natCast]
      refine ⟨?_, hLC j hj.1 hn⟩
      rw [hL.kinds j hj.1 hn]
      rcases hj.2.2 with hm | hm
      · have hk := (hH.mem j hm).2.2
        rw [kind_env h] at hk
        rcases hk with hk | hk
        · exact Or.inl hk
        · exact Or.inr (Or.inl hk)
      · rw [kind_env h] at hm
        exact Or.inr (Or.inr hm)
  refine ⟨_, _, rfl, hM, outText_chars hlw, outText_section hlw, ?_⟩
  rcases code_has_UU hH hPE hperm (hreq _ (mandList_req h hp)) with hd | hd
  · exact Or.inr hd
  · left
    intro tail hsec
    obtain ⟨z, rfl⟩ := outText_tail hlw hsec
    intro ho
    exact ho.2 (hd.trans (List.suffix_append _ _).isInfix)

/-- **C18**.  Parsing the text that `compressProof` writes for a packed proof of `p` gives exactly the same steps, without any message, if `p` has at most 120
mandatory hypotheses. -/
theorem C18_compressed_round_trip (h : Accepted src s) (hl : LookOk look) (hL : SrcLabels src)
    (hLC : ∀ i, 1 ≤ i → i ≤ src.length → ∀ c ∈ srcLabel src i, LabelChar c)
    (hp : kindAt (kinds src) p = .p) {refs : List Ref} (hP : PackedProof src s p refs) {old : Bool} {width : Int} {indent fuel : Nat} {out : List Char}
    (hroom : old = true ∨ 1 ≤ width - indent) (hreq : ∀ hs, MandList src s p hs → hs.length ≤ 120)
    (hrun : compressProof (envOf look src s) p (refs.map Ref.code) old width indent fuel = .val out)
    {W : Nat} (hW : ∀ hs, MandList src s p hs → hs.length + out.length ≤ W) (hW2 : W ≤ 2 ^ 63) (r : List Char) :
    parseProofText (envOf look src s) W p (out ++ '$' :: '.' :: r) out.length = .val ⟨refs.map Ref.code, 0, 0⟩ := by
  obtain ⟨labs, xs, rfl, hM, hT, ⟨tail, hsec⟩, hold⟩ := C19_heuristic_harmless_partial h hLC hL hp hP hroom hreq hrun
  exact C39_compressed_complete h hl hL hp hT hsec hold hM hW hW2 hP.tree

/-! ### C43: compressing ends -/

/-- **C43** (partial: every label that must be listed fits on a line).  Compressing a packed proof ends, without any internal error, if the labels that must be
listed are not longer than the width of a line; always with the old algorithm. -/
theorem C43_compress_terminates_partial (h : Accepted src s) (hp : kindAt (kinds src) p = .p) {refs : List Ref} (hP : PackedProof src s p refs)
    {old : Bool} {width : Int} {indent fuel : Nat} (hfit : old = true ∨ (1 ≤ width - indent ∧ (∀ j, MustList src s p refs j → ((srcLabel src j).length : Int) ≤ width - indent)))
    (hfuel : refs.length < fuel) : ∃ out, compressProof (envOf look src s) p (refs.map Ref.code) old width indent fuel = .val out := by
  have hPE := packedE_of (look := look) h hp hP
  have hH := hypsOk_of (look := look) h hp
  have hk : ((envOf look src s).stmt p).kind = .p := by rw [kind_env h]; exact hp
  have hex : ∃ expl, explicit (envOf look src s) p (refs.map Ref.code) old (width - indent) fuel = .val expl := by
    cases old with
    | true => exact ⟨_, explicit_old hH _ _ _⟩
    | false =>
      rcases hfit with hfit | ⟨hroom, hfit⟩
      · cases hfit
      rw [explicit_new hH]
      have hrc := refCounts_ok (packed_lt hPE) (packed_pos hPE)
      rcases reorder_spec (E := envOf look src s) (fuel := fuel) hrc hroom with ⟨_, hn⟩ | ⟨ls, hv, _⟩
      · exfalso
        apply hn
        constructor
        · intro x hx
          obtain ⟨j, rfl, hj⟩ := (needed_iff h hp).1 hx
          exact hfit j hj
        · have hsub : (needed (envOf look src s) p (refs.map Ref.code)).Subperm (refs.map Ref.code) :=
            List.subperm_of_subset needed_nodup (fun x hx => (packed_pos hPE x hx).2)
          have := hsub.length_le
          rw [List.length_map] at this
          omega
      · exact ⟨_, hv⟩
  obtain ⟨expl, he⟩ := hex
  have hroom : old = true ∨ 1 ≤ width - indent := hfit.imp id And.left
  exact ⟨_, compressProof_eq hH hPE hk he (explicit_perm hH hPE hroom he)⟩

/-- **C43**, the other direction: if a label that must be listed is longer than a line, compressing does not end - there is no result, whatever the number
of iterations. -/
theorem C43_long_label_never_ends (h : Accepted src s) (hp : kindAt (kinds src) p = .p) {refs : List Ref} (hP : PackedProof src s p refs)
    {width : Int} {indent j : Nat} (hroom : 1 ≤ width - indent) (hj : MustList src s p refs j) (hlong : width - indent < (srcLabel src j).length) (fuel : Nat) :
    compressProof (envOf look src s) p (refs.map Ref.code) false width indent fuel = .fuel := by
  have hPE := packedE_of (look := look) h hp hP
  have hH := hypsOk_of (look := look) h hp
  have hk : ((envOf look src s).stmt p).kind = .p := by rw [kind_env h]; exact hp
  have he : explicit (envOf look src s) p (refs.map Ref.code) false (width - indent) fuel = .fuel := by
    rw [explicit_new hH]
    have hrc := refCounts_ok (packed_lt hPE) (packed_pos hPE)
    rcases reorder_spec (E := envOf look src s) (fuel := fuel) hrc hroom with ⟨hf, _⟩ | ⟨ls, _, _, _, hn⟩
    · exact hf
    · have := hn j ((needed_iff h hp).2 ⟨j, rfl, hj⟩)
      simp only [envOf, Int.toNat_natCast] at this
      omega
  unfold compressProof
  rw [if_neg (by simp [hk])]
  dsimp only
  have hl0 : nmbrUnion (((envOf look src s).stmt p).reqHyp.map fun (i : Nat) => (i : Int)) (refs.map Ref.code) = l0Of (envOf look src s) p (refs.map Ref.code) := rfl
  have hlen : (refs.map Ref.code).length = refs.length := List.length_map _
  rw [hl0, hlen, splitCheck_ok, Out.bind_val, if_neg (by rw [locals_count hH hPE]; simp), he]
  · rfl
  · intro x hx
    rcases mem_l0.1 hx with hx | hx
    · exact Or.inl (reqZ_hyp hH hx).1
    · obtain ⟨r, hr, rfl⟩ := mem_codes hx
      cases r with
      | stmt j => left; simp [Ref.code]
      | step i =>
        right
        have := packed_step_lt hPE hr
        simp only [Ref.code]; omega

/-- **C44**.  In the output of the new algorithm, a label that is used more often in the proof than another one does not get a longer number. -/
theorem C44_frequent_labels_short (h : Accepted src s) (hp : kindAt (kinds src) p = .p) {refs : List Ref} (hP : PackedProof src s p refs)
    {width : Int} {indent fuel : Nat} {out : List Char} (hroom : 1 ≤ width - indent)
    (hrun : compressProof (envOf look src s) p (refs.map Ref.code) false width indent fuel = .val out) :
    ∃ (js : List Nat) (xs : List CStep), out = ['(', ' '] ++ spaced (js.map (srcLabel src)) ++ [' ', ')', ' '] ++ codeText xs ∧
      ∀ (i k a b : Nat) (x y : CStep), refs[i]? = some (.stmt a) → xs[i]? = some x → refs[k]? = some (.stmt b) → xs[k]? = some y →
        a ∈ js → b ∈ js → refs.count (.stmt b) < refs.count (.stmt a) → x.num.text.length ≤ y.num.text.length := by
  obtain ⟨expl, he, hperm, rfl⟩ := compress_out h hp hP (Or.inr hroom) hrun
  have hPE := packedE_of (look := look) h hp hP
  have hH := hypsOk_of (look := look) h hp
  refine ⟨expl.map Int.toNat, cstepsOf (envOf look src s) p refs expl, by rw [List.map_map]; rfl, ?_⟩
  intro i k a b x y hi hx hk hy ha hb hc
  have hmem : ∀ {a : Nat}, a ∈ expl.map Int.toNat → (a : Int) ∈ expl := by
    intro a ha
    obtain ⟨z, hz, rfl⟩ := List.mem_map.1 ha
    have := (packed_pos hPE z (hperm.mem_iff.1 hz)).1
    rwa [Int.toNat_of_nonneg (by omega)]
  have hcount : ∀ a : Nat, (refs.map Ref.code).count (a : Int) = refs.count (.stmt a) := by
    intro a
    have e : ((a : Nat) : Int) = (Ref.stmt a).code := rfl
    rw [e, List.count_map_of_injective _ _ (fun _ _ => code_inj)]
  have hget : ∀ {i a : Nat} {x : CStep}, refs[i]? = some (.stmt a) → (cstepsOf (envOf look src s) p refs expl)[i]? = some x → a ∈ expl.map Int.toNat →
      ∃ m, expl[m]? = some (a : Int) ∧ x.num = numOf (((envOf look src s).stmt p).reqHyp.length + m) := by
    intro i a x hi hx ha
    refine ⟨expl.idxOf (a : Int), ?_, ?_⟩
    · rw [List.getElem?_eq_getElem (List.idxOf_lt_length_of_mem (hmem ha)), List.getElem_idxOf]
    · unfold cstepsOf at hx
      rw [stepsOf_get, List.getElem?_map, hi] at hx
      simp only [Option.map_some, Option.some.injEq] at hx
      rw [← hx]
      dsimp only
      have hnot : (Ref.stmt a).code ∉ reqZ (envOf look src s) p := (mem_needed.1 (hperm.mem_iff.1 (hmem ha))).2.2
      rw [List.append_assoc, List.idxOf_append_of_notMem hnot, List.idxOf_append_of_mem (show (Ref.stmt a).code ∈ expl from hmem ha)]
      congr 1
      simp only [reqZ, List.length_map]
      rfl
  obtain ⟨m, hm, ex⟩ := hget hi hx ha
  obtain ⟨n, hn, ey⟩ := hget hk hy hb
  rw [ex, ey, ← encLabel_eq, ← encLabel_eq]
  exact explicit_lengths hH hPE hroom he hm hn (by rw [hcount, hcount]; exact hc)

end MM.Data
