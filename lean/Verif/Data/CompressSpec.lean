import Verif.Data.Reorder
import Verif.Proof.CompProps
/-!
# What `compressProof` writes
-/
namespace MM.Data
open MM.Veri MM.Pars MM.Proof MM.Lex MM.Spec

variable {E : Env} {p : Nat}

/-! ### The label list as text -/

theorem renderLoop_plain : ∀ {xs : List Int} {k : Nat} {s : RState}, (∀ x ∈ xs, 1 ≤ x ∧ x ≤ E.n) →
    renderLoop E [] k xs s = .val { s with text := s.text ++ xs.flatMap fun x => E.lab x.toNat ++ [' '] }
  | [], k, s, _ => by simp [renderLoop]
  | x :: xs, k, s, h => by
    have hx := h x (by simp)
    have hn : nmbrElementIn 1 [] (k : Int) = 0 := by rw [elementIn_zero]; simp
    have e : renderStep E [] k x s = .val { s with text := s.text ++ E.lab x.toNat ++ [' '] } := by
      unfold renderStep
      rw [if_neg (by omega), if_neg (by omega), if_neg (by simp [hn])]
    rw [renderLoop, e, Out.bind_val, renderLoop_plain (fun y hy => h y (by simp [hy]))]
    simp [List.append_assoc]

theorem localLabels_plain {xs : List Int} (h : ∀ x ∈ xs, 1 ≤ x) : localLabels xs = [] := by
  unfold localLabels
  have : ∀ (xs v : List Int), (∀ x ∈ xs, 1 ≤ x) →
      xs.foldl (fun v x => if x ≤ -1000 then (if nmbrElementIn 1 v (-1000 - x) = 0 then nmbrAddElement v (-1000 - x) else v) else v) v = v := by
    intro xs
    induction xs with
    | nil => intro v _; rfl
    | cons x xs ih =>
      intro v h
      rw [List.foldl_cons, if_neg (by have := h x (by simp); omega)]
      exact ih v (fun y hy => h y (by simp [hy]))
  exact this xs [] h

theorem maxLabelLen_plain {xs : List Int} (h : ∀ x ∈ xs, 1 ≤ x ∧ x ≤ E.n) : ∀ x ∈ xs, (E.lab x.toNat).length ≤ maxLabelLen E xs := by
  unfold maxLabelLen
  have : ∀ (xs : List Int) (m : Nat), (∀ x ∈ xs, 1 ≤ x ∧ x ≤ E.n) →
      m ≤ xs.foldl (fun (m : Nat) (x : Int) => if x ≤ -1000 then m else if x < 1 ∨ x > E.n then 100 else max m (E.lab x.toNat).length) m ∧
      ∀ x ∈ xs, (E.lab x.toNat).length ≤ xs.foldl (fun (m : Nat) (x : Int) => if x ≤ -1000 then m else if x < 1 ∨ x > E.n then 100 else max m (E.lab x.toNat).length) m := by
    intro xs
    induction xs with
    | nil => intro m _; exact ⟨le_refl _, by intro x hx; cases hx⟩
    | cons x xs ih =>
      intro m h
      have hx := h x (by simp)
      rw [List.foldl_cons, if_neg (by omega), if_neg (by omega)]
      obtain ⟨h1, h2⟩ := ih (max m (E.lab x.toNat).length) (fun y hy => h y (by simp [hy]))
      refine ⟨le_trans (le_max_left _ _) h1, ?_⟩
      intro y hy
      rcases List.mem_cons.1 hy with rfl | hy
      · exact le_trans (le_max_right _ _) h1
      · exact h2 y hy
  exact (this xs 0 h).2

/-- The labels, one space between them. -/
def spaced (labs : List Name) : List Char := List.intercalate [' '] labs

theorem flatMap_spaced : ∀ (ws : List Name), (ws.flatMap fun w => w ++ [' ']).dropLast = spaced ws
  | [] => rfl
  | [w] => by simp [spaced, List.intercalate]
  | w :: v :: ws => by
    have ih := flatMap_spaced (v :: ws)
    have e : ((w :: v :: ws).flatMap fun w => w ++ [' ']) = w ++ [' '] ++ ((v :: ws).flatMap fun w => w ++ [' ']) := rfl
    have e2 : spaced (w :: v :: ws) = w ++ [' '] ++ spaced (v :: ws) := by simp [spaced, List.intercalate]
    rw [e, e2, ← ih, List.dropLast_append_of_ne_nil (by simp)]

/-- A list of statements is rendered as their labels, and the text fits into the buffer. -/
theorem render_plain {xs : List Int} (h : ∀ x ∈ xs, 1 ≤ x ∧ x ≤ E.n) : nmbrCvtRToVString E xs = .val (spaced (xs.map fun x => E.lab x.toNat)) := by
  unfold nmbrCvtRToVString
  rw [localLabels_plain (fun x hx => (h x hx).1), renderLoop_plain h, Out.bind_val]
  have hm := maxLabelLen_plain h
  have hlen : (xs.flatMap fun x => E.lab x.toNat ++ [' ']).length ≤ xs.length * (2 + maxLabelLen E xs) := by
    generalize maxLabelLen E xs = m at hm
    clear h
    induction xs with
    | nil => simp
    | cons x xs ih =>
      have h1 := hm x (by simp)
      have h2 := ih (fun y hy => hm y (by simp [hy]))
      simp only [List.flatMap_cons, List.length_append, List.length_cons, List.length_nil]
      rw [Nat.add_mul]
      omega
  have hcap : xs.length * (2 + maxLabelLen E xs) ≤ renderCap E xs := by
    unfold renderCap
    apply Nat.mul_le_mul_left
    omega
  rw [if_neg (by simp only [List.nil_append]; omega)]
  rw [List.nil_append, ← flatMap_spaced, List.flatMap_map]

/-! ### The letters -/

/-- The steps as numbers with marks. -/
def stepsOf (l l0 : List Int) : Nat → List Int → List CStep
  | _, [] => []
  | k, x :: xs => ⟨numOf (l.idxOf x), if isLocal l0 k then 1 else 0⟩ :: stepsOf l l0 (k + 1) xs

theorem stepsOf_get (l l0 : List Int) : ∀ (xs : List Int) (k i : Nat), (stepsOf l l0 k xs)[i]? = (xs[i]?).map fun x => ⟨numOf (l.idxOf x), if isLocal l0 (k + i) then 1 else 0⟩
  | [], k, i => by simp [stepsOf]
  | x :: xs, k, 0 => by simp [stepsOf]
  | x :: xs, k, i + 1 => by
    rw [stepsOf, List.getElem?_cons_succ, stepsOf_get l l0 xs, List.getElem?_cons_succ]
    have : k + 1 + i = k + (i + 1) := by omega
    rw [this]

theorem stepsOf_length (l l0 : List Int) : ∀ (xs : List Int) (k : Nat), (stepsOf l l0 k xs).length = xs.length
  | [], k => rfl
  | x :: xs, k => by simp [stepsOf, stepsOf_length l l0 xs]

theorem encSteps_eq (l l0 : List Int) : ∀ (xs : List Int) (k : Nat), (∀ x ∈ xs, x ∈ l ∧ x ≠ unk) → encSteps l l0 k xs = .val (codeText (stepsOf l l0 k xs))
  | [], k, _ => by simp [encSteps, stepsOf, codeText]
  | x :: xs, k, h => by
    obtain ⟨h1, h2⟩ := h x (by simp)
    have ih := encSteps_eq l l0 xs (k + 1) (fun y hy => h y (by simp [hy]))
    unfold encSteps
    rw [if_neg h2, elementIn_pos h1, if_neg (by omega), if_neg (by rw [C17_encoding_length]; simp), ih, Out.bind_val]
    simp only [Nat.add_sub_cancel, stepsOf, codeText, List.flatMap_cons, encLabel_eq]
    split <;> simp

theorem take_stepsOf (l l0 : List Int) : ∀ (xs : List Int) (k n : Nat), (stepsOf l l0 k xs).take n = stepsOf l l0 k (xs.take n)
  | [], k, n => by simp [stepsOf]
  | x :: xs, k, 0 => by simp [stepsOf]
  | x :: xs, k, n + 1 => by simp [stepsOf, take_stepsOf l l0 xs]

theorem marked_stepsOf (l l0 : List Int) : ∀ (xs : List Int) (k : Nat), marked k (stepsOf l l0 k xs) = (List.range' k xs.length).filter (isLocal l0)
  | [], k => by simp [stepsOf, marked]
  | x :: xs, k => by
    rw [stepsOf, marked, marked_stepsOf l l0 xs (k + 1), List.length_cons, List.range'_succ, List.filter_cons]
    by_cases h : isLocal l0 k = true
    · simp [h]
    · simp [h]

/-! ### The lists -/

/-- A packed proof: the references are active hypotheses, assertions before `p`, or earlier steps that are uses of assertions. -/
structure PackedE (E : Env) (p : Nat) (refs : List Ref) : Prop where
  stmts : ∀ j, Ref.stmt j ∈ refs → 1 ≤ j ∧ j < p ∧ (j ∈ (E.stmt p).reqHyp ++ (E.stmt p).optHyp ∨ (E.stmt j).kind = .a ∨ (E.stmt j).kind = .p)
  steps : ∀ (k i : Nat), refs[k]? = some (.step i) → i < k ∧ ∃ j, refs[i]? = some (.stmt j) ∧ ((E.stmt j).kind = .a ∨ (E.stmt j).kind = .p)

theorem code_inj {a b : Ref} (h : a.code = b.code) : a = b := by
  cases a <;> cases b <;> simp only [Ref.code] at h
  · congr 1; omega
  · omega
  · omega
  · congr 1; omega

theorem idxOf_code : ∀ (l : List Ref) (r : Ref), (l.map Ref.code).idxOf r.code = l.idxOf r
  | [], _ => rfl
  | x :: l, r => by
    rw [List.map_cons]
    by_cases h : x = r
    · subst h; simp
    · rw [List.idxOf_cons_ne _ (fun e => h (code_inj e)), List.idxOf_cons_ne _ h, idxOf_code l r]

theorem getElem?_idxOf_mem : ∀ {l : List Ref} {x : Ref}, x ∈ l → l[l.idxOf x]? = some x
  | [], _, h => by cases h
  | y :: l, x, h => by
    by_cases e : y = x
    · subst e; simp
    · rw [List.idxOf_cons_ne _ e, List.getElem?_cons_succ]
      rcases List.mem_cons.1 h with h | h
      · exact absurd h.symm e
      · exact getElem?_idxOf_mem h

/-- The label list the program starts with. -/
def l0Of (E : Env) (p : Nat) (proof : List Int) : List Int := nmbrUnion ((E.stmt p).reqHyp.map fun (i : Nat) => (i : Int)) proof

/-- The required hypotheses, as stored. -/
def reqZ (E : Env) (p : Nat) : List Int := (E.stmt p).reqHyp.map fun (i : Nat) => (i : Int)

theorem l0_eq (proof : List Int) : l0Of E p proof = reqZ E p ++ fresh (reqZ E p) proof := union_eq _ _

theorem mem_l0 {proof : List Int} {x : Int} : x ∈ l0Of E p proof ↔ x ∈ reqZ E p ∨ x ∈ proof := by
  rw [l0_eq, List.mem_append, mem_fresh]; tauto

theorem reqZ_hyp (hH : HypsOk E p) {x : Int} (hx : x ∈ reqZ E p) : 0 ≤ x ∧ isAssertN E x = false := by
  obtain ⟨j, hj, rfl⟩ := List.mem_map.1 hx
  obtain ⟨_, _, h⟩ := hH.mem j (List.mem_append_left _ hj)
  refine ⟨by omega, ?_⟩
  unfold isAssertN
  rw [Int.toNat_natCast]
  rcases h with h | h <;> rw [h] <;> decide

theorem hypsOf_l0 (hH : HypsOk E p) (proof : List Int) : hypsOf E (l0Of E p proof) = reqZ E p ++ hypsOf E (fresh (reqZ E p) proof) := by
  rw [l0_eq]
  unfold hypsOf
  rw [List.filter_append]
  congr 1
  rw [List.filter_eq_self]
  intro x hx
  obtain ⟨h1, h2⟩ := reqZ_hyp hH hx
  simp [h1, h2]

theorem assertsOf_l0 (hH : HypsOk E p) (proof : List Int) : assertsOf E (l0Of E p proof) = assertsOf E (fresh (reqZ E p) proof) := by
  rw [l0_eq]
  unfold assertsOf
  rw [List.filter_append]
  have : (reqZ E p).filter (fun x => decide (0 ≤ x) && isAssertN E x) = [] := by
    rw [List.filter_eq_nil_iff]
    intro x hx
    simp [(reqZ_hyp hH hx).2]
  rw [this, List.nil_append]

/-- The labels that must be listed: the statements of the proof that are not required hypotheses, optional hypotheses first. -/
def needed (E : Env) (p : Nat) (proof : List Int) : List Int := hypsOf E (fresh (reqZ E p) proof) ++ assertsOf E (fresh (reqZ E p) proof)

theorem mem_needed {proof : List Int} {x : Int} : x ∈ needed E p proof ↔ x ∈ proof ∧ 0 ≤ x ∧ x ∉ reqZ E p := by
  unfold needed hypsOf assertsOf
  rw [List.mem_append, List.mem_filter, List.mem_filter, mem_fresh]
  by_cases h : isAssertN E x = true
  · simp [h]; tauto
  · simp [h]; tauto

theorem needed_nodup {proof : List Int} : (needed E p proof).Nodup := by
  unfold needed hypsOf assertsOf
  rw [List.nodup_append]
  refine ⟨fresh_nodup.filter _, fresh_nodup.filter _, ?_⟩
  intro a ha b hb e
  subst e
  rw [List.mem_filter] at ha hb
  have h1 := ha.2
  have h2 := hb.2
  simp only [Bool.and_eq_true, Bool.not_eq_true'] at h1 h2
  rw [h1.2] at h2
  exact absurd h2.2 (by simp)

theorem explicit_old (hH : HypsOk E p) (proof : List Int) (room : Int) (fuel : Nat) : explicit E p proof true room fuel = .val (needed E p proof) := by
  unfold explicit
  dsimp only
  rw [if_pos rfl]
  have h1 := hypsOf_l0 (E := E) (p := p) hH proof
  have h2 := assertsOf_l0 (E := E) (p := p) hH proof
  unfold l0Of at h1 h2
  rw [h1, h2]
  have : (E.stmt p).reqHyp.length = (reqZ E p).length := by simp [reqZ]
  rw [this, List.drop_left]
  rfl

theorem explicit_new (hH : HypsOk E p) (proof : List Int) (room : Int) (fuel : Nat) :
    explicit E p proof false room fuel = reorder E p proof (needed E p proof) room fuel := by
  unfold explicit
  dsimp only
  rw [if_neg (by simp)]
  have h1 := hypsOf_l0 (E := E) (p := p) hH proof
  have h2 := assertsOf_l0 (E := E) (p := p) hH proof
  unfold l0Of at h1 h2
  rw [h1, h2]
  have : (E.stmt p).reqHyp.length = (reqZ E p).length := by simp [reqZ]
  rw [this, List.drop_left]
  rfl

theorem refCounts_ok {proof : List Int} (hlt : ∀ x ∈ proof, x < p) : ∀ {expl : List Int}, (∀ x ∈ expl, 1 ≤ x ∧ x ∈ proof) →
    refCounts p proof expl = .val (expl.map fun x => proof.count x)
  | [], _ => rfl
  | x :: xs, h => by
    obtain ⟨h1, h2⟩ := h x (by simp)
    have hany : proof.any (fun y => decide (y > 0) && decide (y ≥ p)) = false := by
      rw [List.any_eq_false]
      intro y hy
      have := hlt y hy
      simp; omega
    unfold refCounts refCount
    have hc : (if x > 0 then proof.count x else 0) = proof.count x := if_pos (by omega)
    rw [if_neg (by rw [hany]; simp), if_neg (by have := hlt x h2; omega), hc, if_neg (by
      have := List.count_pos_iff.2 h2
      omega), Out.bind_val, refCounts_ok hlt (fun y hy => h y (by simp [hy])), Out.bind_val]
    rfl

theorem mem_codes {refs : List Ref} {x : Int} (h : x ∈ refs.map Ref.code) : ∃ r ∈ refs, r.code = x := by
  simpa using h

theorem packed_lt (hP : PackedE E p refs) : ∀ x ∈ refs.map Ref.code, x < p := by
  intro x hx
  obtain ⟨r, hr, rfl⟩ := mem_codes hx
  cases r with
  | stmt j => have := hP.stmts j hr; simp only [Ref.code]; omega
  | step i => simp only [Ref.code]; omega

theorem packed_pos (hP : PackedE E p refs) : ∀ x ∈ needed E p (refs.map Ref.code), 1 ≤ x ∧ x ∈ refs.map Ref.code := by
  intro x hx
  obtain ⟨h1, h2, _⟩ := mem_needed.1 hx
  refine ⟨?_, h1⟩
  obtain ⟨r, hr, rfl⟩ := mem_codes h1
  cases r with
  | stmt j => have := hP.stmts j hr; simp only [Ref.code]; omega
  | step i => simp only [Ref.code] at h2; omega

theorem splitCheck_ok {n : Nat} : ∀ {l : List Int}, (∀ x ∈ l, 0 ≤ x ∨ (x ≤ -1000 ∧ -1000 - x < n)) → splitCheck n l = .val ()
  | [], _ => rfl
  | x :: l, h => by
    have hx := h x (by simp)
    unfold splitCheck
    rw [if_neg (by omega), if_neg (by omega)]
    exact splitCheck_ok (fun y hy => h y (by simp [hy]))

theorem packed_step_lt {refs : List Ref} (hP : PackedE E p refs) {i : Nat} (h : Ref.step i ∈ refs) : i < refs.length := by
  obtain ⟨k, hk⟩ := List.getElem?_of_mem h
  have := (hP.steps k i hk).1
  have := (List.getElem?_eq_some_iff.1 hk).1
  omega

theorem isLocal_iff {refs : List Ref} {i : Nat} : isLocal (l0Of E p (refs.map Ref.code)) i = true ↔ Ref.step i ∈ refs := by
  unfold isLocal
  rw [decide_eq_true_iff, mem_l0]
  constructor
  · rintro (h | h)
    · obtain ⟨j, _, e⟩ := List.mem_map.1 h
      omega
    · obtain ⟨r, hr, e⟩ := mem_codes h
      cases r with
      | stmt j => simp only [Ref.code] at e; omega
      | step m =>
        simp only [Ref.code] at e
        have : m = i := by omega
        subst this; exact hr
  · intro h
    right
    exact List.mem_map.2 ⟨_, h, rfl⟩

theorem locals_count {refs : List Ref} (hH : HypsOk E p) (hP : PackedE E p refs) :
    (localsOf (l0Of E p (refs.map Ref.code)) refs.length).length = ((l0Of E p (refs.map Ref.code)).filter fun x => decide (x ≤ -1000)).length := by
  apply List.Perm.length_eq
  rw [List.perm_ext_iff_of_nodup]
  · intro x
    unfold localsOf
    rw [List.mem_map, List.mem_filter, decide_eq_true_iff]
    constructor
    · rintro ⟨k, hk, rfl⟩
      rw [List.mem_filter, isLocal_iff] at hk
      exact ⟨mem_l0.2 (Or.inr (List.mem_map.2 ⟨_, hk.2, rfl⟩)), by omega⟩
    · rintro ⟨h1, h2⟩
      rcases mem_l0.1 h1 with h1 | h1
      · have := (reqZ_hyp hH h1).1; omega
      · obtain ⟨r, hr, rfl⟩ := mem_codes h1
        cases r with
        | stmt j => simp only [Ref.code] at h2; omega
        | step i =>
          refine ⟨i, ?_, rfl⟩
          rw [List.mem_filter, isLocal_iff, List.mem_range]
          exact ⟨packed_step_lt hP hr, hr⟩
  · unfold localsOf
    apply List.Nodup.map
    · intro a b e
      simp only at e
      omega
    · exact List.nodup_range.filter _
  · apply List.Nodup.filter
    rw [l0_eq, List.nodup_append]
    refine ⟨?_, fresh_nodup, ?_⟩
    · unfold reqZ
      apply List.Nodup.map
      · intro a b e
        simp only at e
        omega
      · exact (List.nodup_append.1 hH.nodup).1
    · intro a ha b hb e
      subst e
      exact (mem_fresh.1 hb).2 ha

/-- Label numbers and marks of the proof, for a given order `expl` of the explicit labels. -/
def cstepsOf (E : Env) (p : Nat) (refs : List Ref) (expl : List Int) : List CStep :=
  stepsOf (reqZ E p ++ expl ++ localsOf (l0Of E p (refs.map Ref.code)) refs.length) (l0Of E p (refs.map Ref.code)) 0 (refs.map Ref.code)

/-- What `compressProof` writes, given the order of the explicit labels. -/
theorem compressProof_eq {refs : List Ref} (hH : HypsOk E p) (hP : PackedE E p refs) (hp : (E.stmt p).kind = .p) {old : Bool} {width : Int} {indent fuel : Nat}
    {expl : List Int} (he : explicit E p (refs.map Ref.code) old (width - indent) fuel = .val expl) (hperm : expl.Perm (needed E p (refs.map Ref.code))) :
    compressProof E p (refs.map Ref.code) old width indent fuel =
      .val (['(', ' '] ++ spaced (expl.map fun x => E.lab x.toNat) ++ [' ', ')', ' '] ++ codeText (cstepsOf E p refs expl)) := by
  unfold compressProof
  rw [if_neg (by simp [hp])]
  have hl0 : nmbrUnion ((E.stmt p).reqHyp.map fun (i : Nat) => (i : Int)) (refs.map Ref.code) = l0Of E p (refs.map Ref.code) := rfl
  have hlen : (refs.map Ref.code).length = refs.length := List.length_map _
  have hpos : ∀ x ∈ expl, 1 ≤ x ∧ x ∈ refs.map Ref.code := fun x hx => packed_pos hP x (hperm.mem_iff.1 hx)
  have htake : (hypsOf E (l0Of E p (refs.map Ref.code))).take (E.stmt p).reqHyp.length = reqZ E p := by
    rw [hypsOf_l0 hH]
    have : (E.stmt p).reqHyp.length = (reqZ E p).length := by simp [reqZ]
    rw [this, List.take_left]
  dsimp only
  rw [hl0, hlen, splitCheck_ok, Out.bind_val, if_neg (by rw [locals_count hH hP]; simp), he, Out.bind_val, htake, encSteps_eq, Out.bind_val, render_plain, Out.bind_val]
  · rfl
  · intro x hx
    obtain ⟨h1, h2⟩ := hpos x hx
    refine ⟨h1, ?_⟩
    have := packed_lt hP x h2
    have := hH.range
    omega
  · intro x hx
    obtain ⟨r, hr, rfl⟩ := mem_codes hx
    cases r with
    | stmt j =>
      have hj := hP.stmts j hr
      refine ⟨?_, by simp only [Ref.code, unk]; omega⟩
      rw [List.mem_append, List.mem_append]
      left
      by_cases hq : (Ref.stmt j).code ∈ reqZ E p
      · exact Or.inl hq
      · right
        rw [hperm.mem_iff, mem_needed]
        exact ⟨hx, by simp [Ref.code], hq⟩
    | step i =>
      refine ⟨?_, by simp only [Ref.code, unk]; omega⟩
      rw [List.mem_append]
      right
      unfold localsOf
      refine List.mem_map.2 ⟨i, ?_, rfl⟩
      rw [List.mem_filter, isLocal_iff, List.mem_range]
      exact ⟨packed_step_lt hP hr, hr⟩
  · intro x hx
    rcases mem_l0.1 hx with hx | hx
    · exact Or.inl (reqZ_hyp hH hx).1
    · obtain ⟨r, hr, rfl⟩ := mem_codes hx
      cases r with
      | stmt j => left; simp [Ref.code]
      | step i =>
        right
        have := packed_step_lt hP hr
        simp only [Ref.code]; omega

theorem take_range_filter {n m : Nat} (f : Nat → Bool) (h : m ≤ n) : ∃ r, (List.range n).filter f = (List.range m).filter f ++ r := by
  obtain ⟨k, rfl⟩ := Nat.exists_eq_add_of_le h
  rw [List.range_add, List.filter_append]
  exact ⟨_, rfl⟩

/-- The numbers mean the proof. -/
theorem cstepsOf_decodes {refs : List Ref} (hP : PackedE E p refs) {expl : List Int}
    (hperm : expl.Perm (needed E p (refs.map Ref.code))) :
    Decodes (((E.stmt p).reqHyp ++ expl.map Int.toNat).map Ref.stmt) (cstepsOf E p refs expl) refs := by
  have hlen : (cstepsOf E p refs expl).length = refs.length := by unfold cstepsOf; rw [stepsOf_length, List.length_map]
  refine ⟨hlen.symm, ?_⟩
  intro k x hx
  have hk : k < refs.length := by rw [← hlen]; exact (List.getElem?_eq_some_iff.1 hx).1
  obtain ⟨r, hr⟩ : ∃ r, refs[k]? = some r := ⟨_, List.getElem?_eq_getElem hk⟩
  generalize hbase : ((E.stmt p).reqHyp ++ expl.map Int.toNat).map Ref.stmt = base
  -- the label list as references
  have hl : reqZ E p ++ expl ++ localsOf (l0Of E p (refs.map Ref.code)) refs.length =
      (base ++ ((List.range refs.length).filter (isLocal (l0Of E p (refs.map Ref.code)))).map Ref.step).map Ref.code := by
    rw [← hbase, List.map_append, List.map_append, List.map_append]
    congr 1
    · congr 1
      · simp [reqZ, Function.comp_def, Ref.code]
      · rw [List.map_map, List.map_map]
        symm
        rw [List.map_congr_left (g := id)]
        · simp
        · intro y hy
          have := (packed_pos hP y (hperm.mem_iff.1 hy)).1
          simp only [Function.comp_apply, Ref.code, id]
          omega
    · simp [localsOf, Function.comp_def, Ref.code]
  have hval : x.num.value = (base ++ ((List.range refs.length).filter (isLocal (l0Of E p (refs.map Ref.code)))).map Ref.step).idxOf r := by
    unfold cstepsOf at hx
    rw [stepsOf_get, List.getElem?_map, hr] at hx
    simp only [Option.map_some, Option.some.injEq] at hx
    rw [← hx]
    dsimp only
    rw [numOf_value, hl, idxOf_code]
  have hmk : marked 0 ((cstepsOf E p refs expl).take k) = (List.range k).filter (isLocal (l0Of E p (refs.map Ref.code))) := by
    unfold cstepsOf
    rw [take_stepsOf, marked_stepsOf, List.length_take, List.length_map, Nat.min_eq_left (le_of_lt hk), List.range_eq_range']
  obtain ⟨rest, hrest⟩ := take_range_filter (isLocal (l0Of E p (refs.map Ref.code))) (le_of_lt hk)
  rw [hr, hval, hmk]
  have hmem : r ∈ base ++ ((List.range k).filter (isLocal (l0Of E p (refs.map Ref.code)))).map Ref.step := by
    rw [List.mem_append]
    cases r with
    | stmt j =>
      left
      rw [← hbase, List.mem_map]
      refine ⟨j, ?_, rfl⟩
      rw [List.mem_append]
      by_cases hq : j ∈ (E.stmt p).reqHyp
      · exact Or.inl hq
      · right
        rw [List.mem_map]
        refine ⟨(j : Int), ?_, by simp⟩
        rw [hperm.mem_iff, mem_needed]
        refine ⟨List.mem_map.2 ⟨_, List.mem_of_getElem? hr, rfl⟩, by omega, ?_⟩
        intro hc
        obtain ⟨i, hi, e⟩ := List.mem_map.1 hc
        have : i = j := by omega
        subst this
        exact hq hi
    | step i =>
      right
      refine List.mem_map.2 ⟨i, ?_, rfl⟩
      rw [List.mem_filter, isLocal_iff, List.mem_range]
      exact ⟨(hP.steps k i hr).1, List.mem_of_getElem? hr⟩
  rw [hrest, List.map_append, ← List.append_assoc, List.idxOf_append_of_mem hmem, getElem?_idxOf_mem hmem]

theorem cstepsOf_marks {refs : List Ref} (hP : PackedE E p refs) {expl : List Int} {k : Nat} {x : CStep} {ref : Ref}
    (hx : (cstepsOf E p refs expl)[k]? = some x) (hr : refs[k]? = some ref) (h0 : x.marks ≠ 0) : ∃ j, ref = .stmt j ∧ ((E.stmt j).kind = .a ∨ (E.stmt j).kind = .p) := by
  unfold cstepsOf at hx
  rw [stepsOf_get, List.getElem?_map, hr] at hx
  simp only [Option.map_some, Option.some.injEq] at hx
  rw [← hx] at h0
  dsimp only at h0
  rw [Nat.zero_add] at h0
  by_cases hl : isLocal (l0Of E p (refs.map Ref.code)) k = true
  · rw [isLocal_iff] at hl
    obtain ⟨m, hm⟩ := List.getElem?_of_mem hl
    obtain ⟨_, j, h1, h2⟩ := hP.steps m k hm
    rw [hr] at h1
    cases h1
    exact ⟨j, rfl, h2⟩
  · rw [if_neg hl] at h0
    exact absurd rfl h0

end MM.Data
