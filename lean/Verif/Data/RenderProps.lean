import Verif.Data.RoundTrip
/-!
# Proofs as text in the normal and packed formats: memory safety and reading them back
-/
namespace MM.Data
open MM.Veri MM.Pars MM.Proof MM.Lex MM.Spec

/-! ### Decimal numerals -/

theorem strNat_inj : ∀ {a b : Nat}, strNat a = strNat b → a = b := by
  unfold strNat
  intro a
  induction a using Nat.strong_induction_on with
  | _ a ih =>
    intro b h
    rw [Nat.toDigits_eq_if (by omega), Nat.toDigits_eq_if (n := b) (by omega)] at h
    have hd : ∀ x y : Nat, x < 10 → y < 10 → Nat.digitChar x = Nat.digitChar y → x = y := by
      intro x y hx hy e
      have h1 := Nat.toNat_digitChar_of_lt_ten hx
      have h2 := Nat.toNat_digitChar_of_lt_ten hy
      rw [e] at h1; omega
    have hp : ∀ n : Nat, 0 < (Nat.toDigits 10 n).length := fun n => Nat.length_toDigits_pos
    split at h <;> split at h
    · simp only [List.cons.injEq, and_true] at h
      exact hd _ _ (by assumption) (by assumption) h
    · have h1 := congrArg List.length h
      have h2 := hp (b / 10)
      simp only [List.length_append, List.length_cons, List.length_nil] at h1
      omega
    · have h1 := congrArg List.length h
      have h2 := hp (a / 10)
      simp only [List.length_append, List.length_cons, List.length_nil] at h1
      omega
    · obtain ⟨h1, h2⟩ := List.append_inj' h rfl
      simp only [List.cons.injEq, and_true] at h2
      have e1 := ih (a / 10) (by omega) h1
      have e2 := hd _ _ (Nat.mod_lt _ (by omega)) (Nat.mod_lt _ (by omega)) h2
      omega

theorem strNat_ne (n : Nat) : strNat n ≠ [] := Nat.toDigits_ne_nil

theorem strNat_chars {n : Nat} {c : Char} (h : c ∈ strNat n) : LabelChar c := by
  have := Nat.isDigit_of_mem_toDigits (by omega) (by omega) h
  unfold Char.isDigit at this
  simp only [Bool.and_eq_true, decide_eq_true_eq, ge_iff_le] at this
  right; right; left
  simp only [Char.le_def]
  exact this

theorem strNat_word (n : Nat) : LabelWord (strNat n) := ⟨strNat_ne n, fun _ => strNat_chars⟩

theorem strNat_mono {a b : Nat} (h : a ≤ b) : (strNat a).length ≤ (strNat b).length := by
  unfold strNat
  have hb := (Nat.length_toDigits_le_iff (b := 10) (n := b) (k := (Nat.toDigits 10 b).length) (by omega) Nat.length_toDigits_pos).1 (le_refl _)
  exact (Nat.length_toDigits_le_iff (by omega) Nat.length_toDigits_pos).2 (by omega)

/-! ### Free numbers -/

variable {E : Env} {p : Nat}

theorem isLabel_iff {nm : Name} : isLabel E nm = true ↔ ∃ i, 1 ≤ i ∧ i ≤ E.n ∧ E.lab i = nm := by
  unfold isLabel
  rw [List.any_eq_true]
  constructor
  · rintro ⟨i, hi, he⟩
    rw [List.mem_range'_1] at hi
    exact ⟨i, hi.1, by omega, by simpa using he⟩
  · rintro ⟨i, h1, h2, h3⟩
    exact ⟨i, by rw [List.mem_range'_1]; omega, by simpa using h3⟩

theorem nextFree_cases : ∀ (n k : Nat), (∃ m, nextFree E n k = .val m ∧ k ≤ m ∧ isLabel E (strNat m) = false ∧ ∀ i, k ≤ i → i < m → isLabel E (strNat i) = true) ∨
    (nextFree E n k = .fuel ∧ ∀ i, k ≤ i → i < k + n → isLabel E (strNat i) = true)
  | 0, k => Or.inr ⟨rfl, fun i h1 h2 => by omega⟩
  | n + 1, k => by
    unfold nextFree
    by_cases h : isLabel E (strNat k) = true
    · rw [if_pos h]
      rcases nextFree_cases n (k + 1) with ⟨m, h1, h2, h3, h4⟩ | ⟨h1, h2⟩
      · refine Or.inl ⟨m, h1, by omega, h3, ?_⟩
        intro i h5 h6
        by_cases e : i = k
        · rw [e]; exact h
        · exact h4 i (by omega) h6
      · refine Or.inr ⟨h1, ?_⟩
        intro i h5 h6
        by_cases e : i = k
        · rw [e]; exact h
        · exact h2 i (by omega) (by omega)
    · rw [if_neg h]
      exact Or.inl ⟨k, rfl, le_refl _, by simpa using h, fun i h1 h2 => by omega⟩

/-- The search for a free number ends: there are only `E.n` labels. -/
theorem nextFree_ok (k : Nat) : ∃ m, nextFree E (E.n + 1) k = .val m ∧ k ≤ m ∧ isLabel E (strNat m) = false ∧ ∀ i, k ≤ i → i < m → isLabel E (strNat i) = true := by
  rcases nextFree_cases (E := E) (E.n + 1) k with h | ⟨_, h⟩
  · exact h
  · exfalso
    have h1 : ((List.range' k (E.n + 1)).map strNat).Nodup := List.Nodup.map (fun _ _ => strNat_inj) List.nodup_range'
    have h2 : (List.range' k (E.n + 1)).map strNat ⊆ (List.range' 1 E.n).map E.lab := by
      intro x hx
      obtain ⟨i, hi, rfl⟩ := List.mem_map.1 hx
      rw [List.mem_range'_1] at hi
      obtain ⟨j, j1, j2, j3⟩ := isLabel_iff.1 (h i hi.1 hi.2)
      exact List.mem_map.2 ⟨j, by rw [List.mem_range'_1]; omega, j3⟩
    have := (List.subperm_of_subset h1 h2).length_le
    simp at this

/-! ### The loop -/

theorem mem_localLabels {proof : List Int} {x : Int} : x ∈ localLabels proof ↔ ∃ y ∈ proof, y ≤ -1000 ∧ x = -1000 - y := by
  unfold localLabels
  have : ∀ (l v : List Int), x ∈ l.foldl (fun v x => if x ≤ -1000 then (if nmbrElementIn 1 v (-1000 - x) = 0 then nmbrAddElement v (-1000 - x) else v) else v) v ↔
      x ∈ v ∨ ∃ y ∈ l, y ≤ -1000 ∧ x = -1000 - y := by
    intro l
    induction l with
    | nil => intro v; simp
    | cons y l ih =>
      intro v
      rw [List.foldl_cons, ih]
      by_cases h1 : y ≤ -1000
      · rw [if_pos h1]
        by_cases h2 : nmbrElementIn 1 v (-1000 - y) = 0
        · rw [if_pos h2]
          unfold nmbrAddElement
          simp only [List.mem_append, List.mem_cons, exists_eq_or_imp]
          tauto
        · rw [if_neg h2]
          have hin : -1000 - y ∈ v := by
            by_contra hc
            exact h2 ((elementIn_zero _ _).2 hc)
          simp only [List.mem_cons, exists_eq_or_imp]
          constructor
          · tauto
          · rintro (h | ⟨_, rfl⟩ | h)
            · exact Or.inl h
            · exact Or.inl hin
            · exact Or.inr h
      · rw [if_neg h1]
        simp only [List.mem_cons, exists_eq_or_imp]
        tauto
  rw [this]
  simp

theorem renderLoop_append {l : List Int} : ∀ {xs ys : List Int} {k : Nat} {s : RState}, renderLoop E l k (xs ++ ys) s = (renderLoop E l k xs s).bind (renderLoop E l (k + xs.length) ys)
  | [], ys, k, s => rfl
  | x :: xs, ys, k, s => by
    rw [List.cons_append, renderLoop, renderLoop]
    cases renderStep E l k x s
    · rename_i s'
      rw [Out.bind_val, Out.bind_val, renderLoop_append]
      have : k + (x :: xs).length = k + 1 + xs.length := by simp; omega
      rw [this]
    all_goals rfl

/-- The text of items: `label:` before the token, a blank after it. -/
def renderText (its : List Item) : List Char := its.flatMap fun x => x.labels.flatMap (fun l => l ++ [':']) ++ x.tok ++ [' ']

/-- A step the writer can handle: a statement, a reference to a step, or `?`. -/
def StepOk (E : Env) (plen : Nat) (x : Int) : Prop := (1 ≤ x ∧ x ≤ E.n) ∨ (x ≤ -1000 ∧ -1000 - x < plen) ∨ x = unk

/-- Step `i` gets a local label. -/
def Decl (E : Env) (proof : List Int) (i : Nat) : Prop := (∃ x, proof[i]? = some x ∧ 1 ≤ x ∧ x ≤ E.n) ∧ (-1000 - (i : Int)) ∈ proof

structure ItemOk (E : Env) (proof : List Int) (nm : Nat → Nat) (i : Nat) (x : Item) : Prop where
  decl : Decl E proof i → x.labels = [strNat (nm i)]
  undecl : ¬ Decl E proof i → x.labels = []
  stmt : ∀ y, proof[i]? = some y → 1 ≤ y → x.tok = E.lab y.toNat
  back : ∀ j : Nat, proof[i]? = some (-1000 - (j : Int)) → x.tok = strNat (if j < i then nm j else 0)
  unkn : proof[i]? = some unk → x.tok = ['?']

structure RInv (E : Env) (proof : List Int) (k : Nat) (st : RState) (its : List Item) : Prop where
  len : st.names.length = proof.length
  itsLen : its.length = k
  text : st.text = renderText its
  pos : 1 ≤ st.next
  names : ∀ i, i < k → Decl E proof i → 1 ≤ st.names.getD i 0 ∧ st.names.getD i 0 < st.next ∧ isLabel E (strNat (st.names.getD i 0)) = false
  zero : ∀ i, ¬ (i < k ∧ Decl E proof i) → st.names.getD i 0 = 0
  mono : ∀ i j, i < j → j < k → Decl E proof i → Decl E proof j → st.names.getD i 0 < st.names.getD j 0
  items : ∀ i x, its[i]? = some x → ItemOk E proof (fun i => st.names.getD i 0) i x
  bound : (∀ m, isLabel E (strNat m) = false) → st.next ≤ k + 1

theorem decl_iff {proof : List Int} {k : Nat} {x : Int} (hk : proof[k]? = some x) (hx : 1 ≤ x ∧ x ≤ E.n) :
    Decl E proof k ↔ nmbrElementIn 1 (localLabels proof) (k : Int) ≠ 0 := by
  rw [ne_eq, elementIn_zero, not_not, mem_localLabels]
  constructor
  · rintro ⟨_, h⟩; exact ⟨_, h, by omega, by omega⟩
  · rintro ⟨y, h1, h2, h3⟩
    refine ⟨⟨x, hk, hx⟩, ?_⟩
    have : -1000 - (k : Int) = y := by omega
    rw [this]; exact h1

theorem render_step {proof : List Int} {k : Nat} {x : Int} {st : RState} {its : List Item} (hk : proof[k]? = some x) (hx : StepOk E proof.length x)
    (h : RInv E proof k st its) : ∃ st' it, renderStep E (localLabels proof) k x st = .val st' ∧ RInv E proof (k + 1) st' (its ++ [it]) := by
  have hkl : k < proof.length := (List.getElem?_eq_some_iff.1 hk).1
  -- a step that changes only the text
  have plain : ∀ t : Name, ¬ Decl E proof k → (ItemOk E proof (fun i => st.names.getD i 0) k ⟨[], t⟩) →
      RInv E proof (k + 1) { st with text := st.text ++ t ++ [' '] } (its ++ [⟨[], t⟩]) := by
    intro t hnd hit
    refine ⟨h.len, by simp [h.itsLen], ?_, h.pos, ?_, ?_, ?_, ?_, fun hn => by have := h.bound hn; dsimp only; omega⟩
    · dsimp only; rw [h.text]; simp [renderText]
    · intro i hi hd
      have : i ≠ k := fun e => hnd (e ▸ hd)
      exact h.names i (by omega) hd
    · intro i hi
      apply h.zero
      rintro ⟨h1, h2⟩
      exact hi ⟨by omega, h2⟩
    · intro i j hij hj hdi hdj
      have : j ≠ k := fun e => hnd (e ▸ hdj)
      exact h.mono i j hij (by omega) hdi hdj
    · intro i y hy
      by_cases e : i < its.length
      · rw [List.getElem?_append_left e] at hy
        exact h.items i y hy
      · have hil : i = k := by
          have := (List.getElem?_eq_some_iff.1 hy).1
          simp at this
          have := h.itsLen
          omega
        subst hil
        have : its.length = i := h.itsLen
        rw [List.getElem?_append_right (by omega), this] at hy
        simp at hy
        rw [← hy]; exact hit
  rcases hx with hx | hx | hx
  · -- a statement
    unfold renderStep
    rw [if_neg (by omega), if_neg (by omega)]
    by_cases hd : Decl E proof k
    · rw [if_pos ((decl_iff hk hx).1 hd)]
      obtain ⟨m, m1, m2, m3, m4⟩ := nextFree_ok (E := E) st.next
      rw [m1, Out.bind_val]
      refine ⟨_, ⟨[strNat m], E.lab x.toNat⟩, rfl, ?_⟩
      have hget : ∀ i, (st.names.set k m).getD i 0 = if i = k then m else st.names.getD i 0 := by
        intro i
        rw [List.getD_eq_getElem?_getD, List.getElem?_set]
        by_cases e : k = i
        · subst e
          rw [if_pos rfl, if_pos (by rw [h.len]; exact hkl), if_pos rfl]; rfl
        · rw [if_neg e, if_neg (fun h => e h.symm), List.getD_eq_getElem?_getD]
      refine ⟨by simp [h.len], by simp [h.itsLen], ?_, by dsimp only; omega, ?_, ?_, ?_, ?_, ?_⟩
      · dsimp only; rw [h.text]; simp [renderText]
      · intro i hi hdi
        dsimp only
        rw [hget]
        have := h.pos
        by_cases e : i = k
        · rw [if_pos e]; exact ⟨by omega, by omega, m3⟩
        · rw [if_neg e]
          have := h.names i (by omega) hdi
          exact ⟨this.1, by omega, this.2.2⟩
      · intro i hi
        dsimp only
        have hne : i ≠ k := by rintro rfl; exact hi ⟨by omega, hd⟩
        rw [hget, if_neg hne]
        apply h.zero
        rintro ⟨h1, h2⟩
        exact hi ⟨by omega, h2⟩
      · intro i j hij hj hdi hdj
        dsimp only
        rw [hget, hget]
        have hik : i ≠ k := by omega
        rw [if_neg hik]
        by_cases e : j = k
        · rw [if_pos e]
          have := h.names i (by omega) hdi
          omega
        · rw [if_neg e]
          exact h.mono i j hij (by omega) hdi hdj
      · intro i y hy
        dsimp only
        by_cases e : i < its.length
        · rw [List.getElem?_append_left e] at hy
          have hi := h.items i y hy
          have hik : i < k := by have := h.itsLen; omega
          refine ⟨?_, hi.undecl, hi.stmt, ?_, hi.unkn⟩
          · intro hdi
            rw [hget, if_neg (by omega)]; exact hi.decl hdi
          · intro j hj
            rw [hi.back j hj]
            by_cases hji : j < i
            · rw [if_pos hji, if_pos hji, hget, if_neg (by omega)]
            · rw [if_neg hji, if_neg hji]
        · have hil : i = k := by
            have := (List.getElem?_eq_some_iff.1 hy).1
            simp at this
            have := h.itsLen
            omega
          subst hil
          have : its.length = i := h.itsLen
          rw [List.getElem?_append_right (by omega), this] at hy
          simp at hy
          rw [← hy]
          refine ⟨fun _ => by rw [hget, if_pos rfl], fun hn => absurd hd hn, ?_, ?_, ?_⟩
          · intro y hy _; rw [hk] at hy; cases hy; rfl
          · intro j hj; rw [hk] at hj; simp at hj; omega
          · intro hj; rw [hk] at hj; simp [unk] at hj; omega
      · intro hn
        have h1 := h.bound hn
        dsimp only
        have : m = st.next := by
          by_contra hc
          have := m4 st.next (le_refl _) (by omega)
          rw [hn] at this; cases this
        omega
    · rw [if_neg (fun hc => hd ((decl_iff hk hx).2 hc))]
      refine ⟨_, _, rfl, plain _ hd ⟨fun hc => absurd hc hd, fun _ => rfl, ?_, ?_, ?_⟩⟩
      · intro y hy _; rw [hk] at hy; cases hy; rfl
      · intro j hj; rw [hk] at hj; simp at hj; omega
      · intro hj; rw [hk] at hj; simp [unk] at hj; omega
  · -- a reference
    have hnd : ¬ Decl E proof k := by
      rintro ⟨⟨y, hy, h1, _⟩, _⟩
      rw [hk] at hy; cases hy; omega
    unfold renderStep
    rw [if_pos (by omega), if_pos hx.1]
    have hr : Out.read st.names (-1000 - x).toNat = .val (st.names.getD (-1000 - x).toNat 0) := by
      unfold Out.read
      have hlt : (-1000 - x).toNat < st.names.length := by rw [h.len]; omega
      rw [List.getElem?_eq_getElem hlt, List.getD_eq_getElem _ _ hlt]
    rw [hr, Out.bind_val]
    refine ⟨_, _, rfl, plain _ hnd ⟨fun hc => absurd hc hnd, fun _ => rfl, ?_, ?_, ?_⟩⟩
    · intro y hy h1; rw [hk] at hy; cases hy; omega
    · intro j hj
      rw [hk] at hj
      simp only [Option.some.injEq] at hj
      have : (-1000 - x).toNat = j := by omega
      dsimp only
      rw [this]
      by_cases hjk : j < k
      · rw [if_pos hjk]
      · rw [if_neg hjk, h.zero j (fun hc => hjk hc.1)]
    · intro hj; rw [hk] at hj; simp [unk] at hj; omega
  · -- `?`
    subst hx
    have hnd : ¬ Decl E proof k := by
      rintro ⟨⟨y, hy, h1, _⟩, _⟩
      rw [hk] at hy; cases hy; simp [unk] at h1
    unfold renderStep
    rw [if_pos (by decide), if_neg (by decide), if_neg (by simp)]
    refine ⟨_, _, by rw [show st.text ++ ['?', ' '] = st.text ++ ['?'] ++ [' '] by simp], plain ['?'] hnd ⟨fun hc => absurd hc hnd, fun _ => rfl, ?_, ?_, fun _ => rfl⟩⟩
    · intro y hy h1; rw [hk] at hy; cases hy; simp [unk] at h1
    · intro j hj; rw [hk] at hj; simp [unk] at hj; omega

theorem render_loop {proof : List Int} (hx : ∀ x ∈ proof, StepOk E proof.length x) : ∀ k ≤ proof.length,
    ∃ st its, renderLoop E (localLabels proof) 0 (proof.take k) { names := List.replicate proof.length 0 } = .val st ∧ RInv E proof k st its := by
  intro k
  induction k with
  | zero =>
    intro _
    refine ⟨_, [], by rw [List.take_zero]; rfl, ?_⟩
    refine ⟨by simp, rfl, rfl, le_refl _, fun i hi => by omega, ?_, fun i j _ hj => by omega, fun i x hx => by simp at hx, fun _ => le_refl _⟩
    intro i _
    rw [List.getD_eq_getElem?_getD, List.getElem?_replicate]
    split <;> rfl
  | succ k ih =>
    intro hk
    obtain ⟨st, its, h1, h2⟩ := ih (by omega)
    have hget : proof[k]? = some proof[k] := List.getElem?_eq_getElem (by omega)
    obtain ⟨st', it, h3, h4⟩ := render_step hget (hx _ (List.getElem_mem _)) h2
    refine ⟨st', _, ?_, h4⟩
    rw [List.take_add_one, hget, Option.toList_some, renderLoop_append, h1]
    show renderLoop E _ (0 + (proof.take k).length) [proof[k]] st = _
    rw [List.length_take, Nat.min_eq_left (by omega), Nat.zero_add, renderLoop, h3]
    rfl

/-! ### C45: the buffer is big enough -/

theorem maxLabelLen_ge {proof : List Int} (hx : ∀ x ∈ proof, StepOk E proof.length x) (hq : unk ∈ proof → ∀ x ∈ proof, 1 ≤ x → (E.lab x.toNat).length ≤ 100) :
    (∀ x ∈ proof, 1 ≤ x → (E.lab x.toNat).length ≤ maxLabelLen E proof) := by
  unfold maxLabelLen
  have key : ∀ (xs : List Int) (m : Nat), (∀ x ∈ xs, (1 ≤ x ∧ x ≤ E.n) ∨ x ≤ -1000 ∨ x = unk) →
      ((m ≤ 100 ∧ ∀ x ∈ xs, 1 ≤ x → (E.lab x.toNat).length ≤ 100) ∨ unk ∉ xs) →
      m ≤ xs.foldl (fun (m : Nat) (x : Int) => if x ≤ -1000 then m else if x < 1 ∨ x > E.n then 100 else max m (E.lab x.toNat).length) m ∧
      ∀ x ∈ xs, 1 ≤ x → (E.lab x.toNat).length ≤ xs.foldl (fun (m : Nat) (x : Int) => if x ≤ -1000 then m else if x < 1 ∨ x > E.n then 100 else max m (E.lab x.toNat).length) m := by
    intro xs
    induction xs with
    | nil => intro m _ _; exact ⟨le_refl _, fun x hx => by cases hx⟩
    | cons x xs ih =>
      intro m hok hor
      have hok' : ∀ y ∈ xs, (1 ≤ y ∧ y ≤ E.n) ∨ y ≤ -1000 ∨ y = unk := fun y hy => hok y (by simp [hy])
      rw [List.foldl_cons]
      rcases hok x (by simp) with h1 | h1 | h1
      · rw [if_neg (by omega), if_neg (by omega)]
        have := ih (max m (E.lab x.toNat).length) hok' (by
          rcases hor with ⟨h2, h3⟩ | h2
          · exact Or.inl ⟨by have := h3 x (by simp) h1.1; omega, fun y hy => h3 y (by simp [hy])⟩
          · exact Or.inr (fun hc => h2 (by simp [hc])))
        refine ⟨by have := this.1; omega, ?_⟩
        intro y hy h2
        rcases List.mem_cons.1 hy with rfl | hy
        · have := this.1; omega
        · exact this.2 y hy h2
      · rw [if_pos h1]
        have := ih m hok' (by
          rcases hor with ⟨h2, h3⟩ | h2
          · exact Or.inl ⟨h2, fun y hy => h3 y (by simp [hy])⟩
          · exact Or.inr (fun hc => h2 (by simp [hc])))
        refine ⟨this.1, ?_⟩
        intro y hy h2
        rcases List.mem_cons.1 hy with rfl | hy
        · omega
        · exact this.2 y hy h2
      · subst h1
        rcases hor with ⟨h2, h3⟩ | h2
        · rw [if_neg (by decide), if_pos (Or.inl (by decide))]
          have := ih 100 hok' (Or.inl ⟨le_refl _, fun y hy => h3 y (by simp [hy])⟩)
          refine ⟨by have := this.1; omega, ?_⟩
          intro y hy h4
          rcases List.mem_cons.1 hy with rfl | hy
          · simp [unk] at h4
          · exact this.2 y hy h4
        · exact absurd (by simp) h2
  refine (key proof 0 ?_ ?_).2
  · intro x hxm
    rcases hx x hxm with h | h | h
    · exact Or.inl h
    · exact Or.inr (Or.inl h.1)
    · exact Or.inr (Or.inr h)
  · by_cases hu : unk ∈ proof
    · exact Or.inl ⟨by omega, hq hu⟩
    · exact Or.inr hu

/-- What is written for one step fits into its share of the buffer. -/
theorem render_item_len {proof : List Int} {st : RState} {its : List Item} (hx : ∀ x ∈ proof, StepOk E proof.length x)
    (hq : unk ∈ proof → ∀ x ∈ proof, 1 ≤ x → (E.lab x.toNat).length ≤ 100) (hn : ∀ m, isLabel E (strNat m) = false) (h : RInv E proof proof.length st its) :
    ∀ x ∈ its, (x.labels.flatMap (fun l => l ++ [':']) ++ x.tok ++ [' ']).length ≤ 2 + maxLabelLen E proof + maxLocalLen proof.length := by
  have hM := maxLabelLen_ge hx hq
  have hnm : ∀ i, (strNat (st.names.getD i 0)).length ≤ maxLocalLen proof.length ∨ proof.length = 0 := by
    intro i
    by_cases h0 : proof.length = 0
    · exact Or.inr h0
    · left
      unfold maxLocalLen
      rw [if_neg h0]
      apply strNat_mono
      by_cases hd : i < proof.length ∧ Decl E proof i
      · have := h.names i hd.1 hd.2
        have := h.bound hn
        omega
      · rw [h.zero i hd]; omega
  intro x hxm
  obtain ⟨i, hi⟩ := List.getElem?_of_mem hxm
  have hil : i < proof.length := by rw [← h.itsLen]; exact (List.getElem?_eq_some_iff.1 hi).1
  have hit := h.items i x hi
  have hget : proof[i]? = some proof[i] := List.getElem?_eq_getElem hil
  have hmem : proof[i] ∈ proof := List.getElem_mem _
  have hN : ∀ j, (strNat (st.names.getD j 0)).length ≤ maxLocalLen proof.length := fun j => (hnm j).resolve_right (by omega)
  have hlab : (x.labels.flatMap (fun l => l ++ [':'])).length ≤ maxLocalLen proof.length + 1 := by
    by_cases hd : Decl E proof i
    · rw [hit.decl hd]
      have := hN i
      simp; simpa using this
    · rw [hit.undecl hd]; simp
  simp only [List.length_append, List.length_cons, List.length_nil]
  rcases hx _ hmem with h1 | h1 | h1
  · rw [hit.stmt _ hget h1.1]
    have := hM _ hmem h1.1
    omega
  · have hnd : ¬ Decl E proof i := by
      rintro ⟨⟨y, hy, h2, _⟩, _⟩
      rw [hget] at hy; cases hy; omega
    obtain ⟨j, hj⟩ : ∃ j : Nat, proof[i] = -1000 - (j : Int) := ⟨(-1000 - proof[i]).toNat, by omega⟩
    rw [hit.undecl hnd, hit.back j (by rw [hget, hj])]
    have : (strNat (if j < i then st.names.getD j 0 else 0)).length ≤ maxLocalLen proof.length := by
      split
      · exact hN j
      · refine le_trans (strNat_mono (by omega)) (hN j)
    simp only [List.flatMap_nil, List.length_nil]; omega
  · have hnd : ¬ Decl E proof i := by
      rintro ⟨⟨y, hy, h2, _⟩, _⟩
      rw [hget] at hy; cases hy; rw [h1] at h2; simp [unk] at h2
    rw [hit.undecl hnd, hit.unkn (by rw [hget, h1])]
    simp; omega

theorem renderText_len {proof : List Int} {st : RState} {its : List Item} (hx : ∀ x ∈ proof, StepOk E proof.length x)
    (hq : unk ∈ proof → ∀ x ∈ proof, 1 ≤ x → (E.lab x.toNat).length ≤ 100) (hn : ∀ m, isLabel E (strNat m) = false) (h : RInv E proof proof.length st its) :
    (renderText its).length ≤ renderCap E proof := by
  have hitem := render_item_len hx hq hn h
  have : ∀ (its : List Item) (B : Nat), (∀ x ∈ its, (x.labels.flatMap (fun l => l ++ [':']) ++ x.tok ++ [' ']).length ≤ B) → (renderText its).length ≤ its.length * B := by
    intro its B
    induction its with
    | nil => intro _; simp [renderText]
    | cons x its ih =>
      intro hb
      have h1 := hb x (by simp)
      have h2 := ih (fun y hy => hb y (by simp [hy]))
      have e : (renderText (x :: its)).length = (x.labels.flatMap (fun l => l ++ [':']) ++ x.tok ++ [' ']).length + (renderText its).length := by
        unfold renderText; rw [List.flatMap_cons, List.length_append]
      rw [e, List.length_cons, Nat.add_mul]
      omega
  have := this its _ hitem
  rw [h.itsLen] at this
  exact this

/-- **C45** (partial: no statement label is a decimal numeral, and labels have at most 100 characters if the proof has unknown steps).  The writer of the
normal and packed formats stays within its buffer.  Without these conditions it does not, see `C45_unknown_step_overflows` and
`C45_numeric_labels_overflow`. -/
theorem C45_render_safe_partial {proof : List Int} (hx : ∀ x ∈ proof, (1 ≤ x ∧ x ≤ E.n) ∨ (x ≤ -1000 ∧ -1000 - x < proof.length) ∨ x = unk)
    (hnum : ∀ i m, 1 ≤ i → i ≤ E.n → E.lab i ≠ Nat.toDigits 10 m)
    (hq : unk ∈ proof → ∀ i, 1 ≤ i → i ≤ E.n → (E.lab i).length ≤ 100) : ∃ out, nmbrCvtRToVString E proof = .val out := by
  have hn : ∀ m, isLabel E (strNat m) = false := by
    intro m
    by_contra hc
    simp only [Bool.not_eq_false] at hc
    obtain ⟨i, h1, h2, h3⟩ := isLabel_iff.1 hc
    exact hnum i m h1 h2 h3
  obtain ⟨st, its, h1, h2⟩ := render_loop hx proof.length (le_refl _)
  rw [List.take_length] at h1
  have := renderText_len hx (fun hu x hxm h1 => by
    rcases hx x hxm with h3 | h3 | h3
    · exact hq hu _ (by omega) (by omega)
    · omega
    · rw [h3] at h1; simp [unk] at h1) hn h2
  unfold nmbrCvtRToVString
  rw [h1, Out.bind_val, if_neg (by rw [h2.text]; omega)]
  exact ⟨_, rfl⟩

/-! ### C46: reading the text back -/

theorem proofWords_blank (c : Char) (u : List Char) (h : isGraph c = false) : proofWords (c :: u) = proofWords u := by
  unfold proofWords
  rw [isSingle_eq, spread_cons, if_neg (by intro hs; rw [isSingle_graph hs] at h; cases h)]
  exact words_blank h

theorem proofWords_single (c : Char) (u : List Char) (h : isSingle c = true) : proofWords (c :: u) = [c] :: proofWords u := by
  unfold proofWords
  rw [isSingle_eq, spread_cons, if_pos h]
  show words (' ' :: ([c] ++ ' ' :: spreadBy isSingle u)) = _
  rw [words_blank (by decide), words_word (by intro x hx; simp at hx; subst hx; exact isSingle_graph h) (by simp) (by intro x hx; simp at hx; subst hx; decide),
    words_blank (by decide)]

theorem spread_append (sp : Char → Bool) (u v : List Char) : spreadBy sp (u ++ v) = spreadBy sp u ++ spreadBy sp v := by
  unfold spreadBy; rw [List.flatMap_append]

theorem proofWords_word {w u : List Char} (hw : LabelWord w) (hu : ∀ c, u.head? = some c → isGraph c = false ∨ isSingle c = true) :
    proofWords (w ++ u) = w :: proofWords u := by
  unfold proofWords
  rw [isSingle_eq, spread_append, spread_plain (fun c hc => (labelChar_graph (hw.2 c hc)).2.1)]
  apply words_word (fun c hc => (labelChar_graph (hw.2 c hc)).1) hw.1
  intro c hc
  cases u with
  | nil => simp [spreadBy] at hc
  | cons d u =>
    rw [spread_cons] at hc
    split at hc
    · simp at hc; rw [← hc]; decide
    · rename_i hs
      simp at hc; subst hc
      rcases hu d rfl with h | h
      · exact h
      · exact absurd h hs

theorem proofWords_decl : ∀ {ls : List Name} {u : List Char}, (∀ l ∈ ls, LabelWord l) → proofWords (ls.flatMap (fun l => l ++ [':']) ++ u) = declText ls ++ proofWords u
  | [], u, _ => by simp [declText]
  | l :: ls, u, h => by
    have hl := h l (by simp)
    have e : (l :: ls).flatMap (fun l => l ++ [':']) ++ u = l ++ (':' :: (ls.flatMap (fun l => l ++ [':']) ++ u)) := by simp
    rw [e, proofWords_word hl (by intro c hc; simp at hc; subst hc; right; decide), proofWords_single _ _ (by decide),
      proofWords_decl (fun x hx => h x (by simp [hx]))]
    simp [declText]

/-- The words of the text. -/
theorem proofWords_render : ∀ {its : List Item}, (∀ x ∈ its, LabelWord x.tok ∧ ∀ l ∈ x.labels, LabelWord l) → proofWords (renderText its).dropLast = text its
  | [], _ => by simp [renderText, text, proofWords, spreadBy, words_nil]
  | [x], h => by
    obtain ⟨h1, h2⟩ := h x (by simp)
    have e : (renderText [x]).dropLast = x.labels.flatMap (fun l => l ++ [':']) ++ (x.tok ++ []) := by simp [renderText]
    rw [e, proofWords_decl h2, proofWords_word h1 (by intro c hc; simp at hc)]
    simp [text, proofWords, spreadBy, words_nil]
  | x :: y :: its, h => by
    obtain ⟨h1, h2⟩ := h x (by simp)
    have e : (renderText (x :: y :: its)).dropLast = x.labels.flatMap (fun l => l ++ [':']) ++ (x.tok ++ ' ' :: (renderText (y :: its)).dropLast) := by
      have : renderText (x :: y :: its) = (x.labels.flatMap (fun l => l ++ [':']) ++ x.tok ++ [' ']) ++ renderText (y :: its) := by
        unfold renderText; rw [List.flatMap_cons]
      rw [this, List.dropLast_append_of_ne_nil (by simp [renderText])]
      simp
    rw [e, proofWords_decl h2, proofWords_word h1 (by intro c hc; simp at hc; subst hc; left; decide), proofWords_blank _ _ (by decide),
      proofWords_render (fun z hz => h z (by simp [hz]))]
    simp [text]

theorem render_chars {its : List Item} (h : ∀ x ∈ its, LabelWord x.tok ∧ ∀ l ∈ x.labels, LabelWord l) : '$' ∉ renderText its := by
  intro hc
  unfold renderText at hc
  obtain ⟨x, hx, hc⟩ := List.mem_flatMap.1 hc
  obtain ⟨h1, h2⟩ := h x hx
  rcases List.mem_append.1 hc with hc | hc
  · rcases List.mem_append.1 hc with hc | hc
    · obtain ⟨l, hl, hc⟩ := List.mem_flatMap.1 hc
      rcases List.mem_append.1 hc with hc | hc
      · exact (labelChar_graph ((h2 l hl).2 _ hc)).2.2.1 rfl
      · simp at hc
    · exact (labelChar_graph (h1.2 _ hc)).2.2.1 rfl
  · simp at hc

theorem render_print {its : List Item} (h : ∀ x ∈ its, LabelWord x.tok ∧ ∀ l ∈ x.labels, LabelWord l) : ∀ c ∈ renderText its, c = ' ' ∨ (printable c = true ∧ c ≠ '$') := by
  intro c hc
  have key : ∀ c, LabelChar c → c = ' ' ∨ (printable c = true ∧ c ≠ '$') := fun c h => by
    rw [printable_eq]; exact Or.inr ⟨(labelChar_graph h).1, (labelChar_graph h).2.2.1⟩
  unfold renderText at hc
  obtain ⟨x, hx, hc⟩ := List.mem_flatMap.1 hc
  obtain ⟨h1, h2⟩ := h x hx
  rcases List.mem_append.1 hc with hc | hc
  · rcases List.mem_append.1 hc with hc | hc
    · obtain ⟨l, hl, hc⟩ := List.mem_flatMap.1 hc
      rcases List.mem_append.1 hc with hc | hc
      · exact key c ((h2 l hl).2 _ hc)
      · simp at hc; subst hc; exact Or.inr (by decide)
    · exact key c (h1.2 _ hc)
  · simp at hc; exact Or.inl hc

variable {src : List Src} {s : PState} {look : Look}

theorem code_step_eq {refs : List Ref} {i j : Nat} : (refs.map Ref.code)[i]? = some (-1000 - (j : Int)) ↔ refs[i]? = some (.step j) := by
  rw [List.getElem?_map]
  cases h : refs[i]? with
  | none => simp
  | some r =>
    cases r with
    | stmt a => simp [Ref.code]; omega
    | step a => simp [Ref.code]

/-- The steps of a packed proof can be written. -/
theorem packed_steps (h : Accepted src s) (hp : kindAt (kinds src) p = .p) {refs : List Ref} (hP : PackedProof src s p refs) :
    ∀ x ∈ refs.map Ref.code, StepOk (envOf look src s) (refs.map Ref.code).length x := by
  have hPE := packedE_of (look := look) h hp hP
  have hH := hypsOk_of (look := look) h hp
  have hrange : ∀ {j}, Ref.stmt j ∈ refs → 1 ≤ j ∧ j ≤ src.length := by
    intro j hj
    have h1 := hPE.stmts j hj
    have h2 := hH.range
    simp only [envOf] at h2
    omega
  intro x hx
  obtain ⟨r, hr, rfl⟩ := mem_codes hx
  cases r with
  | stmt j =>
    have := hrange hr
    left
    simp only [Ref.code, envOf]; omega
  | step i =>
    have := packed_step_lt hPE hr
    right; left
    simp only [Ref.code, List.length_map]; omega

/-- What the items that are written for a packed proof are parsed to. -/
theorem items_parse (h : Accepted src s) (hl : LookOk look) (hL : SrcLabels src)
    (hLC : ∀ i, 1 ≤ i → i ≤ src.length → ∀ c ∈ srcLabel src i, LabelChar c) (hp : kindAt (kinds src) p = .p) {refs : List Ref}
    (hP : PackedProof src s p refs) {st : RState} {its : List Item} (h2 : RInv (envOf look src s) (refs.map Ref.code) (refs.map Ref.code).length st its) :
    (∀ x ∈ its, LabelWord x.tok ∧ ∀ l ∈ x.labels, LabelWord l) ∧ parseProof (envOf look src s) p (text its) = .val ⟨refs.map Ref.code, 0, 0⟩ := by
  have hPE := packedE_of (look := look) h hp hP
  have hH := hypsOk_of (look := look) h hp
  have hLE := labelsOk_of (look := look) h hL
  have hrange : ∀ {j}, Ref.stmt j ∈ refs → 1 ≤ j ∧ j ≤ src.length := by
    intro j hj
    have h1 := hPE.stmts j hj
    have h2 := hH.range
    simp only [envOf] at h2
    omega
  have hlen : its.length = refs.length := by rw [h2.itsLen, List.length_map]
  -- the tokens are names
  have hword : ∀ {j}, Ref.stmt j ∈ refs → LabelWord (srcLabel src j) := by
    intro j hj
    obtain ⟨h3, h4⟩ := hrange hj
    refine ⟨?_, hLC j h3 h4⟩
    rw [hL.kinds j h3 h4]
    rcases (hPE.stmts j hj).2.2 with hm | hm
    · have hk := (hH.mem j hm).2.2
      rw [kind_env h] at hk
      rcases hk with hk | hk
      · exact Or.inl hk
      · exact Or.inr (Or.inl hk)
    · rw [kind_env h] at hm
      exact Or.inr (Or.inr hm)
  have hdecl : ∀ {i : Nat}, Ref.step i ∈ refs → Decl (envOf look src s) (refs.map Ref.code) i := by
    intro i hi
    obtain ⟨k, hk⟩ := List.getElem?_of_mem hi
    obtain ⟨_, j, hj, _⟩ := hPE.steps k i hk
    have h3 := hrange (List.mem_of_getElem? hj)
    refine ⟨⟨j, by rw [List.getElem?_map, hj]; rfl, by omega, by simp only [envOf]; omega⟩, List.mem_map.2 ⟨_, hi, rfl⟩⟩
  have hdecl2 : ∀ {i : Nat}, Decl (envOf look src s) (refs.map Ref.code) i → ∃ j, refs[i]? = some (.stmt j) ∧ ((envOf look src s).stmt j).kind = .a ∨ refs[i]? = some (.stmt j) ∧ ((envOf look src s).stmt j).kind = .p := by
    rintro i ⟨_, hm⟩
    obtain ⟨r, hr, e⟩ := mem_codes hm
    cases r with
    | stmt j => simp only [Ref.code] at e; omega
    | step i' =>
      simp only [Ref.code] at e
      have : i' = i := by omega
      subst this
      obtain ⟨k, hk⟩ := List.getElem?_of_mem hr
      obtain ⟨_, j, hj, hkk⟩ := hPE.steps k i' hk
      rcases hkk with hkk | hkk
      · exact ⟨j, Or.inl ⟨hj, hkk⟩⟩
      · exact ⟨j, Or.inr ⟨hj, hkk⟩⟩
  have hitem : ∀ i x, its[i]? = some x → ∃ r, refs[i]? = some r ∧
      (∀ l ∈ x.labels, l = strNat (st.names.getD i 0) ∧ Decl (envOf look src s) (refs.map Ref.code) i) ∧
      (∀ j, r = .stmt j → x.tok = srcLabel src j) ∧ (∀ j, r = .step j → j < i ∧ x.tok = strNat (st.names.getD j 0)) := by
    intro i x hi
    have hil : i < refs.length := by rw [← hlen]; exact (List.getElem?_eq_some_iff.1 hi).1
    have hget : refs[i]? = some refs[i] := List.getElem?_eq_getElem hil
    have hit := h2.items i x hi
    refine ⟨refs[i], hget, ?_, ?_, ?_⟩
    · intro l hl
      by_cases hd : Decl (envOf look src s) (refs.map Ref.code) i
      · rw [hit.decl hd] at hl
        simp at hl
        exact ⟨by simpa using hl, hd⟩
      · rw [hit.undecl hd] at hl; cases hl
    · intro j hj
      rw [hj] at hget
      have := hit.stmt j (by rw [List.getElem?_map, hget]; rfl) (by have := hrange (List.mem_of_getElem? hget); omega)
      rw [this]; rfl
    · intro j hj
      rw [hj] at hget
      have hlt := (hPE.steps i j hget).1
      refine ⟨hlt, ?_⟩
      rw [hit.back j (code_step_eq.2 hget), if_pos hlt]
  have hwords : ∀ x ∈ its, LabelWord x.tok ∧ ∀ l ∈ x.labels, LabelWord l := by
    intro x hx
    obtain ⟨i, hi⟩ := List.getElem?_of_mem hx
    obtain ⟨r, hr, hl, hs, hb⟩ := hitem i x hi
    constructor
    · cases r with
      | stmt j => rw [hs j rfl]; exact hword (List.mem_of_getElem? hr)
      | step j => rw [(hb j rfl).2]; exact strNat_word _
    · intro l hl'; rw [(hl l hl').1]; exact strNat_word _
  refine ⟨hwords, ?_⟩
  apply parseProof_complete (E := envOf look src s) hl hLE hH ?_ (by rw [List.length_map, hlen]) hP.tree
  · intro k x ps hx hps
    obtain ⟨ref, hr, hl, hs, hb⟩ := hitem k x hx
    rw [List.getElem?_map, hr] at hps
    simp only [Option.map_some, Option.some.injEq] at hps
    subst hps
    constructor
    · cases ref with
      | stmt j =>
        rw [hs j rfl]
        have hj := hPE.stmts j (List.mem_of_getElem? hr)
        rcases hj.2.2 with hm | hm
        · exact .hyp j hm rfl
        · exact .use j hj.1 hj.2.1 hm rfl (hword (List.mem_of_getElem? hr)).1
      | step j =>
        obtain ⟨hlt, htok⟩ := hb j rfl
        rw [htok]
        have hd := hdecl (List.mem_of_getElem? hr)
        have hkl := (List.getElem?_eq_some_iff.1 hx).1
        have hgj : its[j]? = some its[j] := List.getElem?_eq_getElem (by omega)
        refine .back j _ hlt hgj ?_
        rw [(h2.items j _ hgj).decl hd]
        simp
    · intro hne
      obtain ⟨l, hl'⟩ := List.exists_mem_of_ne_nil _ hne
      obtain ⟨j, hj⟩ := hdecl2 (hl l hl').2
      rcases hj with ⟨hj, hk⟩ | ⟨hj, hk⟩ <;> rw [hr] at hj <;> cases hj
      · exact ⟨by simp [Ref.code], Or.inl (by simpa [Ref.code] using hk)⟩
      · exact ⟨by simp [Ref.code], Or.inr (by simpa [Ref.code] using hk)⟩
  · refine ⟨?_, ?_, ?_, ?_⟩
    · intro x hx l hl
      have := (hwords x hx).2 l hl
      exact ⟨this.1, fun c hc => (labelChar_iff c).2 (this.2 c hc)⟩
    · intro x hx l hl j hj1 hj2 he
      exfalso
      obtain ⟨i, hi⟩ := List.getElem?_of_mem hx
      obtain ⟨_, _, hl2, _⟩ := hitem i x hi
      obtain ⟨e, hd⟩ := hl2 l hl
      have hil : i < (refs.map Ref.code).length := by rw [List.length_map, ← hlen]; exact (List.getElem?_eq_some_iff.1 hi).1
      have hfree := (h2.names i hil hd).2.2
      have : isLabel (envOf look src s) (strNat (st.names.getD i 0)) = true := by
        rw [isLabel_iff]
        refine ⟨j, hj1, ?_, by rw [he, e]⟩
        have := hH.range
        omega
      rw [hfree] at this; cases this
    · rw [List.nodup_flatMap]
      constructor
      · intro x hx
        obtain ⟨i, hi⟩ := List.getElem?_of_mem hx
        by_cases hd : Decl (envOf look src s) (refs.map Ref.code) i
        · rw [(h2.items i x hi).decl hd]; simp
        · rw [(h2.items i x hi).undecl hd]; simp
      · rw [List.pairwise_iff_getElem]
        intro i j hi hj hij l hl1 hl2
        obtain ⟨_, _, hl3, _⟩ := hitem i its[i] (List.getElem?_eq_getElem hi)
        obtain ⟨_, _, hl4, _⟩ := hitem j its[j] (List.getElem?_eq_getElem hj)
        obtain ⟨e1, d1⟩ := hl3 l hl1
        obtain ⟨e2, d2⟩ := hl4 l hl2
        have := h2.mono i j hij (by rw [List.length_map, ← hlen]; exact hj) d1 d2
        rw [e1] at e2
        have := strNat_inj e2
        omega
    · intro x hx
      obtain ⟨hne, hc⟩ := (hwords x hx).1
      obtain ⟨c, w, hcw⟩ := List.exists_cons_of_ne_nil hne
      rw [hcw] at hc ⊢
      have hs := (labelChar_graph (hc c (by simp))).2.1
      constructor <;> intro e <;> simp at e <;> subst e <;> simp [isSingle] at hs

/-- **C46**.  If `nmbrCvtRToVString` writes a packed proof `refs` of `p` (it does, by C45, unless its buffer overflows), every proof section with the same words
as the text - in particular the text itself, whatever the line breaks - is parsed to exactly the proof `refs`, without any message. -/
theorem C46_normal_round_trip (h : Accepted src s) (hl : LookOk look) (hL : SrcLabels src)
    (hLC : ∀ i, 1 ≤ i → i ≤ src.length → ∀ c ∈ srcLabel src i, LabelChar c) (hp : kindAt (kinds src) p = .p) {refs : List Ref}
    (hP : PackedProof src s p refs) {out : List Char} (hrun : nmbrCvtRToVString (envOf look src s) (refs.map Ref.code) = .val out) :
    Blank out out ∧ (∀ c ∈ out, c = ' ' ∨ (printable c = true ∧ c ≠ '$')) ∧ ∀ (t u r : List Char) (W : Nat), Blank t u → proofWords u = proofWords out →
      parseProofText (envOf look src s) W p (t ++ '$' :: '.' :: r) t.length = .val ⟨refs.map Ref.code, 0, 0⟩ := by
  obtain ⟨st, its, h1, h2⟩ := render_loop (packed_steps (look := look) h hp hP) (refs.map Ref.code).length (le_refl _)
  rw [List.take_length] at h1
  obtain ⟨hwords, hparse⟩ := items_parse (look := look) h hl hL hLC hp hP h2
  unfold nmbrCvtRToVString at hrun
  rw [h1, Out.bind_val] at hrun
  split at hrun
  · cases hrun
  injection hrun with hrun
  subst hrun
  rw [h2.text]
  have hnd : '$' ∉ (renderText its).dropLast := fun hc => render_chars hwords (List.dropLast_subset _ hc)
  refine ⟨blank_self hnd, fun c hc => render_print hwords c (List.dropLast_subset _ hc), ?_⟩
  intro t u r W hB hw
  rw [proofWords_render hwords] at hw
  have he : Stop ('$' :: '.' :: r) := Or.inr ⟨_, _, rfl, by decide⟩
  -- the section does not start with `(`
  obtain ⟨t', u', b, k1, k2, k3, k3', k4, k5, k6⟩ := skip_split hB he
  unfold parseProofText
  rw [k1, Out.bind_val, if_neg, C23_proof_tokens hB he, Out.bind_val, hw, hparse]
  intro hpar
  cases t' with
  | nil => simp at hpar
  | cons c t' =>
    simp at hpar
    subst hpar
    obtain ⟨u3, hu3, _⟩ := blank_cons (by decide) k2
    have hskip : ∀ (b : List Char), (∀ c ∈ b, isGraph c = false) → ∀ v, proofWords (b ++ v) = proofWords v := by
      intro b
      induction b with
      | nil => intro _ v; rfl
      | cons c b ih => intro hb v; rw [List.cons_append, proofWords_blank _ _ (hb c (by simp)), ih (fun x hx => hb x (by simp [hx]))]
    rw [k4, hskip b k5, hu3, proofWords_single _ _ (by decide)] at hw
    cases its with
    | nil => simp [text] at hw
    | cons x its =>
      obtain ⟨h3, h4⟩ := hwords x (by simp)
      have hbad : ¬ LabelWord ['('] := by
        intro hc
        exact absurd (labelChar_graph (hc.2 '(' (by simp))).2.1 (by decide)
      cases hxl : x.labels with
      | nil =>
        simp [text, declText, hxl] at hw
        rw [← hw.1] at h3
        exact hbad h3
      | cons l ls =>
        simp [text, declText, hxl] at hw
        have := h4 l (by rw [hxl]; simp)
        rw [← hw.1] at this
        exact hbad this

end MM.Data
