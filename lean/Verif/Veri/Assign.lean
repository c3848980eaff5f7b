import Verif.Veri.Uniq
import Verif.Spec.Unify
/-! # `assignVar` as a whole -/
namespace MM.Veri
open MM.Spec

/-! ## The big strings -/

/-- No member contains the separator. -/
def SepFree (sep : Nat) (hs : List (List Nat)) : Prop := ∀ h ∈ hs, sep ∉ h

theorem bigStr_snoc (sep : Nat) (hs : List (List Nat)) (h : List Nat) :
    bigStr sep (hs ++ [h]) = bigStr sep hs ++ h ++ [sep] := by
  simp [bigStr]

theorem bigStr_last (sep : Nat) (hs : List (List Nat)) : ∃ l, bigStr sep hs = l ++ [sep] := by
  induction hs using List.reverseRecOn with
  | nil => exact ⟨[], rfl⟩
  | append_singleton hs h _ => exact ⟨bigStr sep hs ++ h, bigStr_snoc sep hs h⟩

theorem mem_bigStr {sep : Nat} {hs : List (List Nat)} {t : Nat} :
    t ∈ bigStr sep hs ↔ t = sep ∨ ∃ h ∈ hs, t ∈ h := by
  simp only [bigStr, List.mem_cons, List.mem_flatMap, List.mem_append, List.mem_singleton,
    List.not_mem_nil, or_false]
  constructor
  · rintro (h | ⟨a, ha, h | h⟩)
    · exact Or.inl h
    · exact Or.inr ⟨a, ha, h⟩
    · exact Or.inl h
  · rintro (h | ⟨a, ha, h⟩)
    · exact Or.inl h
    · exact Or.inr ⟨a, ha, Or.inl h⟩

theorem bigStr_count {sep : Nat} {hs : List (List Nat)} (h : SepFree sep hs) :
    (bigStr sep hs).count sep = hs.length + 1 := by
  induction hs using List.reverseRecOn with
  | nil => simp [bigStr]
  | append_singleton hs a ih =>
    rw [bigStr_snoc]
    simp only [List.count_append]
    rw [ih (fun x hx => h x (by simp [hx])), List.count_eq_zero.mpr (h a (by simp))]
    simp

theorem subst_bigStr {isVar : Nat → Bool} {σ} {sep : Nat} (hs : isVar sep = false)
    (hyps : List (List Nat)) :
    subst isVar σ (bigStr sep hyps) = bigStr sep (hyps.map (subst isVar σ)) := by
  induction hyps using List.reverseRecOn with
  | nil => simp [bigStr, subst, hs]
  | append_singleton hyps a ih =>
    rw [bigStr_snoc, subst_append, subst_append, ih, List.map_append, List.map_singleton, bigStr_snoc,
      subst_singleton]
    simp [hs]

theorem append_sep_inj {sep : Nat} {a b x y : List Nat} (ha : sep ∉ a) (hb : sep ∉ b)
    (h : a ++ sep :: x = b ++ sep :: y) : a = b ∧ x = y := by
  induction a generalizing b with
  | nil =>
    cases b with
    | nil => simpa using h
    | cons d b => simp at h; exact absurd (h.1 ▸ List.mem_cons_self) hb
  | cons c a ih =>
    cases b with
    | nil => simp at h; exact absurd (h.1 ▸ List.mem_cons_self) ha
    | cons d b =>
      simp at h
      have := ih (fun hh => ha (List.mem_cons_of_mem _ hh)) (fun hh => hb (List.mem_cons_of_mem _ hh)) h.2
      exact ⟨by rw [h.1, this.1], this.2⟩

theorem flat_inj {sep : Nat} {A B : List (List Nat)} (hA : SepFree sep A) (hB : SepFree sep B)
    (h : A.flatMap (· ++ [sep]) = B.flatMap (· ++ [sep])) : A = B := by
  induction A generalizing B with
  | nil =>
    cases B with
    | nil => rfl
    | cons b B => simp at h
  | cons a A ih =>
    cases B with
    | nil => simp at h
    | cons b B =>
      simp only [List.flatMap_cons, List.append_assoc, List.singleton_append] at h
      have := append_sep_inj (hA a (by simp)) (hB b (by simp)) h
      rw [this.1, ih (fun x hx => hA x (by simp [hx])) (fun x hx => hB x (by simp [hx])) this.2]

theorem bigStr_inj {sep : Nat} {A B : List (List Nat)} (hA : SepFree sep A) (hB : SepFree sep B)
    (h : bigStr sep A = bigStr sep B) : A = B :=
  flat_inj hA hB (List.cons.inj h).2

/-- The context `assignVar` works in. -/
def mkCtx (T : Toks) (hyps insts : List (List Nat)) : Ctx :=
  { T with S := bigStr T.sep hyps, I := bigStr T.sep insts }

/-- What `verifyProof` guarantees when it calls `assignVar`. -/
structure BigPre (T : Toks) (hyps insts : List (List Nat)) : Prop where
  sep_con : T.isVar T.sep = false
  hfree : SepFree T.sep hyps
  ifree : SepFree T.sep insts
  len : hyps.length = insts.length

theorem BigPre.pre {T hyps insts} (h : BigPre T hyps insts) : Pre (mkCtx T hyps insts) where
  sep_con := h.sep_con
  S_last := bigStr_last _ _
  I_last := bigStr_last _ _
  cnt := by
    show (bigStr T.sep hyps).count T.sep = (bigStr T.sep insts).count T.sep
    rw [bigStr_count h.hfree, bigStr_count h.ifree, h.len]

theorem varIn_iff {T : Toks} {hyps insts} (h : BigPre T hyps insts) {t : Nat} :
    VarIn T.isVar hyps t ↔ t ∈ (mkCtx T hyps insts).S ∧ T.isVar t = true := by
  show _ ↔ t ∈ bigStr T.sep hyps ∧ _
  rw [mem_bigStr]
  constructor
  · rintro ⟨h1, h2⟩; exact ⟨Or.inr h2, h1⟩
  · rintro ⟨h1 | h1, h2⟩
    · rw [h1, h.sep_con] at h2; cases h2
    · exact ⟨h2, h1⟩

theorem mem_vars_iff {T : Toks} {hyps insts} (h : BigPre T hyps insts) {t : Nat} :
    t ∈ (mkCtx T hyps insts).vars ↔ VarIn T.isVar hyps t := by
  rw [varIn_iff h]
  exact mem_extractVars _ _ _

theorem match_iff {T : Toks} {hyps insts} (h : BigPre T hyps insts) (σ) :
    Match (mkCtx T hyps insts) σ ↔ Unifies T.isVar σ hyps insts := by
  have e : Match (mkCtx T hyps insts) σ ↔
      bigStr T.sep (hyps.map (subst T.isVar σ)) = bigStr T.sep insts := by
    unfold Match
    show subst T.isVar σ (bigStr T.sep hyps) = bigStr T.sep insts ↔ _
    rw [subst_bigStr h.sep_con]
  unfold Unifies
  constructor
  · intro hm
    have hfree : SepFree T.sep (hyps.map (subst T.isVar σ)) := by
      intro x hx
      obtain ⟨a, ha, rfl⟩ := List.mem_map.mp hx
      rw [← List.count_eq_zero, count_subst h.sep_con, List.count_eq_zero]
      · exact h.hfree a ha
      · intro t ht hv
        exact match_nosep h.pre hm ((varIn_iff h).mp ⟨hv, a, ha, ht⟩).1 hv
    exact bigStr_inj hfree h.ifree (e.mp hm)
  · intro hu; rw [e, hu]

/-! ## Assembling the result and the $d check -/

theorem look_eq {c : Ctx} {s : Scan} {t : Nat} (h : t ∈ c.vars) :
    look c s t = .val (asg c s.len s.start t) := by
  simp [look, h, asg]

theorem assemble_eq {c : Ctx} {s : Scan} {m : List Nat}
    (h : ∀ t ∈ m, c.isVar t = true → t ∈ c.vars) :
    assemble c s m = .val (subst c.isVar (asg c s.len s.start) m) := by
  induction m with
  | nil => rfl
  | cons t m ih =>
    rw [assemble, ih (fun x hx => h x (List.mem_cons_of_mem _ hx)), subst_cons]
    by_cases hv : c.isVar t = true
    · simp [hv, look_eq (h t List.mem_cons_self hv)]
    · simp [hv]

/-- The $d messages for a substitution. -/
def disjMsgs (T : Toks) (R O : List (Nat × Nat)) (step : Nat) (req : List (Nat × Nat))
    (σ : Nat → List Nat) : List Msg :=
  req.flatMap fun pr => disjPair T R O step pr.1 pr.2 (σ pr.1) (σ pr.2)

theorem disjCheck_eq {c : Ctx} {s : Scan} {R O : List (Nat × Nat)} {step : Nat}
    {req : List (Nat × Nat)} (h : ∀ pr ∈ req, pr.1 ∈ c.vars ∧ pr.2 ∈ c.vars) :
    disjCheck c s R O step req = .val (disjMsgs c.toToks R O step req (asg c s.len s.start)) := by
  induction req with
  | nil => rfl
  | cons pr req ih =>
    obtain ⟨x, y⟩ := pr
    have hxy := h (x, y) List.mem_cons_self
    rw [disjCheck, look_eq hxy.1, look_eq hxy.2, ih (fun q hq => h q (List.mem_cons_of_mem _ hq))]
    rfl

theorem findIdx_le_of_pair {L : List (Nat × Nat)} {a i : Nat} (hi : i < L.length)
    (h : L[i].1 = a ∨ L[i].2 = a) : firstPair L a ≤ i := by
  unfold firstPair
  by_contra hcon
  have := List.not_of_lt_findIdx (Nat.lt_of_not_le hcon)
  simp at this
  rcases h with h | h
  · exact this.1 h
  · exact this.2 h

/-- Skipping ahead to the first pair that mentions `a` loses no pair that mentions `a`. -/
theorem any_drop_firstPair {L : List (Nat × Nat)} {a x y : Nat} (h : x = a ∨ y = a) {k : Nat}
    (hk : k ≤ firstPair L a) :
    ((L.drop k).any fun pr => pr.1 == x && pr.2 == y) = true ↔ (x, y) ∈ L := by
  rw [List.any_eq_true]
  constructor
  · rintro ⟨⟨u, v⟩, hm, huv⟩
    simp at huv
    obtain ⟨rfl, rfl⟩ := huv
    exact List.mem_of_mem_drop hm
  · intro hm
    obtain ⟨i, hi, he⟩ := List.getElem_of_mem hm
    have hle : firstPair L a ≤ i := findIdx_le_of_pair hi (by rw [he]; exact h)
    refine ⟨(x, y), ?_, by simp⟩
    rw [List.mem_drop_iff_getElem]
    exact ⟨i - k, by omega, by rw [← he]; congr 1; omega⟩

theorem disjFound_iff {R O : List (Nat × Nat)} {a b : Nat} :
    disjFound R O (disjStarts R O a) a b = true ↔ (min a b, max a b) ∈ R ++ O := by
  unfold disjFound
  have h2 : (if a > b then b else a) = min a b := by split <;> omega
  have h3 : (if a > b then a else b) = max a b := by split <;> omega
  simp only [h2, h3]
  have hab : min a b = a ∨ max a b = a := by omega
  rw [Bool.or_eq_true, List.mem_append]
  unfold disjStarts
  by_cases hf : firstPair R a < R.length
  · rw [if_pos hf]
    rw [any_drop_firstPair hab (Nat.le_refl _), any_drop_firstPair hab (Nat.zero_le _)]
  · rw [if_neg hf, any_drop_firstPair (L := O) hab (Nat.le_refl _)]
    have : (min a b, max a b) ∉ R := by
      intro hm
      obtain ⟨i, hi, he⟩ := List.getElem_of_mem hm
      have := findIdx_le_of_pair (a := a) hi (by rw [he]; exact hab)
      omega
    simp [this]

/-- The $d pairs declared for the statement being proved, as a symmetric relation. -/
def Covered (R O : List (Nat × Nat)) (a b : Nat) : Prop := (min a b, max a b) ∈ R ++ O

theorem mem_disjMsgs {T : Toks} {R O : List (Nat × Nat)} {step : Nat} {req : List (Nat × Nat)}
    {σ : Nat → List Nat} {m : Msg} :
    m ∈ disjMsgs T R O step req σ ↔
      ∃ x y a b, m = .disj step x y a b ∧ DisjViolation T.isVar σ req (Covered R O) x y a b := by
  unfold disjMsgs disjPair DisjViolation Covered
  simp only [List.mem_flatMap, Prod.exists]
  constructor
  · rintro ⟨x, y, hxy, a, ha, hm⟩
    split at hm
    · simp at hm
    · rename_i hva
      simp only [List.mem_flatMap] at hm
      obtain ⟨b, hb, hm⟩ := hm
      split at hm
      · simp at hm
      · rename_i hvb
        split at hm
        · rename_i e
          simp at hm
          exact ⟨x, y, a, b, hm, hxy, ha, hb, by simpa using hva, by simpa using hvb, Or.inl e⟩
        · split at hm
          · simp at hm
          · rename_i hf
            simp at hm
            refine ⟨x, y, a, b, hm, hxy, ha, hb, by simpa using hva, by simpa using hvb, Or.inr ?_⟩
            rw [← disjFound_iff]; exact hf
  · rintro ⟨x, y, a, b, rfl, hxy, ha, hb, hva, hvb, hor⟩
    refine ⟨x, y, hxy, a, ha, ?_⟩
    rw [if_neg (by simp [hva])]
    simp only [List.mem_flatMap]
    refine ⟨b, hb, ?_⟩
    rw [if_neg (by simp [hvb])]
    split
    · simp
    · rename_i hne
      rw [if_neg]
      · simp
      · rw [disjFound_iff]
        rcases hor with h | h
        · exact absurd h hne
        · exact h

/-! ## The uniqueness check cannot run off the end -/

/-- At most one variable has its first occurrence in the last hypothesis.  It holds when every
variable is introduced by a one-variable `$f` hypothesis before it is used in an `$e`. -/
def LastIntroducesOne (isVar : Nat → Bool) (hyps : List (List Nat)) : Prop :=
  ∀ hs h, hyps = hs ++ [h] → ∀ x ∈ h, ∀ y ∈ h, isVar x = true → isVar y = true →
    (∀ g ∈ hs, x ∉ g) → (∀ g ∈ hs, y ∉ g) → x = y

theorem no2110 {T : Toks} {hyps insts} (hb : BigPre T hyps insts)
    (hl : LastIntroducesOne T.isVar hyps) {s : Scan} (h : Inv (mkCtx T hyps insts) s)
    {v : Nat} (hv : v + 1 < (mkCtx T hyps insts).vars.length) (hvn : v < s.nv) :
    s.start v + s.len v + 1 ≠ (mkCtx T hyps insts).I.length := by
  intro he
  have hvl : v < (mkCtx T hyps insts).vars.length := by omega
  -- the separators of the prefix
  have hpe := pre_eq_frst hvl (h.pre v hvn)
  have hcnt : ((mkCtx T hyps insts).S.take ((mkCtx T hyps insts).frst v + 1)).count T.sep + 1 =
      (mkCtx T hyps insts).S.count T.sep := by
    have h1 : (subst T.isVar (asg (mkCtx T hyps insts) s.len s.start)
        ((mkCtx T hyps insts).S.take ((mkCtx T hyps insts).frst v + 1))).count T.sep =
        ((mkCtx T hyps insts).S.take ((mkCtx T hyps insts).frst v + 1)).count T.sep := by
      apply count_subst hb.sep_con
      intro t ht hvt
      have : t ∈ (mkCtx T hyps insts).vars.take (v + 1) := by
        rw [← ev_frst_succ hvl, mem_extractVars]; exact ⟨ht, hvt⟩
      rw [List.mem_take_iff_getElem] at this
      obtain ⟨i, hi, rfl⟩ := this
      rw [asg_vars (by omega)]
      exact h.nosep i (by omega)
    obtain ⟨I', hI⟩ := hb.pre.I_last
    have h2 : (mkCtx T hyps insts).I.take (s.start v + s.len v) = I' := by
      have := congrArg List.length hI
      simp at this
      rw [hI, show s.start v + s.len v = I'.length by omega]; simp
    rw [h2] at hpe
    have h3 : (subst T.isVar (asg (mkCtx T hyps insts) s.len s.start)
        ((mkCtx T hyps insts).S.take ((mkCtx T hyps insts).frst v + 1))) = I' := hpe.symm
    rw [← h1, h3, show (mkCtx T hyps insts).S.count T.sep = (mkCtx T hyps insts).I.count T.sep from hb.pre.cnt, hI, List.count_append, List.count_singleton]
    rw [show (mkCtx T hyps insts).sep = T.sep from rfl]; simp
  -- but there is a separator strictly between that variable and the end
  rcases List.eq_nil_or_concat hyps with rfl | ⟨hs, g, hcc⟩
  · have : (mkCtx T [] insts).vars = [] := by
      simp [mkCtx, Ctx.vars, extractVars, bigStr, hb.sep_con]
    rw [this] at hvl; simp at hvl
  · rw [List.concat_eq_append] at hcc
    subst hcc
    have hS : (mkCtx T (hs ++ [g]) insts).S = bigStr T.sep hs ++ (g ++ [T.sep]) := by
      show bigStr T.sep (hs ++ [g]) = _
      rw [bigStr_snoc, List.append_assoc]
    obtain ⟨B, hB⟩ := bigStr_last T.sep hs
    set c := mkCtx T (hs ++ [g]) insts with hc
    have hfr := frst_get c hvl
    by_cases hlt : c.frst v < (bigStr T.sep hs).length
    · -- first occurrence before the last hypothesis: two separators follow
      have hne : c.frst v ≠ B.length := by
        intro e
        rw [e, hS, hB] at hfr
        simp at hfr
        have := isVar_vars c hvl
        rw [← hfr] at this
        rw [show c.isVar T.sep = T.isVar T.sep from rfl, hb.sep_con] at this
        cases this
      have hlt2 : c.frst v + 1 ≤ B.length := by
        rw [hB] at hlt; simp at hlt; omega
      have e1 : c.S.take (c.frst v + 1) = B.take (c.frst v + 1) := by
        rw [hS, hB, List.append_assoc, List.take_append_of_le_length hlt2]
      have e2 : (B.take (c.frst v + 1)).count T.sep ≤ B.count T.sep :=
        (List.take_sublist _ _).count_le _
      have e3 : c.S.count T.sep ≥ B.count T.sep + 2 := by
        rw [hS, hB]
        simp only [List.count_append, List.count_singleton]
        simp; omega
      rw [e1] at hcnt
      omega
    · -- first occurrence in the last hypothesis: so is that of the next variable
      have hmono : c.frst v < c.frst (v + 1) := by
        rw [frst_lt_iff c (by omega) hvl (extractVars_frst c hv)]; omega
      have hout : ∀ i, ∀ hi : i < c.vars.length, (bigStr T.sep hs).length ≤ c.frst i →
          c.vars[i] ∈ g ∧ ∀ k ∈ hs, c.vars[i] ∉ k := by
        intro i hi hge
        have hvi := isVar_vars c hi
        have hns : c.vars[i] ∉ bigStr T.sep hs := by
          intro hm
          have : c.vars[i] ∈ c.S.take (c.frst i) := by
            rw [hS, List.take_append]
            exact List.mem_append_left _ (by rwa [List.take_of_length_le hge])
          exact frst_notMem c hi this
        constructor
        · have hm := (mem_extractVars c.toToks c.S _).mp (List.getElem_mem (l := c.vars) hi)
          have := hm.1
          rw [hS] at this
          simp only [List.mem_append, List.mem_singleton] at this
          rcases this with h1 | h1 | h1
          · exact absurd h1 hns
          · exact h1
          · rw [h1] at hvi
            rw [show c.isVar T.sep = T.isVar T.sep from rfl, hb.sep_con] at hvi
            cases hvi
        · intro k hk hik
          exact hns (mem_bigStr.mpr (Or.inr ⟨k, hk, hik⟩))
      have o1 := hout v hvl (by omega)
      have o2 := hout (v + 1) hv (by omega)
      have := hl hs g (by simp) _ o1.1 _ o2.1 (isVar_vars c hvl) (isVar_vars c hv) o1.2 o2.2
      have h5 := tmp_vars c hvl
      have h6 := tmp_vars c hv
      rw [this, h6] at h5
      omega

/-! ## Outcomes of `assignVar` -/

/-- The possible outcomes, in terms of unifiers. -/
inductive AssignSpec (db : Db) (hyps insts : List (List Nat)) (scheme proved step : Nat)
    (unk : Bool) (ec : Nat) : Out AssignOut → Prop
  | noneFits : (∀ σ, ¬ Unifies db.isVar σ hyps insts) →
      AssignSpec db hyps insts scheme proved step unk ec
        (.val ⟨[], ec + 1, gate ec [.noUnify step scheme]⟩)
  | one (σ) : Unifies db.isVar σ hyps insts →
      (∀ t, VarIn db.isVar hyps t → db.sep ∉ σ t) →
      (∀ τ, Unifies db.isVar τ hyps insts → ∀ t, VarIn db.isVar hyps t → τ t = σ t) →
      AssignSpec db hyps insts scheme proved step unk ec
        (.val ⟨subst db.isVar σ (db.stmt scheme).math, ec,
          gate ec (disjMsgs db.toToks (db.stmt proved).reqDisj (db.stmt proved).optDisj step
            (db.stmt scheme).reqDisj σ)⟩)
  | many (σ τ) : Unifies db.isVar σ hyps insts → Unifies db.isVar τ hyps insts →
      (∀ t, VarIn db.isVar hyps t → db.sep ∉ τ t) →
      (∃ t, VarIn db.isVar hyps t ∧ τ t ≠ σ t) →
      AssignSpec db hyps insts scheme proved step unk ec
        (.val (if unk then ⟨[], ec,
            gate ec (disjMsgs db.toToks (db.stmt proved).reqDisj (db.stmt proved).optDisj step
              (db.stmt scheme).reqDisj σ)⟩
          else ⟨subst db.isVar τ (db.stmt scheme).math, ec + 1,
            gate ec (disjMsgs db.toToks (db.stmt proved).reqDisj (db.stmt proved).optDisj step
              (db.stmt scheme).reqDisj σ ++
              [.notUnique step (subst db.isVar σ (db.stmt scheme).math)
                (subst db.isVar τ (db.stmt scheme).math)])⟩))
  | bug2110 : ¬ LastIntroducesOne db.isVar hyps →
      AssignSpec db hyps insts scheme proved step unk ec (.bug 2110)

theorem assignVar_spec {db : Db} {hyps insts : List (List Nat)} (hb : BigPre db.toToks hyps insts)
    (scheme proved step : Nat) (unk : Bool) (ec : Nat)
    (hcnt : (mkCtx db.toToks hyps insts).vars.length = (db.stmt scheme).reqVars.length)
    (hmath : ∀ t ∈ (db.stmt scheme).math, db.isVar t = true → VarIn db.isVar hyps t)
    (hdisj : ∀ pr ∈ (db.stmt scheme).reqDisj, VarIn db.isVar hyps pr.1 ∧ VarIn db.isVar hyps pr.2) :
    AssignSpec db hyps insts scheme proved step unk ec
      (assignVar db (bigStr db.sep hyps) (bigStr db.sep insts) scheme proved step unk ec) := by
  have hvarsT : ∀ t, VarIn db.isVar hyps t ↔ t ∈ (mkCtx db.toToks hyps insts).vars :=
    fun t => (mem_vars_iff hb).symm
  have hm' : ∀ t ∈ (db.stmt scheme).math, (mkCtx db.toToks hyps insts).isVar t = true →
      t ∈ (mkCtx db.toToks hyps insts).vars := fun t h1 h2 => (hvarsT t).mp (hmath t h1 h2)
  have hd' : ∀ pr ∈ (db.stmt scheme).reqDisj, pr.1 ∈ (mkCtx db.toToks hyps insts).vars ∧
      pr.2 ∈ (mkCtx db.toToks hyps insts).vars :=
    fun pr h1 => ⟨(hvarsT _).mp (hdisj pr h1).1, (hvarsT _).mp (hdisj pr h1).2⟩
  have hnosep : ∀ (s : Scan), Inv (mkCtx db.toToks hyps insts) s →
      s.nv = (mkCtx db.toToks hyps insts).vars.length →
      ∀ t, VarIn db.isVar hyps t → db.sep ∉ asg (mkCtx db.toToks hyps insts) s.len s.start t := by
    intro s hi hn t ht
    obtain ⟨j, hj, rfl⟩ := List.getElem_of_mem ((hvarsT t).mp ht)
    rw [asg_vars hj]
    exact hi.nosep j (by omega)
  have hsc := scan_first hb.pre
  show AssignSpec _ _ _ _ _ _ _ _ (assignCtx db (mkCtx db.toToks hyps insts) scheme proved step unk ec)
  have hno : LastIntroducesOne db.isVar hyps → ∀ (s : Scan), Inv (mkCtx db.toToks hyps insts) s →
      ∀ v, v + 1 < (mkCtx db.toToks hyps insts).vars.length → v < s.nv →
      s.start v + s.len v + 1 ≠ (mkCtx db.toToks hyps insts).I.length :=
    fun hl s hi v h1 h2 => no2110 hb hl hi h1 h2
  have hmi := match_iff hb
  have hvi : ∀ t, VarIn db.isVar hyps t → t ∈ (mkCtx db.toToks hyps insts).S :=
    fun t h => ((varIn_iff hb).mp h).1
  have hvj : ∀ t, t ∈ (mkCtx db.toToks hyps insts).S → db.isVar t = true → VarIn db.isVar hyps t :=
    fun t h h' => (varIn_iff hb).mpr ⟨h, h'⟩
  have huq := fun s hi hn hm1 hlex => uniq_spec hb.pre (s := s) hi hn hm1 hlex
  have hT : (mkCtx db.toToks hyps insts).toToks = db.toToks := rfl
  generalize mkCtx db.toToks hyps insts = c at *
  have hT2 : c.isVar = db.isVar := by rw [← hT]
  unfold assignCtx
  dsimp only
  rw [if_neg (by simpa using hcnt)]
  cases hres : scan c (fuelBound c) Scan.init <;> rw [hres] at hsc <;> dsimp only at hsc ⊢
  · rename_i s
    obtain ⟨hi, _, _, hn, hm1, hlex⟩ := hsc
    have hu := huq s hi hn hm1 hlex
    rw [if_neg (by simpa using hn), disjCheck_eq hd', assemble_eq hm']
    dsimp only [Out.bind_val]
    rw [hT]
    rw [hT2] at hu
    cases hp : prepare c s.len s.start (s.nv - 1) <;> rw [hp] at hu <;> dsimp only at hu ⊢
    · rename_i s1
      cases hres2 : scan c (fuelBound c) s1 <;> rw [hres2] at hu <;> dsimp only at hu ⊢
      · rename_i s2
        obtain ⟨g1, g2, g3, t, ht, hvt, hne⟩ := hu
        rw [if_neg (by simpa using g2), assemble_eq hm']
        dsimp only [Out.bind_val]
        rw [hT2]
        have := AssignSpec.many (db := db) (hyps := hyps) (insts := insts) (scheme := scheme)
          (proved := proved) (step := step) (unk := unk) (ec := ec)
          _ _ ((hmi _).mp hm1) ((hmi _).mp g3) (hnosep s2 g1 g2)
          ⟨t, hvj t ht hvt, hne⟩
        by_cases hunk : unk = true
        · rw [if_pos hunk] at this ⊢; exact this
        · rw [if_neg hunk] at this ⊢; exact this
      · exact .one _ ((hmi _).mp hm1) (hnosep s hi hn)
          (fun τ hτ t ht => hu τ ((hmi _).mpr hτ) t (hvi t ht) ht.1)
    · exact .one _ ((hmi _).mp hm1) (hnosep s hi hn)
          (fun τ hτ t ht => hu τ ((hmi _).mpr hτ) t (hvi t ht) ht.1)
    · obtain ⟨rfl, v, hv, he⟩ := hu
      refine .bug2110 (fun hl => ?_)
      exact hno hl s hi v (by omega) (by omega) he
  · exact .noneFits (fun σ hσ => hsc σ ((hmi σ).mpr hσ))

end MM.Veri
