import Verif.Pars.Complete
/-! # READ accepts exactly the sources that obey the rules (C41) -/
namespace MM.Pars
open MM.Veri MM.Spec

variable {toks : List (Name × Bool)} {done rest src : List Src} {s s' : PState} {x : Src} {y : Stmt}

/-! ## From the whole source to the statements already processed -/

theorem active_src (hsrc : src = done ++ x :: rest) {i j : Nat} (hi : i ≤ done.length + 1) :
    Active (kinds src) j i ↔ Active (kinds done) j i := by
  rw [hsrc, show kinds (done ++ x :: rest) = kinds done ++ kinds (x :: rest) from List.map_append]
  exact active_prefix (by rw [kinds_length]; exact hi)

theorem kindAt_src (hsrc : src = done ++ x :: rest) {j : Nat} (hj : j ≤ done.length) :
    kindAt (kinds src) j = kindAt (kinds done) j := by
  rw [hsrc, show kinds (done ++ x :: rest) = kinds done ++ kinds (x :: rest) from List.map_append]
  unfold kindAt
  by_cases h0 : j = 0
  · simp [h0]
  · rw [if_neg h0, if_neg h0, List.getD_append _ _ _ _ (by rw [kinds_length]; omega)]

theorem kindAt_cur (hsrc : src = done ++ x :: rest) : kindAt (kinds src) (done.length + 1) = x.kind := by
  rw [hsrc]; unfold kindAt; simp [kinds]

theorem symsAt_src (hsrc : src = done ++ x :: rest) {j : Nat} (hj : j ≤ done.length) : symsAt src j = symsAt done j := by
  rw [hsrc]
  unfold symsAt
  by_cases h0 : j = 0
  · simp [h0]
  · rw [if_neg h0, if_neg h0, List.getD_append _ _ _ _ (by omega)]

theorem symsAt_cur (hsrc : src = done ++ x :: rest) : symsAt src (done.length + 1) = x.syms := by
  rw [hsrc]; unfold symsAt; simp

theorem depth_src (hsrc : src = done ++ x :: rest) : depth (kinds src) (done.length + 1) = depth (kinds done) (done.length + 1) := by
  rw [hsrc, show kinds (done ++ x :: rest) = kinds done ++ kinds (x :: rest) from List.map_append]
  unfold depth
  rw [List.take_append_of_le_length (by rw [kinds_length]; omega)]

theorem names_at (h : SInv toks done s) {j : Nat} (h1 : kindAt (kinds done) j ≠ .none) (h2 : kindAt (kinds done) j ≠ .lb)
    (h3 : kindAt (kinds done) j ≠ .rb) : (s.math j).map (tokName toks) = (symsAt done j).map some := by
  unfold kindAt at h1 h2 h3
  unfold symsAt
  by_cases h0 : j = 0
  · rw [if_pos h0] at h1; exact absurd rfl h1
  rw [if_neg h0] at h1 h2 h3 ⊢
  rcases Nat.lt_or_ge (j - 1) done.length with hl | hl
  · have hg : done[j - 1]? = some done[j - 1] := List.getElem?_eq_getElem hl
    have hk : (kinds done).getD (j - 1) .none = done[j - 1].kind := by
      unfold kinds
      rw [List.getD_eq_getElem?_getD, List.getElem?_map, hg]; rfl
    rw [hk] at h2 h3
    have := h.names (j - 1) _ hg h2 h3
    rw [show j - 1 + 1 = j by omega] at this
    rw [this, List.getD_eq_getElem?_getD, hg]; rfl
  · rw [List.getD_eq_default _ _ (by rw [kinds_length]; exact hl)] at h1
    exact absurd rfl h1

theorem mem_syms {l : List Nat} {n : List Name} (h : l.map (tokName toks) = n.map some) {nm : Name} :
    nm ∈ n ↔ ∃ t ∈ l, tokName toks t = some nm := by
  have : nm ∈ n ↔ some nm ∈ n.map some := by simp
  rw [this, ← h, List.mem_map]

theorem getElem_syms {l : List Nat} {n : List Name} (h : l.map (tokName toks) = n.map some) {p : Nat} {t : Nat}
    (hp : l[p]? = some t) : ∃ nm, n[p]? = some nm ∧ tokName toks t = some nm := by
  have := congrArg (fun q => q[p]?) h
  simp only [List.getElem?_map, hp, Option.map_some] at this
  cases hn : n[p]? with
  | none => rw [hn] at this; simp at this
  | some nm => rw [hn] at this; exact ⟨nm, rfl, by simpa using this⟩

theorem getElem_math {l : List Nat} {n : List Name} (h : l.map (tokName toks) = n.map some) {p : Nat} {nm : Name}
    (hp : n[p]? = some nm) : ∃ t, l[p]? = some t ∧ tokName toks t = some nm := by
  have := congrArg (fun q => q[p]?) h
  simp only [List.getElem?_map, hp, Option.map_some] at this
  cases hn : l[p]? with
  | none => rw [hn] at this; simp at this
  | some t => rw [hn] at this; exact ⟨t, rfl, by simpa using this⟩

theorem tokName_lt {t : Nat} {nm : Name} (h : tokName toks t = some nm) : t < toks.length := by
  unfold tokName at h
  by_contra hc
  rw [List.getElem?_eq_none (by omega)] at h
  cases h

/-! ## Declared names and active tokens -/

theorem declared_c (h : PInv toks done s) (hsrc : src = done ++ x :: rest) {nm : Name} : Declared src .c s.n nm ↔
    ∃ t, s.active t = true ∧ tokIsVar toks t = false ∧ tokName toks t = some nm := by
  have hn : s.n = (kinds done).length + 1 := by rw [h.len]; simp
  constructor
  · rintro ⟨j, h1, h2, h3⟩
    rw [active_src hsrc (by rw [h.len])] at h1
    have hj : j ≤ done.length := by have := h1.2.1; have := h.len; omega
    rw [kindAt_src hsrc hj] at h2
    rw [symsAt_src hsrc hj] at h3
    obtain ⟨t, h4, h5⟩ := (mem_syms (h := names_at h.toSInv (j := j) (by simp [h2]) (by simp [h2]) (by simp [h2]))).mp h3
    rw [hn] at h1
    have hm := (h.c (t, depth (kinds done) j)).mpr ⟨j, h1, h2, h4, rfl⟩
    exact ⟨t, (h.act t).mpr (Or.inl (List.mem_map.mpr ⟨_, hm, rfl⟩)), (h.cLt _ hm).2.1, h5⟩
  · rintro ⟨t, h1, h2, h3⟩
    rcases (h.act t).mp h1 with h4 | h4 <;> obtain ⟨z, hz, rfl⟩ := List.mem_map.mp h4
    · obtain ⟨j, h5, h6, h7, _⟩ := (h.c z).mp hz
      rw [← hn] at h5
      have hj : j ≤ done.length := by have := h5.2.1; have := h.len; omega
      refine ⟨j, (active_src hsrc (by rw [h.len])).mpr h5, by rw [kindAt_src hsrc hj]; exact h6, ?_⟩
      rw [symsAt_src hsrc hj]
      exact (mem_syms (h := names_at h.toSInv (j := j) (by simp [h6]) (by simp [h6]) (by simp [h6]))).mpr ⟨_, h7, h3⟩
    · rw [(h.vLt z hz).2.1] at h2; cases h2

theorem declared_v (h : PInv toks done s) (hsrc : src = done ++ x :: rest) {nm : Name} : Declared src .v s.n nm ↔
    ∃ t, s.active t = true ∧ tokIsVar toks t = true ∧ tokName toks t = some nm := by
  have hn : s.n = (kinds done).length + 1 := by rw [h.len]; simp
  constructor
  · rintro ⟨j, h1, h2, h3⟩
    rw [active_src hsrc (by rw [h.len])] at h1
    have hj : j ≤ done.length := by have := h1.2.1; have := h.len; omega
    rw [kindAt_src hsrc hj] at h2
    rw [symsAt_src hsrc hj] at h3
    obtain ⟨t, h4, h5⟩ := (mem_syms (h := names_at h.toSInv (j := j) (by simp [h2]) (by simp [h2]) (by simp [h2]))).mp h3
    rw [hn] at h1
    have hm := (h.v (t, depth (kinds done) j)).mpr ⟨j, h1, h2, h4, rfl⟩
    exact ⟨t, (h.act t).mpr (Or.inr (List.mem_map.mpr ⟨_, hm, rfl⟩)), (h.vLt _ hm).2.1, h5⟩
  · rintro ⟨t, h1, h2, h3⟩
    rcases (h.act t).mp h1 with h4 | h4 <;> obtain ⟨z, hz, rfl⟩ := List.mem_map.mp h4
    · rw [(h.cLt z hz).2.1] at h2; cases h2
    · obtain ⟨j, h5, h6, h7, _⟩ := (h.v z).mp hz
      rw [← hn] at h5
      have hj : j ≤ done.length := by have := h5.2.1; have := h.len; omega
      refine ⟨j, (active_src hsrc (by rw [h.len])).mpr h5, by rw [kindAt_src hsrc hj]; exact h6, ?_⟩
      rw [symsAt_src hsrc hj]
      exact (mem_syms (h := names_at h.toSInv (j := j) (by simp [h6]) (by simp [h6]) (by simp [h6]))).mpr ⟨_, h7, h3⟩

theorem tok_c (h : PInv toks done s) (hsrc : src = done ++ x :: rest) {nm : Name} {t : Nat} (ha : s.active t = true)
    (hn : tokName toks t = some nm) : Declared src .c s.n nm ↔ tokIsVar toks t = false := by
  rw [declared_c h hsrc]
  constructor
  · rintro ⟨t', h1, h2, h3⟩
    rw [h.actUniq t t' ha h1 (by rw [hn, h3])]; exact h2
  · intro h1; exact ⟨t, ha, h1, hn⟩

theorem tok_v (h : PInv toks done s) (hsrc : src = done ++ x :: rest) {nm : Name} {t : Nat} (ha : s.active t = true)
    (hn : tokName toks t = some nm) : Declared src .v s.n nm ↔ tokIsVar toks t = true := by
  rw [declared_v h hsrc]
  constructor
  · rintro ⟨t', h1, h2, h3⟩
    rw [h.actUniq t t' ha h1 (by rw [hn, h3])]; exact h2
  · intro h1; exact ⟨t, ha, h1, hn⟩

/-- The depth has never been negative. -/
def DepthPos (done : List Src) : Prop := ∀ j, j ≤ done.length + 1 → 0 ≤ depth (kinds done) j

theorem PInv.tscope0 (h : PInv toks done s) (hp : DepthPos done) : ∀ t, s.active t = true → 0 ≤ s.tscope t := by
  intro t ha
  rcases (h.act t).mp ha with h4 | h4 <;> obtain ⟨z, hz, rfl⟩ := List.mem_map.mp h4
  · obtain ⟨j, h5, _, _, h6⟩ := (h.c z).mp hz
    rw [(h.cLt z hz).2.2, h6]
    exact hp j (by have := h5.2.1; rw [kinds_length] at this; omega)
  · obtain ⟨j, h5, _, _, h6⟩ := (h.v z).mp hz
    rw [(h.vLt z hz).2.2, h6]
    exact hp j (by have := h5.2.1; rw [kinds_length] at this; omega)

/-- Tokens for a list of declared names. -/
theorem tokens_of (h : PInv toks done s) (hsrc : src = done ++ x :: rest) : ∀ {nms : List Name},
    (∀ nm ∈ nms, Declared src .c s.n nm ∨ Declared src .v s.n nm) →
    ∃ ts : List Nat, ts.map (tokName toks) = nms.map some ∧ ∀ t ∈ ts, s.active t = true ∧ t < toks.length
  | [], _ => ⟨[], rfl, by simp⟩
  | nm :: nms, hn => by
    obtain ⟨ts, h1, h2⟩ := tokens_of h hsrc (nms := nms) (fun q hq => hn q (by simp [hq]))
    have : ∃ t, s.active t = true ∧ tokName toks t = some nm := by
      rcases hn nm (by simp) with h3 | h3
      · obtain ⟨t, a, _, b⟩ := (declared_c h hsrc).mp h3; exact ⟨t, a, b⟩
      · obtain ⟨t, a, _, b⟩ := (declared_v h hsrc).mp h3; exact ⟨t, a, b⟩
    obtain ⟨t, h3, h4⟩ := this
    refine ⟨t :: ts, by simp [h1, h4], ?_⟩
    intro q hq
    rcases List.mem_cons.mp hq with rfl | hq
    · exact ⟨h3, tokName_lt h4⟩
    · exact h2 q hq

/-- A math string of declared symbols that passes the checks is scanned. -/
theorem scan_of (h : PInv toks done s) (hp : DepthPos done) (hsrc : src = done ++ x :: rest) {k : Kind}
    (hn : ∀ nm ∈ x.syms, Declared src .c s.n nm ∨ Declared src .v s.n nm)
    (hc : ∀ p t, t < toks.length → s.active t = true → (∃ nm, x.syms[p]? = some nm ∧ tokName toks t = some nm) → SymOk toks k p t) :
    ∃ m, mathScan toks k x.syms [] s = .val (m, s) ∧ ScanOk toks s k x.syms m := by
  obtain ⟨ts, h1, h2⟩ := tokens_of h hsrc hn
  have hck : ∀ p t, ts[p]? = some t → SymOk toks k p t := by
    intro p t hpt
    have := h2 t (List.mem_of_getElem? hpt)
    exact hc p t this.2 this.1 (getElem_syms h1 hpt)
  have hsc := mathScan_of (h.tscope0 hp) h.actUniq (k := k) (nms := x.syms) (acc := []) h1 h2 (by simpa using hck)
  rw [List.nil_append] at hsc
  refine ⟨ts, hsc, ⟨?_, h2, h1, hck⟩⟩
  simpa using congrArg List.length h1

theorem scan_used (h : PInv toks done s) (hsrc : src = done ++ x :: rest) {k : Kind} {m : List Nat}
    (hs : ScanOk toks s k x.syms m) : ∀ nm ∈ x.syms, Declared src .c s.n nm ∨ Declared src .v s.n nm := by
  intro nm hnm
  obtain ⟨t, h1, h2⟩ := (mem_syms hs.names).mp hnm
  have ha := (hs.act t h1).1
  cases hv : tokIsVar toks t with
  | false => exact Or.inl ((tok_c h hsrc ha h2).mpr hv)
  | true => exact Or.inr ((tok_v h hsrc ha h2).mpr hv)

theorem nodup_iff (h : PInv toks done s) {m : List Nat} {syms : List Name} (hn : m.map (tokName toks) = syms.map some)
    (ha : ∀ t ∈ m, s.active t = true) : m.Nodup ↔ syms.Nodup := by
  constructor
  · intro hm
    have : (m.map (tokName toks)).Nodup := hm.map_on (fun a ha1 b hb e => h.actUniq a b (ha a ha1) (ha b hb) e)
    rw [hn] at this
    exact this.of_map
  · intro hm
    have : (syms.map some).Nodup := hm.map (fun a b e => by simpa using e)
    rw [← hn] at this
    exact this.of_map

/-! ## One statement -/

/-- No symbol declared by statement `i` is declared anywhere with the other type. -/
def NoClash (src : List Src) (i : Nat) : Prop :=
  ∀ j nm, nm ∈ symsAt src i → nm ∈ symsAt src j →
    (kindAt (kinds src) i = .c → kindAt (kinds src) j ≠ .v) ∧ (kindAt (kinds src) i = .v → kindAt (kinds src) j ≠ .c)

theorem mem_declToks {nm : Name} {b : Bool} : ∀ {src : List Src}, (nm, b) ∈ declToks src ↔
    ∃ x ∈ src, x.kind = (if b then .v else .c) ∧ nm ∈ x.syms
  | [] => by simp [declToks]
  | y :: src => by
    rw [declToks, List.mem_append, mem_declToks (src := src)]
    simp only [List.mem_cons, exists_eq_or_imp]
    apply or_congr _ Iff.rfl
    cases hk : y.kind <;> cases b <;> simp

theorem mem_declToks_at {nm : Name} {b : Bool} {src : List Src} : (nm, b) ∈ declToks src ↔
    ∃ j, kindAt (kinds src) j = (if b then .v else .c) ∧ nm ∈ symsAt src j := by
  rw [mem_declToks]
  constructor
  · rintro ⟨x, h1, h2, h3⟩
    obtain ⟨p, hp⟩ := List.getElem?_of_mem h1
    refine ⟨p + 1, ?_, ?_⟩
    · unfold kindAt kinds
      simp only [Nat.add_one_ne_zero, if_false, Nat.add_sub_cancel, List.getD_eq_getElem?_getD, List.getElem?_map, hp]
      exact h2
    · unfold symsAt
      simp only [Nat.add_one_ne_zero, if_false, Nat.add_sub_cancel, List.getD_eq_getElem?_getD, hp]
      exact h3
  · rintro ⟨j, h1, h2⟩
    unfold symsAt at h2
    unfold kindAt at h1
    by_cases h0 : j = 0
    · rw [if_pos h0] at h2; cases h2
    rw [if_neg h0] at h1 h2
    cases hg : src[j - 1]? with
    | none =>
      rw [List.getD_eq_getElem?_getD, hg] at h2; cases h2
    | some y =>
      refine ⟨y, List.mem_of_getElem? hg, ?_, ?_⟩
      · rw [← h1]; unfold kinds; simp only [List.getD_eq_getElem?_getD, List.getElem?_map, hg]; rfl
      · rw [List.getD_eq_getElem?_getD, hg] at h2; exact h2

theorem tok_mem {t : Nat} {nm : Name} (h : tokName toks t = some nm) : (nm, tokIsVar toks t) ∈ toks := by
  unfold tokName at h
  unfold tokIsVar
  cases hg : toks[t]? with
  | none => rw [hg] at h; cases h
  | some p =>
    rw [hg] at h
    simp only [Option.map_some, Option.some.injEq] at h
    rw [← h]
    exact List.mem_of_getElem? hg

theorem mem_tok {nm : Name} {b : Bool} (h : (nm, b) ∈ toks) : ∃ t, tokName toks t = some nm ∧ tokIsVar toks t = b := by
  obtain ⟨t, ht⟩ := List.getElem?_of_mem h
  exact ⟨t, by unfold tokName; rw [ht]; rfl, by unfold tokIsVar; rw [ht]⟩

/-- `$c`, `$v` -/
theorem decl_iff (h : PInv toks done s) (hsrc : src = done ++ x :: rest) (ht : toks = declToks src) {k : Kind}
    (hk : k = .c ∨ k = .v) (hx : x.kind = k) :
    (doDecl toks k x.syms s).errs = [] ↔ x.syms ≠ [] ∧ x.syms.Nodup ∧ (k = .c → s.scope = 0) ∧
      (∀ nm ∈ x.syms, ¬ Declared src .c s.n nm ∧ ¬ Declared src .v s.n nm) ∧ NoClash src s.n := by
  have hcur : kindAt (kinds src) s.n = k := by rw [h.len, kindAt_cur hsrc, hx]
  have hsym : symsAt src s.n = x.syms := by rw [h.len, symsAt_cur hsrc]
  have htk : toks = declToks done ++ (x.syms.map (·, k == .v) ++ declToks rest) := by
    rw [ht, hsrc, declToks_append]
    congr 1
    rcases hk with rfl | rfl <;> simp [declToks, hx]
  have hget : ∀ p, p < x.syms.length → toks[p + s.next]? = some (x.syms[p]!, k == .v) := by
    intro p hp
    rw [h.next, htk, List.getElem?_append_right (by omega), List.getElem?_append_left (by simp; omega)]
    simp only [Nat.add_sub_cancel, List.getElem?_map, List.getElem?_eq_getElem hp, Option.map_some]
    rw [getElem!_pos x.syms p hp]
  have htn : ((List.range x.syms.length).map (· + s.next)).map (tokName toks) = x.syms.map some := by
    apply List.ext_getElem?
    intro p
    simp only [List.getElem?_map]
    rcases Nat.lt_or_ge p x.syms.length with hp | hp
    · rw [List.getElem?_range hp, List.getElem?_eq_getElem hp]
      simp only [Option.map_some, tokName, hget p hp]
      rw [getElem!_pos x.syms p hp]
    · rw [List.getElem?_eq_none (by simpa using hp), List.getElem?_eq_none (by simpa using hp)]; rfl
  have htl : ∀ t ∈ (List.range x.syms.length).map (· + s.next), t < toks.length := by
    intro t htm
    simp only [List.mem_map, List.mem_range] at htm
    obtain ⟨p, hp, rfl⟩ := htm
    exact (List.getElem?_eq_some_iff.mp (hget p hp)).1
  constructor
  · intro he
    have hI := h.decl hk hx (rest := rest) (by rw [ht, hsrc]) he
    unfold doDecl at he
    dsimp only at he
    have hf := declFold_errs he
    obtain ⟨e1, e2⟩ := errIf_nil hf
    rw [e1] at hf he
    obtain ⟨e3, e4⟩ := errIf_nil hf
    rw [e3] at he
    have hmn : (doDecl toks k x.syms s).math s.n = (List.range x.syms.length).map (· + s.next) := by
      unfold PState.math
      rw [stmt_new (s := s) (x := { kind := k, math := (List.range x.syms.length).map (· + s.next) }) rfl]
    have hact : ∀ t ∈ (List.range x.syms.length).map (· + s.next), (doDecl toks k x.syms s).active t = true := by
      intro t htm
      apply hI.active_of
      refine ⟨s.n, ?_, ?_, by rw [hmn]; exact htm⟩
      · have : (doDecl toks k x.syms s).n = (kinds done).length + 2 := by rw [hI.len]; simp
        rw [this, kinds_append]
        apply active_step.mpr
        refine Or.inl ⟨by rw [h.len]; simp, ?_⟩
        rw [hx]; rcases hk with rfl | rfl <;> simp
      · rw [kinds_append, h.len, show done.length = (kinds done).length by simp, kindAt_last, hx]; exact hk
    have hclash : ∀ {ts : List Nat} {s : PState}, (ts.foldl (declOne toks (k == .v)) s).errs = [] → ∀ t ∈ ts, ∀ j,
        j < toks.length → tokName toks j = tokName toks t → tokIsVar toks j = (k == .v) := by
      intro ts
      induction ts with
      | nil => intro s _ t htm; cases htm
      | cons a ts ih =>
        intro s hh t htm j hj hn
        rw [List.foldl_cons] at hh
        rcases List.mem_cons.mp htm with rfl | htm
        · obtain ⟨_, g2, _⟩ := declOne_errs (declFold_errs hh)
          refine (g2 j hj ?_).2
          have : ∃ nm, tokName toks j = some nm := by
            unfold tokName; rw [List.getElem?_eq_getElem hj]; exact ⟨_, rfl⟩
          obtain ⟨nm, hnm⟩ := this
          rw [hnm] at hn ⊢
          unfold tokName at hn
          rw [← hn]; rfl
        · exact ih hh t htm j hj hn
    refine ⟨(by intro e; rw [e] at e4; cases e4), ?_, ?_, ?_, ?_⟩
    · rw [← nodup_iff hI htn hact]
      exact (List.nodup_range).map (fun a b hab => by omega)
    · rintro rfl
      have : ¬ 0 < s.scope := by simpa using e2
      have := h.nonneg
      omega
    · intro nm hnm
      obtain ⟨t, h1, h2⟩ := (mem_syms htn).mp hnm
      have hfin : ∀ t', s.active t' = true → tokName toks t' = some nm → False := by
        intro t' ha' hn'
        have hlt : t' < s.next := by
          rcases (h.act t').mp ha' with h4 | h4 <;> obtain ⟨z, hz, rfl⟩ := List.mem_map.mp h4
          · exact (h.cLt z hz).1
          · exact (h.vLt z hz).1
        have hold : (doDecl toks k x.syms s).active t' = true := by
          apply hI.active_of
          obtain ⟨j, g1, g2, g3⟩ := h.tokActive ha'
          have hj : j ≤ (kinds done).length := by have := g1.2.1; rw [h.len] at this; simp; omega
          refine ⟨j, ?_, ?_, ?_⟩
          · have : (doDecl toks k x.syms s).n = (kinds done).length + 2 := by rw [hI.len]; simp
            rw [this, kinds_append]
            apply active_step.mpr
            rw [h.len, show done.length = (kinds done).length by simp] at g1
            refine Or.inr ⟨g1, fun e => ?_⟩
            rw [hx] at e; rcases hk with rfl | rfl <;> cases e
          · rw [kinds_append, kindAt_append hj]; exact g2
          · unfold PState.math
            rw [stmt_append (s := s) rfl (x := { kind := k, math := (List.range x.syms.length).map (· + s.next) }) rfl
              (by rw [h.len]; simp at hj; omega)]
            exact g3
        have := hI.actUniq t t' (hact t h1) hold (by rw [h2, hn'])
        subst this
        simp only [List.mem_map, List.mem_range] at h1
        obtain ⟨p, _, hp2⟩ := h1
        omega
      constructor
      · intro hd
        obtain ⟨t', a, _, b⟩ := (declared_c h hsrc).mp hd
        exact hfin t' a b
      · intro hd
        obtain ⟨t', a, _, b⟩ := (declared_v h hsrc).mp hd
        exact hfin t' a b
    · intro j nm hnm hj
      rw [hcur]
      rw [hsym] at hnm
      obtain ⟨t, h1, h2⟩ := (mem_syms htn).mp hnm
      constructor
      · rintro rfl hv
        have := (mem_declToks_at (b := true)).mpr ⟨j, hv, hj⟩
        rw [← ht] at this
        obtain ⟨t', g1, g2⟩ := mem_tok this
        have := hclash he t h1 t' (tokName_lt g1) (by rw [g1, h2])
        rw [g2] at this; simp at this
      · rintro rfl hv
        have := (mem_declToks_at (b := false)).mpr ⟨j, hv, hj⟩
        rw [← ht] at this
        obtain ⟨t', g1, g2⟩ := mem_tok this
        have := hclash he t h1 t' (tokName_lt g1) (by rw [g1, h2])
        rw [g2] at this; simp at this
  · rintro ⟨h1, h2, h3, h4, h5⟩
    unfold doDecl
    dsimp only
    have e1 : x.syms.isEmpty = false := by simpa using h1
    have e2 : (k == .c && decide (s.scope > 0)) = false := by
      by_cases hkc : k = .c
      · rw [h3 hkc]; simp
      · simp [hkc]
    rw [e1, errIf_false, e2, errIf_false]
    apply declFold_errs_of h.errs
    · rw [htn]; exact h2.map (fun a b e => by simpa using e)
    · exact htl
    · intro t htm j hj hjn
      obtain ⟨nm, hnm, hn2⟩ : ∃ nm ∈ x.syms, tokName toks t = some nm := by
        have : tokName toks t ∈ x.syms.map some := by rw [← htn]; exact List.mem_map.mpr ⟨t, htm, rfl⟩
        obtain ⟨nm, a, b⟩ := List.mem_map.mp this
        exact ⟨nm, a, b.symm⟩
      rw [hn2] at hjn
      obtain ⟨n1, n2⟩ := h4 nm hnm
      constructor
      · cases ha : s.active j with
        | false => rfl
        | true =>
          exfalso
          cases hv : tokIsVar toks j with
          | false => exact n1 ((tok_c h hsrc ha hjn).mpr hv)
          | true => exact n2 ((tok_v h hsrc ha hjn).mpr hv)
      · have hmem := tok_mem hjn
        rw [ht] at hmem
        obtain ⟨q, q1, q2⟩ := mem_declToks_at.mp hmem
        rw [← ht] at q1
        have := h5 q nm (by rw [hsym]; exact hnm) q2
        rw [hcur] at this
        cases hv : tokIsVar toks j with
        | false =>
          rw [hv] at q1
          rcases hk with rfl | rfl
          · rfl
          · exact absurd q1 (this.2 rfl)
        | true =>
          rw [hv] at q1
          rcases hk with rfl | rfl
          · exact absurd q1 (this.1 rfl)
          · rfl

end MM.Pars
