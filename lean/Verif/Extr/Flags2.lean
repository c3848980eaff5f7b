import Verif.Extr.Flags
/-!
# What the loops of `writeExtractedSource` flag (continued)
-/
namespace MM.Extr
open MM.Veri MM.Pars MM.Spec MM.Trace

/-! ### The `${` and `$}` -/

theorem opens_length {ks : List Kind} : ∀ {i : Nat}, (opens ks i).length ≤ i
  | 0 => by simp [opens]
  | i + 1 => by
    have := opens_length (ks := ks) (i := i)
    rw [opens_succ]
    unfold openStep
    split
    · simp; omega
    · rw [List.length_tail]; omega
    · omega

/-- A block that is not open any more has been closed. -/
theorem closed_by {ks : List Kind} {b : Nat} : ∀ {n i : Nat}, i ≤ n → b ∈ opens ks i → b ∉ opens ks n → ∃ r, i < r ∧ r ≤ n ∧ Closes ks b r
  | 0, i, h, hb, hn => by
    have : i = 0 := by omega
    subst this; exact absurd hb hn
  | n + 1, i, h, hb, hn => by
    rcases Nat.lt_or_ge n i with c | c
    · have : i = n + 1 := by omega
      subst this; exact absurd hb hn
    · by_cases hm : b ∈ opens ks n
      · refine ⟨n + 1, by omega, Nat.le_refl _, by omega, ?_⟩
        rw [opens_succ] at hn
        unfold openStep at hn
        split at hn
        · exact absurd (List.mem_cons_of_mem _ hm) hn
        · rename_i hk
          refine ⟨hk, ?_⟩
          simp only [Nat.add_sub_cancel]
          cases ho : opens ks n with
          | nil => rw [ho] at hm; cases hm
          | cons y t =>
            rw [ho] at hm hn
            rcases List.mem_cons.mp hm with e | e
            · rw [e]; rfl
            · exact absurd e hn
        · exact absurd hm hn
      · obtain ⟨r, a, b', d⟩ := closed_by c hb hm
        exact ⟨r, a, by omega, d⟩

section scope
variable {ks : List Kind} {L : Links} {n : Nat}

theorem fin_closes (hL : LinkInv ks n L) (he : opens ks n = []) {i b : Nat} (hi : i ≤ n) (hb : b ∈ opens ks i) : Closes ks b (L.fin b) := by
  obtain ⟨r, _, h2, h3⟩ := closed_by hi hb (by rw [he]; simp)
  rw [hL.fin b r h2 h3]; exact h3

theorem climb_ok (hL : LinkInv ks n L) (he : opens ks n = []) : ∀ {fuel scp : Nat} {f : Nat → Bool}, 1 ≤ scp → scp ≤ n →
    (opens ks (scp - 1)).length < fuel →
    (∀ b ∈ opens ks (scp - 1), f b = true → f (L.fin b) = true ∧ ∀ c ∈ opens ks (b - 1), f c = true ∧ f (L.fin c) = true) →
    ∃ f', climb (kindAt ks) L fuel scp f = .val f' ∧ ∀ i, f' i = true ↔ f i = true ∨ ∃ b ∈ opens ks (scp - 1), i = b ∨ i = L.fin b
  | 0, _, _, _, _, h, _ => by omega
  | fuel + 1, scp, f, h1, h2, hl, hf => by
    unfold climb
    have hbeg := hL.beg scp h1 h2
    cases ho : opens ks (scp - 1) with
    | nil =>
      rw [ho] at hbeg
      refine ⟨f, by rw [if_pos (show L.beg scp = 0 from hbeg)], fun i => ⟨Or.inl, fun h => ?_⟩⟩
      rcases h with h | ⟨b, hb, _⟩
      · exact h
      · cases hb
    | cons st t =>
      rw [ho] at hf hl hbeg
      have hbeg' : L.beg scp = st := hbeg
      have hm : st ∈ opens ks (scp - 1) := by rw [ho]; simp
      have hlt := opens_lt hm
      have ht : opens ks (st - 1) = t := opens_pred (pre := []) ho
      have hfin := fin_closes hL he (i := scp - 1) (by omega) hm
 
      rw [hbeg', if_neg (by omega), if_neg (by rw [hlt.2.2]; simp)]
      by_cases hs : f st = true
      · rw [if_pos hs]
        refine ⟨f, rfl, fun i => ⟨Or.inl, fun h => ?_⟩⟩
        obtain ⟨a1, a2⟩ := hf st (by simp) hs
        rw [ht] at a2
        rcases h with h | ⟨b, hb, e⟩
        · exact h
        · rcases List.mem_cons.mp hb with rfl | hb
          · rcases e with rfl | rfl
            · exact hs
            · exact a1
          · rcases e with rfl | rfl
            · exact (a2 _ hb).1
            · exact (a2 _ hb).2
      · rw [if_neg hs, if_neg (by rw [hfin.2.1]; simp)]
        have hg : ∀ i, upd (upd f st true) (L.fin st) true i = true ↔ f i = true ∨ i = st ∨ i = L.fin st := by
          intro i
          unfold upd
          by_cases e1 : i = L.fin st
          · rw [if_pos e1]; exact ⟨fun _ => Or.inr (Or.inr e1), fun _ => rfl⟩
          · rw [if_neg e1]
            by_cases e2 : i = st
            · rw [if_pos e2]; exact ⟨fun _ => Or.inr (Or.inl e2), fun _ => rfl⟩
            · rw [if_neg e2]
              exact ⟨Or.inl, fun h => h.elim id fun h => absurd h (by rintro (h | h); exact e2 h; exact e1 h)⟩
        obtain ⟨f', g1, g2⟩ := climb_ok hL he (fuel := fuel) (scp := st) (f := upd (upd f st true) (L.fin st) true) hlt.1 (by omega)
          (by rw [ht]; simp at hl; omega) (by
            rw [ht]
            intro b hb hgb
            have hb' : b ∈ opens ks (scp - 1) := by rw [ho]; simp [hb]
            have hbl := opens_lt hb'
            rcases (hg b).mp hgb with h | h | h
            · obtain ⟨a1, a2⟩ := hf b (by simp [hb]) h
              exact ⟨(hg _).mpr (Or.inl a1), fun c hc => ⟨(hg _).mpr (Or.inl (a2 c hc).1), (hg _).mpr (Or.inl (a2 c hc).2)⟩⟩
            · exfalso
              rw [← ht] at hb
              have := opens_lt hb
              omega
            · exfalso
              rw [h, hfin.2.1] at hbl
              cases hbl.2.2)
        refine ⟨f', g1, fun i => ?_⟩
        rw [g2 i, hg i, ht]
        constructor
        · rintro ((h | h | h) | ⟨b, hb, e⟩)
          · exact Or.inl h
          · exact Or.inr ⟨st, by simp, Or.inl h⟩
          · exact Or.inr ⟨st, by simp, Or.inr h⟩
          · exact Or.inr ⟨b, by simp [hb], e⟩
        · rintro (h | ⟨b, hb, e⟩)
          · exact Or.inl (Or.inl h)
          · rcases List.mem_cons.mp hb with rfl | hb
            · exact Or.inl (Or.inr e)
            · exact Or.inr ⟨b, hb, e⟩

theorem flagged_iff {f : Nat → Bool} {i : Nat} {k : Nat → Kind} : flagged k f i = true ↔ f i = true ∧ (k i = .a ∨ k i = .p) := by
  unfold flagged; simp

/-- The `${` and `$}` around the statement `j` -/
def Around (ks : List Kind) (j i : Nat) : Prop := ∃ b ∈ opens ks (j - 1), i = b ∨ Closes ks b i

theorem around_kind {j i : Nat} (h : Around ks j i) : kindAt ks i = .lb ∨ kindAt ks i = .rb := by
  obtain ⟨b, hb, rfl | h⟩ := h
  · exact Or.inl (opens_lt hb).2.2
  · exact Or.inr h.2.1

theorem around_iff (hL : LinkInv ks n L) (he : opens ks n = []) {j i : Nat} (hj : j ≤ n) :
    Around ks j i ↔ ∃ b ∈ opens ks (j - 1), i = b ∨ i = L.fin b := by
  unfold Around
  refine exists_congr fun b => and_congr_right fun hb => or_congr Iff.rfl ?_
  have := fin_closes hL he (i := j - 1) (by omega) hb
  exact ⟨fun h => closes_uniq h this, fun h => by rw [h]; exact this⟩

theorem scopeLoop_ok (hL : LinkInv ks n L) (he : opens ks n = []) {f : Nat → Bool} (hf : ∀ i, f i = true → kindAt ks i = .a ∨ kindAt ks i = .p) :
    ∀ {count stmt : Nat} {g : Nat → Bool}, 1 ≤ stmt → stmt + count = n + 1 →
    (∀ i, g i = true ↔ f i = true ∨ ∃ j, 1 ≤ j ∧ j < stmt ∧ f j = true ∧ Around ks j i) →
    ∃ g', scopeLoop (kindAt ks) L count stmt g = .val g' ∧ ∀ i, g' i = true ↔ f i = true ∨ ∃ j, 1 ≤ j ∧ j ≤ n ∧ f j = true ∧ Around ks j i
  | 0, stmt, g, h1, h2, hg => by
    refine ⟨g, rfl, fun i => ?_⟩
    rw [hg i, show stmt = n + 1 by omega]
    simp only [Nat.lt_succ_iff]
  | count + 1, stmt, g, h1, h2, hg => by
    have hflag : flagged (kindAt ks) g stmt = true ↔ f stmt = true := by
      rw [flagged_iff, hg]
      constructor
      · rintro ⟨h | ⟨j, _, _, _, h⟩, hk⟩
        · exact h
        · exfalso
          rcases around_kind h with e | e <;> rw [e] at hk <;> simp at hk
      · intro h; exact ⟨Or.inl h, hf _ h⟩
    unfold scopeLoop
    by_cases hs : f stmt = true
    · rw [if_pos (hflag.mpr hs)]
      obtain ⟨g1, c1, c2⟩ := climb_ok hL he (fuel := stmt + 1) (scp := stmt) (f := g) h1 (by omega)
        (by have := opens_length (ks := ks) (i := stmt - 1); omega) (by
          intro b hb hgb
          have hbl := opens_lt hb
          rcases (hg b).mp hgb with h | ⟨j, j1, j2, j3, hj⟩
          · exfalso
            rcases hf b h with e | e <;> rw [e] at hbl <;> simp at hbl
          · have hjn : j ≤ n := by omega
            have hj' := (around_iff hL he hjn).mp hj
            obtain ⟨b', hb', e⟩ := hj'
            have hbb : b = b' := by
              rcases e with e | e
              · exact e
              · exfalso
                have := fin_closes hL he (i := j - 1) (by omega) hb'
                rw [← e] at this
                rw [this.2.1] at hbl; cases hbl.2.2
            subst hbb
            have hin : ∀ c ∈ opens ks (b - 1), c ∈ opens ks (j - 1) := by
              intro c hc
              obtain ⟨pre, t, ht⟩ := List.append_of_mem hb'
              rw [opens_pred ht] at hc
              rw [ht]; simp [hc]
            refine ⟨(hg _).mpr (Or.inr ⟨j, j1, j2, j3, (around_iff hL he hjn).mpr ⟨b, hb', Or.inr rfl⟩⟩), fun c hc => ⟨?_, ?_⟩⟩
            · exact (hg _).mpr (Or.inr ⟨j, j1, j2, j3, (around_iff hL he hjn).mpr ⟨c, hin c hc, Or.inl rfl⟩⟩)
            · exact (hg _).mpr (Or.inr ⟨j, j1, j2, j3, (around_iff hL he hjn).mpr ⟨c, hin c hc, Or.inr rfl⟩⟩))
      rw [c1, Out.bind_val]
      refine scopeLoop_ok hL he hf (by omega) (by omega) fun i => ?_
      rw [c2 i, hg i, ← around_iff hL he (by omega)]
      constructor
      · rintro ((h | ⟨j, a, b, c, d⟩) | h)
        · exact Or.inl h
        · exact Or.inr ⟨j, a, by omega, c, d⟩
        · exact Or.inr ⟨stmt, h1, by omega, hs, h⟩
      · rintro (h | ⟨j, a, b, c, d⟩)
        · exact Or.inl (Or.inl h)
        · rcases Nat.lt_or_ge j stmt with e | e
          · exact Or.inl (Or.inr ⟨j, a, e, c, d⟩)
          · have : j = stmt := by omega
            subst this; exact Or.inr d
    · rw [if_neg (fun h => hs (hflag.mp h))]
      refine scopeLoop_ok hL he hf (by omega) (by omega) fun i => ?_
      rw [hg i]
      refine or_congr Iff.rfl (exists_congr fun j => ⟨fun ⟨a, b, c, d⟩ => ⟨a, by omega, c, d⟩, fun ⟨a, b, c, d⟩ => ⟨a, ?_, c, d⟩⟩)
      rcases Nat.lt_or_ge j stmt with e | e
      · exact e
      · have : j = stmt := by omega
        subst this; exact absurd c hs
end scope

/-! ### Hypotheses, `$d` statements, declarations -/

theorem setAll_ok {n : Nat} : ∀ {l : List Nat} {f : Nat → Bool}, (∀ x ∈ l, x ≤ n) →
    ∃ f', setAll n l f = .val f' ∧ ∀ i, f' i = true ↔ f i = true ∨ i ∈ l
  | [], f, _ => ⟨f, rfl, fun i => by simp⟩
  | x :: xs, f, h => by
    obtain ⟨f', h1, h2⟩ := setAll_ok (n := n) (l := xs) (f := upd f x true) (fun y hy => h y (by simp [hy]))
    refine ⟨f', ?_, fun i => ?_⟩
    · unfold setAll
      rw [if_neg (by have := h x (by simp); omega)]; exact h1
    · rw [h2 i]
      unfold upd
      by_cases e : i = x
      · rw [if_pos e]; simp [e]
      · rw [if_neg e]; simp [e]

theorem tokStmts_ok {decl : List Nat} : ∀ {l : List Nat}, (∀ t ∈ l, t < decl.length) → tokStmts decl l = .val (l.map fun t => decl.getD t 0)
  | [], _ => rfl
  | t :: ts, h => by
    unfold tokStmts
    have : Out.read decl t = .val (decl.getD t 0) := by
      unfold Out.read
      rw [List.getD_eq_getElem?_getD, List.getElem?_eq_getElem (h t (by simp))]; rfl
    rw [this, Out.bind_val, tokStmts_ok (fun y hy => h y (by simp [hy])), Out.bind_val]
    rfl

/-- The statements an assertion needs -/
def frameStmts (decl : List Nat) (x : Stmt) : List Nat :=
  x.reqHyp ++ x.optHyp ++ x.reqVars.map (fun t => decl.getD t 0) ++ x.optVars.map (fun t => decl.getD t 0) ++ x.reqDisjStmt ++ x.optDisjStmt

theorem addFrame_ok {n : Nat} {decl : List Nat} {x : Stmt} {f : Nat → Bool} (h : ∀ i ∈ frameStmts decl x, i ≤ n)
    (ht : ∀ t ∈ x.reqVars ++ x.optVars, t < decl.length) :
    ∃ f', addFrame n decl x f = .val f' ∧ ∀ i, f' i = true ↔ f i = true ∨ i ∈ frameStmts decl x := by
  unfold frameStmts at h ⊢
  simp only [List.mem_append] at h ht ⊢
  unfold addFrame
  obtain ⟨f1, a1, b1⟩ := setAll_ok (n := n) (l := x.reqHyp) (f := f) (fun y hy => h y (by simp [hy]))
  obtain ⟨f2, a2, b2⟩ := setAll_ok (n := n) (l := x.optHyp) (f := f1) (fun y hy => h y (by simp [hy]))
  obtain ⟨f3, a3, b3⟩ := setAll_ok (n := n) (l := x.reqVars.map (fun t => decl.getD t 0)) (f := f2) (fun y hy => h y (Or.inl (Or.inl (Or.inl (Or.inr hy)))))
  obtain ⟨f4, a4, b4⟩ := setAll_ok (n := n) (l := x.optVars.map (fun t => decl.getD t 0)) (f := f3) (fun y hy => h y (Or.inl (Or.inl (Or.inr hy))))
  obtain ⟨f5, a5, b5⟩ := setAll_ok (n := n) (l := x.reqDisjStmt) (f := f4) (fun y hy => h y (by simp [hy]))
  obtain ⟨f6, a6, b6⟩ := setAll_ok (n := n) (l := x.optDisjStmt) (f := f5) (fun y hy => h y (by simp [hy]))
  rw [a1, Out.bind_val, a2, Out.bind_val, tokStmts_ok (fun t h => ht t (Or.inl h)), Out.bind_val, a3, Out.bind_val, tokStmts_ok (fun t h => ht t (Or.inr h)),
    Out.bind_val, a4, Out.bind_val, a5, Out.bind_val, a6]
  refine ⟨f6, rfl, fun i => ?_⟩
  rw [b6, b5, b4, b3, b2, b1]
  simp only [or_assoc]

/-- What the loops rely on in the stored statements: the statements an assertion needs exist and are no assertions. -/
structure FramesIn (n : Nat) (decl : List Nat) (stmts : Nat → Stmt) : Prop where
  frame : ∀ j, 1 ≤ j → j ≤ n → (stmts j).kind = .a ∨ (stmts j).kind = .p → (∀ t ∈ (stmts j).reqVars ++ (stmts j).optVars, t < decl.length) ∧
    ∀ i ∈ frameStmts decl (stmts j), 1 ≤ i ∧ i ≤ n ∧ (stmts i).kind ∈ [Kind.c, .v, .d, .e, .f]
  syms : ∀ j, 1 ≤ j → j ≤ n → (stmts j).kind ∈ [Kind.a, .p, .e, .f] → ∀ t ∈ (stmts j).math, t < decl.length ∧
    1 ≤ decl.getD t 0 ∧ decl.getD t 0 ≤ n ∧ ((stmts (decl.getD t 0)).kind = .c ∨ (stmts (decl.getD t 0)).kind = .v)

theorem frameLoop_ok {n : Nat} {decl : List Nat} {stmts : Nat → Stmt} (hF : FramesIn n decl stmts) {f : Nat → Bool} :
    ∀ {count stmt : Nat} {g : Nat → Bool}, 1 ≤ stmt → stmt + count = n + 1 →
    (∀ i, g i = true ↔ f i = true ∨ ∃ j, 1 ≤ j ∧ j < stmt ∧ flagged (fun i => (stmts i).kind) f j = true ∧ i ∈ frameStmts decl (stmts j)) →
    ∃ g', frameLoop n decl stmts count stmt g = .val g' ∧
      ∀ i, g' i = true ↔ f i = true ∨ ∃ j, 1 ≤ j ∧ j ≤ n ∧ flagged (fun i => (stmts i).kind) f j = true ∧ i ∈ frameStmts decl (stmts j)
  | 0, stmt, g, h1, h2, hg => by
    refine ⟨g, rfl, fun i => ?_⟩
    rw [hg i, show stmt = n + 1 by omega]
    simp only [Nat.lt_succ_iff]
  | count + 1, stmt, g, h1, h2, hg => by
    have hflag : flagged (fun i => (stmts i).kind) g stmt = true ↔ flagged (fun i => (stmts i).kind) f stmt = true := by
      rw [flagged_iff, flagged_iff, hg]
      constructor
      · rintro ⟨h | ⟨j, a, b, c, h⟩, hk⟩
        · exact ⟨h, hk⟩
        · exfalso
          have := ((hF.frame j a (by omega) (flagged_iff.mp c).2).2 _ h).2.2
          rcases hk with e | e <;> rw [e] at this <;> simp at this
      · rintro ⟨h, hk⟩; exact ⟨Or.inl h, hk⟩
    unfold frameLoop
    by_cases hs : flagged (fun i => (stmts i).kind) f stmt = true
    · rw [if_pos (hflag.mpr hs)]
      obtain ⟨q1, q2⟩ := hF.frame stmt h1 (by omega) (flagged_iff.mp hs).2
      obtain ⟨g1, c1, c2⟩ := addFrame_ok (f := g) (fun i hi => (q2 i hi).2.1) q1
      rw [c1, Out.bind_val]
      refine frameLoop_ok hF (by omega) (by omega) fun i => ?_
      rw [c2 i, hg i]
      constructor
      · rintro ((h | ⟨j, a, b, c, d⟩) | h)
        · exact Or.inl h
        · exact Or.inr ⟨j, a, by omega, c, d⟩
        · exact Or.inr ⟨stmt, h1, by omega, hs, h⟩
      · rintro (h | ⟨j, a, b, c, d⟩)
        · exact Or.inl (Or.inl h)
        · rcases Nat.lt_or_ge j stmt with e | e
          · exact Or.inl (Or.inr ⟨j, a, e, c, d⟩)
          · have : j = stmt := by omega
            subst this; exact Or.inr d
    · rw [if_neg (fun h => hs (hflag.mp h))]
      refine frameLoop_ok hF (by omega) (by omega) fun i => ?_
      rw [hg i]
      refine or_congr Iff.rfl (exists_congr fun j => ⟨fun ⟨a, b, c, d⟩ => ⟨a, by omega, c, d⟩, fun ⟨a, b, c, d⟩ => ⟨a, ?_, c, d⟩⟩)
      rcases Nat.lt_or_ge j stmt with e | e
      · exact e
      · have : j = stmt := by omega
        subst this; exact absurd c hs

theorem hasMath_iff {f : Nat → Bool} {i : Nat} {k : Nat → Kind} : hasMath k f i = true ↔ f i = true ∧ k i ∈ [Kind.a, .p, .e, .f] := by
  unfold hasMath; simp [or_assoc]

theorem symLoop_ok {n : Nat} {decl : List Nat} {stmts : Nat → Stmt} (hF : FramesIn n decl stmts) {f : Nat → Bool} :
    ∀ {count stmt : Nat} {g : Nat → Bool}, 1 ≤ stmt → stmt + count = n + 1 →
    (∀ i, g i = true ↔ f i = true ∨ ∃ j, 1 ≤ j ∧ j < stmt ∧ hasMath (fun i => (stmts i).kind) f j = true ∧ ∃ t ∈ (stmts j).math, i = decl.getD t 0) →
    ∃ g', symLoop n decl stmts count stmt g = .val g' ∧
      ∀ i, g' i = true ↔ f i = true ∨ ∃ j, 1 ≤ j ∧ j ≤ n ∧ hasMath (fun i => (stmts i).kind) f j = true ∧ ∃ t ∈ (stmts j).math, i = decl.getD t 0
  | 0, stmt, g, h1, h2, hg => by
    refine ⟨g, rfl, fun i => ?_⟩
    rw [hg i, show stmt = n + 1 by omega]
    simp only [Nat.lt_succ_iff]
  | count + 1, stmt, g, h1, h2, hg => by
    have hflag : hasMath (fun i => (stmts i).kind) g stmt = true ↔ hasMath (fun i => (stmts i).kind) f stmt = true := by
      rw [hasMath_iff, hasMath_iff, hg]
      constructor
      · rintro ⟨h | ⟨j, a, b, c, t, ht, rfl⟩, hk⟩
        · exact ⟨h, hk⟩
        · exfalso
          have := (hF.syms j a (by omega) (hasMath_iff.mp c).2 t ht).2.2.2
          rcases this with e | e <;> rw [e] at hk <;> simp at hk
      · rintro ⟨h, hk⟩; exact ⟨Or.inl h, hk⟩
    unfold symLoop
    by_cases hs : hasMath (fun i => (stmts i).kind) f stmt = true
    · rw [if_pos (hflag.mpr hs)]
      have q := hF.syms stmt h1 (by omega) (hasMath_iff.mp hs).2
      rw [tokStmts_ok (fun t ht => (q t ht).1), Out.bind_val]
      obtain ⟨g1, c1, c2⟩ := setAll_ok (n := n) (l := (stmts stmt).math.map fun t => decl.getD t 0) (f := g) (by
        intro x hx
        obtain ⟨t, ht, rfl⟩ := List.mem_map.mp hx
        exact (q t ht).2.2.1)
      rw [c1, Out.bind_val]
      refine symLoop_ok hF (by omega) (by omega) fun i => ?_
      rw [c2 i, hg i]
      have e1 : i ∈ (stmts stmt).math.map (fun t => decl.getD t 0) ↔ ∃ t ∈ (stmts stmt).math, i = decl.getD t 0 := by
        rw [List.mem_map]; exact exists_congr fun t => and_congr Iff.rfl eq_comm
      rw [e1]
      constructor
      · rintro ((h | ⟨j, a, b, c, d⟩) | h)
        · exact Or.inl h
        · exact Or.inr ⟨j, a, by omega, c, d⟩
        · exact Or.inr ⟨stmt, h1, by omega, hs, h⟩
      · rintro (h | ⟨j, a, b, c, d⟩)
        · exact Or.inl (Or.inl h)
        · rcases Nat.lt_or_ge j stmt with e | e
          · exact Or.inl (Or.inr ⟨j, a, e, c, d⟩)
          · have : j = stmt := by omega
            subst this; exact Or.inr d
    · rw [if_neg (fun h => hs (hflag.mp h))]
      refine symLoop_ok hF (by omega) (by omega) fun i => ?_
      rw [hg i]
      refine or_congr Iff.rfl (exists_congr fun j => ⟨fun ⟨a, b, c, d⟩ => ⟨a, by omega, c, d⟩, fun ⟨a, b, c, d⟩ => ⟨a, ?_, c, d⟩⟩)
      rcases Nat.lt_or_ge j stmt with e | e
      · exact e
      · have : j = stmt := by omega
        subst this; exact absurd c hs

end MM.Extr
