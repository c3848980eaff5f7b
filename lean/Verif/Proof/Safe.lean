import Verif.Proof.Props
/-!
# C22: memory safety of parsing and verifying normal proofs
-/
namespace MM.Proof
open MM.Veri MM.Pars MM.Spec

variable {E : Env} {p : Nat}

/-- No two colons in a row. -/
def NoDoubleColon : List Name → Prop
  | a :: b :: rest => ¬ (a.head? = some ':' ∧ b.head? = some ':') ∧ NoDoubleColon (b :: rest)
  | _ => True

/-- The tokens directly followed by a colon: the local labels declared. -/
def colonLabels : List Name → List Name
  | a :: b :: rest => (if b.head? = some ':' then [a] else []) ++ colonLabels (b :: rest)
  | _ => []

/-- State of the scan on a text without double colons. -/
structure SInv (E : Env) (p : Nat) (seen : Nat) (labs : List Name) (prev : Name) (s : LScan) : Prop where
  num : s.num = s.steps.length
  ne : prev.head? ≠ some ':' → s.steps ≠ []
  seen : s.steps.length ≤ seen
  tbl : ∃ locs, s.tbl = hypTable E p ++ locs ∧ (locs.map Prod.fst).Sublist labs ∧ (∀ e ∈ locs, E.look (hypTable E p) e.1 = none) ∧
    ∀ e ∈ locs, ∃ k : Nat, e.2 = -1000 - (k : Int)

theorem lscan_safe : ∀ {toks : List Name} {prev : Name} {s : LScan} {seen : Nat} {labs : List Name}, SInv E p seen labs prev s → NoDoubleColon (prev :: toks) →
    ∃ s' labs', lscan E p prev toks s = .val s' ∧ SInv E p (seen + toks.length) labs' ((prev :: toks).getLast (by simp)) s' ∧ labs' = labs ++ colonLabels (prev :: toks)
  | [], prev, s, seen, labs, hI, _ => ⟨s, labs, rfl, by simpa using hI, by simp [colonLabels]⟩
  | t :: ts, prev, s, seen, labs, hI, hc => by
    obtain ⟨hc1, hc2⟩ := hc
    have hn := hI.num
    obtain ⟨locs, hl1, hl2, hl3, hl4⟩ := hI.tbl
    unfold lscan
    by_cases ht : t.head? = some ':'
    · have hp : prev.head? ≠ some ':' := fun h => hc1 ⟨h, ht⟩
      have hne := hI.ne hp
      have hlen : 1 ≤ s.steps.length := by
        rcases h : s.steps with _ | _
        · exact absurd h hne
        · simp
      have hval : ∃ s1, lscanTok E p prev t s = .val s1 ∧ SInv E p (seen + 1) (labs ++ [prev]) t s1 := by
        unfold lscanTok
        rw [if_neg (by omega), if_neg (by simpa using ht)]
        refine ⟨_, rfl, ?_, fun h => absurd ht h, ?_, ?_⟩
        · dsimp only
          have e : s.num + 1 - 2 = ((s.steps.length - 1 : Nat) : Int) := by omega
          rw [e, Int.toNat_natCast, List.length_take]
          simp only [List.length_append, List.length_singleton]
          omega
        · dsimp only
          rw [List.length_take]
          have := hI.seen
          omega
        · dsimp only
          cases hk : E.look (hypTable E p) prev with
          | some j => exact ⟨locs, by simp [hl1], hl2.trans (List.sublist_append_left ..), hl3, hl4⟩
          | none =>
            refine ⟨locs ++ [(prev, -(s.num + 1 - 2) - 1000)], by simp [hl1], ?_, ?_, ?_⟩
            · simpa using hl2.append (List.Sublist.refl [prev])
            · intro e he
              rcases List.mem_append.mp he with h | h
              · exact hl3 e h
              · rw [List.mem_singleton] at h; subst h; exact hk
            · intro e he
              rcases List.mem_append.mp he with h | h
              · exact hl4 e h
              · rw [List.mem_singleton] at h; subst h
                exact ⟨s.steps.length - 1, by dsimp only; omega⟩
      obtain ⟨s1, h1, h2⟩ := hval
      rw [h1, Out.bind_val]
      obtain ⟨s', labs', a1, a2, a3⟩ := lscan_safe h2 hc2
      refine ⟨s', labs', a1, ?_, ?_⟩
      · rw [List.getLast_cons (by simp)]
        rw [List.length_cons, show seen + (ts.length + 1) = seen + 1 + ts.length by omega]
        exact a2
      · rw [a3]; simp [colonLabels, ht]
    · have hval : ∃ s1, lscanTok E p prev t s = .val s1 ∧ SInv E p (seen + 1) labs t s1 := by
        unfold lscanTok
        rw [if_neg (by omega), if_pos ht]
        exact ⟨_, rfl, ⟨by simp [hn], fun _ => by simp, by have := hI.seen; simp; omega, ⟨locs, hl1, hl2, hl3, hl4⟩⟩⟩
      obtain ⟨s1, h1, h2⟩ := hval
      rw [h1, Out.bind_val]
      obtain ⟨s', labs', a1, a2, a3⟩ := lscan_safe h2 hc2
      refine ⟨s', labs', a1, ?_, ?_⟩
      · rw [List.getLast_cons (by simp)]
        rw [List.length_cons, show seen + (ts.length + 1) = seen + 1 + ts.length by omega]
        exact a2
      · rw [a3]; simp [colonLabels, ht]

/-- A step of the loop over the steps never stops the program, if all labelled statements other than `$e`, `$f` are assertions. -/
theorem walkTok_safe {locs : List (Name × Int)} {x : Name × Bool} {w : Walk} (hlook : LookOk E.look) (hk : HypKinds E.toDb p)
    (hlab : ∀ i, 1 ≤ i → i ≤ E.n → E.lab i ≠ [] → (E.stmt i).kind ≠ .e → (E.stmt i).kind ≠ .f → (E.stmt i).kind = .a ∨ (E.stmt i).kind = .p)
    (hloc : ∀ e ∈ locs, ∃ k : Nat, e.2 = -1000 - (k : Int)) :
    ∃ w', walkTok E p (hypTable E p ++ locs) x w = .val w' := by
  unfold walkTok
  split
  · exact ⟨_, rfl⟩
  cases hl : E.look (hypTable E p ++ locs) x.1 with
  | some j =>
    dsimp only
    rcases List.mem_append.mp ((hlook _ _).1 j hl) with h1 | h1
    · obtain ⟨i, hi, _, rfl⟩ := mem_hypTable.mp h1
      have := (hk i hi).1
      rw [if_neg (by omega), if_neg (by omega)]
      exact ⟨_, rfl⟩
    · obtain ⟨k, hk⟩ := hloc _ h1
      dsimp only at hk
      rw [if_pos (by omega), if_neg (by omega)]
      exact ⟨_, rfl⟩
  | none =>
    dsimp only
    cases hl2 : E.look (labelKeys E) x.1 with
    | none => exact ⟨_, rfl⟩
    | some j =>
      dsimp only
      obtain ⟨i, h1, h2, h3, h4, h5, _, rfl⟩ := mem_labelKeys_iff.mp ((hlook _ _).1 j hl2)
      have := hlab i h1 h2 h3 h4 h5
      rw [Int.toNat_natCast, if_neg (by tauto)]
      split <;> exact ⟨_, rfl⟩

theorem walk_safe {locs : List (Name × Int)} (hlook : LookOk E.look) (hk : HypKinds E.toDb p)
    (hlab : ∀ i, 1 ≤ i → i ≤ E.n → E.lab i ≠ [] → (E.stmt i).kind ≠ .e → (E.stmt i).kind ≠ .f → (E.stmt i).kind = .a ∨ (E.stmt i).kind = .p)
    (hloc : ∀ e ∈ locs, ∃ k : Nat, e.2 = -1000 - (k : Int)) :
    ∀ {xs : List (Name × Bool)} {w : Walk}, ∃ w', walk E p (hypTable E p ++ locs) xs w = .val w' ∧ w'.proof.length = w.proof.length + xs.length
  | [], w => ⟨w, rfl, by simp⟩
  | x :: xs, w => by
    obtain ⟨w1, h1⟩ := walkTok_safe (x := x) (w := w) hlook hk hlab hloc
    obtain ⟨w2, h2, h3⟩ := walk_safe hlook hk hlab hloc (xs := xs) (w := w1)
    refine ⟨w2, by rw [walk, h1, Out.bind_val, h2], ?_⟩
    rw [h3, walkTok_len h1, List.length_cons]; omega

theorem colonLabels_drop : ∀ {toks : List Name}, (colonLabels toks.dropLast).Sublist (colonLabels toks)
  | [] => .slnil
  | [_] => .slnil
  | [a, b] => by simp [colonLabels]
  | a :: b :: c :: rest => by
    have := colonLabels_drop (toks := b :: c :: rest)
    rw [List.dropLast_cons_cons, List.dropLast_cons_cons, colonLabels, colonLabels]
    rw [List.dropLast_cons_cons] at this
    exact (List.Sublist.refl _).append this

theorem noDouble_drop : ∀ {toks : List Name}, NoDoubleColon toks → NoDoubleColon toks.dropLast
  | [], _ => trivial
  | [_], _ => trivial
  | [a, b], _ => trivial
  | a :: b :: c :: rest, h => by
    rw [List.dropLast_cons_cons, List.dropLast_cons_cons]
    refine ⟨h.1, ?_⟩
    have := noDouble_drop h.2
    rwa [List.dropLast_cons_cons] at this

theorem noDouble_last : ∀ {toks : List Name} {l l' : Name} , NoDoubleColon toks → toks.getLast? = some l → l.head? = some ':' →
    toks.dropLast.getLast? = some l' → l'.head? ≠ some ':'
  | [], _, _, _, h, _, _ => by simp at h
  | [_], _, _, _, _, _, h => by simp at h
  | [a, b], l, l', hn, h1, h2, h3 => by
    simp at h1 h3
    subst h1; subst h3
    exact fun h => hn.1 ⟨h, h2⟩
  | a :: b :: c :: rest, l, l', hn, h1, h2, h3 => by
    rw [List.dropLast_cons_cons] at h3
    have e : (b :: c :: rest).dropLast ≠ [] := by simp
    refine noDouble_last (toks := b :: c :: rest) hn.2 (by simpa [List.getLast?_cons_cons] using h1) h2 ?_
    rwa [List.getLast?_cons, List.getLast?_eq_some_getLast e, Option.getD_some, ← List.getLast?_eq_some_getLast e] at h3

/-- What the corrections at the start of `parseProof` leave. -/
theorem fixTokens_good {toks : List Name} (h : NoDoubleColon toks) (hn : (colonLabels toks).Nodup) :
    (∀ t, (fixTokens toks).1.head? = some t → t.head? ≠ some ':') ∧ (∃ l, (fixTokens toks).1.getLast? = some l ∧ l.head? ≠ some ':') ∧
      NoDoubleColon (fixTokens toks).1 ∧ (colonLabels (fixTokens toks).1).Nodup ∧ (fixTokens toks).1.length ≤ max 1 toks.length := by
  -- the corrected first token
  obtain ⟨t1, ht1, hx⟩ : ∃ t1 : List Name × Nat × Nat, (t1.1 ≠ [] ∧ (∀ t, t1.1.head? = some t → t.head? ≠ some ':') ∧ NoDoubleColon t1.1 ∧
      (colonLabels t1.1).Nodup ∧ t1.1.length ≤ max 1 toks.length) ∧ fixTokens toks = (match t1.1.getLast? with
        | some l => if l.head? = some ':' then (t1.1.dropLast, max t1.2.1 2, t1.2.2 + 1) else t1
        | none => t1) := by
    cases toks with
    | nil => exact ⟨([['?']], 1, 1), ⟨by simp, by simp, trivial, by simp [colonLabels], by simp⟩, by rfl⟩
    | cons t ts =>
      by_cases ht : t.head? = some ':'
      · refine ⟨(['?'] :: ts, max 0 2, 0 + 1), ⟨by simp, by simp, ?_, ?_, by simp⟩, ?_⟩
        · cases ts with
          | nil => trivial
          | cons b rest => exact ⟨by simp, h.2⟩
        · cases ts with
          | nil => simp [colonLabels]
          | cons b rest =>
            have hb : b.head? ≠ some ':' := fun hb => h.1 ⟨ht, hb⟩
            simp only [colonLabels, hb, if_false, List.nil_append] at hn ⊢
            exact hn
        · unfold fixTokens
          simp only [List.isEmpty_cons, Bool.false_eq_true, if_false, ht, if_true]
          rfl
      · refine ⟨(t :: ts, 0, 0), ⟨by simp, by simpa using ht, h, hn, by simp⟩, ?_⟩
        unfold fixTokens
        simp only [List.isEmpty_cons, Bool.false_eq_true, if_false, ht]
        rfl
  obtain ⟨a1, a2, a3, a4, a5⟩ := ht1
  rw [hx]
  cases hl : t1.1.getLast? with
  | none => exact absurd (List.getLast?_eq_none_iff.mp hl) a1
  | some l =>
    dsimp only
    split
    · rename_i hcol
      dsimp only
      -- at least two tokens
      have hne : t1.1.dropLast ≠ [] := by
        intro he
        cases hc : t1.1 with
        | nil => exact a1 hc
        | cons a as =>
          cases as with
          | nil =>
            rw [hc] at hl
            simp at hl
            subst hl
            exact a2 a (by rw [hc]; rfl) hcol
          | cons b bs => rw [hc, List.dropLast_cons_cons] at he; cases he
      refine ⟨?_, ?_, noDouble_drop a3, colonLabels_drop.nodup a4, ?_⟩
      · intro t ht
        refine a2 t ?_
        cases hc : t1.1 with
        | nil => exact absurd hc a1
        | cons a as =>
          cases as with
          | nil => rw [hc] at ht; simp at ht
          | cons b bs => rw [hc, List.dropLast_cons_cons] at ht; simpa using ht
      · obtain ⟨l', hl'⟩ : ∃ l', t1.1.dropLast.getLast? = some l' := by
          cases hc : t1.1.dropLast.getLast? with
          | none => exact absurd (List.getLast?_eq_none_iff.mp hc) hne
          | some l' => exact ⟨l', rfl⟩
        exact ⟨l', hl', noDouble_last a3 hl hcol hl'⟩
      · rw [List.length_dropLast]; omega
    · rename_i hcol
      exact ⟨a2, ⟨l, hl, hcol⟩, a3, a4, a5⟩

/-- **C22** (partial: texts without two colons in a row and without equal local labels).  For every such text, `parseProof` comes to an end without
access outside its work arrays and without an internal error, and stores at most as many steps as there are tokens. -/
theorem C22_parse_safe_partial (hlook : LookOk E.look) (hk : HypKinds E.toDb p)
    (hyps : (((E.stmt p).optHyp ++ (E.stmt p).reqHyp).map E.lab).Nodup)
    (hlab : ∀ i, 1 ≤ i → i ≤ E.n → E.lab i ≠ [] → (E.stmt i).kind ≠ .e → (E.stmt i).kind ≠ .f → (E.stmt i).kind = .a ∨ (E.stmt i).kind = .p)
    {toks : List Name} (hc : NoDoubleColon toks) (hn : (colonLabels toks).Nodup) :
    ∃ r, parseProof E p toks = .val r ∧ r.proof.length ≤ max 1 toks.length := by
  obtain ⟨f1, ⟨l, f2, f3⟩, f4, f5, f6⟩ := fixTokens_good hc hn
  unfold parseProof
  dsimp only
  generalize fixTokens toks = t at f1 f2 f4 f5 f6
  obtain ⟨ts, r0, e0⟩ := t
  dsimp only at f1 f2 f4 f5 f6 ⊢
  cases ts with
  | nil => simp at f2
  | cons a as =>
    have ha := f1 a rfl
    have hI : SInv E p 1 [] a ⟨1, [(a, false)], false, hypTable E p, r0, e0⟩ :=
      ⟨rfl, by simp, by simp, ⟨[], by simp⟩⟩
    have hfirst : lscanTok E p [] a { tbl := hypTable E p, ret := r0, ec := e0 } = .val ⟨1, [(a, false)], false, hypTable E p, r0, e0⟩ := by
      unfold lscanTok
      rw [if_neg (by simp), if_pos ha]
      rfl
    obtain ⟨s', labs', h1, h2, h3⟩ := lscan_safe hI f4
    rw [List.nil_append] at h3
    subst h3
    rw [lscan, hfirst, Out.bind_val, h1, Out.bind_val]
    have hlast : ((a :: as).getLast (by simp)).head? ≠ some ':' := by
      rw [List.getLast?_eq_some_getLast (by simp)] at f2
      simp only [Option.some.injEq] at f2
      rw [f2]; exact f3
    have hne := h2.ne hlast
    obtain ⟨locs, g1, g2, g3, g4⟩ := h2.tbl
    have hnd : (s'.tbl.map Prod.fst).Nodup := by
      rw [g1, List.map_append, List.nodup_append]
      refine ⟨?_, g2.nodup f5, ?_⟩
      · simpa [hypTable, Function.comp_def] using hyps
      · intro x hx y hy hxy
        subst hxy
        obtain ⟨e, he, rfl⟩ := List.mem_map.mp hy
        obtain ⟨e', he', h'⟩ := List.mem_map.mp hx
        have := (hlook _ _).2 (g3 e he) e'.2
        rw [← h'] at this
        exact this he'
    obtain ⟨d1, d2⟩ := dup_free hnd
    rw [d1, d2, if_neg (by rw [h2.num]; omega)]
    simp only [Bool.and_false, Bool.false_eq_true, if_false, ite_self]
    rw [g1]
    obtain ⟨w', w1, w2⟩ := walk_safe (xs := s'.steps) (w := ⟨[], 0, if (0 : Nat) > 0 then max s'.ret 2 else s'.ret, s'.ec + 0⟩) hlook hk hlab g4
    rw [w1, Out.bind_val]
    have hlen : w'.proof.length ≤ max 1 toks.length := by
      rw [w2]
      have := h2.seen
      simp only [List.length_nil, List.length_cons] at this f6 ⊢
      omega
    split
    · rw [if_neg (by simpa using hne)]
      exact ⟨_, rfl, hlen⟩
    · exact ⟨_, rfl, hlen⟩

/-! ## Verifying after parsing -/

/-- A non-assertion step never stops the program. -/
theorem verify_push {db : Db} {proved n : Nat} {st : VState} {ps : Int} (hf : SepFree db.sep st.math)
    (hg : GoodRef db ps) (hb : ps ≤ -1000 → (-1000 - ps).toNat < n)
    (ha : ps = unk ∨ ps ≤ -1000 ∨ (0 ≤ ps ∧ ((db.stmt ps.toNat).kind = .e ∨ (db.stmt ps.toNat).kind = .f))) :
    ∃ st' f, verifyStep db proved n st ps = .val st' ∧ st'.stack = st.math.length :: st.stack ∧ st'.math = st.math ++ [f] ∧ db.sep ∉ f := by
  unfold verifyStep
  dsimp only
  rcases ha with rfl | ha | ⟨h0, ha⟩
  · rw [if_pos (show unk = -63 from rfl)]
    exact ⟨_, [], rfl, rfl, rfl, by simp⟩
  · rw [if_neg (by omega), if_pos (by omega), if_neg (by omega), if_pos (hb ha)]
    refine ⟨_, _, rfl, rfl, rfl, ?_⟩
    rw [List.getD_eq_getElem?_getD]
    cases hk : st.math[(-1000 - ps).toNat]? with
    | none => simp
    | some y => exact hf y (List.mem_of_getElem? hk)
  · rw [if_neg (by omega), if_neg (by omega)]
    have hgood := hg h0
    rcases ha with ha | ha <;> rw [ha] at hgood ⊢ <;> dsimp only at hgood ⊢ <;> exact ⟨_, _, rfl, rfl, rfl, hgood.free⟩

theorem sepFree_append {sep : Nat} {l : List (List Nat)} {f : List Nat} (h : SepFree sep l) (hf : sep ∉ f) : SepFree sep (l ++ [f]) := by
  intro x hx
  rcases List.mem_append.mp hx with h1 | h1
  · exact h x h1
  · rw [List.mem_singleton] at h1; subst h1; exact hf

/-- An assertion step keeps the strings free of the separator. -/
theorem ass_sepFree {db : Db} {proved n : Nat} {st st' : VState} {i : Nat} (hs : db.isVar db.sep = false)
    (hk : (db.stmt i).kind = .a ∨ (db.stmt i).kind = .p) (hg : GoodAss db i) (hf : SepFree db.sep st.math)
    (hst : (hypsOf db i).length ≤ st.stack.length)
    (hv : verifyStep db proved n st (i : Int) = .val st') : SepFree db.sep st'.math ∧ st'.math.length = st.math.length + 1 ∧
      st'.stack.length = st.stack.length - (hypsOf db i).length + 1 := by
  have hspec := hg.toGoodFrame.assignUnk hs (argsOf_sepFree hf (hypsOf db i).length) (argsOf_length hst).symm proved st.math.length st.ec
  rw [verifyStep_ass hk, if_neg (by omega)] at hv
  generalize (argsOf st (hypsOf db i).length).any (fun i => i = []) = u at hspec hv
  generalize hr : assignVar db _ _ i proved st.math.length u st.ec = r at hspec hv
  have key : ∀ σ, (∀ t ∈ (db.stmt i).reqVars, db.sep ∉ σ t) → db.sep ∉ subst db.isVar σ (db.stmt i).math := fun σ hσ =>
    subst_sepFree hg.mathFree (fun t ht hv => hσ t (hg.mathVars t ht hv))
  rcases hspec with ⟨_, h2⟩ | ⟨h1, h2⟩
  · rw [h2] at hv
    simp only [Out.bind_val, Out.val.injEq] at hv
    subst hv
    exact ⟨sepFree_append hf (by simp), by simp, by simp⟩
  · cases h2 with
    | noneFits h3 =>
      simp only [Out.bind_val, Out.val.injEq] at hv
      subst hv
      exact ⟨sepFree_append hf (by simp), by simp, by simp⟩
    | one σ h3 h4 h5 =>
      simp only [Out.bind_val, Out.val.injEq] at hv
      subst hv
      exact ⟨sepFree_append hf (key σ fun t ht => h4 t (h1 t ht)), by simp, by simp⟩
    | many σ τ h3 h4 h5 h6 =>
      simp only [Out.bind_val, Out.val.injEq] at hv
      subst hv
      cases u with
      | true => exact ⟨sepFree_append hf (by simp), by simp, by simp⟩
      | false => exact ⟨sepFree_append hf (by simpa using key τ fun t ht => h5 t (h1 t ht)), by simp, by simp⟩
    | bug2110 h3 => cases hv

/-- The verifier's loop on a proof string whose stack use is right: it ends normally or with bug 2110. -/
theorem verifySteps_total {db : Db} (hs : db.isVar db.sep = false) {proved N : Nat} {r0 e0 : Nat} {proof : List Int} {n : Nat} (hD : Depth db proof n)
    (hg : ∀ ps ∈ proof, GoodRef db ps) (hb : ∀ ps ∈ proof, ps ≤ -1000 → (-1000 - ps).toNat < N) :
    (∃ st, verifySteps db proved N proof ⟨r0, e0, [], [], []⟩ = .val st ∧ st.stack.length = n ∧ SepFree db.sep st.math) ∨
    verifySteps db proved N proof ⟨r0, e0, [], [], []⟩ = .bug 2110 := by
  have hone : ∀ {a : Int} {st : VState}, verifySteps db proved N [a] st = verifyStep db proved N st a := by
    intro a st
    rw [verifySteps]
    cases verifyStep db proved N st a <;> rfl
  induction hD with
  | nil => exact Or.inl ⟨_, rfl, rfl, by intro x hx; simp at hx⟩
  | @push l n a hD ha ih =>
    rw [verifySteps_append]
    rcases ih (fun ps h => hg ps (by simp [h])) (fun ps h => hb ps (by simp [h])) with ⟨st, h1, h2, h3⟩ | h1
    · rw [h1, Out.bind_val, hone]
      obtain ⟨st', f, g1, g2, g3, g4⟩ := verify_push (proved := proved) h3 (hg a (by simp)) (hb a (by simp)) ha
      exact Or.inl ⟨st', g1, by rw [g2]; simp [h2], by rw [g3]; exact sepFree_append h3 g4⟩
    · rw [h1]; exact Or.inr rfl
  | @use l n a hD ha0 ha hn ih =>
    rw [verifySteps_append]
    rcases ih (fun ps h => hg ps (by simp [h])) (fun ps h => hb ps (by simp [h])) with ⟨st, h1, h2, h3⟩ | h1
    · rw [h1, Out.bind_val, hone]
      have hga : GoodAss db a.toNat := by
        have := hg a (by simp) ha0
        rcases ha with ha | ha <;> rw [ha] at this <;> exact this
      have hlen : (hypsOf db a.toNat).length = (db.stmt a.toNat).reqHyp.length := by simp [hypsOf]
      have hcast : ((a.toNat : Nat) : Int) = a := by omega
      rcases C05_step_safe_partial (proved := proved) (n := N) hs ha hga h3 (by omega) with ⟨st', g1⟩ | ⟨g1, _⟩
      · obtain ⟨g2, g3, g4⟩ := ass_sepFree hs ha hga h3 (by omega) g1
        rw [hcast] at g1
        exact Or.inl ⟨st', g1, by rw [g4, h2, hlen], g2⟩
      · rw [hcast] at g1
        exact Or.inr g1
    · rw [h1]; exact Or.inr rfl

theorem backOk_bound : ∀ {l : List Int} {off : Nat}, BackOk off l → ∀ ps ∈ l, ps ≤ -1000 → (-1000 - ps).toNat < off + l.length
  | [], _, _, ps, h, _ => by simp at h
  | a :: l, off, hb, ps, h, hc => by
    rcases List.mem_cons.mp h with rfl | h
    · have := hb.1 hc; simp; omega
    · have := backOk_bound hb.2 ps h hc; simp; omega

/-- **C40** Parsing and then verifying a proof of an accepted source.  For every text of a proof without double colons and equal local labels,
`parseProof` ends normally; and if its return code is below 2 (so that VERIFY PROOF goes on), `verifyProof` ends
normally too, or stops with internal error 2110. -/
theorem C40_parse_then_verify {src : List Src} {s : PState} {look : Look} (h : Accepted src s) (hl : LookOk look) (hL : SrcLabels src)
    (hp : kindAt (kinds src) p = .p) {toks : List Name} (hc : NoDoubleColon toks) (hn : (colonLabels toks).Nodup) :
    ∃ r, parseProof (envOf look src s) p toks = .val r ∧ (r.ret < 2 →
      (∃ out, verifyProof (toDb src s) p r.proof r.ret r.ec = .val out) ∨ verifyProof (toDb src s) p r.proof r.ret r.ec = .bug 2110) := by
  have hH := hypsOk_of (look := look) h hp
  have hLE := labelsOk_of (look := look) h hL
  obtain ⟨r, h1, _⟩ := C22_parse_safe_partial (E := envOf look src s) hl (hypKinds_of_parse h hp) (by
    rw [List.Nodup, List.pairwise_map]
    refine List.Pairwise.imp_of_mem ?_ (List.nodup_append_comm.mp hH.nodup)
    intro a b ha hb hab he
    have ha' := hH.mem a (by simp only [List.mem_append] at ha ⊢; tauto)
    have hb' := hH.mem b (by simp only [List.mem_append] at hb ⊢; tauto)
    have hr := hH.range
    exact hab (hLE.uniq a b ha'.1 (by omega) hb'.1 (by omega) ((hLE.kinds a ha'.1 (by omega)).mpr (by tauto)) he)) (by
    intro i h1 h2 h3 h4 h5
    have := (hLE.kinds i h1 h2).mp h3
    tauto) hc hn
  refine ⟨r, h1, fun hr => ?_⟩
  obtain ⟨_, h2, h3, _⟩ := parseProof_ok (E := envOf look src s) hl (hypKinds_of_parse h hp) h1 hr
  unfold verifyProof
  rw [if_neg (by rw [kind_toDb h]; simp [hp]), if_neg (by omega)]
  split
  · exact Or.inl ⟨_, rfl⟩
  have hb := backOk_bound h2
  simp only [Nat.zero_add] at hb
  rcases verifySteps_total (db := toDb src s) (proved := p) (r0 := 0) (e0 := r.ec) tok_sep h3 (fun ps _ => goodRef_of_parse h ps) hb with ⟨st, a1, a2, _⟩ | a1
  · rw [a1, Out.bind_val, if_neg (by omega)]
    left
    dsimp only
    split <;> exact ⟨_, rfl⟩
  · rw [a1]; exact Or.inr rfl

end MM.Proof
