import Verif.Proof.Text
/-!
# References in parsed proofs are to steps that are not references
-/
namespace MM.Proof
open MM.Veri MM.Pars MM.Spec MM.Lex

variable {E : Env} {p W : Nat} {bg : Bool}

/-- If `m` is a reference, it is to a step of `proof` that is not a reference. -/
def Tgt (proof : List Int) (m : Int) : Prop := m ≤ -1000 → ∃ y, proof[(-1000 - m).toNat]? = some y ∧ -1000 < y

theorem Tgt.mono {proof : List Int} {m : Int} (h : Tgt proof m) (l : List Int) : Tgt (proof ++ l) m := by
  intro hm
  obtain ⟨y, h1, h2⟩ := h hm
  refine ⟨y, ?_, h2⟩
  rw [List.getElem?_append_left]
  · exact h1
  · exact (List.getElem?_eq_some_iff.1 h1).1

/-- References are to steps that are not references. -/
def NoChain (proof : List Int) : Prop := ∀ x ∈ proof, Tgt proof x

theorem NoChain.append {proof : List Int} {m : Int} (h : NoChain proof) (hm : Tgt proof m) : NoChain (proof ++ [m]) := by
  intro x hx
  rcases List.mem_append.1 hx with hx | hx
  · exact (h x hx).mono _
  · rw [List.mem_singleton] at hx; subst hx; exact hm.mono _

theorem tgt_unk (proof : List Int) : Tgt proof unk := fun h => absurd h (by decide)

/-! ### Compressed proofs -/

structure CN (s : CState) : Prop where
  proof : NoChain s.proof
  map : ∀ m ∈ s.map, Tgt s.proof m

theorem CN.congr {s s' : CState} (h : CN s) (h1 : s'.proof = s.proof) (h2 : s'.map = s.map) : CN s' := ⟨by rw [h1]; exact h.proof, by rw [h1, h2]; exact h.map⟩

theorem CN.push {s s' : CState} (h : CN s) {m : Int} (hm : Tgt s.proof m) (h1 : s'.proof = s.proof ++ [m]) (h2 : s'.map = s.map) : CN s' :=
  ⟨by rw [h1]; exact h.proof.append hm, by rw [h1, h2]; exact fun m hm => (h.map m hm).mono _⟩

theorem letter_cn {w : Nat} : ∀ {n : Nat} {s s' : CState}, CN s → letter E W w n s = .val s' → CN s'
  | 0, _, _, _, h => by cases h
  | n + 1, s, s', hI, h => by
    rw [letter] at h
    split at h
    · cases h
    split at h
    · cases h
    dsimp only at h
    cases hm : s.map[if decide (s.idx * 20 + w ≥ s.map.length) = true then 0 else s.idx * 20 + w]? with
    | none => rw [hm] at h; cases h
    | some st =>
      rw [hm] at h
      dsimp only at h
      have hmem := hI.map st (List.mem_of_getElem? hm)
      split at h
      · split at h
        · cases h
        · cases h; exact hI.push hmem rfl rfl
      split at h
      · split at h
        · cases h
        · refine letter_cn (s := _) ?_ h
          exact hI.congr rfl rfl
      split at h
      · cases h
      · cases h; exact hI.push hmem rfl rfl

theorem expected_cn {s : CState} (h : CN s) : CN (expected s) := by
  unfold expected
  split
  · exact h
  · exact h.congr rfl rfl

theorem cchar_cn {c : Char} {s s' : CState} (hI : CN s) (h : cchar E W bg c s = .val s') (hr : s'.ret < 2) : CN s' := by
  unfold cchar at h
  split at h
  · cases h
  split at h
  · exact letter_cn hI h
  split at h
  · unfold digit at h
    split at h
    · cases h; exact hI.congr rfl rfl
    split at h
    · cases h
    · cases h; exact hI.congr rfl rfl
  split at h
  · unfold zed at h
    dsimp only at h
    have hI' := expected_cn hI
    generalize expected s = s0 at h hI'
    split at h
    · cases h
    cases hl : s0.proof.getLast? with
    | none => rw [hl] at h; cases h; dsimp only at hr; omega
    | some st =>
      rw [hl] at h
      cases h
      dsimp only at hr
      have hp : isPush E st = false := by
        cases hc : isPush E st with
        | false => rfl
        | true => rw [hc] at hr; simp only [if_true] at hr; omega
      have hst : 0 ≤ st := by
        unfold isPush at hp
        simp only [Bool.or_eq_false_iff, decide_eq_false_iff_not] at hp
        omega
      refine ⟨hI'.proof, ?_⟩
      intro m hm
      dsimp only at hm ⊢
      rcases List.mem_append.1 hm with h1 | h1
      · exact hI'.map m h1
      · rw [List.mem_singleton] at h1
        subst h1
        intro _
        refine ⟨st, ?_, by omega⟩
        rw [List.getLast?_eq_getElem?] at hl
        have hlen : 0 < s0.proof.length := by
          cases h : s0.proof with
          | nil => rw [h] at hl; cases hl
          | cons a b => simp
        rw [show (-1000 - (-1000 - ((s0.proof.length : Int) - 1))).toNat = s0.proof.length - 1 by omega]
        exact hl
  split at h
  · cases h; exact hI
  split at h
  · unfold quest at h
    dsimp only at h
    have hI' := expected_cn hI
    generalize expected s = s0 at h hI'
    split at h
    · cases h
    · cases h; exact hI'.push (tgt_unk _) rfl rfl
  · cases h; exact hI.congr rfl rfl

theorem cloop_cn : ∀ {n : Nat} {l : List Char} {s s' : CState}, CN s → cloop E W bg n l s = .val s' → s'.ret < 2 → CN s' := by
  intro n
  induction n with
  | zero => intro l s s' _ h; cases h
  | succ n ih =>
    intro l s s' hI h hr
    cases l with
    | nil => cases h
    | cons c r =>
      rw [cloop] at h
      split at h
      · split at h
        · cases h; exact hI
        split at h
        · cases hq : skipWs .ws (c :: r) <;> rw [hq] at h
          · exact ih hI h hr
          all_goals cases h
        · have := (cloop_mono h).ret
          dsimp only at this; omega
      · cases hq : cchar E W bg c s <;> rw [hq] at h
        · have := (cloop_mono h).ret
          exact ih (cchar_cn hI hq (by omega)) h hr
        all_goals cases h

theorem parseCompressed_noChain {sec : List Char} {secLen : Nat} {r : Parsed} (hlook : LookOk E.look) (hk : HypKinds E.toDb p)
    (h : parseCompressed E W p sec secLen = .val r) (hr : r.ret < 2) : NoChain r.proof := by
  unfold parseCompressed at h
  cases hq : skipWs .ws sec <;> rw [hq] at h
  · rename_i q
    rw [Out.bind_val] at h
    split at h
    · cases h
    cases hL : labelList (sec.length + 1) (q.drop 1) <;> rw [hL] at h
    · rename_i L
      rw [Out.bind_val] at h
      split at h
      · cases h
      cases hx : clabels E p L.toks <;> rw [hx] at h
      · rename_i x
        rw [Out.bind_val] at h
        generalize bggy (bggyText sec secLen L) = bg at h
        obtain ⟨x1, x2⟩ := clabels_ok hlook hk hx
        generalize hs0 : ({ map := (E.stmt p).reqHyp.map (fun (i : Nat) => (i : Int)) ++ x.1, ret := if L.missing then max 3 x.2.1 else x.2.1, ec := x.2.2 + if L.missing then 1 else 0 } : CState) = s0 at h
        cases hc : cloop E W bg (sec.length + 1) L.rest s0 <;> rw [hc] at h
        · rename_i s
          rw [Out.bind_val] at h
          have hm1 := (cloop_mono hc).ret
          have hm2 := (expected_mono s).ret
          have hinit : s0.ret < 2 → CN s0 := by
            intro hr
            subst hs0
            dsimp only at hr
            refine ⟨by intro y hy; simp at hy, ?_⟩
            intro m hm h0
            dsimp only at hm
            rcases List.mem_append.1 hm with h1 | h1
            · obtain ⟨i, hi, rfl⟩ := List.mem_map.1 h1
              omega
            · rcases x1 (by split at hr <;> omega) m h1 with h2 | h2 | h2
              · omega
              · omega
              · omega
          unfold cfinish at h
          dsimp only at h
          split at h
          · split at h
            · cases h
            · cases h
              intro y hy
              rw [List.mem_singleton] at hy; subst hy; exact tgt_unk _
          · split at h
            · cases h
            · cases h
              dsimp only at hr ⊢
              have : (expected s).ret < 2 := by split at hr <;> omega
              exact (expected_cn (cloop_cn (hinit (by omega)) hc (by omega))).proof
        all_goals cases h
      all_goals cases h
    all_goals cases h
  all_goals cases h

/-! ### Normal proofs -/

/-- `done` are the steps that `w` has processed. -/
structure WN (done : List (Name × Bool)) (w : Walk) : Prop where
  len : w.proof.length = done.length
  proof : NoChain w.proof
  lab : ∀ (k : Nat) (t : Name) (y : Int), done[k]? = some (t, true) → w.proof[k]? = some y → -1000 < y

theorem WN.push {done : List (Name × Bool)} {w w' : Walk} (h : WN done w) {x : Name × Bool} {m : Int} (hm : Tgt w.proof m) (hl : x.2 = true → -1000 < m) (h1 : w'.proof = w.proof ++ [m]) :
    WN (done ++ [x]) w' := by
  refine ⟨by rw [h1]; simp [h.len], by rw [h1]; exact h.proof.append hm, ?_⟩
  intro k t y hk hy
  rw [h1] at hy
  rcases Nat.lt_or_ge k done.length with hlt | hge
  · rw [List.getElem?_append_left hlt] at hk
    rw [List.getElem?_append_left (by rw [h.len]; exact hlt)] at hy
    exact h.lab k t y hk hy
  · have hk2 : k < (done ++ [x]).length := (List.getElem?_eq_some_iff.1 hk).1
    simp only [List.length_append, List.length_singleton] at hk2
    have : k = done.length := by omega
    subst this
    rw [List.getElem?_append_right (Nat.le_refl _), Nat.sub_self] at hk
    rw [← h.len, List.getElem?_append_right (Nat.le_refl _), Nat.sub_self] at hy
    simp only [List.getElem?_cons_zero, Option.some.injEq] at hk hy
    rw [← hy]
    exact hl (by rw [hk])

theorem WN.step {done rest : List (Name × Bool)} {locs : List (Name × Int)} {x : Name × Bool} {w w' : Walk} (hlook : LookOk E.look)
    (hI : WN done w) (hloc : ∀ e ∈ locs, ∃ k : Nat, e.2 = -1000 - (k : Int) ∧ ((∃ t, (done ++ x :: rest)[k]? = some (t, true)) ∨ k = (done ++ x :: rest).length))
    (h : walkTok E p (hypTable E p ++ locs) x w = .val w') (hr : w'.ret < 2) : WN (done ++ [x]) w' := by
  unfold walkTok at h
  split at h
  · cases h; exact hI.push (tgt_unk _) (fun _ => by decide) rfl
  · cases hl : E.look (hypTable E p ++ locs) x.1 with
    | some j =>
      rw [hl] at h
      dsimp only at h
      have hm := (hlook _ _).1 j hl
      by_cases hj : j < 0
      · rw [if_pos hj] at h
        have hml : (x.1, j) ∈ locs := by
          rcases List.mem_append.mp hm with h1 | h1
          · simp only [hypTable, List.mem_map, Prod.mk.injEq] at h1
            obtain ⟨i, _, _, h2⟩ := h1
            omega
          · exact h1
        obtain ⟨k, hk, ht⟩ := hloc _ hml
        dsimp only at hk
        split at h
        · cases h
        · cases h
          dsimp only at hr
          have hc : ¬ ((decide (-1000 - j > (w.proof.length : Int)) || x.2) = true) := by
            intro hc; rw [if_pos hc] at hr; omega
          simp only [Bool.or_eq_true, not_or, decide_eq_true_eq, Bool.not_eq_true] at hc
          obtain ⟨hc1, hc2⟩ := hc
          refine hI.push (m := j) ?_ (fun h => by rw [hc2] at h; cases h) (by dsimp only; rw [if_neg (by simpa using hc1)])
          intro _
          have e : (-1000 - j).toNat = k := by omega
          rw [e]
          obtain ⟨t, ht⟩ : ∃ t, (done ++ x :: rest)[k]? = some (t, true) := by
            rcases ht with ht | ht
            · exact ht
            · exfalso
              have := hI.len
              simp only [List.length_append, List.length_cons] at ht
              omega
          have hkl : k < done.length := by
            rcases Nat.lt_or_ge k done.length with h | h
            · exact h
            · exfalso
              have : k = done.length := by have := hI.len; omega
              rw [this, List.getElem?_append_right (Nat.le_refl _), Nat.sub_self] at ht
              simp only [List.getElem?_cons_zero, Option.some.injEq] at ht
              rw [ht] at hc2; cases hc2
          rw [List.getElem?_append_left hkl] at ht
          have hkw : k < w.proof.length := by rw [hI.len]; exact hkl
          exact ⟨w.proof[k], List.getElem?_eq_getElem hkw, hI.lab k t _ ht (List.getElem?_eq_getElem hkw)⟩
      · rw [if_neg hj] at h
        split at h
        · cases h
        · cases h
          exact hI.push (m := j) (fun h => by omega) (fun _ => by omega) rfl
    | none =>
      rw [hl] at h
      dsimp only at h
      cases hl2 : E.look (labelKeys E) x.1 with
      | none => rw [hl2] at h; cases h; exact hI.push (tgt_unk _) (fun _ => by decide) rfl
      | some j =>
        rw [hl2] at h
        dsimp only at h
        obtain ⟨i, hi, _⟩ := mem_labelKeys ((hlook _ _).1 j hl2)
        split at h
        · cases h
        split at h
        · cases h; exact hI.push (tgt_unk _) (fun _ => by decide) rfl
        · cases h
          exact hI.push (m := j) (fun h => by omega) (fun _ => by omega) rfl

theorem WN.run {locs : List (Name × Int)} (hlook : LookOk E.look) : ∀ {xs done : List (Name × Bool)} {w w' : Walk}, WN done w →
    (∀ e ∈ locs, ∃ k : Nat, e.2 = -1000 - (k : Int) ∧ ((∃ t, (done ++ xs)[k]? = some (t, true)) ∨ k = (done ++ xs).length)) →
    walk E p (hypTable E p ++ locs) xs w = .val w' → w'.ret < 2 → WN (done ++ xs) w'
  | [], done, w, w', hI, _, h, _ => by cases h; simpa using hI
  | x :: xs, done, w, w', hI, hloc, h, hr => by
    unfold walk at h
    cases h1 : walkTok E p (hypTable E p ++ locs) x w with
    | val w1 =>
      rw [h1, Out.bind_val] at h
      have hr1 : w1.ret < 2 := Nat.lt_of_le_of_lt (walk_ret h) hr
      have := WN.run hlook (done := done ++ [x]) (hI.step hlook hloc h1 hr1) (by simpa using hloc) h hr
      simpa using this
    | ub => rw [h1] at h; cases h
    | bug n => rw [h1] at h; cases h
    | fuel => rw [h1] at h; cases h

theorem parseProof_noChain {toks : List Name} {r : Parsed} (hlook : LookOk E.look) (h : parseProof E p toks = .val r) (hr : r.ret < 2) : NoChain r.proof := by
  unfold parseProof at h
  dsimp only at h
  cases hs : lscan E p [] (fixTokens toks).1 { tbl := hypTable E p, ret := (fixTokens toks).2.1, ec := (fixTokens toks).2.2 } with
  | val s =>
    rw [hs, Out.bind_val] at h
    split at h
    · cases h
    split at h
    · cases h
    generalize (if decide (s.tbl.length > (hypTable E p).length) = true then dupCount s.tbl else 0) = d at h
    cases hw : walk E p s.tbl s.steps ⟨[], 0, if d > 0 then max s.ret 2 else s.ret, s.ec + d⟩ with
    | val w =>
      rw [hw, Out.bind_val] at h
      split at h
      · split at h
        · cases h
        · cases h; dsimp only at hr; omega
      · cases h
        dsimp only at hr ⊢
        have hr0 := walk_ret hw
        dsimp only at hr0
        have hs2 : s.ret < 2 := by split at hr0 <;> omega
        obtain ⟨prev, hI⟩ := LInv.init.run hs hs2 (Or.inr (Or.inr (fixTokens_head (Nat.lt_of_le_of_lt (lscan_ret hs) hs2))))
        obtain ⟨locs, h1, h2⟩ := hI.tbl
        rw [h1] at hw
        have hlast : ∀ e ∈ locs, ∃ k : Nat, e.2 = -1000 - (k : Int) ∧ ((∃ t, s.steps[k]? = some (t, true)) ∨ k = s.steps.length) := by
          intro e he
          obtain ⟨k, hk1, hk2⟩ := h2 e he
          refine ⟨k, hk1, ?_⟩
          rcases hk2 with hk2 | ⟨hk3, _⟩
          · exact Or.inl hk2
          · exact Or.inr hk3
        have hW : WN [] (⟨[], 0, if d > 0 then max s.ret 2 else s.ret, s.ec + d⟩ : Walk) := ⟨rfl, by intro y hy; simp at hy, by intro k t y hk; simp at hk⟩
        exact (hW.run hlook (locs := locs) (by simpa using hlast) hw hr).proof
    | ub => rw [hw] at h; cases h
    | bug n => rw [hw] at h; cases h
    | fuel => rw [hw] at h; cases h
  | ub => rw [hs] at h; cases h
  | bug n => rw [hs] at h; cases h
  | fuel => rw [hs] at h; cases h

/-- References in the parsed proof of a statement are to steps that are not references, if the proof has at most unknown steps as faults. -/
theorem parseProofText_noChain {sec : List Char} {secLen : Nat} {r : Parsed} (hlook : LookOk E.look) (hk : HypKinds E.toDb p) (h : parseProofText E W p sec secLen = .val r)
    (hr : r.ret < 2) : NoChain r.proof := by
  unfold parseProofText at h
  cases hq : skipWs .ws sec <;> rw [hq] at h
  · rename_i q
    rw [Out.bind_val] at h
    split at h
    · exact parseCompressed_noChain hlook hk h hr
    · cases ht : proofToks sec <;> rw [ht] at h
      · exact parseProof_noChain hlook h hr
      all_goals cases h
  all_goals cases h

end MM.Proof
