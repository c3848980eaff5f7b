import Verif.Proof.Compressed
import Verif.Proof.Lemmas
/-!
# What `parseCompressedProof` guarantees when it returns 0 or 1
-/
namespace MM.Proof
open MM.Veri MM.Pars MM.Lex

variable {E : Env} {p W : Nat} {bg : Bool}

/-- The return code and the error count only grow, and a return code above 1 comes with an error. -/
structure CMono (s s' : CState) : Prop where
  ret : s.ret ≤ s'.ret
  ec : s.ec ≤ s'.ec
  quiet : s'.ec = s.ec → s'.ret ≤ max s.ret 1

theorem CMono.refl (s : CState) : CMono s s := ⟨le_refl _, le_refl _, fun _ => by omega⟩

theorem CMono.trans {a b c : CState} (h1 : CMono a b) (h2 : CMono b c) : CMono a c := by
  have a1 := h1.ret; have a2 := h1.ec; have b1 := h2.ret; have b2 := h2.ec
  refine ⟨by omega, by omega, fun h => ?_⟩
  have := h1.quiet (by omega)
  have := h2.quiet (by omega)
  omega

theorem expected_mono (s : CState) : CMono s (expected s) := by
  unfold expected
  split
  · exact .refl s
  · exact ⟨by simp, by simp, by simp⟩

theorem letter_mono {w : Nat} : ∀ {n : Nat} {s s' : CState}, letter E W w n s = .val s' → CMono s s' := by
  intro n
  induction n with
  | zero => intro s s' h; cases h
  | succ n ih =>
    intro s s' h
    rw [letter] at h
    split at h
    · cases h
    split at h
    · cases h
    dsimp only at h
    split at h
    · cases h
    rename_i st _
    split at h
    · split at h
      · cases h
      · cases h
        refine ⟨?_, ?_, ?_⟩ <;> dsimp only <;> split <;> simp
    · split at h
      · split at h
        · cases h
        · have := ih h
          have h1 := this.ret; have h2 := this.ec
          dsimp only at h1 h2
          refine ⟨?_, by omega, fun hh => by omega⟩
          split at h1 <;> omega
      · split at h
        · cases h
        · cases h
          refine ⟨?_, ?_, ?_⟩ <;> dsimp only <;> split <;> simp

theorem digit_mono {w : Nat} {s s' : CState} (h : digit bg w s = .val s') : CMono s s' := by
  unfold digit at h
  split at h
  · cases h; exact ⟨by simp, by simp, by simp⟩
  split at h
  · cases h
  · cases h; exact ⟨by simp, by simp, by simp⟩

theorem zed_mono {s s' : CState} (h : zed E W s = .val s') : CMono s s' := by
  unfold zed at h
  dsimp only at h
  refine (expected_mono s).trans ?_
  generalize expected s = s0 at h
  split at h
  · cases h
  split at h
  · cases h; exact ⟨by simp, by simp, by simp⟩
  · cases h
    refine ⟨?_, ?_, ?_⟩ <;> dsimp only <;> split <;> simp

theorem quest_mono {s s' : CState} (h : quest W s = .val s') : CMono s s' ∧ 1 ≤ s'.ret := by
  unfold quest at h
  dsimp only at h
  have := expected_mono s
  generalize expected s = s0 at h this
  split at h
  · cases h
  · cases h
    exact ⟨this.trans ⟨by simp, by simp, by simp⟩, by simp⟩

theorem cchar_mono {c : Char} {s s' : CState} (h : cchar E W bg c s = .val s') : CMono s s' := by
  unfold cchar at h
  split at h
  · cases h
  split at h
  · exact letter_mono h
  split at h
  · exact digit_mono h
  split at h
  · exact zed_mono h
  split at h
  · cases h; exact .refl _
  split at h
  · exact (quest_mono h).1
  · cases h; exact ⟨by simp, by simp, by simp⟩

theorem cloop_mono : ∀ {n : Nat} {l : List Char} {s s' : CState}, cloop E W bg n l s = .val s' → CMono s s' := by
  intro n
  induction n with
  | zero => intro l s s' h; cases h
  | succ n ih =>
    intro l s s' h
    cases l with
    | nil => cases h
    | cons c r =>
      rw [cloop] at h
      split at h
      · split at h
        · cases h; exact .refl _
        split at h
        · cases hq : skipWs .ws (c :: r) <;> rw [hq] at h
          · exact ih h
          all_goals cases h
        · exact CMono.trans ⟨by simp, by simp, by simp⟩ (ih h)
      · cases hq : cchar E W bg c s <;> rw [hq] at h
        · exact (cchar_mono hq).trans (ih h)
        all_goals cases h

/-- A label map entry that may be used: an earlier step, a hypothesis of `p`, or an assertion before `p`. -/
def EntryOk (E : Env) (p len : Nat) (m : Int) : Prop :=
  (m ≤ -1000 ∧ (-1000 - m).toNat < len) ∨
  (0 ≤ m ∧ m.toNat ∈ (E.stmt p).reqHyp ++ (E.stmt p).optHyp ∧ ((E.stmt m.toNat).kind = .e ∨ (E.stmt m.toNat).kind = .f)) ∨
  (0 ≤ m ∧ m.toNat < p ∧ ((E.stmt m.toNat).kind = .a ∨ (E.stmt m.toNat).kind = .p))

structure CInv (E : Env) (p : Nat) (s : CState) : Prop where
  walk : WInv E p ⟨s.proof, s.sp, s.ret, s.ec⟩
  map : ∀ m ∈ s.map, EntryOk E p s.proof.length m

theorem EntryOk.mono {len len' : Nat} {m : Int} (h : EntryOk E p len m) (hl : len ≤ len') : EntryOk E p len' m := by
  rcases h with ⟨h1, h2⟩ | h
  · exact Or.inl ⟨h1, by omega⟩
  · exact Or.inr h

theorem CInv.congr {s s' : CState} (h : CInv E p s) (h1 : s'.proof = s.proof) (h2 : s'.sp = s.sp) (h3 : s'.map = s.map) (h4 : s.ret ≤ s'.ret) : CInv E p s' := by
  refine ⟨⟨by rw [h1]; exact h.walk.legal, by rw [h1]; exact h.walk.back, by rw [h1, h2]; exact h.walk.depth, ?_⟩, by rw [h1, h3]; exact h.map⟩
  intro hu
  dsimp only at hu ⊢
  rw [h1] at hu
  have := h.walk.unkRet hu
  dsimp only at this
  omega

theorem CInv.expected {s : CState} (h : CInv E p s) : CInv E p (expected s) := by
  unfold MM.Proof.expected
  split
  · exact h
  · exact h.congr rfl rfl rfl (by simp)

theorem isPush_entry {m : Int} {len : Nat} (h : EntryOk E p len m) (hp : isPush E m = true) :
    (m ≤ -1000 ∧ (-1000 - m).toNat < len) ∨
      (0 ≤ m ∧ m.toNat ∈ (E.stmt p).reqHyp ++ (E.stmt p).optHyp ∧ ((E.stmt m.toNat).kind = .e ∨ (E.stmt m.toNat).kind = .f)) := by
  rcases h with h | h | ⟨h1, h2, h3⟩
  · exact Or.inl h
  · exact Or.inr h
  · exfalso
    unfold isPush at hp
    rcases h3 with h3 | h3 <;> rw [h3] at hp <;> simp at hp <;> omega

theorem not_isPush_entry {m : Int} {len : Nat} (h : EntryOk E p len m) (hp : isPush E m = false) :
    0 ≤ m ∧ m.toNat < p ∧ ((E.stmt m.toNat).kind = .a ∨ (E.stmt m.toNat).kind = .p) := by
  rcases h with h | ⟨h1, h2, h3⟩ | h
  · exfalso
    unfold isPush at hp
    rw [decide_eq_true (by omega : m < 0)] at hp
    simp at hp
  · exfalso
    unfold isPush at hp
    rcases h3 with h3 | h3 <;> rw [h3] at hp <;> simp at hp
  · exact h

/-- A step that pushes. -/
theorem CInv.push {s : CState} (h : CInv E p s) {m : Int} (hm : EntryOk E p s.proof.length m) (hp : isPush E m = true) {i : Nat} :
    CInv E p { s with proof := s.proof ++ [m], sp := s.sp + 1, idx := i } := by
  have hm' := isPush_entry hm hp
  have hne : m ≠ unk := by
    rintro rfl
    rcases hm' with h | h
    · simp [unk] at h
    · simp [unk] at h
  refine ⟨⟨legal_append h.walk.legal ?_, backOk_append h.walk.back ?_, .push h.walk.depth ?_, ?_⟩, ?_⟩
  · intro h0
    rcases hm' with h1 | h1
    · omega
    · exact Or.inl ⟨h1.2.1, h1.2.2⟩
  · intro h0
    rcases hm' with h1 | h1
    · omega
    · omega
  · rcases hm' with h1 | h1
    · exact Or.inr (Or.inl h1.1)
    · exact Or.inr (Or.inr ⟨h1.1, h1.2.2⟩)
  · intro hu
    dsimp only at hu
    rcases List.mem_append.1 hu with h1 | h1
    · exact h.walk.unkRet h1
    · rw [List.mem_singleton] at h1; exact absurd h1.symm hne
  · intro x hx
    exact (h.map x hx).mono (by simp)

/-- A step that uses an assertion. -/
theorem CInv.use {s : CState} (h : CInv E p s) {m : Int} (hm : EntryOk E p s.proof.length m) (hp : isPush E m = false)
    (hsp : (E.stmt m.toNat).reqHyp.length ≤ s.sp) {i : Nat} :
    CInv E p { s with proof := s.proof ++ [m], sp := s.sp - (E.stmt m.toNat).reqHyp.length + 1, idx := i } := by
  obtain ⟨h1, h2, h3⟩ := not_isPush_entry hm hp
  refine ⟨⟨legal_append h.walk.legal (fun _ => Or.inr ⟨h2, h3⟩), backOk_append h.walk.back (by intro h; omega), .use h.walk.depth h1 h3 hsp, ?_⟩, ?_⟩
  · intro hu
    dsimp only at hu
    rcases List.mem_append.1 hu with h4 | h4
    · exact h.walk.unkRet h4
    · rw [List.mem_singleton] at h4; rw [← h4] at h1; simp [unk] at h1
  · intro x hx
    exact (h.map x hx).mono (by simp)

theorem letter_inv {w n : Nat} {s s' : CState} (hI : CInv E p s) (h : letter E W w n s = .val s') (hr : s'.ret < 2) : CInv E p s' := by
  cases n with
  | zero => cases h
  | succ n =>
    rw [letter] at h
    split at h
    · cases h
    split at h
    · cases h
    dsimp only at h
    cases hm : s.map[if decide (s.idx * 20 + w ≥ s.map.length) = true then 0 else s.idx * 20 + w]? with
    | none => rw [hm] at h; cases h
    | some st =>
      rw [hm] at h
      dsimp only at h
      have hmem := List.mem_of_getElem? hm
      have hbad : decide (s.idx * 20 + w ≥ s.map.length) = false := by
        by_contra hc
        simp only [Bool.not_eq_false] at hc
        rw [hc] at h
        simp only [if_true] at h
        split at h
        · split at h
          · cases h
          · cases h; dsimp only at hr; omega
        · split at h
          · split at h
            · cases h
            · have := (letter_mono h).ret; dsimp only at this; omega
          · split at h
            · cases h
            · cases h; dsimp only at hr; omega
      rw [hbad] at h
      simp only [Bool.false_eq_true, if_false, Nat.add_zero] at h
      by_cases hp : isPush E st = true
      · rw [if_pos hp] at h
        split at h
        · cases h
        · cases h
          exact hI.push (hI.map _ hmem) hp
      · rw [if_neg hp] at h
        split at h
        · split at h
          · cases h
          · have := (letter_mono h).ret; dsimp only at this; omega
        · rename_i hsp
          split at h
          · cases h
          · cases h
            exact hI.use (hI.map _ hmem) (by simpa using hp) (by omega)

theorem cchar_inv {c : Char} {s s' : CState} (hI : CInv E p s) (h : cchar E W bg c s = .val s') (hr : s'.ret < 2) : CInv E p s' := by
  unfold cchar at h
  split at h
  · cases h
  split at h
  · exact letter_inv hI h hr
  split at h
  · unfold digit at h
    split at h
    · cases h; exact hI.congr rfl rfl rfl (le_refl _)
    split at h
    · cases h
    · cases h; exact hI.congr rfl rfl rfl (le_refl _)
  split at h
  · unfold zed at h
    dsimp only at h
    have hI' := hI.expected
    generalize expected s = s0 at h hI'
    split at h
    · cases h
    cases hl : s0.proof.getLast? with
    | none => rw [hl] at h; cases h; dsimp only at hr; omega
    | some st =>
      rw [hl] at h
      cases h
      refine ⟨(hI'.congr (s' := { s0 with ret := if isPush E st = true then max s0.ret 2 else s0.ret, ec := s0.ec + if isPush E st = true then 1 else 0 }) rfl rfl rfl ?_).walk, ?_⟩
      · dsimp only; split <;> omega
      · intro m hm
        dsimp only at hm ⊢
        rcases List.mem_append.1 hm with h1 | h1
        · exact hI'.map m h1
        · rw [List.mem_singleton] at h1
          subst h1
          have : 0 < s0.proof.length := by
            cases h : s0.proof with
            | nil => rw [h] at hl; cases hl
            | cons a b => simp
          exact Or.inl ⟨by omega, by omega⟩
  split at h
  · cases h; exact hI
  split at h
  · unfold quest at h
    dsimp only at h
    have hI' := hI.expected
    generalize expected s = s0 at h hI'
    split at h
    · cases h
    · cases h
      refine ⟨hI'.walk.unk (r := max s0.ret 1) (e := s0.ec) (by omega), ?_⟩
      intro m hm
      exact (hI'.map m hm).mono (by simp)
  · cases h; dsimp only at hr; omega

theorem cloop_inv : ∀ {n : Nat} {l : List Char} {s s' : CState}, CInv E p s → cloop E W bg n l s = .val s' → s'.ret < 2 → CInv E p s' := by
  intro n
  induction n with
  | zero => intro l s s' _ h; cases h
  | succ n ih =>
    intro l s s' hI h hr
    cases l with
    | nil => cases h
    | cons c r =>
      rw [cloop] at h
      split at h
      · split at h
        · cases h; exact hI
        split at h
        · cases hq : skipWs .ws (c :: r) <;> rw [hq] at h
          · exact ih hI h hr
          all_goals cases h
        · have := (cloop_mono h).ret
          dsimp only at this; omega
      · cases hq : cchar E W bg c s <;> rw [hq] at h
        · have := (cloop_mono h).ret
          exact ih (cchar_inv hI hq (by omega)) h hr
        all_goals cases h

/-! ### The label list -/

theorem mem_hypTableC {nm : Name} {j : Int} (h : (nm, j) ∈ hypTableC E p) :
    (∃ i ∈ (E.stmt p).optHyp, E.lab i = nm ∧ j = i) ∨ (∃ i ∈ (E.stmt p).reqHyp, E.lab i = nm ∧ j = -1000 - (i : Int)) := by
  unfold hypTableC at h
  simp only [List.mem_append, List.mem_map, Prod.mk.injEq] at h
  rcases h with ⟨i, h1, h2, h3⟩ | ⟨i, h1, h2, h3⟩
  · exact Or.inl ⟨i, h1, h2, h3.symm⟩
  · exact Or.inr ⟨i, h1, h2, h3.symm⟩

theorem clabel_ok {tok : Name} {x : Int × Nat × Nat} (hlook : LookOk E.look) (hk : HypKinds E.toDb p) (h : clabel E p tok = .val x) :
    (x.2.1 < 2 → EntryOk E p 0 x.1) ∧ (x.2.2 = 0 → x.2.1 = 0) := by
  unfold clabel at h
  cases hl : E.look (hypTableC E p) tok with
  | some j =>
    rw [hl] at h
    dsimp only at h
    by_cases hpos : (if j < 0 then -1000 - j else j) ≤ 0
    · rw [if_pos hpos] at h; cases h
    · rw [if_neg hpos] at h
      cases h
      refine ⟨fun _ => Or.inr (Or.inl ?_), by simp⟩
      dsimp only
      rcases mem_hypTableC ((hlook _ _).1 j hl) with ⟨i, h1, _, rfl⟩ | ⟨i, h1, _, rfl⟩
      · rw [if_neg (by omega)]
        exact ⟨by omega, by simp [h1], (hk i (by simp [h1])).2⟩
      · rw [if_pos (by omega)]
        have e : (-1000 - (-1000 - (i : Int))) = i := by omega
        rw [e]
        exact ⟨by omega, by simp [h1], (hk i (by simp [h1])).2⟩
  | none =>
    rw [hl] at h
    dsimp only at h
    cases hl2 : E.look (labelKeys E) tok with
    | none => rw [hl2] at h; cases h; exact ⟨by intro h; simp at h, by simp⟩
    | some j =>
      rw [hl2] at h
      dsimp only at h
      split at h
      · cases h
      · rename_i hkind
        cases h
        refine ⟨fun hr => Or.inr (Or.inr ?_), by dsimp only; split <;> simp⟩
        dsimp only at hr ⊢
        obtain ⟨i, rfl, h1, h2, h3⟩ := mem_labelKeys ((hlook _ _).1 j hl2)
        have hlt : ¬ ((i : Int) ≥ p) := by intro hc; rw [if_pos hc] at hr; omega
        refine ⟨by omega, by omega, ?_⟩
        by_contra hc
        exact hkind ⟨fun h => hc (Or.inl h), fun h => hc (Or.inr h)⟩

theorem clabels_ok (hlook : LookOk E.look) (hk : HypKinds E.toDb p) : ∀ {toks : List Name} {x : List Int × Nat × Nat}, clabels E p toks = .val x →
    (x.2.1 < 2 → ∀ m ∈ x.1, EntryOk E p 0 m) ∧ (x.2.2 = 0 → x.2.1 = 0) := by
  intro toks
  induction toks with
  | nil => intro x h; cases h; simp
  | cons t ts ih =>
    intro x h
    rw [clabels] at h
    cases h1 : clabel E p t <;> rw [h1] at h
    · rename_i y
      rw [Out.bind_val] at h
      cases h2 : clabels E p ts <;> rw [h2] at h
      · rename_i r
        rw [Out.bind_val] at h
        cases h
        obtain ⟨a1, a2⟩ := clabel_ok hlook hk h1
        obtain ⟨b1, b2⟩ := ih h2
        dsimp only
        refine ⟨?_, fun h => by have := a2 (by omega); have := b2 (by omega); omega⟩
        intro hr m hm
        rcases List.mem_cons.1 hm with rfl | hm
        · exact a1 (by omega)
        · exact b1 (by omega) m hm
      all_goals cases h
    all_goals cases h

/-- What a compressed proof guarantees when the return code is 0 or 1. -/
theorem parseCompressed_ok {sec : List Char} {secLen : Nat} {r : Parsed} (hlook : LookOk E.look) (hk : HypKinds E.toDb p)
    (h : parseCompressed E W p sec secLen = .val r) :
    (r.ret < 2 → LegalRefs E.toDb p r.proof ∧ BackOk 0 r.proof ∧ Depth E.toDb r.proof 1 ∧ (unk ∈ r.proof → r.ret = 1)) ∧ (r.ec = 0 → r.ret ≤ 1) := by
  unfold parseCompressed at h
  cases hq : skipWs .ws sec <;> rw [hq] at h
  · rename_i q
    rw [Out.bind_val] at h
    split at h
    · cases h
    cases hL : labelList (sec.length + 1) (q.drop 1) <;> rw [hL] at h
    · rename_i L
      rw [Out.bind_val] at h
      split at h
      · cases h
      cases hx : clabels E p L.toks <;> rw [hx] at h
      · rename_i x
        rw [Out.bind_val] at h
        generalize bggy (bggyText sec secLen L) = bg at h
        obtain ⟨x1, x2⟩ := clabels_ok hlook hk hx
        generalize hs0 : ({ map := (E.stmt p).reqHyp.map (fun (i : Nat) => (i : Int)) ++ x.1, ret := if L.missing then max 3 x.2.1 else x.2.1, ec := x.2.2 + if L.missing then 1 else 0 } : CState) = s0 at h
        cases hc : cloop E W bg (sec.length + 1) L.rest s0 <;> rw [hc] at h
        · rename_i s
          rw [Out.bind_val] at h
          have hm1 := cloop_mono hc
          have hm2 := expected_mono s
          have hinit : s0.ret < 2 → CInv E p s0 := by
            intro hr
            subst hs0
            dsimp only at hr
            refine ⟨⟨by intro ps hps; simp at hps, trivial, .nil, by simp⟩, ?_⟩
            intro m hm
            dsimp only at hm
            rcases List.mem_append.1 hm with h1 | h1
            · obtain ⟨i, hi, rfl⟩ := List.mem_map.1 h1
              exact Or.inr (Or.inl ⟨by omega, by simp [hi], by simpa using (hk i (by simp [hi])).2⟩)
            · exact (x1 (by split at hr <;> omega) m h1).mono (by omega)
          have hinit2 : s0.ec = 0 → s0.ret = 0 := by
            intro he
            subst hs0
            dsimp only at he ⊢
            by_cases hmiss : L.missing = true
            · rw [if_pos hmiss] at he; omega
            · rw [if_neg hmiss] at he ⊢; exact x2 (by omega)
          have hI : s.ret < 2 → CInv E p s := fun hr => cloop_inv (hinit (by have := hm1.ret; omega)) hc hr
          unfold cfinish at h
          dsimp only at h
          have hE : (expected s).ret < 2 → CInv E p (expected s) := fun hr => (hI (by have := hm2.ret; omega)).expected
          have hQ : (expected s).ec = 0 → (expected s).ret ≤ 1 := by
            intro he
            have := hm1.ec; have := hm2.ec
            have := hm1.quiet (by omega)
            have := hm2.quiet (by omega)
            have := hinit2 (by omega)
            omega
          generalize expected s = s' at h hE hQ
          split at h
          · rename_i hnil
            split at h
            · cases h
            · cases h
              dsimp only
              refine ⟨fun hr => ?_, by omega⟩
              have hI' := hE (by split at hr <;> omega)
              have hsp : s'.sp + 1 = 1 := by
                by_contra hc; rw [if_pos hc] at hr; omega
              refine ⟨?_, ⟨by simp [unk], trivial⟩, ?_, ?_⟩
              · intro ps hps h0
                rw [List.mem_singleton] at hps; subst hps; simp [unk] at h0
              · exact .push .nil (Or.inl rfl)
              · intro _
                rw [if_neg (by omega)] at hr ⊢
                omega
          · split at h
            · cases h
            · cases h
              dsimp only
              constructor
              · intro hr
                have hI' := hE (by split at hr <;> omega)
                have hsp : s'.sp = 1 := by
                  by_contra hc; rw [if_pos hc] at hr; omega
                refine ⟨hI'.walk.legal, hI'.walk.back, ?_, ?_⟩
                · have := hI'.walk.depth
                  dsimp only at this
                  rw [hsp] at this
                  exact this
                · intro hu
                  have := hI'.walk.unkRet hu
                  dsimp only at this
                  rw [if_neg (by omega)] at hr ⊢
                  omega
              · intro he
                by_cases hc : s'.sp ≠ 1
                · rw [if_pos hc] at he; omega
                · rw [if_neg hc] at he ⊢; exact hQ (by omega)
        all_goals cases h
      all_goals cases h
    all_goals cases h
  all_goals cases h

end MM.Proof
