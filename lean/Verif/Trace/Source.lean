import Verif.Trace.Props
import Verif.Tree.SaveRead
import Verif.Proof.Text
import Verif.Proof.CompText
import Verif.Lex.Keywords
import Verif.Vstr.Props

/-!
# C51, C52 for a source that READ accepted
-/
namespace MM.Trace
open MM.Veri MM.Pars MM.Spec MM.Proof MM.Lex MM.Vstr

variable {src : List Src} {s : PState} {look : Look}

/-- The database after READ: `W p` is the size of the work arrays, `text p` the source from the proof section of `p` on, `textLen p` the length of the section. -/
def srcDb (M : MM.Match.MEnv) (W : Nat → Nat) (text : Nat → List Char) (textLen : Nat → Nat) : TDb where
  n := M.n
  kind := fun i => (M.stmt i).kind
  label := M.lab
  parse := fun p => parseProofText M.toEnv (W p) p (text p) (textLen p)
  ess := MM.Tree.essential M.toEnv
  menv := M
  text := text
  textLen := textLen

variable {M : MM.Match.MEnv} {W : Nat → Nat} {text : Nat → List Char} {textLen : Nat → Nat}

/-- After READ a trace runs on a sane database, provided `parseProof` ends normally for every proof (C39, C40, C20). -/
theorem C51_sane_after_read (h : Accepted src s) (hl : LookOk look) (hM : M.toEnv = envOf look src s)
    (hpar : ∀ p, 1 ≤ p → p ≤ src.length → kindAt (kinds src) p = .p → ∃ r, parseProofText M.toEnv (W p) p (text p) (textLen p) = .val r) (ess : Bool) :
    Sane (srcDb M W text textLen) ess := by
  refine ⟨fun p h1 h2 hk => ?_, fun _ => ?_⟩
  · have hk' : kindAt (kinds src) p = .p := by
      have : (M.toEnv.stmt p).kind = .p := hk
      rw [hM, kind_env h] at this; exact this
    have hn : (srcDb M W text textLen).n = src.length := by
      show M.toEnv.n = _
      rw [hM]; rfl
    obtain ⟨r, hr⟩ := hpar p h1 (by omega) hk'
    refine ⟨r, hr, fun hret => ?_⟩
    rw [hM] at hr
    obtain ⟨hok, _⟩ := parseProofText_ok (E := envOf look src s) hl (hypKinds_of_parse h hk') hr
    obtain ⟨l1, l2, l3, _⟩ := hok (by omega)
    have hstep : ∀ x ∈ r.proof, 0 ≤ x → 1 ≤ x.toNat ∧ x.toNat < p ∧ MM.Tree.StepOk (envOf look src s) x := by
      intro x hx h0
      rcases l1 x hx h0 with ⟨a, b⟩ | ⟨a, b⟩
      · obtain ⟨c1, c2, c3⟩ := (hypsOk_of (look := look) h hk').mem _ a
        refine ⟨c1, c2, Or.inr (Or.inr ⟨by omega, ?_, ?_⟩)⟩
        · show x ≤ (src.length : Int); omega
        · rcases c3 with c | c
          · exact Or.inr (Or.inl c)
          · exact Or.inl c
      · have b' := b
        rw [kind_env h] at b'
        have hpos := kindAt_pos (ks := kinds src) (i := x.toNat) (by rcases b' with e | e <;> rw [e] <;> simp)
        refine ⟨hpos.1, a, Or.inr (Or.inr ⟨by omega, ?_, ?_⟩)⟩
        · show x ≤ (src.length : Int); omega
        · exact Or.inr (Or.inr b)
    refine ⟨fun x hx h0 => ⟨(hstep x hx h0).1, (hstep x hx h0).2.1⟩, fun _ => ?_⟩
    have hall : ∀ x ∈ r.proof, MM.Tree.StepOk (envOf look src s) x := by
      intro x hx
      by_cases h0 : 0 ≤ x
      · exact (hstep x hx h0).2.2
      · have key : ∀ {l : List Int} {n : Nat}, Depth (envOf look src s).toDb l n → ∀ y ∈ l, y < 0 → y = unk ∨ y ≤ -1000 := by
          intro l n hd
          induction hd with
          | nil => intro y hy; cases hy
          | push _ ha ih =>
            intro y hy hneg
            rcases List.mem_append.1 hy with hy | hy
            · exact ih y hy hneg
            · simp at hy; subst hy
              rcases ha with ha | ha | ha
              · exact Or.inl ha
              · exact Or.inr ha
              · omega
          | use _ ha _ _ ih =>
            intro y hy hneg
            rcases List.mem_append.1 hy with hy | hy
            · exact ih y hy hneg
            · simp at hy; subst hy; omega
        rcases key l3 x hx (by omega) with e | e
        · exact Or.inl e
        · exact Or.inr (Or.inl e)
    obtain ⟨f, f1, f2, f3⟩ := MM.Tree.forest_of_depth l3 hall
    cases f with
    | nil => cases f3
    | snoc l x ch =>
      cases l with
      | snoc l' x' ch' => simp [MM.Tree.Forest.count] at f3
      | nil =>
        obtain ⟨out, o1, o2, _⟩ := MM.Tree.C34_essential_iff (E := envOf look src s) (t := x) (f := ch) (MM.Tree.hypsIn_of h) f1
        refine ⟨out, ?_, ?_⟩
        · show MM.Tree.essential M.toEnv r.proof = _
          rw [hM, ← f2]; exact o1
        · rw [← f2]; exact o2
  · show MM.Tree.essential M.toEnv [-63] = _
    rfl

/-! ### Every step that refers to a statement shows its label in the text -/

theorem lscan_toks {E : Env} {p : Nat} : ∀ {toks : List Name} {prev : Name} {st st' : LScan} {all : List Name}, lscan E p prev toks st = .val st' →
    (∀ t ∈ toks, t ∈ all) → (∀ x ∈ st.steps, x.1 ∈ all) → (∀ e ∈ st.tbl, 0 ≤ e.2 → e ∈ hypTable E p) →
    (∀ x ∈ st'.steps, x.1 ∈ all) ∧ (∀ e ∈ st'.tbl, 0 ≤ e.2 → e ∈ hypTable E p)
  | [], _, _, _, _, h, _, h2, h3 => by cases h; exact ⟨h2, h3⟩
  | t :: ts, prev, st, st', all, h, h1, h2, h3 => by
    unfold lscan at h
    cases hs : lscanTok E p prev t st <;> rw [hs] at h
    · rename_i st1
      have hst : (∀ x ∈ st1.steps, x.1 ∈ all) ∧ (∀ e ∈ st1.tbl, 0 ≤ e.2 → e ∈ hypTable E p) := by
        unfold lscanTok at hs
        by_cases hn : st.num < 0
        · rw [if_pos hn] at hs; cases hs
        · rw [if_neg hn] at hs
          have hadd : ∀ x ∈ st.steps ++ [(t, st.lflag)], x.1 ∈ all := by
            intro x hx
            rcases List.mem_append.1 hx with hx | hx
            · exact h2 x hx
            · simp at hx; subst hx; exact h1 t (by simp)
          dsimp only at hs
          by_cases hc : t.head? ≠ some ':'
          · rw [if_pos hc] at hs
            cases hs
            exact ⟨hadd, h3⟩
          · rw [if_neg hc] at hs
            cases hs
            refine ⟨fun x hx => hadd x (List.mem_of_mem_take hx), ?_⟩
            dsimp only
            intro e he h0
            split at he
            · exact h3 e he h0
            · rcases List.mem_append.1 he with he | he
              · exact h3 e he h0
              · simp at he; subst he; dsimp only at h0; omega
      exact lscan_toks h (fun x hx => h1 x (by simp [hx])) hst.1 hst.2
    all_goals cases h

theorem walk_toks {E : Env} {p : Nat} {tbl : List (Name × Int)} {all : List Name} (hlook : LookOk E.look)
    (htbl : ∀ e ∈ tbl, 0 ≤ e.2 → e ∈ hypTable E p) : ∀ {xs : List (Name × Bool)} {w w' : Walk}, walk E p tbl xs w = .val w' →
    (∀ x ∈ xs, x.1 ∈ all) → (∀ y ∈ w.proof, 0 ≤ y → E.lab y.toNat ∈ all) → ∀ y ∈ w'.proof, 0 ≤ y → E.lab y.toNat ∈ all
  | [], _, _, h, _, h2 => by cases h; exact h2
  | x :: xs, w, w', h, h1, h2 => by
    unfold walk at h
    cases hs : walkTok E p tbl x w <;> rw [hs] at h
    · rename_i w1
      have hx := h1 x (by simp)
      have key : ∃ a, w1.proof = w.proof ++ [a] ∧ (0 ≤ a → E.lab a.toNat ∈ all) := by
        unfold walkTok at hs
        by_cases hq : x.1.head? = some '?'
        · rw [if_pos hq] at hs; cases hs; exact ⟨unk, rfl, by intro h; simp [unk] at h⟩
        · rw [if_neg hq] at hs
          cases hl : E.look tbl x.1 with
          | some j =>
            rw [hl] at hs
            dsimp only at hs
            by_cases hj : j < 0
            · rw [if_pos hj] at hs
              by_cases hi : -1000 - j < 0
              · rw [if_pos hi] at hs; cases hs
              · rw [if_neg hi] at hs
                cases hs
                refine ⟨_, rfl, ?_⟩
                split
                · intro h; simp [unk] at h
                · intro h; omega
            · rw [if_neg hj] at hs
              by_cases hz : j = 0
              · rw [if_pos hz] at hs; cases hs
              · rw [if_neg hz] at hs
                cases hs
                refine ⟨_, rfl, fun _ => ?_⟩
                have := htbl _ ((hlook tbl x.1).1 j hl) (by dsimp only; omega)
                unfold hypTable at this
                obtain ⟨i, _, hi⟩ := List.mem_map.1 this
                have e1 : E.lab i = x.1 := congrArg Prod.fst hi
                have e2 : (i : Int) = j := congrArg Prod.snd hi
                rw [← e2, Int.toNat_natCast, e1]; exact hx
          | none =>
            rw [hl] at hs
            dsimp only at hs
            cases hk : E.look (labelKeys E) x.1 with
            | none => rw [hk] at hs; cases hs; exact ⟨unk, rfl, by intro h; simp [unk] at h⟩
            | some j =>
              rw [hk] at hs
              dsimp only at hs
              obtain ⟨i, rfl, _, _, hlab⟩ := mem_labelKeys ((hlook _ x.1).1 j hk)
              by_cases hkk : (E.stmt (i : Int).toNat).kind ≠ .a ∧ (E.stmt (i : Int).toNat).kind ≠ .p
              · rw [if_pos hkk] at hs; cases hs
              · rw [if_neg hkk] at hs
                by_cases hsp : w.sp < (E.stmt (i : Int).toNat).reqHyp.length
                · rw [if_pos hsp] at hs; cases hs; exact ⟨unk, rfl, by intro h; simp [unk] at h⟩
                · rw [if_neg hsp] at hs; cases hs
                  refine ⟨_, rfl, fun _ => ?_⟩
                  rw [Int.toNat_natCast, hlab]; exact hx
      obtain ⟨a, ha, hb⟩ := key
      refine walk_toks hlook htbl (xs := xs) h (fun y hy => h1 y (by simp [hy])) ?_
      rw [ha]
      intro y hy h0
      rcases List.mem_append.1 hy with hy | hy
      · exact h2 y hy h0
      · simp at hy; subst hy; exact hb h0
    all_goals cases h

/-- The tokens that `fixTokens` makes of the tokens are those or `?`. -/
theorem fixTokens_mem {toks : List Name} : ∀ t ∈ (fixTokens toks).1, t ∈ ['?'] :: toks := by
  intro t ht
  cases toks with
  | nil => exact ht
  | cons a ts =>
    have key : ∀ L : List Name × Nat × Nat, (∀ t ∈ L.1, t ∈ ['?'] :: a :: ts) → ∀ t ∈ (match L.1.getLast? with
        | some l => if l.head? = some ':' then (L.1.dropLast, max L.2.1 2, L.2.2 + 1) else L
        | none => L : List Name × Nat × Nat).1, t ∈ ['?'] :: a :: ts := by
      intro L hL t ht
      split at ht
      · split at ht
        · exact hL t (List.dropLast_subset _ ht)
        · exact hL t ht
      · exact hL t ht
    by_cases ha : a.head? = some ':'
    · refine key (['?'] :: ts, 2, 1) (by intro t ht; simp at ht ⊢; rcases ht with h | h <;> simp [h]) t ?_
      have : fixTokens (a :: ts) = (match (['?'] :: ts : List Name).getLast? with
        | some l => if l.head? = some ':' then ((['?'] :: ts).dropLast, max 2 2, 1 + 1) else (['?'] :: ts, 2, 1)
        | none => (['?'] :: ts, 2, 1)) := by
        unfold fixTokens
        simp only [List.isEmpty_cons, Bool.false_eq_true, if_false, if_pos ha]
        rfl
      rw [this] at ht; exact ht
    · refine key (a :: ts, 0, 0) (by intro t ht; exact List.mem_cons_of_mem _ ht) t ?_
      have : fixTokens (a :: ts) = (match (a :: ts : List Name).getLast? with
        | some l => if l.head? = some ':' then ((a :: ts).dropLast, max 0 2, 0 + 1) else (a :: ts, 0, 0)
        | none => (a :: ts, 0, 0)) := by
        unfold fixTokens
        simp only [List.isEmpty_cons, Bool.false_eq_true, if_false, if_neg ha]
        rfl
      rw [this] at ht; exact ht

/-- Normal proof: the label of a statement referred to is a token. -/
theorem parseProof_tok {E : Env} {p : Nat} {toks : List Name} {r : Parsed} (hlook : LookOk E.look) (h : parseProof E p toks = .val r) :
    ∀ y ∈ r.proof, 0 ≤ y → E.lab y.toNat ∈ ['?'] :: toks := by
  unfold parseProof at h
  dsimp only at h
  cases hs : lscan E p [] (fixTokens toks).1 { tbl := hypTable E p, ret := (fixTokens toks).2.1, ec := (fixTokens toks).2.2 } <;> rw [hs] at h
  · rename_i st
    rw [Out.bind_val] at h
    obtain ⟨g1, g2⟩ := lscan_toks (all := ['?'] :: toks) hs fixTokens_mem (by simp) (by intro e he _; exact he)
    by_cases hn : st.num < 0
    · rw [if_pos hn] at h; cases h
    rw [if_neg hn] at h
    generalize hdu : (decide (st.tbl.length > (hypTable E p).length) && dupUb st.tbl) = du at h
    by_cases hd : du = true
    · rw [if_pos hd] at h; cases h
    rw [if_neg hd] at h
    generalize (if (decide (st.tbl.length > (hypTable E p).length)) = true then dupCount st.tbl else 0) = d at h
    have hw0 : ∀ y ∈ (⟨[], 0, if d > 0 then max st.ret 2 else st.ret, st.ec + d⟩ : Walk).proof, 0 ≤ y → E.lab y.toNat ∈ ['?'] :: toks := by simp
    generalize (⟨[], 0, if d > 0 then max st.ret 2 else st.ret, st.ec + d⟩ : Walk) = w0 at h hw0
    cases hw : walk E p st.tbl st.steps w0 <;> rw [hw] at h
    · rename_i w
      rw [Out.bind_val] at h
      have key : w.proof = r.proof := by
        by_cases h1 : w.sp ≠ 1
        · rw [if_pos h1] at h
          split at h
          · cases h
          · cases h; rfl
        · rw [if_neg h1] at h; cases h; rfl
      rw [← key]
      exact walk_toks hlook g2 hw g1 hw0
    all_goals cases h
  all_goals cases h

/-! ### Compressed proofs -/

/-- What may be referred to: the steps and the label map hold only statements with `Q`. -/
def MapIn (Q : Nat → Prop) (s : CState) : Prop := (∀ x ∈ s.proof, 0 ≤ x → Q x.toNat) ∧ (∀ m ∈ s.map, 0 ≤ m → Q m.toNat)

theorem MapIn.congr {Q : Nat → Prop} {s s' : CState} (h : MapIn Q s) (h1 : s'.proof = s.proof) (h2 : s'.map = s.map) : MapIn Q s' := by
  unfold MapIn; rw [h1, h2]; exact h

theorem MapIn.push {Q : Nat → Prop} {s s' : CState} (h : MapIn Q s) {m : Int} (hm : m ∈ s.map) (h1 : s'.proof = s.proof ++ [m]) (h2 : s'.map = s.map) : MapIn Q s' := by
  refine ⟨?_, by rw [h2]; exact h.2⟩
  rw [h1]
  intro x hx h0
  rcases List.mem_append.1 hx with hx | hx
  · exact h.1 x hx h0
  · simp at hx; subst hx; exact h.2 x hm h0

theorem expected_mapIn {Q : Nat → Prop} {s : CState} (h : MapIn Q s) : MapIn Q (expected s) := by
  unfold expected
  split
  · exact h
  · exact h.congr rfl rfl

theorem letter_mapIn {Q : Nat → Prop} {E : Env} {W w : Nat} : ∀ {n : Nat} {s s' : CState}, MapIn Q s → letter E W w n s = .val s' → MapIn Q s'
  | 0, _, _, _, h => by cases h
  | n + 1, s, s', hI, h => by
    unfold letter at h
    by_cases h1 : s.proof.length ≥ W
    · rw [if_pos h1] at h; cases h
    rw [if_neg h1] at h
    by_cases h2 : s.idx * 20 + w ≥ longMax
    · rw [if_pos h2] at h; cases h
    rw [if_neg h2] at h
    dsimp only at h
    generalize (if (decide (s.idx * 20 + w ≥ s.map.length)) = true then 0 else s.idx * 20 + w) = i at h
    generalize (if (decide (s.idx * 20 + w ≥ s.map.length)) = true then max s.ret 2 else s.ret) = rt at h
    generalize (s.ec + if (decide (s.idx * 20 + w ≥ s.map.length)) = true then 1 else 0) = ec at h
    cases hm : s.map[i]? with
    | none => rw [hm] at h; cases h
    | some st =>
      rw [hm] at h
      dsimp only at h
      have hmem := List.mem_of_getElem? hm
      by_cases h3 : isPush E st = true
      · rw [if_pos h3] at h
        split at h
        · cases h
        · cases h; exact hI.push hmem rfl rfl
      · rw [if_neg h3] at h
        by_cases h4 : s.sp < (E.stmt st.toNat).reqHyp.length
        · rw [if_pos h4] at h
          split at h
          · cases h
          · refine letter_mapIn (n := n) ?_ h; exact hI.congr rfl rfl
        · rw [if_neg h4] at h
          split at h
          · cases h
          · cases h; exact hI.push hmem rfl rfl

theorem cchar_mapIn {Q : Nat → Prop} {E : Env} {W : Nat} {bg : Bool} {c : Char} {s s' : CState} (hI : MapIn Q s) (h : cchar E W bg c s = .val s') : MapIn Q s' := by
  unfold cchar at h
  split at h
  · cases h
  split at h
  · exact letter_mapIn hI h
  split at h
  · unfold digit at h
    split at h
    · cases h; exact hI.congr rfl rfl
    · split at h
      · cases h
      · cases h; exact hI.congr rfl rfl
  split at h
  · unfold zed at h
    dsimp only at h
    have hE := expected_mapIn hI
    generalize expected s = s0 at h hE
    have hadd : ∀ m ∈ s0.map ++ [-1000 - ((s0.proof.length : Int) - 1)], 0 ≤ m → Q m.toNat := by
      intro m hm h0
      rcases List.mem_append.1 hm with hm | hm
      · exact hE.2 m hm h0
      · simp at hm; omega
    split at h
    · cases h
    · split at h
      · cases h; exact ⟨hE.1, hadd⟩
      · cases h; exact ⟨hE.1, hadd⟩
  split at h
  · cases h; exact hI
  split at h
  · unfold quest at h
    dsimp only at h
    have hE := expected_mapIn hI
    generalize expected s = s0 at h hE
    split at h
    · cases h
    · cases h
      refine ⟨?_, hE.2⟩
      intro x hx h0
      rcases List.mem_append.1 hx with hx | hx
      · exact hE.1 x hx h0
      · simp [unk] at hx; omega
  · cases h; exact hI.congr rfl rfl

theorem cloop_mapIn {Q : Nat → Prop} {E : Env} {W : Nat} {bg : Bool} : ∀ {n : Nat} {l : List Char} {s s' : CState}, MapIn Q s →
    cloop E W bg n l s = .val s' → MapIn Q s'
  | 0, _, _, _, _, h => by cases h
  | _ + 1, [], _, _, _, h => by cases h
  | n + 1, c :: r, s, s', hI, h => by
    unfold cloop at h
    by_cases h1 : c = '$'
    · rw [if_pos h1] at h
      split at h
      · cases h; exact hI
      split at h
      · cases hs : skipWs .ws (c :: r) <;> rw [hs] at h
        · exact cloop_mapIn hI h
        all_goals cases h
      · refine cloop_mapIn ?_ h; exact hI.congr rfl rfl
    · rw [if_neg h1] at h
      cases hs : cchar E W bg c s <;> rw [hs] at h
      · exact cloop_mapIn (cchar_mapIn hI hs) h
      all_goals cases h

theorem clabels_toks {E : Env} {p : Nat} (hlook : LookOk E.look) : ∀ {toks : List Name} {x : List Int × Nat × Nat}, clabels E p toks = .val x →
    ∀ m ∈ x.1, 0 ≤ m → E.lab m.toNat ∈ toks
  | [], _, h => by cases h; intro m hm; cases hm
  | t :: ts, x, h => by
    unfold clabels at h
    cases h1 : clabel E p t <;> rw [h1] at h
    · rename_i y
      rw [Out.bind_val] at h
      cases h2 : clabels E p ts <;> rw [h2] at h
      · rename_i z
        rw [Out.bind_val] at h
        cases h
        intro m hm h0
        rcases List.mem_cons.1 hm with rfl | hm
        · refine List.mem_cons.2 (Or.inl ?_)
          unfold clabel at h1
          cases hl : E.look (hypTableC E p) t with
          | some j =>
            rw [hl] at h1
            dsimp only at h1
            have hmem := (hlook _ t).1 j hl
            rcases mem_hypTableC hmem with ⟨i, _, hi, rfl⟩ | ⟨i, _, hi, rfl⟩
            · have hnn : ¬ ((i : Int) < 0) := by omega
              simp only [if_neg hnn] at h1
              split at h1
              · cases h1
              · cases h1; rw [Int.toNat_natCast]; exact hi
            · by_cases hneg : -1000 - (i : Int) < 0
              · simp only [if_pos hneg, show (-1000 - (-1000 - (i : Int))) = (i : Int) by omega] at h1
                split at h1
                · cases h1
                · cases h1; rw [Int.toNat_natCast]; exact hi
              · omega
          | none =>
            rw [hl] at h1
            dsimp only at h1
            cases hk : E.look (labelKeys E) t with
            | none => rw [hk] at h1; cases h1; simp [unk] at h0
            | some j =>
              rw [hk] at h1
              dsimp only at h1
              obtain ⟨i, rfl, _, _, hlab⟩ := mem_labelKeys ((hlook _ t).1 j hk)
              split at h1
              · cases h1
              · cases h1; rw [Int.toNat_natCast]; exact hlab
        · exact List.mem_cons_of_mem _ (clabels_toks hlook h2 m hm h0)
      all_goals cases h
    all_goals cases h

/-- Compressed proof: a statement referred to is a mandatory hypothesis or its label is in the list in parentheses. -/
theorem parseCompressed_tok {E : Env} {W p : Nat} {sec : List Char} {secLen : Nat} {r : Parsed} (hlook : LookOk E.look)
    (h : parseCompressed E W p sec secLen = .val r) :
    ∃ q L, skipWs .ws sec = .val q ∧ q.head? = some '(' ∧ labelList (sec.length + 1) (q.drop 1) = .val L ∧
      ∀ y ∈ r.proof, 0 ≤ y → y.toNat ∈ (E.stmt p).reqHyp ∨ E.lab y.toNat ∈ L.toks := by
  unfold parseCompressed at h
  cases hq : skipWs .ws sec <;> rw [hq] at h
  · rename_i q
    rw [Out.bind_val] at h
    by_cases h1 : q.head? ≠ some '('
    · rw [if_pos h1] at h; cases h
    rw [if_neg h1] at h
    cases hL : labelList (sec.length + 1) (q.drop 1) <;> rw [hL] at h
    · rename_i L
      rw [Out.bind_val] at h
      split at h
      · cases h
      cases hx : clabels E p L.toks <;> rw [hx] at h
      · rename_i x
        rw [Out.bind_val] at h
        generalize hs0 : ({ map := (E.stmt p).reqHyp.map (fun (i : Nat) => (i : Int)) ++ x.1
                            ret := if L.missing then max 3 x.2.1 else x.2.1
                            ec := x.2.2 + if L.missing then 1 else 0 } : CState) = s0 at h
        have h0 : MapIn (fun y => y ∈ (E.stmt p).reqHyp ∨ E.lab y ∈ L.toks) s0 := by
          subst hs0
          refine ⟨fun y hy => by simp at hy, ?_⟩
          intro m hm h0
          rcases List.mem_append.1 hm with hm | hm
          · obtain ⟨i, hi, rfl⟩ := List.mem_map.1 hm
            left; simpa using hi
          · right; exact clabels_toks hlook hx m hm h0
        cases hc : cloop E W (bggy (bggyText sec secLen L)) (sec.length + 1) L.rest s0 <;> rw [hc] at h
        · rename_i s1
          rw [Out.bind_val] at h
          have h3 := expected_mapIn (cloop_mapIn h0 hc)
          refine ⟨q, L, rfl, by simpa using h1, hL, ?_⟩
          unfold cfinish at h
          dsimp only at h
          generalize expected s1 = s2 at h h3
          split at h
          · split at h
            · cases h
            · cases h
              intro y hy h0; simp [unk] at hy; omega
          · split at h
            · cases h
            · cases h; exact h3.1
        all_goals cases h
      all_goals cases h
    all_goals cases h
  all_goals cases h

end MM.Trace
