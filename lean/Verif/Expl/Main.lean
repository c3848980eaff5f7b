import Verif.Expl.Scan
import Verif.Tree.Verdict
/-!
# C68: the `/EXPLICIT` format
-/
namespace MM.Expl
open MM.Veri MM.Pars MM.Proof MM.Data MM.Tree MM.Pfas MM.Spec

variable {E : Env} {p : Nat}

/-- A local label is declared. -/
def Locals (E : Env) (p : Nat) (s : LScan) : Bool := decide (s.tbl.length > (hypTable E p).length)

theorem fix_plain {xs : List XItem} (h : XForm xs) (hne : xs ≠ []) : fixTokens (text (xs.map XItem.item)) = (text (xs.map XItem.item), 0, 0) := by
  apply fixTokens_id
  · cases xs with
    | nil => exact absurd rfl hne
    | cons x xs => rw [List.map_cons, text_cons]; simp
  · intro t ht
    cases xs with
    | nil => exact absurd rfl hne
    | cons x xs =>
      have hx := h x (by simp)
      rw [List.map_cons, text_cons] at ht
      cases hl : x.item.labels with
      | nil => rw [hl] at ht; cases ht; exact hx.2.2.1
      | cons l ls => rw [hl] at ht; cases ht; exact (hx.1 t (by rw [hl]; simp)).1
  · intro t ht
    obtain ⟨ys, y, rfl⟩ := List.eq_nil_or_concat' xs |>.resolve_left hne
    rw [List.map_append, text_append] at ht
    have hy := h y (by simp)
    have : text ([y].map XItem.item) = declText y.item.labels ++ [y.item.tok] := by simp [text]
    rw [this, ← List.append_assoc, List.getLast?_append] at ht
    simp at ht
    rw [← ht]; exact hy.2.2.1

theorem fix_explicit {xs : List XItem} (h : XForm xs) (hne : xs ≠ []) : fixTokens (xtext xs) = (xtext xs, 0, 0) := by
  obtain ⟨t, u, v, r, e1, e2⟩ := head_ord h hne
  apply fixTokens_id
  · rw [e1]; simp
  · intro t' ht'
    rw [e1] at ht'
    cases ht'
    exact e2.1
  · intro t ht
    obtain ⟨ys, y, rfl⟩ := List.eq_nil_or_concat' xs |>.resolve_left hne
    have hy := h y (by simp)
    have : xtext (ys ++ [y]) = (xtext ys ++ declText y.item.labels ++ [y.tgt, ['=']]) ++ [y.item.tok] := by simp [xtext]
    rw [this, List.getLast?_append] at ht
    simp at ht
    rw [← ht]; exact hy.2.2.1

/-- Both parsings, after the scan of the tokens. -/
theorem parse_both {xs : List XItem} (h : XForm xs) (hne : xs ≠ []) : ∃ s : LScan, s.num = (xs.length : Nat) ∧
    lscan E p [] (text (xs.map XItem.item)) { tbl := hypTable E p, ret := 0, ec := 0 } = .val s ∧
    (parseProof E p (text (xs.map XItem.item)) = if (Locals E p s && dupUb s.tbl) = true then .ub else
      walk E p s.tbl s.steps ⟨[], 0, if (if Locals E p s = true then dupCount s.tbl else 0) > 0 then max s.ret 2 else s.ret, s.ec + if Locals E p s = true then dupCount s.tbl else 0⟩ >>= fun w =>
        if w.sp ≠ 1 then if s.steps.isEmpty then .ub else .val ⟨w.proof, max w.ret 3, w.ec + 1⟩ else .val ⟨w.proof, w.ret, w.ec⟩) ∧
    ∀ fuel, parseProofX E p fuel (xtext xs) = if (Locals E p s && dupUb s.tbl) = true then .ub else
      walkX E p s.tbl true ((xs.map XItem.tgt).map some) s.steps
          ⟨⟨[], 0, if (if Locals E p s = true then dupCount s.tbl else 0) > 0 then max s.ret 2 else s.ret, s.ec + if Locals E p s = true then dupCount s.tbl else 0⟩, [], (List.range xs.length).map Int.ofNat⟩ >>= fun w =>
        if w.sp ≠ 1 then if s.steps.isEmpty then .ub else finish E fuel true xs.length w (max w.ret 3) (w.ec + 1) else finish E fuel true xs.length w w.ret w.ec := by
  obtain ⟨s, h1, h2, h3⟩ := scan_ok (E := E) (p := p) xs (s := { tbl := hypTable E p, ret := 0, ec := 0 }) (idx := []) (i := 0) (b := false) h rfl
  rw [List.length_nil, Nat.zero_add] at h1
  refine ⟨s, h1, h2 [], ?_, ?_⟩
  · unfold parseProof
    rw [fix_plain h hne]
    dsimp only
    rw [h2 [], Out.bind_val, if_neg (by omega)]
    rfl
  · intro fuel
    unfold parseProofX
    rw [fix_explicit h hne]
    dsimp only
    have hex : (false || !xs.isEmpty) = true := by cases xs with
      | nil => exact absurd rfl hne
      | cons => rfl
    have hlit : (((xtext xs).headD []).head? == some ':') = false := by
      obtain ⟨t, u, v, r, e1, e2⟩ := head_ord h hne
      rw [e1, List.headD_cons]
      have := e2.1
      cases hh : t.head? with
      | none => rfl
      | some c =>
        rw [hh] at this
        have : c ≠ ':' := fun hc => this (by rw [hc])
        simp [this]
    rw [h3 [], Out.bind_val, hex, hlit]
    dsimp only
    have hn : s.num.toNat = xs.length := by omega
    have hcol := collect_ok (num := xs.length) (r := s.ret) (e := s.ec) xs (pre := []) (tg := []) (i := 0) h rfl (by simp)
    rw [List.nil_append, List.nil_append] at hcol
    have ht : targets false xs.length (poss 0 xs) (xtext xs) s.ret s.ec = ((xs.map XItem.tgt).map some, s.ret, s.ec) := by
      unfold targets
      rw [hcol]
      dsimp only
      rw [if_neg (by simp), List.map_map]; rfl
    rw [if_neg (by omega), if_pos rfl, hn, List.nil_append, ht]
    rfl

theorem tblOk_of {locs : List (Name × Int)} (hlook : LookOk E.look) (hH : HypsOk E p) (hl : ∀ e ∈ locs, ∃ k : Nat, e.2 = -1000 - (k : Int)) : TblOk E (hypTable E p ++ locs) := by
  intro nm j hj
  have := (hlook _ _).1 j hj
  rcases List.mem_append.1 this with h | h
  · right
    obtain ⟨i, h1, h2, h3⟩ := mem_hypTable.1 h
    obtain ⟨h4, h5, h6⟩ := hH.mem i h1
    have := hH.range
    refine ⟨by omega, by omega, ?_⟩
    rw [← h3, Int.toNat_natCast]
    exact h6.symm
  · left
    obtain ⟨k, hk⟩ := hl _ h
    dsimp only at hk
    omega

theorem hypKinds_of (hH : HypsOk E p) : HypKinds E.toDb p := fun j hj => ⟨(hH.mem j hj).1, (hH.mem j hj).2.2⟩

theorem walk_len {tbl : List (Name × Int)} : ∀ {xs : List (Name × Bool)} {w w' : Walk}, walk E p tbl xs w = .val w' → w'.proof.length = w.proof.length + xs.length
  | [], _, _, h => by cases h; rfl
  | x :: xs, w, w', h => by
    unfold walk at h
    obtain ⟨u, h1, h⟩ := bind_val_inv h
    rw [walk_len h, walkTok_len h1, List.length_cons]; omega

/-- The steps and the end of the parsing, after any scan without errors. -/
theorem core_ok (hlook : LookOk E.look) (hL : HypLabels E) (hH : HypsOk E p) {s : LScan} {prev : Name} (hI : LInv E p prev s) {T : List Name} (hT : T.length = s.steps.length) {r0 e0 : Nat} :
    (∀ X', walkX E p s.tbl true (T.map some) s.steps ⟨⟨[], 0, r0, e0⟩, [], (List.range T.length).map Int.ofNat⟩ = .val X' → X'.ret < 2 → X'.sp = 1 →
      ∃ w l, walk E p s.tbl s.steps ⟨[], 0, r0, e0⟩ = .val ⟨w, 1, X'.ret, X'.ec⟩ ∧ w.length = T.length ∧ Explicit E (T.zip w) l ∧ (unk ∈ w → 1 ≤ X'.ret) ∧
        ∃ F P, Final E p w P l ∧ ∀ fuel r e, F ≤ fuel → finish E fuel true T.length X' r e = .val ⟨P, r, e⟩) ∧
    (∀ u l, walk E p s.tbl s.steps ⟨[], 0, r0, e0⟩ = .val u → u.ret < 2 → u.sp = 1 → Explicit E (T.zip u.proof) l →
      ∃ X', walkX E p s.tbl true (T.map some) s.steps ⟨⟨[], 0, r0, e0⟩, [], (List.range T.length).map Int.ofNat⟩ = .val X' ∧ X'.sp = 1 ∧ X'.ret = u.ret ∧ X'.ec = u.ec ∧
        ∃ F P, Final E p u.proof P l ∧ ∀ fuel r e, F ≤ fuel → finish E fuel true T.length X' r e = .val ⟨P, r, e⟩) := by
  obtain ⟨locs, e1, e2⟩ := hI.tbl
  have ht : TblOk E (hypTable E p ++ locs) := tblOk_of hlook hH (fun e he => by obtain ⟨k, e3, _⟩ := e2 e he; exact ⟨k, e3⟩)
  have hloc : ∀ e ∈ locs, ∃ k : Nat, e.2 = -1000 - (k : Int) ∧ ∀ q, k = ([] : List Int).length + q → ∀ y, s.steps[q]? = some y → y.2 = true := by
    intro e he
    obtain ⟨k, hk1, hk2⟩ := e2 e he
    refine ⟨k, hk1, fun q hq y hy => ?_⟩
    simp only [List.length_nil, Nat.zero_add] at hq
    subst hq
    rcases hk2 with ⟨t, hk2⟩ | ⟨hk2, _⟩
    · rw [hk2] at hy; cases hy; rfl
    · rw [List.getElem?_eq_none (by omega)] at hy; cases hy
  have hlast : ∀ e ∈ locs, ∃ k : Nat, e.2 = -1000 - (k : Int) ∧ ((∃ t, s.steps[k]? = some (t, true)) ∨ k = s.steps.length) := by
    intro e he
    obtain ⟨k, hk1, hk2⟩ := e2 e he
    refine ⟨k, hk1, ?_⟩
    rcases hk2 with hk2 | ⟨hk3, _⟩
    · exact Or.inl hk2
    · exact Or.inr hk3
  have hW0 : WInv E p ⟨[], 0, r0, e0⟩ := ⟨by intro ps hps; simp at hps, trivial, .nil, by simp⟩
  have hN0 : WN [] (⟨[], 0, r0, e0⟩ : Walk) := ⟨rfl, by intro y hy; simp at hy, by intro k t y hk; simp at hk⟩
  rw [e1]
  have hfacts : ∀ {u : Walk}, walk E p (hypTable E p ++ locs) s.steps ⟨[], 0, r0, e0⟩ = .val u → u.ret < 2 → NoChain u.proof ∧ LegalRefs E.toDb p u.proof ∧ u.proof.length = T.length := by
    intro u hu hr
    refine ⟨(hN0.run hlook (locs := locs) (by simpa using hlast) hu hr).proof, (hW0.run hlook (hypKinds_of hH) (locs := locs) hloc hu hr).legal, ?_⟩
    have := walk_len hu
    rw [hT]; simpa using this
  constructor
  · intro X' hX hXr hsp
    obtain ⟨w, st', rec', bs', k1, k2, k3⟩ := (walkX_run ht hlook hL (hypKinds_of hH) (xs := s.steps) WI.start (by rw [List.length_nil, Nat.zero_add, hT]) hW0 hloc).1 X' hX hXr
    rw [List.nil_append] at k1 k3
    rw [hsp] at k1
    obtain ⟨n1, n2, n3⟩ := hfacts k1 hXr
    obtain ⟨t, l, F, P, f1, f2, f3⟩ := finish_ok k3 n3 hsp n1 n2
    refine ⟨w, l, k1, n3, ⟨t, rec', ?_⟩, (hW0.run hlook (hypKinds_of hH) (locs := locs) hloc k1 hXr).unkRet, F, P, f2, ?_⟩
    · have : xrun E ((T.drop 0).zip w) ([], []) = some (st', rec') := k2
      rw [List.drop_zero] at this
      rw [this, f1]
    · rw [← n3]; exact f3
  · intro u l hw hret hsp hex
    obtain ⟨t, rec', hxr⟩ := hex
    obtain ⟨w', X', bs', k1, k2, k3, k4, k5, k6⟩ := (walkX_run ht hlook hL (hypKinds_of hH) (xs := s.steps) (T := T) WI.start (by rw [List.length_nil, Nat.zero_add, hT]) hW0 hloc).2 u _ rec' hw hret
      (by rw [List.length_nil, List.drop_zero, List.drop_zero]; exact hxr)
    rw [List.nil_append] at k1 k3
    rw [← k1] at k3
    obtain ⟨n1, n2, n3⟩ := hfacts hw hret
    obtain ⟨t', l', F, P, f1, f2, f3⟩ := finish_ok k3 n3 (by rw [k4, hsp]) n1 n2
    have hll : l = l' := by cases f1; rfl
    subst hll
    exact ⟨X', k2, by rw [k4, hsp], k5, k6, F, P, f2, by rw [← n3]; exact f3⟩

theorem finish_mono {m n num : Nat} {X : XWalk} {a b : Nat} {r : Parsed} (h : finish E m true num X a b = .val r) (hmn : m ≤ n) : finish E n true num X a b = .val r := by
  unfold finish at h ⊢
  rw [if_pos rfl] at h ⊢
  obtain ⟨p1, g1, h⟩ := bind_val_inv h
  obtain ⟨p2, g2, h⟩ := bind_val_inv h
  rw [g1, Out.bind_val, moveLoop_mono g2 hmn, Out.bind_val]
  exact h

theorem finish_flags {fuel num : Nat} {b : Bool} {X : XWalk} {x y : Nat} {r : Parsed} (hf : finish E fuel b num X x y = .val r) : r.ret = x ∧ r.ec = y := by
  unfold finish at hf
  cases b with
  | true =>
    rw [if_pos rfl] at hf
    obtain ⟨p1, _, hf⟩ := bind_val_inv hf
    obtain ⟨p2, _, hf⟩ := bind_val_inv hf
    cases hf
    exact ⟨rfl, rfl⟩
  | false =>
    rw [if_neg (by decide)] at hf
    cases hf
    exact ⟨rfl, rfl⟩

/-- The parsing of an explicit proof, for any environment. -/
theorem explicit_iff (hlook : LookOk E.look) (hL : HypLabels E) (hH : HypsOk E p) {xs : List XItem} (h : XForm xs) (hne : xs ≠ []) :
    (∀ fuel r, parseProofX E p fuel (xtext xs) = .val r → r.ret < 2 → ∃ w l, parseProof E p (text (xs.map XItem.item)) = .val ⟨w, r.ret, r.ec⟩ ∧ w.length = xs.length ∧
      Explicit E ((xs.map XItem.tgt).zip w) l ∧ Final E p w r.proof l) ∧
    (∀ r l, parseProof E p (text (xs.map XItem.item)) = .val r → r.ret < 2 → Explicit E ((xs.map XItem.tgt).zip r.proof) l →
      ∃ F P, Final E p r.proof P l ∧ ∀ fuel, F ≤ fuel → parseProofX E p fuel (xtext xs) = .val ⟨P, r.ret, r.ec⟩) := by
  obtain ⟨s, hn, hs, h1, h2⟩ := parse_both (E := E) (p := p) h hne
  generalize hd : (if Locals E p s = true then dupCount s.tbl else 0) = d at h1 h2
  generalize hr0 : (if d > 0 then max s.ret 2 else s.ret) = r0 at h1 h2
  have hTl : (xs.map XItem.tgt).length = xs.length := List.length_map _
  have hfacts : r0 < 2 → s.steps.length = xs.length ∧ ∃ prev, LInv E p prev s := by
    intro hr
    have hs2 : s.ret < 2 := by rw [← hr0] at hr; split at hr <;> omega
    obtain ⟨prev, hI⟩ := LInv.init.run hs hs2 (Or.inr (Or.inr (by
      have := fix_plain h hne
      intro t ht
      exact fixTokens_head (toks := text (xs.map XItem.item)) (by rw [this]; exact Nat.zero_lt_two) t (by rw [this]; exact ht))))
    exact ⟨by have := hI.num; omega, prev, hI⟩
  constructor
  · intro fuel r hr hret
    rw [h2] at hr
    by_cases hu : (Locals E p s && dupUb s.tbl) = true
    · rw [if_pos hu] at hr; cases hr
    · rw [if_neg hu] at hr
      obtain ⟨X', hX, hr⟩ := bind_val_inv hr
      have hsp : X'.sp = 1 ∧ finish E fuel true xs.length X' X'.ret X'.ec = .val r := by
        by_cases hsp : X'.sp = 1
        · rw [if_neg (by rw [hsp]; simp)] at hr
          exact ⟨hsp, hr⟩
        · rw [if_pos hsp] at hr
          split at hr
          · cases hr
          · have := (finish_flags hr).1
            omega
      obtain ⟨hsp, hr⟩ := hsp
      obtain ⟨he1, he2⟩ := finish_flags hr
      have hXr : X'.ret < 2 := by omega
      obtain ⟨hsl, prev, hI⟩ := hfacts (Nat.lt_of_le_of_lt (walkX_ret hX) hXr)
      rw [← hTl] at hX hr
      obtain ⟨w, l, k1, k2, k3, _, F, P, k4, k5⟩ := (core_ok hlook hL hH hI (T := xs.map XItem.tgt) (by rw [hTl, hsl])).1 X' hX hXr hsp
      refine ⟨w, l, ?_, by rw [k2, hTl], k3, ?_⟩
      · rw [h1, if_neg hu, k1, Out.bind_val, if_neg (by simp), he1, he2]
      · have h4 := k5 (max F fuel) X'.ret X'.ec (Nat.le_max_left ..)
        rw [finish_mono hr (Nat.le_max_right ..)] at h4
        have : r.proof = P := by cases h4; rfl
        rw [this]; exact k4
  · intro r l hr hret hex
    rw [h1] at hr
    by_cases hu : (Locals E p s && dupUb s.tbl) = true
    · rw [if_pos hu] at hr; cases hr
    · rw [if_neg hu] at hr
      obtain ⟨u, hw, hr⟩ := bind_val_inv hr
      have hsp : u.sp = 1 ∧ r = ⟨u.proof, u.ret, u.ec⟩ := by
        by_cases hsp : u.sp = 1
        · rw [if_neg (by rw [hsp]; simp)] at hr
          exact ⟨hsp, by cases hr; rfl⟩
        · rw [if_pos hsp] at hr
          split at hr
          · cases hr
          · cases hr; dsimp only at hret; omega
      obtain ⟨hsp, rfl⟩ := hsp
      dsimp only at hret hex
      obtain ⟨hsl, prev, hI⟩ := hfacts (Nat.lt_of_le_of_lt (walk_ret hw) hret)
      obtain ⟨X', k2, k4, k5, k6, F, P, f2, f3⟩ := (core_ok hlook hL hH hI (T := xs.map XItem.tgt) (by rw [hTl, hsl])).2 u l hw hret hsp hex
      refine ⟨F, P, f2, ?_⟩
      intro fuel hf
      rw [h2, if_neg hu, ← hTl, k2, Out.bind_val, if_neg (by rw [k4]; simp), f3 fuel _ _ hf, k5, k6]

end MM.Expl
