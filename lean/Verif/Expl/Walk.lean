import Verif.Expl.Move
import Mathlib.Data.List.Perm.Subperm
/-!
# The loop over the steps of an explicit proof
-/
namespace MM.Expl
open MM.Veri MM.Pars MM.Proof MM.Data MM.Tree MM.Pfas

variable {E : Env} {p : Nat} {ρ : List (List Int)}

abbrev Bk := List (Nat × Int) × Nat

/-- The steps of some blocks. -/
def cat (bs : List Bk) : List (Nat × Int) := (bs.map Prod.fst).flatten

theorem cat_append (a b : List Bk) : cat (a ++ b) = cat a ++ cat b := by unfold cat; simp
theorem cat_cons (b : Bk) (bs : List Bk) : cat (b :: bs) = b.1 ++ cat bs := by unfold cat; simp
theorem cat_nil : cat [] = [] := rfl

/-- The number of the root of each block is the number of its last place, the first block starting at place `a`. -/
def PosF : Nat → List Bk → Prop
  | _, [] => True
  | a, b :: bs => b.2 + 1 = a + b.1.length ∧ PosF (a + b.1.length) bs

theorem posF_append : ∀ {l r : List Bk} {a : Nat}, PosF a (l ++ r) ↔ PosF a l ∧ PosF (a + (cat l).length) r
  | [], r, a => by simp [PosF, cat]
  | b :: l, r, a => by
    show (_ ∧ PosF _ (l ++ r)) ↔ _
    rw [posF_append (l := l), cat_cons, List.length_append, ← Nat.add_assoc, ← and_assoc]
    rfl

theorem posF_le : ∀ {l : List Bk} {a : Nat}, PosF a l → ∀ b ∈ l, b.2 < a + (cat l).length
  | [], _, _, b, hb => by cases hb
  | c :: l, a, h, b, hb => by
    rw [cat_cons, List.length_append]
    rcases List.mem_cons.1 hb with rfl | hb
    · have := h.1; omega
    · have := posF_le h.2 b hb; omega

def ids (L : List (Nat × Int)) : List Int := (L.map Prod.fst).map Int.ofNat
def codes (L : List (Nat × Int)) : List Int := L.map Prod.snd

theorem ids_append (a b : List (Nat × Int)) : ids (a ++ b) = ids a ++ ids b := by unfold ids; simp
theorem codes_append (a b : List (Nat × Int)) : codes (a ++ b) = codes a ++ codes b := by unfold codes; simp
theorem ids_length (a : List (Nat × Int)) : (ids a).length = a.length := by unfold ids; simp
theorem codes_length (a : List (Nat × Int)) : (codes a).length = a.length := by unfold codes; simp

theorem gather_ok : ∀ {ch : List Bk} {U : List (Nat × Int)} {wrk old r1 r2 : List Int}, (∀ b ∈ ch, Blk E ρ b.1 b.2) → PosF U.length ch →
    wrk = codes (U ++ cat ch) ++ r1 → old = ids (U ++ cat ch) ++ r2 → gather E wrk old (ch.map Prod.snd) = .val (ch.map fun b => ((b.1.length : Int), codes b.1, ids b.1))
  | [], _, _, _, _, _, _, _, _, _ => rfl
  | b :: ch, U, wrk, old, r1, r2, hb, hp, h1, h2 => by
    have hw : wrk = codes U ++ codes b.1 ++ (codes (cat ch) ++ r1) := by rw [h1, cat_cons]; simp [codes_append]
    have ho : old = ids U ++ ids b.1 ++ (ids (cat ch) ++ r2) := by rw [h2, cat_cons]; simp [ids_append]
    have hlen := hp.1
    have hlenI : (b.2 : Int) + 1 = (U.length : Int) + b.1.length := by omega
    have hs := subproofLen_blk (E := E) refMap_id (hb b (List.mem_cons_self ..)) (proof := wrk) (pre := codes U) (post := codes (cat ch) ++ r1) (by rw [hw]; rfl) (k := (b.2 : Int))
      (by rw [codes_length]; omega)
    show (subproofLen E wrk (b.2 : Int) >>= fun len => nmbrSeg wrk ((b.2 : Int) - len + 2) ((b.2 : Int) + 1) >>= fun sub => nmbrSeg old ((b.2 : Int) - len + 2) ((b.2 : Int) + 1) >>= fun nums =>
      gather E wrk old (ch.map Prod.snd) >>= fun r => .val ((len, sub, nums) :: r)) = _
    have h3 : nmbrSeg wrk ((b.2 : Int) - b.1.length + 2) ((b.2 : Int) + 1) = .val (codes b.1) := by
      rw [hw]; exact seg_mid (by rw [codes_length]; omega) (by rw [codes_length, codes_length]; omega)
    have h4 : nmbrSeg old ((b.2 : Int) - b.1.length + 2) ((b.2 : Int) + 1) = .val (ids b.1) := by
      rw [ho]; exact seg_mid (by rw [ids_length]; omega) (by rw [ids_length, ids_length]; omega)
    have h5 := gather_ok (ch := ch) (U := U ++ b.1) (wrk := wrk) (old := old) (r1 := r1) (r2 := r2) (fun c hc => hb c (List.mem_cons_of_mem _ hc)) (by rw [List.length_append]; exact hp.2)
      (by rw [h1, cat_cons, List.append_assoc]) (by rw [h2, cat_cons, List.append_assoc])
    rw [hs, Out.bind_val, h3, Out.bind_val, h4, Out.bind_val, h5, Out.bind_val]
    rfl

theorem findTgt_ok {T : List Name} {rec : List (List Int)} {nm : Name} : ∀ {ch : List Bk} {k : Nat}, (∀ b ∈ ch, b.2 < T.length) →
    (∃ b i, ch[i]? = some b ∧ T.getD b.2 [] = nm ∧ findTgt (T.map some) nm (ch.map Prod.snd) k = .val (some (k + i)) ∧
      pick (ch.map fun b => (T.getD b.2 [], rec.getD b.2 [])) nm = some (rec.getD b.2 [])) ∨
    (findTgt (T.map some) nm (ch.map Prod.snd) k = .val none ∧ pick (ch.map fun b => (T.getD b.2 [], rec.getD b.2 [])) nm = none)
  | [], k, _ => Or.inr ⟨rfl, rfl⟩
  | b :: ch, k, h => by
    have hb : (T.map some)[b.2]? = some (some (T.getD b.2 [])) := by
      rw [List.getElem?_map, List.getElem?_eq_getElem (h b (List.mem_cons_self ..)), List.getD_eq_getElem?_getD, List.getElem?_eq_getElem (h b (List.mem_cons_self ..))]; rfl
    have e1 : findTgt (T.map some) nm ((b :: ch).map Prod.snd) k = if nm = T.getD b.2 [] then .val (some k) else findTgt (T.map some) nm (ch.map Prod.snd) (k + 1) := by
      rw [List.map_cons, findTgt.eq_2, hb]
    by_cases hn : nm = T.getD b.2 []
    · left
      refine ⟨b, 0, rfl, hn.symm, by rw [e1, if_pos hn]; rfl, ?_⟩
      unfold pick
      rw [List.map_cons, List.find?_cons_of_pos (by simp [hn])]
      rfl
    · have e2 : pick ((b :: ch).map fun b => (T.getD b.2 [], rec.getD b.2 [])) nm = pick (ch.map fun b => (T.getD b.2 [], rec.getD b.2 [])) nm := by
        unfold pick
        rw [List.map_cons, List.find?_cons_of_neg (by simp only [beq_iff_eq]; exact fun e => hn e.symm)]
      rcases findTgt_ok (nm := nm) (rec := rec) (ch := ch) (k := k + 1) (fun c hc => h c (List.mem_cons_of_mem _ hc)) with ⟨c, i, h1, h2, h3, h4⟩ | ⟨h1, h2⟩
      · left
        refine ⟨c, i + 1, by simpa using h1, h2, ?_, by rw [e2]; exact h4⟩
        rw [e1, if_neg hn, h3]
        congr 2; omega
      · right
        exact ⟨by rw [e1, if_neg hn]; exact h1, by rw [e2]; exact h2⟩

theorem pickAll_ok {T : List Name} {rec : List (List Int)} {ch : List Bk} (hT : ∀ b ∈ ch, b.2 < T.length) : ∀ {req : List Nat} {a b : List Int},
    (∃ ds : List Bk, (∀ d ∈ ds, d ∈ ch) ∧ (ds.map fun d => T.getD d.2 []) = req.map E.lab ∧
      chosen E (ch.map fun b => (T.getD b.2 [], rec.getD b.2 [])) req = some (ds.map fun d => rec.getD d.2 []).flatten ∧
      pickAll E (T.map some) (ch.map Prod.snd) (ch.map fun b => ((b.1.length : Int), codes b.1, ids b.1)) req a b = .val (some (a ++ codes (cat ds), b ++ ids (cat ds)))) ∨
    (chosen E (ch.map fun b => (T.getD b.2 [], rec.getD b.2 [])) req = none ∧
      pickAll E (T.map some) (ch.map Prod.snd) (ch.map fun b => ((b.1.length : Int), codes b.1, ids b.1)) req a b = .val none)
  | [], a, b => Or.inl ⟨[], by simp, rfl, rfl, by simp [pickAll, cat, codes, ids]⟩
  | h :: req, a, b => by
    have e1 : ∀ a b, pickAll E (T.map some) (ch.map Prod.snd) (ch.map fun b => ((b.1.length : Int), codes b.1, ids b.1)) (h :: req) a b =
      (findTgt (T.map some) (E.lab h) (ch.map Prod.snd) 0 >>= fun r => match r with
      | none => .val none
      | some k => pickAll E (T.map some) (ch.map Prod.snd) (ch.map fun b => ((b.1.length : Int), codes b.1, ids b.1)) req
          (a ++ ((ch.map fun b => ((b.1.length : Int), codes b.1, ids b.1)).getD k (0, [], [])).2.1) (b ++ ((ch.map fun b => ((b.1.length : Int), codes b.1, ids b.1)).getD k (0, [], [])).2.2)) := fun _ _ => rfl
    have e2 : chosen E (ch.map fun b => (T.getD b.2 [], rec.getD b.2 [])) (h :: req) = (pick (ch.map fun b => (T.getD b.2 [], rec.getD b.2 [])) (E.lab h)).bind fun a =>
      (chosen E (ch.map fun b => (T.getD b.2 [], rec.getD b.2 [])) req).bind fun b => some (a ++ b) := rfl
    rcases findTgt_ok (rec := rec) (nm := E.lab h) (k := 0) hT with ⟨c, i, h1, h2, h3, h4⟩ | ⟨h1, h2⟩
    · have hget : (ch.map fun b => ((b.1.length : Int), codes b.1, ids b.1)).getD i (0, [], []) = ((c.1.length : Int), codes c.1, ids c.1) := by
        rw [List.getD_eq_getElem?_getD, List.getElem?_map, h1]; rfl
      rcases pickAll_ok (rec := rec) hT (req := req) (a := a ++ codes c.1) (b := b ++ ids c.1) with ⟨ds, d1, d2, d3, d4⟩ | ⟨d1, d2⟩
      · left
        refine ⟨c :: ds, ?_, by rw [List.map_cons, List.map_cons, d2, h2], ?_, ?_⟩
        · intro d hd
          rcases List.mem_cons.1 hd with rfl | hd
          · exact List.mem_of_getElem? h1
          · exact d1 d hd
        · rw [e2, h4, Option.bind_some, d3]; rfl
        · rw [e1, h3, Out.bind_val]
          dsimp only
          rw [Nat.zero_add, hget, d4, cat_cons, codes_append, ids_append, List.append_assoc, List.append_assoc]
      · right
        refine ⟨by rw [e2, h4, Option.bind_some, d1]; rfl, ?_⟩
        rw [e1, h3, Out.bind_val]
        dsimp only
        rw [Nat.zero_add, hget]; exact d2
    · right
      refine ⟨by rw [e2, h2]; rfl, ?_⟩
      rw [e1, h1, Out.bind_val]

/-- What is known in the loop: `w` are the steps as written, `st` and `rec` the state of the machine of the specification. -/
structure WI (E : Env) (T : List Name) (w : List Int) (X : XWalk) (st : List (Name × List Int)) (rec : List (List Int)) (bs : List Bk) : Prop where
  proof : X.proof = codes (cat bs.reverse)
  old : X.old = ids (cat bs.reverse) ++ (List.range' w.length (T.length - w.length)).map Int.ofNat
  perm : (cat bs.reverse).Perm ((List.range w.length).zip w)
  pos : PosF 0 bs.reverse
  stack : X.stack = bs.reverse.map Prod.snd
  sp : X.sp = bs.length
  mst : st = bs.map fun b => (T.getD b.2 [], rec.getD b.2 [])
  rlen : rec.length = w.length
  blk : ∀ ρ, rec <+: ρ → ∀ b ∈ bs, Blk E ρ b.1 b.2
  len : w.length ≤ T.length

theorem WI.glen {T : List Name} {w : List Int} {X : XWalk} {st : List (Name × List Int)} {rec : List (List Int)} {bs : List Bk} (h : WI E T w X st rec bs) :
    (cat bs.reverse).length = w.length := by rw [h.perm.length_eq]; simp

theorem getD_prefix {α : Type} {a b : List α} (h : a <+: b) {i : Nat} (hi : i < a.length) (d : α) : b.getD i d = a.getD i d := by
  obtain ⟨t, rfl⟩ := h
  rw [List.getD_eq_getElem?_getD, List.getD_eq_getElem?_getD, List.getElem?_append_left hi]

theorem zip_range_snoc (w : List Int) (c : Int) : (List.range (w ++ [c]).length).zip (w ++ [c]) = (List.range w.length).zip w ++ [(w.length, c)] := by
  rw [List.length_append, List.length_singleton, List.range_succ, List.zip_append (by simp)]
  rfl

/-- The invariant after a new block has been put on the stack in place of the blocks `rep`, whose steps have been rearranged to `mid`. -/
theorem WI.push {T : List Name} {w : List Int} {X X' : XWalk} {st : List (Name × List Int)} {rec : List (List Int)} {top rest : List Bk} (h : WI E T w X st rec (top ++ rest)) {c : Int}
    {mid : List (Nat × Int)} (hm : mid.Perm (cat top.reverse)) (hlt : w.length < T.length) {v : List Int}
    (hblk : ∀ ρ, rec ++ [v] <+: ρ → Blk E ρ (mid ++ [(w.length, c)]) w.length)
    (hproof : X'.proof = codes (cat rest.reverse ++ mid) ++ [c]) (hold : X'.old = ids (cat rest.reverse ++ mid) ++ (List.range' w.length (T.length - w.length)).map Int.ofNat)
    (hstack : X'.stack = rest.reverse.map Prod.snd ++ [w.length]) (hsp : X'.sp = rest.length + 1) :
    WI E T (w ++ [c]) X' ((T.getD w.length [], v) :: rest.map fun b => (T.getD b.2 [], rec.getD b.2 [])) (rec ++ [v]) ((mid ++ [(w.length, c)], w.length) :: rest) := by
  have hcat : cat ((mid ++ [(w.length, c)], w.length) :: rest).reverse = cat rest.reverse ++ mid ++ [(w.length, c)] := by
    rw [List.reverse_cons, cat_append, cat_cons, cat_nil, List.append_nil, List.append_assoc]
  have hg := h.glen
  have hsplit : cat (top ++ rest).reverse = cat rest.reverse ++ cat top.reverse := by rw [List.reverse_append, cat_append]
  have hlen2 : (cat rest.reverse ++ mid).length = w.length := by rw [← hg, hsplit, List.length_append, List.length_append, hm.length_eq]
  have hpos := h.pos
  rw [List.reverse_append, posF_append] at hpos
  refine ⟨?_, ?_, ?_, ?_, ?_, ?_, ?_, ?_, ?_, ?_⟩
  · rw [hcat, hproof, codes_append _ [(w.length, c)]]; rfl
  · rw [hcat, hold, ids_append _ [(w.length, c)]]
    have : T.length - w.length = (T.length - (w ++ [c]).length) + 1 := by simp; omega
    rw [this, List.range'_succ]
    simp [ids]
  · rw [hcat, zip_range_snoc]
    apply List.Perm.append_right
    refine List.Perm.trans ?_ h.perm
    rw [hsplit]
    exact List.Perm.append_left _ hm
  · rw [List.reverse_cons, posF_append]
    refine ⟨hpos.1, ?_, trivial⟩
    rw [List.length_append] at hlen2
    simp only [List.length_append, List.length_singleton]
    omega
  · rw [List.reverse_cons, List.map_append, hstack]; rfl
  · rw [hsp]; rfl
  · rw [List.map_cons]
    have hv : (rec ++ [v]).getD w.length [] = v := by rw [← h.rlen]; simp [List.getD_eq_getElem?_getD]
    dsimp only
    rw [hv]
    congr 1
    apply List.map_congr_left
    intro b hb
    have hb2 : b.2 < rec.length := by
      have := posF_le hpos.1 b (List.mem_reverse.2 hb)
      rw [h.rlen]
      rw [List.length_append] at hlen2
      omega
    rw [getD_prefix (List.prefix_append rec [v]) hb2]
  · simp [h.rlen]
  · intro ρ hρ b hb
    rcases List.mem_cons.1 hb with rfl | hb
    · exact hblk ρ hρ
    · exact h.blk ρ ((List.prefix_append rec [v]).trans hρ) b (List.mem_append_right _ hb)
  · simp; omega

/-- The entries of the label table: local labels and hypotheses. -/
def TblOk (E : Env) (tbl : List (Name × Int)) : Prop :=
  ∀ nm j, E.look tbl nm = some j → j ≤ -1000 ∨ (1 ≤ j ∧ j ≤ E.n ∧ ((E.stmt j.toNat).kind = .f ∨ (E.stmt j.toNat).kind = .e))

/-- A step of the loop for normal proofs: the code of the step depends only on the number of steps before. -/
theorem walkTok_char {tbl : List (Name × Int)} (ht : TblOk E tbl) (hlook : LookOk E.look) {x : Name × Bool} {P : List Int} {sp r e : Nat} {w' : Walk} (h : walkTok E p tbl x ⟨P, sp, r, e⟩ = .val w') (hr : w'.ret < 2) :
    ∃ c, w'.proof = P ++ [c] ∧ (∀ P' : List Int, P'.length = P.length → walkTok E p tbl x ⟨P', sp, r, e⟩ = .val ⟨P' ++ [c], w'.sp, w'.ret, w'.ec⟩) ∧
      ((useOf E tbl x.1 sp = none ∧ w'.sp = sp + 1 ∧ StepOk E c ∧ arity E c = 0) ∨
       (∃ j : Nat, useOf E tbl x.1 sp = some j ∧ c = (j : Int) ∧ 1 ≤ j ∧ j ≤ E.n ∧ ((E.stmt j).kind = .a ∨ (E.stmt j).kind = .p) ∧ (E.stmt j).reqHyp.length ≤ sp ∧
          w'.sp = sp - (E.stmt j).reqHyp.length + 1)) := by
  have har : ∀ {c : Int}, c < 0 → arity E c = 0 := fun hc => by unfold arity; rw [if_neg (by omega)]
  unfold walkTok at h
  dsimp only at h
  by_cases hq : x.1.head? = some '?'
  · rw [if_pos hq] at h
    cases h
    refine ⟨unk, rfl, ?_, Or.inl ⟨by unfold useOf; rw [if_pos (Or.inl hq)], rfl, Or.inl rfl, har (by decide)⟩⟩
    intro P' hP'
    unfold walkTok; rw [if_pos hq]
  · rw [if_neg hq] at h
    cases hl : E.look tbl x.1 with
    | some j =>
      rw [hl] at h
      have hu : useOf E tbl x.1 sp = none := by unfold useOf; rw [if_pos (Or.inr (by rw [hl]; rfl))]
      dsimp only at h
      by_cases hj : j < 0
      · rw [if_pos hj] at h
        by_cases hi : -1000 - j < 0
        · rw [if_pos hi] at h; cases h
        · rw [if_neg hi] at h
          refine ⟨if decide (-1000 - j > (P.length : Int)) = true then unk else j, by cases h; rfl, ?_, Or.inl ⟨hu, by cases h; rfl, ?_, ?_⟩⟩
          · intro P' hP'
            unfold walkTok; rw [if_neg hq, hl]
            dsimp only
            rw [if_pos hj, if_neg hi, hP']
            cases h
            rfl
          · split
            · exact Or.inl rfl
            · exact Or.inr (Or.inl (by omega))
          · split
            · exact har (by decide)
            · exact har hj
      · rw [if_neg hj] at h
        by_cases h0 : j = 0
        · rw [if_pos h0] at h; cases h
        · rw [if_neg h0] at h
          cases h
          have := ht _ _ hl
          have h3 : 1 ≤ j ∧ j ≤ E.n ∧ ((E.stmt j.toNat).kind = .f ∨ (E.stmt j.toNat).kind = .e) := by
            rcases this with h | h
            · omega
            · exact h
          refine ⟨j, rfl, ?_, Or.inl ⟨hu, rfl, Or.inr (Or.inr ⟨h3.1, h3.2.1, ?_⟩), ?_⟩⟩
          · intro P' hP'
            unfold walkTok; rw [if_neg hq, hl]
            dsimp only
            rw [if_neg hj, if_neg h0]
          · rcases h3.2.2 with h | h
            · exact Or.inl h
            · exact Or.inr (Or.inl h)
          · unfold arity
            rw [if_neg]
            rintro ⟨_, h5⟩
            rcases h3.2.2 with h | h <;> rw [h] at h5 <;> simp at h5
    | none =>
      rw [hl] at h
      dsimp only at h
      cases hk : E.look (labelKeys E) x.1 with
      | none =>
        rw [hk] at h
        cases h
        exfalso
        simp only at hr
        omega
      | some j =>
        rw [hk] at h
        dsimp only at h
        by_cases ha : (E.stmt j.toNat).kind ≠ .a ∧ (E.stmt j.toNat).kind ≠ .p
        · rw [if_pos ha] at h; cases h
        · rw [if_neg ha] at h
          have ha' : (E.stmt j.toNat).kind = .a ∨ (E.stmt j.toNat).kind = .p := by
            by_cases h1 : (E.stmt j.toNat).kind = .a
            · exact Or.inl h1
            · by_cases h2 : (E.stmt j.toNat).kind = .p
              · exact Or.inr h2
              · exact absurd ⟨h1, h2⟩ ha
          by_cases hs : sp < (E.stmt j.toNat).reqHyp.length
          · rw [if_pos hs] at h
            cases h
            exfalso
            simp only at hr
            omega
          · rw [if_neg hs] at h
            obtain ⟨i, hi1, hi2, hi3, _⟩ := mem_labelKeys ((hlook _ _).1 j hk)
            have hjt : j.toNat = i := by omega
            cases h
            refine ⟨j, rfl, ?_, Or.inr ⟨j.toNat, ?_, by omega, by omega, by omega, ha', by omega, rfl⟩⟩
            · intro P' hP'
              unfold walkTok; rw [if_neg hq, hl]
              dsimp only
              rw [hk]
              dsimp only
              rw [if_neg ha, if_neg hs]
            · unfold useOf
              rw [if_neg (by rw [hl]; simp [hq]), hk, Option.bind_some, if_neg hs]

/-- The labels of the hypotheses of an assertion are different. -/
def HypLabels (E : Env) : Prop := ∀ j, (E.stmt j).kind = .a ∨ (E.stmt j).kind = .p → ((E.stmt j).reqHyp.map E.lab).Nodup

theorem same_of_map {α β : Type} {f : α → β} : ∀ {a b c : List α}, (∀ x ∈ a, x ∈ c) → (c.map f).Nodup → a.map f = b.map f → (∀ x ∈ b, x ∈ c) → a = b
  | [], [], _, _, _, _, _ => rfl
  | [], _ :: _, _, _, _, h, _ => by simp at h
  | _ :: _, [], _, _, _, h, _ => by simp at h
  | x :: a, y :: b, c, ha, hc, h, hb => by
    rw [List.map_cons, List.map_cons] at h
    obtain ⟨h1, h2⟩ := List.cons.inj h
    rw [List.inj_on_of_nodup_map hc (ha x (by simp)) (hb y (by simp)) h1, same_of_map (fun z hz => ha z (List.mem_cons_of_mem _ hz)) hc h2 (fun z hz => hb z (List.mem_cons_of_mem _ hz))]

/-- A step of the loop. -/
theorem walkTokX_step {tbl : List (Name × Int)} (ht : TblOk E tbl) (hlook : LookOk E.look) (hL : HypLabels E) {T : List Name} {w : List Int} {X : XWalk} {st : List (Name × List Int)} {rec : List (List Int)} {bs : List Bk}
    (hI : WI E T w X st rec bs) (hlt : w.length < T.length) {x : Name × Bool} {w' : Walk} (h : walkTok E p tbl x ⟨w, X.sp, X.ret, X.ec⟩ = .val w') (hr : w'.ret < 2)
    (hback : ∀ c ∈ w'.proof, c ≤ -1000 → (-1000 - c).toNat < w.length) :
    ∃ c, w'.proof = w ++ [c] ∧
      ((∃ st' rec' X' bs', xstep E (st, rec) (T.getD w.length [], c) = some (st', rec') ∧ walkTokX E p tbl true (T.map some) x X = .val X' ∧ WI E T (w ++ [c]) X' st' rec' bs' ∧
          X'.sp = w'.sp ∧ X'.ret = w'.ret ∧ X'.ec = w'.ec ∧
          ((st.take (arity E c)).reverse.map Prod.fst = (hyps E c).map E.lab → cat bs.reverse = (List.range w.length).zip w → cat bs'.reverse = (List.range (w ++ [c]).length).zip (w ++ [c]))) ∨
       (xstep E (st, rec) (T.getD w.length [], c) = none ∧ ∃ X', walkTokX E p tbl true (T.map some) x X = .val X' ∧ 2 ≤ X'.ret)) := by
  obtain ⟨c, h1, h2, h3⟩ := walkTok_char ht hlook h hr
  refine ⟨c, h1, ?_⟩
  have hxl : X.proof.length = w.length := by rw [hI.proof, codes_length, hI.glen]
  have hXw : walkTok E p tbl x X.toWalk = .val ⟨X.proof ++ [c], w'.sp, w'.ret, w'.ec⟩ := h2 X.proof hxl
  have hbackc := hback c (by rw [h1]; simp)
  rcases h3 with ⟨hu, hsp, hok, har⟩ | ⟨j, hu, rfl, hj1, hj2, hk, hle, hsp⟩
  · left
    have hX' : walkTokX E p tbl true (T.map some) x X = .val { toWalk := ⟨X.proof ++ [c], w'.sp, w'.ret, w'.ec⟩, stack := X.stack ++ [X.proof.length], old := X.old } := by
      unfold walkTokX
      rw [hXw, Out.bind_val]
      dsimp only
      rw [hu]
    have hpush : ∀ v, (∀ ρ, rec ++ [v] <+: ρ → Blk E ρ [(w.length, c)] w.length) →
        WI E T (w ++ [c]) { toWalk := ⟨X.proof ++ [c], w'.sp, w'.ret, w'.ec⟩, stack := X.stack ++ [X.proof.length], old := X.old }
          ((T.getD w.length [], v) :: st) (rec ++ [v]) (([(w.length, c)], w.length) :: bs) := by
      intro v hv
      have := WI.push (top := []) (rest := bs) (mid := []) (X' := { toWalk := ⟨X.proof ++ [c], w'.sp, w'.ret, w'.ec⟩, stack := X.stack ++ [X.proof.length], old := X.old })
        hI (c := c) (List.Perm.refl _) hlt (v := v) hv (by rw [List.append_nil, hI.proof]) (by rw [List.append_nil, hI.old]) (by rw [hI.stack, hxl]) (by show w'.sp = _; rw [hsp, hI.sp])
      rw [← hI.mst] at this
      exact this
    have hord : (st.take (arity E c)).reverse.map Prod.fst = (hyps E c).map E.lab → cat bs.reverse = (List.range w.length).zip w →
        cat (([(w.length, c)], w.length) :: bs).reverse = (List.range (w ++ [c]).length).zip (w ++ [c]) := by
      intro _ hc
      rw [List.reverse_cons, cat_append, hc, zip_range_snoc]; rfl
    by_cases hx : c ≤ -1000
    · have hlt2 : (-1000 - c).toNat < rec.length := by rw [hI.rlen]; exact hbackc hx
      have hget : rec[(-1000 - c).toNat]? = some (rec.getD (-1000 - c).toNat []) := by
        rw [List.getD_eq_getElem?_getD, List.getElem?_eq_getElem hlt2]; rfl
      refine ⟨_, _, _, _, ?_, hX', hpush (rec.getD (-1000 - c).toNat []) ?_, rfl, rfl, rfl, hord⟩
      · unfold xstep
        dsimp only
        rw [if_pos hx, hget, Option.bind_some]
      · intro ρ hρ
        refine .ref _ _ hx ?_
        rw [getD_prefix hρ (by simp [hI.rlen]), getD_prefix hρ (by simp; omega), getD_prefix (List.prefix_append rec _) hlt2, ← hI.rlen]
        simp [List.getD_eq_getElem?_getD]
    · refine ⟨_, _, _, _, ?_, hX', hpush [c] ?_, rfl, rfl, rfl, hord⟩
      · unfold xstep
        dsimp only
        rw [if_neg hx, har, if_pos (Nat.zero_le _)]
        unfold hyps
        rw [if_pos har]
        simp [chosen]
      · intro ρ hρ
        refine .node _ _ [] (by omega) hok (by simp [har]) (by simp) ?_
        rw [getD_prefix hρ (by simp [hI.rlen]), ← hI.rlen]
        simp [List.getD_eq_getElem?_getD]
  · have har : arity E (j : Int) = (E.stmt j).reqHyp.length := by
      unfold arity
      rw [Int.toNat_natCast, if_pos ⟨by omega, hk⟩]
    have hokj : StepOk E (j : Int) := Or.inr (Or.inr ⟨by omega, by omega, by
      rw [Int.toNat_natCast]
      rcases hk with h | h
      · exact Or.inr (Or.inr (Or.inl h))
      · exact Or.inr (Or.inr (Or.inr h))⟩)
    generalize hn : (E.stmt j).reqHyp.length = n at *
    rw [hI.sp] at hle
    obtain ⟨top, rest, hbs, htl⟩ : ∃ top rest, bs = top ++ rest ∧ top.length = n := ⟨bs.take n, bs.drop n, (List.take_append_drop n bs).symm, by rw [List.length_take]; omega⟩
    subst hbs
    have hstk : X.stack = rest.reverse.map Prod.snd ++ top.reverse.map Prod.snd := by rw [hI.stack, List.reverse_append, List.map_append]
    have hdrop : X.stack.drop (X.stack.length - n) = top.reverse.map Prod.snd := by
      rw [hstk]
      have : (rest.reverse.map Prod.snd ++ top.reverse.map Prod.snd).length - n = (rest.reverse.map (Prod.snd (α := List (Nat × Int)))).length := by simp; omega
      rw [this, List.drop_left]
    have htake : X.stack.take (X.stack.length - n) = rest.reverse.map Prod.snd := by
      rw [hstk]
      have : (rest.reverse.map Prod.snd ++ top.reverse.map Prod.snd).length - n = (rest.reverse.map (Prod.snd (α := List (Nat × Int)))).length := by simp; omega
      rw [this, List.take_left]
    have hcat : cat (top ++ rest).reverse = cat rest.reverse ++ cat top.reverse := by rw [List.reverse_append, cat_append]
    have hpos := hI.pos
    rw [List.reverse_append, posF_append, Nat.zero_add] at hpos
    have hglen := hI.glen
    rw [hcat, List.length_append] at hglen
    have hblk0 := hI.blk rec (List.prefix_refl _)
    have hT : ∀ b ∈ top.reverse, b.2 < T.length := by
      intro b hb
      have := posF_le hpos.2 b hb
      have := hI.len
      omega
    -- the machine
    have hxs : xstep E (st, rec) (T.getD w.length [], (j : Int)) = (chosen E (top.reverse.map fun b => (T.getD b.2 [], rec.getD b.2 [])) (E.stmt j).reqHyp).bind fun b =>
        some ((T.getD w.length [], b ++ [(j : Int)]) :: rest.map fun b => (T.getD b.2 [], rec.getD b.2 []), rec ++ [b ++ [(j : Int)]]) := by
      unfold xstep
      dsimp only
      have hst1 : st.take n = top.map fun b => (T.getD b.2 [], rec.getD b.2 []) := by
        rw [hI.mst, List.map_append, ← htl]; apply List.take_left'; simp
      have hst2 : st.drop n = rest.map fun b => (T.getD b.2 [], rec.getD b.2 []) := by
        rw [hI.mst, List.map_append, ← htl]; apply List.drop_left'; simp
      rw [if_neg (by omega), har, if_pos (by rw [hI.mst]; simp; omega), hst1, hst2, ← List.map_reverse]
      have hh : hyps E (j : Int) = (E.stmt j).reqHyp := by
        unfold hyps
        rw [har, Int.toNat_natCast]
        split
        · rename_i h0; rw [h0] at hn; rw [List.length_eq_zero_iff.1 hn]
        · rfl
      rw [hh]
    -- the lengths of the subproofs
    have hproof : X.proof ++ [(j : Int)] = codes (cat rest.reverse ++ cat top.reverse) ++ [(j : Int)] := by rw [hI.proof, hcat]
    have hold : X.old = ids (cat rest.reverse ++ cat top.reverse) ++ (List.range' w.length (T.length - w.length)).map Int.ofNat := by rw [hI.old, hcat]
    have hconcl : subproofLen E (X.proof ++ [(j : Int)]) (w.length : Int) = .val (((cat top.reverse).length + 1 : Nat) : Int) := by
      obtain ⟨F, f1, f2, f3⟩ := forest_of_blks (E := E) (f := id) top.reverse (fun b hb => blk_tree refMap_id (hblk0 b (List.mem_append_left _ (List.mem_reverse.1 hb))))
      refine subproofLen_forest (x := (j : Int)) (ch := F) ⟨trivial, f1, hokj, ?_⟩ (pre := codes (cat rest.reverse)) (post := []) ?_ ?_ ?_
      · rw [har, f3, List.length_reverse, htl]
      · rw [hproof, codes_append]
        simp only [Forest.tree, Forest.flat, List.nil_append, f2]
        simp [codes, cat]
      · simp only [Forest.tree, Forest.flat, List.nil_append, f2]
        rw [List.length_append, List.length_map]
        rfl
      · rw [codes_length]; omega
    have hgat := gather_ok (E := E) (ch := top.reverse) (U := cat rest.reverse) (fun b hb => hblk0 b (List.mem_append_left _ (List.mem_reverse.1 hb))) hpos.2 hproof hold
    have hsum : ((top.reverse.map fun b => ((b.1.length : Int), codes b.1, ids b.1)).map fun x => x.1).sum = ((cat top.reverse).length : Int) := by
      generalize top.reverse = l
      induction l with
      | nil => rfl
      | cons b l ih =>
        rw [List.map_cons, List.map_cons, List.sum_cons, ih, cat_cons, List.length_append]
        simp
    have hstepeq : ((X.proof ++ [(j : Int)]).length : Int) - 1 = (w.length : Int) := by rw [List.length_append, hxl]; simp
    have hX : walkTokX E p tbl true (T.map some) x X = (rearrange E (T.map some) j { toWalk := ⟨X.proof ++ [(j : Int)], w'.sp, w'.ret, w'.ec⟩, stack := X.stack, old := X.old } >>= fun v =>
        .val { v with stack := rest.reverse.map Prod.snd ++ [w.length] }) := by
      unfold walkTokX
      rw [hXw, Out.bind_val]
      dsimp only
      rw [hu]
      dsimp only
      rw [if_pos rfl, hn, htake, hxl]
    have hrear : rearrange E (T.map some) j { toWalk := ⟨X.proof ++ [(j : Int)], w'.sp, w'.ret, w'.ec⟩, stack := X.stack, old := X.old } =
        if (E.stmt j).reqHyp = [] then .val { toWalk := ⟨X.proof ++ [(j : Int)], w'.sp, w'.ret, w'.ec⟩, stack := X.stack, old := X.old }
        else pickAll E (T.map some) (top.reverse.map Prod.snd) (top.reverse.map fun b => ((b.1.length : Int), codes b.1, ids b.1)) (E.stmt j).reqHyp [] [] >>= fun r =>
          match r with
          | none => .val { toWalk := ⟨X.proof ++ [(j : Int)], w'.sp, max w'.ret 2, w'.ec + 1⟩, stack := X.stack, old := X.old }
          | some (sub, nums) =>
            if (sub.length : Int) ≠ (((cat top.reverse).length + 1 : Nat) : Int) - 1 then .bug 1732
            else
              nmbrLeft (X.proof ++ [(j : Int)]) ((w.length : Int) - (((cat top.reverse).length + 1 : Nat) : Int) + 1) >>= fun l1 =>
              nmbrLeft X.old ((w.length : Int) - (((cat top.reverse).length + 1 : Nat) : Int) + 1) >>= fun l2 =>
              let wrk := l1 ++ sub ++ nmbrRight (X.proof ++ [(j : Int)]) ((w.length : Int) + 1)
              if wrk.length ≠ (X.proof ++ [(j : Int)]).length ∨ wrk.getLast? ≠ (X.proof ++ [(j : Int)]).getLast? then .bug 1735
              else .val { toWalk := ⟨wrk, w'.sp, w'.ret, w'.ec⟩, stack := X.stack, old := l2 ++ nums ++ nmbrRight X.old ((w.length : Int) + 1) } := by
      unfold rearrange
      dsimp only
      rw [hstepeq, hconcl, Out.bind_val, hn, hdrop, hgat, Out.bind_val, if_neg (by rw [hsum]; omega)]
      by_cases h0 : (E.stmt j).reqHyp = []
      · rw [if_pos h0, if_pos h0]
      · rw [if_neg h0, if_neg h0]
        congr 1
    rcases pickAll_ok (E := E) (rec := rec) hT (req := (E.stmt j).reqHyp) (a := []) (b := []) with ⟨ds, d1, d2, d3, d4⟩ | ⟨d1, d2⟩
    · left
      have hnod : ds.Nodup := by
        have : (ds.map fun d => T.getD d.2 []).Nodup := by rw [d2]; exact hL j hk
        exact List.Nodup.of_map _ this
      have hdl : ds.length = top.reverse.length := by
        have := congrArg List.length d2
        rw [List.length_map, List.length_map, hn] at this
        rw [List.length_reverse, htl, this]
      have hdp : ds.Perm top.reverse := (List.subperm_of_subset hnod d1).perm_of_length_le (by omega)
      have hmid : (cat ds).Perm (cat top.reverse) := List.Perm.flatten (hdp.map _)
      have hmidlen := hmid.length_eq
      -- the new block
      have hblk : ∀ ρ, rec ++ [(ds.map fun d => rec.getD d.2 []).flatten ++ [(j : Int)]] <+: ρ → Blk E ρ (cat ds ++ [(w.length, (j : Int))]) w.length := by
        intro ρ hρ
        refine .node _ _ ds (by omega) hokj (by rw [har, hdl, List.length_reverse, htl]) ?_ ?_
        · intro b hb
          exact hI.blk ρ ((List.prefix_append rec _).trans hρ) b (List.mem_append_left _ (List.mem_reverse.1 (d1 b hb)))
        · rw [getD_prefix hρ (by simp [hI.rlen])]
          have hv : (rec ++ [(ds.map fun d => rec.getD d.2 []).flatten ++ [(j : Int)]]).getD w.length [] = (ds.map fun d => rec.getD d.2 []).flatten ++ [(j : Int)] := by
            rw [← hI.rlen]; simp [List.getD_eq_getElem?_getD]
          rw [hv]
          congr 2
          apply List.map_congr_left
          intro d hd
          have hd2 : d.2 < rec.length := by
            have := posF_le hpos.2 d (d1 d hd)
            rw [hI.rlen]; omega
          rw [getD_prefix ((List.prefix_append rec _).trans hρ) hd2]
      have hpush := fun (X' : XWalk) => WI.push (X' := X') hI (c := (j : Int)) hmid hlt (v := (ds.map fun d => rec.getD d.2 []).flatten ++ [(j : Int)]) hblk
      refine ⟨_, _, { toWalk := ⟨codes (cat rest.reverse ++ cat ds) ++ [(j : Int)], w'.sp, w'.ret, w'.ec⟩, stack := rest.reverse.map Prod.snd ++ [w.length], old := ids (cat rest.reverse ++ cat ds) ++ (List.range' w.length (T.length - w.length)).map Int.ofNat }, _, by rw [hxs, d3, Option.bind_some], ?_, hpush _ rfl rfl rfl ?_, rfl, rfl, rfl, ?_⟩
      · rw [hX, hrear]
        by_cases h0 : (E.stmt j).reqHyp = []
        · rw [if_pos h0, Out.bind_val]
          have htop : top = [] := by rw [h0] at hn; exact List.length_eq_zero_iff.1 (by rw [htl, ← hn]; rfl)
          have hds : ds = [] := by rw [htop] at hdl; exact List.length_eq_zero_iff.1 hdl
          rw [htop] at hproof hold
          rw [hds, hproof, hold]
          rfl
        · rw [if_neg h0, d4, Out.bind_val]
          dsimp only
          rw [List.nil_append, List.nil_append, codes_length, if_neg (by omega)]
          have hl1 : nmbrLeft (X.proof ++ [(j : Int)]) ((w.length : Int) - (((cat top.reverse).length + 1 : Nat) : Int) + 1) = .val (codes (cat rest.reverse)) := by
            rw [hproof, codes_append, List.append_assoc]; exact left_mid (by rw [codes_length]; omega)
          have hl2 : nmbrLeft X.old ((w.length : Int) - (((cat top.reverse).length + 1 : Nat) : Int) + 1) = .val (ids (cat rest.reverse)) := by
            rw [hold, ids_append, List.append_assoc]; exact left_mid (by rw [ids_length]; omega)
          have hr1 : nmbrRight (X.proof ++ [(j : Int)]) ((w.length : Int) + 1) = [(j : Int)] := right_mid (by rw [hxl])
          have hr2 : nmbrRight X.old ((w.length : Int) + 1) = (List.range' w.length (T.length - w.length)).map Int.ofNat := by
            rw [hold]; exact right_mid (by rw [ids_length, List.length_append]; omega)
          rw [hl1, Out.bind_val, hl2, Out.bind_val, hr1, hr2, if_neg, Out.bind_val, codes_append, ids_append]
          rw [hproof]
          simp [codes_length]
          omega
      · show w'.sp = _
        rw [hsp, hI.sp, List.length_append, htl]; omega
      · intro ho hc
        have hst1 : st.take n = top.map fun b => (T.getD b.2 [], rec.getD b.2 []) := by
          rw [hI.mst, List.map_append, ← htl]; apply List.take_left'; simp
        have hh : hyps E (j : Int) = (E.stmt j).reqHyp := by
          unfold hyps
          rw [har, Int.toNat_natCast]
          split
          · rename_i h0; rw [h0] at hn; rw [List.length_eq_zero_iff.1 hn]
          · rfl
        rw [har, hst1, hh, ← d2, ← List.map_reverse, List.map_map] at ho
        have hnd : (top.reverse.map fun d => T.getD d.2 []).Nodup := by
          have : (ds.map fun d => T.getD d.2 []).Nodup := by rw [d2]; exact hL j hk
          rw [← ho] at this; exact this
        have hds : ds = top.reverse := same_of_map d1 hnd ho.symm (fun _ h => h)
        rw [hds, List.reverse_cons, cat_append, cat_cons, cat_nil, List.append_nil, ← List.append_assoc, ← hcat, hc, zip_range_snoc]
    · right
      refine ⟨by rw [hxs, d1]; rfl, ?_⟩
      have h0 : (E.stmt j).reqHyp ≠ [] := by intro h0; rw [h0] at d1; cases d1
      rw [hX, hrear, if_neg h0, d2, Out.bind_val]
      dsimp only
      rw [Out.bind_val]
      exact ⟨_, rfl, Nat.le_max_right ..⟩

end MM.Expl
