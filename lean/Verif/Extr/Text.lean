import Verif.Extr.Verify
/-!
# Parsing the proofs of the extract
-/
namespace MM.Extr
open MM.Veri MM.Pars MM.Spec MM.Proof MM.Trace MM.Lex

section
variable {E : Env} {p : Nat}

/-- A proof accepted with return code 0 is well formed. -/
theorem parseProof_textOk {toks : List Name} {r : Parsed} (hlook : LookOk E.look) (hL : LabelsOk E) (hH : HypsOk E p) (hc : Colons toks) (hne : ∀ t ∈ toks, t ≠ [])
    (h : parseProof E p toks = .val r) (hr : r.ret = 0) :
    ∃ items : List Item, toks = text items ∧ r.proof.length = items.length ∧ TextOk E p items ∧
      ∀ k x ps, items[k]? = some x → r.proof[k]? = some ps → Refers E p items k x.tok ps ∧
        (x.labels ≠ [] → 0 ≤ ps ∧ ((E.stmt ps.toNat).kind = .a ∨ (E.stmt ps.toNat).kind = .p)) := by
  obtain ⟨items, h1, h2, h3, h4, h5⟩ := parseProof_refers_nodup hlook hc h hr
  refine ⟨items, h1, h2.symm, ⟨fun x hx l hl => ⟨hne l ?_, ((h3 x hx).1 l hl).1⟩, ?_, h5, fun x hx => ⟨(h3 x hx).2, ?_⟩⟩, fun k x ps a b => ⟨(h4 k x ps a b).1, (h4 k x ps a b).2.1⟩⟩
  · rw [h1]
    unfold text
    rw [List.mem_flatMap]
    refine ⟨x, hx, ?_⟩
    simp only [declText, List.mem_append, List.mem_flatMap]
    exact Or.inl ⟨l, hl, by simp⟩
  · intro x hx l hl j j1 j2 e
    obtain ⟨_, l2, l3⟩ := (h3 x hx).1 l hl
    have hp := hH.range
    have hass : ¬ ((E.stmt j).kind = .a ∨ (E.stmt j).kind = .p) := by
      intro hk
      have hlab : E.lab j ≠ [] := (hL.kinds j j1 (by omega)).mpr (by tauto)
      have hmem : (l, (j : Int)) ∈ labelKeys E := by
        rw [mem_labelKeys_iff]
        refine ⟨j, j1, by omega, hlab, ?_, ?_, e, rfl⟩ <;> rcases hk with hk | hk <;> rw [hk] <;> simp
      cases hlk : E.look (labelKeys E) l with
      | none => exact (hlook _ _).2 hlk _ hmem
      | some j' =>
        obtain ⟨i, i1, i2, i3, _, _, i6, i7⟩ := mem_labelKeys_iff.mp ((hlook _ _).1 _ hlk)
        have := hL.uniq i j i1 i2 j1 (by omega) i3 (by rw [i6, e])
        subst this
        exact l2 _ hlk (by omega)
    refine ⟨fun hk => hass (Or.inl hk), fun hk => hass (Or.inr hk), fun hj => ?_⟩
    exact (hlook _ _).2 l3 (j : Int) (mem_hypTable.mpr ⟨j, hj, e, rfl⟩)
  · obtain ⟨k, hk, hxk⟩ := List.mem_iff_getElem.mp hx
    exact (h4 k x _ (by rw [List.getElem?_eq_getElem hk, hxk]) (List.getElem?_eq_getElem (by omega))).2.2

end

section
variable {src : List Src} {s s' : PState} {keep : Nat → Bool} {r : List Name × List Name} {look look' : Look}

theorem label_ext {j : Nat} (h1 : 1 ≤ j) (h2 : j ≤ src.length) (kj : keep j = true) : srcLabel (ext src keep r) (pos keep j) = srcLabel src j := by
  obtain ⟨k, rfl⟩ : ∃ k, j = k + 1 := ⟨j - 1, by omega⟩
  have hg := pick_get (l := src) (i := k) (by omega) kj
  unfold srcLabel ext
  rw [pos_kept kj, if_neg (by omega), if_neg (by omega), Nat.add_sub_cancel, Nat.add_sub_cancel]
  obtain ⟨hl, _⟩ := List.getElem?_eq_some_iff.mp hg
  rw [List.getD_eq_getElem?_getD, List.getD_eq_getElem?_getD, List.getElem?_map, List.getElem?_map, List.getElem?_append_left hl, hg,
    List.getElem?_eq_getElem (show k < src.length by omega)]

theorem label_unused {q : Nat} (h : pos keep src.length < q) : srcLabel (ext src keep r) q = [] := by
  unfold srcLabel ext
  rw [if_neg (by omega), List.getD_eq_getElem?_getD, List.getElem?_map, List.getElem?_append_right (by rw [pick_length]; omega)]
  cases hg : (unused r)[q - 1 - (pick keep 1 src).length]? with
  | none => rfl
  | some x =>
    have hx := List.mem_of_getElem? hg
    unfold unused at hx
    rcases List.mem_append.mp hx with hx | hx
    · by_cases h0 : r.1 = []
      · rw [if_pos h0] at hx; cases hx
      · rw [if_neg h0] at hx; simp at hx; subst hx; rfl
    · by_cases h0 : r.2 = []
      · rw [if_pos h0] at hx; cases hx
      · rw [if_neg h0] at hx; simp at hx; subst hx; rfl

theorem srcLabels_ext (hL : SrcLabels src) : SrcLabels (ext src keep r) where
  uniq := by
    intro i j i1 i2 j1 j2 hne e
    have hle : ∀ q, 1 ≤ q → srcLabel (ext src keep r) q ≠ [] → ∃ k, 1 ≤ k ∧ k ≤ src.length ∧ keep k = true ∧ pos keep k = q := by
      intro q q1 hq
      have : q ≤ pos keep src.length := by
        rcases Nat.lt_or_ge (pos keep src.length) q with c | c
        · exact absurd (label_unused c) hq
        · exact c
      obtain ⟨k, k1, k2, k3⟩ := pos_surj q1 this
      exact ⟨k + 1, by omega, by omega, k2, k3⟩
    obtain ⟨a, a1, a2, a3, rfl⟩ := hle i i1 hne
    obtain ⟨b, b1, b2, b3, rfl⟩ := hle j j1 (by rw [← e]; exact hne)
    rw [label_ext a1 a2 a3] at hne e
    rw [label_ext b1 b2 b3] at e
    rw [hL.uniq a b a1 a2 b1 b2 hne e]
  kinds := by
    intro q q1 q2
    rcases ext_cases q1 q2 with ⟨i, a, b, c, rfl⟩ | ⟨_, e, k, _⟩ | ⟨_, e, k, _⟩
    · rw [label_ext a b c]
      unfold IsAssert
      rw [kind_ext a b c]
      exact hL.kinds i a b
    · rw [label_unused (by omega)]
      unfold IsAssert
      rw [k]; simp
    · rw [label_unused e]
      unfold IsAssert
      rw [k]; simp

theorem depth_map (h : Accepted src s) (h' : Accepted (ext src keep r) s') (hK : Kept src keep) {l : List Int} {n : Nat} (hd : Depth (toDb src s) l n) :
    (∀ x ∈ l, 0 ≤ x → keep x.toNat = true) → Depth (toDb (ext src keep r) s') (l.map (codeAt keep)) n := by
  induction hd with
  | nil => intro _; exact .nil
  | @push l n a _ ha ih =>
    intro hk
    rw [List.map_append]
    refine .push (ih fun x hx => hk x (by simp [hx])) ?_
    rcases ha with ha | ha | ⟨ha, hb⟩
    · left
      unfold codeAt
      rw [ha, if_neg (by decide)]
    · right; left
      unfold codeAt
      rw [if_neg (by omega)]; exact ha
    · right; right
      have ka := hk a (by simp) ha
      rw [kind_toDb h] at hb
      have hbd := kind_bound (ks := kinds src) (i := a.toNat) (by rcases hb with e | e <;> rw [e] <;> simp)
      rw [kinds_length] at hbd
      unfold codeAt
      rw [if_pos ha, Int.toNat_natCast, kind_toDb h', kind_ext hbd.1 hbd.2 ka]
      exact ⟨by omega, hb⟩
  | @use l n a _ ha hb hn ih =>
    intro hk
    rw [List.map_append]
    have ka := hk a (by simp) ha
    rw [kind_toDb h] at hb
    obtain ⟨a1, a2⟩ := assert_bound (src := src) (i := a.toNat) hb
    have hlen : ((toDb (ext src keep r) s').stmt (pos keep a.toNat)).reqHyp.length = ((toDb src s).stmt a.toNat).reqHyp.length := by
      show (s'.stmt _).reqHyp.length = (s.stmt _).reqHyp.length
      rw [hyps_ext h h' hK hb ka, List.length_map]
    have hc : codeAt keep a = (pos keep a.toNat : Int) := by unfold codeAt; rw [if_pos ha]
    have := Depth.use (db := toDb (ext src keep r) s') (a := codeAt keep a) (ih fun x hx => hk x (by simp [hx])) (by rw [hc]; omega)
      (by rw [hc, Int.toNat_natCast, kind_toDb h', kind_ext a1 a2 ka]; exact hb) (by rw [hc, Int.toNat_natCast, hlen]; exact hn)
    rw [hc, Int.toNat_natCast, hlen] at this
    rw [List.map_cons, List.map_nil, hc]
    exact this

/-- The active hypotheses of a theorem kept, in the extract -/
theorem mem_hyps_ext (h : Accepted src s) (h' : Accepted (ext src keep r) s') (hK : Kept src keep) {p : Nat} (hp : kindAt (kinds src) p = .p) (kp : keep p = true)
    (hh : ∀ j ∈ (s.stmt p).reqHyp ++ (s.stmt p).optHyp, keep j = true) {q : Nat} :
    q ∈ ((envOf look' (ext src keep r) s').stmt (pos keep p)).reqHyp ++ ((envOf look' (ext src keep r) s').stmt (pos keep p)).optHyp ↔
      ∃ j ∈ ((envOf look src s).stmt p).reqHyp ++ ((envOf look src s).stmt p).optHyp, pos keep j = q := by
  have hn := nested_of ((C41_read_accepts_exactly src).mp ⟨s, h⟩)
  obtain ⟨p1, p2⟩ := assert_bound (src := src) (i := p) (Or.inr hp)
  rw [mem_hyps_iff h' (by rw [kind_ext p1 p2 kp]; exact hp)]
  constructor
  · rintro ⟨a, b⟩
    obtain ⟨j, x, y, rfl, z, w⟩ := active_from hn hK.closed p1 p2 kp a
    rw [kind_ext z w x] at b
    exact ⟨j, (mem_hyps_iff h hp j).mpr ⟨y, b⟩, rfl⟩
  · rintro ⟨j, hj, rfl⟩
    have kj := hh j hj
    obtain ⟨a, b⟩ := (mem_hyps_iff h hp j).mp hj
    have j2 : j ≤ src.length := by have := a.2.1; omega
    exact ⟨(active_ext hn hK.closed p1 p2 a.1 j2 kp kj).mpr a, by rw [kind_ext a.1 j2 kj]; exact b⟩

/-- The parser on the extract, for a proof in normal format -/
theorem parse_normal (h : Accepted src s) (h' : Accepted (ext src keep r) s') (hK : Kept src keep) (hl : LookOk look) (hl' : LookOk look') (hL : SrcLabels src)
    {p : Nat} (hp : kindAt (kinds src) p = .p) (kp : keep p = true) (hh : ∀ j ∈ (s.stmt p).reqHyp ++ (s.stmt p).optHyp, keep j = true)
    {toks : List Name} (hc : Colons toks) (hne : ∀ t ∈ toks, t ≠ []) {res : Parsed} (hr : parseProof (envOf look src s) p toks = .val res) (hret : res.ret = 0)
    (hk : ∀ x ∈ res.proof, 0 ≤ x → keep x.toNat = true) :
    parseProof (envOf look' (ext src keep r) s') (pos keep p) toks = .val ⟨res.proof.map (codeAt keep), 0, 0⟩ := by
  obtain ⟨p1, p2⟩ := assert_bound (src := src) (i := p) (Or.inr hp)
  have hp' : kindAt (kinds (ext src keep r)) (pos keep p) = .p := by rw [kind_ext p1 p2 kp]; exact hp
  obtain ⟨items, rfl, t2, t3, t4⟩ := parseProof_textOk (E := envOf look src s) hl (labelsOk_of h hL) (hypsOk_of h hp) hc hne hr hret
  obtain ⟨_, _, hdep, _⟩ := parseProof_ok (E := envOf look src s) hl (hypKinds_of_parse h hp) hr (by omega)
  refine parseProof_complete (E := envOf look' (ext src keep r) s') hl' (labelsOk_of h' (srcLabels_ext hL)) (hypsOk_of h' hp') ⟨t3.legal, ?_, t3.nodup, t3.toks⟩
    (by rw [List.length_map]; exact t2) (depth_map h h' hK hdep hk) ?_
  · intro x hx l hl q q1 q2 e
    obtain ⟨j, j1, j2, rfl⟩ := pos_surj (keep := keep) (n := p) q1 q2
    have hlab : srcLabel (ext src keep r) (pos keep (j + 1)) = srcLabel src (j + 1) := label_ext (by omega) (by omega) j2
    have := t3.fresh x hx l hl (j + 1) (by omega) (by omega) (by rw [← e]; exact hlab.symm)
    rw [kind_env h] at this
    rw [kind_env h', kind_ext (by omega) (by omega) j2]
    refine ⟨this.1, this.2.1, fun hm => this.2.2 ?_⟩
    obtain ⟨i, i1, i2⟩ := (mem_hyps_ext (look := look) h h' hK hp kp hh).mp hm
    have := pos_inj (hh i i1) j2 i2
    subst this
    exact i1
  · intro k x ps hx hps
    rw [List.getElem?_map] at hps
    cases hg : res.proof[k]? with
    | none => rw [hg] at hps; cases hps
    | some y =>
      rw [hg] at hps
      simp only [Option.map_some, Option.some.injEq] at hps
      subst hps
      have hyk := hk y (List.mem_of_getElem? hg)
      obtain ⟨f1, f2⟩ := t4 k x y hx hg
      constructor
      · cases f1 with
        | hyp j hj hlab =>
          have kj := hh j hj
          have hb := (mem_hyps_iff (look := look) h hp j).mp hj
          have hcode : codeAt keep (j : Int) = (pos keep j : Int) := by unfold codeAt; rw [if_pos (by omega), Int.toNat_natCast]
          rw [hcode]
          refine .hyp _ ((mem_hyps_ext (look := look) h h' hK hp kp hh).mpr ⟨j, hj, rfl⟩) ?_
          rw [← hlab]
          exact label_ext hb.1.1 (by have := hb.1.2.1; omega) kj
        | back i y hi1 hi2 hi3 =>
          have hcode : codeAt keep (-1000 - (i : Int)) = -1000 - (i : Int) := by unfold codeAt; rw [if_neg (by omega)]
          rw [hcode]
          exact .back i y hi1 hi2 hi3
        | use j j1 j2 j3 hlab hne =>
          have kj := hyk (by omega)
          rw [Int.toNat_natCast] at kj
          have hcode : codeAt keep (j : Int) = (pos keep j : Int) := by unfold codeAt; rw [if_pos (by omega), Int.toNat_natCast]
          rw [hcode]
          rw [kind_env h] at j3
          have jl : j ≤ src.length := by omega
          refine .use _ ?_ (pos_lt j2 kp) (by rw [kind_env h', kind_ext j1 jl kj]; exact j3) ?_ hne
          · obtain ⟨m, rfl⟩ : ∃ m, j = m + 1 := ⟨j - 1, by omega⟩
            rw [pos_kept kj]; omega
          · rw [← hlab]; exact label_ext j1 jl kj
      · intro hx0
        obtain ⟨g1, g2⟩ := f2 hx0
        have ky := hyk g1
        rw [kind_env h] at g2
        obtain ⟨y1, y2⟩ := assert_bound (src := src) (i := y.toNat) g2
        have hcode : codeAt keep y = (pos keep y.toNat : Int) := by unfold codeAt; rw [if_pos g1]
        rw [hcode, Int.toNat_natCast, kind_env h', kind_ext y1 y2 ky]
        exact ⟨by omega, g2⟩

end
end MM.Extr
