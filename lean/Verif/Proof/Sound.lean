import Verif.Proof.Walk
/-!
# What an accepted proof text says, and which texts are accepted
-/
namespace MM.Proof
open MM.Veri MM.Pars MM.Spec

variable {E : Env} {p : Nat}

theorem fixTokens_ret {toks : List Name} (h : (fixTokens toks).2.1 = 0) : (fixTokens toks) = (toks, 0, 0) ∧ toks ≠ [] ∧
    ∀ l, toks.getLast? = some l → l.head? ≠ some ':' := by
  unfold fixTokens at h ⊢
  dsimp only at h ⊢
  cases toks with
  | nil => exact absurd h (by decide)
  | cons t ts =>
    by_cases ht : t.head? = some ':'
    · exfalso
      simp [ht] at h
      cases hl : (['?'] :: ts).getLast? with
      | none => simp at hl
      | some l =>
        rw [hl] at h
        dsimp only at h
        split at h <;> simp at h
    · simp only [List.isEmpty_cons, Bool.false_eq_true, if_false, ht] at h ⊢
      cases hl : (t :: ts).getLast? with
      | none => simp at hl
      | some l =>
        rw [hl] at h
        dsimp only at h ⊢
        split at h
        · simp at h
        · rename_i hc
          rw [if_neg hc]
          simp [hc]

theorem fixTokens_id {toks : List Name} (h1 : toks ≠ []) (h2 : ∀ t, toks.head? = some t → t.head? ≠ some ':')
    (h3 : ∀ t, toks.getLast? = some t → t.head? ≠ some ':') : fixTokens toks = (toks, 0, 0) := by
  unfold fixTokens
  dsimp only
  cases toks with
  | nil => exact absurd rfl h1
  | cons t ts =>
    simp only [List.isEmpty_cons, Bool.false_eq_true, if_false, h2 t rfl]
    cases hl : (t :: ts).getLast? with
    | none => rfl
    | some l => dsimp only; rw [if_neg (h3 l hl)]

theorem getLast_declText {ls : List Name} (h : ls ≠ []) (pre : List Name) : (pre ++ declText ls).getLast? = some [':'] := by
  rcases List.eq_nil_or_concat ls with h1 | ⟨a, b, h1⟩
  · exact absurd h1 h
  · rw [h1, List.concat_eq_append, declText, List.flatMap_append]
    simp

theorem dupCount_zero : ∀ {l : List (Name × Int)}, dupCount l = 0 → (l.map Prod.fst).Nodup
  | [], _ => List.nodup_nil
  | e :: es, h => by
    simp only [dupCount] at h
    rw [List.map_cons, List.nodup_cons]
    refine ⟨fun hm => ?_, dupCount_zero (by omega)⟩
    obtain ⟨x, hx, hxe⟩ := List.mem_map.mp hm
    have : (es.any fun x => x.1 == e.1) = true := by
      rw [List.any_eq_true]
      exact ⟨x, hx, by simp [hxe]⟩
    rw [if_pos this] at h
    omega

theorem locTable_names : ∀ (xs : List Item) (k : Nat), (locTable k xs).map Prod.fst = xs.flatMap Item.labels
  | [], _ => rfl
  | x :: xs, k => by
    simp only [locTable, List.map_append, List.flatMap_cons, locTable_names xs (k + 1)]
    congr 1
    simp [Function.comp_def]

/-- The text of a proof accepted with return code 0, what its tokens refer to, and its local labels are different. -/
theorem parseProof_refers_nodup {toks : List Name} {r : Parsed} (hlook : LookOk E.look) (hc : Colons toks)
    (h : parseProof E p toks = .val r) (hr : r.ret = 0) :
    ∃ items : List Item, toks = text items ∧ items.length = r.proof.length ∧
      (∀ x ∈ items, (∀ l ∈ x.labels, LocalOk E p l) ∧ x.tok.head? ≠ some ':') ∧
      (∀ k x ps, items[k]? = some x → r.proof[k]? = some ps → Refers E p items k x.tok ps ∧
        (x.labels ≠ [] → 0 ≤ ps ∧ ((E.stmt ps.toNat).kind = .a ∨ (E.stmt ps.toNat).kind = .p)) ∧ x.tok.head? ≠ some '?') ∧
      (items.flatMap Item.labels).Nodup := by
  unfold parseProof at h
  dsimp only at h
  cases hs : lscan E p [] (fixTokens toks).1 { tbl := hypTable E p, ret := (fixTokens toks).2.1, ec := (fixTokens toks).2.2 } with
  | val s =>
    rw [hs, Out.bind_val] at h
    split at h
    · cases h
    split at h
    · cases h
    generalize hdd : (if decide (s.tbl.length > (hypTable E p).length) = true then dupCount s.tbl else 0) = d at h
    cases hw : walk E p s.tbl s.steps ⟨[], 0, if d > 0 then max s.ret 2 else s.ret, s.ec + d⟩ with
    | val w =>
      rw [hw, Out.bind_val] at h
      have hwr : w.ret = 0 ∧ r.proof = w.proof := by
        split at h
        · split at h
          · cases h
          · cases h; dsimp only at hr; omega
        · cases h; exact ⟨hr, rfl⟩
      have hr0 := walk_ret hw
      dsimp only at hr0
      have hs2 : s.ret = 0 := by split at hr0 <;> omega
      have hfr := lscan_ret hs
      dsimp only at hfr
      obtain ⟨hfix, hne, hlast⟩ := fixTokens_ret (toks := toks) (by omega)
      rw [hfix] at hs
      have hmk : ({ tbl := hypTable E p, ret := 0, ec := 0 } : LScan) = mkState E p [] [] 0 0 := by simp [mkState, locTable]
      dsimp only at hs
      rw [hmk] at hs
      obtain ⟨ys, ls, b1, b2, b3, b4⟩ := lscan_items hc hs (by omega) (by intro _ ys y hy; simp at hy) (by simp)
        (by
          intro _ _ t ht
          have := fixTokens_head (toks := toks) (by rw [hfix]; exact Nat.zero_lt_two) t (by rw [hfix]; exact ht)
          exact this) (by simp) (by simp)
      have hls : ls = [] := by
        by_contra hls
        have hg := getLast_declText hls (text ys)
        rw [← b2] at hg
        simp only [text, declText, List.flatMap_nil, List.append_nil, List.nil_append] at hg
        exact hlast _ hg rfl
      subst hls
      rw [b1] at hw
      have htbl : (mkState E p ys [] 0 0).tbl = hypTable E p ++ locTable 0 ys := by simp [mkState]
      rw [htbl] at hw
      have hsteps : (mkState E p ys [] 0 0).steps = ys.map fun x => (x.tok, !x.labels.isEmpty) := rfl
      rw [hsteps] at hw
      obtain ⟨⟨l, hl, hll⟩, hall⟩ := walk_refers hlook (xs := ys) (ys := []) (by simp) rfl hw hwr.1
      refine ⟨ys, by simpa [text, declText] using b2, by rw [hwr.2, hl]; simp [hll], b3, ?_, ?_⟩
      · intro k x ps hx hps
        rw [hwr.2] at hps
        exact hall k x ps (Nat.zero_le _) hx hps
      · have hd0 : d = 0 := by
          by_cases hd : d > 0
          · rw [if_pos hd] at hr0; omega
          · omega
        rw [b1, htbl, hd0] at hdd
        rw [← locTable_names ys 0]
        by_cases hlen : (hypTable E p ++ locTable 0 ys).length > (hypTable E p).length
        · rw [if_pos (by simpa using hlen)] at hdd
          have := dupCount_zero hdd
          rw [List.map_append, List.nodup_append] at this
          exact this.2.1
        · have : locTable 0 ys = [] := by
            apply List.length_eq_zero_iff.mp
            rw [List.length_append] at hlen
            omega
          rw [this]; exact List.nodup_nil
    | ub => rw [hw] at h; cases h
    | bug n => rw [hw] at h; cases h
    | fuel => rw [hw] at h; cases h
  | ub => rw [hs] at h; cases h
  | bug n => rw [hs] at h; cases h
  | fuel => rw [hs] at h; cases h

/-- The text of a proof accepted with return code 0, and what its tokens refer to. -/
theorem parseProof_refers {toks : List Name} {r : Parsed} (hlook : LookOk E.look) (hc : Colons toks)
    (h : parseProof E p toks = .val r) (hr : r.ret = 0) :
    ∃ items : List Item, toks = text items ∧ items.length = r.proof.length ∧
      (∀ x ∈ items, (∀ l ∈ x.labels, LocalOk E p l) ∧ x.tok.head? ≠ some ':') ∧
      ∀ k x ps, items[k]? = some x → r.proof[k]? = some ps → Refers E p items k x.tok ps ∧
        (x.labels ≠ [] → 0 ≤ ps ∧ ((E.stmt ps.toNat).kind = .a ∨ (E.stmt ps.toNat).kind = .p)) ∧ x.tok.head? ≠ some '?' := by
  obtain ⟨items, h1, h2, h3, h4, _⟩ := parseProof_refers_nodup hlook hc h hr
  exact ⟨items, h1, h2, h3, h4⟩

/-! ## Completeness -/

/-- Labels of statements are unambiguous, and only `$e`, `$f`, `$a`, `$p` have one. -/
structure LabelsOk (E : Env) : Prop where
  uniq : ∀ i j, 1 ≤ i → i ≤ E.n → 1 ≤ j → j ≤ E.n → E.lab i ≠ [] → E.lab i = E.lab j → i = j
  kinds : ∀ i, 1 ≤ i → i ≤ E.n → (E.lab i ≠ [] ↔ (E.stmt i).kind = .e ∨ (E.stmt i).kind = .f ∨ (E.stmt i).kind = .a ∨ (E.stmt i).kind = .p)

/-- The hypotheses of `p` are `$e`/`$f` statements before `p`, listed once. -/
structure HypsOk (E : Env) (p : Nat) : Prop where
  range : p ≤ E.n
  mem : ∀ j ∈ (E.stmt p).reqHyp ++ (E.stmt p).optHyp, 1 ≤ j ∧ j < p ∧ ((E.stmt j).kind = .e ∨ (E.stmt j).kind = .f)
  nodup : ((E.stmt p).reqHyp ++ (E.stmt p).optHyp).Nodup

/-- The items of a proof text are well formed: local labels consist of legal characters, are pairwise distinct and different from
the labels of the active hypotheses and of the assertions up to `p`; tokens do not start with `?` or `:`. -/
structure TextOk (E : Env) (p : Nat) (items : List Item) : Prop where
  legal : ∀ x ∈ items, ∀ l ∈ x.labels, l ≠ [] ∧ ∀ c ∈ l, legalLabelChar c = true
  fresh : ∀ x ∈ items, ∀ l ∈ x.labels, ∀ j, 1 ≤ j → j ≤ p → E.lab j = l →
    (E.stmt j).kind ≠ .a ∧ (E.stmt j).kind ≠ .p ∧ j ∉ (E.stmt p).reqHyp ++ (E.stmt p).optHyp
  nodup : (items.flatMap Item.labels).Nodup
  toks : ∀ x ∈ items, x.tok.head? ≠ some ':' ∧ x.tok.head? ≠ some '?'

theorem mem_hypTable {nm : Name} {j : Int} : (nm, j) ∈ hypTable E p ↔ ∃ i ∈ (E.stmt p).reqHyp ++ (E.stmt p).optHyp, E.lab i = nm ∧ (i : Int) = j := by
  simp only [hypTable, List.mem_map, Prod.mk.injEq, List.mem_append, Or.comm]

theorem mem_labelKeys_iff {nm : Name} {j : Int} : (nm, j) ∈ labelKeys E ↔
    ∃ i : Nat, 1 ≤ i ∧ i ≤ E.n ∧ E.lab i ≠ [] ∧ (E.stmt i).kind ≠ .e ∧ (E.stmt i).kind ≠ .f ∧ E.lab i = nm ∧ (i : Int) = j := by
  simp only [labelKeys, List.mem_map, List.mem_filter, List.mem_range', Prod.mk.injEq, decide_eq_true_eq]
  constructor
  · rintro ⟨i, ⟨⟨q, hq, hi⟩, h1, h2, h3⟩, h4, h5⟩
    exact ⟨i, by omega, by omega, h1, h2, h3, h4, h5⟩
  · rintro ⟨i, h0, h1, h2, h3, h4, h5, h6⟩
    exact ⟨i, ⟨⟨i - 1, by omega, by omega⟩, h2, h3, h4⟩, h5, h6⟩

theorem localOk_of {items : List Item} (hlook : LookOk E.look) (hL : LabelsOk E) (hH : HypsOk E p) (hT : TextOk E p items) {x} (hx : x ∈ items) {l}
    (hl : l ∈ x.labels) : LocalOk E p l := by
  refine ⟨(hT.legal x hx l hl).2, ?_, ?_⟩
  · intro j hj hle
    obtain ⟨i, h1, h2, h3, h4, h5, h6, h7⟩ := mem_labelKeys_iff.mp ((hlook _ _).1 j hj)
    have hf := hT.fresh x hx l hl i h1 (by omega) h6
    have := (hL.kinds i h1 h2).mp h3
    tauto
  · cases hq : E.look (hypTable E p) l with
    | none => rfl
    | some j =>
      exfalso
      obtain ⟨i, h1, h2, h3⟩ := mem_hypTable.mp ((hlook _ _).1 j hq)
      obtain ⟨h4, h5, _⟩ := hH.mem i h1
      exact (hT.fresh x hx l hl i h4 (by omega) h2).2.2 h1

/-- A table search for a name with a unique entry finds it. -/
theorem look_unique {look : Look} (hlook : LookOk look) {tbl : List (Name × Int)} {nm : Name} {j : Int} (h : (nm, j) ∈ tbl)
    (hu : ∀ i, (nm, i) ∈ tbl → i = j) : look tbl nm = some j := by
  cases hq : look tbl nm with
  | none => exact absurd h ((hlook tbl nm).2 hq j)
  | some i => rw [hu i ((hlook tbl nm).1 i hq)]

theorem look_none {look : Look} (hlook : LookOk look) {tbl : List (Name × Int)} {nm : Name} (h : ∀ i, (nm, i) ∉ tbl) : look tbl nm = none := by
  cases hq : look tbl nm with
  | none => rfl
  | some i => exact absurd ((hlook tbl nm).1 i hq) (h i)

theorem local_unique : ∀ {items : List Item}, (items.flatMap Item.labels).Nodup → ∀ {i j : Nat} {x y : Item} {l : Name},
    items[i]? = some x → items[j]? = some y → l ∈ x.labels → l ∈ y.labels → i = j
  | [], _, i, j, x, y, l, hi, _, _, _ => by simp at hi
  | z :: zs, hn, i, j, x, y, l, hi, hj, hx, hy => by
    rw [List.flatMap_cons, List.nodup_append] at hn
    cases i with
    | zero =>
      cases j with
      | zero => rfl
      | succ j =>
        simp at hi hj
        subst hi
        exact absurd rfl (hn.2.2 l hx l (List.mem_flatMap.mpr ⟨y, List.mem_of_getElem? hj, hy⟩))
    | succ i =>
      cases j with
      | zero =>
        simp at hi hj
        subst hj
        exact absurd rfl (hn.2.2 l hy l (List.mem_flatMap.mpr ⟨x, List.mem_of_getElem? hi, hx⟩))
      | succ j =>
        simp at hi hj
        rw [local_unique hn.2.1 hi hj hx hy]

/-- The names in the search table are pairwise different. -/
theorem table_nodup {items : List Item} (hL : LabelsOk E) (hH : HypsOk E p) (hT : TextOk E p items) :
    ((hypTable E p ++ locTable 0 items).map Prod.fst).Nodup := by
  have hhyp : ∀ j ∈ (E.stmt p).reqHyp ++ (E.stmt p).optHyp, 1 ≤ j ∧ j ≤ E.n ∧ E.lab j ≠ [] := by
    intro j hj
    obtain ⟨h1, h2, h3⟩ := hH.mem j hj
    have := hH.range
    exact ⟨h1, by omega, (hL.kinds j h1 (by omega)).mpr (by tauto)⟩
  have hloc : ∀ (its : List Item) (k : Nat), (locTable k its).map Prod.fst = its.flatMap Item.labels := by
    intro its
    induction its with
    | nil => intro k; rfl
    | cons x xs ih => intro k; simp [locTable, ih, Function.comp_def]
  rw [List.map_append, List.nodup_append, hloc]
  refine ⟨?_, hT.nodup, ?_⟩
  · simp only [hypTable, List.map_map, Function.comp_def]
    have hn : ((E.stmt p).optHyp ++ (E.stmt p).reqHyp).Nodup := List.nodup_append_comm.mp hH.nodup
    rw [List.Nodup, List.pairwise_map]
    refine List.Pairwise.imp_of_mem ?_ hn
    intro a b ha hb hab he
    have ha' := hhyp a (by simp only [List.mem_append] at ha ⊢; tauto)
    have hb' := hhyp b (by simp only [List.mem_append] at hb ⊢; tauto)
    exact hab (hL.uniq a b ha'.1 ha'.2.1 hb'.1 hb'.2.1 ha'.2.2 he)
  · intro a ha b hb hab
    subst hab
    simp only [hypTable, List.map_map, List.mem_map, Function.comp_def] at ha
    obtain ⟨i, hi, hi2⟩ := ha
    obtain ⟨x, hx, hxl⟩ := List.mem_flatMap.mp hb
    have hi' : i ∈ (E.stmt p).reqHyp ++ (E.stmt p).optHyp := by simp only [List.mem_append] at hi ⊢; tauto
    obtain ⟨h1, h2, _⟩ := hH.mem i hi'
    exact (hT.fresh x hx _ hxl i h1 (by omega) hi2).2.2 hi'

theorem dup_free : ∀ {tbl : List (Name × Int)}, (tbl.map Prod.fst).Nodup → dupCount tbl = 0 ∧ dupUb tbl = false
  | [], _ => ⟨rfl, rfl⟩
  | e :: es, h => by
    rw [List.map_cons, List.nodup_cons] at h
    obtain ⟨h1, h2⟩ := dup_free h.2
    have : ∀ x ∈ es, (x.1 == e.1) = false := by
      intro x hx
      simp only [beq_eq_false_iff_ne]
      intro he
      exact h.1 (List.mem_map.mpr ⟨x, hx, he⟩)
    constructor
    · rw [dupCount, h1, if_neg]
      rw [Bool.not_eq_true, List.any_eq_false]
      intro x hx; simp [this x hx]
    · rw [dupUb, h2, Bool.or_false, List.any_eq_false]
      intro x hx; simp [this x hx]

/-- A step that refers to something, with enough entries on the stack, is processed without error. -/
theorem walkTok_complete {items : List Item} (hlook : LookOk E.look) (hL : LabelsOk E) (hH : HypsOk E p) (hT : TextOk E p items)
    {x : Item} {w : Walk} (hx : items[w.proof.length]? = some x) {ps : Int} (href : Refers E p items w.proof.length x.tok ps)
    (hlab : x.labels ≠ [] → 0 ≤ ps ∧ ((E.stmt ps.toNat).kind = .a ∨ (E.stmt ps.toNat).kind = .p))
    (hsp : 0 ≤ ps → ((E.stmt ps.toNat).kind = .a ∨ (E.stmt ps.toNat).kind = .p) → (E.stmt ps.toNat).reqHyp.length ≤ w.sp) :
    walkTok E p (hypTable E p ++ locTable 0 items) (x.tok, !x.labels.isEmpty) w =
      .val ⟨w.proof ++ [ps], if 0 ≤ ps ∧ ((E.stmt ps.toNat).kind = .a ∨ (E.stmt ps.toNat).kind = .p) then
        w.sp - (E.stmt ps.toNat).reqHyp.length + 1 else w.sp + 1, w.ret, w.ec⟩ := by
  have hxm := List.mem_of_getElem? hx
  have hq := (hT.toks x hxm).2
  unfold walkTok
  rw [if_neg hq]
  dsimp only
  cases href with
  | hyp j hj hjl =>
    obtain ⟨h1, h2, h3⟩ := hH.mem j hj
    have hnk : ¬ ((E.stmt j).kind = .a ∨ (E.stmt j).kind = .p) := by
      rcases h3 with h3 | h3 <;> rw [h3] <;> simp
    have hln : E.lab j ≠ [] := (hL.kinds j h1 (by have := hH.range; omega)).mpr (by tauto)
    have hl0 : x.labels = [] := by
      by_contra hc
      have := (hlab hc).2
      simp only [Int.toNat_natCast] at this
      exact hnk this
    rw [look_unique hlook (j := (j : Int)) (List.mem_append_left _ (mem_hypTable.mpr ⟨j, hj, hjl, rfl⟩))]
    · dsimp only
      rw [if_neg (by omega), if_neg (by omega)]
      simp only [Int.toNat_natCast, hnk, and_false, if_false, hl0]
      simp
    · intro i hi
      rcases List.mem_append.mp hi with hi | hi
      · obtain ⟨q, hq1, hq2, rfl⟩ := mem_hypTable.mp hi
        obtain ⟨h4, h5, h6⟩ := hH.mem q hq1
        have := hH.range
        rw [hL.uniq j q h1 (by omega) h4 (by omega) hln (hjl.trans hq2.symm)]
      · exfalso
        obtain ⟨q, y, hy1, hy2, _⟩ := mem_locTable.mp hi
        exact (hT.fresh y (List.mem_of_getElem? hy1) _ hy2 j h1 (by omega) hjl).2.2 hj
  | back i y hik hy hyl =>
    have hl0 : x.labels = [] := by
      by_contra hc
      have := (hlab hc).1
      omega
    have hneg : ¬ (0 ≤ -1000 - (i : Int)) := by omega
    rw [look_unique hlook (j := -1000 - (i : Int)) (List.mem_append_right _ (mem_locTable.mpr ⟨i, y, hy, hyl, by push_cast; omega⟩))]
    · dsimp only
      rw [if_pos (by omega), if_neg (by omega)]
      have hd : decide (-1000 - (-1000 - (i : Int)) > (w.proof.length : Int)) = false := by simp; omega
      simp only [hd, hl0, hneg, false_and, if_false, Bool.false_eq_true, List.isEmpty_nil, Bool.not_true, Bool.or_false, Nat.add_zero]
    · intro j hj
      rcases List.mem_append.mp hj with hj | hj
      · exfalso
        obtain ⟨q, hq1, hq2, rfl⟩ := mem_hypTable.mp hj
        obtain ⟨h4, h5, h6⟩ := hH.mem q hq1
        exact (hT.fresh y (List.mem_of_getElem? hy) _ hyl q h4 (by omega) hq2).2.2 hq1
      · obtain ⟨q, z, hz1, hz2, hz3⟩ := mem_locTable.mp hj
        rw [local_unique hT.nodup hy hz1 hyl hz2]
        dsimp only at hz3
        rw [hz3]; push_cast; omega
  | use j h1 h2 h3 h4 h5 =>
    have hjn : j ≤ E.n := by have := hH.range; omega
    have hln : E.lab j ≠ [] := by rw [h4]; exact h5
    rw [look_none hlook]
    · dsimp only
      rw [look_unique hlook (j := (j : Int)) (mem_labelKeys_iff.mpr ⟨j, h1, hjn, hln, by rcases h3 with h3 | h3 <;> rw [h3] <;> simp,
        by rcases h3 with h3 | h3 <;> rw [h3] <;> simp, h4, rfl⟩)]
      · dsimp only
        simp only [Int.toNat_natCast] at hsp ⊢
        rw [if_neg (by tauto), if_neg (by have := hsp (by omega) h3; omega)]
        have hfut : decide ((j : Int) ≥ (p : Int)) = false := by simp; omega
        simp only [hfut, h3, Bool.false_eq_true, if_false, Nat.add_zero]
        rw [if_pos ⟨by omega, trivial⟩]
      · intro i hi
        obtain ⟨q, hq1, hq2, hq3, _, _, hq4, rfl⟩ := mem_labelKeys_iff.mp hi
        rw [hL.uniq j q h1 hjn hq1 hq2 hln (h4.trans hq4.symm)]
    · intro i hi
      rcases List.mem_append.mp hi with hi | hi
      · obtain ⟨q, hq1, hq2, rfl⟩ := mem_hypTable.mp hi
        obtain ⟨h6, h7, h8⟩ := hH.mem q hq1
        have hrg := hH.range
        have := hL.uniq j q h1 hjn h6 (by omega) hln (h4.trans hq2.symm)
        subst this
        rcases h3 with h3 | h3 <;> rcases h8 with h8 | h8 <;> rw [h3] at h8 <;> cases h8
      · obtain ⟨q, z, hz1, hz2, _⟩ := mem_locTable.mp hi
        have := hT.fresh z (List.mem_of_getElem? hz1) _ hz2 j h1 (by omega) h4
        tauto

theorem walk_snoc {tbl : List (Name × Int)} {x : Name × Bool} : ∀ {xs : List (Name × Bool)} {w : Walk},
    walk E p tbl (xs ++ [x]) w = (walk E p tbl xs w >>= walkTok E p tbl x)
  | [], w => by
    simp only [List.nil_append, walk, Out.bind_val]
    cases walkTok E p tbl x w <;> rfl
  | y :: ys, w => by
    simp only [List.cons_append, walk]
    cases walkTok E p tbl y w with
    | val w1 => simp only [Out.bind_val]; exact walk_snoc
    | ub => rfl
    | bug n => rfl
    | fuel => rfl

theorem walk_complete {items : List Item} (hlook : LookOk E.look) (hL : LabelsOk E) (hH : HypsOk E p) (hT : TextOk E p items) {r e : Nat}
    {proof : List Int} {n : Nat} (hD : Depth E.toDb proof n) : proof.length ≤ items.length →
    (∀ k x ps, items[k]? = some x → proof[k]? = some ps → Refers E p items k x.tok ps ∧
        (x.labels ≠ [] → 0 ≤ ps ∧ ((E.stmt ps.toNat).kind = .a ∨ (E.stmt ps.toNat).kind = .p))) →
    walk E p (hypTable E p ++ locTable 0 items) ((items.take proof.length).map fun x => (x.tok, !x.labels.isEmpty)) ⟨[], 0, r, e⟩ =
      .val ⟨proof, n, r, e⟩ := by
  induction hD with
  | nil => intro _ _; rfl
  | @push l n a hD ha ih =>
    intro hlen hres
    simp only [List.length_append, List.length_cons, List.length_nil, Nat.zero_add] at hlen
    have hx : items[l.length]? = some items[l.length] := List.getElem?_eq_getElem (by omega)
    have ih := ih (by omega) (fun k x ps hk hp => by
      refine hres k x ps hk ?_
      rw [List.getElem?_append_left]
      · exact hp
      · by_contra hc; rw [List.getElem?_eq_none (by omega)] at hp; cases hp)
    have hr := hres l.length _ a hx (by simp)
    simp only [List.length_append, List.length_cons, List.length_nil, Nat.zero_add, List.take_add_one, hx, Option.toList_some, List.map_append, List.map_cons, List.map_nil]
    rw [walk_snoc, ih, Out.bind_val]
    have hnot : ¬ (0 ≤ a ∧ ((E.stmt a.toNat).kind = .a ∨ (E.stmt a.toNat).kind = .p)) := by
      rintro ⟨h1, h2⟩
      rcases ha with ha | ha | ⟨_, ha⟩
      · rw [ha] at h1; exact absurd h1 (by decide)
      · omega
      · rcases h2 with h2 | h2 <;> rcases ha with ha | ha <;> rw [h2] at ha <;> cases ha
    have := walkTok_complete (w := ⟨l, n, r, e⟩) hlook hL hH hT hx hr.1 hr.2 (fun h1 h2 => absurd ⟨h1, h2⟩ hnot)
    rw [this, if_neg hnot]
  | @use l n a hD ha0 ha hn ih =>
    intro hlen hres
    simp only [List.length_append, List.length_cons, List.length_nil, Nat.zero_add] at hlen
    have hx : items[l.length]? = some items[l.length] := List.getElem?_eq_getElem (by omega)
    have ih := ih (by omega) (fun k x ps hk hp => by
      refine hres k x ps hk ?_
      rw [List.getElem?_append_left]
      · exact hp
      · by_contra hc; rw [List.getElem?_eq_none (by omega)] at hp; cases hp)
    have hr := hres l.length _ a hx (by simp)
    simp only [List.length_append, List.length_cons, List.length_nil, Nat.zero_add, List.take_add_one, hx, Option.toList_some, List.map_append, List.map_cons, List.map_nil]
    rw [walk_snoc, ih, Out.bind_val]
    have := walkTok_complete (w := ⟨l, n, r, e⟩) hlook hL hH hT hx hr.1 hr.2 (fun _ _ => hn)
    rw [this, if_pos ⟨ha0, ha⟩]

theorem text_last {items : List Item} (h : items ≠ []) : ∃ x ∈ items, (text items).getLast? = some x.tok := by
  rcases List.eq_nil_or_concat items with h1 | ⟨a, b, h1⟩
  · exact absurd h1 h
  · rw [h1, List.concat_eq_append]
    refine ⟨b, by simp, ?_⟩
    rw [text_append]; simp [text]

theorem text_head {items : List Item} (h : items ≠ []) : ∃ x ∈ items, ∃ t, (text items).head? = some t ∧ (t = x.tok ∨ t ∈ x.labels) := by
  cases items with
  | nil => exact absurd rfl h
  | cons x xs =>
    refine ⟨x, by simp, ?_⟩
    cases hl : x.labels with
    | nil => exact ⟨x.tok, by simp [text, declText, hl], Or.inl rfl⟩
    | cons l ls => exact ⟨l, by simp [text, declText, hl], Or.inr (by simp)⟩

/-- A well-formed text whose tokens refer to `proof`, and whose stack use is right, is parsed without any error to `proof`. -/
theorem parseProof_complete {items : List Item} (hlook : LookOk E.look) (hL : LabelsOk E) (hH : HypsOk E p) (hT : TextOk E p items)
    {proof : List Int} (hlen : proof.length = items.length) (hD : Depth E.toDb proof 1)
    (hres : ∀ k x ps, items[k]? = some x → proof[k]? = some ps → Refers E p items k x.tok ps ∧
        (x.labels ≠ [] → 0 ≤ ps ∧ ((E.stmt ps.toNat).kind = .a ∨ (E.stmt ps.toNat).kind = .p))) :
    parseProof E p (text items) = .val ⟨proof, 0, 0⟩ := by
  have hne : items ≠ [] := by
    rintro rfl
    have : proof = [] := List.length_eq_zero_iff.mp hlen
    subst this
    generalize h1 : 1 = one at hD
    generalize hnil : ([] : List Int) = l at hD
    cases hD <;> simp at h1 hnil
  have hcol : ∀ x ∈ items, ∀ l ∈ x.labels, l.head? ≠ some ':' := by
    intro x hx l hl hc
    cases l with
    | nil => cases hc
    | cons c cs =>
      simp at hc; subst hc
      have := (hT.legal x hx _ hl).2 ':' (by simp)
      exact absurd this (by decide)
  have htne : text items ≠ [] := by
    obtain ⟨x, _, h1⟩ := text_last hne
    intro h2; rw [h2] at h1; cases h1
  have hfix : fixTokens (text items) = (text items, 0, 0) := by
    refine fixTokens_id htne ?_ ?_
    · intro t ht
      obtain ⟨x, hx, t', h1, h2⟩ := text_head hne
      rw [ht] at h1; cases h1
      rcases h2 with rfl | h2
      · exact (hT.toks x hx).1
      · exact hcol x hx t h2
    · intro t ht
      obtain ⟨x, hx, h1⟩ := text_last hne
      rw [ht] at h1; cases h1
      exact (hT.toks x hx).1
  unfold parseProof
  rw [hfix]
  have hmk : ({ tbl := hypTable E p, ret := 0, ec := 0 } : LScan) = mkState E p [] [] 0 0 := by simp [mkState, locTable]
  dsimp only
  rw [hmk, lscan_text (fun x hx => ⟨fun l hl => ⟨localOk_of hlook hL hH hT hx hl, hcol x hx l hl⟩, (hT.toks x hx).1⟩), Out.bind_val, List.nil_append]
  have htbl : (mkState E p items [] 0 0).tbl = hypTable E p ++ locTable 0 items := by simp [mkState]
  have hsteps : (mkState E p items [] 0 0).steps = items.map fun x => (x.tok, !x.labels.isEmpty) := rfl
  rw [htbl, hsteps]
  obtain ⟨hd1, hd2⟩ := dup_free (table_nodup hL hH hT)
  rw [hd1, hd2, if_neg (by simp [mkState])]
  simp only [Bool.and_false, Bool.false_eq_true, if_false, ite_self]
  have := walk_complete (r := 0) (e := 0) hlook hL hH hT hD (by omega) hres
  rw [hlen, List.take_length] at this
  have hret : (mkState E p items [] 0 0).ret = 0 := rfl
  have hec : (mkState E p items [] 0 0).ec = 0 := rfl
  rw [hret, hec]
  simp only [Nat.lt_irrefl, gt_iff_lt, if_false, Nat.add_zero]
  rw [this, Out.bind_val]
  simp

end MM.Proof
