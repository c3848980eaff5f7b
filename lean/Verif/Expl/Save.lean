import Verif.Expl.Render
import Verif.Expl.Order
import Verif.Expl.Props
import Verif.Data.RenderProps
import Verif.Tree.SaveRead
/-!
# C69: a proof saved in the `/EXPLICIT` format
-/
namespace MM.Expl
open MM.Veri MM.Pars MM.Proof MM.Data MM.Tree MM.Pfas MM.Spec MM.Lex Forest

variable {E : Env} {p : Nat}

/-- The text of steps with targets. -/
def xrender (xs : List XItem) : List Char := xs.flatMap fun x => x.item.labels.flatMap (fun l => l ++ [':']) ++ x.tgt ++ ['='] ++ x.item.tok ++ [' ']

theorem xrender_snoc (xs : List XItem) (x : XItem) : xrender (xs ++ [x]) = xrender xs ++ (x.item.labels.flatMap (fun l => l ++ [':']) ++ x.tgt ++ ['='] ++ x.item.tok ++ [' ']) := by
  simp [xrender]

theorem inv_item {proof : List Int} {k : Nat} {st : RState} {its : List Item} {it : Item} (h : RInv E proof (k + 1) st (its ++ [it])) : ItemOk E proof (fun i => st.names.getD i 0) k it := by
  have hl : its.length = k := by have := h.itsLen; simpa using this
  exact h.items k it (by rw [List.getElem?_append_right (by omega), hl, Nat.sub_self]; rfl)

/-- One step, with and without target. -/
theorem renderX_step {proof : List Int} {k : Nat} {x t : Int} {st : RState} {xi : List XItem} (hk : proof[k]? = some x) (hx : Data.StepOk E proof.length x)
    (h : RInv E proof k st (xi.map XItem.item)) : ∃ st' it, renderStepX E (localLabels proof) k x t { st with text := xrender xi } = .val { st' with text := xrender (xi ++ [⟨it, E.lab t.toNat⟩]) } ∧
      RInv E proof (k + 1) st' (List.map XItem.item (xi ++ [(⟨it, E.lab t.toNat⟩ : XItem)])) := by
  obtain ⟨st', it, h1, h2⟩ := render_step hk hx h
  refine ⟨st', it, ?_, by rw [List.map_append]; exact h2⟩
  have hit := inv_item h2
  rw [xrender_snoc]
  dsimp only
  unfold renderStep at h1
  unfold renderStepX
  rcases hx with hx | hx | hx
  · rw [if_neg (by omega), if_neg (by omega)] at h1 ⊢
    have htok := hit.stmt x hk hx.1
    by_cases hd : nmbrElementIn 1 (localLabels proof) (k : Int) ≠ 0
    · rw [if_pos hd] at h1 ⊢
      obtain ⟨m, m1, h1⟩ := bind_val_inv h1
      cases h1
      have hlab := hit.decl ((decl_iff hk hx).2 hd)
      dsimp only at hlab
      have hkl : k < st.names.length := by rw [h.len]; exact (List.getElem?_eq_some_iff.1 hk).1
      rw [List.getD_eq_getElem?_getD, List.getElem?_set, if_pos rfl, if_pos hkl, Option.getD_some] at hlab
      rw [m1, Out.bind_val, hlab, htok]
      simp
    · rw [if_neg hd] at h1 ⊢
      cases h1
      rw [hit.undecl (fun hc => hd ((decl_iff hk hx).1 hc)), htok]
      simp
  · have hnd : ¬ Decl E proof k := by
      rintro ⟨⟨y, hy, h2, _⟩, _⟩
      rw [hk] at hy; cases hy; omega
    rw [if_pos (by omega), if_pos hx.1] at h1 ⊢
    obtain ⟨nm, m1, h1⟩ := bind_val_inv h1
    cases h1
    have htx := h2.text
    dsimp only at htx
    rw [h.text] at htx
    have hlab := hit.undecl hnd
    have htok : it.tok = strNat nm := by
      have : renderText (xi.map XItem.item ++ [it]) = renderText (xi.map XItem.item) ++ (it.tok ++ [' ']) := by simp [renderText, hlab]
      rw [this, List.append_assoc] at htx
      exact (List.append_cancel_right (List.append_cancel_left htx)).symm
    dsimp only
    rw [m1, Out.bind_val, hlab, htok]
    simp
  · subst hx
    have hnd : ¬ Decl E proof k := by
      rintro ⟨⟨y, hy, h2, _⟩, _⟩
      rw [hk] at hy; cases hy; simp [unk] at h2
    rw [if_pos (by decide), if_neg (by decide), if_neg (by simp)] at h1 ⊢
    cases h1
    rw [hit.undecl hnd, hit.unkn hk]
    simp

theorem renderX_loop {proof : List Int} (hx : ∀ x ∈ proof, Data.StepOk E proof.length x) : ∀ {xs ts : List Int} {k : Nat} {st : RState} {xi : List XItem}, proof.drop k = xs → k ≤ proof.length → ts.length = xs.length →
    RInv E proof k st (xi.map XItem.item) → ∃ st' xi', renderLoopX E (localLabels proof) k xs ts { st with text := xrender xi } = .val { st' with text := xrender xi' } ∧
      RInv E proof proof.length st' (xi'.map XItem.item) ∧ xi'.map XItem.tgt = xi.map XItem.tgt ++ ts.map fun t => E.lab t.toNat
  | [], [], k, st, xi, hd, hkl, _, hI => by
    have hk : k = proof.length := by have := congrArg List.length hd; simp at this; omega
    subst hk
    exact ⟨st, xi, rfl, hI, by simp⟩
  | x :: xs, t :: ts, k, st, xi, hd, _, hl, hI => by
    have hk : proof[k]? = some x := by
      have := congrArg List.head? hd
      rw [List.head?_drop] at this; exact this
    have hkl := (List.getElem?_eq_some_iff.1 hk).1
    obtain ⟨st1, it, h1, h2⟩ := renderX_step (t := t) hk (hx x (List.mem_of_getElem? hk)) hI
    obtain ⟨st', xi', h3, h4, h5⟩ := renderX_loop hx (xs := xs) (ts := ts) (k := k + 1) (by rw [← List.drop_drop, hd]; rfl) (by omega) (by simpa using hl) h2
    refine ⟨st', xi', ?_, h4, by rw [h5]; simp⟩
    unfold renderLoopX
    rw [h1, Out.bind_val, h3]
  | [], _ :: _, _, _, _, _, _, hl, _ => by simp at hl
  | _ :: _, [], _, _, _, _, _, hl, _ => by simp at hl

/-- The targets of a forest: each assertion finds them in the order of its hypotheses. -/
theorem orun_forest : ∀ {f : Forest} {g : Nat → Int} {st : List Name} {q : List (Name × Int)}, f.Wf E →
    orun E (((ann (downT E) g f).map fun t => E.lab t.toNat).zip f.flat ++ q) st = orun E q (((List.range f.count).map fun j => E.lab (g j).toNat).reverse ++ st)
  | nil, g, st, q, _ => by simp [ann, Forest.flat, Forest.count]
  | snoc l x ch, g, st, q, hw => by
    obtain ⟨hl, hc, hx, ha⟩ := hw
    have e : ((ann (downT E) g (snoc l x ch)).map fun t => E.lab t.toNat).zip (snoc l x ch).flat ++ q =
        ((ann (downT E) g l).map fun t => E.lab t.toNat).zip l.flat ++ (((ann (downT E) (fun j => downT E (g (count l)) x j) ch).map fun t => E.lab t.toNat).zip ch.flat ++
          ((E.lab (g (count l)).toNat, x) :: q)) := by
      simp only [ann, Forest.flat, List.map_append, List.append_assoc]
      rw [List.zip_append (by rw [List.length_map, ann_length]), List.append_assoc, List.zip_append (by rw [List.length_map, ann_length]), List.append_assoc]
      simp
    rw [e, orun_forest hl, orun_forest hc]
    have hlen : (((List.range ch.count).map fun j => E.lab (downT E (g (count l)) x j).toNat).reverse).length = arity E x := by simp [ha]
    have hreq : ((List.range ch.count).map fun j => E.lab (downT E (g (count l)) x j).toNat) = (hyps E x).map E.lab := by
      rw [← ha]
      unfold downT
      simp only [Int.toNat_natCast]
      rw [← hyps_length, ← Function.comp_def E.lab, ← List.map_map]
      congr 1
      apply List.ext_getElem (by simp)
      intro i h1 h2
      simp only [List.getElem_map, List.getElem_range]
      have ha0 : arity E x ≠ 0 := by rw [← hyps_length]; omega
      have : hyps E x = (E.stmt x.toNat).reqHyp := by unfold hyps; rw [if_neg ha0]
      unfold slotHyp
      simp only [this] at h2 ⊢
      rw [List.getD_eq_getElem?_getD, List.getElem?_eq_getElem h2]; rfl
    show (if (List.take (arity E x) _).reverse = _ then orun E q (_ :: List.drop (arity E x) _) else none) = _
    rw [← hlen, List.take_left, List.reverse_reverse, if_pos hreq, List.drop_left]
    congr 1
    rw [Forest.count, List.range_succ]
    simp

/-- Packed proofs are trees with references as leaves. -/
theorem packed_tree {src : List Src} {s : PState} {look : Look} (h : Accepted src s) (hp : kindAt (kinds src) p = .p) {refs : List Ref} (hP : PackedProof src s p refs) :
    ∃ t ch, (tree t ch).Wf (envOf look src s) ∧ (tree t ch).flat = refs.map Ref.code ∧ -1000 < t := by
  have hPE := packedE_of (look := look) h hp hP
  have hok : ∀ x ∈ refs.map Ref.code, Tree.StepOk (envOf look src s) x := by
    intro x hx
    obtain ⟨r, hr, rfl⟩ := mem_codes hx
    cases r with
    | stmt j =>
      have h1 := hPE.stmts j hr
      have hH := hypsOk_of (look := look) h hp
      have h2 := hH.range
      refine Or.inr (Or.inr ⟨by simp only [Ref.code]; omega, by simp only [Ref.code]; omega, ?_⟩)
      simp only [Ref.code, Int.toNat_natCast]
      rcases h1.2.2 with h3 | h3 | h3
      · have := (hH.mem j h3).2.2
        rcases this with h4 | h4
        · exact Or.inr (Or.inl h4)
        · exact Or.inl h4
      · exact Or.inr (Or.inr (Or.inl h3))
      · exact Or.inr (Or.inr (Or.inr h3))
    | step i => exact Or.inr (Or.inl (by simp only [Ref.code]; omega))
  obtain ⟨f, f1, f2, f3⟩ := forest_of_depth (E := envOf look src s) hP.tree hok
  cases f with
  | nil => simp [Forest.count] at f3
  | snoc l t ch =>
    have hl : l = nil := count_zero (by simpa [Forest.count] using f3)
    subst hl
    refine ⟨t, ch, f1, f2, ?_⟩
    cases hc : decide (-1000 < t) with
    | true => exact of_decide_eq_true hc
    | false =>
      exfalso
      have hc := of_decide_eq_false hc
      have hch : ch = nil := count_zero (f1.2.2.2.symm.trans (by unfold arity; rw [if_neg (by omega)]))
      subst hch
      have hfl : [t] = refs.map Ref.code := f2
      cases refs with
      | nil => cases hfl
      | cons r rs =>
        cases r with
        | stmt j => simp [Ref.code] at hfl; omega
        | step i => have := (hPE.steps 0 i rfl).1; omega

theorem proofWords_xrender : ∀ {xs : List XItem}, (∀ x ∈ xs, LabelWord x.item.tok ∧ LabelWord x.tgt ∧ ∀ l ∈ x.item.labels, LabelWord l) → proofWords (xrender xs).dropLast = xtext xs
  | [], _ => by simp [xrender, xtext, proofWords, spreadBy, words_nil]
  | [x], h => by
    obtain ⟨h1, h2, h3⟩ := h x (by simp)
    have e : (xrender [x]).dropLast = x.item.labels.flatMap (fun l => l ++ [':']) ++ (x.tgt ++ '=' :: (x.item.tok ++ [])) := by
      have : xrender [x] = (x.item.labels.flatMap (fun l => l ++ [':']) ++ (x.tgt ++ '=' :: x.item.tok)) ++ [' '] := by simp [xrender]
      rw [this, List.dropLast_concat]; simp
    rw [e, proofWords_decl h3, proofWords_word h2 (by intro c hc; simp at hc; subst hc; right; decide), proofWords_single _ _ (by decide), proofWords_word h1 (by intro c hc; simp at hc)]
    simp [xtext, proofWords, spreadBy, words_nil]
  | x :: y :: xs, h => by
    obtain ⟨h1, h2, h3⟩ := h x (by simp)
    have e : (xrender (x :: y :: xs)).dropLast = x.item.labels.flatMap (fun l => l ++ [':']) ++ (x.tgt ++ '=' :: (x.item.tok ++ ' ' :: (xrender (y :: xs)).dropLast)) := by
      have : xrender (x :: y :: xs) = (x.item.labels.flatMap (fun l => l ++ [':']) ++ x.tgt ++ ['='] ++ x.item.tok ++ [' ']) ++ xrender (y :: xs) := by
        unfold xrender; rw [List.flatMap_cons]
      rw [this, List.dropLast_append_of_ne_nil (by simp [xrender])]
      simp
    rw [e, proofWords_decl h3, proofWords_word h2 (by intro c hc; simp at hc; subst hc; right; decide), proofWords_single _ _ (by decide),
      proofWords_word h1 (by intro c hc; simp at hc; subst hc; left; decide), proofWords_blank _ _ (by decide), proofWords_xrender (fun z hz => h z (by simp [hz]))]
    simp [xtext]

theorem xrender_print {xs : List XItem} (h : ∀ x ∈ xs, LabelWord x.item.tok ∧ LabelWord x.tgt ∧ ∀ l ∈ x.item.labels, LabelWord l) : ∀ c ∈ xrender xs, c = ' ' ∨ (printable c = true ∧ c ≠ '$') := by
  intro c hc
  have key : ∀ c, LabelChar c → c = ' ' ∨ (printable c = true ∧ c ≠ '$') := fun c h => by
    rw [printable_eq]; exact Or.inr ⟨(labelChar_graph h).1, (labelChar_graph h).2.2.1⟩
  unfold xrender at hc
  obtain ⟨x, hx, hc⟩ := List.mem_flatMap.1 hc
  obtain ⟨h1, h2, h3⟩ := h x hx
  simp only [List.mem_append, List.mem_singleton] at hc
  rcases hc with (((hc | hc) | hc) | hc) | hc
  · obtain ⟨l, hl, hc⟩ := List.mem_flatMap.1 hc
    rcases List.mem_append.1 hc with hc | hc
    · exact key c ((h3 l hl).2 _ hc)
    · simp at hc; subst hc; exact Or.inr (by decide)
  · exact key c (h2.2 _ hc)
  · subst hc; exact Or.inr (by decide)
  · exact key c (h1.2 _ hc)
  · exact Or.inl hc

/-- What holds for the targets of a forest. -/
theorem ann_all {P : Int → Prop} : ∀ {f : Forest} {g : Nat → Int}, f.Wf E → (∀ j, j < f.count → P (g j)) → (∀ x ∈ f.flat, ∀ h ∈ hyps E x, P (h : Int)) → ∀ t ∈ ann (downT E) g f, P t
  | nil, _, _, _, _, t, ht => by simp [ann] at ht
  | snoc l x ch, g, hw, hg, hh, t, ht => by
    obtain ⟨hl, hc, hx, ha⟩ := hw
    simp only [ann, List.mem_append, List.mem_singleton] at ht
    rcases ht with (ht | ht) | ht
    · exact ann_all hl (fun j hj => hg j (by simp only [Forest.count]; omega)) (fun y hy => hh y (by simp [Forest.flat, hy])) t ht
    · refine ann_all hc ?_ (fun y hy => hh y (by simp [Forest.flat, hy])) t ht
      intro j hj
      rw [← ha] at hj
      have ha0 : arity E x ≠ 0 := by omega
      have e : hyps E x = (E.stmt x.toNat).reqHyp := by unfold hyps; rw [if_neg ha0]
      have hj2 : j < (E.stmt x.toNat).reqHyp.length := by rw [← e, hyps_length]; exact hj
      refine hh x (by simp [Forest.flat]) _ ?_
      rw [e]
      unfold slotHyp
      rw [List.getD_eq_getElem?_getD, List.getElem?_eq_getElem hj2]
      exact List.getElem_mem _
    · rw [ht]; exact hg _ (by simp only [Forest.count]; omega)

variable {src : List Src} {s : PState} {look : Look}

/-- The targets of the steps of a packed proof. -/
theorem packed_targets (h : Accepted src s) (hL : SrcLabels src) (hLC : ∀ i, 1 ≤ i → i ≤ src.length → ∀ c ∈ srcLabel src i, LabelChar c) (hp : kindAt (kinds src) p = .p) {refs : List Ref}
    (hP : PackedProof src s p refs) : ∃ tg st, targetHyp (envOf look src s) (refs.map Ref.code) p = .val tg ∧ tg.length = refs.length ∧ (∀ t ∈ tg, 1 ≤ t ∧ LabelWord (srcLabel src t.toNat)) ∧
      orun (envOf look src s) ((tg.map fun t => srcLabel src t.toNat).zip (refs.map Ref.code)) [] = some st := by
  obtain ⟨t, ch, h1, h2, h3⟩ := packed_tree (look := look) h hp hP
  have h4 := targF_tree (E := envOf look src s) ((tree t ch).flat.length + 1) t ch (p : Int) h1 h3 (Nat.lt_succ_self _)
  have hpos : ∀ {i : Nat} {k : Kind}, kindAt (kinds src) i = k → k ≠ .none → 1 ≤ i ∧ i ≤ src.length := by
    intro i k hi hk
    have := kindAt_pos (ks := kinds src) (i := i) (by rw [hi]; exact hk)
    exact ⟨this.1, by simpa [kinds] using this.2⟩
  have hword : ∀ {i : Nat}, kindAt (kinds src) i = .e ∨ kindAt (kinds src) i = .f ∨ kindAt (kinds src) i = .p → (1 : Int) ≤ i ∧ LabelWord (srcLabel src (i : Int).toNat) := by
    intro i hi
    have hr : 1 ≤ i ∧ i ≤ src.length := by rcases hi with hi | hi | hi <;> exact hpos hi (by simp)
    refine ⟨by omega, ?_, hLC i hr.1 hr.2⟩
    rw [Int.toNat_natCast, hL.kinds i hr.1 hr.2]
    rcases hi with hi | hi | hi
    · exact Or.inl hi
    · exact Or.inr (Or.inl hi)
    · exact Or.inr (Or.inr (Or.inr hi))
  have horun := orun_forest (E := envOf look src s) (f := tree t ch) (g := fun _ => (p : Int)) (st := []) (q := []) h1
  rw [List.append_nil, List.append_nil] at horun
  refine ⟨ann (downT (envOf look src s)) (fun _ => (p : Int)) (tree t ch), _, ?_, ?_, ?_, Eq.trans ?_ horun⟩
  · unfold targetHyp; rw [← h2]; exact h4
  · rw [ann_length, h2, List.length_map]
  · refine ann_all h1 (fun _ _ => hword (Or.inr (Or.inr hp))) ?_
    intro x hx k hk
    have ha : arity (envOf look src s) x ≠ 0 := by rw [← hyps_length]; intro h0; rw [List.length_eq_zero_iff.1 h0] at hk; cases hk
    have hkind : ((envOf look src s).stmt x.toNat).kind = .a ∨ ((envOf look src s).stmt x.toNat).kind = .p := by
      unfold arity at ha
      split at ha
      · rename_i h; exact h.2
      · exact absurd rfl ha
    rw [kind_env h] at hkind
    unfold hyps at hk
    rw [if_neg ha] at hk
    obtain ⟨_, g2, _⟩ := C12_mandatory_hyps h (i := x.toNat) hkind
    obtain ⟨_, g4⟩ := (g2 k).1 hk
    rcases g4 with g4 | ⟨g4, _⟩
    · exact hword (Or.inl g4)
    · exact hword (Or.inr (Or.inl g4))
  · rw [← h2]; rfl

theorem ord_word {w : Name} (h : LabelWord w) : Ord w := by
  obtain ⟨hne, hc⟩ := h
  obtain ⟨c, u, rfl⟩ := List.exists_cons_of_ne_nil hne
  have hs := (labelChar_graph (hc c (by simp))).2.1
  constructor <;> intro e <;> simp at e <;> subst e <;> simp [isSingle] at hs

/-- What is written, and what it is parsed to. -/
theorem written (h : Accepted src s) (hl : LookOk look) (hL : SrcLabels src) (hLC : ∀ i, 1 ≤ i → i ≤ src.length → ∀ c ∈ srcLabel src i, LabelChar c) (hp : kindAt (kinds src) p = .p) {refs : List Ref}
    (hP : PackedProof src s p refs) : ∃ (tg : List Int) (st : RState) (xi : List XItem), targetHyp (envOf look src s) (refs.map Ref.code) p = .val tg ∧ tg.length = refs.length ∧ (∀ t ∈ tg, 1 ≤ t) ∧
      renderLoopX (envOf look src s) (localLabels (refs.map Ref.code)) 0 (refs.map Ref.code) tg { names := List.replicate (refs.map Ref.code).length 0 } = .val { st with text := xrender xi } ∧
      RInv (envOf look src s) (refs.map Ref.code) (refs.map Ref.code).length st (xi.map XItem.item) ∧ xi.map XItem.tgt = tg.map (fun t => srcLabel src t.toNat) ∧
      (∀ x ∈ xi, LabelWord x.item.tok ∧ LabelWord x.tgt ∧ ∀ l ∈ x.item.labels, LabelWord l) ∧ parseProof (envOf look src s) p (text (xi.map XItem.item)) = .val ⟨refs.map Ref.code, 0, 0⟩ ∧
      ∀ fuel, 1 ≤ fuel → parseProofX (envOf look src s) p fuel (xtext xi) = .val ⟨refs.map Ref.code, 0, 0⟩ := by
  obtain ⟨tg, sto, g1, g2, g3, g4⟩ := packed_targets (look := look) h hL hLC hp hP
  have hinit : RInv (envOf look src s) (refs.map Ref.code) 0 { names := List.replicate (refs.map Ref.code).length 0 } (([] : List XItem).map XItem.item) := by
    obtain ⟨st0, its0, i1, i2⟩ := render_loop (packed_steps (look := look) h hp hP) 0 (Nat.zero_le _)
    rw [List.take_zero] at i1
    cases i1
    have : its0 = [] := List.length_eq_zero_iff.1 i2.itsLen
    rw [this] at i2; exact i2
  obtain ⟨st, xi, k1, k2, k3⟩ := renderX_loop (packed_steps (look := look) h hp hP) (xs := refs.map Ref.code) (ts := tg) (k := 0) (xi := []) rfl (Nat.zero_le _) (by rw [g2, List.length_map]) hinit
  obtain ⟨m1, m2⟩ := items_parse (look := look) h hl hL hLC hp hP k2
  have hlen : xi.length = refs.length := by have := k2.itsLen; simpa using this
  have hw : ∀ x ∈ xi, LabelWord x.item.tok ∧ LabelWord x.tgt ∧ ∀ l ∈ x.item.labels, LabelWord l := by
    intro x hx
    have h1 := m1 x.item (List.mem_map_of_mem hx)
    refine ⟨h1.1, ?_, h1.2⟩
    have : x.tgt ∈ xi.map XItem.tgt := List.mem_map_of_mem hx
    rw [k3] at this
    obtain ⟨t, ht, e⟩ := List.mem_map.1 (show x.tgt ∈ tg.map _ from this)
    rw [← e]; exact (g3 t ht).2
  have hne : xi ≠ [] := by
    intro e
    rw [e] at hlen
    have : refs = [] := List.length_eq_zero_iff.1 hlen.symm
    obtain ⟨t, ch, _, h2, _⟩ := packed_tree (look := look) h hp hP
    have h5 := congrArg List.length h2
    rw [this] at h5
    simp [tree, Forest.flat] at h5
  refine ⟨tg, st, xi, g1, g2, fun t ht => (g3 t ht).1, k1, k2, k3, hw, m2, ?_⟩
  refine explicit_same (E := envOf look src s) hl (hypLabels_of h hL) (hypsOk_of h hp) ?_ hne m2 (Nat.zero_lt_two) (st := sto) ?_
  · intro x hx
    obtain ⟨h1, h2, h3⟩ := hw x hx
    exact ⟨fun l hl => ord_word (h3 l hl), ord_word h2, ord_word h1⟩
  · rw [k3]; exact g4

/-- The section is not in compressed format. -/
theorem not_paren {t u r : List Char} {ws : List Name} (hB : Blank t u) (hw : proofWords u = ws) (hws : ∀ w ∈ ws.head?, LabelWord w) :
    ∃ q, skipWs .ws (t ++ '$' :: '.' :: r) = .val q ∧ q.head? ≠ some '(' := by
  have he : Stop ('$' :: '.' :: r) := Or.inr ⟨_, _, rfl, by decide⟩
  obtain ⟨t', u', b, k1, k2, k3, k3', k4, k5, k6⟩ := skip_split hB he
  refine ⟨_, k1, ?_⟩
  intro hpar
  cases t' with
  | nil => simp at hpar
  | cons c t' =>
    simp at hpar
    subst hpar
    obtain ⟨u3, hu3, _⟩ := blank_cons (by decide) k2
    have hskip : ∀ (b : List Char), (∀ c ∈ b, isGraph c = false) → ∀ v, proofWords (b ++ v) = proofWords v := by
      intro b
      induction b with
      | nil => intro _ v; rfl
      | cons c b ih => intro hb v; rw [List.cons_append, proofWords_blank _ _ (hb c (by simp)), ih (fun x hx => hb x (by simp [hx]))]
    rw [k4, hskip b k5, hu3, proofWords_single _ _ (by decide)] at hw
    have := hws ['('] (by rw [← hw]; rfl)
    exact absurd (labelChar_graph (this.2 '(' (by simp))).2.1 (by decide)

/-- **C69** If SAVE PROOF / EXPLICIT writes a proof `refs` of `p` (normal, or packed with references), every proof section with the same words as the text - in particular the text itself,
whatever the line breaks - is parsed to exactly the proof `refs`, without any message. -/
theorem C69_explicit_round_trip (h : Accepted src s) (hl : LookOk look) (hL : SrcLabels src) (hLC : ∀ i, 1 ≤ i → i ≤ src.length → ∀ c ∈ srcLabel src i, LabelChar c)
    (hp : kindAt (kinds src) p = .p) {refs : List Ref} (hP : PackedProof src s p refs) {out : List Char} (hrun : nmbrCvtRToVStringX (envOf look src s) (refs.map Ref.code) p = .val out) :
    Blank out out ∧ (∀ c ∈ out, c = ' ' ∨ (printable c = true ∧ c ≠ '$')) ∧ ∀ (t u r : List Char) (W fuel : Nat), 1 ≤ fuel → Blank t u → proofWords u = proofWords out →
      parseProofTextX (envOf look src s) W p fuel (t ++ '$' :: '.' :: r) t.length = .val ⟨refs.map Ref.code, 0, 0⟩ := by
  obtain ⟨tg, st, xi, g1, g2, g3, g4, g5, g6, g7, g8, g9⟩ := written (look := look) h hl hL hLC hp hP
  unfold nmbrCvtRToVStringX at hrun
  split at hrun
  · cases hrun
  rw [g1, Out.bind_val] at hrun
  obtain ⟨m, _, hrun⟩ := bind_val_inv hrun
  rw [g4, Out.bind_val] at hrun
  split at hrun
  · cases hrun
  injection hrun with hrun
  subst hrun
  have hpr := xrender_print g7
  have hnd : '$' ∉ (xrender xi).dropLast := by
    intro hc
    rcases hpr _ (List.dropLast_subset _ hc) with h | h
    · simp at h
    · exact h.2 rfl
  refine ⟨blank_self hnd, fun c hc => hpr c (List.dropLast_subset _ hc), ?_⟩
  intro t u r W fuel hf hB hw
  rw [proofWords_xrender g7] at hw
  obtain ⟨q, q1, q2⟩ := not_paren (r := r) hB hw (by
    intro w hw
    cases xi with
    | nil => simp [xtext] at hw
    | cons x xi =>
      obtain ⟨h1, h2, h3⟩ := g7 x (by simp)
      cases hx : x.item.labels with
      | nil => simp [xtext, declText, hx] at hw; rw [← hw]; exact h2
      | cons l ls => simp [xtext, declText, hx] at hw; rw [← hw]; exact h3 l (by rw [hx]; simp))
  have he : Stop ('$' :: '.' :: r) := Or.inr ⟨_, _, rfl, by decide⟩
  unfold parseProofTextX
  rw [q1, Out.bind_val, if_neg q2, C23_proof_tokens hB he, Out.bind_val, hw, g9 fuel hf]

/-- **C69** The words of the text are `label : target = token` for each step, where the target is the label of the statement that the step is for: that of the proved statement for the last step,
otherwise the hypothesis of the assertion that uses the step (`C34_target_is_slot` says so of `targetHyp`). -/
theorem C69_targets_written (h : Accepted src s) (hl : LookOk look) (hL : SrcLabels src) (hLC : ∀ i, 1 ≤ i → i ≤ src.length → ∀ c ∈ srcLabel src i, LabelChar c)
    (hp : kindAt (kinds src) p = .p) {refs : List Ref} (hP : PackedProof src s p refs) {out : List Char} (hrun : nmbrCvtRToVStringX (envOf look src s) (refs.map Ref.code) p = .val out) :
    ∃ (tg : List Int) (xs : List XItem), proofWords out = xtext xs ∧ targetHyp (envOf look src s) (refs.map Ref.code) p = .val tg ∧ xs.map XItem.tgt = tg.map (fun t => srcLabel src t.toNat) ∧
      parseProof (envOf look src s) p (text (xs.map XItem.item)) = .val ⟨refs.map Ref.code, 0, 0⟩ := by
  obtain ⟨tg, st, xi, g1, g2, g3, g4, g5, g6, g7, g8, g9⟩ := written (look := look) h hl hL hLC hp hP
  unfold nmbrCvtRToVStringX at hrun
  split at hrun
  · cases hrun
  rw [g1, Out.bind_val] at hrun
  obtain ⟨m, _, hrun⟩ := bind_val_inv hrun
  rw [g4, Out.bind_val] at hrun
  split at hrun
  · cases hrun
  injection hrun with hrun
  subst hrun
  exact ⟨tg, xi, proofWords_xrender g7, g1, g6, g8⟩

theorem maxLens_ok : ∀ {xs ts : List Int} {a b : Nat}, ts.length = xs.length → (∀ x ∈ xs, (1 ≤ x ∧ x ≤ E.n) ∨ x ≤ -1000) → (∀ t ∈ ts, 1 ≤ t) →
    ∃ m, maxLens E xs ts a b = .val m ∧ m.1 = xs.foldl (fun (m : Nat) (x : Int) => if x ≤ -1000 then m else if x < 1 ∨ x > E.n then 100 else max m (E.lab x.toNat).length) a ∧ b ≤ m.2 ∧
      ∀ t ∈ ts, (E.lab t.toNat).length ≤ m.2
  | [], [], a, b, _, _, _ => ⟨(a, b), rfl, rfl, Nat.le_refl _, fun t ht => by cases ht⟩
  | x :: xs, t :: ts, a, b, hl, hx, ht => by
    have hx1 := hx x (by simp)
    have ht1 := ht t (by simp)
    obtain ⟨m, h1, h2, h3, h4⟩ := maxLens_ok (xs := xs) (ts := ts) (a := if x ≤ -1000 then a else max a (E.lab x.toNat).length) (b := max b (E.lab t.toNat).length) (by simpa using hl)
      (fun y hy => hx y (List.mem_cons_of_mem _ hy)) (fun y hy => ht y (List.mem_cons_of_mem _ hy))
    refine ⟨m, ?_, ?_, by omega, ?_⟩
    · unfold maxLens
      rw [if_neg (by omega), if_neg (by omega)]
      exact h1
    · rw [h2, List.foldl_cons]
      congr 1
      split
      · rfl
      · rw [if_neg (by omega)]
    · intro u hu
      rcases List.mem_cons.1 hu with rfl | hu
      · omega
      · exact h4 u hu
  | [], _ :: _, _, _, hl, _, _ => by simp at hl
  | _ :: _, [], _, _, hl, _, _ => by simp at hl

/-- **C45** (partial: no statement label is a decimal numeral).  SAVE PROOF / EXPLICIT stays within its buffer and ends without internal error.  Missing: numeric labels, for which
the buffer may be too small (`C45_numeric_labels_overflow`). -/
theorem C45_explicit_safe_partial (h : Accepted src s) (hl : LookOk look) (hL : SrcLabels src) (hLC : ∀ i, 1 ≤ i → i ≤ src.length → ∀ c ∈ srcLabel src i, LabelChar c)
    (hp : kindAt (kinds src) p = .p) {refs : List Ref} (hP : PackedProof src s p refs) (hnum : ∀ i m, 1 ≤ i → i ≤ src.length → srcLabel src i ≠ Nat.toDigits 10 m) :
    ∃ out, nmbrCvtRToVStringX (envOf look src s) (refs.map Ref.code) p = .val out := by
  obtain ⟨tg, st, xi, g1, g2, g3, g4, g5, g6, g7, g8, g9⟩ := written (look := look) h hl hL hLC hp hP
  have hsteps := packed_steps (look := look) h hp hP
  have hunk : unk ∉ refs.map Ref.code := by
    intro hu
    obtain ⟨r, _, e⟩ := mem_codes hu
    cases r <;> simp [Ref.code, unk] at e <;> omega
  obtain ⟨m, m1, m2, _, m4⟩ := maxLens_ok (E := envOf look src s) (xs := refs.map Ref.code) (ts := tg) (a := 0) (b := 0) (by rw [g2, List.length_map]) (by
    intro x hx
    rcases hsteps x hx with h | h | h
    · exact Or.inl h
    · exact Or.inr h.1
    · rw [h] at hx; exact absurd hx hunk) g3
  have hp1 : 1 ≤ p := (kindAt_pos (ks := kinds src) (i := p) (by rw [hp]; simp)).1
  have hn : ∀ m, isLabel (envOf look src s) (strNat m) = false := by
    intro m
    cases hc : isLabel (envOf look src s) (strNat m) with
    | false => rfl
    | true =>
      obtain ⟨i, h1, h2, h3⟩ := isLabel_iff.1 hc
      exact absurd h3 (hnum i m h1 h2)
  have hitem := render_item_len hsteps (fun hu => absurd hu hunk) hn g5
  have hm1 : m.1 = maxLabelLen (envOf look src s) (refs.map Ref.code) := m2
  have key : ∀ (ys : List XItem), (∀ x ∈ ys, x ∈ xi) → (xrender ys).length ≤ ys.length * (2 + m.1 + (m.2 + 1) + maxLocalLen (refs.map Ref.code).length) := by
    intro ys
    induction ys with
    | nil => intro _; simp [xrender]
    | cons x ys ih =>
      intro hy
      have h1 := hitem x.item (List.mem_map_of_mem (hy x (by simp)))
      have h2 := ih (fun z hz => hy z (by simp [hz]))
      have h3 : x.tgt.length ≤ m.2 := by
        have : x.tgt ∈ xi.map XItem.tgt := List.mem_map_of_mem (hy x (by simp))
        rw [g6] at this
        obtain ⟨t, ht, e⟩ := List.mem_map.1 this
        rw [← e]; exact m4 t ht
      obtain ⟨A, hA⟩ : ∃ A : List Char, A = x.item.labels.flatMap (fun l => l ++ [':']) := ⟨_, rfl⟩
      have h1' : (A ++ x.item.tok ++ [' '] : List Char).length ≤ 2 + maxLabelLen (envOf look src s) (refs.map Ref.code) + maxLocalLen (refs.map Ref.code).length := by
        rw [hA]; exact Nat.le_trans h1 (by omega)
      have e : (xrender (x :: ys)).length = (A ++ x.item.tok ++ [' '] : List Char).length + (x.tgt.length + 1) + (xrender ys).length := by
        have : xrender (x :: ys) = (A ++ x.tgt ++ ['='] ++ x.item.tok ++ [' '] : List Char) ++ xrender ys := by rw [hA]; rfl
        rw [this, List.length_append]
        simp only [List.length_append, List.length_cons, List.length_nil]; omega
      clear h1
      have h1 := h1'
      rw [← hm1] at h1
      rw [e, List.length_cons, Nat.add_mul]
      omega
  have hlen : xi.length = (refs.map Ref.code).length := by have := g5.itsLen; simpa using this
  have hk := key xi (fun _ h => h)
  rw [hlen] at hk
  refine ⟨(xrender xi).dropLast, ?_⟩
  unfold nmbrCvtRToVStringX
  rw [if_neg (by omega), g1, Out.bind_val, m1, Out.bind_val, g4, Out.bind_val, if_neg (by dsimp only; omega)]

end MM.Expl
