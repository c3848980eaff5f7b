import Verif.Expl.Finish
import Verif.Proof.Sound
/-!
# The scan of the tokens of an explicit proof
-/
namespace MM.Expl
open MM.Veri MM.Pars MM.Proof MM.Data MM.Tree MM.Pfas

variable {E : Env} {p : Nat}

/-- The name is an ordinary token, i.e. not `:` or `=`. -/
def Ord (t : Name) : Prop := t.head? ≠ some ':' ∧ t.head? ≠ some '='

instance (t : Name) : Decidable (Ord t) := by unfold Ord; exact inferInstance

theorem Ord.eq {t : Name} (h : Ord t) : isEq t = false := by
  unfold isEq
  cases hh : t.head? with
  | none => rfl
  | some c =>
    have : c ≠ '=' := fun hc => h.2 (by rw [hh, hc])
    simp [this]

/-- The labels, targets and tokens of the steps are ordinary tokens. -/
def XForm (xs : List XItem) : Prop := ∀ x ∈ xs, (∀ l ∈ x.item.labels, Ord l) ∧ Ord x.tgt ∧ Ord x.item.tok

/-- The token numbers of the steps. -/
def poss : Nat → List XItem → List Nat
  | _, [] => []
  | i, x :: xs => (i + (declText x.item.labels).length + 2) :: poss (i + (declText x.item.labels).length + 3) xs

theorem poss_length : ∀ (i : Nat) (xs : List XItem), (poss i xs).length = xs.length
  | _, [] => rfl
  | _, _ :: xs => by rw [poss, List.length_cons, poss_length _ xs]; rfl

theorem declText_cons (l : Name) (ls : List Name) : declText (l :: ls) = l :: [':'] :: declText ls := rfl

theorem xtext_cons (x : XItem) (xs : List XItem) : xtext (x :: xs) = declText x.item.labels ++ x.tgt :: ['='] :: x.item.tok :: xtext xs := by
  simp [xtext]

theorem text_cons (x : Item) (xs : List Item) : text (x :: xs) = declText x.labels ++ x.tok :: text xs := by simp [text]

theorem lscanTok_num {t : Name} (ht : t.head? ≠ some ':') {s : LScan} (hs : 0 ≤ s.num) (prev : Name) :
    lscanTok E p prev t s = .val { s with num := s.num + 1, steps := s.steps ++ [(t, s.lflag)], lflag := false } := by
  unfold lscanTok
  rw [if_neg (by omega)]
  dsimp only
  rw [if_pos ht]

theorem lscanTok_pair {l : Name} (hl : l.head? ≠ some ':') {s : LScan} (hs : 0 ≤ s.num) : ∃ s1 s2, (∀ prev, lscanTok E p prev l s = .val s1) ∧ lscanTok E p l [':'] s1 = .val s2 ∧
    s1.num = s.num + 1 ∧ s2.num = s.num := by
  have h2 : ∃ s2, lscanTok E p l [':'] { s with num := s.num + 1, steps := s.steps ++ [(l, s.lflag)], lflag := false } = .val s2 ∧ s2.num = s.num := by
    unfold lscanTok
    dsimp only
    rw [if_neg (by omega), if_neg (by simp)]
    refine ⟨_, rfl, ?_⟩
    simp only; omega
  obtain ⟨s2, h2, h3⟩ := h2
  exact ⟨_, s2, fun prev => lscanTok_num hl hs prev, h2, rfl, h3⟩

/-- The head of a text of steps is an ordinary token. -/
theorem head_ord {xs : List XItem} (h : XForm xs) (hne : xs ≠ []) : ∃ t u v rest, xtext xs = t :: u :: v :: rest ∧ Ord t := by
  cases xs with
  | nil => exact absurd rfl hne
  | cons x xs =>
    have hx := h x (by simp)
    rw [xtext_cons]
    cases hl : x.item.labels with
    | nil => exact ⟨_, _, _, _, rfl, hx.2.1⟩
    | cons l ls =>
      rw [declText_cons]
      cases ls with
      | nil => exact ⟨_, _, _, _, rfl, hx.1 l (by rw [hl]; simp)⟩
      | cons m ms => exact ⟨_, _, _, _, rfl, hx.1 l (by rw [hl]; simp)⟩

theorem xscan_skip {prev tok : Name} {rest : List Name} {i : Nat} {S : XScan} (h : isEq (rest.headD []) = false) (ht : isEq tok = false) :
    xscan E p prev (tok :: rest) i S = lscanTok E p prev tok S.s >>= fun s' => xscan E p tok rest (i + 1) { s := s', idx := (S.idx ++ [i]).take s'.num.toNat, expl := S.expl } := by
  rw [xscan.eq_2, if_neg (by rw [h]; simp), if_neg (by rw [ht]; simp)]

theorem isEq_eq : isEq ['='] = true := rfl
theorem isEq_nil : isEq ([] : Name) = false := rfl

theorem decl_ok : ∀ (ls : List Name) {s : LScan} {idx : List Nat} {i : Nat} {b : Bool}, (∀ l ∈ ls, Ord l) → s.num = idx.length →
    ∃ s' : LScan, s'.num = idx.length ∧ (∀ prev R, ∃ prev', lscan E p prev (declText ls ++ R) s = lscan E p prev' R s') ∧
      ∀ prev R, isEq (R.headD []) = false → ∃ prev', xscan E p prev (declText ls ++ R) i ⟨s, idx, b⟩ = xscan E p prev' R (i + (declText ls).length) ⟨s', idx, b⟩
  | [], s, idx, i, b, _, hs => ⟨s, hs, fun prev R => ⟨prev, rfl⟩, fun prev R _ => ⟨prev, rfl⟩⟩
  | l :: ls, s, idx, i, b, h, hs => by
    have hl := h l (by simp)
    obtain ⟨s1, s2, h1, h2, h3, h4⟩ := lscanTok_pair (E := E) (p := p) hl.1 (s := s) (by omega)
    obtain ⟨s', g1, g2, g3⟩ := decl_ok ls (s := s2) (idx := idx) (i := i + 1 + 1) (b := b) (fun m hm => h m (List.mem_cons_of_mem _ hm)) (by omega)
    refine ⟨s', g1, ?_, ?_⟩
    · intro prev R
      obtain ⟨q, hq⟩ := g2 [':'] R
      refine ⟨q, ?_⟩
      rw [← hq, declText_cons]
      show (lscanTok E p prev l s >>= fun s' => lscan E p l ([':'] :: (declText ls ++ R)) s') = _
      rw [h1, Out.bind_val]
      show (lscanTok E p l [':'] s1 >>= fun s' => lscan E p [':'] (declText ls ++ R) s') = _
      rw [h2, Out.bind_val]
    · intro prev R hR
      obtain ⟨q, hq⟩ := g3 [':'] R hR
      refine ⟨q, ?_⟩
      have hhead : isEq ((declText ls ++ R).headD []) = false := by
        cases ls with
        | nil => exact hR
        | cons m ms => exact (h m (by simp)).eq
      have e1 : (idx ++ [i]).take s1.num.toNat = idx ++ [i] := List.take_of_length_le (by rw [List.length_append, List.length_singleton]; omega)
      have e2 : (idx ++ [i] ++ [i + 1]).take s2.num.toNat = idx := by
        rw [List.append_assoc]; exact List.take_left' (by omega)
      have e3 : i + (declText (l :: ls)).length = i + 1 + 1 + (declText ls).length := by rw [declText_cons, List.length_cons, List.length_cons]; omega
      rw [e3, ← hq, declText_cons]
      show xscan E p prev (l :: [':'] :: (declText ls ++ R)) i ⟨s, idx, b⟩ = _
      rw [xscan_skip rfl hl.eq]
      dsimp only
      rw [h1, Out.bind_val, e1, xscan_skip hhead rfl]
      dsimp only
      rw [h2, Out.bind_val, e2]

theorem scan_ok : ∀ (xs : List XItem) {s : LScan} {idx : List Nat} {i : Nat} {b : Bool}, XForm xs → s.num = idx.length →
    ∃ s' : LScan, s'.num = (idx.length + xs.length : Nat) ∧ (∀ prev, lscan E p prev (text (xs.map XItem.item)) s = .val s') ∧
      ∀ prev, xscan E p prev (xtext xs) i ⟨s, idx, b⟩ = .val ⟨s', idx ++ poss i xs, b || !xs.isEmpty⟩
  | [], s, idx, i, b, _, hs => ⟨s, by rw [hs]; rfl, fun _ => rfl, fun _ => by simp [xtext, xscan, poss]⟩
  | x :: xs, s, idx, i, b, h, hs => by
    obtain ⟨hx1, hx2, hx3⟩ := h x (by simp)
    have hxs : XForm xs := fun y hy => h y (List.mem_cons_of_mem _ hy)
    obtain ⟨s1, g1, g2, g3⟩ := decl_ok (E := E) (p := p) x.item.labels (s := s) (idx := idx) (i := i) (b := b) hx1 hs
    have htok := fun prev => lscanTok_num (E := E) (p := p) hx3.1 (s := s1) (by omega) prev
    obtain ⟨s', k1, k2, k3⟩ := scan_ok xs (s := { s1 with num := s1.num + 1, steps := s1.steps ++ [(x.item.tok, s1.lflag)], lflag := false }) (idx := idx ++ [i + (declText x.item.labels).length + 2])
      (i := i + (declText x.item.labels).length + 3) (b := true) hxs (by rw [List.length_append, List.length_singleton]; dsimp only; omega)
    refine ⟨s', by rw [k1, List.length_append, List.length_singleton, List.length_cons]; omega, ?_, ?_⟩
    · intro prev
      rw [List.map_cons, text_cons]
      obtain ⟨q, hq⟩ := g2 prev (x.item.tok :: text (xs.map XItem.item))
      rw [hq]
      show (lscanTok E p q x.item.tok s1 >>= fun s' => lscan E p x.item.tok (text (xs.map XItem.item)) s') = _
      rw [htok, Out.bind_val, k2]
    · intro prev
      rw [xtext_cons]
      obtain ⟨q, hq⟩ := g3 prev (x.tgt :: ['='] :: x.item.tok :: xtext xs) hx2.eq
      have hhead : isEq ((xtext xs).headD []) = false := by
        cases hne : xs with
        | nil => rfl
        | cons y ys =>
          obtain ⟨t, u, v, r, e1, e2⟩ := head_ord hxs (by rw [hne]; simp)
          rw [← hne, e1]; exact e2.eq
      rw [hq, xscan.eq_2, if_pos ⟨by simp, isEq_eq⟩, xscan.eq_2, if_neg (by rw [List.headD_cons, hx3.eq]; simp), if_pos isEq_eq, xscan_skip hhead hx3.eq]
      dsimp only
      rw [htok, Out.bind_val]
      dsimp only
      have e4 : (idx ++ [i + (declText x.item.labels).length + 1 + 1]).take (s1.num + 1).toNat = idx ++ [i + (declText x.item.labels).length + 2] :=
        List.take_of_length_le (by rw [List.length_append, List.length_singleton]; omega)
      rw [e4, k3]
      simp [poss]

theorem collect_skip {lit : Bool} {num : Nat} {idx : List Nat} {a b c : Name} {rest : List Name} {i : Nat} {tg : List (Option Name)} {r e : Nat} (hb : isEq b = false) :
    collect lit num idx (a :: b :: c :: rest) i tg r e = collect lit num idx (b :: c :: rest) (i + 1) tg r e := by
  rw [collect.eq_1, if_neg (by rw [hb]; simp)]

theorem collect_decl {num : Nat} {idx : List Nat} {tgt tok : Name} {rest : List Name} (htg : Ord tgt) {tg : List (Option Name)} {r e : Nat} : ∀ {ls : List Name} {i : Nat}, (∀ l ∈ ls, Ord l) →
    collect false num idx (declText ls ++ tgt :: ['='] :: tok :: rest) i tg r e = collect false num idx (tgt :: ['='] :: tok :: rest) (i + (declText ls).length) tg r e
  | [], i, _ => rfl
  | l :: ls, i, h => by
    have ih := collect_decl (num := num) (idx := idx) (tok := tok) (rest := rest) htg (tg := tg) (r := r) (e := e) (ls := ls) (i := i + 1 + 1) (fun m hm => h m (List.mem_cons_of_mem _ hm))
    have e3 : i + (declText (l :: ls)).length = i + 1 + 1 + (declText ls).length := by rw [declText_cons, List.length_cons, List.length_cons]; omega
    rw [e3, ← ih, declText_cons]
    cases ls with
    | nil =>
      show collect false num idx (l :: [':'] :: tgt :: ['='] :: tok :: rest) i tg r e = _
      rw [collect_skip rfl, collect_skip htg.eq]; rfl
    | cons m ms =>
      show collect false num idx (l :: [':'] :: m :: [':'] :: (declText ms ++ tgt :: ['='] :: tok :: rest)) i tg r e = _
      rw [collect_skip rfl, collect_skip (h m (by simp)).eq]; rfl

theorem collect_ok {num : Nat} {r e : Nat} : ∀ (xs : List XItem) {pre : List Nat} {tg : List (Option Name)} {i : Nat}, XForm xs → pre.length = tg.length → tg.length + xs.length ≤ num →
    collect false num (pre ++ poss i xs) (xtext xs) i tg r e = (tg ++ xs.map (fun x => some x.tgt), r, e)
  | [], pre, tg, i, _, _, _ => by simp [xtext, collect]
  | x :: xs, pre, tg, i, h, hl, hn => by
    obtain ⟨hx1, hx2, hx3⟩ := h x (by simp)
    have hxs : XForm xs := fun y hy => h y (List.mem_cons_of_mem _ hy)
    rw [List.length_cons] at hn
    rw [xtext_cons, collect_decl hx2 hx1, collect.eq_1, if_pos isEq_eq, if_neg (by omega)]
    dsimp only
    have hget : (pre ++ poss i (x :: xs)).getD tg.length 0 = i + (declText x.item.labels).length + 2 := by
      rw [List.getD_eq_getElem?_getD, List.getElem?_append_right (by omega), hl, Nat.sub_self]; rfl
    rw [if_neg (by rw [hget]; simp), if_neg (by simp)]
    have hpre : pre ++ poss i (x :: xs) = (pre ++ [i + (declText x.item.labels).length + 2]) ++ poss (i + (declText x.item.labels).length + 3) xs := by
      rw [List.append_assoc]; rfl
    have ih := collect_ok (num := num) (r := r) (e := e) xs (pre := pre ++ [i + (declText x.item.labels).length + 2]) (tg := tg ++ [some x.tgt]) (i := i + (declText x.item.labels).length + 3) hxs
      (by simp [hl]) (by simp; omega)
    rw [hpre]
    cases hne : xs with
    | nil => rw [hne] at ih; simp [xtext, collect]
    | cons y ys =>
      obtain ⟨t, u, v, rr, e1, e2⟩ := head_ord hxs (by rw [hne]; simp)
      rw [← hne, e1, collect_skip hx3.eq, collect_skip e2.eq, ← e1, ih]
      simp

end MM.Expl
