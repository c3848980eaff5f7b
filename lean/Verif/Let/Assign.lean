import Verif.Let.Model
import Mathlib.Data.List.Nodup
/-!
# C87: `let` is assignment and `cat` is concatenation
-/
namespace MM.Let

def Promise (m : Malloc) : Prop := ∀ h a, m h = some a → h a = none

/-- The block at `p` is the string `d`. -/
def IsStr (h : Heap) (p : Nat) (d : List Char) : Prop := ∃ b, h p = some b ∧ b.data = d ∧ d.length + 1 ≤ b.size

/-- Memory holds the strings `env` of the variables and the temporary strings `tv`, each in its own block, and nothing else. -/
structure Good (g : Prog) (env : Nat → List Char) (tv : List (List Char)) : Prop where
  live : ∀ p, g.heap p ≠ .none ↔ (∃ x, g.var x = .some p) ∨ p ∈ g.tmp
  tmpNodup : g.tmp.Nodup
  disj : ∀ x p, g.var x = .some p → p ∉ g.tmp
  inj : ∀ x y p, g.var x = .some p → g.var y = .some p → x = y
  none : ∀ x, g.var x = .none → env x = []
  some : ∀ x p, g.var x = .some p → env x ≠ [] ∧ IsStr g.heap p (env x)
  tmp : List.Forall₂ (fun p d => IsStr g.heap p d) g.tmp tv

/-- Where a string comes from: a constant, or a variable or temporary string from its character number `k` on. -/
inductive Src where
  | lit (s : List Char)
  | var (x k : Nat)
  | tmp (i k : Nat)

/-- Its pointer. -/
def Src.ref (g : Prog) : Src → Ref
  | .lit s => .lit s
  | .var x k => (g.var x).elim (.lit []) fun p => .at p k
  | .tmp i k => (g.tmp[i]?).elim (.lit []) fun p => .at p k

/-- Its value. -/
def Src.val (env : Nat → List Char) (tv : List (List Char)) : Src → List Char
  | .lit s => s
  | .var x k => (env x).drop k
  | .tmp i k => ((tv[i]?).getD []).drop k

/-- It begins within the string. -/
def Src.Legal (env : Nat → List Char) (tv : List (List Char)) : Src → Prop
  | .lit _ => True
  | .var x k => k ≤ (env x).length
  | .tmp i k => k ≤ ((tv[i]?).getD []).length

/-- It is not a later part of the variable `v` itself. -/
def Src.NotPart (v : Nat) : Src → Prop
  | .var x k => x = v → k = 0
  | _ => True

/-- A pointer to a string with the value `d`, in a block that `live` says is allocated. -/
def IsRef (h : Heap) (r : Ref) (d : List Char) : Prop := r = .lit d ∨ ∃ q k e, r = .at q k ∧ IsStr h q e ∧ k ≤ e.length ∧ d = e.drop k

theorem get_some {h : Heap} {p : Nat} {b : Blk} (e : h p = some b) : h.get p = .val b := by simp [Heap.get, e]
theorem set_same (h : Heap) (p : Nat) (b : Blk) : (h.set p b) p = some b := by simp [Heap.set]
theorem set_other (h : Heap) {p q : Nat} (b : Blk) (n : q ≠ p) : (h.set p b) q = h q := by simp [Heap.set, n]
theorem set_set (h : Heap) (p : Nat) (b c : Blk) : (h.set p b).set p c = h.set p c := by funext q; simp only [Heap.set]; split <;> rfl
theorem del_same (h : Heap) (p : Nat) : (h.del p) p = none := by simp [Heap.del]
theorem del_other (h : Heap) {p q : Nat} (n : q ≠ p) : (h.del p) q = h q := by simp [Heap.del, n]
theorem ne_of {l : List Nat} {p q : Nat} (h : p ∉ l) (hq : q ∈ l) : q ≠ p := fun e => h (e ▸ hq)

theorem upd_upd {α} (f : Nat → α) (i : Nat) (a b : α) : upd (upd f i a) i b = upd f i b := by
  funext j; simp only [upd]; split <;> rfl

theorem upd_self {α} (f : Nat → α) (i : Nat) {a : α} (h : f i = a) : upd f i a = f := by
  funext j; simp only [upd]; split
  · rename_i e; rw [e, h]
  · rfl

theorem IsStr.of_eq {h h' : Heap} {p : Nat} {d : List Char} (e : h' p = h p) (H : IsStr h p d) : IsStr h' p d := by
  obtain ⟨b, hb, h⟩ := H; exact ⟨b, e.trans hb, h⟩

theorem IsRef.str {h : Heap} {r : Ref} {d : List Char} (H : IsRef h r d) : h.str r = .val d := by
  rcases H with rfl | ⟨q, k, e, rfl, ⟨b, hb, hd, -⟩, hk, rfl⟩
  · rfl
  · rw [Heap.str, get_some hb]; simp only [Out.bind_val, hd]; rw [if_pos hk]

theorem forall2_eq {h h' : Heap} {l : List Nat} {t : List (List Char)} (hf : List.Forall₂ (fun p d => IsStr h p d) l t) (hv : ∀ q ∈ l, h' q = h q) :
    List.Forall₂ (fun p d => IsStr h' p d) l t := by
  induction hf with
  | nil => exact .nil
  | cons h _ ih => exact .cons (h.of_eq (hv _ (by simp))) (ih fun q hq => hv q (by simp [hq]))

theorem forall2_get {R : Nat → List Char → Prop} : ∀ {l : List Nat} {tv : List (List Char)}, List.Forall₂ R l tv → ∀ i : Nat,
    (l[i]? = none ∧ tv[i]? = none) ∨ ∃ p d, l[i]? = some p ∧ tv[i]? = some d ∧ R p d
  | _, _, .nil, i => .inl (by simp)
  | _, _, .cons (a := a) (b := b) h t, 0 => .inr ⟨a, b, by simp, by simp, h⟩
  | _, _, .cons h t, i + 1 => by simpa using forall2_get t i

section
variable {g : Prog} {env : Nat → List Char} {tv : List (List Char)}

theorem Good.src (G : Good g env tv) (s : Src) (L : s.Legal env tv) : IsRef g.heap (s.ref g) (s.val env tv) := by
  cases s with
  | lit s => exact .inl rfl
  | var x k =>
    simp only [Src.ref, Src.val]
    cases e : g.var x with
    | none => left; rw [G.none x e]; simp
    | some p => exact .inr ⟨p, k, env x, rfl, (G.some x p e).2, L, rfl⟩
  | tmp i k =>
    simp only [Src.ref, Src.val]
    rcases forall2_get G.tmp i with ⟨h1, h2⟩ | ⟨p, d, h1, h2, h3⟩
    · left; rw [h1, h2]; simp
    · right
      simp only [Src.Legal, h2] at L
      refine ⟨p, k, d, by rw [h1]; rfl, h3, L, by rw [h2]; rfl⟩

/-- The block of a variable is freed. -/
theorem Good.freeVar (G : Good g env tv) {v t : Nat} (hv : g.var v = .some t) :
    free t g.heap = .val (g.heap.del t) ∧ Good { g with heap := g.heap.del t, var := upd g.var v .none } (upd env v []) tv := by
  obtain ⟨-, b, hb, -⟩ := G.some v t hv
  have hup : ∀ x q, upd g.var v .none x = .some q → x ≠ v ∧ g.var x = .some q := by
    intro x q h
    by_cases e : x = v
    · subst e; rw [upd_same] at h; cases h
    · rw [upd_other _ _ e] at h; exact ⟨e, h⟩
  refine ⟨by rw [free, get_some hb]; rfl, fun q => ?_, G.tmpNodup, fun x q h => G.disj x q (hup x q h).2, fun x y q h h' => G.inj x y q (hup x q h).2 (hup y q h').2, ?_, ?_,
    forall2_eq G.tmp fun q h => del_other _ (ne_of (G.disj v t hv) h)⟩
  · show g.heap.del t q ≠ .none ↔ (∃ x, upd g.var v .none x = .some q) ∨ q ∈ g.tmp
    by_cases e : q = t
    · subst e; rw [del_same]
      simp only [ne_eq, not_true, false_iff, not_or, not_exists]
      exact ⟨fun x hx => (hup x q hx).1 (G.inj x v q (hup x q hx).2 hv), G.disj v q hv⟩
    · rw [del_other _ e, G.live q]
      constructor
      · rintro (⟨x, hx⟩ | h)
        · exact .inl ⟨x, by rw [upd_other _ _ (fun e' => by subst e'; rw [hv] at hx; cases hx; exact e rfl), hx]⟩
        · exact .inr h
      · rintro (⟨x, hx⟩ | h)
        · exact .inl ⟨x, (hup x q hx).2⟩
        · exact .inr h
  · intro x hx
    have hx : upd g.var v .none x = .none := hx
    by_cases e : x = v
    · subst e; rw [upd_same]
    · rw [upd_other _ _ e] at hx ⊢; exact G.none x hx
  · intro x q hx
    obtain ⟨h1, h2⟩ := hup x q hx
    rw [upd_other _ _ h1]
    obtain ⟨h3, h4⟩ := G.some x q h2
    exact ⟨h3, h4.of_eq (del_other _ fun e => h1 (G.inj x v q h2 (e ▸ hv)))⟩

/-- A new block becomes the string of a variable that had none. -/
theorem Good.newVar (G : Good g env tv) {a v : Nat} {b : Blk} (hv : g.var v = .none) (ha : g.heap a = .none) (hd : b.data ≠ []) (hb : b.data.length + 1 ≤ b.size) :
    Good { g with heap := g.heap.set a b, var := upd g.var v (.some a) } (upd env v b.data) tv := by
  have hna : ¬ ((∃ x, g.var x = .some a) ∨ a ∈ g.tmp) := fun h => (G.live a).2 h ha
  have hup : ∀ x q, upd g.var v (.some a) x = .some q → (x = v ∧ q = a) ∨ (x ≠ v ∧ g.var x = .some q) := by
    intro x q h
    by_cases e : x = v
    · subst e; rw [upd_same] at h; cases h; exact .inl ⟨rfl, rfl⟩
    · rw [upd_other _ _ e] at h; exact .inr ⟨e, h⟩
  refine ⟨fun q => ?_, G.tmpNodup, ?_, ?_, ?_, ?_, forall2_eq G.tmp fun q h => set_other _ _ fun e => hna (.inr (e ▸ h))⟩
  · show g.heap.set a b q ≠ .none ↔ (∃ x, upd g.var v (.some a) x = .some q) ∨ q ∈ g.tmp
    by_cases e : q = a
    · subst e; rw [set_same]; simp only [ne_eq, reduceCtorEq, not_false_eq_true, true_iff]; exact .inl ⟨v, upd_same _ _ _⟩
    · rw [set_other _ _ e, G.live q]
      constructor
      · rintro (⟨x, hx⟩ | h)
        · exact .inl ⟨x, by rw [upd_other _ _ (fun e' => by subst e'; rw [hv] at hx; cases hx), hx]⟩
        · exact .inr h
      · rintro (⟨x, hx⟩ | h)
        · rcases hup x q hx with ⟨-, e'⟩ | ⟨-, h⟩
          · exact absurd e' e
          · exact .inl ⟨x, h⟩
        · exact .inr h
  · intro x q hx
    rcases hup x q hx with ⟨-, rfl⟩ | ⟨-, h⟩
    · exact fun h => hna (.inr h)
    · exact G.disj x q h
  · intro x y q hx hy
    rcases hup x q hx with ⟨rfl, rfl⟩ | ⟨-, h⟩ <;> rcases hup y q hy with ⟨rfl, e⟩ | ⟨-, h'⟩
    · rfl
    · exact absurd (.inl ⟨y, h'⟩) hna
    · subst e; exact absurd (.inl ⟨x, h⟩) hna
    · exact G.inj x y q h h'
  · intro x hx
    have hx : upd g.var v (.some a) x = .none := hx
    by_cases e : x = v
    · subst e; rw [upd_same] at hx; cases hx
    · rw [upd_other _ _ e] at hx ⊢; exact G.none x hx
  · intro x q hx
    rcases hup x q hx with ⟨rfl, rfl⟩ | ⟨e, h⟩
    · rw [upd_same]; exact ⟨hd, b, set_same _ _ _, rfl, hb⟩
    · rw [upd_other _ _ e]
      obtain ⟨h1, h2⟩ := G.some x q h
      exact ⟨h1, h2.of_eq (set_other _ _ fun e' => hna (.inl ⟨x, e' ▸ h⟩))⟩

/-- A new block becomes a temporary string. -/
theorem Good.newTmp (G : Good g env tv) {a : Nat} {b : Blk} (ha : g.heap a = .none) (hb : b.data.length + 1 ≤ b.size) :
    Good { g with heap := g.heap.set a b, tmp := a :: g.tmp } env (b.data :: tv) := by
  have hna : ¬ ((∃ x, g.var x = .some a) ∨ a ∈ g.tmp) := fun h => (G.live a).2 h ha
  refine ⟨fun q => ?_, List.nodup_cons.2 ⟨fun h => hna (.inr h), G.tmpNodup⟩, ?_, G.inj, G.none, ?_,
    .cons ⟨b, set_same _ _ _, rfl, hb⟩ (forall2_eq G.tmp fun q h => set_other _ _ fun e => hna (.inr (e ▸ h)))⟩
  · show g.heap.set a b q ≠ .none ↔ (∃ x, g.var x = .some q) ∨ q ∈ a :: g.tmp
    by_cases e : q = a
    · subst e; simp [set_same]
    · rw [set_other _ _ e, G.live q]; simp [e]
  · intro x q hx h
    rcases List.mem_cons.1 h with rfl | h
    · exact hna (.inl ⟨x, hx⟩)
    · exact G.disj x q hx h
  · intro x q hx
    obtain ⟨h1, h2⟩ := G.some x q hx
    exact ⟨h1, h2.of_eq (set_other _ _ fun e' => hna (.inl ⟨x, e' ▸ hx⟩))⟩

/-- The block of a variable is overwritten. -/
theorem Good.setVar (G : Good g env tv) {t v : Nat} {b : Blk} (hv : g.var v = .some t) (hd : b.data ≠ []) (hb : b.data.length + 1 ≤ b.size) :
    Good { g with heap := g.heap.set t b } (upd env v b.data) tv := by
  refine ⟨fun q => ?_, G.tmpNodup, G.disj, G.inj, ?_, ?_, forall2_eq G.tmp fun q h => set_other _ _ (ne_of (G.disj v t hv) h)⟩
  · show g.heap.set t b q ≠ .none ↔ (∃ x, g.var x = .some q) ∨ q ∈ g.tmp
    by_cases e : q = t
    · subst e; rw [set_same]; simp only [ne_eq, reduceCtorEq, not_false_eq_true, true_iff]; exact .inl ⟨v, hv⟩
    · rw [set_other _ _ e, G.live q]
  · intro x hx
    rw [upd_other _ _ (fun e => by subst e; rw [hv] at hx; cases hx)]; exact G.none x hx
  · intro x q hx
    by_cases e : x = v
    · subst e; rw [hv] at hx; cases hx; rw [upd_same]; exact ⟨hd, b, set_same _ _ _, rfl, hb⟩
    · rw [upd_other _ _ e]
      obtain ⟨h3, h4⟩ := G.some x q hx
      exact ⟨h3, h4.of_eq (set_other _ _ fun e' => e (G.inj x v q hx (e' ▸ hv)))⟩

theorem freeTemps_spec {start : Nat} : ∀ (l : List Nat) (g : Prog) (tv : List (List Char)), g.tmp = l → Good g env tv → start ≤ l.length →
    ∃ r, freeTemps start l g.heap = .val r ∧ Good { g with heap := r.1, tmp := r.2 } env (tv.drop (l.length - start))
  | [], ⟨h, v, t⟩, tv, hl, G, hs => ⟨(h, []), rfl, by dsimp only at hl; subst hl; simpa using G⟩
  | p :: ps, g, tv, hl, G, hs => by
    rw [freeTemps]
    by_cases h : ps.length < start
    · rw [if_pos h]
      have : (p :: ps).length - start = 0 := by simp at hs ⊢; omega
      exact ⟨_, rfl, by rw [this]; simpa [← hl] using G⟩
    · rw [if_neg h]
      have htv := G.tmp; rw [hl] at htv
      have hnd := G.tmpNodup; rw [hl, List.nodup_cons] at hnd
      have hpt : p ∈ g.tmp := by rw [hl]; simp
      cases htv with
      | cons ht htv =>
        rename_i d tv
        obtain ⟨b, hb, -⟩ := ht
        have G1 : Good { g with heap := g.heap.del p, tmp := ps } env tv := by
          refine ⟨fun q => ?_, hnd.2, fun x q hx hq => G.disj x q hx (by rw [hl]; simp [show q ∈ ps from hq]), G.inj, G.none, ?_, forall2_eq htv fun q h => del_other _ (ne_of hnd.1 h)⟩
          · show g.heap.del p q ≠ .none ↔ (∃ x, g.var x = .some q) ∨ q ∈ ps
            by_cases e : q = p
            · subst e; rw [del_same]
              simp only [ne_eq, not_true, false_iff, not_or, not_exists]
              exact ⟨fun x hx => G.disj x q hx hpt, hnd.1⟩
            · rw [del_other _ e, G.live q, hl]; simp [e]
          · intro x q hx
            obtain ⟨h3, h4⟩ := G.some x q hx
            exact ⟨h3, h4.of_eq (del_other _ fun e => G.disj x q hx (e ▸ hpt))⟩
        rw [free, get_some hb]; simp only [Out.bind_val]
        obtain ⟨r, e, G'⟩ := freeTemps_spec (start := start) ps { g with heap := g.heap.del p, tmp := ps } tv rfl G1 (by omega)
        refine ⟨r, e, ?_⟩
        have : (p :: ps).length - start = (ps.length - start) + 1 := by simp; omega
        rw [this, List.drop_succ_cons]; exact G'

theorem freeTempAlloc_spec {start : Nat} (G : Good g env tv) (hs : start ≤ tv.length) :
    ∃ g', freeTempAlloc start g = .val g' ∧ Good g' env (tv.drop (tv.length - start)) := by
  have hlen : g.tmp.length = tv.length := G.tmp.length_eq
  obtain ⟨r, e, G'⟩ := freeTemps_spec (start := start) g.tmp g tv rfl G (by omega)
  rw [hlen] at G'
  exact ⟨_, by rw [freeTempAlloc, e]; rfl, G'⟩

theorem strcpy_spec {h : Heap} {p : Nat} {r : Ref} {d : List Char} {b : Blk} (hr : IsRef h r d) (hb : h p = .some b) (hs : d.length + 1 ≤ b.size) (hov : ∀ k, r = .at p k → k = 0) :
    strcpy p r h = .val (h.set p { b with data := d }) := by
  unfold strcpy
  rw [hr.str]; simp only [Out.bind_val, get_some hb]
  rw [if_neg, if_pos hs]
  rcases hr with rfl | ⟨q, k, e, rfl, -⟩
  · simp
  · simp only [decide_eq_true_eq, not_and, not_not]
    rintro rfl; exact hov k rfl

theorem IsRef.of_eq {h h' : Heap} {r : Ref} {d : List Char} (H : IsRef h r d) (he : ∀ q k, r = .at q k → h' q = h q) : IsRef h' r d := by
  rcases H with h | ⟨q, k, e, hr, hs, hk⟩
  · exact .inl h
  · exact .inr ⟨q, k, e, hr, hs.of_eq (he q k hr), hk⟩

theorem let_spec {m : Malloc} (pm : Promise m) {start v : Nat} (src : Src) (L : src.Legal env tv) (N : src.NotPart v) (G : Good g env tv) (hs : start ≤ tv.length) :
    (let_ m start v (src.ref g) g = .bug 2204 ∧ ∃ h, m h = .none) ∨
    ∃ g', let_ m start v (src.ref g) g = .val g' ∧ Good g' (upd env v (src.val env tv)) (tv.drop (tv.length - start)) := by
  have S := G.src src L
  have hself : ∀ t k, g.var v = .some t → src.ref g = .at t k → k = 0 ∧ src.val env tv = env v := by
    intro t k hv h
    cases src with
    | lit s => cases h
    | var x k' =>
      simp only [Src.ref] at h
      cases e : g.var x with
      | none => rw [e] at h; cases h
      | some p =>
        rw [e] at h; cases h
        have := G.inj x v t e hv; subst this
        have := N rfl; subst this
        exact ⟨rfl, by simp [Src.val]⟩
    | tmp i k' =>
      simp only [Src.ref] at h
      cases e : g.tmp[i]? with
      | none => rw [e] at h; cases h
      | some p => rw [e] at h; cases h; exact absurd (List.mem_of_getElem? e) (G.disj v t hv)
  generalize src.ref g = r at S hself ⊢
  generalize src.val env tv = d at S hself ⊢
  have T := G.src (.var v 0) (Nat.zero_le _)
  simp only [Src.ref, Src.val, List.drop_zero] at T
  have close : ∀ {g1 : Prog}, Good g1 (upd env v d) tv → ∃ g', freeTempAlloc start g1 = .val g' ∧ Good g' (upd env v d) (tv.drop (tv.length - start)) := fun G1 =>
    freeTempAlloc_spec G1 hs
  -- a new block for a variable without one
  have fresh : ∀ (g1 : Prog) (env1 : Nat → List Char), Good g1 env1 tv → g1.var v = .none → IsRef g1.heap r d → d ≠ [] → upd env1 v d = upd env v d →
      ∀ a, m g1.heap = .some a → strcpy a r (g1.heap.set a { size := d.length + 1, data := [] }) = .val (g1.heap.set a { size := d.length + 1, data := d }) ∧
        Good { g1 with heap := g1.heap.set a { size := d.length + 1, data := d }, var := upd g1.var v (.some a) } (upd env v d) tv := by
    intro g1 env1 G1 hv1 hr hd hu a ha
    have hna := pm _ _ ha
    have hne : ∀ q k, r = .at q k → q ≠ a := by
      intro q k e h
      rcases hr with rfl | ⟨q', k', e', hr', ⟨b, hb, -⟩, -⟩
      · cases e
      · rw [e] at hr'; cases hr'; rw [h, hna] at hb; cases hb
    constructor
    · rw [strcpy_spec (hr.of_eq fun q k e => set_other _ _ (hne q k e)) (set_same _ _ _) (Nat.le_refl _) (fun k e => absurd rfl (hne a k e)), set_set]
    · rw [← hu]; exact G1.newVar hv1 hna hd (Nat.le_refl _)
  rw [let_, S.str]; simp only [Out.bind_val]
  rw [show g.heap.str (g.ref v) = .val (env v) from T.str]; simp only [Out.bind_val]
  by_cases hlt : (env v).length < d.length
  · have hd : d ≠ [] := fun e => by simp [e] at hlt
    have hd' : d.length ≠ 0 := by omega
    simp only [if_pos hlt, if_pos hd']
    cases hv : g.var v with
    | none =>
      have ev := G.none v hv
      rw [if_neg (by simp [ev])]; simp only [Out.bind_val]
      cases hm : m g.heap with
      | none => exact .inl ⟨rfl, _, hm⟩
      | some a =>
        obtain ⟨e1, G1⟩ := fresh g env G hv S hd rfl a hm
        simp only [Option.elim, Out.bind_val, upd_same, e1]
        obtain ⟨g', e, G'⟩ := close G1
        exact .inr ⟨g', e, G'⟩
    | some t =>
      obtain ⟨hne, -⟩ := G.some v t hv
      obtain ⟨e1, G1⟩ := G.freeVar hv
      rw [if_pos (by simpa using hne)]
      simp only [Option.elim, e1, Out.bind_val]
      cases hm : m (g.heap.del t) with
      | none => exact .inl ⟨rfl, _, hm⟩
      | some a =>
        have hr : IsRef (g.heap.del t) r d := S.of_eq fun q k e => del_other _ fun e' => by
          subst e'; have := (hself q k hv e).2; rw [this] at hlt; omega
        obtain ⟨e2, G2⟩ := fresh { g with heap := g.heap.del t, var := upd g.var v .none } (upd env v []) G1 (upd_same _ _ _) hr hd (upd_upd _ _ _ _) a hm
        dsimp only at e2 G2
        simp only [upd_upd] at G2
        simp only [Out.bind_val, upd_same, e2]
        obtain ⟨g', e, G'⟩ := close G2
        exact .inr ⟨g', e, G'⟩
  · simp only [if_neg hlt, Out.bind_val]
    by_cases hd : d = []
    · subst hd
      simp only [List.length_nil, ne_eq, not_true, if_false]
      cases hv : g.var v with
      | none =>
        have ev := G.none v hv
        rw [if_neg (by simp [ev])]; simp only [Out.bind_val]
        rw [upd_self g.var v hv]
        obtain ⟨g', e, G'⟩ := close (g1 := g) (by rw [upd_self env v ev]; exact G)
        exact .inr ⟨g', e, G'⟩
      | some t =>
        obtain ⟨hne, -⟩ := G.some v t hv
        obtain ⟨e1, G1⟩ := G.freeVar hv
        rw [if_pos (by simpa using hne)]
        simp only [Option.elim, e1, Out.bind_val]
        obtain ⟨g', e, G'⟩ := close G1
        exact .inr ⟨g', e, G'⟩
    · have hd' : d.length ≠ 0 := by simpa using hd
      simp only [ne_eq, hd', not_false_eq_true, if_true]
      cases hv : g.var v with
      | none => have ev := G.none v hv; rw [ev] at hlt; exact absurd (List.length_pos_iff.2 hd) hlt
      | some t =>
        obtain ⟨hne, b, hb, hbd, hbs⟩ := G.some v t hv
        simp only [Option.elim]
        rw [strcpy_spec S hb (by omega) (fun k e => (hself t k hv e).1)]
        simp only [Out.bind_val]
        obtain ⟨g', e, G'⟩ := close (G.setVar (b := { b with data := d }) hv hd (by show d.length + 1 ≤ b.size; omega))
        exact .inr ⟨g', e, G'⟩

theorem catArgs_spec {h : Heap} {f : Src → Ref} {v : Src → List Char} : ∀ args : List Src, (∀ a ∈ args, IsRef h (f a) (v a)) → catArgs h (args.map f) = .val (args.map v)
  | [], _ => rfl
  | a :: as, H => by
    rw [List.map_cons, catArgs, (H a (by simp)).str]; simp only [Out.bind_val]
    rw [catArgs_spec as fun b hb => H b (by simp [hb])]; rfl

theorem catCopy_spec (p size : Nat) (h : Heap) : ∀ (ss : List (List Char)) (d : List Char), d.length + (ss.map List.length).sum + 1 ≤ size →
    catCopy p size ss d h = .val (h.set p { size := size, data := d ++ ss.flatten })
  | [], d, _ => by simp [catCopy]
  | s :: ss, d, H => by
    simp only [List.map_cons, List.sum_cons] at H
    rw [catCopy, if_pos (by omega), catCopy_spec p size h ss (d ++ s) (by simp; omega)]; simp

theorem cat_spec {m : Malloc} (pm : Promise m) (args : List Src) (L : ∀ a ∈ args, a.Legal env tv) (G : Good g env tv) :
    (∃ n, cat m (args.map (Src.ref g)) g = .bug n ∧ ((n = 2206 ∧ 50 < args.length) ∨ (n = 2202 ∧ ∃ h, m h = .none) ∨ (n = 2201 ∧ 99 ≤ tv.length))) ∨
    ∃ g', cat m (args.map (Src.ref g)) g = .val g' ∧ Good g' env ((args.map (Src.val env tv)).flatten :: tv) := by
  rw [cat]
  by_cases h1 : (args.map (Src.ref g)).length > maxArgs
  · rw [if_pos h1]; exact .inl ⟨2206, rfl, .inl ⟨rfl, by simpa [maxArgs] using h1⟩⟩
  · rw [if_neg h1, catArgs_spec args fun a ha => G.src a (L a ha)]; simp only [Out.bind_val]
    cases hm : m g.heap with
    | none => exact .inl ⟨2202, rfl, .inr (.inl ⟨rfl, _, hm⟩)⟩
    | some a =>
      simp only [Option.elim]
      rw [pushTemp]
      by_cases h2 : g.tmp.length ≥ maxStack - 1
      · rw [if_pos h2]; exact .inl ⟨2201, rfl, .inr (.inr ⟨rfl, by rw [← G.tmp.length_eq]; simpa [maxStack] using h2⟩)⟩
      · rw [if_neg h2]; simp only [Out.bind_val]
        rw [catCopy_spec _ _ _ _ _ (by simp), set_set]; simp only [Out.bind_val, List.nil_append]
        refine .inr ⟨_, rfl, ?_⟩
        exact G.newTmp (b := { size := _, data := ((args.map (Src.val env tv)).flatten) }) (pm _ _ hm) (by simp [List.length_flatten])

theorem give_spec (G : Good g env tv) (x : Nat) :
    (makeTempAlloc x g = .bug 2201 ∧ 99 ≤ tv.length) ∨ ∃ g', makeTempAlloc x g = .val g' ∧ Good g' (upd env x []) (if env x = [] then tv else env x :: tv) := by
  have T := G.src (.var x 0) (Nat.zero_le _)
  simp only [Src.ref, Src.val, List.drop_zero] at T
  rw [makeTempAlloc, show g.heap.str (g.ref x) = .val (env x) from T.str]; simp only [Out.bind_val]
  cases hv : g.var x with
  | none =>
    have ev := G.none x hv
    rw [if_neg (by simp [ev]), if_pos ev, upd_self env x ev, upd_self g.var x hv]
    exact .inr ⟨g, rfl, G⟩
  | some p =>
    obtain ⟨hne, hs⟩ := G.some x p hv
    rw [if_pos hne, if_neg hne]
    simp only [Option.elim]
    rw [pushTemp]
    by_cases h2 : g.tmp.length ≥ maxStack - 1
    · rw [if_pos h2]; exact .inl ⟨rfl, by rw [← G.tmp.length_eq]; simpa [maxStack] using h2⟩
    · rw [if_neg h2]; simp only [Out.bind_val]
      have hup : ∀ y q, upd g.var x .none y = .some q → y ≠ x ∧ g.var y = .some q := by
        intro y q h
        by_cases e : y = x
        · subst e; rw [upd_same] at h; cases h
        · rw [upd_other _ _ e] at h; exact ⟨e, h⟩
      refine .inr ⟨_, rfl, fun q => ?_, List.nodup_cons.2 ⟨G.disj x p hv, G.tmpNodup⟩, ?_, fun y z q h h' => G.inj y z q (hup y q h).2 (hup z q h').2, ?_, ?_, .cons hs G.tmp⟩
      · show g.heap q ≠ .none ↔ (∃ y, upd g.var x .none y = .some q) ∨ q ∈ p :: g.tmp
        rw [G.live q]
        constructor
        · rintro (⟨y, hy⟩ | h)
          · by_cases e : y = x
            · subst e; rw [hv] at hy; cases hy; exact .inr (by simp)
            · exact .inl ⟨y, by rw [upd_other _ _ e, hy]⟩
          · exact .inr (by simp [h])
        · rintro (⟨y, hy⟩ | h)
          · exact .inl ⟨y, (hup y q hy).2⟩
          · rcases List.mem_cons.1 h with rfl | h
            · exact .inl ⟨x, hv⟩
            · exact .inr h
      · intro y q hy h
        obtain ⟨h1, h2⟩ := hup y q hy
        rcases List.mem_cons.1 h with rfl | h
        · exact h1 (G.inj y x q h2 hv)
        · exact G.disj y q h2 h
      · intro y hy
        have hy : upd g.var x .none y = .none := hy
        by_cases e : y = x
        · subst e; rw [upd_same]
        · rw [upd_other _ _ e] at hy ⊢; exact G.none y hy
      · intro y q hy
        obtain ⟨h1, h2⟩ := hup y q hy
        rw [upd_other _ _ h1]; exact G.some y q h2
end

/-! ## Programs -/

/-- What a program does with strings. -/
inductive Stmt where
  | cat (args : List Src)
  | assign (x : Nat) (src : Src)
  | give (x : Nat)

/-- What it should mean: `env` is the values of the variables, `tv` those of the temporary strings. -/
def Stmt.mean (start : Nat) (env : Nat → List Char) (tv : List (List Char)) : Stmt → (Nat → List Char) × List (List Char)
  | .cat args => (env, (args.map (Src.val env tv)).flatten :: tv)
  | .assign x src => (fun y => if y = x then src.val env tv else env y, tv.drop (tv.length - start))
  | .give x => (fun y => if y = x then [] else env y, if env x = [] then tv else env x :: tv)

def Stmt.run (m : Malloc) (start : Nat) (g : Prog) : Stmt → Out Prog
  | .cat args => Let.cat m (args.map (Src.ref g)) g
  | .assign x src => let_ m start x (src.ref g) g
  | .give x => makeTempAlloc x g

def Stmt.Legal (env : Nat → List Char) (tv : List (List Char)) : Stmt → Prop
  | .cat args => ∀ a ∈ args, a.Legal env tv
  | .assign x src => src.Legal env tv ∧ src.NotPart x
  | .give _ => True

/-- One statement, with the value of `g_startTempAllocStack` at it and what `malloc` does. -/
structure Exec where
  stmt : Stmt
  start : Nat
  m : Malloc

def run : List Exec → Prog → Out Prog
  | [], g => .val g
  | e :: es, g => e.stmt.run e.m e.start g >>= run es

def means : List Exec → (Nat → List Char) × List (List Char) → (Nat → List Char) × List (List Char)
  | [], r => r
  | e :: es, r => means es (e.stmt.mean e.start r.1 r.2)

/-- `malloc` keeps its promise, pointers into strings are within them, a string is not assigned a later part of itself, and temporary strings are not freed below the bottom of the stack. -/
def LegalRun : List Exec → (Nat → List Char) × List (List Char) → Prop
  | [], _ => True
  | e :: es, r => Promise e.m ∧ e.stmt.Legal r.1 r.2 ∧ e.start ≤ r.2.length ∧ LegalRun es (e.stmt.mean e.start r.1 r.2)

theorem step_spec {g : Prog} {env : Nat → List Char} {tv : List (List Char)} (G : Good g env tv) (e : Exec) (pm : Promise e.m) (L : e.stmt.Legal env tv) (hs : e.start ≤ tv.length) :
    (∃ n ∈ [2201, 2202, 2204, 2206], e.stmt.run e.m e.start g = .bug n) ∨
    ∃ g', e.stmt.run e.m e.start g = .val g' ∧ Good g' (e.stmt.mean e.start env tv).1 (e.stmt.mean e.start env tv).2 := by
  cases hst : e.stmt with
  | cat args =>
    rw [hst] at L
    rcases cat_spec pm args L G with ⟨n, h, hn⟩ | h
    · exact .inl ⟨n, by simp; omega, h⟩
    · exact .inr h
  | assign x src =>
    rw [hst] at L
    rcases let_spec pm (v := x) src L.1 L.2 G hs with ⟨h, -⟩ | h
    · exact .inl ⟨2204, by simp, h⟩
    · exact .inr h
  | give x =>
    rcases give_spec G x with ⟨h, -⟩ | h
    · exact .inl ⟨2201, by simp, h⟩
    · exact .inr h

theorem run_spec : ∀ (es : List Exec) (g : Prog) (r : (Nat → List Char) × List (List Char)), Good g r.1 r.2 → LegalRun es r →
    (∃ n ∈ [2201, 2202, 2204, 2206], run es g = .bug n) ∨ ∃ g', run es g = .val g' ∧ Good g' (means es r).1 (means es r).2
  | [], g, r, G, _ => .inr ⟨g, rfl, G⟩
  | e :: es, g, r, G, L => by
    obtain ⟨pm, Ls, hs, L⟩ := L
    rcases step_spec G e pm Ls hs with ⟨n, hn, h⟩ | ⟨g', h, G'⟩
    · exact .inl ⟨n, hn, by rw [run, h]; rfl⟩
    · rw [run, h]; simp only [Out.bind_val]
      exact run_spec es g' _ G' L

theorem start_good : Good {} (fun _ => []) [] :=
  ⟨by simp, by simp, by simp, by simp, by simp, by simp, .nil⟩

/-- **C87** (`let` is assignment, `cat` is concatenation): run any sequence of concatenating constants, variables and temporary strings or later parts of them, assigning one to a variable, also a variable to itself, and returning
variables.  Unless memory, the stack of temporary strings or the number of arguments is exhausted, each variable and each temporary string then has the value that it has if variables are plain values; nothing is
used after it is freed, and nothing is written beyond its block. -/
theorem C87_let (es : List Exec) (L : LegalRun es (fun _ => [], [])) :
    (∃ n ∈ [2201, 2202, 2204, 2206], run es {} = .bug n) ∨
    ∃ g, run es {} = .val g ∧ (∀ x, g.heap.str (g.ref x) = .val ((means es (fun _ => [], [])).1 x)) ∧
      List.Forall₂ (fun p d => g.heap.str (.at p 0) = .val d) g.tmp (means es (fun _ => [], [])).2 := by
  rcases run_spec es {} _ start_good L with h | ⟨g, h, G⟩
  · exact .inl h
  · refine .inr ⟨g, h, fun x => ?_, ?_⟩
    · have T := G.src (.var x 0) (Nat.zero_le _)
      simp only [Src.ref, Src.val, List.drop_zero] at T
      exact T.str
    · have := G.tmp
      revert this
      generalize g.tmp = l; generalize (means es (fun _ => [], [])).2 = t
      intro hf
      induction hf with
      | nil => exact .nil
      | cons h _ ih => exact .cons (IsRef.str (.inr ⟨_, 0, _, rfl, h, Nat.zero_le _, by simp⟩)) ih

theorem run_succeeds (es : List Exec) : ∀ (g : Prog) (r : (Nat → List Char) × List (List Char)), Good g r.1 r.2 → LegalRun es r → (∀ e ∈ es, ∀ h, e.m h ≠ none) →
    (∀ e ∈ es, ∀ args, e.stmt = .cat args → args.length ≤ 50) → (∀ k < es.length, (means (es.take k) r).2.length < 99) → ∃ g', run es g = .val g' := by
  induction es with
  | nil => exact fun g _ _ _ _ _ _ => ⟨g, rfl⟩
  | cons e es ih =>
    intro g r G L hm ha hk
    obtain ⟨pm, Ls, hs, L⟩ := L
    have hm0 : ∀ h, e.m h ≠ none := hm e (by simp)
    have h0 : r.2.length < 99 := by simpa [means] using hk 0 (by simp)
    have step : ∃ g', e.stmt.run e.m e.start g = .val g' ∧ Good g' (e.stmt.mean e.start r.1 r.2).1 (e.stmt.mean e.start r.1 r.2).2 := by
      cases hst : e.stmt with
      | cat args =>
        rw [hst] at Ls
        have := ha e (by simp) args hst
        rcases cat_spec pm args Ls G with ⟨n, -, ⟨-, h⟩ | ⟨-, h, h'⟩ | ⟨-, h⟩⟩ | h
        · omega
        · exact absurd h' (hm0 h)
        · omega
        · exact h
      | assign x src =>
        rw [hst] at Ls
        rcases let_spec pm (v := x) src Ls.1 Ls.2 G hs with ⟨-, h, h'⟩ | h
        · exact absurd h' (hm0 h)
        · exact h
      | give x =>
        rcases give_spec G x with ⟨-, h⟩ | h
        · omega
        · exact h
    obtain ⟨g', h, G'⟩ := step
    rw [run, h]; simp only [Out.bind_val]
    exact ih g' _ G' L (fun e' he' => hm e' (by simp [he'])) (fun e' he' => ha e' (by simp [he'])) fun k hk' => by
      simpa [means] using hk (k + 1) (by simp; omega)

/-- **C87** (why it fails): without failure of `malloc`, with at most 50 arguments of each `cat` and never more than 99 temporary strings at a time, the program does not stop. -/
theorem C87_let_succeeds (es : List Exec) (L : LegalRun es (fun _ => [], [])) (hm : ∀ e ∈ es, ∀ h, e.m h ≠ none) (ha : ∀ e ∈ es, ∀ args, e.stmt = .cat args → args.length ≤ 50)
    (hk : ∀ k < es.length, (means (es.take k) (fun _ => [], [])).2.length < 99) : ∃ g, run es {} = .val g := run_succeeds es {} _ start_good L hm ha hk

/-- **C87** (no leak, no sharing): the allocated blocks are exactly those of the variables with a value other than the empty string and those of the temporary strings, each with one use. -/
theorem C87_no_leak (es : List Exec) (L : LegalRun es (fun _ => [], [])) {g : Prog} (h : run es {} = .val g) :
    (∀ p, g.heap p ≠ none ↔ (∃ x, g.var x = some p) ∨ p ∈ g.tmp) ∧ (∀ x, g.var x = none ↔ (means es (fun _ => [], [])).1 x = []) ∧
    (∀ x p, g.var x = some p → p ∉ g.tmp ∧ ∀ y, g.var y = some p → y = x) ∧ g.tmp.Nodup := by
  rcases run_spec es {} _ start_good L with ⟨n, -, h'⟩ | ⟨g', h', G⟩
  · rw [h'] at h; cases h
  · rw [h'] at h; cases h
    refine ⟨G.live, fun x => ⟨G.none x, fun e => ?_⟩, fun x p hx => ⟨G.disj x p hx, fun y hy => G.inj y x p hy hx⟩, G.tmpNodup⟩
    cases hv : g.var x with
    | none => rfl
    | some p => exact absurd e (G.some x p hv).1

def bump (h : Heap) : Option Nat := (List.range 50).find? fun p => (h p).isNone

theorem bump_promise : Promise bump := by
  intro h a e
  have := List.find?_some e
  simpa using this

/-- A variable grows by itself, shrinks, is assigned to itself; a function in between keeps the temporary strings of its caller. -/
def sample : List Exec :=
  [⟨.assign 0 (.lit ['a', 'b']), 0, bump⟩, ⟨.cat [.var 0 0, .lit ['c'], .var 0 1], 0, bump⟩, ⟨.cat [.tmp 0 2], 1, bump⟩, ⟨.assign 1 (.tmp 0 0), 1, bump⟩, ⟨.give 1, 0, bump⟩, ⟨.cat [.tmp 0 0, .tmp 1 0], 0, bump⟩,
   ⟨.assign 0 (.tmp 0 0), 0, bump⟩, ⟨.assign 0 (.var 0 0), 0, bump⟩]

example : LegalRun sample (fun _ => [], []) := by simp [LegalRun, sample, bump_promise, Stmt.mean, Stmt.Legal, Src.Legal, Src.NotPart, Src.val]
example : (run sample {} >>= fun g => g.heap.str (g.ref 0) >>= fun s => .val (s, g.var 1, g.tmp, ((List.range 50).filter fun p => (g.heap p).isSome).length)) =
    .val (['c', 'b', 'a', 'b', 'c', 'b'], none, [], 1) := by decide +kernel

/-- Assigning to a string its own later part copies between overlapping strings. -/
theorem C87_own_part : run [⟨.assign 0 (.lit ['a', 'b']), 0, bump⟩, ⟨.assign 0 (.var 0 1), 0, bump⟩] {} = .ub := by
  rfl

end MM.Let
