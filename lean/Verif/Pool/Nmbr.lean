import Verif.Pool.Ops
/-!
# C86: `nmbrLet` is assignment
-/
namespace MM.Pool

/-- The block at `p` is the string of numbers `d`. -/
def IsStr (h : Heap) (p : Nat) (d : List Int) : Prop := ∃ a, h.view p = some ((d.length + 1) * w, a, d)

/-- The pools hold the strings `env` of the variables and the temporary strings `tv`, each in its own block, and nothing else. -/
structure Good (g : Prog) (env : Nat → List Int) (tv : List (List Int)) : Prop where
  held : ∃ held, Sane g.st held ∧ ∀ p, p ∈ held ↔ (∃ x, g.var x = some p) ∨ p ∈ g.tmp
  tmpNodup : g.tmp.Nodup
  disj : ∀ x p, g.var x = some p → p ∉ g.tmp
  inj : ∀ x y p, g.var x = some p → g.var y = some p → x = y
  none : ∀ x, g.var x = none → env x = []
  some : ∀ x p, g.var x = some p → env x ≠ [] ∧ IsStr g.st.heap p (env x)
  tmp : List.Forall₂ (fun p d => IsStr g.st.heap p d) g.tmp tv

theorem IsStr.blk {h : Heap} {p : Nat} {d : List Int} (H : IsStr h p d) : ∃ b, h p = some b ∧ b.actual = (d.length + 1) * w ∧ b.data = d := by
  obtain ⟨a, ha⟩ := H
  simp only [Heap.view, Option.map_eq_some_iff, Prod.mk.injEq] at ha
  obtain ⟨b, hb, h1, -, h3⟩ := ha
  exact ⟨b, hb, h1, h3⟩

theorem IsStr.of_view {h h' : Heap} {p : Nat} {d : List Int} (e : h'.view p = h.view p) (H : IsStr h p d) : IsStr h' p d := by
  obtain ⟨a, ha⟩ := H; exact ⟨a, e.trans ha⟩

theorem nmbrLen_eq {b : Blk} {n : Nat} (h : b.actual = (n + 1) * w) : nmbrLen b = n := by
  rw [nmbrLen, h]
  have : (((n + 1) * w : Nat) : Int) - w = n * w := by simp [w]; omega
  rw [this]; exact Int.mul_tdiv_cancel _ (by simp [w])

theorem nmbrAllocLen_eq {b : Blk} (h : w ≤ b.alloc) : nmbrAllocLen b = ((b.alloc - w) / w : Nat) := by
  rw [nmbrAllocLen, show (b.alloc : Int) - w = ((b.alloc - w : Nat) : Int) by omega]
  rw [Int.tdiv_eq_ediv_of_nonneg (by omega)]; simp

section
variable {g : Prog} {env : Nat → List Int} {tv : List (List Int)}

/-- Where a string that is assigned comes from. -/
inductive Src where
  | null
  | var (x : Nat)
  | tmp (i : Nat)

/-- Its pointer. -/
def Src.ptr (g : Prog) : Src → Ptr
  | .null => none
  | .var x => g.var x
  | .tmp i => g.tmp[i]?

/-- Its value. -/
def Src.val (env : Nat → List Int) (tv : List (List Int)) : Src → List Int
  | .null => []
  | .var x => env x
  | .tmp i => (tv[i]?).getD []

/-- A pointer to a string with the value `d`. -/
def IsPtr (h : Heap) (p : Ptr) (d : List Int) : Prop := (p = none ∧ d = []) ∨ ∃ q, p = some q ∧ IsStr h q d

theorem IsPtr.str {h : Heap} {p : Ptr} {d : List Int} (H : IsPtr h p d) : ∃ b, h.str p = .val b ∧ b.actual = (d.length + 1) * w ∧ b.data = d := by
  rcases H with ⟨rfl, rfl⟩ | ⟨q, rfl, H⟩
  · exact ⟨nullBlk, rfl, by simp [nullBlk], rfl⟩
  · obtain ⟨b, hb, h1, h2⟩ := H.blk
    exact ⟨b, get_some hb, h1, h2⟩

theorem forall2_get {R : Nat → List Int → Prop} : ∀ {l : List Nat} {tv : List (List Int)}, List.Forall₂ R l tv → ∀ i : Nat,
    (l[i]? = none ∧ tv[i]? = none) ∨ ∃ p d, l[i]? = some p ∧ tv[i]? = some d ∧ R p d
  | _, _, .nil, i => .inl (by simp)
  | _, _, .cons (a := a) (b := b) h t, 0 => .inr ⟨a, b, by simp, by simp, h⟩
  | _, _, .cons h t, i + 1 => by simpa using forall2_get t i

theorem Good.src (G : Good g env tv) (s : Src) : IsPtr g.st.heap (s.ptr g) (s.val env tv) := by
  cases s with
  | null => exact .inl ⟨rfl, rfl⟩
  | var x =>
    simp only [Src.ptr, Src.val]
    cases e : g.var x with
    | none => exact .inl ⟨rfl, G.none x e⟩
    | some p => exact .inr ⟨p, rfl, (G.some x p e).2⟩
  | tmp i =>
    simp only [Src.ptr, Src.val]
    rcases forall2_get G.tmp i with ⟨h1, h2⟩ | ⟨p, d, h1, h2, h3⟩
    · exact .inl ⟨h1, by rw [h2]; rfl⟩
    · exact .inr ⟨p, h1, by rw [h2]; exact h3⟩

theorem fill_spec {s : St} {held : List Nat} (H : Sane s held) {p : Nat} {d : List Int} {b : Blk} (hp : p ∈ held) (hb : s.heap p = some b) (hf : (d.length + 1) * w ≤ b.alloc) :
    ∃ s', nmbrFill p d s = .val s' ∧ Sane s' held ∧ s'.heap.view p = some (b.actual, b.alloc, d) ∧ ∀ q, q ≠ p → s'.heap q = s.heap q := by
  have H1 := H.change (c := { b with data := d }) hp hb rfl rfl (H.held p hp b hb).1
  have : (if b.loc ≠ -1 then s.total + (b.actual : Int) - b.actual else s.total) = s.total := by split <;> omega
  dsimp only at H1; rw [this] at H1
  rw [nmbrFill, get_some hb]; simp only [Out.bind_val]
  rw [if_pos hf]
  exact ⟨_, rfl, H1, by simp [Heap.view, set_same], fun q hq => set_other _ _ hq⟩

/-- A copy from another block, or to itself. -/
theorem copyTo_spec {s : St} {held : List Nat} (H : Sane s held) {t : Nat} {src : Ptr} {d : List Int} {b : Blk} (ht : t ∈ held) (hb : s.heap t = some b)
    (hs : IsPtr s.heap src d) (hf : (d.length + 1) * w ≤ b.alloc) :
    ∃ s', copyTo t src s = .val s' ∧ Sane s' held ∧ IsStr s'.heap t d ∧ ∀ q, q ≠ t → s'.heap q = s.heap q := by
  obtain ⟨sb, e1, ha, hd⟩ := hs.str
  obtain ⟨s1, e2, H1, hv1, hh1⟩ := fill_spec H (d := d) ht hb hf
  obtain ⟨b1, hb1, hb1'⟩ : ∃ b1, s1.heap t = some b1 ∧ b1.alloc = b.alloc ∧ b1.data = d ∧ b1.actual = b.actual := by
    simp only [Heap.view, Option.map_eq_some_iff, Prod.mk.injEq] at hv1
    obtain ⟨b1, hb1, h1, h2, h3⟩ := hv1
    exact ⟨b1, hb1, h2, h3, h1⟩
  have hs1 : ∃ sb1, s1.heap.str src = .val sb1 ∧ sb1.actual = (d.length + 1) * w := by
    rcases hs with ⟨rfl, rfl⟩ | ⟨q, rfl, hq⟩
    · exact ⟨nullBlk, rfl, by simp [nullBlk]⟩
    · by_cases e : q = t
      · subst e
        obtain ⟨b', hb', h1, h2⟩ := hq.blk
        rw [hb] at hb'; cases hb'
        exact ⟨b1, get_some hb1, by rw [hb1'.2.2, h1]⟩
      · obtain ⟨b', hb', h1, h2⟩ := hq.blk
        exact ⟨b', get_some ((hh1 q e).trans hb'), h1⟩
  obtain ⟨sb1, e3, ha1⟩ := hs1
  obtain ⟨s2, e4, H2, hv2, hh2⟩ := setActual_spec H1 (n := (d.length + 1) * w) ht hb1 (by rw [hb1'.1]; exact hf)
  refine ⟨s2, ?_, H2, ⟨b1.alloc, by rw [hv2, hb1'.2.1]⟩, fun q hq => (hh2 q hq).trans (hh1 q hq)⟩
  rw [copyTo, nmbrCpy, e1]; simp only [Out.bind_val, hd, e2, e3, ha1, e4]

/-- `Good` for a state in which the block `p` is new, and becomes the string of a variable that had none. -/
theorem Good.newVar (G : Good g env tv) {s' : St} {held : List Nat} {p v : Nat} {d : List Int} (hh : ∀ p, p ∈ held ↔ (∃ x, g.var x = .some p) ∨ p ∈ g.tmp)
    (hv : g.var v = .none) (H : Sane s' (p :: held)) (hq : ∀ q ∈ held, s'.heap.view q = g.st.heap.view q) (hp : IsStr s'.heap p d) (hd : d ≠ []) :
    Good { g with st := s', var := upd g.var v (.some p) } (upd env v d) tv := by
  have hpn : p ∉ held := (List.nodup_cons.1 H.held_nodup).1
  have hup : ∀ x q, upd g.var v (.some p) x = .some q → (x = v ∧ q = p) ∨ (x ≠ v ∧ g.var x = .some q) := by
    intro x q h
    by_cases e : x = v
    · subst e; rw [upd_same] at h; cases h; exact .inl ⟨rfl, rfl⟩
    · rw [upd_other _ _ e] at h; exact .inr ⟨e, h⟩
  refine ⟨⟨p :: held, H, fun q => ?_⟩, G.tmpNodup, ?_, ?_, ?_, ?_, ?_⟩
  · rw [List.mem_cons, hh q]
    constructor
    · rintro (rfl | ⟨x, hx⟩ | h)
      · exact .inl ⟨v, upd_same _ _ _⟩
      · exact .inl ⟨x, by show upd g.var v _ x = _; rw [upd_other _ _ (fun e => by subst e; rw [hv] at hx; cases hx), hx]⟩
      · exact .inr h
    · rintro (⟨x, hx⟩ | h)
      · rcases hup x q hx with ⟨-, rfl⟩ | ⟨-, h⟩
        · exact .inl rfl
        · exact .inr (.inl ⟨x, h⟩)
      · exact .inr (.inr h)
  · intro x q hx
    rcases hup x q hx with ⟨-, rfl⟩ | ⟨-, h⟩
    · exact fun h => hpn ((hh q).2 (.inr h))
    · exact G.disj x q h
  · intro x y q hx hy
    rcases hup x q hx with ⟨rfl, rfl⟩ | ⟨-, h⟩ <;> rcases hup y q hy with ⟨rfl, e⟩ | ⟨-, h'⟩
    · rfl
    · exact absurd ((hh q).2 (.inl ⟨y, h'⟩)) hpn
    · subst e; exact absurd ((hh q).2 (.inl ⟨x, h⟩)) hpn
    · exact G.inj x y q h h'
  · intro x hx
    have hx : upd g.var v (.some p) x = .none := hx
    by_cases e : x = v
    · subst e; rw [upd_same] at hx; cases hx
    · rw [upd_other _ _ e] at hx ⊢; exact G.none x hx
  · intro x q hx
    rcases hup x q hx with ⟨rfl, rfl⟩ | ⟨e, h⟩
    · rw [upd_same]; exact ⟨hd, hp⟩
    · rw [upd_other _ _ e]
      obtain ⟨h1, h2⟩ := G.some x q h
      exact ⟨h1, h2.of_view (hq q ((hh q).2 (.inl ⟨x, h⟩)))⟩
  · have : ∀ {l : List Nat} {t : List (List Int)}, List.Forall₂ (fun p d => IsStr g.st.heap p d) l t → (∀ q ∈ l, q ∈ g.tmp) →
        List.Forall₂ (fun p d => IsStr s'.heap p d) l t := by
      intro l t hf
      induction hf with
      | nil => intro _; exact .nil
      | cons h _ ih => intro hl; exact .cons (h.of_view (hq _ ((hh _).2 (.inr (hl _ (by simp)))))) (ih fun q hq => hl q (by simp [hq]))
    exact this G.tmp fun _ h => h

theorem forall2_view {h h' : Heap} {l : List Nat} {t : List (List Int)} (hf : List.Forall₂ (fun p d => IsStr h p d) l t) (hv : ∀ q ∈ l, h'.view q = h.view q) :
    List.Forall₂ (fun p d => IsStr h' p d) l t := by
  induction hf with
  | nil => exact .nil
  | cons h _ ih => exact .cons (h.of_view (hv _ (by simp))) (ih fun q hq => hv q (by simp [hq]))

/-- A new temporary string. -/
theorem Good.newTmp (G : Good g env tv) {s' : St} {held : List Nat} {p : Nat} {d : List Int} (hh : ∀ p, p ∈ held ↔ (∃ x, g.var x = .some p) ∨ p ∈ g.tmp)
    (H : Sane s' (p :: held)) (hq : ∀ q ∈ held, s'.heap.view q = g.st.heap.view q) (hp : IsStr s'.heap p d) : Good { g with st := s', tmp := p :: g.tmp } env (d :: tv) := by
  have hpn : p ∉ held := (List.nodup_cons.1 H.held_nodup).1
  refine ⟨⟨p :: held, H, fun q => ?_⟩, List.nodup_cons.2 ⟨fun h => hpn ((hh p).2 (.inr h)), G.tmpNodup⟩, ?_, G.inj, G.none, ?_, .cons hp (forall2_view G.tmp fun q h => hq q ((hh q).2 (.inr h)))⟩
  · rw [List.mem_cons, hh q, List.mem_cons]; exact or_left_comm
  · intro x q hx h
    rcases List.mem_cons.1 h with rfl | h
    · exact hpn ((hh q).2 (.inl ⟨x, hx⟩))
    · exact G.disj x q hx h
  · intro x q hx
    obtain ⟨h1, h2⟩ := G.some x q hx
    exact ⟨h1, h2.of_view (hq q ((hh q).2 (.inl ⟨x, hx⟩)))⟩

/-- The block of a variable is freed. -/
theorem Good.freeVar (G : Good g env tv) {v t : Nat} (hv : g.var v = .some t) :
    ∃ s', poolFree t g.st = .val s' ∧ (∀ q, q ≠ t → s'.heap.view q = g.st.heap.view q) ∧ Good { g with st := s', var := upd g.var v .none } (upd env v []) tv := by
  obtain ⟨held, H, hh⟩ := G.held
  obtain ⟨s', e, H', -, hq⟩ := poolFree_spec H ((hh t).2 (.inl ⟨v, hv⟩))
  have hup : ∀ x q, upd g.var v .none x = .some q → x ≠ v ∧ g.var x = .some q := by
    intro x q h
    by_cases e : x = v
    · subst e; rw [upd_same] at h; cases h
    · rw [upd_other _ _ e] at h; exact ⟨e, h⟩
  refine ⟨s', e, hq, ⟨held.erase t, H', fun q => ?_⟩, G.tmpNodup, fun x q h => G.disj x q (hup x q h).2, fun x y q h h' => G.inj x y q (hup x q h).2 (hup y q h').2, ?_, ?_,
    forall2_view G.tmp fun q h => hq q (ne_of (G.disj v t hv) h)⟩
  · rw [H.held_nodup.mem_erase_iff, hh q]
    constructor
    · rintro ⟨h1, ⟨x, hx⟩ | h⟩
      · exact .inl ⟨x, by show upd g.var v _ x = _; rw [upd_other _ _ (fun e => by subst e; rw [hv] at hx; cases hx; exact h1 rfl), hx]⟩
      · exact .inr h
    · rintro (⟨x, hx⟩ | h)
      · obtain ⟨h1, h2⟩ := hup x q hx
        exact ⟨fun e => h1 (G.inj x v q h2 (e ▸ hv)), .inl ⟨x, h2⟩⟩
      · exact ⟨ne_of (G.disj v t hv) h, .inr h⟩
  · intro x hx
    have hx : upd g.var v .none x = .none := hx
    by_cases e : x = v
    · subst e; rw [upd_same]
    · rw [upd_other _ _ e] at hx ⊢; exact G.none x hx
  · intro x q hx
    obtain ⟨h1, h2⟩ := hup x q hx
    rw [upd_other _ _ h1]
    obtain ⟨h3, h4⟩ := G.some x q h2
    exact ⟨h3, h4.of_view (hq q fun e => h1 (G.inj x v q h2 (e ▸ hv)))⟩

/-- The block of a variable is overwritten. -/
theorem Good.setVar (G : Good g env tv) {s' : St} {held : List Nat} {v t : Nat} {d : List Int} (hh : ∀ p, p ∈ held ↔ (∃ x, g.var x = .some p) ∨ p ∈ g.tmp) (hv : g.var v = .some t)
    (H : Sane s' held) (hq : ∀ q, q ≠ t → s'.heap q = g.st.heap q) (hp : IsStr s'.heap t d) (hd : d ≠ []) : Good { g with st := s' } (upd env v d) tv := by
  refine ⟨⟨held, H, hh⟩, G.tmpNodup, G.disj, G.inj, ?_, ?_, forall2_view G.tmp fun q h => view_eq (hq q (ne_of (G.disj v t hv) h))⟩
  · intro x hx
    rw [upd_other _ _ (fun e => by subst e; rw [hv] at hx; cases hx)]; exact G.none x hx
  · intro x q hx
    by_cases e : x = v
    · subst e; rw [hv] at hx; cases hx; rw [upd_same]; exact ⟨hd, hp⟩
    · rw [upd_other _ _ e]
      obtain ⟨h3, h4⟩ := G.some x q hx
      exact ⟨h3, h4.of_view (view_eq (hq q fun e' => e (G.inj x v q hx (e' ▸ hv))))⟩

theorem dropTemps_spec {start : Nat} : ∀ (l : List Nat) (g : Prog) (tv : List (List Int)), g.tmp = l → Good g env tv → start ≤ l.length →
    ∃ g', dropTemps start l g = .val g' ∧ g'.var = g.var ∧ Good g' env (tv.drop (l.length - start))
  | [], g, tv, hl, G, hs => ⟨g, rfl, rfl, by simpa using G⟩
  | p :: ps, g, tv, hl, G, hs => by
    rw [dropTemps]
    by_cases h : ps.length < start
    · rw [if_pos h]
      have : (p :: ps).length - start = 0 := by simp at hs ⊢; omega
      exact ⟨g, rfl, rfl, by rw [this]; simpa using G⟩
    · rw [if_neg h]
      obtain ⟨held, H, hh⟩ := G.held
      have hpt : p ∈ g.tmp := by rw [hl]; simp
      obtain ⟨s', e, H', -, hq⟩ := poolFree_spec H ((hh p).2 (.inr hpt))
      have hnd := G.tmpNodup; rw [hl, List.nodup_cons] at hnd
      have htv := G.tmp; rw [hl] at htv
      cases htv with
      | cons ht htv =>
        rename_i d tv
        have G1 : Good { g with st := s', tmp := ps } env tv := by
          refine ⟨⟨held.erase p, H', fun q => ?_⟩, hnd.2, fun x q hx hq => G.disj x q hx (by rw [hl]; simp [hq]), G.inj, G.none, ?_,
            forall2_view htv fun q h => hq q (ne_of hnd.1 h)⟩
          · rw [H.held_nodup.mem_erase_iff, hh q, hl]
            constructor
            · rintro ⟨h1, h | h⟩
              · exact .inl h
              · exact .inr (by simpa [h1] using h)
            · rintro (⟨x, hx⟩ | h)
              · exact ⟨fun e => G.disj x q hx (e ▸ hpt), .inl ⟨x, hx⟩⟩
              · exact ⟨ne_of hnd.1 h, .inr (by simp [show q ∈ ps from h])⟩
          · intro x q hx
            obtain ⟨h3, h4⟩ := G.some x q hx
            exact ⟨h3, h4.of_view (hq q fun e => G.disj x q hx (e ▸ hpt))⟩
        rw [e]; simp only [Out.bind_val]
        obtain ⟨g', e', hv', G'⟩ := dropTemps_spec (start := start) ps { g with st := s', tmp := ps } tv rfl G1 (by omega)
        refine ⟨g', e', hv', ?_⟩
        have : (p :: ps).length - start = (ps.length - start) + 1 := by simp; omega
        rw [this, List.drop_succ_cons]; exact G'

theorem upd_upd {α} (f : Nat → α) (i : Nat) (a b : α) : upd (upd f i a) i b = upd f i b := by
  funext j; simp only [upd]; split <;> rfl

theorem upd_self {α} (f : Nat → α) (i : Nat) {a : α} (h : f i = a) : upd f i a = f := by
  funext j; simp only [upd]; split
  · rename_i e; rw [e, h]
  · rfl

theorem nmbrLet_spec {max : Int} {m1 m2 : Malloc} (p1 : Promise m1) (p2 : Promise m2) {start v : Nat} (src : Src) (G : Good g env tv) (hs : start ≤ tv.length) :
    (∃ n, nmbrLet max m1 m2 start v (src.ptr g) g = .bug n ∧ (n = 27 ∨ n = 28) ∧ ∃ h, m1 h = .none) ∨
    ∃ g', nmbrLet max m1 m2 start v (src.ptr g) g = .val g' ∧ Good g' (upd env v (src.val env tv)) (tv.drop (tv.length - start)) := by
  have S := G.src src
  have hpm : ∀ q, src.ptr g = .some q → (∃ x, g.var x = .some q) ∨ q ∈ g.tmp := by
    intro q h
    cases src with
    | null => cases h
    | var x => exact .inl ⟨x, h⟩
    | tmp i => exact .inr (List.mem_of_getElem? h)
  generalize src.ptr g = p at S hpm ⊢
  generalize src.val env tv = d at S ⊢
  obtain ⟨sb, e1, ha, hd⟩ := S.str
  have hlen : g.tmp.length = tv.length := G.tmp.length_eq
  have T := G.src (.var v); simp only [Src.ptr, Src.val] at T
  obtain ⟨tb, e2, -⟩ := T.str
  obtain ⟨held, H, hh⟩ := G.held
  have hsl := nmbrLen_eq ha
  have fin : ∀ g1 : Prog, g1.tmp = g.tmp → Good g1 (upd env v d) tv → ∃ g', dropTemps start g1.tmp g1 = .val g' ∧ Good g' (upd env v d) (tv.drop (tv.length - start)) := by
    intro g1 ht G1
    obtain ⟨g', e, -, G'⟩ := dropTemps_spec (start := start) g1.tmp g1 tv rfl G1 (by rw [ht]; omega)
    rw [ht, hlen] at G'
    exact ⟨g', e, G'⟩
  rw [nmbrLet, e1]; simp only [Out.bind_val]
  rw [e2]; simp only [Out.bind_val, hsl]
  -- a new block for a variable without one
  have alloc : ∀ (g1 : Prog) (env1 : Nat → List Int) (k : Nat) (f : Nat → St → Out St), Good g1 env1 tv → g1.tmp = g.tmp → g1.var v = .none → IsPtr g1.st.heap p d →
      (∀ q, p = .some q → (∃ x, g1.var x = .some q) ∨ q ∈ g1.tmp) → d ≠ [] → upd env1 v d = upd env v d →
      (∀ s' held' q b, Sane s' held' → q ∈ held' → s'.heap q = .some b → b.actual = k → k ≤ b.alloc → IsPtr s'.heap p d →
        ∃ s'', f q s' = .val s'' ∧ Sane s'' held' ∧ IsStr s''.heap q d ∧ ∀ r, r ≠ q → s''.heap r = s'.heap r) →
      (∃ n, (poolMalloc max m1 m2 k g1.st >>= fun r => f r.2 r.1 >>= fun s => .val { g1 with st := s, var := upd g1.var v (.some r.2) }) = .bug n ∧ (n = 27 ∨ n = 28) ∧ ∃ h, m1 h = .none) ∨
      ∃ g', (poolMalloc max m1 m2 k g1.st >>= fun r => f r.2 r.1 >>= fun s => .val { g1 with st := s, var := upd g1.var v (.some r.2) }) = .val g' ∧ g'.tmp = g.tmp ∧ Good g' (upd env v d) tv := by
    intro g1 env1 k f G1 ht hv1 hp1 hpm hd0 hu hf
    obtain ⟨held1, H1, hh1⟩ := G1.held
    rcases poolMalloc_spec (max := max) p1 p2 H1 k with ⟨n, hn, e, hm⟩ | ⟨s', q, b, e, H', hb, hba, hbk, hq⟩
    · exact .inl ⟨n, by rw [e]; rfl, by simpa using hn, hm⟩
    · have hp' : IsPtr s'.heap p d := by
        rcases hp1 with h | ⟨r, hr, hr'⟩
        · exact .inl h
        · exact .inr ⟨r, hr, hr'.of_view (view_eq (hq r ((hh1 r).2 (hpm r hr))))⟩
      obtain ⟨s'', e', H'', hs'', hr⟩ := hf s' _ q b H' (by simp) hb hba hbk hp'
      have hqn : q ∉ held1 := (List.nodup_cons.1 H'.held_nodup).1
      refine .inr ⟨{ g1 with st := s'', var := upd g1.var v (.some q) }, by rw [e]; simp only [Out.bind_val]; rw [e']; rfl, ht, ?_⟩
      rw [← hu]
      exact G1.newVar hh1 hv1 H'' (fun r h => view_eq ((hr r (ne_of hqn h)).trans (hq r h))) hs'' hd0
  have close : ∀ o : Out Prog, ((∃ n, o = .bug n ∧ (n = 27 ∨ n = 28) ∧ ∃ h, m1 h = .none) ∨ ∃ g', o = .val g' ∧ g'.tmp = g.tmp ∧ Good g' (upd env v d) tv) →
      (∃ n, (o >>= fun g => dropTemps start g.tmp g) = .bug n ∧ (n = 27 ∨ n = 28) ∧ ∃ h, m1 h = .none) ∨
      ∃ g', (o >>= fun g => dropTemps start g.tmp g) = .val g' ∧ Good g' (upd env v d) (tv.drop (tv.length - start)) := by
    rintro o (⟨n, rfl, hn⟩ | ⟨g', rfl, ht, G'⟩)
    · exact .inl ⟨n, rfl, hn⟩
    · exact .inr (fin g' ht G')
  apply close
  have hd0 : (d.length : Int) ≠ 0 ↔ d ≠ [] := by cases d <;> simp; omega
  cases hv : g.var v with
  | none =>
    have ev : env v = [] := G.none v hv
    rw [hv] at e2; cases e2
    rw [if_neg (by simp [nmbrAllocLen, nullBlk])]
    by_cases hd1 : d = []
    · rw [if_neg (by simp [hd1])]
      exact .inr ⟨g, rfl, rfl, by rw [hd1, upd_self env v ev]; exact G⟩
    · rw [if_pos (hd0.2 hd1)]
      refine alloc g env _ (fun q s => nmbrCpy q p s) G rfl hv S hpm hd1 rfl ?_
      intro s' held' q b H' hq hb hba hbk hp'
      obtain ⟨b', e', -, hbd⟩ := hp'.str
      simp only [Int.toNat_natCast] at hba hbk
      obtain ⟨s'', e'', H'', hview, hr⟩ := fill_spec H' (d := d) hq hb hbk
      exact ⟨s'', by rw [nmbrCpy, e']; simp only [Out.bind_val, hbd]; exact e'', H'', ⟨b.alloc, by rw [hview, hba]⟩, hr⟩
  | some t =>
    obtain ⟨henv, hstr⟩ := G.some v t hv
    obtain ⟨b, hb, hba, -⟩ := hstr.blk
    rw [hv] at e2
    have htb : tb = b := by
      have := get_some hb
      rw [show g.st.heap.str (.some t) = g.st.heap.get t from rfl, this] at e2; cases e2; rfl
    subst htb
    have hth : t ∈ held := (hh t).2 (.inl ⟨v, hv⟩)
    have hle := (H.held t hth tb hb).1
    have hpos : 0 < (env v).length := List.length_pos_iff.2 henv
    have hal := nmbrAllocLen_eq (b := tb) (by simp only [w] at hba ⊢; omega)
    have h16 : 1 ≤ (tb.alloc - w) / w := by simp only [w] at hba ⊢; omega
    rw [if_pos (by rw [hal]; omega)]
    simp only [Option.elim]
    by_cases hd1 : d = []
    · rw [if_neg (by simp [hd1])]
      obtain ⟨s', e, -, G'⟩ := G.freeVar hv
      rw [e]
      exact .inr ⟨_, rfl, rfl, by rw [hd1]; exact G'⟩
    · rw [if_pos (hd0.2 hd1)]
      by_cases hfit : nmbrAllocLen tb ≥ d.length
      · rw [if_pos hfit]
        rw [hal] at hfit
        obtain ⟨s', e, H', hs', hq⟩ := copyTo_spec H hth hb S (by simp only [w] at hfit hba ⊢; omega)
        rw [e]
        exact .inr ⟨_, rfl, rfl, G.setVar hh hv H' hq hs' hd1⟩
      · rw [if_neg hfit]
        obtain ⟨s', e, hq, G'⟩ := G.freeVar hv
        have hpt : p ≠ .some t := by
          intro e
          rcases S with ⟨h, -⟩ | ⟨q, h, hs⟩
          · rw [h] at e; cases e
          · rw [h] at e; cases e
            obtain ⟨b', hb', hba', -⟩ := hs.blk
            rw [hb] at hb'; cases hb'
            rw [hal] at hfit; simp only [w] at hfit hba' hle; omega
        rw [e]; simp only [Out.bind_val]
        have := alloc { g with st := s', var := upd g.var v .none } (upd env v []) ((d.length + 1) * w * 2) (fun q s => copyTo q p s) G' rfl (upd_same _ _ _) ?_ ?_ hd1 (upd_upd _ _ _ _) ?_
        · dsimp only at this
          simp only [upd_upd] at this
          simp only [Int.toNat_natCast]
          exact this
        · rcases S with h | ⟨q, h, hs⟩
          · exact .inl h
          · exact .inr ⟨q, h, hs.of_view (hq q fun e => hpt (e ▸ h))⟩
        · intro q h
          rcases hpm q h with ⟨x, hx⟩ | h'
          · refine .inl ⟨x, ?_⟩
            show upd g.var v _ x = _
            rw [upd_other _ _ (fun e => hpt (by subst e; rw [hv] at hx; cases hx; exact h)), hx]
          · exact .inr h'
        · intro s1 held' q b H' hq hb hba hbk hp'
          exact copyTo_spec H' hq hb hp' (by simp only [w] at hbk ⊢; omega)
end

/-! ## Programs -/

/-- What a program does with strings of numbers: make a temporary string, assign, return a local variable. -/
inductive Stmt where
  | temp (d : List Int)
  | assign (x : Nat) (src : Src)
  | give (x : Nat)

/-- What it should mean: `env` is the values of the variables, `tv` those of the temporary strings. -/
def Stmt.mean (start : Nat) (env : Nat → List Int) (tv : List (List Int)) : Stmt → (Nat → List Int) × List (List Int)
  | .temp d => (env, d :: tv)
  | .assign x src => (fun y => if y = x then src.val env tv else env y, tv.drop (tv.length - start))
  | .give x => (fun y => if y = x then [] else env y, if env x = [] then tv else env x :: tv)

def Stmt.run (max : Int) (m1 m2 : Malloc) (cap start : Nat) (g : Prog) : Stmt → Out Prog
  | .temp d => nmbrTemp max m1 m2 cap d g
  | .assign x src => nmbrLet max m1 m2 start x (src.ptr g) g
  | .give x => nmbrMakeTemp cap x g

/-- One statement, with the value of `g_nmbrStartTempAllocStack` at it and what `malloc` does. -/
structure Exec where
  stmt : Stmt
  start : Nat
  m1 : Malloc
  m2 : Malloc

def run (max : Int) (cap : Nat) : List Exec → Prog → Out Prog
  | [], g => .val g
  | e :: es, g => e.stmt.run max e.m1 e.m2 cap e.start g >>= run max cap es

def means : List Exec → (Nat → List Int) × List (List Int) → (Nat → List Int) × List (List Int)
  | [], r => r
  | e :: es, r => means es (e.stmt.mean e.start r.1 r.2)

/-- `malloc` keeps its promise, and temporary strings are not freed below the bottom of the stack. -/
def LegalRun : List Exec → (Nat → List Int) × List (List Int) → Prop
  | [], _ => True
  | e :: es, r => Promise e.m1 ∧ Promise e.m2 ∧ e.start ≤ r.2.length ∧ LegalRun es (e.stmt.mean e.start r.1 r.2)

theorem temp_spec {max : Int} {m1 m2 : Malloc} {cap : Nat} {g : Prog} {env : Nat → List Int} {tv : List (List Int)} (p1 : Promise m1) (p2 : Promise m2) (G : Good g env tv) (d : List Int) :
    (∃ n, nmbrTemp max m1 m2 cap d g = .bug n ∧ n ∈ [27, 28, 105]) ∨ ∃ g', nmbrTemp max m1 m2 cap d g = .val g' ∧ Good g' env (d :: tv) := by
  rw [nmbrTemp]
  split
  · exact .inl ⟨105, rfl, by simp⟩
  · obtain ⟨held, H, hh⟩ := G.held
    rcases poolMalloc_spec (max := max) p1 p2 H ((d.length + 1) * w) with ⟨n, hn, e, -⟩ | ⟨s', q, b, e, H', hb, hba, hbk, hq⟩
    · exact .inl ⟨n, by rw [e]; rfl, by simp at hn ⊢; omega⟩
    · obtain ⟨s'', e'', H'', hview, hr⟩ := fill_spec H' (d := d) (by simp) hb hbk
      have hqn : q ∉ held := (List.nodup_cons.1 H'.held_nodup).1
      refine .inr ⟨{ g with st := s'', tmp := q :: g.tmp }, by rw [e]; simp only [Out.bind_val]; rw [e'']; rfl, ?_⟩
      exact G.newTmp hh H'' (fun r h => view_eq ((hr r (ne_of hqn h)).trans (hq r h))) ⟨b.alloc, by rw [hview, hba]⟩

theorem give_spec {cap : Nat} {g : Prog} {env : Nat → List Int} {tv : List (List Int)} (G : Good g env tv) (x : Nat) :
    nmbrMakeTemp cap x g = .bug 1368 ∨ ∃ g', nmbrMakeTemp cap x g = .val g' ∧ Good g' (upd env x []) (if env x = [] then tv else env x :: tv) := by
  rw [nmbrMakeTemp]
  split
  · exact .inl rfl
  · right
    cases hv : g.var x with
    | none =>
      have ev := G.none x hv
      rw [if_pos ev, upd_self env x ev]
      refine ⟨g, ?_, G⟩
      simp only [Heap.str, Option.elim, Out.bind_val, nullBlk]
      rw [if_neg (by simp), upd_self g.var x hv]
    | some p =>
      obtain ⟨hne, hs⟩ := G.some x p hv
      obtain ⟨b, hb, -, hbd⟩ := hs.blk
      obtain ⟨held, H, hh⟩ := G.held
      rw [if_neg hne]
      simp only [Heap.str, Option.elim, get_some hb, Out.bind_val]
      rw [if_pos (by rw [hbd]; exact hne)]
      have hup : ∀ y q, upd g.var x .none y = .some q → y ≠ x ∧ g.var y = .some q := by
        intro y q h
        by_cases e : y = x
        · subst e; rw [upd_same] at h; cases h
        · rw [upd_other _ _ e] at h; exact ⟨e, h⟩
      refine ⟨_, rfl, ⟨held, H, fun q => ?_⟩, List.nodup_cons.2 ⟨G.disj x p hv, G.tmpNodup⟩, ?_, fun y z q h h' => G.inj y z q (hup y q h).2 (hup z q h').2, ?_, ?_, .cons hs G.tmp⟩
      · rw [hh q]
        constructor
        · rintro (⟨y, hy⟩ | h)
          · by_cases e : y = x
            · subst e; rw [hv] at hy; cases hy; exact .inr (by simp)
            · exact .inl ⟨y, by show upd g.var x _ y = _; rw [upd_other _ _ e, hy]⟩
          · exact .inr (by simp [h])
        · rintro (⟨y, hy⟩ | h)
          · exact .inl ⟨y, (hup y q hy).2⟩
          · rcases List.mem_cons.1 h with rfl | h
            · exact .inl ⟨x, hv⟩
            · exact .inr h
      · intro y q hy h
        obtain ⟨h1, h2⟩ := hup y q hy
        rcases List.mem_cons.1 h with rfl | h
        · exact h1 (G.inj y x q h2 hv)
        · exact G.disj y q h2 h
      · intro y hy
        have hy : upd g.var x .none y = .none := hy
        by_cases e : y = x
        · subst e; rw [upd_same]
        · rw [upd_other _ _ e] at hy ⊢; exact G.none y hy
      · intro y q hy
        obtain ⟨h1, h2⟩ := hup y q hy
        rw [upd_other _ _ h1]; exact G.some y q h2

theorem run_spec {max : Int} {cap : Nat} : ∀ (es : List Exec) (g : Prog) (r : (Nat → List Int) × List (List Int)), Good g r.1 r.2 → LegalRun es r →
    (∃ n ∈ [27, 28, 105, 1368], run max cap es g = .bug n) ∨ ∃ g', run max cap es g = .val g' ∧ Good g' (means es r).1 (means es r).2
  | [], g, r, G, _ => .inr ⟨g, rfl, G⟩
  | e :: es, g, r, G, L => by
    obtain ⟨p1, p2, hs, L⟩ := L
    have step : (∃ n ∈ [27, 28, 105, 1368], e.stmt.run max e.m1 e.m2 cap e.start g = .bug n) ∨
        ∃ g', e.stmt.run max e.m1 e.m2 cap e.start g = .val g' ∧ Good g' (e.stmt.mean e.start r.1 r.2).1 (e.stmt.mean e.start r.1 r.2).2 := by
      cases e.stmt with
      | temp d =>
        rcases temp_spec (max := max) (cap := cap) p1 p2 G d with ⟨n, h, hn⟩ | h
        · exact .inl ⟨n, by simp at hn ⊢; omega, h⟩
        · exact .inr h
      | assign x src =>
        rcases nmbrLet_spec (max := max) p1 p2 (v := x) src G hs with ⟨n, h, hn, -⟩ | h
        · exact .inl ⟨n, by simp; omega, h⟩
        · exact .inr h
      | give x =>
        rcases give_spec (cap := cap) G x with h | h
        · exact .inl ⟨1368, by simp, h⟩
        · exact .inr h
    rcases step with ⟨n, hn, h⟩ | ⟨g', h, G'⟩
    · exact .inl ⟨n, hn, by rw [run, h]; rfl⟩
    · rw [run, h]; simp only [Out.bind_val]
      exact run_spec es g' _ G' L

theorem start_good : Good {} (fun _ => []) [] :=
  ⟨⟨[], start_sane, by simp⟩, by simp, by simp, by simp, by simp, by simp, .nil⟩

/-- **C86** (`nmbrLet` is assignment): run any sequence of making temporary strings, assigning a variable or a temporary string to a variable, also to itself, and returning variables.  Unless memory or the stack
of temporary strings is exhausted, each variable and each temporary string then has the value that it has if variables are plain values; and no block that is not allocated is used, no
string is written beyond its block. -/
theorem C86_nmbrLet {max : Int} {cap : Nat} (es : List Exec) (L : LegalRun es (fun _ => [], [])) :
    (∃ n ∈ [27, 28, 105, 1368], run max cap es {} = .bug n) ∨
    ∃ g, run max cap es {} = .val g ∧
      (∀ x, ∃ b, g.st.heap.str (g.var x) = .val b ∧ b.data = (means es (fun _ => [], [])).1 x ∧ nmbrLen b = b.data.length) ∧
      List.Forall₂ (fun p d => ∃ b, g.st.heap p = some b ∧ b.data = d ∧ nmbrLen b = d.length) g.tmp (means es (fun _ => [], [])).2 := by
  rcases run_spec (max := max) (cap := cap) es {} _ start_good L with h | ⟨g, h, G⟩
  · exact .inl h
  · refine .inr ⟨g, h, fun x => ?_, ?_⟩
    · obtain ⟨b, e, ha, hd⟩ := (G.src (.var x)).str
      exact ⟨b, e, hd, by rw [nmbrLen_eq ha, hd]⟩
    · have := G.tmp
      revert this
      generalize g.tmp = l; generalize (means es (fun _ => [], [])).2 = t
      intro hf
      induction hf with
      | nil => exact .nil
      | cons h _ ih =>
        obtain ⟨b, hb, ha, hd⟩ := h.blk
        exact .cons ⟨b, hb, hd, nmbrLen_eq ha⟩ ih

/-- **C86** (no leak, no sharing): the allocated blocks are those of the variables with a value other than the empty string, those of the temporary strings and the free pool; no block has two of these uses; and
`poolTotalFree` is what `getPoolStats` finds. -/
theorem C86_nmbr_no_leak {max : Int} {cap : Nat} (es : List Exec) (L : LegalRun es (fun _ => [], [])) {g : Prog} (h : run max cap es {} = .val g) :
    (∀ p, g.st.heap p ≠ none ↔ (∃ x, g.var x = some p) ∨ p ∈ g.tmp ∨ p ∈ g.st.free) ∧
    (∀ x, g.var x = none ↔ (means es (fun _ => [], [])).1 x = []) ∧
    (∀ x p, g.var x = some p → p ∉ g.tmp ∧ p ∉ g.st.free ∧ ∀ y, g.var y = some p → y = x) ∧ (∀ p ∈ g.tmp, p ∉ g.st.free) ∧ g.tmp.Nodup ∧
    ∃ a u, getPoolStats g.st = .val (a, u) ∧ g.st.total = a + u := by
  rcases run_spec (max := max) (cap := cap) es {} _ start_good L with ⟨n, -, h'⟩ | ⟨g', h', G⟩
  · rw [h'] at h; cases h
  · rw [h'] at h; cases h
    obtain ⟨held, H, hh⟩ := G.held
    refine ⟨fun p => ?_, fun x => ⟨G.none x, fun e => ?_⟩, fun x p hx => ⟨G.disj x p hx, H.not_free ((hh p).2 (.inl ⟨x, hx⟩)), fun y hy => G.inj y x p hy hx⟩,
      fun p hp => H.not_free ((hh p).2 (.inr hp)), G.tmpNodup, stats_spec H⟩
    · rw [H.live p, List.mem_append, hh p]; exact ⟨fun h => h.elim (fun h => .inr (.inr h)) (fun h => h.imp id .inl), fun h => h.elim (fun h => .inr (.inl h)) (fun h => h.elim (fun h => .inr (.inr h)) .inl)⟩
    · cases hv : g.var x with
      | none => rfl
      | some p => exact absurd e (G.some x p hv).1

/-- A variable grows, shrinks, is assigned to another and to itself; a temporary string is kept over an inner assignment. -/
def sample : List Exec :=
  [⟨.temp [1, 2], 0, bump, bump⟩, ⟨.assign 0 (.tmp 0), 0, bump, bump⟩, ⟨.temp [1, 2, 3, 4, 5], 0, bump, bump⟩, ⟨.assign 1 (.var 0), 1, bump, bump⟩, ⟨.assign 0 (.tmp 0), 0, bump, bump⟩,
   ⟨.assign 0 (.var 0), 0, bump, bump⟩, ⟨.give 1, 0, bump, bump⟩, ⟨.assign 0 (.tmp 0), 0, bump, bump⟩]

example : LegalRun sample (fun _ => [], []) := by simp [LegalRun, sample, bump_promise, Stmt.mean]
example : (run 1000 100 sample {} >>= fun g => g.st.heap.str (g.var 0) >>= fun b => .val (b.data, b.actual, g.var 1, g.tmp, g.st.free.length, g.st.used.length)) =
    .val ([1, 2], 24, none, [], 2, 1) := by decide +kernel

end MM.Pool
