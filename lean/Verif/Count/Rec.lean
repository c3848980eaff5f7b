import Verif.Count.Full
import Verif.Count.Big

/-!
# The recursion of `countSteps`
-/
namespace MM.Count
open MM.Veri MM.Proof MM.Trace

variable {D : CDb} {ess : Bool} {s : Nat} {S F : Nat → List Int}

/-- The size of what a statement stands for. -/
def size (D : CDb) (F : Nat → List Int) (x : Nat) : Nat := if D.kind x = .p then (F x).length else 1

/-- What is stored for a statement whose count is known. -/
structure Done (D : CDb) (S F : Nat → List Int) (st : CState) (q : Nat) : Prop where
  cnt : st.cnt q = size D F q
  num : IsNum (st.big q)
  big : value (st.big q) = size D F q
  low : -2 ≤ st.dist q
  leaf : D.kind q ≠ .p → st.dist q = 0
  plen : D.kind q = .p → st.plen q = some (S q).length
  below : D.kind q = .p → ∀ x ∈ S q, 0 ≤ x → st.cnt x.toNat ≠ 0 ∧ st.dist x.toNat + 1 ≤ st.dist q
  path : D.kind q = .p → ((∀ x ∈ S q, x < 0) ∧ st.dist q = -2) ∨ ∃ x ∈ S q, 0 ≤ x ∧ st.dist q = st.dist x.toNat + 1 ∧ st.maxPath q = some x.toNat

/-- The invariant of the arrays. -/
structure Inv (D : CDb) (S F : Nat → List Int) (st : CState) : Prop where
  done : ∀ q, st.cnt q ≠ 0 → Done D S F st q
  fresh : ∀ q, st.cnt q = 0 → st.big q = []

/-- The steps of the theorems in a list that are `i`. -/
def usesIn (D : CDb) (S : Nat → List Int) (new : List Nat) (i : Nat) : Nat := (new.map (fun r => if D.kind r = .p then (S r).count (i : Int) else 0)).sum

/-- The cells of `q` are the same. -/
structure Same (st st' : CState) (q : Nat) : Prop where
  cnt : st'.cnt q = st.cnt q
  big : st'.big q = st.big q
  dist : st'.dist q = st.dist q
  maxPath : st'.maxPath q = st.maxPath q
  plen : st'.plen q = st.plen q

theorem Same.trans {a b c : CState} {q : Nat} (h : Same a b q) (k : Same b c q) : Same a c q :=
  ⟨k.cnt.trans h.cnt, k.big.trans h.big, k.dist.trans h.dist, k.maxPath.trans h.maxPath, k.plen.trans h.plen⟩

theorem Done.same {st st' : CState} {q : Nat} (h : Done D S F st q) (hq : Same st st' q)
    (hx : D.kind q = .p → ∀ x ∈ S q, 0 ≤ x → st.cnt x.toNat ≠ 0 → Same st st' x.toNat) : Done D S F st' q where
  cnt := hq.cnt.trans h.cnt
  num := by rw [hq.big]; exact h.num
  big := by rw [hq.big]; exact h.big
  low := by rw [hq.dist]; exact h.low
  leaf := fun hk => by rw [hq.dist]; exact h.leaf hk
  plen := fun hk => by rw [hq.plen]; exact h.plen hk
  below := fun hk x hm h0 => by
    obtain ⟨a, b⟩ := h.below hk x hm h0
    have e := hx hk x hm h0 a
    rw [e.cnt, e.dist, hq.dist]
    exact ⟨a, b⟩
  path := fun hk => by
    rcases h.path hk with ⟨a, b⟩ | ⟨x, hm, h0, a, b⟩
    · exact Or.inl ⟨a, by rw [hq.dist]; exact b⟩
    · refine Or.inr ⟨x, hm, h0, ?_, ?_⟩
      · rw [hq.dist, (hx hk x hm h0 (h.below hk x hm h0).1).dist]; exact a
      · rw [hq.maxPath]; exact b

/-- Hypotheses that count. -/
def hypN (D : CDb) (ess : Bool) (ks : List Nat) : Nat := (ks.filter (fun k => !ess || D.kind k == .e)).length

theorem value_one : value ['1'] = 1 := by decide

theorem num_one : IsNum ['1'] := by unfold IsNum; decide

theorem subHyps_eq (D : CDb) (ess : Bool) : ∀ (ks : List Nat) (c : Int) (b : Str), IsNum b → hypN D ess ks ≤ value b →
    ∃ b', subHyps D ess ks c b = (c - hypN D ess ks, b') ∧ IsNum b' ∧ value b' = value b - hypN D ess ks
  | [], c, b, hb, _ => ⟨b, by simp [subHyps, hypN], hb, by simp [hypN]⟩
  | k :: ks, c, b, hb, hle => by
    have hcond : (!ess || D.kind k == .e) = true ↔ ess = false ∨ D.kind k = .e := by cases ess <;> simp
    rw [subHyps]
    by_cases h : ess = false ∨ D.kind k = .e
    · have e : hypN D ess (k :: ks) = hypN D ess ks + 1 := by
        unfold hypN
        rw [List.filter_cons_of_pos (p := fun k => !ess || D.kind k == .e) (hcond.2 h), List.length_cons]
      rw [e] at hle ⊢
      rw [if_pos h]
      obtain ⟨h1, h2, _⟩ := C66_sub hb num_one (by rw [value_one]; omega)
      rw [value_one] at h2
      obtain ⟨b', e1, e2, e3⟩ := subHyps_eq D ess ks (c - 1) _ h1 (by rw [h2]; omega)
      refine ⟨b', ?_, e2, by rw [e3, h2]; omega⟩
      rw [e1]
      congr 1
      push_cast
      omega
    · have e : hypN D ess (k :: ks) = hypN D ess ks := by
        unfold hypN
        rw [List.filter_cons_of_neg (p := fun k => !ess || D.kind k == .e) (fun h' => h (hcond.1 h'))]
      rw [e] at hle ⊢
      rw [if_neg h]
      exact subHyps_eq D ess ks c b hb hle

theorem hypN_hyps {x : Nat} (h : D.kind x = .p) : hypN D ess (D.req x) = (hyps D ess x).length := by
  unfold hypN hyps
  rw [if_pos (Or.inr h)]

/-- What a call for `s` achieves (`t` is the statement of the command). -/
structure Post (D : CDb) (ess : Bool) (S F : Nat → List Int) (t s : Nat) (st st' : CState) (new : List Nat) : Prop where
  inv : Inv D S F st'
  nodup : new.Nodup
  fresh : ∀ q ∈ new, st.cnt q = 0
  leads : ∀ q ∈ new, Leads D ess t q
  le : ∀ q ∈ new, q ≤ s
  cnt : ∀ q, st'.cnt q ≠ 0 ↔ st.cnt q ≠ 0 ∨ q ∈ new
  mem : s ∈ new
  usage : ∀ i, st'.usage i = st.usage i + usesIn D S new i
  same : ∀ q, q ∉ new → Same st st' q

/-- The state of the loop over the steps of `s` after the steps `pre`. -/
structure LoopInv (D : CDb) (ess : Bool) (S F : Nat → List Int) (t s : Nat) (st0 : CState) (pre : List Int) (stk : List (List Int)) (new : List Nat) (l : Loc) : Prop where
  good : ∀ q ∈ stk, q ≠ []
  cntv : l.cnt = total stk
  num : IsNum l.big
  big : value l.big = total stk
  len : l.len = pre.length
  inv : Inv D S F l.st
  nodup : new.Nodup
  fresh : ∀ q ∈ new, st0.cnt q = 0
  leads : ∀ q ∈ new, Leads D ess t q
  lt : ∀ q ∈ new, q < s
  cnt : ∀ q, l.st.cnt q ≠ 0 ↔ st0.cnt q ≠ 0 ∨ q ∈ new
  self : l.st.cnt s = 0
  usage : ∀ i, l.st.usage i = st0.usage i + usesIn D S new i + pre.count (i : Int)
  same : ∀ q, q ∉ new → q ≠ s → Same st0 l.st q
  low : -2 ≤ l.st.dist s
  below : ∀ x ∈ pre, 0 ≤ x → l.st.cnt x.toNat ≠ 0 ∧ l.st.dist x.toNat + 1 ≤ l.st.dist s
  path : ((∀ x ∈ pre, x < 0) ∧ l.st.dist s = -2) ∨ ∃ x ∈ pre, 0 ≤ x ∧ l.st.dist s = l.st.dist x.toNat + 1 ∧ l.st.maxPath s = some x.toNat

theorem usesIn_append (a b : List Nat) (i : Nat) : usesIn D S (a ++ b) i = usesIn D S a i + usesIn D S b i := by
  unfold usesIn
  rw [List.map_append, List.sum_append]

theorem LoopInv.call {t s x : Nat} {st0 st1 : CState} {pre : List Int} {stk : List (List Int)} {new n1 : List Nat} {l : Loc}
    (h : LoopInv D ess S F t s st0 pre stk new l) (hp : Post D ess S F t x l.st st1 n1) (hx : x < s) :
    LoopInv D ess S F t s st0 pre stk (new ++ n1) { l with st := st1 } := by
  have hs1 : s ∉ n1 := fun hm => by have := hp.le s hm; omega
  have hsS := hp.same s hs1
  have hdone : ∀ q, l.st.cnt q ≠ 0 → Same l.st st1 q := fun q hq => hp.same q (fun hm => hq (hp.fresh q hm))
  exact {
    good := h.good, cntv := h.cntv, num := h.num, big := h.big, len := h.len, inv := hp.inv
    nodup := by
      rw [List.nodup_append]
      refine ⟨h.nodup, hp.nodup, fun a ha b hb e => ?_⟩
      subst e
      exact (h.cnt a).2 (Or.inr ha) (hp.fresh a hb)
    fresh := fun q hq => by
      rcases List.mem_append.1 hq with hq | hq
      · exact h.fresh q hq
      · have h1 := hp.fresh q hq
        cases hd : decide (st0.cnt q = 0) with
        | true => exact of_decide_eq_true hd
        | false => exact absurd h1 ((h.cnt q).2 (Or.inl (of_decide_eq_false hd)))
    leads := fun q hq => by
      rcases List.mem_append.1 hq with hq | hq
      · exact h.leads q hq
      · exact hp.leads q hq
    lt := fun q hq => by
      rcases List.mem_append.1 hq with hq | hq
      · exact h.lt q hq
      · have := hp.le q hq; omega
    cnt := fun q => by
      rw [hp.cnt, h.cnt, List.mem_append, or_assoc]
    self := by rw [hsS.cnt]; exact h.self
    usage := fun i => by
      rw [hp.usage, h.usage, usesIn_append]; omega
    same := fun q hq hne => by
      rw [List.mem_append, not_or] at hq
      exact (h.same q hq.1 hne).trans (hp.same q hq.2)
    low := by rw [hsS.dist]; exact h.low
    below := fun y hy h0 => by
      obtain ⟨a, b⟩ := h.below y hy h0
      rw [(hdone _ a).cnt, (hdone _ a).dist, hsS.dist]
      exact ⟨a, b⟩
    path := by
      rcases h.path with ⟨a, b⟩ | ⟨y, hy, h0, a, b⟩
      · exact Or.inl ⟨a, by rw [hsS.dist]; exact b⟩
      · refine Or.inr ⟨y, hy, h0, ?_, by rw [hsS.maxPath]; exact b⟩
        rw [hsS.dist, (hdone _ (h.below y hy h0).1).dist]; exact a }

/-- A step that is no statement. -/
theorem LoopInv.unk {t s : Nat} {st0 : CState} {pre : List Int} {stk : List (List Int)} {new : List Nat} {l : Loc}
    (h : LoopInv D ess S F t s st0 pre stk new l) {x : Int} (hx : x < 0) (b : Bool) {stk' : List (List Int)} (hg : ∀ q ∈ stk', q ≠ []) (ht : total stk' = total stk + 1) :
    LoopInv D ess S F t s st0 (pre ++ [x]) stk' new { cnt := l.cnt + 1, big := bigAdd l.big ['1'], len := l.len + 1, st := { l.st with unproved := b } } := by
  obtain ⟨h1, h2, _⟩ := C66_add h.num num_one
  have hdone : ∀ q, Same l.st { l.st with unproved := b } q := fun q => ⟨rfl, rfl, rfl, rfl, rfl⟩
  exact {
    good := hg
    cntv := by show l.cnt + 1 = _; rw [h.cntv, ht]; push_cast; rfl
    num := h1
    big := by show value (bigAdd l.big ['1']) = _; rw [h2, h.big, ht, value_one]
    len := by show l.len + 1 = _; rw [h.len, List.length_append]; rfl
    inv := ⟨fun q hq => (h.inv.done q hq).same (hdone q) (fun _ x _ _ _ => hdone _), h.inv.fresh⟩
    nodup := h.nodup, fresh := h.fresh, leads := h.leads, lt := h.lt, cnt := h.cnt, self := h.self
    usage := fun i => by
      show l.st.usage i = _
      rw [h.usage, List.count_append, List.count_singleton, if_neg (by simp; omega)]
      omega
    same := fun q hq hne => ⟨(h.same q hq hne).cnt, (h.same q hq hne).big, (h.same q hq hne).dist, (h.same q hq hne).maxPath, (h.same q hq hne).plen⟩
    low := h.low
    below := fun y hy h0 => by
      rcases List.mem_append.1 hy with hy | hy
      · exact h.below y hy h0
      · rw [List.mem_singleton.1 hy] at h0; omega
    path := by
      rcases h.path with ⟨a, c⟩ | ⟨y, hy, h0, a, c⟩
      · refine Or.inl ⟨fun y hy => ?_, c⟩
        rcases List.mem_append.1 hy with hy | hy
        · exact a y hy
        · rw [List.mem_singleton.1 hy]; exact hx
      · exact Or.inr ⟨y, List.mem_append_left _ hy, h0, a, c⟩ }

/-- A step that is a statement whose count is known. -/
theorem LoopInv.use {t s x : Nat} {st0 : CState} {pre : List Int} {stk : List (List Int)} {new : List Nat} {l : Loc}
    (h : LoopInv D ess S F t s st0 pre stk new l) (hx : l.st.cnt x ≠ 0) {stk' : List (List Int)} (hg : ∀ q ∈ stk', q ≠ [])
    (ha : D.kind x ≠ .p → total stk' = total stk + 1)
    (hb : D.kind x = .p → total stk' + (hyps D ess x).length = total stk + (F x).length) :
    LoopInv D ess S F t s st0 (pre ++ [(x : Int)]) stk' new (useStmt D ess s x (size D F x) l l.st) := by
  have hd := h.inv.done x hx
  have hxs : x ≠ s := fun e => hx (e ▸ h.self)
  obtain ⟨h1, h2, _⟩ := C66_add h.num hd.num
  rw [hd.big, h.big] at h2
  -- the numbers
  have hnum : ∃ b', (if D.kind x = .p then subHyps D ess (D.req x) (l.cnt + (size D F x : Nat)) (bigAdd l.big (l.st.big x)) else (l.cnt + (size D F x : Nat), bigAdd l.big (l.st.big x))) =
      ((total stk' : Int), b') ∧ IsNum b' ∧ value b' = total stk' := by
    by_cases hk : D.kind x = .p
    · have hbb := hb hk
      have hsz : size D F x = (F x).length := by unfold size; rw [if_pos hk]
      rw [if_pos hk]
      obtain ⟨b', e1, e2, e3⟩ := subHyps_eq D ess (D.req x) (l.cnt + (size D F x : Nat)) _ h1 (by rw [h2, hypN_hyps hk]; omega)
      rw [hypN_hyps hk] at e1 e3
      refine ⟨b', ?_, e2, by rw [e3, h2]; omega⟩
      rw [e1, h.cntv]
      congr 1
      omega
    · have haa := ha hk
      have hsz : size D F x = 1 := by unfold size; rw [if_neg hk]
      rw [if_neg hk]
      refine ⟨_, ?_, h1, by rw [h2]; omega⟩
      rw [h.cntv]
      congr 1
      omega
  obtain ⟨b', e1, e2, e3⟩ := hnum
  have eU : useStmt D ess s x (size D F x) l l.st =
      { cnt := total stk', big := b', len := l.len + 1, st := updDist s x { l.st with usage := upd l.st.usage x (l.st.usage x + 1) } } := by
    unfold useStmt
    rw [e1]
  rw [eU]
  -- the arrays
  have hst : ∃ st', updDist s x { l.st with usage := upd l.st.usage x (l.st.usage x + 1) } = st' ∧ st'.usage = upd l.st.usage x (l.st.usage x + 1) ∧
      (∀ q, q ≠ s → Same l.st st' q) ∧ st'.cnt s = l.st.cnt s ∧ st'.big s = l.st.big s ∧
      ((st'.dist s = l.st.dist s ∧ st'.maxPath s = l.st.maxPath s ∧ l.st.dist x + 1 ≤ l.st.dist s) ∨ (l.st.dist s < l.st.dist x + 1 ∧ st'.dist s = l.st.dist x + 1 ∧ st'.maxPath s = some x)) := by
    refine ⟨_, rfl, ?_⟩
    unfold updDist
    dsimp only
    split
    · next hlt =>
      exact ⟨rfl, fun q hq => ⟨rfl, rfl, upd_other _ _ hq, upd_other _ _ hq, rfl⟩, rfl, rfl, Or.inr ⟨hlt, upd_same _ _ _, upd_same _ _ _⟩⟩
    · next hlt =>
      exact ⟨rfl, fun q _ => ⟨rfl, rfl, rfl, rfl, rfl⟩, rfl, rfl, Or.inl ⟨rfl, rfl, by omega⟩⟩
  obtain ⟨st', eS, hus, hsame, hcs, hbs, hds⟩ := hst
  rw [eS]
  have hdone : ∀ q, l.st.cnt q ≠ 0 → Same l.st st' q := fun q hq => hsame q (fun e => hq (e ▸ h.self))
  have hcnt : ∀ q, st'.cnt q = l.st.cnt q := fun q => by
    by_cases e : q = s
    · rw [e]; exact hcs
    · exact (hsame q e).cnt
  have hdx := (hdone x hx).dist
  have hge : st'.dist s ≥ l.st.dist s ∧ st'.dist s ≥ l.st.dist x + 1 := by
    rcases hds with ⟨a, _, b⟩ | ⟨a, b, _⟩ <;> omega
  exact {
    good := hg, cntv := rfl, num := e2, big := e3
    len := by show l.len + 1 = _; rw [h.len, List.length_append]; rfl
    inv := {
      done := fun q hq => by
        have hq' : l.st.cnt q ≠ 0 := by rw [← hcnt]; exact hq
        exact (h.inv.done q hq').same (hdone q hq') (fun _ y _ _ hy => hdone _ hy)
      fresh := fun q hq => by
        by_cases e : q = s
        · subst e; rw [hbs]; exact h.inv.fresh q h.self
        · rw [(hsame q e).big]; exact h.inv.fresh q (by rw [← hcnt]; exact hq) }
    nodup := h.nodup, fresh := h.fresh, leads := h.leads, lt := h.lt
    cnt := fun q => by rw [hcnt]; exact h.cnt q
    self := by rw [hcs]; exact h.self
    usage := fun i => by
      show st'.usage i = _
      rw [hus, List.count_append, List.count_singleton]
      by_cases e : i = x
      · subst e
        rw [upd_same, h.usage, if_pos (by simp)]; omega
      · rw [upd_other _ _ e, h.usage, if_neg (by simpa using fun e' => e e'.symm)]; omega
    same := fun q hq hne => (h.same q hq hne).trans (hsame q hne)
    low := by have := h.low; show -2 ≤ st'.dist s; omega
    below := fun y hy h0 => by
      show st'.cnt _ ≠ 0 ∧ st'.dist _ + 1 ≤ st'.dist s
      rcases List.mem_append.1 hy with hy | hy
      · obtain ⟨a, b⟩ := h.below y hy h0
        rw [hcnt, (hdone _ a).dist]
        exact ⟨a, by omega⟩
      · rw [List.mem_singleton.1 hy, Int.toNat_natCast, hcnt, hdx]
        exact ⟨hx, by omega⟩
    path := by
      show (_ ∧ st'.dist s = -2) ∨ ∃ y ∈ pre ++ [(x : Int)], 0 ≤ y ∧ st'.dist s = st'.dist y.toNat + 1 ∧ st'.maxPath s = some y.toNat
      right
      rcases hds with ⟨a, b, c⟩ | ⟨a, b, c⟩
      · rcases h.path with ⟨p1, p2⟩ | ⟨y, hy, h0, p1, p2⟩
        · have := hd.low
          omega
        · refine ⟨y, List.mem_append_left _ hy, h0, ?_, by rw [b]; exact p2⟩
          rw [a, p1, (hdone _ (h.below y hy h0).1).dist]
      · refine ⟨x, List.mem_append_right _ (List.mem_singleton.2 rfl), by omega, ?_, ?_⟩
        · rw [b, Int.toNat_natCast, hdx]
        · rw [c, Int.toNat_natCast] }

theorem size_pos {x : Nat} (h : D.kind x = .p → F x ≠ []) : size D F x ≠ 0 := by
  unfold size
  split
  · next hk => exact fun e => h hk (List.length_eq_zero_iff.1 e)
  · omega

theorem LoopInv.step (hS : Sane D ess) {t s : Nat} {st0 : CState} {pre : List Int} {stk stk' : List (List Int)} {new : List Nat} {l : Loc} {x : Int} {f : Nat → CState → Out (Int × CState)}
    (h : LoopInv D ess S F t s st0 pre stk new l)
    (hx : 0 ≤ x → 1 ≤ x.toNat ∧ x.toNat ≤ D.n ∧ x.toNat < s ∧ (D.kind x.toNat = .p → Sized D ess F x.toNat))
    (hf : 0 ≤ x → ∀ st, Inv D S F st → st.cnt x.toNat = 0 → ∃ st' n1, f x.toNat st = .val ((size D F x.toNat : Int), st') ∧ Post D ess S F t x.toNat st st' n1)
    (hr : fullStep D ess F stk x = some stk') :
    ∃ new' l', countStep D ess f s x l = .val l' ∧ LoopInv D ess S F t s st0 (pre ++ [x]) stk' new' l' := by
  obtain ⟨k1, k2, k3, k4, k5, _⟩ := fullStep_total hS h.good (fun h0 => ⟨(hx h0).1, (hx h0).2.1, (hx h0).2.2.2⟩) hr
  unfold countStep
  by_cases hx0 : x < 0
  · rw [if_pos hx0, if_neg (by omega)]
    exact ⟨new, _, rfl, h.unk hx0 true k1 (k3 hx0)⟩
  · rw [if_neg hx0]
    have h0 : 0 ≤ x := by omega
    obtain ⟨a, b, c, d⟩ := hx h0
    rw [if_neg (by omega)]
    have ex : ((x.toNat : Nat) : Int) = x := by omega
    by_cases hc : l.st.cnt x.toNat = 0
    · rw [if_pos hc]
      obtain ⟨st', n1, e1, e2⟩ := hf h0 l.st h.inv hc
      rw [e1, Out.bind_val]
      have hl1 := h.call e2 c
      have hl2 := hl1.use (x := x.toNat) ((e2.cnt _).2 (Or.inr e2.mem)) k1 (k4 h0) (fun hk => (k5 h0 hk).1)
      rw [ex] at hl2
      exact ⟨_, _, rfl, hl2⟩
    · rw [if_neg hc]
      have hl2 := h.use (x := x.toNat) hc k1 (k4 h0) (fun hk => (k5 h0 hk).1)
      rw [ex, ← (h.inv.done _ hc).cnt] at hl2
      exact ⟨_, _, rfl, hl2⟩

theorem LoopInv.run (hS : Sane D ess) {t s : Nat} {st0 : CState} {f : Nat → CState → Out (Int × CState)} :
    ∀ {xs pre : List Int} {stk stk' : List (List Int)} {new : List Nat} {l : Loc}, LoopInv D ess S F t s st0 pre stk new l →
    (∀ x ∈ xs, 0 ≤ x → 1 ≤ x.toNat ∧ x.toNat ≤ D.n ∧ x.toNat < s ∧ (D.kind x.toNat = .p → Sized D ess F x.toNat)) →
    (∀ x ∈ xs, 0 ≤ x → ∀ st, Inv D S F st → st.cnt x.toNat = 0 → ∃ st' n1, f x.toNat st = .val ((size D F x.toNat : Int), st') ∧ Post D ess S F t x.toNat st st' n1) →
    fullRun D ess F xs stk = some stk' →
    ∃ new' l', countLoop D ess f s xs none l = .val l' ∧ LoopInv D ess S F t s st0 (pre ++ xs) stk' new' l'
  | [], pre, stk, stk', new, l, h, _, _, hr => by
    obtain rfl := Option.some.inj hr
    exact ⟨new, l, rfl, by rw [List.append_nil]; exact h⟩
  | x :: xs, pre, stk, stk', new, l, h, hx, hf, hr => by
    rw [fullRun] at hr
    cases h1 : fullStep D ess F stk x with
    | none => rw [h1] at hr; cases hr
    | some stk1 =>
      rw [h1] at hr
      obtain ⟨n1, l1, e1, e2⟩ := h.step hS (hx x List.mem_cons_self) (hf x List.mem_cons_self) h1
      obtain ⟨n2, l2, e3, e4⟩ := e2.run hS (fun y hy => hx y (List.mem_cons_of_mem _ hy)) (fun y hy => hf y (List.mem_cons_of_mem _ hy)) hr
      refine ⟨n2, l2, ?_, ?_⟩
      · rw [countLoop, e1, Out.bind_val, e3]
      · rw [show pre ++ x :: xs = pre ++ [x] ++ xs by rw [List.append_assoc]; rfl]
        exact e4

/-! ### The proof and its flags -/

theorem countLoop_ess {f : Nat → CState → Out (Int × CState)} {s : Nat} : ∀ {proof es : List Int} (l : Loc), es.length = proof.length →
    countLoop D ess f s proof (some es) l = countLoop D ess f s (((proof.zip es).filter (fun q => q.2 ≠ 0)).map Prod.fst) none l
  | [], es, l, _ => by
    cases es with
    | nil => rfl
    | cons e es => rfl
  | x :: xs, [], l, h => by cases h
  | x :: xs, e :: es, l, h => by
    rw [countLoop, List.zip_cons_cons]
    have hl : es.length = xs.length := by simpa using h
    by_cases he : e = 0
    · rw [if_pos he, List.filter_cons_of_neg (by simp [he]), countLoop_ess l hl]
    · rw [if_neg he, List.filter_cons_of_pos (by simp [he]), List.map_cons, countLoop]
      cases countStep D ess f s x l with
      | val l' => rw [Out.bind_val, Out.bind_val, countLoop_ess l' hl]
      | ub => rfl
      | bug n => rfl
      | fuel => rfl

theorem body_eq (hS : Sane D ess) {f : Nat → CState → Out (Int × CState)} {s : Nat} {S : List Int} (h : StepsOf D.toTDb ess s S) (l : Loc) (g : Loc → Out (Int × CState)) :
    (proofOf D.toTDb s >>= fun proof => essFlags D.toTDb ess proof >>= fun es => countLoop D ess f s proof es l >>= g) = (countLoop D ess f s S none l >>= g) := by
  obtain ⟨r, hr, h⟩ := h
  unfold proofOf
  rw [hr, Out.bind_val]
  rcases h with ⟨h1, h2⟩ | ⟨h1, h2, h3⟩ | ⟨h1, h2, es, h3, h4, h5⟩
  · rw [if_pos h1, Out.bind_val]
    subst h2
    unfold essFlags
    cases ess with
    | false => rfl
    | true =>
      rw [if_pos rfl, hS.unk rfl, Out.bind_val, Out.bind_val, countLoop_ess (proof := [-63]) (es := [1]) l rfl]
      rfl
  · rw [if_neg (by omega), Out.bind_val]
    subst h2 h3
    rfl
  · rw [if_neg (by omega), Out.bind_val]
    subst h2
    unfold essFlags
    rw [if_pos rfl, h3, Out.bind_val, Out.bind_val, countLoop_ess l h4, ← h5]

/-! ### A whole call -/

theorem usesIn_single {s : Nat} (hk : D.kind s = .p) (new : List Nat) (i : Nat) : usesIn D S (s :: new) i = usesIn D S new i + (S s).count (i : Int) := by
  unfold usesIn
  rw [List.map_cons, List.sum_cons, if_pos hk]
  omega

theorem countRec_ok (hS : Sane D ess) {t : Nat} (ht1 : 1 ≤ t) (ht2 : t ≤ D.n) (hP : Proofs D ess t S F) (hO : Once D ess t S) :
    ∀ (fuel s : Nat), s < fuel → Leads D ess t s → ∀ st, Inv D S F st → st.cnt s = 0 →
    ∃ st' new, countRec D ess fuel s st = .val ((size D F s : Int), st') ∧ Post D ess S F t s st st' new
  | 0, s, h, _, _, _, _ => by omega
  | fuel + 1, s, hlt, hl, st, hI, hc => by
    have hr := leads_range hS ht1 ht2 hl
    rw [countRec]
    by_cases hk : D.kind s = .p
    · rw [if_neg (by simp [hk]), body_eq hS (hP.steps s hl hk)]
      have hb := hI.fresh s hc
      have h0 : LoopInv D ess S F t s st [] [] [] { cnt := 0, big := ['0'], len := 0, st := { st with dist := upd st.dist s (-2) } } := {
        good := (by intro q hq; cases hq), cntv := rfl, num := (by show IsNum ['0']; unfold IsNum; decide), big := rfl, len := rfl
        inv := {
          done := fun q hq => by
            have hne : ∀ z, st.cnt z ≠ 0 → z ≠ s := fun z hz e => hz (e ▸ hc)
            exact (hI.done q hq).same ⟨rfl, rfl, upd_other _ _ (hne q hq), rfl, rfl⟩ (fun _ y _ _ hy => ⟨rfl, rfl, upd_other _ _ (hne _ hy), rfl, rfl⟩)
          fresh := hI.fresh }
        nodup := List.nodup_nil, fresh := (by intro q hq; cases hq), leads := (by intro q hq; cases hq), lt := (by intro q hq; cases hq)
        cnt := fun q => by simp
        self := hc
        usage := fun i => by simp [usesIn]
        same := fun q _ hne => ⟨rfl, rfl, upd_other _ _ hne, rfl, rfl⟩
        low := (by show (-2 : Int) ≤ upd st.dist s (-2) s; rw [upd_same])
        below := (by intro q hq; cases hq)
        path := Or.inl ⟨(by intro q hq; cases hq), upd_same _ _ _⟩ }
      have hxs : ∀ x ∈ S s, 0 ≤ x → 1 ≤ x.toNat ∧ x.toNat < s ∧ Leads D ess t x.toNat := fun x hx hx0 => step_range hS ht1 ht2 hP hl hk hx hx0
      obtain ⟨new, l, e1, e2⟩ := h0.run hS (f := countRec D ess fuel) (xs := S s) (stk' := [F s])
        (fun x hx hx0 => by
          obtain ⟨a, b, c⟩ := hxs x hx hx0
          exact ⟨a, by omega, b, fun hp => sized hS ht1 ht2 hP hO (x.toNat + 1) _ (by omega) c (by omega) hp⟩)
        (fun x hx hx0 st1 hI1 hc1 => countRec_ok hS ht1 ht2 hP hO fuel x.toNat (by have := hxs x hx hx0; omega) (hxs x hx hx0).2.2 st1 hI1 hc1)
        (hP.full s hl hk)
      rw [e1, Out.bind_val, List.nil_append] at *
      have hbs : l.st.big s = [] := e2.inv.fresh s e2.self
      have hsz : size D F s = (F s).length := by unfold size; rw [if_pos hk]
      have htot : total [F s] = size D F s := by rw [hsz]; simp [total]
      have hpos : size D F s ≠ 0 := size_pos (fun _ => e2.good _ List.mem_cons_self)
      unfold finish
      rw [if_neg (by simp [hbs])]
      have hcv := e2.cntv
      rw [htot] at hcv
      refine ⟨{ l.st with cnt := upd l.st.cnt s l.cnt, big := upd l.st.big s l.big, plen := upd l.st.plen s (some l.len) }, s :: new, congrArg Out.val (Prod.ext hcv rfl), ?_⟩
      have hsn : s ∉ new := fun hm => by have := e2.lt s hm; omega
      have hother : ∀ q, q ≠ s → Same l.st { l.st with cnt := upd l.st.cnt s l.cnt, big := upd l.st.big s l.big, plen := upd l.st.plen s (some l.len) } q :=
        fun q hq => ⟨upd_other _ _ hq, upd_other _ _ hq, rfl, rfl, upd_other _ _ hq⟩
      have hdone : ∀ q, l.st.cnt q ≠ 0 → q ≠ s := fun q hq e => hq (e ▸ e2.self)
      have hcnts : ∀ q, upd l.st.cnt s l.cnt q ≠ 0 ↔ l.st.cnt q ≠ 0 ∨ q = s := by
        intro q
        by_cases e : q = s
        · rw [e, upd_same]
          simp only [or_true, iff_true]
          rw [hcv]; exact_mod_cast hpos
        · rw [upd_other _ _ e]; simp [e]
      exact {
        inv := {
          done := fun q hq => by
            rcases (hcnts q).1 hq with hq1 | rfl
            · exact (e2.inv.done q hq1).same (hother q (hdone q hq1)) (fun _ y _ _ hy => hother _ (hdone _ hy))
            · exact {
                cnt := (by show upd l.st.cnt q l.cnt q = _; rw [upd_same, hcv])
                num := (by show IsNum (upd l.st.big q l.big q); rw [upd_same]; exact e2.num)
                big := (by show value (upd l.st.big q l.big q) = _; rw [upd_same, e2.big, htot])
                low := e2.low
                leaf := fun h => absurd hk h
                plen := fun _ => (by show upd l.st.plen q (some l.len) q = _; rw [upd_same, e2.len])
                below := fun _ x hx hx0 => by
                  obtain ⟨a, b⟩ := e2.below x hx hx0
                  exact ⟨(hcnts _).2 (Or.inl a), b⟩
                path := fun _ => e2.path }
          fresh := fun q hq => by
            have hq' : ¬ (l.st.cnt q ≠ 0 ∨ q = s) := fun h => (hcnts q).2 h hq
            rw [not_or, Decidable.not_not] at hq'
            show upd l.st.big s l.big q = []
            rw [upd_other _ _ hq'.2]
            exact e2.inv.fresh q hq'.1 }
        nodup := List.nodup_cons.2 ⟨hsn, e2.nodup⟩
        fresh := fun q hq => by
          rcases List.mem_cons.1 hq with rfl | hq
          · exact hc
          · exact e2.fresh q hq
        leads := fun q hq => by
          rcases List.mem_cons.1 hq with rfl | hq
          · exact hl
          · exact e2.leads q hq
        le := fun q hq => by
          rcases List.mem_cons.1 hq with rfl | hq
          · omega
          · have := e2.lt q hq; omega
        cnt := fun q => by
          show upd l.st.cnt s l.cnt q ≠ 0 ↔ _
          rw [hcnts, e2.cnt, List.mem_cons, or_assoc, or_comm (a := q ∈ new)]
        mem := List.mem_cons_self
        usage := fun i => by
          show l.st.usage i = _
          rw [e2.usage, usesIn_single hk]; omega
        same := fun q hq => by
          rw [List.mem_cons, not_or] at hq
          exact (e2.same q hq.2 hq.1).trans (hother q hq.1) }
    · rw [if_pos hk]
      have hb := hI.fresh s hc
      unfold finish
      rw [if_neg (by simp [hb])]
      have hsz : size D F s = 1 := by unfold size; rw [if_neg hk]
      refine ⟨_, [s], by rw [hsz]; rfl, ?_⟩
      have hother : ∀ q, q ≠ s → Same st { st with dist := upd st.dist s 0, cnt := upd st.cnt s 1, big := upd st.big s ['1'], plen := upd st.plen s (some 0) } q :=
        fun q hq => ⟨upd_other _ _ hq, upd_other _ _ hq, upd_other _ _ hq, rfl, upd_other _ _ hq⟩
      have hdone : ∀ q, st.cnt q ≠ 0 → q ≠ s := fun q hq e => hq (e ▸ hc)
      have hcnts : ∀ q, upd st.cnt s 1 q ≠ 0 ↔ st.cnt q ≠ 0 ∨ q = s := by
        intro q
        by_cases e : q = s
        · rw [e, upd_same]; simp
        · rw [upd_other _ _ e]; simp [e]
      exact {
        inv := {
          done := fun q hq => by
            rcases (hcnts q).1 hq with hq1 | rfl
            · exact (hI.done q hq1).same (hother q (hdone q hq1)) (fun _ y _ _ hy => hother _ (hdone _ hy))
            · exact {
                cnt := (by show upd st.cnt q 1 q = _; rw [upd_same, hsz]; rfl)
                num := (by show IsNum (upd st.big q ['1'] q); rw [upd_same]; exact num_one)
                big := (by show value (upd st.big q ['1'] q) = _; rw [upd_same, hsz, value_one])
                low := (by show (-2 : Int) ≤ upd st.dist q 0 q; rw [upd_same]; omega)
                leaf := fun _ => upd_same _ _ _
                plen := fun h => absurd h hk
                below := fun h => absurd h hk
                path := fun h => absurd h hk }
          fresh := fun q hq => by
            have hq' : ¬ (st.cnt q ≠ 0 ∨ q = s) := fun h => (hcnts q).2 h hq
            rw [not_or, Decidable.not_not] at hq'
            show upd st.big s ['1'] q = []
            rw [upd_other _ _ hq'.2]
            exact hI.fresh q hq'.1 }
        nodup := List.nodup_singleton s
        fresh := fun q hq => by rw [List.mem_singleton.1 hq]; exact hc
        leads := fun q hq => by rw [List.mem_singleton.1 hq]; exact hl
        le := fun q hq => by rw [List.mem_singleton.1 hq]
        cnt := fun q => by
          show upd st.cnt s 1 q ≠ 0 ↔ _
          rw [hcnts, List.mem_singleton]
        mem := List.mem_singleton.2 rfl
        usage := fun i => by simp [usesIn, hk]
        same := fun q hq => hother q (by simpa using hq) }

end MM.Count
