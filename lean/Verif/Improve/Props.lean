import Verif.Improve.Model
import Verif.Byrep.Props
/-!
# C91: IMPROVE
-/
namespace MM.Improve
open MM.Veri MM.Proof MM.Data MM.Tree MM.Pfas MM.Impr MM.Repl MM.Spec MM.Pars MM.Byrep
open MM.Pfas.AF MM.Pfas.Cx
open MM.Unif (bind_inv)

variable {X : Impr.Ctx} {src : List Src} {s : PState} {look : Look} {U : Unifier} {n : Nat} {cnt : Nat → Nat → Nat} {alg2 : Bool}

/-- What IMPROVE may do to the state of the session: `k` times it replaces an incomplete subproof by a correct complete proof (but for the disjoint-variable conditions) of the target of its
last step, and in between it unifies, which does not change the steps. -/
inductive Chain (src : List Src) (s : PState) (X : Impr.Ctx) (U : Unifier) (n : Nat) : MM.Pfas.St → MM.Pfas.St → Nat → Prop
  | refl (a) : Chain src s X U n a a 0
  | insert {a t b : MM.Pfas.St} {k j : Nat} {m : List Nat} {q x old y : List Int} : a.pip.target[j]? = some m → Found src s X m q → a.pip.proof = x ++ old ++ y →
      x.length + old.length = j + 1 → rpnCount X.E old 0 = some 1 → unk ∈ old → t.pip.proof = x ++ q ++ y → exec n X.E U X.prove a (.insert q j) = .val t →
      Chain src s X U n t b k → Chain src s X U n a b (k + 1)
  | unify {a t b : MM.Pfas.St} {k : Nat} : exec n X.E U X.prove a .unify = .val t → t.pip.proof = a.pip.proof → Chain src s X U n t b k → Chain src s X U n a b k

theorem Chain.trans {a b c : MM.Pfas.St} {j k : Nat} (h : Chain src s X U n a b j) (h2 : Chain src s X U n b c k) : Chain src s X U n a c (j + k) := by
  induction h with
  | refl a => rw [Nat.zero_add]; exact h2
  | insert h1 h3 h4 h5 h6 h7 h8 h9 _ ih => rw [Nat.add_right_comm]; exact .insert h1 h3 h4 h5 h6 h7 h8 h9 (ih h2)
  | unify h1 h3 _ ih => exact .unify h1 h3 (ih h2)

theorem Chain.fewer {a b : MM.Pfas.St} {k : Nat} (h : Chain src s X U n a b k) : b.pip.proof.count unk + k ≤ a.pip.proof.count unk := by
  induction h with
  | refl a => simp
  | @insert a t b k j m q x old y h1 h3 h4 h5 h6 h7 h8 h9 _ ih =>
    rw [h8] at ih
    rw [h4]
    have e0 : q.count unk = 0 := List.count_eq_zero.mpr h3.1
    have e1 : 0 < old.count unk := List.count_pos_iff.mpr h7
    simp only [List.count_append] at ih ⊢
    omega
  | unify h1 h3 _ ih => rw [h3] at ih; exact ih

theorem Chain.err {a b : MM.Pfas.St} {k : Nat} (h : Chain src s X U n a b k) (hb : b.err = false) : a.err = false := by
  induction h with
  | refl a => exact hb
  | insert h1 h3 h4 h5 h6 h7 h8 h9 _ ih => exact exec_err h9 (ih hb)
  | @unify a t b k h1 h3 _ ih =>
    have := ih hb
    rw [exec] at h1
    obtain ⟨u, _, h1⟩ := bind_inv h1
    rw [← Out.val.inj h1] at this
    exact this

variable {N : Nat} {a : MM.Pfas.St}

theorem setting_at (h : Improve2 src s look X U) : Setting src s look (at' X a) := ⟨h.set.read, h.set.env, h.set.prove, h.set.mt, h.set.con, h.set.min, h.set.over⟩

theorem session_at (h : Improve2 src s look X U) (ha : Here X U N a) : InSession (at' X a) Unified := Or.inr ⟨N, U, a, h.unif, ha.run.reach, rfl, ha.unified⟩

theorem found_of_good (h : Improve2 src s look X U) {m : List Nat} {q : List Int} (hg : Good (at' X a) (fun _ _ => False) m q) : Found src s X m q := by
  obtain ⟨steps, s1, s2⟩ := good_proves hg
  obtain ⟨hL, _⟩ := hg
  have hL : ∀ x ∈ q, Legal X.E X.prove x ∧ x ≠ unk := hL
  have s1 : q.map (decode X.E.toDb) = steps.map some := s1
  have s2 : Proves X.E.isVar (fun _ _ => False) (steps.map noDv) m := s2
  rw [h.set.env] at hL s1 s2
  refine ⟨fun hu => (hL _ hu).2 rfl, ?_, steps, s1, s2⟩
  intro ps hps _
  rcases (hL ps hps).1 with hu | ⟨_, _, hl⟩
  · exact absurd hu (hL ps hps).2
  · exact hl

theorem formula_of (h : Improve2 src s look X U) (ha : Here X U N a) {k : Nat} {m : List Nat} (ht : a.pip.target[k]? = some m) (hd : ¬ hasDummy X.E m = true) : Formula src m := by
  have hmem := List.mem_of_getElem? ht
  refine ⟨(forest h ha).2 m hmem, fun t htm => ?_⟩
  have h1 := C75_no_separator h.set h.min h.real ha.run m hmem
  have hmt := (ready_of_setting h.set).mt
  unfold hasDummy at hd
  rw [List.any_eq_true] at hd
  have h2 : ¬ X.E.sep < t := fun e => hd ⟨t, htm, decide_eq_true e⟩
  rw [← hmt, h.set.mt] at h2
  rw [h.set.mt] at h1
  have h3 : t ≠ (declToks src).length := fun e => h1 (e ▸ htm)
  omega

theorem findFor_good (h : Improve2 src s look X U) (ha : Here X U N a) {fl rp : Bool} {k : Nat} {m : List Nat} {q : List Int} (ht : a.pip.target[k]? = some m) (hm : Formula src m)
    (hq : findFor X n cnt fl rp a k m = .val q) (hne : q ≠ []) : Good (at' X a) (fun _ _ => False) m q := by
  unfold findFor at hq
  obtain ⟨q1, h1, hq⟩ := bind_inv hq
  by_cases c : q1 ≠ []
  · rw [if_pos c] at hq
    obtain rfl := Out.val.inj hq
    cases fl with
    | false => rw [if_neg (by decide)] at h1; exact absurd (Out.val.inj h1).symm hne
    | true => rw [if_pos rfl] at h1; exact good_of_found (setting_at h) (session_at h ha) hm h1 hne
  · rw [if_neg c] at hq
    cases rp with
    | false => rw [if_neg (by decide)] at hq; exact absurd (Out.val.inj hq).symm hne
    | true => rw [if_pos rfl] at hq; exact good_found h ha ht hm hq hne

theorem findFor_ends (h : Improve2 src s look X U) (ha : Here X U N a) (fl rp : Bool) {k : Nat} {m : List Nat} (ht : a.pip.target[k]? = some m) (hm : Formula src m) :
    ∃ M q, ∀ n, M ≤ n → findFor X n cnt fl rp a k m = .val q := by
  have e1 : ∃ M q, ∀ n, M ≤ n → (if fl = true then proveFloating (at' X a) n m else .val []) = .val q := by
    cases fl with
    | false => exact ⟨0, [], fun _ _ => rfl⟩
    | true =>
      have hs : InSession (at' X a) fun _ => True := Or.inr ⟨N, U, a, h.unif, ha.run.reach, rfl, trivial⟩
      obtain ⟨M, q, hM⟩ := C74_search_ends (setting_at h) hs hm
      exact ⟨M, q, fun n hn => by rw [if_pos rfl]; exact hM n hn⟩
  obtain ⟨M, q, hM⟩ := e1
  by_cases c : q ≠ []
  · exact ⟨M, q, fun n hn => by unfold findFor; rw [hM n hn, Out.bind_val, if_pos c]⟩
  cases rp with
  | false => exact ⟨M, [], fun n hn => by unfold findFor; rw [hM n hn, Out.bind_val, if_neg c, if_neg (by decide)]⟩
  | true =>
    obtain ⟨K, r, hK⟩ := C90_improve2_ends (cnt := cnt) h ha ht hm
    exact ⟨max M K, r, fun n hn => by unfold findFor; rw [hM n (by omega), Out.bind_val, if_neg c, if_pos rfl]; exact hK n (by omega)⟩

theorem target_some {p : Pip} {k : Nat} {m : List Nat} (h : getF p.target k = .val m) : p.target[k]? = some m := by
  unfold getF at h
  split at h
  · rename_i c
    rw [Int.toNat_natCast] at h c
    have := Out.val.inj h
    rw [List.getElem?_eq_getElem (by omega), ← this, List.getD_eq_getElem _ _ (by omega)]
  · cases h

/-- A proof is inserted. -/
theorem insert_link (h : Improve2 src s look X U) (ha : Here X U N a) {k : Nat} {m : List Nat} {q : List Int} (ht : a.pip.target[k]? = some m)
    (hg : Good (at' X a) (fun _ _ => False) m q) {len : Int} {old : List Int} (hl : subproofLen X.E a.pip.proof k = .val len)
    (ho : nmbrSeg a.pip.proof ((k : Int) - len + 2) ((k : Int) + 1) = .val old) (hu : unk ∈ old) {t : MM.Pfas.St} (he : exec n X.E U X.prove a (.insert q k) = .val t) :
    (∃ x y, a.pip.proof = x ++ old ++ y ∧ x.length + old.length = k + 1 ∧ (k : Int) - len + 1 = x.length ∧ t.pip.proof = x ++ q ++ y ∧ rpnCount X.E old 0 = some 1) ∧
    (t.err = false → Here X U N t) := by
  obtain ⟨⟨f, hr, hA, hc⟩, hF⟩ := forest h ha
  have hk : k < a.pip.proof.length := by
    obtain ⟨h1, _⟩ := List.getElem?_eq_some_iff.mp ht
    rw [hr.target, List.length_map] at h1
    rw [hr.proof, List.length_map]; exact h1
  have hP := pip h ha
  obtain ⟨x, old', y, e1, e2, e3, e4, _, e6⟩ := insert_good (ready_of_setting h.set).env h.unif hP hk hg (target_val ht) he
  have e3 : subproofLen X.E a.pip.proof k = .val (old'.length : Int) := e3
  rw [hl] at e3
  have hlen := Out.val.inj e3
  obtain ⟨c, z, ch, rfl, hi⟩ := locate f (i := k) (by rw [hr.proof] at hk; simpa using hk)
  obtain ⟨len', s1, s2⟩ := seg_at (X := X) hr hA
  rw [← hi] at s1 s2
  rw [hl] at s1
  obtain rfl := Out.val.inj s1
  rw [ho] at s2
  have hold := Out.val.inj s2
  obtain ⟨h1, h2⟩ := all_plug hA
  have hp : a.pip.proof = c.pre.map Node.stmt ++ (ch.flat.map Node.stmt ++ [z.stmt]) ++ c.post.map Node.stmt := by rw [hr.at.1]; simp
  have hsl := subproofLen_at h1 h2 (proof := a.pip.proof) (pre := c.pre.map Node.stmt) (post := c.post.map Node.stmt) (by rw [hr.at.1]; simp)
  rw [List.length_map, ← hi] at hsl
  have hsl : subproofLen X.E a.pip.proof (k : Int) = .val ((ch.flat.length : Int) + 1) := hsl
  rw [hl] at hsl
  have hlen2 := Out.val.inj hsl
  have hoo : old = old' := by
    have hxl : x.length = (c.pre.map Node.stmt).length := by rw [List.length_map]; omega
    have e5 : x ++ (old' ++ y) = c.pre.map Node.stmt ++ ((ch.flat.map Node.stmt ++ [z.stmt]) ++ c.post.map Node.stmt) := by
      rw [← List.append_assoc, ← e1, hp]; simp
    have e7 := List.append_inj_right e5 hxl
    have e8 := List.append_inj_left e7 (by simp; omega)
    rw [hold, e8]
    simp [AF.flat]
  subst hoo
  refine ⟨⟨x, y, e1, e2, by omega, e4, ?_⟩, fun hte => ⟨.act (c := .insert q k) ha.run (good_formed (X := at' X a) hg) trivial ?_, unified_of (X := X) hte (e6 hte).1⟩⟩
  · rw [hold, show (AF.snoc .nil z ch).flat.map Node.stmt = (AF.snoc .nil z ch).flat.map Node.stmt ++ [] by simp, rpn_af (f := .snoc .nil z ch) ⟨trivial, h1, h2⟩]
    rfl
  · exact (exec_insert_n N n).trans he

theorem kept_eq {E : Env} (G : GoodEnv E) : InstClosed E fun x ts => NodeOk E x ts ∧ (x.stmt ≠ unk → x.tgt = x.src) := fun τ x ts h =>
  ⟨instClosed_nodeOk G τ x ts h.1, fun hu => by show inst E τ x.tgt = inst E τ x.src; rw [h.2 hu]⟩

theorem all_and {P Q : Node → List (List Nat) → Prop} : ∀ {f : AF}, All P f → (∀ x ∈ f.flat, ∀ ts, Q x ts) → All (fun x ts => P x ts ∧ Q x ts) f
  | .nil, _, _ => trivial
  | .snoc l x ch, ⟨h1, h2, h3⟩, hq => ⟨all_and h1 fun y hy => hq y (by simp [AF.flat, hy]), all_and h2 fun y hy => hq y (by simp [AF.flat, hy]), h3, hq x (by simp [AF.flat]) _⟩

theorem all_mem {P : Node → Prop} : ∀ {f : AF}, All (fun x _ => P x) f → ∀ x ∈ f.flat, P x
  | .nil, _, x, hx => by cases hx
  | .snoc l y ch, ⟨h1, h2, h3⟩, x, hx => by
    simp only [AF.flat, List.mem_append, List.mem_singleton] at hx
    rcases hx with (hx | hx) | rfl
    · exact all_mem h1 x hx
    · exact all_mem h2 x hx
    · exact h3

/-- Unification keeps the steps, and the known steps unified. -/
theorem unify_link (h : Improve2 src s look X U) (ha : Here X U n a) {t : MM.Pfas.St} (he : exec n X.E U X.prove a .unify = .val t) : t.pip.proof = a.pip.proof ∧ Here X U n t := by
  have hY := ready_of_setting h.set
  have he' := he
  rw [exec] at he
  obtain ⟨r, hr1, he⟩ := bind_inv he
  obtain rfl := (Out.val.inj he).symm
  obtain ⟨hI, _⟩ := run_clean hY.env h.real h.fits h.math.1 ha.run
  obtain ⟨f, hr, hA, htg, hL⟩ := hI.2 ha.unified.1
  have hu : ∀ x ∈ f.flat, ∀ _ts : List (List Nat), x.stmt ≠ unk → x.tgt = x.src := by
    intro x hx _ hn
    obtain ⟨i, hi⟩ := List.getElem?_of_mem hx
    obtain ⟨hi1, _⟩ := List.getElem?_eq_some_iff.mp hi
    have := ha.unified.2 i (by rw [hr.proof, List.length_map]; exact hi1)
    rw [hr.proof, hr.target, hr.source] at this
    simp only [List.getD_eq_getElem?_getD, List.getElem?_map, hi, Option.map_some, Option.getD_some] at this
    exact this hn
  have hB := all_and (Q := fun x _ => x.stmt ≠ unk → x.tgt = x.src) hA hu
  rcases autoUnify_rep (U := U) (kept_eq hY.env) (n := n) hr hB (by rw [htg]; simpa using h.math.1) true with h1 | ⟨q, b', g, h1, h2, h3, _, h5, _⟩
  · rw [h1] at hr1; cases hr1
  rw [h1] at hr1
  obtain rfl := (Out.val.inj hr1).symm
  have hp : q.proof = a.pip.proof := by rw [h2.proof, hr.proof, h5]
  refine ⟨hp, .act (c := .unify) ha.run trivial trivial he', ?_⟩
  refine unified_of (X := X) ha.unified.1 ⟨g, h2, h3.mono fun _ _ h => h.1, all_mem (h3.mono fun _ _ h => h.2), ?_⟩
  show ∀ x ∈ q.proof, Legal X.E X.prove x
  rw [hp]; exact hL

theorem here_mono {K : Nat} (ha : Here X U N a) (hK : N ≤ K) : Here X U K a := ⟨C57_bound_irrelevant hK ha.run, ha.unified⟩

theorem exec_unify_err {t : MM.Pfas.St} (he : exec n X.E U X.prove a .unify = .val t) : t.err = a.err := by
  rw [exec] at he
  obtain ⟨r, _, he⟩ := bind_inv he
  rw [← Out.val.inj he]

theorem unify_ends (h : Improve2 src s look X U) (ha : Here X U N a) : ∃ M t, ∀ n, M ≤ n → exec n X.E U X.prove a .unify = .val t := by
  have hY := ready_of_setting h.set
  obtain ⟨hI, hC⟩ := run_clean hY.env h.real h.fits h.math.1 ha.run
  obtain ⟨K, t, ht, _⟩ := exec_clean hY.env h.real h.fits h.math.1 (c := .unify) hI hC trivial trivial
  refine ⟨K, t, fun n hn => ?_⟩
  rw [exec] at ht ⊢
  obtain ⟨r, h1, h2⟩ := bind_inv ht
  rw [autoUnify_mono h1 hn, Out.bind_val]
  exact h2

/-! ### A step -/

theorem passStep_link (h : Improve2 src s look X U) {iter k : Nat} {r : MM.Pfas.St × Nat} (ha : Here X U n a) (hs : passStep X n U cnt alg2 iter a k = .val (some r)) :
    r.2 ≤ k ∧ r.2 ≤ r.1.pip.proof.length ∧ Chain src s X U n a r.1 1 ∧ (r.1.err = false → Here X U n r.1) := by
  unfold passStep at hs
  obtain ⟨x, _, hs⟩ := bind_inv hs
  obtain ⟨m, hm, hs⟩ := bind_inv hs
  obtain ⟨m', _, hs⟩ := bind_inv hs
  split at hs
  · cases hs
  obtain ⟨len, hl, hs⟩ := bind_inv hs
  split at hs
  · cases hs
  obtain ⟨old, ho, hs⟩ := bind_inv hs
  by_cases c1 : unk ∉ old
  · rw [if_pos c1] at hs; cases hs
  rw [if_neg c1] at hs
  by_cases c2 : hasDummy X.E m = true
  · rw [if_pos c2] at hs; cases hs
  rw [if_neg c2] at hs
  obtain ⟨q, hq, hs⟩ := bind_inv hs
  by_cases c3 : q = []
  · rw [if_pos c3] at hs; cases hs
  rw [if_neg c3] at hs
  obtain ⟨t, he, hs⟩ := bind_inv hs
  obtain rfl := Option.some.inj (Out.val.inj hs)
  have ht := target_some hm
  have hg := findFor_good h ha ht (formula_of h ha ht c2) hq c3
  obtain ⟨⟨y, z, e1, e2, e3, e4, e5⟩, hH⟩ := insert_link h ha ht hg hl ho (Classical.not_not.mp c1) he
  have hlo : old ≠ [] := by rintro rfl; exact c1 (by simp)
  have hlp := List.length_pos_of_ne_nil hlo
  refine ⟨by show ((k : Int) - len + 1).toNat ≤ k; omega, ?_, .insert ht (found_of_good h hg) e1 e2 e5 (Classical.not_not.mp c1) e4 he (.refl _), hH⟩
  show ((k : Int) - len + 1).toNat ≤ t.pip.proof.length
  rw [e4]
  simp only [List.length_append]
  omega

theorem passStep_err {iter k : Nat} {r : MM.Pfas.St × Nat} (hs : passStep X n U cnt alg2 iter a k = .val (some r)) (hr : r.1.err = false) : a.err = false := by
  unfold passStep at hs
  obtain ⟨x, _, hs⟩ := bind_inv hs
  obtain ⟨m, _, hs⟩ := bind_inv hs
  obtain ⟨m', _, hs⟩ := bind_inv hs
  split at hs
  · cases hs
  obtain ⟨len, _, hs⟩ := bind_inv hs
  split at hs
  · cases hs
  obtain ⟨old, _, hs⟩ := bind_inv hs
  split at hs
  · cases hs
  split at hs
  · cases hs
  obtain ⟨q, _, hs⟩ := bind_inv hs
  split at hs
  · cases hs
  obtain ⟨t, he, hs⟩ := bind_inv hs
  obtain rfl := Option.some.inj (Out.val.inj hs)
  exact exec_err he hr

theorem passLoop_err {iter : Nat} : ∀ {f k : Nat} {a : MM.Pfas.St} {ch : Bool} {r : MM.Pfas.St × Bool}, passLoop X n U cnt alg2 iter f k a ch = .val r → r.1.err = false → a.err = false
  | f, 0, a, ch, r, h, hr => by
    cases f <;> (rw [passLoop] at h; rw [← Out.val.inj h] at hr; exact hr)
  | 0, _ + 1, _, _, _, h, _ => by cases h
  | f + 1, k + 1, a, ch, r, h, hr => by
    rw [passLoop] at h
    obtain ⟨o, ho, h⟩ := bind_inv h
    cases o with
    | none => exact passLoop_err (f := f) (k := k) h hr
    | some t => exact passStep_err ho (passLoop_err (f := f) (k := t.2) h hr)

theorem passLoop_link (h : Improve2 src s look X U) {iter : Nat} : ∀ {f k : Nat} {a : MM.Pfas.St} {ch : Bool} {r : MM.Pfas.St × Bool}, Here X U n a →
    passLoop X n U cnt alg2 iter f k a ch = .val r → r.1.err = false → Here X U n r.1 ∧ ∃ j, Chain src s X U n a r.1 j ∧ r.2 = (ch || decide (0 < j)) ∧ (j = 0 → r.1 = a)
  | f, 0, a, ch, r, ha, hp, hr => by
    have e : r = (a, ch) := by cases f <;> (rw [passLoop] at hp; exact (Out.val.inj hp).symm)
    subst e
    exact ⟨ha, 0, .refl _, by simp, fun _ => rfl⟩
  | 0, _ + 1, _, _, _, _, h, _ => by cases h
  | f + 1, k + 1, a, ch, r, ha, hp, hr => by
    rw [passLoop] at hp
    obtain ⟨o, ho, hp⟩ := bind_inv hp
    cases o with
    | none => exact passLoop_link h (f := f) (k := k) ha hp hr
    | some t =>
      have h' : passLoop X n U cnt alg2 iter f t.2 t.1 true = .val r := hp
      have hte := passLoop_err h' hr
      obtain ⟨_, _, l3, l1⟩ := passStep_link h ha ho
      have l2 := l1 hte
      obtain ⟨g1, j, g2, g3, _⟩ := passLoop_link h l2 h' hr
      exact ⟨g1, 1 + j, l3.trans g2, by rw [g3]; simp, fun e => by omega⟩

theorem pass_link (h : Improve2 src s look X U) {iter : Nat} {ch : Bool} {r : MM.Pfas.St × Bool} (ha : Here X U n a) (hp : pass X n U cnt alg2 iter a ch = .val r)
    (hr : r.1.err = false) : Here X U n r.1 ∧ ∃ j, Chain src s X U n a r.1 j ∧ r.2 = (ch || decide (0 < j)) ∧ (r.2 = false → r.1 = a) := by
  unfold pass at hp
  obtain ⟨b, hb, hp⟩ := bind_inv hp
  by_cases c : b.2 = true
  · rw [if_pos c] at hp
    obtain ⟨t, he, hp⟩ := bind_inv hp
    obtain rfl := Out.val.inj hp
    have hbe : b.1.err = false := (exec_unify_err he).symm.trans hr
    obtain ⟨g1, j, g2, g3, _⟩ := passLoop_link h ha hb hbe
    obtain ⟨u1, u2⟩ := unify_link h g1 he
    exact ⟨u2, j, g2.trans (.unify he u1 (.refl _)), by rw [← g3, c], fun e => by cases e⟩
  · rw [if_neg c] at hp
    obtain rfl := Out.val.inj hp
    obtain ⟨g1, j, g2, g3, g4⟩ := passLoop_link h ha hb hr
    refine ⟨g1, j, g2, g3, fun e => g4 ?_⟩
    rw [e] at g3
    have := (Bool.or_eq_false_iff.mp g3.symm).2
    simpa using this

theorem pass_err {iter : Nat} {ch : Bool} {r : MM.Pfas.St × Bool} (hp : pass X n U cnt alg2 iter a ch = .val r) (hr : r.1.err = false) : a.err = false := by
  unfold pass at hp
  obtain ⟨b, hb, hp⟩ := bind_inv hp
  by_cases c : b.2 = true
  · rw [if_pos c] at hp
    obtain ⟨t, he, hp⟩ := bind_inv hp
    obtain rfl := Out.val.inj hp
    exact passLoop_err hb ((exec_unify_err he).symm.trans hr)
  · rw [if_neg c] at hp
    obtain rfl := Out.val.inj hp
    exact passLoop_err hb hr

variable {cnts : Nat → Nat → Nat → Nat} {sub : Bool}

theorem passes_err : ∀ {l : List Nat} {a : MM.Pfas.St} {ch : Bool} {r : MM.Pfas.St × Bool}, passes X n U cnts alg2 sub l a ch = .val r → r.1.err = false → a.err = false
  | [], a, ch, r, h, hr => by rw [passes] at h; rw [← Out.val.inj h] at hr; exact hr
  | iter :: l, a, ch, r, h, hr => by
    rw [passes] at h
    by_cases c0 : iter = 3 ∧ sub = false
    · rw [if_pos c0] at h; exact passes_err h hr
    rw [if_neg c0] at h
    obtain ⟨b, hb, h⟩ := bind_inv h
    refine pass_err hb ?_
    split at h
    · rw [Out.val.inj h]; exact hr
    split at h
    · rw [Out.val.inj h]; exact hr
    split at h
    · rw [Out.val.inj h]; exact hr
    exact passes_err h hr

theorem passes_link (h : Improve2 src s look X U) : ∀ {l : List Nat} {a : MM.Pfas.St} {ch : Bool} {r : MM.Pfas.St × Bool}, Here X U n a → passes X n U cnts alg2 sub l a ch = .val r →
    r.1.err = false → Here X U n r.1 ∧ ∃ j, Chain src s X U n a r.1 j ∧ r.2 = (ch || decide (0 < j)) ∧ (r.2 = false → r.1 = a)
  | [], a, ch, r, ha, hp, hr => by
    rw [passes] at hp
    obtain rfl := Out.val.inj hp
    exact ⟨ha, 0, .refl _, by simp, fun _ => rfl⟩
  | iter :: l, a, ch, r, ha, hp, hr => by
    rw [passes] at hp
    by_cases c0 : iter = 3 ∧ sub = false
    · rw [if_pos c0] at hp; exact passes_link h ha hp hr
    rw [if_neg c0] at hp
    obtain ⟨b, hb, hp⟩ := bind_inv hp
    split at hp
    · obtain rfl := Out.val.inj hp
      exact pass_link h ha hb hr
    split at hp
    · obtain rfl := Out.val.inj hp
      exact pass_link h ha hb hr
    split at hp
    · obtain rfl := Out.val.inj hp
      exact pass_link h ha hb hr
    obtain ⟨g1, j, g2, g3, g4⟩ := pass_link h ha hb (passes_err hp hr)
    obtain ⟨k1, i, k2, k3, k4⟩ := passes_link h g1 hp hr
    refine ⟨k1, j + i, g2.trans k2, ?_, fun e => ?_⟩
    · rw [k3, g3, Bool.or_assoc]
      congr 1
      rw [← Bool.decide_or]
      exact decide_eq_decide.mpr (by omega)
    · rw [k4 e]
      refine g4 ?_
      rw [e] at k3
      exact (Bool.or_eq_false_iff.mp k3.symm).1

/-- A proof without unknown steps in such a state is right. -/
theorem complete_found (h : Improve2 src s look X U) (ha : Here X U N a) (hc : unk ∉ a.pip.proof) : Found src s X (s.math X.prove) a.pip.proof := by
  have hY := ready_of_setting h.set
  obtain ⟨hI, _⟩ := run_clean hY.env h.real h.fits h.math.1 ha.run
  obtain ⟨f, hf, hA, htg, hL⟩ := hI.2 ha.unified.1
  have hn : ∀ x ∈ f.flat, x.stmt ≠ unk := fun x hx e => hc (by rw [hf.proof, ← e]; exact List.mem_map_of_mem hx)
  obtain ⟨steps, s1, s2⟩ := forest_rpn hY.env (dv := fun _ _ => False) hA hn (by
    intro x hx
    obtain ⟨j, hj⟩ := List.getElem?_of_mem hx
    obtain ⟨hj1, hj2⟩ := List.getElem?_eq_some_iff.mp hj
    have := ha.unified.2 j (by rw [hf.proof, List.length_map]; exact hj1)
    rw [hf.proof, hf.target, hf.source] at this
    simp only [List.getD_eq_getElem?_getD, List.getElem?_map, hj, Option.map_some, Option.getD_some] at this
    exact this (hn x hx))
  obtain ⟨h', k⟩ := s2 RPN.nil
  rw [← hf.proof] at s1
  rw [htg] at k
  rw [h.set.env] at s1 k hL
  refine ⟨hc, ?_, steps, s1, h', by simp at k; exact k⟩
  intro ps hps _
  rcases hL ps hps with hu | ⟨_, _, hl⟩
  · exact absurd (hu ▸ hps) hc
  · exact hl

theorem all_link (h : Improve2 src s look X U) {r : MM.Pfas.St × Bool} (ha : Here X U n a) (hp : improveAll X n U cnts alg2 sub a = .val r) (hr : r.1.err = false) :
    Here X U n r.1 ∧ ∃ j, Chain src s X U n a r.1 j ∧ r.2 = decide (0 < j) ∧ (r.2 = false → r.1 = a) := by
  unfold improveAll at hp
  by_cases c0 : unk ∉ a.pip.proof
  · rw [if_pos c0] at hp
    obtain rfl := Out.val.inj hp
    exact ⟨ha, 0, .refl _, by simp, fun _ => rfl⟩
  rw [if_neg c0] at hp
  obtain ⟨b, hb, hp⟩ := bind_inv hp
  by_cases c1 : unk ∉ b.1.pip.proof
  · rw [if_pos c1] at hp
    obtain ⟨t, he, hp⟩ := bind_inv hp
    obtain rfl := Out.val.inj hp
    obtain ⟨g1, j, g2, g3, g4⟩ := passes_link h ha hb ((exec_unify_err he).symm.trans hr)
    obtain ⟨u1, u2⟩ := unify_link h g1 he
    refine ⟨u2, j, g2.trans (.unify he u1 (.refl _)), by rw [g3]; simp, fun e => ?_⟩
    have e := g4 e
    rw [e] at c1
    exact absurd c1 c0
  · rw [if_neg c1] at hp
    obtain rfl := Out.val.inj hp
    obtain ⟨g1, j, g2, g3, g4⟩ := passes_link h ha hb hr
    exact ⟨g1, j, g2, by rw [g3]; simp, g4⟩

/-- C91 (partial): IMPROVE ALL, if it reports no unification error, leaves a state of the session in which the known steps are unified; what it did is to replace incomplete subproofs by correct
complete proofs of the same formulas; it says that something was found exactly if it replaced a subproof, and otherwise changes nothing. -/
theorem C91_all_partial (h : Improve2 src s look X U) {b : MM.Pfas.St} {found : Bool} (ha : Here X U n a) (hp : improveAll X n U cnts alg2 sub a = .val (b, found)) (hb : b.err = false) :
    Here X U n b ∧ ∃ k, Chain src s X U n a b k ∧ (found = true ↔ 0 < k) ∧ (found = false → b = a) := by
  obtain ⟨h1, k, h2, h3, h4⟩ := all_link h ha hp hb
  have h3 : found = decide (0 < k) := h3
  exact ⟨h1, k, h2, by rw [h3, decide_eq_true_eq], h4⟩

/-- C91 (partial): every replacement makes at least one unknown step known, and none unknown. -/
theorem C91_all_fewer_partial (h : Improve2 src s look X U) {b : MM.Pfas.St} {found : Bool} (ha : Here X U n a) (hp : improveAll X n U cnts alg2 sub a = .val (b, found)) (hb : b.err = false) :
    (found = true → b.pip.proof.count unk < a.pip.proof.count unk) ∧ (found = false → b = a) := by
  obtain ⟨_, k, h2, h3, h4⟩ := all_link h ha hp hb
  refine ⟨fun e => ?_, h4⟩
  have h3 : found = decide (0 < k) := h3
  rw [h3, decide_eq_true_eq] at e
  have h2 : Chain src s X U n a b k := h2
  have := h2.fewer
  omega

/-- C91 (partial): if no step is unknown afterwards, the proof is a correct proof of the theorem, but for the disjoint-variable conditions. -/
theorem C91_all_complete_partial (h : Improve2 src s look X U) {b : MM.Pfas.St} {found : Bool} (ha : Here X U n a) (hp : improveAll X n U cnts alg2 sub a = .val (b, found)) (hb : b.err = false)
    (hc : unk ∉ b.pip.proof) : Found src s X (s.math X.prove) b.pip.proof := complete_found h (all_link h ha hp hb).1 hc

/-- C91 (partial): the same for IMPROVE with one step: it replaces the subproof of that step, or does nothing. -/
theorem C91_step_partial (h : Improve2 src s look X U) {b : MM.Pfas.St} {found : Bool} {j : Nat} (ha : Here X U n a) (hp : improveStep X n U cnt alg2 a j = .val (b, found)) (hb : b.err = false) :
    Here X U n b ∧ (found = false → b = a) ∧ (found = true → ∃ m q x old y, a.pip.target[j]? = some m ∧ Found src s X m q ∧ a.pip.proof = x ++ old ++ y ∧ x.length + old.length = j + 1 ∧
      rpnCount X.E old 0 = some 1 ∧ unk ∈ old ∧ b.pip.proof = x ++ q ++ y ∧
      ∃ t, exec n X.E U X.prove a (.insert q j) = .val t ∧ exec n X.E U X.prove t .unify = .val b) := by
  unfold improveStep at hp
  obtain ⟨len, hl, hp⟩ := bind_inv hp
  obtain ⟨old, ho, hp⟩ := bind_inv hp
  have none : .val (a, false) = Out.val (b, found) → Here X U n b ∧ (found = false → b = a) ∧ (found = true → ∃ m q x old y, a.pip.target[j]? = some m ∧ Found src s X m q ∧
      a.pip.proof = x ++ old ++ y ∧ x.length + old.length = j + 1 ∧ rpnCount X.E old 0 = some 1 ∧ unk ∈ old ∧ b.pip.proof = x ++ q ++ y ∧
      ∃ t, exec n X.E U X.prove a (.insert q j) = .val t ∧ exec n X.E U X.prove t .unify = .val b) := by
    intro e
    have e := Out.val.inj e
    rw [Prod.mk.injEq] at e
    obtain ⟨rfl, rfl⟩ := e
    exact ⟨ha, fun _ => rfl, fun e => by cases e⟩
  by_cases c0 : unk ∉ old
  · rw [if_pos c0] at hp; exact none hp
  rw [if_neg c0] at hp
  obtain ⟨m, hm, hp⟩ := bind_inv hp
  by_cases c2 : hasDummy X.E m = true
  · rw [if_pos c2] at hp; exact none hp
  rw [if_neg c2] at hp
  obtain ⟨q, hq, hp⟩ := bind_inv hp
  by_cases c3 : q = []
  · rw [if_pos c3] at hp; exact none hp
  rw [if_neg c3] at hp
  obtain ⟨t, he, hp⟩ := bind_inv hp
  obtain ⟨u, hu, hp⟩ := bind_inv hp
  have e := Out.val.inj hp
  rw [Prod.mk.injEq] at e
  obtain ⟨rfl, rfl⟩ := e
  have ht := target_some hm
  have hg := findFor_good h ha ht (formula_of h ha ht c2) hq c3
  obtain ⟨⟨y, z, e1, e2, _, e4, e5⟩, hH⟩ := insert_link h ha ht hg hl ho (Classical.not_not.mp c0) he
  obtain ⟨u1, u2⟩ := unify_link h (hH ((exec_unify_err hu).symm.trans hb)) hu
  exact ⟨u2, fun e => (by cases e), fun _ => ⟨m, q, y, old, z, ht, found_of_good h hg, e1, e2, e5, Classical.not_not.mp c0, u1.trans e4, t, he, hu⟩⟩

/-! ### It ends -/

theorem passStep_ends (h : Improve2 src s look X U) (ha : Here X U N a) (iter : Nat) {k : Nat} (hk : k < a.pip.proof.length) :
    ∃ M r, ∀ n, M ≤ n → passStep X n U cnt alg2 iter a k = .val r := by
  obtain ⟨⟨f, hr, hA, hc⟩, hF⟩ := forest h ha
  have hl : ∀ {α : Type} {g : Node → α} {l : List α}, l = f.flat.map g → l.length = a.pip.proof.length := by
    intro α g l e; rw [e, hr.proof, List.length_map, List.length_map]
  obtain ⟨m, hm⟩ : ∃ m, getF a.pip.target k = .val m := by
    unfold getF; rw [if_pos ⟨by omega, by rw [Int.toNat_natCast, hl hr.target]; exact hk⟩]; exact ⟨_, rfl⟩
  obtain ⟨m', hm'⟩ : ∃ m, getF a.pip.source k = .val m := by
    unfold getF; rw [if_pos ⟨by omega, by rw [Int.toNat_natCast, hl hr.source]; exact hk⟩]; exact ⟨_, rfl⟩
  have hx : rdN a.pip.proof k = .val (a.pip.proof.getD k 0) := by
    unfold rdN; rw [if_neg (by omega), Int.toNat_natCast, if_pos hk]
  obtain ⟨c, z, ch, rfl, hi⟩ := locate f (i := k) (by rw [hr.proof] at hk; simpa using hk)
  obtain ⟨len, s1, s2⟩ := seg_at (X := X) hr hA
  rw [← hi] at s1 s2
  obtain ⟨h1, h2⟩ := all_plug hA
  have hsl := subproofLen_at h1 h2 (proof := a.pip.proof) (pre := c.pre.map Node.stmt) (post := c.post.map Node.stmt) (by rw [hr.at.1]; simp)
  rw [List.length_map, ← hi] at hsl
  have hsl : subproofLen X.E a.pip.proof (k : Int) = .val ((ch.flat.length : Int) + 1) := hsl
  rw [s1] at hsl
  have hlen := Out.val.inj hsl
  have hbug : ¬ (a.pip.proof.getD k 0 = unk ∧ len ≠ 1) := by
    rintro ⟨hu, hne⟩
    have hzu : z.stmt = unk := by
      rw [hr.at.1] at hu
      rw [← hu, hi]
      simp [List.getD_eq_getElem?_getD]
    have := h2.2.1
    rw [hzu] at this
    have h0 : arity X.E unk = 0 := by unfold arity; rw [if_neg (by unfold unk; omega)]
    rw [h0] at this
    cases ch with
    | nil => simp [AF.flat] at hlen; exact hne hlen
    | snoc l y d => simp [AF.tgts] at this
  generalize (AF.snoc .nil z ch).flat.map Node.stmt = old at s2
  have e : ∀ n, passStep X n U cnt alg2 iter a k = if (iter = 1 ∨ alg2 = false) ∧ a.pip.proof.getD k 0 ≠ unk ∧ m = m' then .val none
      else if unk ∉ old then .val none
      else if hasDummy X.E m = true then .val none
      else findFor X n cnt (decide (iter = 1 ∨ iter = 4)) (alg2 && (decide (iter = 2 ∧ a.pip.proof.getD k 0 = unk) || decide (iter = 3 ∧ a.pip.proof.getD k 0 ≠ unk))) a k m >>= fun q =>
        if q = [] then .val none
        else exec n X.E U X.prove a (.insert q k) >>= fun t => .val (some (t, ((k : Int) - len + 1).toNat)) := by
    intro n
    unfold passStep
    rw [hx, Out.bind_val, hm, Out.bind_val, hm', Out.bind_val, s1, Out.bind_val, if_neg hbug, s2, Out.bind_val]
  by_cases c1 : (iter = 1 ∨ alg2 = false) ∧ a.pip.proof.getD k 0 ≠ unk ∧ m = m'
  · exact ⟨0, none, fun n _ => by rw [e, if_pos c1]⟩
  by_cases c2 : unk ∉ old
  · exact ⟨0, none, fun n _ => by rw [e, if_neg c1, if_pos c2]⟩
  by_cases c3 : hasDummy X.E m = true
  · exact ⟨0, none, fun n _ => by rw [e, if_neg c1, if_neg c2, if_pos c3]⟩
  have ht := target_some hm
  have hfm := formula_of h ha ht c3
  obtain ⟨M, q, hM⟩ := findFor_ends (cnt := cnt) h ha (decide (iter = 1 ∨ iter = 4)) (alg2 && (decide (iter = 2 ∧ a.pip.proof.getD k 0 = unk) || decide (iter = 3 ∧ a.pip.proof.getD k 0 ≠ unk))) ht hfm
  by_cases c4 : q = []
  · exact ⟨M, none, fun n hn => by rw [e, if_neg c1, if_neg c2, if_neg c3, hM n hn, Out.bind_val, if_pos c4]⟩
  have hg := findFor_good h ha ht hfm (hM M (Nat.le_refl _)) c4
  have hY := ready_of_setting h.set
  obtain ⟨hI, hC⟩ := run_clean hY.env h.real h.fits h.math.1 ha.run
  obtain ⟨K, t, htx, _⟩ := exec_clean hY.env h.real h.fits h.math.1 (c := .insert q k) hI hC (good_formed (X := at' X a) hg) trivial
  exact ⟨M, some (t, ((k : Int) - len + 1).toNat), fun n hn => by
    rw [e, if_neg c1, if_neg c2, if_neg c3, hM n hn, Out.bind_val, if_neg c4, (exec_insert_n n K).trans htx, Out.bind_val]⟩


/-- With a bound that is large enough there is a result, the same for all of them and without a unification error; or such an error is reported on the way. -/
def Ends (src : List Src) (s : PState) (X : Impr.Ctx) (U : Unifier) (a : MM.Pfas.St) (f : Nat → Out (MM.Pfas.St × Bool)) : Prop :=
  (∃ M r, (∀ n, M ≤ n → f n = .val r) ∧ r.1.err = false) ∨ ∃ M, ∀ n, M ≤ n → ∃ t k, Chain src s X U n a t k ∧ t.err = true

theorem passLoop_ends (h : Improve2 src s look X U) (iter : Nat) : ∀ {f k N : Nat} {a : MM.Pfas.St} (ch : Bool), Here X U N a → k ≤ f → k ≤ a.pip.proof.length →
    Ends src s X U a fun n => passLoop X n U cnt alg2 iter f k a ch
  | f, 0, N, a, ch, ha, _, _ => Or.inl ⟨0, (a, ch), fun n _ => by cases f <;> (dsimp only; rw [passLoop]), ha.unified.1⟩
  | 0, k + 1, N, a, ch, ha, hk, _ => by omega
  | f + 1, k + 1, N, a, ch, ha, hk, hl => by
    obtain ⟨M, r, hM⟩ := passStep_ends (cnt := cnt) (alg2 := alg2) h ha iter (k := k) (by omega)
    cases r with
    | none =>
      rcases passLoop_ends h iter (f := f) (k := k) ch ha (by omega) (by omega) with ⟨K, r, hK, hr⟩ | hK
      · exact Or.inl ⟨max M K, r, fun n hn => by dsimp only; rw [passLoop, hM n (by omega), Out.bind_val]; exact hK n (by omega), hr⟩
      · exact Or.inr hK
    | some t =>
      have hl : ∀ n, max M N ≤ n → t.2 ≤ k ∧ t.2 ≤ t.1.pip.proof.length ∧ Chain src s X U n a t.1 1 ∧ (t.1.err = false → Here X U n t.1) := fun n hn =>
        passStep_link h (here_mono ha (by omega)) (hM n (by omega))
      by_cases he : t.1.err = false
      · obtain ⟨g1, g2, _, g4⟩ := hl _ (Nat.le_refl _)
        rcases passLoop_ends h iter (f := f) (k := t.2) true (g4 he) (by omega) g2 with ⟨K, r, hK, hr⟩ | ⟨K, hK⟩
        · exact Or.inl ⟨max M K, r, fun n hn => by dsimp only; rw [passLoop, hM n (by omega), Out.bind_val]; exact hK n (by omega), hr⟩
        · refine Or.inr ⟨max (max M N) K, fun n hn => ?_⟩
          obtain ⟨u, j, h1, h2⟩ := hK n (by omega)
          exact ⟨u, 1 + j, (hl n (by omega)).2.2.1.trans h1, h2⟩
      · exact Or.inr ⟨max M N, fun n hn => ⟨t.1, 1, (hl n hn).2.2.1, by simpa using he⟩⟩

theorem pass_ends (h : Improve2 src s look X U) (iter : Nat) {N : Nat} {a : MM.Pfas.St} (ch : Bool) (ha : Here X U N a) : Ends src s X U a fun n => pass X n U cnt alg2 iter a ch := by
  rcases passLoop_ends (cnt := cnt) (alg2 := alg2) h iter ch ha (Nat.le_refl a.pip.proof.length) (Nat.le_refl _) with ⟨K, r, hK, hr⟩ | hK
  · have hK : ∀ n, K ≤ n → passLoop X n U cnt alg2 iter a.pip.proof.length a.pip.proof.length a ch = .val r := hK
    by_cases c : r.2 = true
    · obtain ⟨g1, _⟩ := passLoop_link h (here_mono ha (Nat.le_max_right K N)) (hK _ (Nat.le_max_left K N)) hr
      obtain ⟨L, t, hL⟩ := unify_ends h g1
      exact Or.inl ⟨max K L, (t, true), fun n hn => by
        unfold pass; dsimp only
        rw [hK n (by omega), Out.bind_val, if_pos c, hL n (by omega), Out.bind_val], (exec_unify_err (hL L (Nat.le_refl _))).trans hr⟩
    · exact Or.inl ⟨K, r, fun n hn => by unfold pass; dsimp only; rw [hK n hn, Out.bind_val, if_neg c], hr⟩
  · exact Or.inr hK

theorem passes_ends (h : Improve2 src s look X U) : ∀ (l : List Nat) {N : Nat} {a : MM.Pfas.St} (ch : Bool), Here X U N a → Ends src s X U a fun n => passes X n U cnts alg2 sub l a ch
  | [], N, a, ch, ha => Or.inl ⟨0, (a, ch), fun n _ => by dsimp only; rw [passes], ha.unified.1⟩
  | iter :: l, N, a, ch, ha => by
    by_cases c0 : iter = 3 ∧ sub = false
    · rcases passes_ends h l ch ha with ⟨K, r, hK, hr⟩ | hK
      · exact Or.inl ⟨K, r, fun n hn => by dsimp only; rw [passes, if_pos c0]; exact hK n hn, hr⟩
      · exact Or.inr hK
    rcases pass_ends (cnt := cnts iter) (alg2 := alg2) h iter ch ha with ⟨K, r, hK, hr⟩ | hK
    · have hK : ∀ n, K ≤ n → pass X n U (cnts iter) alg2 iter a ch = .val r := hK
      by_cases c1 : r.2 = false ∧ ((iter = 2 ∧ sub = false) ∨ iter = 3 ∨ alg2 = false)
      · exact Or.inl ⟨K, r, fun n hn => by dsimp only; rw [passes, if_neg c0, hK n hn, Out.bind_val, if_pos c1], hr⟩
      by_cases c2 : unk ∉ r.1.pip.proof
      · exact Or.inl ⟨K, r, fun n hn => by dsimp only; rw [passes, if_neg c0, hK n hn, Out.bind_val, if_neg c1, if_pos c2], hr⟩
      by_cases c3 : alg2 = false
      · exact Or.inl ⟨K, r, fun n hn => by dsimp only; rw [passes, if_neg c0, hK n hn, Out.bind_val, if_neg c1, if_neg c2, if_pos c3], hr⟩
      have hl : ∀ n, max K N ≤ n → Here X U n r.1 ∧ ∃ j, Chain src s X U n a r.1 j := fun n hn => by
        obtain ⟨g1, j, g2, _⟩ := pass_link h (here_mono ha (show N ≤ n by omega)) (hK n (by omega)) hr
        exact ⟨g1, j, g2⟩
      rcases passes_ends h l r.2 (hl _ (Nat.le_refl _)).1 with ⟨L, r', hL, hr'⟩ | ⟨L, hL⟩
      · exact Or.inl ⟨max K L, r', fun n hn => by
          dsimp only; rw [passes, if_neg c0, hK n (by omega), Out.bind_val, if_neg c1, if_neg c2, if_neg c3]; exact hL n (by omega), hr'⟩
      · refine Or.inr ⟨max (max K N) L, fun n hn => ?_⟩
        obtain ⟨t, k, h1, h2⟩ := hL n (by omega)
        obtain ⟨_, j, h3⟩ := hl n (by omega)
        exact ⟨t, j + k, h3.trans h1, h2⟩
    · exact Or.inr hK

/-- C91 (partial): IMPROVE ALL ends, with no crash and no internal error (but for what comes after a reported unification error). -/
theorem C91_all_ends_partial (h : Improve2 src s look X U) (ha : Here X U N a) : Ends src s X U a fun n => improveAll X n U cnts alg2 sub a := by
  by_cases c0 : unk ∉ a.pip.proof
  · exact Or.inl ⟨0, (a, false), fun n _ => by unfold improveAll; dsimp only; rw [if_pos c0], ha.unified.1⟩
  rcases passes_ends (cnts := cnts) (alg2 := alg2) (sub := sub) h [1, 2, 3, 4] false ha with ⟨K, r, hK, hr⟩ | hK
  · have hK : ∀ n, K ≤ n → passes X n U cnts alg2 sub [1, 2, 3, 4] a false = .val r := hK
    by_cases c1 : unk ∉ r.1.pip.proof
    · obtain ⟨g1, _⟩ := passes_link h (here_mono ha (Nat.le_max_right K N)) (hK _ (Nat.le_max_left K N)) hr
      obtain ⟨L, t, hL⟩ := unify_ends h g1
      exact Or.inl ⟨max K L, (t, r.2), fun n hn => by
        unfold improveAll; dsimp only
        rw [if_neg c0, hK n (by omega), Out.bind_val, if_pos c1, hL n (by omega), Out.bind_val], (exec_unify_err (hL L (Nat.le_refl _))).trans hr⟩
    · exact Or.inl ⟨K, r, fun n hn => by unfold improveAll; dsimp only; rw [if_neg c0, hK n hn, Out.bind_val, if_neg c1], hr⟩
  · exact Or.inr hK

/-! ### No step is left out -/

theorem passLoop_true {iter : Nat} : ∀ {f k : Nat} {a : MM.Pfas.St} {r : MM.Pfas.St × Bool}, passLoop X n U cnt alg2 iter f k a true = .val r → r.2 = true
  | f, 0, a, r, h => by cases f <;> (rw [passLoop] at h; rw [← Out.val.inj h])
  | 0, _ + 1, _, _, h => by cases h
  | f + 1, k + 1, a, r, h => by
    rw [passLoop] at h
    obtain ⟨o, _, h⟩ := bind_inv h
    cases o with
    | none => exact passLoop_true (f := f) (k := k) h
    | some t => exact passLoop_true (f := f) (k := t.2) h

theorem passLoop_none {iter : Nat} : ∀ {f k : Nat} {a : MM.Pfas.St} {r : MM.Pfas.St × Bool}, passLoop X n U cnt alg2 iter f k a false = .val r → r.2 = false →
    r.1 = a ∧ ∀ j < k, passStep X n U cnt alg2 iter a j = .val none
  | f, 0, a, r, h, _ => by
    refine ⟨?_, fun j hj => by omega⟩
    cases f <;> (rw [passLoop] at h; rw [← Out.val.inj h])
  | 0, _ + 1, _, _, h, _ => by cases h
  | f + 1, k + 1, a, r, h, hr => by
    rw [passLoop] at h
    obtain ⟨o, ho, h⟩ := bind_inv h
    cases o with
    | none =>
      obtain ⟨h1, h2⟩ := passLoop_none (f := f) (k := k) h hr
      refine ⟨h1, fun j hj => ?_⟩
      by_cases e : j = k
      · rw [e]; exact ho
      · exact h2 j (by omega)
    | some t =>
      have := passLoop_true (f := f) (k := t.2) h
      rw [hr] at this
      cases this

theorem pass_none {iter : Nat} {r : MM.Pfas.St × Bool} (hp : pass X n U cnt alg2 iter a false = .val r) (hr : r.2 = false) :
    r.1 = a ∧ ∀ j < a.pip.proof.length, passStep X n U cnt alg2 iter a j = .val none := by
  unfold pass at hp
  obtain ⟨b, hb, hp⟩ := bind_inv hp
  by_cases c : b.2 = true
  · rw [if_pos c] at hp
    obtain ⟨t, _, hp⟩ := bind_inv hp
    rw [← Out.val.inj hp] at hr
    cases hr
  · rw [if_neg c] at hp
    obtain rfl := Out.val.inj hp
    exact passLoop_none hb hr

theorem passes_true : ∀ {l : List Nat} {a : MM.Pfas.St} {r : MM.Pfas.St × Bool}, passes X n U cnts alg2 sub l a true = .val r → r.2 = true
  | [], a, r, h => by rw [passes] at h; rw [← Out.val.inj h]
  | iter :: l, a, r, h => by
    rw [passes] at h
    by_cases c0 : iter = 3 ∧ sub = false
    · rw [if_pos c0] at h; exact passes_true h
    rw [if_neg c0] at h
    obtain ⟨b, hb, h⟩ := bind_inv h
    have hbt : b.2 = true := by
      unfold pass at hb
      obtain ⟨d, hd, hb⟩ := bind_inv hb
      rw [if_pos (passLoop_true hd)] at hb
      obtain ⟨t, _, hb⟩ := bind_inv hb
      rw [← Out.val.inj hb]
    split at h
    · rw [← Out.val.inj h]; exact hbt
    split at h
    · rw [← Out.val.inj h]; exact hbt
    split at h
    · rw [← Out.val.inj h]; exact hbt
    rw [hbt] at h
    exact passes_true h

/-- If nothing was found then no pass that is called for changes a step. -/
theorem passes_none {iter : Nat} {l : List Nat} {r : MM.Pfas.St × Bool} (hc : unk ∈ a.pip.proof) (hp : passes X n U cnts alg2 sub (iter :: l) a false = .val r) (hr : r.2 = false)
    (c0 : ¬ (iter = 3 ∧ sub = false)) : (∀ j < a.pip.proof.length, passStep X n U (cnts iter) alg2 iter a j = .val none) ∧
      ((iter = 2 ∧ sub = false) ∨ iter = 3 ∨ alg2 = false ∨ passes X n U cnts alg2 sub l a false = .val r) := by
  rw [passes, if_neg c0] at hp
  obtain ⟨b, hb, hp⟩ := bind_inv hp
  have hbf : b.2 = false := by
    by_cases e : b.2 = true
    · split at hp
      · rename_i c; rw [e] at c; cases c.1
      split at hp
      · rw [Out.val.inj hp]; exact hr
      split at hp
      · rw [Out.val.inj hp]; exact hr
      rw [e] at hp
      have := passes_true hp
      rw [hr] at this; cases this
    · simpa using e
  obtain ⟨h1, h2⟩ := pass_none hb hbf
  refine ⟨h2, ?_⟩
  by_cases c1 : (iter = 2 ∧ sub = false) ∨ iter = 3 ∨ alg2 = false
  · rcases c1 with c | c | c
    · exact Or.inl c
    · exact Or.inr (Or.inl c)
    · exact Or.inr (Or.inr (Or.inl c))
  rw [if_neg (fun e => c1 e.2), h1, if_neg (fun e => e hc), if_neg (fun e => c1 (Or.inr (Or.inr e))), hbf] at hp
  exact Or.inr (Or.inr (Or.inr hp))

/-- A step that a pass leaves alone although its subproof has an unknown step and its target no dummy variable: nothing was found for it. -/
theorem passStep_none (h : Improve2 src s look X U) (ha : Here X U N a) {iter k : Nat} (hs : passStep X n U cnt alg2 iter a k = .val none) {m : List Nat} (ht : a.pip.target[k]? = some m)
    (hd : ∀ t ∈ m, t ≤ X.E.sep) {x old y : List Int} (e1 : a.pip.proof = x ++ old ++ y) (e2 : x.length + old.length = k + 1) (e3 : rpnCount X.E old 0 = some 1) (hu : unk ∈ old)
    (hx : a.pip.proof.getD k 0 = unk ∨ (iter ≠ 1 ∧ alg2 = true)) :
    findFor X n cnt (decide (iter = 1 ∨ iter = 4)) (alg2 && (decide (iter = 2 ∧ a.pip.proof.getD k 0 = unk) || decide (iter = 3 ∧ a.pip.proof.getD k 0 ≠ unk))) a k m = .val [] := by
  obtain ⟨⟨f, hr, hA, hc⟩, hF⟩ := forest h ha
  have hk : k < a.pip.proof.length := by rw [e1]; simp only [List.length_append]; omega
  obtain ⟨len, hL, _⟩ := lens_forest hA hr.proof
  have hb := isSub_len hr hA hL hk
  have hold : seg a.pip.proof x.length k = old := by
    unfold seg
    rw [e1, List.take_left' (by simp; omega), List.drop_left' rfl]
  have hxs : IsSub X.E a.pip.proof x.length k := by
    refine ⟨?_, hk, by rw [hold]; exact e3⟩
    have hlo : old ≠ [] := by rintro rfl; simp at hu
    have := List.length_pos_of_ne_nil hlo
    omega
  have hbl := isSub_unique hxs hb
  obtain ⟨c, z, ch, rfl, hi⟩ := locate f (i := k) (by rw [hr.proof] at hk; simpa using hk)
  obtain ⟨len', s1, s2⟩ := seg_at (X := X) hr hA
  rw [← hi] at s1 s2
  have hval := hL.val k hk
  have hpos := hL.pos k hk
  rw [s1] at hval
  have hlen := Out.val.inj hval
  have hs2 : (AF.snoc .nil z ch).flat.map Node.stmt = old := by
    obtain ⟨h1, h2⟩ := all_plug hA
    have hp : a.pip.proof = c.pre.map Node.stmt ++ ((ch.flat.map Node.stmt ++ [z.stmt]) ++ c.post.map Node.stmt) := by rw [hr.at.1]; simp
    have hsl := subproofLen_at h1 h2 (proof := a.pip.proof) (pre := c.pre.map Node.stmt) (post := c.post.map Node.stmt) (by rw [hr.at.1]; simp)
    rw [List.length_map, ← hi] at hsl
    have hsl : subproofLen X.E a.pip.proof (k : Int) = .val ((ch.flat.length : Int) + 1) := hsl
    rw [s1] at hsl
    have hlen2 := Out.val.inj hsl
    have hxl : x.length = (c.pre.map Node.stmt).length := by rw [List.length_map]; omega
    rw [e1, List.append_assoc] at hp
    have e7 := List.append_inj_right hp hxl
    have e8 := List.append_inj_left e7 (by simp; omega)
    rw [e8]; simp [AF.flat]
  unfold passStep at hs
  obtain ⟨x', hx', hs⟩ := bind_inv hs
  have hxx : rdN a.pip.proof k = .val (a.pip.proof.getD k 0) := by
    unfold rdN; rw [if_neg (by omega), Int.toNat_natCast, if_pos hk]
  rw [hxx] at hx'
  obtain rfl := (Out.val.inj hx').symm
  rw [target_val ht, Out.bind_val] at hs
  obtain ⟨m', _, hs⟩ := bind_inv hs
  rw [if_neg, s1, Out.bind_val] at hs
  · split at hs
    · cases hs
    rw [s2, Out.bind_val, hs2, if_neg (fun e => e hu), if_neg] at hs
    · obtain ⟨q, hq, hs⟩ := bind_inv hs
      by_cases c3 : q = []
      · rw [hq, c3]
      · rw [if_neg c3] at hs
        obtain ⟨t, _, hs⟩ := bind_inv hs
        cases hs
    · intro e
      unfold hasDummy at e
      obtain ⟨t, t1, t2⟩ := List.any_eq_true.mp e
      have := hd t t1
      have := of_decide_eq_true t2
      omega
  · rintro ⟨h1, h2, _⟩
    rcases hx with hx | ⟨hx1, hx2⟩
    · exact h2 hx
    · rcases h1 with h1 | h1
      · exact hx1 h1
      · rw [hx2] at h1; cases h1

/-- C91: if IMPROVE ALL finds nothing then no step was left out: `proveFloating` finds no proof for any unknown step without dummy variables, IMPROVE ALL / 2 does not find one by
`proveByReplacement` either, and with SUBPROOFS also none for the known steps whose subproofs are incomplete. -/
theorem C91_all_tried (h : Improve2 src s look X U) {b : MM.Pfas.St} (ha : Here X U N a) (hp : improveAll X n U cnts alg2 sub a = .val (b, false)) {k : Nat} {m : List Nat}
    (ht : a.pip.target[k]? = some m) (hd : ∀ t ∈ m, t ≤ X.E.sep) {x old y : List Int} (e1 : a.pip.proof = x ++ old ++ y) (e2 : x.length + old.length = k + 1) (e3 : rpnCount X.E old 0 = some 1)
    (hu : unk ∈ old) :
    (a.pip.proof.getD k 0 = unk → proveFloating (at' X a) n m = .val [] ∧ (alg2 = true → proveByReplacement (at' X a) n (cnts 2) k = .val [])) ∧
    (a.pip.proof.getD k 0 ≠ unk → alg2 = true → sub = true → proveByReplacement (at' X a) n (cnts 3) k = .val []) := by
  have hc : unk ∈ a.pip.proof := by rw [e1]; simp [hu]
  have hk : k < a.pip.proof.length := by rw [e1]; simp only [List.length_append]; omega
  unfold improveAll at hp
  rw [if_neg (fun e => e hc)] at hp
  obtain ⟨r, hr, hp⟩ := bind_inv hp
  have hrf : r.2 = false := by
    split at hp
    · obtain ⟨t, _, hp⟩ := bind_inv hp
      have := Out.val.inj hp
      rw [Prod.mk.injEq] at this
      exact this.2
    · rw [Out.val.inj hp]
  obtain ⟨p1, q1⟩ := passes_none hc hr hrf (fun e => absurd e.1 (by decide))
  have q1 : alg2 = true → passes X n U cnts alg2 sub [2, 3, 4] a false = .val r := fun e => by
    rcases q1 with q | q | q | q
    · cases q.1
    · cases q
    · rw [e] at q; cases q
    · exact q
  have fl : ∀ {fl rp : Bool} {c : Nat → Nat → Nat}, findFor X n c fl rp a k m = .val [] → (fl = true → proveFloating (at' X a) n m = .val []) ∧
      (fl = false → rp = true → proveByReplacement (at' X a) n c k = .val []) := by
    intro fl rp c hq
    unfold findFor at hq
    obtain ⟨q, hq1, hq⟩ := bind_inv hq
    have hq0 : q = [] := by
      by_cases c : q ≠ []
      · rw [if_pos c] at hq; exact Out.val.inj hq
      · exact Classical.not_not.mp c
    refine ⟨fun e => ?_, fun e1 e2 => ?_⟩
    · rw [if_pos e] at hq1; rw [hq1, hq0]
    · rw [if_neg (fun e => e hq0), if_pos e2] at hq; exact hq
  refine ⟨fun hx => ⟨?_, fun ha2 => ?_⟩, fun hx ha2 hsub => ?_⟩
  · exact (fl (passStep_none h ha (p1 k hk) ht hd e1 e2 e3 hu (Or.inl hx))).1 (by decide)
  · obtain ⟨p2, _⟩ := passes_none hc (q1 ha2) hrf (fun e => absurd e.1 (by decide))
    exact (fl (passStep_none h ha (p2 k hk) ht hd e1 e2 e3 hu (Or.inl hx))).2 (by decide) (by rw [ha2, hx]; decide)
  · obtain ⟨_, q2⟩ := passes_none hc (q1 ha2) hrf (fun e => absurd e.1 (by decide))
    have q2 : passes X n U cnts alg2 sub [3, 4] a false = .val r := by
      rcases q2 with q | q | q | q
      · rw [hsub] at q; cases q.2
      · cases q
      · rw [ha2] at q; cases q
      · exact q
    obtain ⟨p3, _⟩ := passes_none hc q2 hrf (by rw [hsub]; decide)
    exact (fl (passStep_none h ha (p3 k hk) ht hd e1 e2 e3 hu (Or.inr ⟨by decide, ha2⟩))).2 (by decide) (by rw [ha2, decide_eq_true (p := 3 = 3 ∧ a.pip.proof.getD k 0 ≠ unk) ⟨rfl, hx⟩]; simp)

/-- The subproof of a step is the segment that the code takes. -/
theorem seg_given (h : Improve2 src s look X U) (ha : Here X U N a) {k : Nat} {x old y : List Int} (e1 : a.pip.proof = x ++ old ++ y) (e2 : x.length + old.length = k + 1)
    (e3 : rpnCount X.E old 0 = some 1) : ∃ len, subproofLen X.E a.pip.proof k = .val len ∧ nmbrSeg a.pip.proof ((k : Int) - len + 2) ((k : Int) + 1) = .val old := by
  obtain ⟨⟨f, hr, hA, hc⟩, hF⟩ := forest h ha
  have hlo : old ≠ [] := by rintro rfl; simp [rpnCount] at e3
  have hlo := List.length_pos_of_ne_nil hlo
  have hk : k < a.pip.proof.length := by rw [e1]; simp only [List.length_append]; omega
  obtain ⟨len, hL, _⟩ := lens_forest hA hr.proof
  have hb := isSub_len hr hA hL hk
  have hold : seg a.pip.proof x.length k = old := by
    unfold seg
    rw [e1, List.take_left' (by simp; omega), List.drop_left' rfl]
  have hxs : IsSub X.E a.pip.proof x.length k := ⟨by omega, hk, by rw [hold]; exact e3⟩
  have hbl := isSub_unique hxs hb
  obtain ⟨c, z, ch, rfl, hi⟩ := locate f (i := k) (by rw [hr.proof] at hk; simpa using hk)
  obtain ⟨len', s1, s2⟩ := seg_at (X := X) hr hA
  rw [← hi] at s1 s2
  have hval := hL.val k hk
  have hpos := hL.pos k hk
  rw [s1] at hval
  have hlen := Out.val.inj hval
  refine ⟨len', s1, ?_⟩
  rw [s2]
  obtain ⟨h1, h2⟩ := all_plug hA
  have hp : a.pip.proof = c.pre.map Node.stmt ++ ((ch.flat.map Node.stmt ++ [z.stmt]) ++ c.post.map Node.stmt) := by rw [hr.at.1]; simp
  have hsl := subproofLen_at h1 h2 (proof := a.pip.proof) (pre := c.pre.map Node.stmt) (post := c.post.map Node.stmt) (by rw [hr.at.1]; simp)
  rw [List.length_map, ← hi] at hsl
  have hsl : subproofLen X.E a.pip.proof (k : Int) = .val ((ch.flat.length : Int) + 1) := hsl
  rw [s1] at hsl
  have hlen2 := Out.val.inj hsl
  have hxl : x.length = (c.pre.map Node.stmt).length := by rw [List.length_map]; omega
  rw [e1, List.append_assoc] at hp
  have e7 := List.append_inj_right hp hxl
  have e8 := List.append_inj_left e7 (by simp; omega)
  rw [e8]; simp [AF.flat]

/-- C91: if IMPROVE with a step finds nothing for a step whose subproof is incomplete and whose target has no dummy variable, then `proveFloating` finds no proof for it, and with / 2
`proveByReplacement` does not either; and nothing has changed. -/
theorem C91_step_tried (h : Improve2 src s look X U) {b : MM.Pfas.St} (ha : Here X U N a) {k : Nat} (hp : improveStep X n U cnt alg2 a k = .val (b, false)) {m : List Nat}
    (ht : a.pip.target[k]? = some m) (hd : ∀ t ∈ m, t ≤ X.E.sep) {x old y : List Int} (e1 : a.pip.proof = x ++ old ++ y) (e2 : x.length + old.length = k + 1) (e3 : rpnCount X.E old 0 = some 1)
    (hu : unk ∈ old) :
    b = a ∧ proveFloating (at' X a) n m = .val [] ∧ (alg2 = true → proveByReplacement (at' X a) n cnt k = .val []) := by
  obtain ⟨len, s1, s2⟩ := seg_given h ha e1 e2 e3
  have hnd : ¬ hasDummy X.E m = true := by
    intro e
    unfold hasDummy at e
    obtain ⟨t, t1, t2⟩ := List.any_eq_true.mp e
    have := hd t t1
    have := of_decide_eq_true t2
    omega
  unfold improveStep at hp
  rw [s1, Out.bind_val, s2, Out.bind_val, if_neg (fun e => e hu), target_val ht, Out.bind_val, if_neg hnd] at hp
  obtain ⟨q, hq, hp⟩ := bind_inv hp
  by_cases c : q = []
  · rw [if_pos c] at hp
    have hb := congrArg Prod.fst (Out.val.inj hp)
    refine ⟨hb.symm, ?_⟩
    unfold findFor at hq
    obtain ⟨q1, hq1, hq⟩ := bind_inv hq
    rw [if_pos rfl] at hq1
    have hq0 : q1 = [] := by
      by_cases c2 : q1 ≠ []
      · rw [if_pos c2] at hq; rw [Out.val.inj hq]; exact c
      · exact Classical.not_not.mp c2
    refine ⟨by rw [hq1, hq0], fun e => ?_⟩
    rw [if_neg (fun e => e hq0), if_pos e] at hq
    rw [hq, c]
  · rw [if_neg c] at hp
    obtain ⟨t, _, hp⟩ := bind_inv hp
    obtain ⟨u, _, hp⟩ := bind_inv hp
    have := congrArg Prod.snd (Out.val.inj hp)
    cases this

/-- C91 (partial): IMPROVE with a step ends, with no crash and no internal error (but for what comes after a reported unification error). -/
theorem C91_step_ends_partial (h : Improve2 src s look X U) (ha : Here X U N a) {k : Nat} (hk : k < a.pip.proof.length) : Ends src s X U a fun n => improveStep X n U cnt alg2 a k := by
  obtain ⟨⟨f, hr, hA, hc⟩, hF⟩ := forest h ha
  obtain ⟨m, ht⟩ : ∃ m, a.pip.target[k]? = some m := by
    refine ⟨_, List.getElem?_eq_getElem (?_ : k < a.pip.target.length)⟩
    rw [hr.target, List.length_map]
    rw [hr.proof, List.length_map] at hk; exact hk
  obtain ⟨c, z, ch, rfl, hi⟩ := locate f (i := k) (by rw [hr.proof] at hk; simpa using hk)
  obtain ⟨len, s1, s2⟩ := seg_at (X := X) hr hA
  rw [← hi] at s1 s2
  generalize (AF.snoc .nil z ch).flat.map Node.stmt = old at s2
  by_cases c2 : unk ∉ old
  · exact Or.inl ⟨0, (a, false), fun n _ => by unfold improveStep; dsimp only; rw [s1, Out.bind_val, s2, Out.bind_val, if_pos c2], ha.unified.1⟩
  by_cases c3 : hasDummy X.E m = true
  · exact Or.inl ⟨0, (a, false), fun n _ => by unfold improveStep; dsimp only; rw [s1, Out.bind_val, s2, Out.bind_val, if_neg c2, target_val ht, Out.bind_val, if_pos c3], ha.unified.1⟩
  have hfm := formula_of h ha ht c3
  have e : ∀ n, improveStep X n U cnt alg2 a k = findFor X n cnt true alg2 a k m >>= fun q =>
      if q = [] then .val (a, false)
      else exec n X.E U X.prove a (.insert q k) >>= fun t => exec n X.E U X.prove t .unify >>= fun u => .val (u, true) := fun n => by
    unfold improveStep; rw [s1, Out.bind_val, s2, Out.bind_val, if_neg c2, target_val ht, Out.bind_val, if_neg c3]
  obtain ⟨M, q, hM⟩ := findFor_ends (cnt := cnt) h ha true alg2 ht hfm
  by_cases c4 : q = []
  · exact Or.inl ⟨M, (a, false), fun n hn => by dsimp only; rw [e, hM n hn, Out.bind_val, if_pos c4], ha.unified.1⟩
  have hg := findFor_good h ha ht hfm (hM M (Nat.le_refl _)) c4
  have hY := ready_of_setting h.set
  obtain ⟨hI, hC⟩ := run_clean hY.env h.real h.fits h.math.1 ha.run
  obtain ⟨K, t, htx, _⟩ := exec_clean hY.env h.real h.fits h.math.1 (c := .insert q k) hI hC (good_formed (X := at' X a) hg) trivial
  have htn : ∀ n, exec n X.E U X.prove a (.insert q k) = .val t := fun n => (exec_insert_n n K).trans htx
  have hl : ∀ n, N ≤ n → Chain src s X U n a t 1 ∧ (t.err = false → Here X U n t) := fun n hn => by
    obtain ⟨⟨x, y, e1, e2, _, e4, e5⟩, hH⟩ := insert_link h (here_mono ha hn) ht hg s1 s2 (Classical.not_not.mp c2) (htn n)
    exact ⟨.insert ht (found_of_good h hg) e1 e2 e5 (Classical.not_not.mp c2) e4 (htn n) (.refl t), hH⟩
  by_cases he : t.err = false
  · obtain ⟨L, u, hL⟩ := unify_ends h ((hl N (Nat.le_refl _)).2 he)
    exact Or.inl ⟨max M L, (u, true), fun n hn => by
      dsimp only; rw [e, hM n (by omega), Out.bind_val, if_neg c4, htn n, Out.bind_val, hL n (by omega), Out.bind_val], (exec_unify_err (hL L (Nat.le_refl _))).trans he⟩
  · exact Or.inr ⟨N, fun n hn => ⟨t, 1, (hl n hn).1, by simpa using he⟩⟩

end MM.Improve
