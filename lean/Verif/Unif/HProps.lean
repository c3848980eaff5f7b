import Verif.Unif.HLoop
import Mathlib.Data.List.Sort
import Mathlib.Data.List.Nodup
/-!
# C56: the Henty filter
-/
namespace MM.Unif

variable {C : Cfg} {A B : List Nat} {on : Bool}

/-! ### Every call ends -/

/-- What `unifyH` does with an answer of `unify` to a further call. -/
def cont (on : Bool) (m n : Nat) (C : Cfg) (A B : List Nat) (f : List HEnt) : Res → Out ResH
  | .none => .val .none
  | .timeout => .val .timeout
  | .found w =>
      if on then hentyNormalize C w >>= fun e =>
        if e ∈ f then unifyHNext on m n C A B ⟨w, f⟩ else .val (.found ⟨w, f ++ [e]⟩)
      else .val (.found ⟨w, []⟩)

theorem next_cont (m n : Nat) (v : SVH) : unifyHNext on (m + 1) n C A B v = unifyNext n C A B v.sv >>= cont on m n C A B v.filter := by
  conv => lhs; unfold unifyHNext
  congr 1

theorem tree_hends (hP : Proper C A B) {x : Lbl × St} (h : Tree C A B (Ans C A B) Over x) : ∀ f : List HEnt, ∃ M r, ∀ m n k, M ≤ m → M ≤ n → M ≤ k →
    ((run C (unkVars C A B).length k x >>= fun r => Out.val (result r)) >>= cont on m n C A B f) = .val r := by
  induction h with
  | @leaf x h =>
    intro f
    obtain ⟨l, s⟩ := x
    have hl : l = .done ∨ l = .abort ∨ l = .timeout := by rcases h with h | h; exact Or.inr (Or.inr h); exact Or.inr (Or.inl h)
    refine ⟨1, if l = .timeout then .timeout else .none, ?_⟩
    intro m n k _ _ hk
    obtain ⟨k, rfl⟩ := Nat.exists_eq_succ_of_ne_zero (show k ≠ 0 by omega)
    rw [Nat.succ_eq_add_one, run_end hl, Out.bind_val]
    rcases h with h | h
    · dsimp only at h; subst h; rfl
    · dsimp only at h; subst h; rfl
  | step h _ ih =>
    intro f
    obtain ⟨M, r, hM⟩ := ih f
    refine ⟨M + 1, r, ?_⟩
    intro m n k hm hn hk
    obtain ⟨k, rfl⟩ := Nat.exists_eq_succ_of_ne_zero (show k ≠ 0 by omega)
    rw [Nat.succ_eq_add_one, run_goes h]
    exact hM m n k (by omega) (by omega) (by omega)
  | @done s h hall ih =>
    intro f
    obtain ⟨_, ⟨p, hc⟩, _⟩ := h
    obtain ⟨M, r, hM⟩ := ih s.trials f
    obtain ⟨ps, hn, _⟩ := normalize_ok hc s.trials
    have hn' : hentyNormalize C (svOf s) = .val (encode ps) := hn
    have e0 : ∀ k, (run C (unkVars C A B).length (k + 1) (.done, s) >>= fun r => Out.val (result r)) = .val (.found (svOf s)) := by
      intro k; rw [run_end (Or.inl rfl), Out.bind_val]; rfl
    cases on with
    | false =>
      refine ⟨1, .found ⟨svOf s, []⟩, ?_⟩
      intro m n k _ _ hk
      obtain ⟨k, rfl⟩ := Nat.exists_eq_succ_of_ne_zero (show k ≠ 0 by omega)
      rw [Nat.succ_eq_add_one, e0, Out.bind_val]
      rfl
    | true =>
      by_cases hf : encode ps ∈ f
      · by_cases he : early C A B = true
        · refine ⟨1, .none, ?_⟩
          intro m n k hm hn1 hk
          obtain ⟨k, rfl⟩ := Nat.exists_eq_succ_of_ne_zero (show k ≠ 0 by omega)
          obtain ⟨m, rfl⟩ := Nat.exists_eq_succ_of_ne_zero (show m ≠ 0 by omega)
          rw [Nat.succ_eq_add_one, Nat.succ_eq_add_one, e0, Out.bind_val]
          unfold cont
          dsimp only
          rw [if_pos rfl, hn', Out.bind_val, if_pos hf, next_cont]
          have := unifyNext_eq hP n s.trials s
          rw [if_pos he] at this
          rw [show (⟨svOf s, f⟩ : SVH).sv = { svOf s with trials := s.trials } from rfl, this]
          rfl
        · refine ⟨M + 1, r, ?_⟩
          intro m n k hm hn1 hk
          obtain ⟨k, rfl⟩ := Nat.exists_eq_succ_of_ne_zero (show k ≠ 0 by omega)
          obtain ⟨m, rfl⟩ := Nat.exists_eq_succ_of_ne_zero (show m ≠ 0 by omega)
          rw [Nat.succ_eq_add_one, Nat.succ_eq_add_one, e0, Out.bind_val]
          unfold cont
          dsimp only
          rw [if_pos rfl, hn', Out.bind_val, if_pos hf, next_cont]
          have := unifyNext_eq hP n s.trials s
          rw [if_neg he] at this
          rw [show (⟨svOf s, f⟩ : SVH).sv = { svOf s with trials := s.trials } from rfl, this]
          exact hM m n n (by omega) (by omega) (by omega)
      · refine ⟨1, .found ⟨svOf s, f ++ [encode ps]⟩, ?_⟩
        intro m n k _ _ hk
        obtain ⟨k, rfl⟩ := Nat.exists_eq_succ_of_ne_zero (show k ≠ 0 by omega)
        rw [Nat.succ_eq_add_one, e0, Out.bind_val]
        unfold cont
        dsimp only
        rw [if_pos rfl, hn', Out.bind_val, if_neg hf]

/-- C56 (each call ends): a first call of `unifyH` ends, with no undefined behaviour and none of its internal errors. -/
theorem C56_first_ends (hP : Proper C A B) (on : Bool) (t : Nat) : ∃ N r, ∀ n, N ≤ n → unifyH on n C t A B = .val r := by
  obtain ⟨N, r, h1, _⟩ := C49_unify_ends hP t
  cases r with
  | none => exact ⟨N, .none, fun n hn => by unfold unifyH; rw [h1 n hn]; rfl⟩
  | timeout => exact ⟨N, .timeout, fun n hn => by unfold unifyH; rw [h1 n hn]; rfl⟩
  | found v =>
    have hc : Calls C A B (fun _ => True) v := .first trivial (h1 N (Nat.le_refl _))
    obtain ⟨s, p, ps, rfl, _, hn, _⟩ := normalize_calls hP hc
    have hn' : hentyNormalize C (svOf s) = .val (encode ps) := hn s.trials
    cases on with
    | false => exact ⟨N, .found ⟨svOf s, []⟩, fun n hn => by unfold unifyH; rw [h1 n hn]; rfl⟩
    | true => exact ⟨N, .found ⟨svOf s, [encode ps]⟩, fun n hn => by unfold unifyH; rw [h1 n hn, Out.bind_val]; dsimp only; rw [if_pos rfl, hn']; rfl⟩

/-- C56 (each call ends): so does every further call after any series of calls. -/
theorem C56_next_ends (hP : Proper C A B) {l : List SV} {v : SVH} (h : HCalls on C A B l v) (t : Nat) :
    ∃ M r, ∀ m n, M ≤ m → M ≤ n → unifyHNext on m n C A B { v with sv := { v.sv with trials := t } } = .val r := by
  obtain ⟨S, hI⟩ := hcalls_inv hP h
  obtain ⟨u, hu, huz⟩ := hI.cur
  obtain ⟨s, rfl, hs⟩ := calls_at hP hu
  have e : ({ v.sv with trials := t } : SV) = { svOf s with trials := t } := by
    have := congrArg (fun x : SV => ({ x with trials := t } : SV)) huz
    exact this.symm
  by_cases he : early C A B = true
  · refine ⟨1, .none, ?_⟩
    intro m n hm _
    obtain ⟨m, rfl⟩ := Nat.exists_eq_succ_of_ne_zero (show m ≠ 0 by omega)
    rw [Nat.succ_eq_add_one, next_cont]
    dsimp only
    rw [e, unifyNext_eq hP, if_pos he]
    rfl
  · obtain ⟨M, r, hM⟩ := tree_hends (on := on) hP (hs.2 t) v.filter
    refine ⟨M + 1, r, ?_⟩
    intro m n hm hn
    obtain ⟨m, rfl⟩ := Nat.exists_eq_succ_of_ne_zero (show m ≠ 0 by omega)
    rw [Nat.succ_eq_add_one, next_cont]
    dsimp only
    rw [e, unifyNext_eq hP, if_neg he]
    exact hM m n n (by omega) (by omega) (by omega)

/-! ### The answers -/

/-- C56 (nothing is made up): the answers of `unifyH` are answers of `unify` (so they are unifiers, C48). -/
theorem C56_answers (hP : Proper C A B) {l : List SV} {v : SVH} (h : HCalls on C A B l v) : ∀ a ∈ l, Calls C A B (fun _ => True) a := by
  obtain ⟨S, hI⟩ := hcalls_inv hP h
  exact hI.ans

/-- C56 (nothing is lost): when `unifyH` finds no further answer, every answer of `unify` is, up to the choice of variables, one that was given. -/
theorem C56_complete (hK : ∀ t, C.mt < t → C.isCon t = false) (hP : Proper C A B) {l : List SV} {v : SVH} (h : HCalls on C A B l v) {m n t : Nat}
    (hn : unifyHNext on m n C A B { v with sv := { v.sv with trials := t } } = .val .none) {a : SV} (ha : Calls C A B (fun _ => True) a) :
    ∃ b ∈ l, ∀ σ τ, SubstOf C a σ → SubstOf C b τ → Variant C.mt σ τ := by
  obtain ⟨S, hI⟩ := hcalls_inv hP h
  obtain ⟨b, hb, e, _⟩ := (next_inv hP m n (hI.trials t) hn).2 rfl a ha
  exact ⟨b, hb, fun σ τ => variant_of_same hK hP ha (hI.ans b hb) e⟩

/-- C56 (nothing is lost): when the first call finds nothing, `unify` has no answers. -/
theorem C56_none (hP : Proper C A B) {n t : Nat} (h : unifyH on n C t A B = .val .none) (a : SV) : ¬ Calls C A B (fun _ => True) a := by
  intro ha
  unfold unifyH at h
  obtain ⟨r, h1, h2⟩ := bind_inv h
  cases r with
  | timeout => cases h2
  | found w =>
    dsimp only at h2
    cases on
    · rw [if_neg (by simp)] at h2; cases h2
    · rw [if_pos rfl] at h2
      obtain ⟨e, _, h4⟩ := bind_inv h2
      cases h4
  | none =>
    induction ha with
    | first _ hf => exact absurd (unify_det hP h1 hf nofun nofun) nofun
    | next _ _ _ ih => exact ih

/-! ### Matching -/

theorem match_core (hk : ∀ y ∈ B, y ≤ C.mt) {s : St} {p : Nat} (hs : s.A = s.B) (hc : Core C A B (vars s.stk) s.seg s.A s.B p) :
    (∀ y ∈ vars s.stk, ∀ z ∈ sol s y, z ≤ C.mt) ∧ ∀ y, y ∈ vars s.stk ↔ C.mt < y ∧ y ∈ A := by
  have hB : ∀ z ∈ s.A, z ≤ C.mt := by
    rw [hs, hc.hB, sim_inst hc, inst_known]
    · intro z hz
      rcases List.mem_append.1 hz with hz | hz
      · exact hk z hz
      · simp at hz; omega
    · intro z hz
      rcases List.mem_append.1 hz with hz | hz
      · exact hk z hz
      · simp at hz; omega
  refine ⟨?_, ?_⟩
  · intro y hy z hz
    obtain ⟨e, he⟩ := mem_zip_left hc.len hy
    rw [sol_bound hc he] at hz
    exact hB z (List.mem_of_mem_drop (List.mem_of_mem_take hz))
  · intro y
    constructor
    · intro hy
      obtain ⟨h1, h2⟩ := hc.unk y hy
      refine ⟨h1, h2.resolve_right fun h => ?_⟩
      have := hk y h
      omega
    · rintro ⟨h1, h2⟩
      apply Classical.byContradiction
      intro hn
      have : y ∈ s.A := by
        rw [hc.hA]
        exact List.mem_flatMap.2 ⟨y, by simp [h2], by rw [show binds (vars s.stk) s.seg s.A = (vars s.stk).zip (s.seg.map (slice s.A)) from rfl, assoc_notin hn]; simp⟩
      have := hB y this
      omega

theorem match_same (hk : ∀ y ∈ B, y ≤ C.mt) (hP : Proper C A B) {v w : SV} (hv : Calls C A B (fun _ => True) v) (hw : Calls C A B (fun _ => True) w)
    (hK : ∀ t, C.mt < t → C.isCon t = false) {σ τ : Nat → List Nat} (hσ : SubstOf C v σ) (hτ : SubstOf C w τ) (he : ∀ y ∈ A, C.mt < y → σ y = τ y) :
    hentyNormalize C v = hentyNormalize C w := by
  have key : ∀ {v : SV}, Calls C A B (fun _ => True) v → ∃ s p ps, v = svOf s ∧ Core C A B (vars s.stk) s.seg s.A s.B p ∧ s.A = s.B ∧
      hentyNormalize C v = .val (encode ps) ∧ ps.Perm (pairs s) ∧ ps.Pairwise fun x y => x.1 ≤ y.1 := by
    intro v hv
    obtain ⟨s, rfl, ⟨hs, ⟨p, hc⟩, _⟩, _⟩ := calls_at hP hv
    obtain ⟨ps, h1, h2, h3⟩ := normalize_ok hc s.trials
    refine ⟨s, p, ps, rfl, hc, hs, h1, ?_, h3⟩
    have hid : (pairs s).map (swp C.mt) = pairs s := by
      conv => rhs; rw [← List.map_id (pairs s)]
      refine List.map_congr_left ?_
      rintro ⟨y, w⟩ hw
      obtain ⟨hy, rfl⟩ := (mem_pairs hc).1 hw
      rcases swp_cases C.mt y (sol s y) with e | ⟨z, e0, e1, _⟩
      · exact e
      · have := (match_core hk hs hc).1 y hy z (by rw [e0]; simp)
        omega
    rw [← hid]
    exact h2
  obtain ⟨s, p, ps, rfl, hc, hs, n1, k1, q1⟩ := key hv
  obtain ⟨s', p', ps', rfl, hc', hs', n2, k2, q2⟩ := key hw
  have nd : ∀ {s : St} {p : Nat}, Core C A B (vars s.stk) s.seg s.A s.B p → ((pairs s).map Prod.fst).Nodup := by
    intro s p hc
    unfold pairs binds
    rw [List.map_fst_zip (by rw [List.length_map]; exact Nat.le_of_eq hc.len.symm)]
    exact hc.nodup
  have hmem : ∀ e, e ∈ pairs s ↔ e ∈ pairs s' := by
    rintro ⟨y, w⟩
    rw [mem_pairs hc, mem_pairs hc', (match_core hk hs hc).2, (match_core hk hs' hc').2]
    constructor
    · rintro ⟨⟨h1, h2⟩, rfl⟩
      refine ⟨⟨h1, h2⟩, ?_⟩
      rw [← substOf hK hc hσ h1, ← substOf hK hc' hτ h1]
      exact he y h2 h1
    · rintro ⟨⟨h1, h2⟩, rfl⟩
      refine ⟨⟨h1, h2⟩, ?_⟩
      rw [← substOf hK hc hσ h1, ← substOf hK hc' hτ h1]
      exact (he y h2 h1).symm
  have hperm : ps.Perm ps' := by
    refine k1.trans (List.Perm.trans ?_ k2.symm)
    exact (List.perm_ext_iff_of_nodup (List.Nodup.of_map _ (nd hc)) (List.Nodup.of_map _ (nd hc'))).2 hmem
  have heq : ps = ps' := by
    refine List.Perm.eq_of_pairwise ?_ q1 q2 hperm
    rintro ⟨y, w⟩ ⟨y', w'⟩ h1 h2 h3 h4
    dsimp only at h3 h4
    obtain rfl : y = y' := Nat.le_antisymm h3 h4
    have g1 := k1.mem_iff.1 h1
    have g2 := (hmem _).2 (k2.mem_iff.1 h2)
    obtain ⟨_, rfl⟩ := (mem_pairs hc).1 g1
    obtain ⟨_, rfl⟩ := (mem_pairs hc).1 g2
    rfl
  rw [n1, n2, heq]

/-- C56 (no answer twice): when the second scheme has no unknown variable, the answers given are different. -/
theorem C56_distinct (hK : ∀ t, C.mt < t → C.isCon t = false) (hP : Proper C A B) (hk : ∀ y ∈ B, y ≤ C.mt) {l : List SV} {v : SVH} (h : HCalls true C A B l v) :
    l.Pairwise fun a b => ∀ σ τ, SubstOf C a σ → SubstOf C b τ → ∃ y ∈ A, C.mt < y ∧ σ y ≠ τ y := by
  obtain ⟨S, hI⟩ := hcalls_inv hP h
  refine List.Pairwise.imp_of_mem ?_ (hI.diff rfl)
  intro a b ha hb hab σ τ hσ hτ
  apply Classical.byContradiction
  intro hn
  refine hab (match_same hk hP (hI.ans a ha) (hI.ans b hb) hK hσ hτ ?_)
  intro y hy hm
  apply Classical.byContradiction
  intro hne
  exact hn ⟨y, hy, hm, hne⟩

/-! ### `uniqueUnif` -/

theorem unique_inv {m n t : Nat} {r : Nat × Option SV} (h : uniqueUnif on m n C t A B = .val r) :
    (r = (0, none) ∧ unifyH on n C t A B = .val .none) ∨ r = (2, none) ∨
    ∃ v, unifyH on n C t A B = .val (.found v) ∧
      ((r = (1, some v.sv) ∧ unifyHNext on m n C A B v = .val .none) ∨ (r = (3, none) ∧ ∃ w, unifyHNext on m n C A B v = .val (.found w))) := by
  unfold uniqueUnif at h
  obtain ⟨q, h1, h2⟩ := bind_inv h
  cases q with
  | none => cases h2; exact Or.inl ⟨rfl, h1⟩
  | timeout => cases h2; exact Or.inr (Or.inl rfl)
  | found v =>
    obtain ⟨q, h3, h4⟩ := bind_inv h2
    cases q with
    | none => cases h4; exact Or.inr (Or.inr ⟨v, h1, Or.inl ⟨rfl, h3⟩⟩)
    | timeout => cases h4; exact Or.inr (Or.inl rfl)
    | found w => cases h4; exact Or.inr (Or.inr ⟨v, h1, Or.inr ⟨rfl, w, h3⟩⟩)

/-- C56 (one): if `uniqueUnif` returns 1, its answer is an answer of `unify`, and all answers of `unify` are the same up to the choice of variables. -/
theorem C56_unique (hK : ∀ t, C.mt < t → C.isCon t = false) (hP : Proper C A B) {m n t : Nat} {o : Option SV} (h : uniqueUnif on m n C t A B = .val (1, o)) :
    ∃ v, o = some v ∧ Calls C A B (fun _ => True) v ∧
      ∀ a, Calls C A B (fun _ => True) a → ∀ σ τ, SubstOf C a σ → SubstOf C v τ → Variant C.mt σ τ := by
  rcases unique_inv h with ⟨e, _⟩ | e | ⟨v, h1, ⟨e, h2⟩ | ⟨e, _⟩⟩
  · cases e
  · cases e
  · injection e with _ e
    have hc := HCalls.first h1
    refine ⟨v.sv, e, C56_answers hP hc v.sv (by simp), ?_⟩
    intro a ha
    obtain ⟨b, hb, hv⟩ := C56_complete hK hP hc (t := v.sv.trials) h2 ha
    simp only [List.mem_singleton] at hb
    subst hb
    exact hv
  · cases e

/-- C56 (none): if `uniqueUnif` returns 0, `unify` has no answers. -/
theorem C56_unique_none (hP : Proper C A B) {m n t : Nat} {o : Option SV} (h : uniqueUnif on m n C t A B = .val (0, o)) (a : SV) : ¬ Calls C A B (fun _ => True) a := by
  rcases unique_inv h with ⟨_, h1⟩ | e | ⟨v, h1, ⟨e, _⟩ | ⟨e, _⟩⟩
  · exact C56_none hP h1 a
  · cases e
  · cases e
  · cases e

/-- C56 (several): if `uniqueUnif` returns 3 for a second scheme without unknown variables, there are two answers of `unify` that differ. -/
theorem C56_unique_several_partial (hK : ∀ t, C.mt < t → C.isCon t = false) (hP : Proper C A B) (hk : ∀ y ∈ B, y ≤ C.mt) {m n t : Nat} {o : Option SV}
    (h : uniqueUnif true m n C t A B = .val (3, o)) :
    ∃ v w, Calls C A B (fun _ => True) v ∧ Calls C A B (fun _ => True) w ∧ ∀ σ τ, SubstOf C v σ → SubstOf C w τ → ∃ y ∈ A, C.mt < y ∧ σ y ≠ τ y := by
  rcases unique_inv h with ⟨e, _⟩ | e | ⟨v, h1, ⟨e, _⟩ | ⟨_, w, h2⟩⟩
  · cases e
  · cases e
  · cases e
  · have hc := HCalls.next (t := v.sv.trials) (HCalls.first h1) h2
    have hd := C56_distinct hK hP hk hc
    have ha := C56_answers hP hc
    refine ⟨v.sv, w.sv, ha _ (by simp), ha _ (by simp), ?_⟩
    simpa using hd

/-- C56 (each call ends): `uniqueUnif` ends. -/
theorem C56_unique_ends (hP : Proper C A B) (on : Bool) (t : Nat) : ∃ M r, ∀ m n, M ≤ m → M ≤ n → uniqueUnif on m n C t A B = .val r := by
  obtain ⟨N, r, h1⟩ := C56_first_ends hP on t
  cases r with
  | none => exact ⟨N, (0, none), fun m n _ hn => by unfold uniqueUnif; rw [h1 n hn]; rfl⟩
  | timeout => exact ⟨N, (2, none), fun m n _ hn => by unfold uniqueUnif; rw [h1 n hn]; rfl⟩
  | found v =>
    obtain ⟨M, q, h2⟩ := C56_next_ends hP (HCalls.first (h1 N (Nat.le_refl _))) v.sv.trials
    have h3 : ∀ m n, M ≤ m → M ≤ n → unifyHNext on m n C A B v = .val q := h2
    cases q with
    | none => exact ⟨max M N, (1, some v.sv), fun m n hm hn => by unfold uniqueUnif; rw [h1 n (by omega), Out.bind_val]; dsimp only; rw [h3 m n (by omega) (by omega)]; rfl⟩
    | timeout => exact ⟨max M N, (2, none), fun m n hm hn => by unfold uniqueUnif; rw [h1 n (by omega), Out.bind_val]; dsimp only; rw [h3 m n (by omega) (by omega)]; rfl⟩
    | found w => exact ⟨max M N, (3, none), fun m n hm hn => by unfold uniqueUnif; rw [h1 n (by omega), Out.bind_val]; dsimp only; rw [h3 m n (by omega) (by omega)]; rfl⟩

theorem Calls.mono {ok ok' : Nat → Prop} (h : ∀ n, ok n → ok' n) {v : SV} (hv : Calls C A B ok v) : Calls C A B ok' v := by
  induction hv with
  | first h1 h2 => exact .first (h _ h1) h2
  | next _ h1 h2 ih => exact .next ih (h _ h1) h2

/-- C56 (one): if `uniqueUnif` returns 1 for a second scheme without unknown variables, its answer is the only plausible unifier. -/
theorem C56_unique_match (hK : ∀ t, C.mt < t → C.isCon t = false) (hP : Proper C A B) (hk : ∀ y ∈ B, y ≤ C.mt) {m n t : Nat} {v : SV}
    (h : uniqueUnif on m n C t A B = .val (1, some v)) {σ : Nat → List Nat} (hσ : SubstOf C v σ) {θ : Nat → List Nat} (he : inst C.mt θ A = inst C.mt θ B)
    (hW : ∀ y, Unknown C A B y → C.mt ∉ θ y ∧ C.min ≤ (θ y).length ∧ Plausible C (θ y)) : ∀ y, Unknown C A B y → θ y = σ y := by
  obtain ⟨v', c1, c2, c3⟩ := C50_match_complete hK hP (Or.inr hk) he hW
  have c1' := c1.mono (ok' := fun _ => True) (fun _ _ => trivial)
  obtain ⟨σ', hσ'⟩ := substOf_exists hK hP c1'
  obtain ⟨v0, e0, _, hu⟩ := C56_unique hK hP h
  injection e0 with e0
  subst e0
  obtain ⟨⟨ρ, hρ⟩, _⟩ := hu v' c1' σ' σ hσ' hσ
  intro y hy
  have hyA : y ∈ A := hy.2.resolve_right fun h => by have := hk y h; have := hy.1; omega
  have e1 : σ' y = θ y := by
    obtain ⟨f, hf⟩ := hσ' [y]
    have := c3 [y] (by intro z hz _; simp at hz; subst hz; exact hy)
    rw [hf] at this
    injection this with this
    injection this with this _
    rw [inst_one hy.1, inst_one hy.1] at this
    exact this
  have hB : inst C.mt θ B = B := inst_known hk
  have hkn : ∀ z ∈ θ y, z ≤ C.mt := by
    intro z hz
    refine hk z ?_
    rw [← hB, ← he]
    exact List.mem_flatMap.2 ⟨y, hyA, by rw [if_pos hy.1]; exact hz⟩
  have := hρ y hy.1
  rw [e1, inst_known hkn] at this
  exact this

end MM.Unif
