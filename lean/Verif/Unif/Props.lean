import Verif.Unif.Complete
import Verif.Unif.Filter
/-!
# Properties of `unify` and `makeSubstUnif`
-/
namespace MM.Unif

variable {C : Cfg} {A B : List Nat} {θ : Nat → List Nat}

/-- The answers of a series of calls: `unify` with `reEntryFlag` 0 first, then with 1 and the state vector of the call before.  The trial count
`g_unifTrialCount` with which each call starts is up to the caller, as far as `ok` allows. -/
inductive Calls (C : Cfg) (A B : List Nat) (ok : Nat → Prop) : SV → Prop
  | first {n t v} : ok t → unify n C t A B = .val (.found v) → Calls C A B ok v
  | next {n t v w} : Calls C A B ok v → ok t → unifyNext n C A B { v with trials := t } = .val (.found w) → Calls C A B ok w

/-- The state vector for a state. -/
def svOf (s : St) : SV := ⟨s.stk, s.seg, s.A.take (s.A.length - 1), s.trials⟩

theorem result_found {r : Lbl × St} {v : SV} : result r = .found v ↔ r.1 = .done ∧ v = svOf r.2 := by
  obtain ⟨l, s⟩ := r
  cases l <;> simp [result, svOf, eq_comm]

theorem unify_eq (hP : Proper C A B) (n t : Nat) : unify n C t A B = if early C A B then .val .none else
      run C (unkVars C A B).length n (.scan, start C A B t) >>= fun r => .val (result r) := by
  unfold unify; rw [if_neg (by rintro (h | h); exact hP.neA h; exact hP.neB h)]

theorem unifyNext_eq (hP : Proper C A B) (n t : Nat) (s : St) : unifyNext n C A B { svOf s with trials := t } = if early C A B then .val .none else
      run C (unkVars C A B).length n (.back, again C A B s t) >>= fun r => .val (result r) := by
  unfold unifyNext; rw [if_neg (by rintro (h | h); exact hP.neA h; exact hP.neB h)]; rfl

/-- A state of an answer. -/
def AnsAt (C : Cfg) (A B : List Nat) (s : St) : Prop := Ans C A B s ∧ ∀ n, Tree C A B (Ans C A B) Over (.back, again C A B s n)

theorem call_found {x : Lbl × St} (h : Tree C A B (Ans C A B) Over x) {n : Nat} {v : SV}
    (hr : (run C (unkVars C A B).length n x >>= fun r => Out.val (result r)) = .val (.found v)) : ∃ s, v = svOf s ∧ AnsAt C A B s := by
  obtain ⟨N, r, h1, h2, h3⟩ := h.run
  by_cases hn : N ≤ n
  · rw [h1 n hn, Out.bind_val] at hr
    injection hr with hr
    obtain ⟨e1, e2⟩ := result_found.1 hr
    rcases h3 with h3 | ⟨_, h4, h5⟩
    · rcases h3 with h3 | h3 <;> rw [h3] at e1 <;> cases e1
    · exact ⟨r.2, e2, h4, h5⟩
  · rw [h2 n (by omega)] at hr; cases hr

theorem calls_at (hP : Proper C A B) {ok : Nat → Prop} {v : SV} (h : Calls C A B ok v) : ∃ s, v = svOf s ∧ AnsAt C A B s := by
  induction h with
  | @first n t v _ h =>
    rw [unify_eq hP] at h
    by_cases he : early C A B = true
    · rw [if_pos he] at h; cases h
    · rw [if_neg he] at h
      exact call_found (tree_start hP t) h
  | @next n t v w _ _ h ih =>
    obtain ⟨s, rfl, hs⟩ := ih
    rw [unifyNext_eq hP] at h
    by_cases he : early C A B = true
    · rw [if_pos he] at h; cases h
    · rw [if_neg he] at h
      exact call_found (hs.2 t) h

/-! ## The substitution of an answer -/

theorem assoc_of_mem {t : Nat} {w : List Nat} : ∀ {vs : List Nat} {vals : List (List Nat)}, vs.Nodup → (t, w) ∈ vs.zip vals → assoc (vs.zip vals) t = w
  | [], _, _, h => by simp at h
  | _ :: _, [], _, h => by simp at h
  | y :: vs, u :: vals, hn, h => by
    rw [List.zip_cons_cons] at h ⊢
    rw [assoc]
    rcases List.mem_cons.1 h with h | h
    · injection h with h1 h2
      rw [if_pos h1, h2]
    · have h1 := (List.of_mem_zip h).1
      have h2 := List.nodup_cons.1 hn
      rw [if_neg (by rintro rfl; exact h2.1 h1)]
      exact assoc_of_mem h2.2 h

theorem zip_map_mem {α : Type} {t : Nat} {e : α} {vs : List Nat} {seg : List α} (f : α → List Nat) (h : (t, e) ∈ vs.zip seg) : (t, f e) ∈ vs.zip (seg.map f) := by
  rw [List.zip_map_right]
  exact List.mem_map.2 ⟨(t, e), h, rfl⟩

theorem mem_zip_left {α : Type} {t : Nat} : ∀ {vs : List Nat} {seg : List α}, seg.length = vs.length → t ∈ vs → ∃ e, (t, e) ∈ vs.zip seg
  | [], _, _, h => by simp at h
  | y :: vs, [], hl, _ => by simp at hl
  | y :: vs, e :: seg, hl, h => by
    rcases List.mem_cons.1 h with rfl | h
    · exact ⟨e, by simp⟩
    · obtain ⟨e', h'⟩ := mem_zip_left (seg := seg) (by simpa using hl) h
      exact ⟨e', by simp [h']⟩

theorem segOf_cases (v : SV) (t : Nat) (hl : v.seg.length = (vars v.stk).length) :
    (∃ e, segOf v t = some e ∧ (t, e) ∈ (vars v.stk).zip v.seg) ∨ (segOf v t = none ∧ t ∉ vars v.stk) := by
  have hz : (vars v.stk).reverse.zip v.seg.reverse = ((vars v.stk).zip v.seg).reverse := by
    unfold List.zip; rw [List.reverse_zipWith hl.symm]
  unfold segOf
  rw [show (v.stk.map Frame.var) = vars v.stk from rfl, hz]
  cases h : (((vars v.stk).zip v.seg).reverse.find? fun e => e.1 == t) with
  | some e =>
    left
    have h1 := List.mem_of_find?_eq_some h
    have h2 := List.find?_some h
    simp at h1 h2
    refine ⟨e.2, rfl, ?_⟩
    rw [← h2]
    exact h1
  | none =>
    right
    refine ⟨rfl, ?_⟩
    intro ht
    obtain ⟨e, he⟩ := mem_zip_left hl ht
    have := List.find?_eq_none.1 h (t, e) (by simp [he])
    simp at this

/-- The substitution of an answer. -/
def sol (s : St) : Nat → List Nat := assoc (binds (vars s.stk) s.seg s.A)

theorem sol_unbound {s : St} {t : Nat} (h : t ∉ vars s.stk) : sol s t = [t] := assoc_notin h

theorem sol_bound {s : St} {p : Nat} (hc : Core C A B (vars s.stk) s.seg s.A s.B p) {t : Nat} {e : Nat × Nat} (h : (t, e) ∈ (vars s.stk).zip s.seg) :
    sol s t = slice s.A e := assoc_of_mem hc.nodup (zip_map_mem (slice s.A) h)

theorem sim_inst {s : St} {p : Nat} (hc : Core C A B (vars s.stk) s.seg s.A s.B p) (l : List Nat) : sim (binds (vars s.stk) s.seg s.A) l = inst C.mt (sol s) l := by
  unfold sim inst
  congr 1
  funext t
  by_cases h : C.mt < t
  · rw [if_pos h]; rfl
  · rw [if_neg h]
    exact sol_unbound (fun h' => h (hc.unk t h').1)

theorem makeSubst_eq (hK : ∀ t, C.mt < t → C.isCon t = false) {s : St} {p : Nat} (hc : Core C A B (vars s.stk) s.seg s.A s.B p) (n : Nat) : ∀ l : List Nat,
    makeSubst C { svOf s with trials := n } l = .val (inst C.mt (sol s) l, l.any fun t => decide (C.mt < t ∧ sol s t = [t]))
  | [] => rfl
  | t :: l => by
    unfold makeSubst
    rw [makeSubst_eq hK hc n l, Out.bind_val]
    dsimp only
    rw [inst_cons]
    by_cases h : C.mt < t
    · rw [if_pos ⟨hK t h, h⟩, if_pos h]
      rcases segOf_cases { svOf s with trials := n } t hc.len with ⟨e, h1, h2⟩ | ⟨h1, h2⟩
      · rw [h1]
        obtain ⟨e1, e2⟩ := e
        dsimp only
        have hs := hc.segs _ (List.of_mem_zip h2).2
        have hp := hc.pA
        have hb := sol_bound hc h2
        have hul : ((svOf s).unified).length = s.A.length - 1 := by simp [svOf]
        have hsl : (((svOf s).unified).drop e1).take e2 = sol s t := by
          rw [hb]
          simp only [svOf, slice]
          rw [List.drop_take, List.take_take, Nat.min_eq_left (by omega)]
        rw [if_pos (by rw [hul]; omega), hsl]
        have hne : ¬ sol s t = [t] := by
          intro h3
          have ht : t ∈ slice s.A (e1, e2) := by rw [← hb, h3]; simp
          exact hc.notA t (List.of_mem_zip h2).1 (List.mem_of_mem_drop (List.mem_of_mem_take ht))
        simp [hne]
      · rw [h1]
        have := sol_unbound (s := s) h2
        rw [this]
        simp [h, this]
    · rw [if_neg (by omega), if_neg h]
      simp [h]

/-- C48: every answer is a unifier.  There is a substitution `σ` of the unknown variables that `makeSubstUnif` applies to any scheme `l` (telling with its flag
whether a variable of `l` has no value); it makes the two schemes equal, to the unified scheme; the values have the least length, hold no separator and no
variable that has a value; and only variables of the schemes have a value. -/
theorem C48_unify_sound (hK : ∀ t, C.mt < t → C.isCon t = false) (hP : Proper C A B) {ok : Nat → Prop} {v : SV} (h : Calls C A B ok v) :
    ∃ σ : Nat → List Nat,
      (∀ l t, makeSubst C { v with trials := t } l = .val (inst C.mt σ l, l.any fun y => decide (C.mt < y ∧ σ y = [y]))) ∧
      inst C.mt σ A = v.unified ∧ inst C.mt σ B = v.unified ∧
      (∀ y, C.mt < y → C.min ≤ (σ y).length ∧ C.mt ∉ σ y ∧ inst C.mt σ (σ y) = σ y) ∧
      (∀ y, σ y ≠ [y] → Unknown C A B y) := by
  obtain ⟨s, rfl, ⟨hAB, ⟨p, hc⟩, _⟩, _⟩ := calls_at hP h
  refine ⟨sol s, fun l t => makeSubst_eq hK hc t l, ?_, ?_, ?_, ?_⟩
  · have := hc.hA
    rw [sim_append, sim_inst hc, sim_inst hc] at this
    simp only [svOf]
    conv => rhs; rw [this]
    simp [inst]
  · have := hc.hB
    rw [sim_append, sim_inst hc, sim_inst hc] at this
    simp only [svOf]
    rw [hAB]
    conv => rhs; rw [this]
    simp [inst]
  · intro y hy
    by_cases hm : y ∈ vars s.stk
    · obtain ⟨e, he⟩ := mem_zip_left hc.len hm
      have hs := hc.segs _ (List.of_mem_zip he).2
      have hp := hc.pA
      rw [sol_bound hc he]
      refine ⟨?_, hs.2.1, ?_⟩
      · have : (slice s.A e).length = e.2 := by unfold slice; simp; omega
        omega
      · have key : ∀ l : List Nat, (∀ z ∈ l, z ∈ s.A) → inst C.mt (sol s) l = l := by
          intro l
          induction l with
          | nil => intro _; rfl
          | cons z l ih =>
            intro hz
            rw [inst_cons, ih (fun w hw => hz w (by simp [hw])), sol_unbound (fun h' => hc.notA z h' (hz z (by simp)))]
            simp
        exact key _ (fun z hz => List.mem_of_mem_drop (List.mem_of_mem_take hz))
    · rw [sol_unbound hm]
      have := hP.min1
      refine ⟨by simpa using this, by simp; omega, ?_⟩
      rw [inst_cons, if_pos hy, sol_unbound hm]; rfl
  · intro y hy
    by_cases hm : y ∈ vars s.stk
    · exact hc.unk y hm
    · exact absurd (sol_unbound hm) hy

theorem call_ends {x : Lbl × St} (h : Tree C A B (Ans C A B) Over x) :
    ∃ N r, (∀ n, N ≤ n → (run C (unkVars C A B).length n x >>= fun r => Out.val (result r)) = .val r) ∧
      ∀ n, n < N → (run C (unkVars C A B).length n x >>= fun r => Out.val (result r)) = .fuel := by
  obtain ⟨N, r, h1, h2, _⟩ := h.run
  refine ⟨N, result r, ?_, ?_⟩
  · intro n hn; rw [h1 n hn]; rfl
  · intro n hn; rw [h2 n hn]; rfl

/-- C49 (each call ends): a first call ends, with no undefined behaviour and none of its internal errors. -/
theorem C49_unify_ends (hP : Proper C A B) (t : Nat) : ∃ N r, (∀ n, N ≤ n → unify n C t A B = .val r) ∧ ∀ n, n < N → unify n C t A B = .fuel := by
  by_cases he : early C A B = true
  · refine ⟨0, .none, ?_, by omega⟩
    intro n _
    rw [unify_eq hP, if_pos he]
  · obtain ⟨N, r, h1, h2⟩ := call_ends (tree_start hP t)
    refine ⟨N, r, ?_, ?_⟩
    · intro n hn; rw [unify_eq hP, if_neg he]; exact h1 n hn
    · intro n hn; rw [unify_eq hP, if_neg he]; exact h2 n hn

/-- C49 (each call ends): so does every further call after any series of calls. -/
theorem C49_unifyNext_ends (hP : Proper C A B) {ok : Nat → Prop} {v : SV} (h : Calls C A B ok v) (t : Nat) :
    ∃ N r, (∀ n, N ≤ n → unifyNext n C A B { v with trials := t } = .val r) ∧ ∀ n, n < N → unifyNext n C A B { v with trials := t } = .fuel := by
  obtain ⟨s, rfl, hs⟩ := calls_at hP h
  by_cases he : early C A B = true
  · refine ⟨0, .none, ?_, by omega⟩
    intro n _
    rw [unifyNext_eq hP, if_pos he]
  · obtain ⟨N, r, h1, h2⟩ := call_ends (hs.2 t)
    refine ⟨N, r, ?_, ?_⟩
    · intro n hn; rw [unifyNext_eq hP, if_neg he]; exact h1 n hn
    · intro n hn; rw [unifyNext_eq hP, if_neg he]; exact h2 n hn

theorem tree_finite {x : Lbl × St} (hP : Proper C A B) (h : Tree C A B (Ans C A B) Over x) :
    ∀ (f : Nat → SV), (∃ n, (run C (unkVars C A B).length n x >>= fun r => Out.val (result r)) = .val (.found (f 0))) →
      (∀ i, ∃ n t, unifyNext n C A B { f i with trials := t } = .val (.found (f (i + 1)))) → False := by
  induction h with
  | @leaf x h =>
    rintro f ⟨n, hn⟩ _
    obtain ⟨l, s⟩ := x
    cases n with
    | zero => cases hn
    | succ n =>
      rw [run_end (by rcases h with h | h; exact Or.inr (Or.inr h); exact Or.inr (Or.inl h)), Out.bind_val] at hn
      injection hn with hn
      have := (result_found.1 hn).1
      rcases h with h | h <;> rw [h] at this <;> cases this
  | step h _ ih =>
    rintro f ⟨n, hn⟩ hf
    cases n with
    | zero => cases hn
    | succ n =>
      rw [run_goes h] at hn
      exact ih f ⟨n, hn⟩ hf
  | @done s h _ ih =>
    rintro f ⟨n, hn⟩ hf
    cases n with
    | zero => cases hn
    | succ n =>
      rw [run_end (Or.inl rfl), Out.bind_val] at hn
      injection hn with hn
      have e := (result_found.1 hn).2
      obtain ⟨m, t, hm⟩ := hf 0
      rw [e] at hm
      rw [unifyNext_eq hP] at hm
      by_cases he : early C A B = true
      · rw [if_pos he] at hm; cases hm
      · rw [if_neg he] at hm
        exact ih t (fun i => f (i + 1)) ⟨m, hm⟩ (fun i => hf (i + 1))

/-- C49 (finitely many answers): no series of calls goes on for ever. -/
theorem C49_unify_finite (hP : Proper C A B) (f : Nat → SV) (h0 : ∃ n t, unify n C t A B = .val (.found (f 0))) :
    ¬ ∀ i, ∃ n t, unifyNext n C A B { f i with trials := t } = .val (.found (f (i + 1))) := by
  intro hf
  obtain ⟨n, t, h0⟩ := h0
  rw [unify_eq hP] at h0
  by_cases he : early C A B = true
  · rw [if_pos he] at h0; cases h0
  · rw [if_neg he] at h0
    exact tree_finite hP (tree_start hP t) f ⟨n, h0⟩ hf

/-! ## Without a limit of trials -/

theorem bind_inv {α β : Type} {o : Out α} {f : α → Out β} {b : β} (h : (o >>= f) = .val b) : ∃ a, o = .val a ∧ f a = .val b := by
  cases o with
  | val a => exact ⟨a, rfl, h⟩
  | ub => cases h
  | bug => cases h
  | fuel => cases h

def Zero (x : Lbl × St) : Prop := x.2.trials = 0 ∧ x.1 ≠ .timeout

theorem substitute_zero {inA : Bool} {x : Nat} {sub : List Nat} {s : St} {y} (h : substitute C inA x sub s = .val y) (h0 : s.trials = 0) : Zero y := by
  unfold substitute at h
  split at h
  · cases h; exact ⟨h0, nofun⟩
  · split at h
    · cases h; exact ⟨h0, nofun⟩
    · split at h
      · cases h; exact ⟨h0, nofun⟩
      · obtain ⟨r, _, h⟩ := bind_inv h
        obtain ⟨r', _, h⟩ := bind_inv h
        cases h; exact ⟨h0, nofun⟩

theorem choose_zero {inA : Bool} {x : Nat} {s : St} {y} (h : choose C inA x s = .val y) (h0 : s.trials = 0) : Zero y := by
  unfold choose at h
  split at h
  · split at h
    · cases h
    · obtain ⟨r, _, h⟩ := bind_inv h
      exact substitute_zero h h0
  · cases h

theorem assign_zero {room : Nat} {inA : Bool} {x : Nat} {s : St} {y} (h : assign C room inA x s = .val y) (h0 : s.trials = 0) : Zero y := by
  unfold assign at h
  split at h
  · split at h
    · exact choose_zero h h0
    · cases h
  · exact choose_zero h h0

theorem mismatch_zero {room : Nat} {a b : Int} {s : St} {y} (h : mismatch C room a b s = .val y) (h0 : s.trials = 0) : Zero y := by
  unfold mismatch at h
  split at h
  · split at h
    · exact assign_zero h h0
    · split at h
      · cases h
      · exact assign_zero h h0
  · split at h
    · exact assign_zero h h0
    · split at h
      · exact assign_zero h h0
      · cases h; exact ⟨h0, nofun⟩

theorem step_zero {room : Nat} {x y} (h : step C room x = .val y) (h0 : Zero x) : Zero y := by
  obtain ⟨l, s⟩ := x
  obtain ⟨h0, h1⟩ := h0
  dsimp only at h0 h1
  cases l with
  | scan =>
    rw [step_scan] at h
    unfold doScan at h
    obtain ⟨p, _, h⟩ := bind_inv h
    obtain ⟨a, _, h⟩ := bind_inv h
    obtain ⟨b, _, h⟩ := bind_inv h
    dsimp only at h
    split at h
    · split at h
      · split at h
        · cases h; exact ⟨h0, nofun⟩
        · exact mismatch_zero h h0
      · obtain ⟨c, _, h⟩ := bind_inv h
        split at h
        · cases h; exact ⟨h0, nofun⟩
        · exact mismatch_zero h h0
    · exact mismatch_zero h h0
  | back =>
    rw [step_back] at h
    unfold doBack at h
    split at h
    · cases h; exact ⟨h0, nofun⟩
    · rw [if_neg (by omega)] at h
      cases h
      refine ⟨?_, nofun⟩
      dsimp only
      rw [if_neg (by omega)]
  | switch =>
    rw [step_switch] at h
    cases hs : s.stk with
    | nil => unfold doSwitch at h; rw [hs] at h; cases h
    | cons f fs =>
      rw [doSwitch_eq hs] at h
      obtain ⟨a, _, h⟩ := bind_inv h
      split at h
      · obtain ⟨e, _, h⟩ := bind_inv h
        split at h
        · obtain ⟨b, _, h⟩ := bind_inv h
          split at h
          · generalize (if b = (f.var : Int) then false else s.on b.toNat) = z at h
            cases z
            · rw [if_neg (by simp)] at h; cases h; exact ⟨h0, nofun⟩
            · rw [if_pos rfl] at h; cases h
          · cases h; exact ⟨h0, nofun⟩
        · cases h; exact ⟨h0, nofun⟩
      · obtain ⟨e, _, h⟩ := bind_inv h
        split at h
        · cases h; exact ⟨h0, nofun⟩
        · cases h; exact ⟨h0, nofun⟩
  | done => cases h; exact ⟨h0, h1⟩
  | abort => cases h; exact ⟨h0, h1⟩
  | timeout => exact absurd rfl h1

theorem run_zero {room : Nat} : ∀ (n : Nat) {x y}, run C room n x = .val y → Zero x → Zero y
  | 0, x, y, h, _ => by cases h
  | n + 1, (l, s), y, h, h0 => by
    unfold run at h
    split at h
    · cases h; exact h0
    · obtain ⟨r, h1, h2⟩ := bind_inv h
      exact run_zero n h2 (step_zero h1 h0)

/-- C49 (no timeout unless asked for): with the trial count 0 a call never returns 2. -/
theorem C49_unify_no_timeout (hP : Proper C A B) (n : Nat) : unify n C 0 A B ≠ .val .timeout := by
  rw [unify_eq hP]
  by_cases he : early C A B = true
  · rw [if_pos he]; nofun
  · rw [if_neg he]
    intro h
    obtain ⟨r, h1, h2⟩ := bind_inv h
    have := run_zero n h1 ⟨rfl, nofun⟩
    injection h2 with h2
    obtain ⟨l, s⟩ := r
    cases l <;> simp [result] at h2
    exact this.2 rfl

/-- The search finds the substitution by calls with the count 0. -/
theorem tree_finds (hP : Proper C A B) (he : early C A B = false) {x : Lbl × St} (h : Tree C A B (Ans C A B) (Good C A B θ) x) :
    Zero x → (∀ n v, (run C (unkVars C A B).length n x >>= fun r => Out.val (result r)) = .val (.found v) → Calls C A B (· = 0) v) →
    ∃ s, Calls C A B (· = 0) (svOf s) ∧ Ans C A B s ∧ ∃ inB, Goal C θ inB (vars s.stk) s.seg s.A s.B := by
  induction h with
  | @leaf x h =>
    intro h0 hc
    obtain ⟨l, s⟩ := x
    rcases h with h | ⟨h1, h2, h3⟩
    · exact absurd h h0.2
    · refine ⟨s, ?_, h2, h3⟩
      apply hc 1
      rw [run_end (Or.inl h1), Out.bind_val, result_found.2 ⟨h1, rfl⟩]
  | step h _ ih =>
    intro h0 hc
    refine ih (step_zero h.2.2.2 h0) ?_
    intro n v hn
    apply hc (n + 1) v
    rw [run_goes h]; exact hn
  | @done s h _ ih =>
    intro h0 hc
    have h1 : Calls C A B (· = 0) (svOf s) := by
      apply hc 1
      rw [run_end (Or.inl rfl), Out.bind_val, result_found.2 ⟨rfl, rfl⟩]
    refine ih 0 ⟨rfl, nofun⟩ ?_
    intro n v hn
    refine .next (n := n) (t := 0) h1 rfl ?_
    rw [unifyNext_eq hP, he, if_neg (by simp)]
    exact hn

theorem inst_head {m : Nat} {σ : Nat → List Nat} {c : Nat} {l : List Nat} (h : ¬ m < c) : (inst m σ (c :: l)).head? = some c := by
  rw [inst_cons, if_neg h]; rfl

theorem early_false (hK : ∀ t, C.mt < t → C.isCon t = false) (hP : Proper C A B) (he : inst C.mt θ A = inst C.mt θ B) : early C A B = false := by
  have hcon : ∀ t, C.isCon t = true → ¬ C.mt < t := by intro t h h'; rw [hK t h'] at h; cases h
  unfold early
  rw [Bool.or_eq_false_iff]
  constructor
  · obtain ⟨a, A', rfl⟩ := List.exists_cons_of_ne_nil hP.neA
    obtain ⟨b, B', rfl⟩ := List.exists_cons_of_ne_nil hP.neB
    by_contra hn
    simp only [Bool.not_eq_false, Bool.and_eq_true, bne_iff_ne, List.headD_cons] at hn
    have := congrArg List.head? he
    rw [inst_head (hcon a hn.1.1), inst_head (hcon b hn.1.2)] at this
    simp at this
    exact hn.2 this
  · cases A using List.reverseRecOn with
    | nil => exact absurd rfl hP.neA
    | append_singleton A' a =>
      cases B using List.reverseRecOn with
      | nil => exact absurd rfl hP.neB
      | append_singleton B' b =>
        by_contra hn
        simp only [Bool.not_eq_false, Bool.and_eq_true, bne_iff_ne, List.getLastD_concat] at hn
        have := congrArg List.getLast? he
        rw [inst_append, inst_append, inst_cons, inst_cons, if_neg (hcon a hn.1.1), if_neg (hcon b hn.1.2)] at this
        simp [inst] at this
        exact hn.2 this

/-- C50: matching is complete.  If one of the schemes has no unknown variable, every substitution `θ` that makes the schemes equal, with values of the least
length that hold no separator and are plausible (`Plausible`: the filters), is found by a series of calls without limit of trials: for its answer `makeSubstUnif` applies `θ` to every
scheme with variables of the two schemes. -/
theorem C50_match_complete (hK : ∀ t, C.mt < t → C.isCon t = false) (hP : Proper C A B) (hk : (∀ y ∈ A, y ≤ C.mt) ∨ (∀ y ∈ B, y ≤ C.mt))
    (he : inst C.mt θ A = inst C.mt θ B)
    (hW : ∀ y, Unknown C A B y → C.mt ∉ θ y ∧ C.min ≤ (θ y).length ∧ Plausible C (θ y)) :
    ∃ v, Calls C A B (· = 0) v ∧ v.unified = inst C.mt θ A ∧
      ∀ l, (∀ y ∈ l, C.mt < y → Unknown C A B y) → makeSubst C v l = .val (inst C.mt θ l, false) := by
  have hW' : Wanted C A B θ := ⟨fun y h => (hW y h).1, fun y h => (hW y h).2.1, fun y h => (C50_passes_iff C (hW y h).1).2 (hW y h).2.2⟩
  have hea := early_false hK hP he
  obtain ⟨s, h1, ⟨h2, ⟨p, hc⟩, h4⟩, inB, hG⟩ := tree_finds hP hea (goal_start hP hW' hk he 0) ⟨rfl, nofun⟩ (by
    intro n v hn
    refine .first (n := n) (t := 0) rfl ?_
    rw [unify_eq hP, hea, if_neg (by simp)]
    exact hn)
  have hkn : ∀ y ∈ s.A, y ≤ C.mt := by
    have := hG.known
    cases inB
    · rw [if_neg (by simp)] at this; exact this
    · rw [if_pos rfl, ← h2] at this; exact this
  have hmem : ∀ y, C.mt < y → y ∉ vars s.stk → y ∈ A ∨ y ∈ B → False := by
    intro y hy hn hm
    have : y ∈ s.A := by
      rcases hm with hm | hm
      · rw [hc.hA]
        exact List.mem_flatMap.2 ⟨y, by simp [hm], by rw [show binds (vars s.stk) s.seg s.A = (vars s.stk).zip (s.seg.map (slice s.A)) from rfl, assoc_notin hn]; simp⟩
      · rw [h2, hc.hB]
        exact List.mem_flatMap.2 ⟨y, by simp [hm], by rw [show binds (vars s.stk) s.seg s.A = (vars s.stk).zip (s.seg.map (slice s.A)) from rfl, assoc_notin hn]; simp⟩
    have := hkn y this
    omega
  have hval : ∀ y, Unknown C A B y → sol s y = θ y ∧ sol s y ≠ [y] := by
    intro y hy
    by_cases hm : y ∈ vars s.stk
    · obtain ⟨e, hz⟩ := mem_zip_left hc.len hm
      have := hG.vals _ (zip_map_mem (slice s.A) hz)
      dsimp only at this
      have hb := sol_bound hc hz
      refine ⟨by rw [hb]; exact this, ?_⟩
      intro h'
      have ht : y ∈ slice s.A e := by rw [← hb, h']; simp
      have := hkn y (List.mem_of_mem_drop (List.mem_of_mem_take ht))
      have := hy.1
      omega
    · exact (hmem y hy.1 hm hy.2).elim
  have hinst : ∀ l, (∀ y ∈ l, C.mt < y → Unknown C A B y) → inst C.mt (sol s) l = inst C.mt θ l := by
    intro l
    induction l with
    | nil => intro _; rfl
    | cons t l ih =>
      intro hl
      rw [inst_cons, inst_cons, ih (fun y hy => hl y (by simp [hy]))]
      by_cases h : C.mt < t
      · rw [if_pos h, if_pos h, (hval t (hl t (by simp) h)).1]
      · rw [if_neg h, if_neg h]
  refine ⟨svOf s, h1, ?_, ?_⟩
  · rw [← hinst A (fun y hy h => ⟨h, Or.inl hy⟩)]
    have := hc.hA
    rw [sim_append, sim_inst hc, sim_inst hc] at this
    simp only [svOf]
    conv => lhs; rw [this]
    simp [inst]
  · intro l hl
    have := makeSubst_eq hK hc s.trials l
    rw [show ({ svOf s with trials := s.trials } : SV) = svOf s from rfl] at this
    rw [this, hinst l hl]
    congr 2
    rw [List.any_eq_false]
    intro y hy h
    simp at h
    exact (hval y (hl y hy h.1)).2 h.2

end MM.Unif
