import Verif.Unif.Props
/-!
# The count of trials changes nothing but time-outs
-/
namespace MM.Unif

variable {C : Cfg} {A B : List Nat}

/-- The state without the count of trials. -/
def er (s : St) : St := { s with trials := 0 }

def erL (x : Lbl × St) : Lbl × St := (x.1, er x.2)

/-- Whatever `o` gives, `o'` gives without the count, unless it is a time-out. -/
def ErOf (o o' : Out (Lbl × St)) : Prop := ∀ y, o = .val y → y.1 = .timeout ∨ o' = .val (erL y)

theorem ErOf.val (l : Lbl) (s : St) : ErOf (.val (l, s)) (.val (l, er s)) := by rintro y h; cases h; exact Or.inr rfl

theorem ErOf.bind {α : Type} {o : Out α} {f g : α → Out (Lbl × St)} (h : ∀ a, o = .val a → ErOf (f a) (g a)) : ErOf (o >>= f) (o >>= g) := by
  intro y hy
  obtain ⟨a, h1, h2⟩ := bind_inv hy
  rw [h1, Out.bind_val]
  exact h a h1 y h2

theorem ErOf.ite {p : Prop} [Decidable p] {o1 o2 o1' o2' : Out (Lbl × St)} (h1 : p → ErOf o1 o1') (h2 : ¬ p → ErOf o2 o2') :
    ErOf (if p then o1 else o2) (if p then o1' else o2') := by
  by_cases h : p
  · rw [if_pos h, if_pos h]; exact h1 h
  · rw [if_neg h, if_neg h]; exact h2 h

theorem ErOf.bug (n : Nat) (o : Out (Lbl × St)) : ErOf (.bug n) o := by intro y h; cases h
theorem ErOf.ub (o : Out (Lbl × St)) : ErOf .ub o := by intro y h; cases h

theorem substitute_er (inA : Bool) (x : Nat) (sub : List Nat) (s : St) : ErOf (substitute C inA x sub s) (substitute C inA x sub (er s)) := by
  unfold substitute
  refine .ite (fun _ => .val _ _) fun _ => .ite (fun _ => .val _ _) fun _ => .ite (fun _ => .val _ _) fun _ => ?_
  refine .bind fun r _ => .bind fun r' _ => ?_
  exact .val _ _

theorem choose_er (inA : Bool) (x : Nat) (s : St) : ErOf (choose C inA x s) (choose C inA x (er s)) := by
  unfold choose
  rw [show (er s).stk = s.stk from rfl, show (er s).seg = s.seg from rfl]
  cases h1 : s.stk with
  | nil => exact .ub _
  | cons f fs =>
    cases h2 : s.seg with
    | nil => exact .ub _
    | cons e es =>
      obtain ⟨e1, e2⟩ := e
      dsimp only
      refine .ite (fun _ => .bug _ _) fun _ => ?_
      exact .bind fun r _ => substitute_er inA x r s

theorem assign_er (room : Nat) (inA : Bool) (x : Nat) (s : St) : ErOf (assign C room inA x s) (assign C room inA x (er s)) := by
  unfold assign
  refine .ite (fun _ => .ite (fun _ => choose_er inA x (push C x s)) fun _ => .ub _) fun _ => choose_er inA x s

theorem mismatch_er (room : Nat) (a b : Int) (s : St) : ErOf (mismatch C room a b s) (mismatch C room a b (er s)) := by
  unfold mismatch
  refine .ite (fun _ => .ite (fun _ => assign_er _ _ _ _) fun _ => .ite (fun _ => .bug _ _) fun _ => assign_er _ _ _ _) fun _ => ?_
  exact .ite (fun _ => assign_er _ _ _ _) fun _ => .ite (fun _ => assign_er _ _ _ _) fun _ => .val _ _

theorem step_er (room : Nat) (x : Lbl × St) : ErOf (step C room x) (step C room (erL x)) := by
  obtain ⟨l, s⟩ := x
  unfold erL
  cases l with
  | scan =>
    rw [step_scan, step_scan]
    unfold doScan
    refine .bind fun p _ => .bind fun a _ => .bind fun b _ => ?_
    refine .ite (fun _ => .ite (fun _ => .ite (fun _ => .val _ _) fun _ => mismatch_er room a b { s with p := p }) fun _ => ?_) fun _ => mismatch_er room a b { s with p := p }
    exact .bind fun c _ => .ite (fun _ => .val _ _) fun _ => mismatch_er room a b { s with p := p }
  | back =>
    rw [step_back, step_back]
    unfold doBack
    rw [show (er s).stk = s.stk from rfl]
    cases hs : s.stk with
    | nil => exact .val _ _
    | cons f fs =>
      dsimp only
      intro y hy
      split at hy
      · cases hy; exact Or.inl rfl
      · cases hy
        right
        rw [if_neg (by simp [er])]
        rfl
  | switch =>
    rw [step_switch, step_switch]
    unfold doSwitch
    rw [show (er s).stk = s.stk from rfl]
    cases hs : s.stk with
    | nil => exact .ub _
    | cons f fs =>
      dsimp only
      refine .bind fun a _ => .ite (fun _ => ?_) fun _ => ?_
      · refine .bind fun e _ => .ite (fun _ => ?_) fun _ => .val _ _
        refine .bind fun b _ => .ite (fun _ => ?_) fun _ => .val _ { pop s with trials := s.trials }
        exact .ite (fun _ => .bug _ _) fun _ => .val _ { s with
            stk := { f with var := b.toNat, seg := setLen C.min f.seg } :: fs, seg := setLen C.min f.seg
            on := fun y => if y = b.toNat then true else if y = f.var then false else s.on y }
      · exact .bind fun e _ => .ite (fun _ => .val _ (pop s)) fun _ => .val _ { s with seg := f.seg, stk := f :: fs }
  | done => exact .val _ _
  | abort => exact .val _ _
  | timeout => exact .val _ _

theorem run_er (room : Nat) : ∀ (n : Nat) (x : Lbl × St), ErOf (run C room n x) (run C room n (erL x))
  | 0, x => by intro y h; cases h
  | n + 1, (l, s) => by
    unfold erL run
    refine .ite (fun _ => .val _ _) fun hl => ?_
    intro y hy
    obtain ⟨r, h1, h2⟩ := bind_inv hy
    rcases step_er room (l, s) r h1 with h3 | h3
    · left
      cases n with
      | zero => cases h2
      | succ n =>
        unfold run at h2
        rw [if_pos (Or.inr (Or.inr h3))] at h2
        cases h2
        exact h3
    · rw [show step C room (l, er s) = step C room (erL (l, s)) from rfl, h3, Out.bind_val]
      exact run_er room n r y h2

/-- The state vector without the count of trials. -/
def SV.z (v : SV) : SV := { v with trials := 0 }

def Res.z : Res → Res
  | .found v => .found v.z
  | r => r

theorem result_er (x : Lbl × St) : result (erL x) = (result x).z := by
  obtain ⟨l, s⟩ := x
  cases l <;> rfl

theorem call_er {room n : Nat} {x : Lbl × St} {r : Res} (h : (run C room n x >>= fun r => Out.val (result r)) = .val r) :
    r = .timeout ∨ (run C room n (erL x) >>= fun r => Out.val (result r)) = .val r.z := by
  obtain ⟨y, h1, h2⟩ := bind_inv h
  injection h2 with h2
  rcases run_er room n x y h1 with h3 | h3
  · left; rw [← h2]; unfold result; rw [h3]
  · right
    rw [h3, Out.bind_val, result_er, h2]

theorem unify_er {n t : Nat} {r : Res} (h : unify n C t A B = .val r) : r = .timeout ∨ unify n C 0 A B = .val r.z := by
  unfold unify at h ⊢
  by_cases h1 : A = [] ∨ B = []
  · rw [if_pos h1] at h; cases h
  · rw [if_neg h1] at h ⊢
    by_cases h2 : early C A B = true
    · rw [if_pos h2] at h ⊢; cases h; exact Or.inr rfl
    · rw [if_neg h2] at h ⊢
      exact call_er h

theorem unifyNext_er {n : Nat} {v : SV} {r : Res} (h : unifyNext n C A B v = .val r) : r = .timeout ∨ unifyNext n C A B v.z = .val r.z := by
  unfold unifyNext at h ⊢
  by_cases h1 : A = [] ∨ B = []
  · rw [if_pos h1] at h; cases h
  · rw [if_neg h1] at h ⊢
    by_cases h2 : early C A B = true
    · rw [if_pos h2] at h ⊢; cases h; exact Or.inr rfl
    · rw [if_neg h2] at h ⊢
      exact call_er h

end MM.Unif
