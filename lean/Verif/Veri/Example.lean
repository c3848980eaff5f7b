import Verif.Veri.Props
/-!
# The hypotheses of the verifier theorems are met by a concrete database

```
$c |- wff ( -> ) $.  $v P Q $.
1 wp $f wff P $.   2 wq $f wff Q $.   3 wi $a wff ( P -> Q ) $.
${ 4 min $e |- P $.  5 maj $e |- ( P -> Q ) $.   6 mp $a |- Q $. $}
${ 7 e1 $e |- P $.  8 e2 $e |- ( P -> ( P -> Q ) ) $.
   9 th $p |- Q $= wp wq e1 wp wp wq wi e1 e2 mp mp $. $}
10 axd $a wff P $.            (with $d P Q, both mandatory)
11 t1  $p wff P $= wp wp axd $.    (a $d violation)
12 t2  $p wff P $= wp wq axd $.    (with $d P Q)
16 $e |- P Q Q $.  17 $a |- P $.   18 $a |- ( $.   19 $p |- ( $= ? ? 18 17 $.
```
-/
namespace MM.Veri
open MM.Spec

/-- tokens: 0 `|-`, 1 `wff`, 2 `(`, 3 `->`, 4 `)`, 5 `P`, 6 `Q`, 7 the separator -/
def exDb : Db where
  isVar := fun t => t == 5 || t == 6
  sep := 7
  stmt := fun i => match i with
    | 1 => { kind := .f, math := [1, 5] }
    | 2 => { kind := .f, math := [1, 6] }
    | 3 => { kind := .a, math := [1, 2, 5, 3, 6, 4], reqHyp := [1, 2], reqVars := [5, 6] }
    | 4 => { kind := .e, math := [0, 5] }
    | 5 => { kind := .e, math := [0, 2, 5, 3, 6, 4] }
    | 6 => { kind := .a, math := [0, 6], reqHyp := [1, 2, 4, 5], reqVars := [5, 6] }
    | 7 => { kind := .e, math := [0, 5] }
    | 8 => { kind := .e, math := [0, 2, 5, 3, 2, 5, 3, 6, 4, 4] }
    | 9 => { kind := .p, math := [0, 6], reqHyp := [1, 2, 7, 8], reqVars := [5, 6] }
    | 10 => { kind := .a, math := [1, 5], reqHyp := [1, 2], reqVars := [5, 6], reqDisj := [(5, 6)] }
    | 11 => { kind := .p, math := [1, 5], reqHyp := [1], reqVars := [5], optHyp := [2], optVars := [6] }
    | 12 => { kind := .p, math := [1, 5], reqHyp := [1], reqVars := [5], optHyp := [2], optVars := [6]
              optDisj := [(5, 6)] }
    | 16 => { kind := .e, math := [0, 5, 6, 6] }
    | 17 => { kind := .a, math := [0, 5], reqHyp := [1, 2, 16], reqVars := [5, 6] }
    | 18 => { kind := .a, math := [0, 2] }
    | 19 => { kind := .p, math := [0, 2] }
    | _ => {}

def fdiscB (isVar : Nat → Bool) : List (List Nat) → List (List Nat) → Bool
  | _, [] => true
  | seen, h :: rest =>
    h.all (fun x => !isVar x ||
      (h :: seen).any fun g => match g with | [k, y] => !isVar k && y == x | _ => false) &&
    fdiscB isVar (h :: seen) rest

theorem fdiscB_sound {isVar : Nat → Bool} : ∀ {seen hyps : List (List Nat)}, fdiscB isVar seen hyps = true →
    ∀ hs h rest, hyps = hs ++ h :: rest → ∀ x ∈ h, isVar x = true →
      ∃ k, isVar k = false ∧ (h = [k, x] ∨ [k, x] ∈ seen ∨ [k, x] ∈ hs) := by
  intro seen hyps
  induction hyps generalizing seen with
  | nil => intro _ hs h rest e; simp at e
  | cons g gs ih =>
    intro hB hs h rest e x hx hv
    simp only [fdiscB, Bool.and_eq_true] at hB
    cases hs with
    | nil =>
      simp at e; obtain ⟨rfl, rfl⟩ := e
      have := List.all_eq_true.mp hB.1 x hx
      simp only [hv, Bool.not_true, Bool.false_or, List.any_eq_true] at this
      obtain ⟨y, hy, hm⟩ := this
      split at hm
      · simp at hm
        obtain ⟨hk, rfl⟩ := hm
        refine ⟨_, hk, ?_⟩
        rcases List.mem_cons.mp hy with h1 | h1
        · exact Or.inl h1.symm
        · exact Or.inr (Or.inl h1)
      · simp at hm
    | cons a hs =>
      simp at e; obtain ⟨rfl, e⟩ := e
      obtain ⟨k, hk, h1⟩ := ih hB.2 hs h rest e x hx hv
      refine ⟨k, hk, ?_⟩
      rcases h1 with h1 | h1 | h1
      · exact Or.inl h1
      · rcases List.mem_cons.mp h1 with h1 | h1
        · exact Or.inr (Or.inr (by simp [h1]))
        · exact Or.inr (Or.inl h1)
      · exact Or.inr (Or.inr (by simp [h1]))

/-- A decision procedure for `GoodFrame`, used only to exhibit examples. -/
def goodFrameB (db : Db) (i : Nat) : Bool :=
  (hypsOf db i).all (fun h => !h.contains db.sep && !h.isEmpty) &&
  (match (db.stmt i).math with | k :: _ => !db.isVar k | [] => false) &&
  !(db.stmt i).math.contains db.sep &&
  decide (db.stmt i).reqVars.Nodup &&
  (db.stmt i).reqVars.all (fun t => db.isVar t && (hypsOf db i).any (·.contains t)) &&
  (hypsOf db i).all (fun h => h.all fun t => !db.isVar t || (db.stmt i).reqVars.contains t) &&
  (db.stmt i).math.all (fun t => !db.isVar t || (db.stmt i).reqVars.contains t) &&
  (db.stmt i).reqDisj.all (fun p => (db.stmt i).reqVars.contains p.1 && (db.stmt i).reqVars.contains p.2)

theorem goodFrameB_sound {db : Db} {i : Nat} (h : goodFrameB db i = true) : GoodFrame db i := by
  simp only [goodFrameB, Bool.and_eq_true] at h
  obtain ⟨⟨⟨⟨⟨⟨⟨h1, h2⟩, h3⟩, h4⟩, h5⟩, h6⟩, h7⟩, h8⟩ := h
  simp only [List.all_eq_true, Bool.and_eq_true, Bool.not_eq_true', Bool.or_eq_true, List.any_eq_true] at *
  refine ⟨?_, ?_, ?_, ?_, ?_, ?_, ?_, ?_⟩
  · intro x hx hm
    have := (h1 x hx).1
    simp at this; exact this hm
  · rintro x hx rfl; simpa using (h1 _ hx).2
  · split at h2
    · rename_i k m e; exact ⟨k, m, e, by simpa using h2⟩
    · cases h2
  · simpa using h3
  · simpa using h4
  · intro t
    constructor
    · intro ht; obtain ⟨h9, x, hx, hc⟩ := h5 t ht; exact ⟨h9, x, hx, by simpa using hc⟩
    · rintro ⟨hv, x, hx, hc⟩
      rcases h6 x hx t hc with h9 | h9
      · rw [hv] at h9; cases h9
      · simpa using h9
  · intro t ht hv
    rcases h7 t ht with h9 | h9
    · rw [hv] at h9; cases h9
    · simpa using h9
  · intro p hp; simpa using h8 p hp

theorem goodAssB_sound {db : Db} {i : Nat} (h : goodFrameB db i = true)
    (hf : fdiscB db.isVar [] (hypsOf db i) = true) : GoodAss db i where
  toGoodFrame := goodFrameB_sound h
  fdisc := by
    intro hs g rest e x hx hv
    obtain ⟨k, hk, h1⟩ := fdiscB_sound hf hs g rest e x hx hv
    exact ⟨k, hk, by simpa using h1⟩

theorem ex_sep : exDb.isVar exDb.sep = false := rfl

theorem ex_good (i : Nat) (h : i = 3 ∨ i = 6 ∨ i = 10 ∨ i = 17 ∨ i = 18 ∨ i = 9) : GoodAss exDb i := by
  rcases h with rfl | rfl | rfl | rfl | rfl | rfl <;> exact goodAssB_sound (by decide) (by decide)

/-- State before a step: the stack holds `wff P`, `wff ( P -> Q )`, `|- P`, `|- ( P -> ( P -> Q ) )`. -/
def exSt : VState := ⟨0, 0, [], [3, 2, 1, 0], [[1, 5], [1, 2, 5, 3, 6, 4], [0, 5], [0, 2, 5, 3, 2, 5, 3, 6, 4, 4]]⟩

/-- The same with a wrong major premise. -/
def exStBad : VState := ⟨0, 0, [], [3, 2, 1, 0], [[1, 5], [1, 2, 5, 3, 6, 4], [0, 5], [0, 2, 6, 3, 2, 5, 3, 6, 4, 4]]⟩

/-- C01: `mp` applies with `Q := ( P -> Q )` and gives `|- ( P -> Q )`. -/
example : ∃ st', verifyStep exDb 9 11 exSt (6 : Nat) = .val st' ∧
    SepFree exDb.sep exSt.math ∧ GoodAss exDb 6 ∧ st'.math.getLast? = some [0, 2, 5, 3, 6, 4] := by
  refine ⟨_, by rfl, ?_, ex_good 6 (by simp), by decide⟩
  unfold SepFree; decide

/-- C02: the step with the wrong premise succeeds as a computation and prints the message. -/
example : ∃ st', verifyStep exDb 9 11 exStBad (6 : Nat) = .val st' ∧
    SepFree exDb.sep exStBad.math ∧ [] ∉ argsOf exStBad (hypsOf exDb 6).length ∧
    Msg.noUnify 4 6 ∈ newMsgs exStBad st' := by
  refine ⟨_, by rfl, ?_, by decide, by decide⟩
  unfold SepFree; decide

/-- C02 with unknown hypotheses: minor premise unknown, major premise does not fit. -/
example : ∃ st', verifyStep exDb 9 11 ⟨1, 0, [], [3, 2, 1, 0], [[1, 5], [1, 6], [], [0, 2]]⟩ (6 : Nat) = .val st' ∧
    Msg.noUnify 4 6 ∈ newMsgs ⟨1, 0, [], [3, 2, 1, 0], [[1, 5], [1, 6], [], [0, 2]]⟩ st' :=
  ⟨_, by rfl, by decide⟩

/-- Two hypotheses without `$f`: `|- P Q`, `|- ( Q )` ... -/
def exDb2 : Db := { exDb with stmt := fun i => match i with
    | 1 => { kind := .e, math := [0, 5, 6] }
    | 2 => { kind := .e, math := [0] }
    | 3 => { kind := .a, math := [0, 2, 5, 4], reqHyp := [1, 2], reqVars := [5, 6] }
    | _ => {} }

/-- C03: here the ambiguity is reported (`P := (`, `Q := )` or `P := ` empty, ...). -/
example : ∃ st', verifyStep exDb2 9 11 ⟨0, 0, [], [1, 0], [[0, 2, 4], [0]]⟩ (3 : Nat) = .val st' ∧
    GoodFrame exDb2 3 ∧
    newMsgs ⟨0, 0, [], [1, 0], [[0, 2, 4], [0]]⟩ st' = [.notUnique 2 [0, 2, 4] [0, 2, 2, 4]] :=
  ⟨_, by rfl, goodFrameB_sound (by decide), by decide⟩

/-- C04: the preconditions of the matching loop hold for the big strings of that step. -/
example : Pre { exDb.toToks with
    S := bigStr 7 (hypsOf exDb 6), I := bigStr 7 (argsOf exSt 4) } :=
  ⟨rfl, ⟨bigStr 7 (hypsOf exDb 6) |>.dropLast, by decide⟩, ⟨bigStr 7 (argsOf exSt 4) |>.dropLast, by decide⟩,
    by decide⟩

/-- C05: **bug 2110 is reachable** for an assertion READ accepts, when hypotheses are unknown:
`$e |- P Q Q` with both `$f` steps unknown, instance `|- (`. -/
theorem C05_bug2110_reachable : GoodAss exDb 17 ∧ GoodAss exDb 18 ∧
    verifyProof exDb 19 [-63, -63, 18, 17] 1 0 = .bug 2110 :=
  ⟨ex_good 17 (by simp), ex_good 18 (by simp), by decide⟩

/-- C06: a violation (the same variable on both sides), a violation (pair not declared), and none (declared). -/
example : verifyStep exDb 12 3 ⟨0, 0, [], [1, 0], [[1, 5], [1, 5]]⟩ (10 : Nat) =
      .val ⟨0, 0, [.disj 2 5 6 5 5], [2], [[1, 5], [1, 5], [1, 5]]⟩ ∧
    verifyStep exDb 11 3 ⟨0, 0, [], [1, 0], [[1, 5], [1, 6]]⟩ (10 : Nat) =
      .val ⟨0, 0, [.disj 2 5 6 5 6], [2], [[1, 5], [1, 6], [1, 5]]⟩ ∧
    verifyStep exDb 12 3 ⟨0, 0, [], [1, 0], [[1, 5], [1, 6]]⟩ (10 : Nat) =
      .val ⟨0, 0, [], [2], [[1, 5], [1, 6], [1, 5]]⟩ ∧ DvOrdered exDb 12 := by
  refine ⟨by decide, by decide, by decide, ?_⟩
  unfold DvOrdered; decide

/-- `wp wq e1 wp wp wq wi e1 e2 mp mp`; the second half could equally use local labels. -/
def exProof : List Int := [1, 2, 7, 1, 1, 2, 3, 7, 8, 6, 6]

/-- The packed form, with `e1` referenced again as step 2 and `wp` as step 0. -/
def exPacked : List Int := [1, 2, 7, -1000, -1000, -1001, 3, -1002, 8, 6, 6]

theorem ex_refs (pf : List Int) (h : pf = exProof ∨ pf = exPacked) :
    (∀ ps ∈ pf, GoodRef exDb ps) ∧ BackOk 0 pf ∧ LegalRefs exDb 9 pf := by
  have h3 := ex_good 3 (by simp)
  have h6 := ex_good 6 (by simp)
  have e1 : GoodHyp exDb 1 := ⟨by decide, by decide⟩
  have e2 : GoodHyp exDb 2 := ⟨by decide, by decide⟩
  have e7 : GoodHyp exDb 7 := ⟨by decide, by decide⟩
  have e8 : GoodHyp exDb 8 := ⟨by decide, by decide⟩
  refine ⟨?_, ?_, ?_⟩
  · rcases h with rfl | rfl <;> intro ps hps <;> simp [exProof, exPacked] at hps <;>
      rcases hps with rfl | rfl | rfl | rfl | rfl | rfl | rfl | rfl | rfl <;>
      first | (intro hc; omega) | (intro _; first | exact e1 | exact e2 | exact e7 | exact e8 | exact h3 | exact h6)
  · rcases h with rfl | rfl <;> simp [BackOk, exProof, exPacked]
  · unfold LegalRefs; rcases h with rfl | rfl <;> decide

/-- C07, C08: both forms of the proof of statement 9 meet all hypotheses and are accepted. -/
example : verifyProof exDb 9 exProof 0 0 = .val ⟨0, 0, []⟩ ∧ verifyProof exDb 9 exPacked 0 0 = .val ⟨0, 0, []⟩ ∧
    DvOrdered exDb 9 := by
  refine ⟨by decide, by decide, ?_⟩
  unfold DvOrdered; decide

/-- ... so the statement is derivable. -/
example : Derivable exDb.isVar (IsHyp exDb 9) (Precedes exDb 9) (Declared exDb 9) [0, 6] :=
  C07_verified_is_derivable (proof := exPacked) (sev := 0) (out := ⟨0, 0, []⟩) ex_sep rfl (by decide)
    (by unfold DvOrdered; decide) (ex_refs _ (Or.inr rfl)).1 (ex_refs _ (Or.inr rfl)).2.1
    (ex_refs _ (Or.inr rfl)).2.2 (by decide) rfl rfl

end MM.Veri
