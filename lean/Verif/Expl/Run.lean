import Verif.Expl.Walk
import Verif.Proof.NoChain
/-!
# All steps of an explicit proof
-/
namespace MM.Expl
open MM.Veri MM.Pars MM.Proof MM.Data MM.Tree MM.Pfas

variable {E : Env} {p : Nat}

theorem bind_val_inv {α β : Type} {x : Out α} {f : α → Out β} {b : β} (h : (x >>= f) = .val b) : ∃ a, x = .val a ∧ f a = .val b := by
  cases x with
  | val a => exact ⟨a, rfl, h⟩
  | ub => cases h
  | bug n => cases h
  | fuel => cases h

theorem rearrange_ret {tg : List (Option Name)} {j : Nat} {w v : XWalk} (h : rearrange E tg j w = .val v) : w.ret ≤ v.ret := by
  unfold rearrange at h
  dsimp only at h
  obtain ⟨a, _, h⟩ := bind_val_inv h
  obtain ⟨b, _, h⟩ := bind_val_inv h
  split at h
  · cases h
  split at h
  · cases h; exact Nat.le_refl _
  obtain ⟨r, _, h⟩ := bind_val_inv h
  cases r with
  | none => cases h; exact Nat.le_max_left ..
  | some q =>
    dsimp only at h
    split at h
    · cases h
    obtain ⟨c, _, h⟩ := bind_val_inv h
    obtain ⟨d, _, h⟩ := bind_val_inv h
    split at h
    · cases h
    · cases h; exact Nat.le_refl _

theorem walkTokX_ret {tbl : List (Name × Int)} {b : Bool} {tg : List (Option Name)} {x : Name × Bool} {w v : XWalk} (h : walkTokX E p tbl b tg x w = .val v) :
    ∃ w1, walkTok E p tbl x w.toWalk = .val w1 ∧ w1.ret ≤ v.ret := by
  unfold walkTokX at h
  obtain ⟨w1, h1, h⟩ := bind_val_inv h
  refine ⟨w1, h1, ?_⟩
  cases hu : useOf E tbl x.1 w.sp with
  | none => rw [hu] at h; cases h; exact Nat.le_refl _
  | some j =>
    rw [hu] at h
    dsimp only at h
    obtain ⟨u, h2, h⟩ := bind_val_inv h
    cases h
    cases b with
    | true => rw [if_pos rfl] at h2; exact rearrange_ret h2
    | false => rw [if_neg (by decide)] at h2; cases h2; exact Nat.le_refl _

theorem walkX_ret {tbl : List (Name × Int)} {b : Bool} {tg : List (Option Name)} : ∀ {xs : List (Name × Bool)} {w v : XWalk}, walkX E p tbl b tg xs w = .val v → w.ret ≤ v.ret
  | [], _, _, h => by cases h; exact Nat.le_refl _
  | x :: xs, w, v, h => by
    unfold walkX at h
    obtain ⟨u, h1, h⟩ := bind_val_inv h
    obtain ⟨w1, h2, h3⟩ := walkTokX_ret h1
    exact Nat.le_trans (walkTok_ret h2) (Nat.le_trans h3 (walkX_ret h))

/-- Without targets, the loop is that for normal proofs. -/
theorem walkX_plain {tbl : List (Name × Int)} {tg : List (Option Name)} : ∀ {xs : List (Name × Bool)} {w : XWalk} {v : Walk},
    walk E p tbl xs w.toWalk = .val v → ∃ st, walkX E p tbl false tg xs w = .val { toWalk := v, stack := st, old := w.old }
  | [], w, v, h => by cases h; exact ⟨w.stack, rfl⟩
  | x :: xs, w, v, h => by
    unfold walk at h
    obtain ⟨u, h1, h⟩ := bind_val_inv h
    cases hu : useOf E tbl x.1 w.sp with
    | none =>
      have h2 : walkTokX E p tbl false tg x w = .val { toWalk := u, stack := w.stack ++ [w.proof.length], old := w.old } := by
        unfold walkTokX; rw [h1, Out.bind_val]; rw [hu]
      obtain ⟨st, h3⟩ := walkX_plain (tg := tg) (w := { toWalk := u, stack := w.stack ++ [w.proof.length], old := w.old }) h
      exact ⟨st, by unfold walkX; rw [h2, Out.bind_val]; exact h3⟩
    | some j =>
      have h2 : walkTokX E p tbl false tg x w = .val { toWalk := u, stack := w.stack.take (w.stack.length - (E.stmt j).reqHyp.length) ++ [w.proof.length], old := w.old } := by
        unfold walkTokX; rw [h1, Out.bind_val]; rw [hu]; rfl
      obtain ⟨st, h3⟩ := walkX_plain (tg := tg) (w := { toWalk := u, stack := w.stack.take (w.stack.length - (E.stmt j).reqHyp.length) ++ [w.proof.length], old := w.old }) h
      exact ⟨st, by unfold walkX; rw [h2, Out.bind_val]; exact h3⟩

theorem backOk_mem {c : Int} : ∀ {l : List Int} {off : Nat}, BackOk off l → c ∈ l → c ≤ -1000 → (-1000 - c).toNat + 1 < off + l.length
  | [], _, _, hc, _ => by cases hc
  | a :: l, off, h, hc, hx => by
    rw [List.length_cons]
    rcases List.mem_cons.1 hc with rfl | hc
    · have := h.1 hx; omega
    · have := backOk_mem h.2 hc hx; omega

theorem drop_getD_cons {T : List Name} {n : Nat} (h : n < T.length) : T.drop n = T.getD n [] :: T.drop (n + 1) := by
  rw [List.drop_eq_getElem_cons h, List.getD_eq_getElem?_getD, List.getElem?_eq_getElem h]; rfl

/-- The loops over the steps, with and without targets. -/
theorem walkX_run {locs : List (Name × Int)} (ht : TblOk E (hypTable E p ++ locs)) (hlook : LookOk E.look) (hL : HypLabels E) (hk : HypKinds E.toDb p) {T : List Name} :
    ∀ {xs : List (Name × Bool)} {w : List Int} {X : XWalk} {st : List (Name × List Int)} {rec : List (List Int)} {bs : List Bk}, WI E T w X st rec bs → w.length + xs.length = T.length →
    WInv E p ⟨w, X.sp, X.ret, X.ec⟩ →
    (∀ e ∈ locs, ∃ k : Nat, e.2 = -1000 - (k : Int) ∧ ∀ q, k = w.length + q → ∀ y, xs[q]? = some y → y.2 = true) →
    (∀ X', walkX E p (hypTable E p ++ locs) true (T.map some) xs X = .val X' → X'.ret < 2 →
      ∃ w' st' rec' bs', walk E p (hypTable E p ++ locs) xs ⟨w, X.sp, X.ret, X.ec⟩ = .val ⟨w ++ w', X'.sp, X'.ret, X'.ec⟩ ∧
        xrun E ((T.drop w.length).zip w') (st, rec) = some (st', rec') ∧ WI E T (w ++ w') X' st' rec' bs') ∧
    (∀ u st' rec', walk E p (hypTable E p ++ locs) xs ⟨w, X.sp, X.ret, X.ec⟩ = .val u → u.ret < 2 → xrun E ((T.drop w.length).zip (u.proof.drop w.length)) (st, rec) = some (st', rec') →
      ∃ w' X' bs', u.proof = w ++ w' ∧ walkX E p (hypTable E p ++ locs) true (T.map some) xs X = .val X' ∧ WI E T (w ++ w') X' st' rec' bs' ∧ X'.sp = u.sp ∧ X'.ret = u.ret ∧ X'.ec = u.ec)
  | [], w, X, st, rec, bs, hI, hlen, _, _ => by
    constructor
    · intro X' h _
      cases h
      exact ⟨[], st, rec, bs, by rw [List.append_nil]; rfl, by simp [xrun], by rw [List.append_nil]; exact hI⟩
    · intro u st' rec' h _ hx
      cases h
      have : (T.drop w.length).zip (w.drop w.length) = [] := by simp
      dsimp only at hx
      rw [this] at hx
      cases hx
      exact ⟨[], X, bs, by simp, rfl, by rw [List.append_nil]; exact hI, rfl, rfl, rfl⟩
  | x :: xs, w, X, st, rec, bs, hI, hlen, hW, hloc => by
    rw [List.length_cons] at hlen
    have hlt : w.length < T.length := by omega
    have hxl : X.proof.length = w.length := by rw [hI.proof, codes_length, hI.glen]
    have hstep : ∀ {w1 : Walk}, walkTok E p (hypTable E p ++ locs) x ⟨w, X.sp, X.ret, X.ec⟩ = .val w1 → w1.ret < 2 → WInv E p w1 ∧ ∀ c ∈ w1.proof, c ≤ -1000 → (-1000 - c).toNat < w.length := by
      intro w1 h1 hr1
      have h2 := hW.step hlook hk (locs := locs) (by
        intro e he
        obtain ⟨k, h2, h3⟩ := hloc e he
        exact ⟨k, h2, fun h4 => h3 0 (by simpa using h4) x rfl⟩) h1 hr1
      refine ⟨h2, ?_⟩
      intro c hc hx
      have := backOk_mem h2.back hc hx
      rw [walkTok_len h1] at this
      dsimp only at this
      omega
    have hloc' : ∀ c : Int, ∀ e ∈ locs, ∃ k : Nat, e.2 = -1000 - (k : Int) ∧ ∀ q, k = (w ++ [c]).length + q → ∀ y, xs[q]? = some y → y.2 = true := by
      intro c e he
      obtain ⟨k, h2, h3⟩ := hloc e he
      refine ⟨k, h2, fun q hq y hy => h3 (q + 1) ?_ y (by simpa using hy)⟩
      rw [hq, List.length_append, List.length_singleton]; omega
    constructor
    · intro X' h hr
      unfold walkX at h
      obtain ⟨X1, h1, h⟩ := bind_val_inv h
      have hr1 : X1.ret < 2 := Nat.lt_of_le_of_lt (walkX_ret h) hr
      obtain ⟨w1, h2, h3⟩ := walkTokX_ret h1
      obtain ⟨c, h4, h5, _⟩ := walkTok_char (P := X.proof) (sp := X.sp) (r := X.ret) (e := X.ec) ht hlook h2 (by omega)
      have h6 := h5 w hxl.symm
      obtain ⟨hW1, hb1⟩ := hstep h6 (by dsimp only; omega)
      obtain ⟨c', hc1, hc2⟩ := walkTokX_step ht hlook hL hI hlt h6 (by dsimp only; omega) hb1
      dsimp only at hc1
      have hcc : c = c' := by simpa using hc1
      subst hcc
      rcases hc2 with ⟨st1, rec1, X2, bs1, g1, g2, g3, g4, g5, g6, _⟩ | ⟨_, X2, g2, g3⟩
      · rw [h1] at g2
        cases g2
        dsimp only at g4 g5 g6
        obtain ⟨w', st', rec', bs', k1, k2, k3⟩ := (walkX_run ht hlook hL hk (xs := xs) g3 (by rw [List.length_append, List.length_singleton]; omega) (by rw [g4, g5, g6]; exact hW1) (hloc' c)).1 X' h hr
        refine ⟨c :: w', st', rec', bs', ?_, ?_, ?_⟩
        · unfold walk
          rw [h6, Out.bind_val, ← g4, ← g5, ← g6, k1]; simp
        · rw [drop_getD_cons hlt]
          show (xstep E (st, rec) (T.getD w.length [], c)).bind _ = _
          rw [g1, Option.bind_some, ← k2, List.length_append]; rfl
        · rw [List.append_cons]; exact k3
      · rw [h1] at g2; cases g2; omega
    · intro u st' rec' h hr hx
      unfold walk at h
      obtain ⟨w1, h1, h⟩ := bind_val_inv h
      have hr1 : w1.ret < 2 := Nat.lt_of_le_of_lt (walk_ret h) hr
      obtain ⟨hW1, hb1⟩ := hstep h1 hr1
      obtain ⟨c, hc1, hc2⟩ := walkTokX_step ht hlook hL hI hlt h1 hr1 hb1
      have hpre : ∀ {ys : List (Name × Bool)} {a b : Walk}, walk E p (hypTable E p ++ locs) ys a = .val b → b.ret < 2 → a.proof <+: b.proof := by
        intro ys
        induction ys with
        | nil => intro a b hab _; cases hab; exact List.prefix_refl _
        | cons y ys ih =>
          intro a b hab hrb
          unfold walk at hab
          obtain ⟨a1, ha1, hab⟩ := bind_val_inv hab
          obtain ⟨c1, e1, _⟩ := walkTok_char (P := a.proof) (sp := a.sp) (r := a.ret) (e := a.ec) ht hlook ha1 (Nat.lt_of_le_of_lt (walk_ret hab) hrb)
          exact List.IsPrefix.trans ⟨[c1], e1.symm⟩ (ih hab hrb)
      obtain ⟨rest, hrest⟩ := hpre h hr
      rw [hc1] at hrest
      have hdr : u.proof.drop w.length = c :: rest := by rw [← hrest, List.append_assoc]; simp
      rw [hdr, drop_getD_cons hlt] at hx
      have hx' : (xstep E (st, rec) (T.getD w.length [], c)).bind (xrun E ((T.drop (w.length + 1)).zip rest)) = some (st', rec') := hx
      rcases hc2 with ⟨st1, rec1, X2, bs1, g1, g2, g3, g4, g5, g6, _⟩ | ⟨g1, _⟩
      · rw [g1, Option.bind_some] at hx'
        have hw1 : w1 = ⟨w ++ [c], X2.sp, X2.ret, X2.ec⟩ := by rw [← hc1, g4, g5, g6]
        obtain ⟨w', X', bs', k1, k2, k3, k4⟩ := (walkX_run ht hlook hL hk (xs := xs) g3 (by rw [List.length_append, List.length_singleton]; omega) (by rw [← hw1]; exact hW1) (hloc' c)).2 u st' rec'
          (by rw [← hw1]; exact h) hr (by rw [← hx', ← hrest]; simp)
        refine ⟨c :: w', X', bs', by rw [k1]; simp, ?_, by rw [List.append_cons]; exact k3, k4⟩
        unfold walkX
        rw [g2, Out.bind_val, k2]
      · rw [g1] at hx'; cases hx'

end MM.Expl
