import Verif.Expl.Main
/-!
# Explicit proofs whose subproofs are already in the order of the database: nothing is moved
-/
namespace MM.Expl
open MM.Veri MM.Pars MM.Proof MM.Data MM.Tree MM.Pfas MM.Spec

variable {E : Env} {p : Nat}

/-- Every assertion finds the targets of its subproofs in the order of its hypotheses; the stack has targets (top first). -/
def orun (E : Env) : List (Name × Int) → List Name → Option (List Name)
  | [], st => some st
  | s :: ss, st => if (st.take (arity E s.2)).reverse = (hyps E s.2).map E.lab then orun E ss (s.1 :: st.drop (arity E s.2)) else none

theorem pick_some {nm : Name} : ∀ {es : List (Name × List Int)}, nm ∈ es.map Prod.fst → ∃ a, pick es nm = some a
  | e :: es, h => by
    by_cases he : e.1 = nm
    · exact ⟨e.2, by unfold pick; rw [List.find?_cons_of_pos (by simp [he])]; rfl⟩
    · rw [List.map_cons, List.mem_cons] at h
      rcases h with h | h
      · exact absurd h.symm he
      · obtain ⟨a, ha⟩ := pick_some h
        refine ⟨a, ?_⟩
        unfold pick at ha ⊢
        rw [List.find?_cons_of_neg (by simp [he])]; exact ha

theorem chosen_some {es : List (Name × List Int)} : ∀ {hs : List Nat}, (∀ h ∈ hs, E.lab h ∈ es.map Prod.fst) → ∃ b, chosen E es hs = some b
  | [], _ => ⟨[], rfl⟩
  | h :: hs, hh => by
    obtain ⟨a, ha⟩ := pick_some (hh h (by simp))
    obtain ⟨b, hb⟩ := chosen_some (es := es) (hs := hs) (fun k hk => hh k (List.mem_cons_of_mem _ hk))
    exact ⟨a ++ b, by unfold chosen; rw [ha, Option.bind_some, hb]; rfl⟩

theorem hyps_length (x : Int) : (hyps E x).length = arity E x := by
  unfold hyps
  split
  · rename_i h; rw [h]; rfl
  · rename_i h
    unfold arity at h ⊢
    split
    · rfl
    · rename_i h2; rw [if_neg h2] at h; exact absurd rfl h

/-- A step with its targets in order. -/
theorem xstep_order {st : List (Name × List Int)} {rec : List (List Int)} {t : Name} {c : Int} (hc : c ≤ -1000 → (-1000 - c).toNat < rec.length)
    (ho : ((st.map Prod.fst).take (arity E c)).reverse = (hyps E c).map E.lab) :
    ∃ v rec', xstep E (st, rec) (t, c) = some ((t, v) :: st.drop (arity E c), rec') := by
  unfold xstep
  dsimp only
  by_cases hx : c ≤ -1000
  · rw [if_pos hx, List.getElem?_eq_getElem (hc hx), Option.bind_some]
    have : arity E c = 0 := by unfold arity; rw [if_neg (by omega)]
    rw [this]
    exact ⟨_, _, rfl⟩
  · have hlen := congrArg List.length ho
    rw [List.length_reverse, List.length_take, List.length_map, List.length_map, hyps_length] at hlen
    rw [if_neg hx, if_pos (by omega)]
    obtain ⟨b, hb⟩ := chosen_some (E := E) (es := (st.take (arity E c)).reverse) (hs := hyps E c) (by
      intro h hh
      rw [List.map_reverse, List.map_take, ho]
      exact List.mem_map_of_mem hh)
    rw [hb, Option.bind_some]
    exact ⟨_, _, rfl⟩

theorem walkX_order {locs : List (Name × Int)} (ht : TblOk E (hypTable E p ++ locs)) (hlook : LookOk E.look) (hL : HypLabels E) (hk : HypKinds E.toDb p) {T : List Name} :
    ∀ {xs : List (Name × Bool)} {w : List Int} {X : XWalk} {st : List (Name × List Int)} {rec : List (List Int)} {bs : List Bk}, WI E T w X st rec bs → w.length + xs.length = T.length →
    WInv E p ⟨w, X.sp, X.ret, X.ec⟩ →
    (∀ e ∈ locs, ∃ k : Nat, e.2 = -1000 - (k : Int) ∧ ∀ q, k = w.length + q → ∀ y, xs[q]? = some y → y.2 = true) → cat bs.reverse = (List.range w.length).zip w →
    ∀ u st', walk E p (hypTable E p ++ locs) xs ⟨w, X.sp, X.ret, X.ec⟩ = .val u → u.ret < 2 → orun E ((T.drop w.length).zip (u.proof.drop w.length)) (st.map Prod.fst) = some st' →
      ∃ X' st2 rec' bs', walkX E p (hypTable E p ++ locs) true (T.map some) xs X = .val X' ∧ WI E T u.proof X' st2 rec' bs' ∧ X'.sp = u.sp ∧ X'.ret = u.ret ∧ X'.ec = u.ec ∧
        cat bs'.reverse = (List.range u.proof.length).zip u.proof
  | [], w, X, st, rec, bs, hI, hlen, _, _, hz => by
    intro u st' h _ _
    cases h
    exact ⟨X, st, rec, bs, rfl, hI, rfl, rfl, rfl, hz⟩
  | x :: xs, w, X, st, rec, bs, hI, hlen, hW, hloc, hz => by
    rw [List.length_cons] at hlen
    have hlt : w.length < T.length := by omega
    intro u st' h hr hx
    unfold walk at h
    obtain ⟨w1, h1, h⟩ := bind_val_inv h
    have hr1 : w1.ret < 2 := Nat.lt_of_le_of_lt (walk_ret h) hr
    have hW1 := hW.step hlook hk (locs := locs) (by
        intro e he
        obtain ⟨k, h2, h3⟩ := hloc e he
        exact ⟨k, h2, fun h4 => h3 0 (by simpa using h4) x rfl⟩) h1 hr1
    have hb1 : ∀ c ∈ w1.proof, c ≤ -1000 → (-1000 - c).toNat < w.length := by
      intro c hc hx
      have := backOk_mem hW1.back hc hx
      rw [walkTok_len h1] at this
      dsimp only at this
      omega
    have hloc' : ∀ c : Int, ∀ e ∈ locs, ∃ k : Nat, e.2 = -1000 - (k : Int) ∧ ∀ q, k = (w ++ [c]).length + q → ∀ y, xs[q]? = some y → y.2 = true := by
      intro c e he
      obtain ⟨k, h2, h3⟩ := hloc e he
      refine ⟨k, h2, fun q hq y hy => h3 (q + 1) ?_ y (by simpa using hy)⟩
      rw [hq, List.length_append, List.length_singleton]; omega
    obtain ⟨c, hc1, hc2⟩ := walkTokX_step ht hlook hL hI hlt h1 hr1 hb1
    have hpre : ∀ {ys : List (Name × Bool)} {a b : Walk}, walk E p (hypTable E p ++ locs) ys a = .val b → b.ret < 2 → a.proof <+: b.proof := by
      intro ys
      induction ys with
      | nil => intro a b hab _; cases hab; exact List.prefix_refl _
      | cons y ys ih =>
        intro a b hab hrb
        unfold walk at hab
        obtain ⟨a1, ha1, hab⟩ := bind_val_inv hab
        obtain ⟨c1, e1, _⟩ := walkTok_char (P := a.proof) (sp := a.sp) (r := a.ret) (e := a.ec) ht hlook ha1 (Nat.lt_of_le_of_lt (walk_ret hab) hrb)
        exact List.IsPrefix.trans ⟨[c1], e1.symm⟩ (ih hab hrb)
    obtain ⟨rest, hrest⟩ := hpre h hr
    rw [hc1] at hrest
    have hdr : u.proof.drop w.length = c :: rest := by rw [← hrest, List.append_assoc]; simp
    rw [hdr, drop_getD_cons hlt] at hx
    have hx' : (if ((st.map Prod.fst).take (arity E c)).reverse = (hyps E c).map E.lab then
      orun E ((T.drop (w.length + 1)).zip rest) (T.getD w.length [] :: (st.map Prod.fst).drop (arity E c)) else none) = some st' := hx
    by_cases ho : ((st.map Prod.fst).take (arity E c)).reverse = (hyps E c).map E.lab
    · rw [if_pos ho] at hx'
      obtain ⟨v, rec2, hxs⟩ := xstep_order (E := E) (st := st) (rec := rec) (t := T.getD w.length []) (c := c) (fun hc => by rw [hI.rlen]; exact hb1 c (by rw [hc1]; simp) hc) ho
      rcases hc2 with ⟨st1, rec1, X2, bs1, g1, g2, g3, g4, g5, g6, g7⟩ | ⟨g1, _⟩
      · rw [hxs] at g1
        have hst : st1 = (T.getD w.length [], v) :: st.drop (arity E c) := by cases g1; rfl
        have hw1 : w1 = ⟨w ++ [c], X2.sp, X2.ret, X2.ec⟩ := by rw [← hc1, g4, g5, g6]
        obtain ⟨X', st2, rec', bs', k1, k2⟩ := walkX_order ht hlook hL hk (xs := xs) g3 (by rw [List.length_append, List.length_singleton]; omega) (by rw [← hw1]; exact hW1) (hloc' c)
          (g7 (by rw [List.map_reverse, List.map_take]; exact ho) hz) u st' (by rw [← hw1]; exact h) hr (by
            rw [← hx', hst, List.map_cons, List.map_drop, ← hrest]
            simp)
        refine ⟨X', st2, rec', bs', ?_, k2⟩
        unfold walkX
        rw [g2, Out.bind_val, k1]
      · rw [hxs] at g1; cases g1
    · rw [if_neg ho] at hx'; cases hx'

theorem renumAll_same {n : Nat} : ∀ {l : List Int}, (∀ x ∈ l, x ≤ -1000 → (-1000 - x).toNat < n) → renumAll ((List.range n).map Int.ofNat) n l = .val l
  | [], _ => rfl
  | x :: l, h => by
    have h1 : renum1 ((List.range n).map Int.ofNat) n x = .val x := by
      unfold renum1
      by_cases hx : x ≤ -1000
      · have := h x (by simp) hx
        rw [if_pos hx]
        dsimp only
        rw [if_neg (by omega)]
        have hr : rdN ((List.range n).map Int.ofNat) (-1000 - x) = .val (-1000 - x) := by
          unfold rdN
          rw [if_neg (by omega), if_pos (by simpa using this), List.getD_eq_getElem?_getD, List.getElem?_map, List.getElem?_range this]
          simp only [Option.map_some, Option.getD_some]
          congr 1
          show ((-1000 - x).toNat : Int) = _
          omega
        rw [hr, Out.bind_val, if_pos rfl]
      · rw [if_neg hx]
    unfold renumAll
    rw [h1, Out.bind_val, renumAll_same (fun y hy => h y (List.mem_cons_of_mem _ hy)), Out.bind_val]

theorem findFwd_back : ∀ {l : List Int} {off : Nat}, BackOk off l → findFwd l off = none
  | [], _, _ => rfl
  | x :: l, off, h => by
    unfold findFwd
    rw [if_neg (by rintro ⟨h1, h2⟩; have := h.1 h1; omega), findFwd_back h.2]

/-- If the targets are those of the database in its order, the explicit proof is parsed to what the steps are parsed to. -/
theorem explicit_same (hlook : LookOk E.look) (hL : HypLabels E) (hH : HypsOk E p) {xs : List XItem} (h : XForm xs) (hne : xs ≠ []) {r : Parsed}
    (hr : parseProof E p (text (xs.map XItem.item)) = .val r) (hret : r.ret < 2) {st : List Name} (ho : orun E ((xs.map XItem.tgt).zip r.proof) [] = some st) :
    ∀ fuel, 1 ≤ fuel → parseProofX E p fuel (xtext xs) = .val r := by
  obtain ⟨s, hn, hs, h1, h2⟩ := parse_both (E := E) (p := p) h hne
  generalize hd : (if Locals E p s = true then dupCount s.tbl else 0) = d at h1 h2
  generalize hr0 : (if d > 0 then max s.ret 2 else s.ret) = r0 at h1 h2
  have hTl : (xs.map XItem.tgt).length = xs.length := List.length_map _
  rw [h1] at hr
  by_cases hu : (Locals E p s && dupUb s.tbl) = true
  · rw [if_pos hu] at hr; cases hr
  rw [if_neg hu] at hr
  obtain ⟨u, hw, hr⟩ := bind_val_inv hr
  have hsp : u.sp = 1 ∧ r = ⟨u.proof, u.ret, u.ec⟩ := by
    by_cases hsp : u.sp = 1
    · rw [if_neg (by rw [hsp]; simp)] at hr
      exact ⟨hsp, by cases hr; rfl⟩
    · rw [if_pos hsp] at hr
      split at hr
      · cases hr
      · cases hr; dsimp only at hret; omega
  obtain ⟨hsp, rfl⟩ := hsp
  dsimp only at hret ho
  have hr2 := Nat.lt_of_le_of_lt (walk_ret hw) hret
  dsimp only at hr2
  have hs2 : s.ret < 2 := by rw [← hr0] at hr2; split at hr2 <;> omega
  obtain ⟨prev, hI⟩ := LInv.init.run hs hs2 (Or.inr (Or.inr (by
    have := fix_plain h hne
    intro t ht
    exact fixTokens_head (toks := text (xs.map XItem.item)) (by rw [this]; exact Nat.zero_lt_two) t (by rw [this]; exact ht))))
  have hsl : s.steps.length = xs.length := by have := hI.num; omega
  obtain ⟨locs, e1, e2⟩ := hI.tbl
  have ht : TblOk E (hypTable E p ++ locs) := tblOk_of hlook hH (fun e he => by obtain ⟨k, e3, _⟩ := e2 e he; exact ⟨k, e3⟩)
  have hloc : ∀ e ∈ locs, ∃ k : Nat, e.2 = -1000 - (k : Int) ∧ ∀ q, k = ([] : List Int).length + q → ∀ y, s.steps[q]? = some y → y.2 = true := by
    intro e he
    obtain ⟨k, hk1, hk2⟩ := e2 e he
    refine ⟨k, hk1, fun q hq y hy => ?_⟩
    simp only [List.length_nil, Nat.zero_add] at hq
    subst hq
    rcases hk2 with ⟨t, hk2⟩ | ⟨hk2, _⟩
    · rw [hk2] at hy; cases hy; rfl
    · rw [List.getElem?_eq_none (by omega)] at hy; cases hy
  have hW0 : WInv E p ⟨[], 0, r0, s.ec + d⟩ := ⟨by intro ps hps; simp at hps, trivial, .nil, by simp⟩
  rw [e1] at hw
  obtain ⟨X', st2, rec', bs', k1, k2, k3, k4, k5, k6⟩ := walkX_order ht hlook hL (hypKinds_of hH) (xs := s.steps) (T := xs.map XItem.tgt) WI.start (by rw [List.length_nil, Nat.zero_add, hTl, hsl]) hW0 hloc rfl u st hw hret
    (by rw [List.length_nil, List.drop_zero, List.drop_zero]; exact ho)
  have hback := (hW0.run hlook (hypKinds_of hH) (locs := locs) hloc hw hret).back
  have hul : u.proof.length = xs.length := by have := walk_len hw; simpa [hsl] using this
  intro fuel hf
  rw [h2, if_neg hu, ← hTl, e1, k1, Out.bind_val, if_neg (by rw [k3, hsp]; simp), k4, k5]
  unfold finish
  have hold : X'.old = (List.range xs.length).map Int.ofNat := by
    rw [k2.old, k6, hTl, hul, Nat.sub_self]
    unfold ids
    rw [List.map_fst_zip (by simp [hul])]
    simp
  have hproof : X'.proof = u.proof := by
    rw [k2.proof, k6]; unfold codes; rw [List.map_snd_zip (by simp)]
  obtain ⟨f, rfl⟩ : ∃ f, fuel = f + 1 := ⟨fuel - 1, by omega⟩
  rw [if_pos rfl, hold, hproof, hTl, renumAll_same (fun x hx hx2 => by have := backOk_mem hback hx hx2; omega), Out.bind_val]
  unfold moveLoop
  rw [findFwd_back hback]
  rfl

end MM.Expl
