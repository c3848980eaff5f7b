import Verif.Repl.Acc
/-!
# `replaceStatement` ends
-/
namespace MM.Repl
open MM.Veri MM.Proof MM.Data MM.Tree MM.Pfas MM.Impr MM.Spec
open MM.Pfas.AF MM.Pfas.Cx
open MM.Unif (Cfg SV SVH ResH makeSubst unifyH unifyHNext HCalls Calls bind_inv NextT hcalls_acc Proper)

variable {X : Impr.Ctx} {R : Range} {n : Nat} {i : Nat}

/-! ### What is tried -/

/-- Everything to try is there. -/
def Try (X : Impr.Ctx) (R : Range) : Prop := ∀ k < total X R, ∃ t q, testStr X R k = .val t ∧ t ≠ [] ∧ testProof X R k = .val q ∧ q ≠ []

theorem target_at {p : Pip} {c : Cx} {x : Node} {ch : AF} (hr : Rep p (c.plug x ch)) : getF p.target ((c.pre.length + ch.flat.length : Nat) : Int) = .val x.tgt := by
  unfold getF
  have hl : c.pre.length + ch.flat.length < p.target.length := by rw [hr.target, List.length_map, flat_plug]; simp
  rw [if_pos ⟨by omega, by rw [Int.toNat_natCast]; exact hl⟩, hr.target, flat_plug]
  congr 1
  rw [Int.toNat_natCast]
  simp [List.getD_eq_getElem?_getD]

theorem try_of (hR : Ready X) (hP : PipOk X) (hF : ∀ m ∈ X.pip.target, m ≠ []) (hhi : R.hi ≤ X.pip.proof.length) : Try X R := by
  intro k hk
  unfold testStr testProof
  by_cases c : k < (X.E.stmt X.prove).reqHyp.length
  · rw [if_pos c, if_pos c]
    refine ⟨_, _, rfl, ?_, rfl, by simp⟩
    obtain ⟨_, _, h3⟩ := hR.hyps ((X.E.stmt X.prove).reqHyp.getD k 0) (by rw [List.getD_eq_getElem _ _ c]; exact List.mem_append_left _ (List.getElem_mem c))
    obtain ⟨a, l, e, _⟩ := hR.env.hypHead _ (Or.symm h3)
    rw [e]; simp
  · rw [if_neg c, if_neg c]
    unfold total at hk
    obtain ⟨f, hr, hA, _⟩ := hP
    have hj : R.lo + (k - (X.E.stmt X.prove).reqHyp.length) < f.flat.length := by
      rw [hr.proof, List.length_map] at hhi
      omega
    obtain ⟨c, x, ch, rfl, e⟩ := locate f hj
    obtain ⟨len', l1, l2⟩ := seg_at hr (hA.mono fun _ _ => NodeOk.shape)
    rw [e]
    refine ⟨x.tgt, _, target_at hr, ?_, by rw [l1, Out.bind_val]; exact l2, by simp [AF.flat]⟩
    exact hF _ (by rw [hr.target, flat_plug]; simp)

theorem seen_val (hT : Try X R) (t : List Nat) : ∀ k ≤ total X R, ∃ b, seen X R t k = .val b
  | 0, _ => ⟨_, rfl⟩
  | k + 1, h => by
    obtain ⟨a, _, h1, _⟩ := hT k (by omega)
    obtain ⟨b, hb⟩ := seen_val hT t k (by omega)
    rw [seen, h1, Out.bind_val]
    by_cases c : a = t
    · rw [if_pos c]; exact ⟨_, rfl⟩
    · rw [if_neg c]; exact ⟨b, hb⟩

/-! ### One hypothesis -/

/-- `s'` is a match that is found after `s`. -/
def Later (X : Impr.Ctx) (R : Range) (m : List Nat × Bool) (s' s : Slot) : Prop :=
  Match X R m s' ∧ (s.step < s'.step ∨ s'.step = s.step ∧ ∃ t v w, testStr X R s.step = .val t ∧ s.sv = some v ∧ s'.sv = some w ∧ NextT X.on X.C m.1 t w v)

theorem later_match (hR : Rdy X) {m : List Nat × Bool} (hns : X.E.sep ∉ m.1) : ∀ (d : Nat) (s : Slot), Match X R m s → total X R - s.step ≤ d → Acc (Later X R m) s
  | 0, s, hM, hd => by have := hM.lt; omega
  | d + 1, s, hM, hd => by
    obtain ⟨t, v, l, e1, e2, e3, e4, e5, e6, e7, e8⟩ := hM.ex
    have hprop := hR.fits.proper e5 e4 hns (test_ns hR e1)
    have key : ∀ v, Acc (NextT X.on X.C m.1 t) v → ∀ s, Match X R m s → total X R - s.step ≤ d + 1 → testStr X R s.step = .val t → s.sv = some v → Acc (Later X R m) s := by
      intro v hv
      induction hv with
      | intro v _ ih =>
        intro s hM hd h1 h2
        refine ⟨_, fun s' hs' => ?_⟩
        obtain ⟨hM', h | ⟨h, t', v', w, h3, h4, h5, h6⟩⟩ := hs'
        · refine later_match hR hns d s' hM' ?_
          have := hM'.lt
          omega
        · rw [h1] at h3
          rw [h2] at h4
          obtain rfl := Out.val.inj h3
          obtain rfl := Option.some.inj h4
          exact ih w h6 s' hM' (by omega) (by rw [h]; exact h1) h5
    exact key v (hcalls_acc hprop e8) s hM hd e1 e3

theorem later_acc (hR : Rdy X) {m : List Nat × Bool} (hns : X.E.sep ∉ m.1) (s : Slot) : Acc (Later X R m) s :=
  ⟨_, fun s' hs' => later_match hR hns _ s' hs'.1 (Nat.le_refl _)⟩

theorem unifSlot_ends (hR : Rdy X) {m : List Nat × Bool} {t : List Nat} {s : Slot} (hm : m.1 ≠ [] ∧ X.E.sep ∉ m.1) (ht : t ≠ [] ∧ X.E.sep ∉ t)
    (hs : s.flag = 1 ∨ ∃ v l, s.sv = some v ∧ HCalls X.on X.C m.1 t l v) : ∃ N r, ∀ n, N ≤ n → unifSlot X n m.1 t s = .val r := by
  have hprop := hR.fits.proper hm.1 ht.1 hm.2 ht.2
  unfold unifSlot
  by_cases c : s.flag = 1
  · obtain ⟨N, r, h⟩ := MM.Unif.C56_first_ends hprop X.on 1
    exact ⟨N, r, fun n hn => by rw [if_pos c]; exact h n hn⟩
  · obtain ⟨v, l, e, hc⟩ := hs.resolve_left c
    obtain ⟨N, r, h⟩ := MM.Unif.C56_next_ends hprop hc 1
    exact ⟨N, r, fun n hn => by rw [if_neg c, e]; exact h n n hn hn⟩

theorem scan_ends (hR : Rdy X) (hT : Try X R) {m : List Nat × Bool} (hm : m.1 ≠ [] ∧ X.E.sep ∉ m.1) : ∀ (c k : Nat) (s : Slot), c + k = total X R →
    (s.flag = 1 ∨ (Match X R m s ∧ s.step = k)) →
    ∃ N o, (∀ n, N ≤ n → scan X n R m.1 m.2 c k s = .val o) ∧ (o.1 = true → k ≤ o.2.step ∧ (s.flag = 2 → Later X R m o.2 s))
  | 0, k, s, _, _ => ⟨0, _, fun _ _ => rfl, fun h => by cases h⟩
  | c + 1, k, s, ht, hs => by
    have whole : ∀ {N : Nat} {o : Bool × Slot}, (∀ n, N ≤ n → scan X n R m.1 m.2 (c + 1) k s = .val o) → (o.1 = true → k ≤ o.2.step ∧ (s.flag = 2 → o.2.step = k →
        ∃ t v w, testStr X R s.step = .val t ∧ s.sv = some v ∧ o.2.sv = some w ∧ NextT X.on X.C m.1 t w v)) →
        ∃ N o, (∀ n, N ≤ n → scan X n R m.1 m.2 (c + 1) k s = .val o) ∧ (o.1 = true → k ≤ o.2.step ∧ (s.flag = 2 → Later X R m o.2 s)) := by
      intro N o h1 h2
      refine ⟨N, o, h1, fun ho => ⟨(h2 ho).1, fun hf => ?_⟩⟩
      have hi := scan_inv (h1 N (Nat.le_refl _)) ht hs
      rw [if_pos ho] at hi
      refine ⟨hi, ?_⟩
      obtain ⟨h3, h4⟩ := h2 ho
      rcases hs with hs | ⟨_, hs⟩
      · omega
      · by_cases e : o.2.step = k
        · exact Or.inr ⟨by omega, h4 hf e⟩
        · exact Or.inl (by omega)
    have next : ∀ {N : Nat} (s' : Slot), s'.flag = 1 → (∀ n, N ≤ n → scan X n R m.1 m.2 (c + 1) k s = scan X n R m.1 m.2 c (k + 1) s') →
        ∃ N o, (∀ n, N ≤ n → scan X n R m.1 m.2 (c + 1) k s = .val o) ∧ (o.1 = true → k ≤ o.2.step ∧ (s.flag = 2 → Later X R m o.2 s)) := by
      intro N s' h1 h2
      obtain ⟨N', o, h3, h4⟩ := scan_ends hR hT hm c (k + 1) s' (by omega) (Or.inl h1)
      refine whole (N := max N N') (o := o) (fun n hn => by rw [h2 n (by omega)]; exact h3 n (by omega)) fun ho => ?_
      have := (h4 ho).1
      exact ⟨by omega, fun _ e => by omega⟩
    obtain ⟨t, q, t1, t2, t3, t4⟩ := hT k (by omega)
    have hst : ∀ {P : Prop}, (barred X R k = false → (m.2 = false → t = m.1) → unlike X.C m.1 t m.2 = false →
        (∃ v l, s.sv = some v ∧ HCalls X.on X.C m.1 t l v) → P) → Match X R m s ∧ s.step = k → P := by
      intro P hp hM
      obtain ⟨t', v, l, e1, _, e3, e4, _, e6, e7, e8⟩ := hM.1.ex
      rw [hM.2, t1] at e1
      obtain rfl := Out.val.inj e1
      exact hp (hM.2 ▸ hM.1.free) e6 e7 ⟨v, l, e3, e8⟩
    by_cases c1 : barred X R k = true
    · exact hs.elim (fun h1 => next (N := 0) s h1 fun n _ => by rw [scan, if_pos c1]) (hst fun h _ _ _ => by rw [c1] at h; cases h)
    by_cases c2 : m.2 = false ∧ t ≠ m.1
    · exact hs.elim (fun h1 => next (N := 0) s h1 fun n _ => by rw [scan, if_neg c1, t1, Out.bind_val, if_pos c2]) (hst fun _ h _ _ => absurd (h c2.1) c2.2)
    have c3 : ¬ (t = [] ∨ m.1 = []) := by rintro (h | h); exact t2 h; exact hm.1 h
    by_cases c4 : unlike X.C m.1 t m.2 = true
    · exact hs.elim (fun h1 => next (N := 0) s h1 fun n _ => by rw [scan, if_neg c1, t1, Out.bind_val, if_neg c2, if_neg c3, if_pos c4])
        (hst fun _ _ h _ => by rw [c4] at h; cases h)
    have c5 : ¬ (s.flag < 1 ∨ 2 < s.flag) := by
      rcases hs with h | ⟨h, _⟩
      · omega
      · have := h.flag; omega
    have hslot : s.flag = 1 ∨ ∃ v l, s.sv = some v ∧ HCalls X.on X.C m.1 t l v := hs.imp id (hst fun _ _ _ h => h)
    obtain ⟨N, r, hN⟩ := unifSlot_ends hR hm ⟨t2, test_ns hR t1⟩ hslot
    obtain ⟨b, hb⟩ := seen_val hT t k (by omega)
    have e : ∀ n, N ≤ n → scan X n R m.1 m.2 (c + 1) k s = (if ansOf r = none then
          if m.2 = false ∧ s.flag = 2 then .val (false, { s with flag := 1, sv := none })
          else scan X n R m.1 m.2 c (k + 1) { s with flag := 1, sv := none }
        else (if s.flag = 1 then seen X R t k else .val false) >>= fun b =>
          if b then scan X n R m.1 m.2 c (k + 1) { s with sv := none }
          else testProof X R k >>= fun q => .val (true, ⟨2, ansOf r, k, q⟩)) := by
      intro n hn
      rw [scan, if_neg c1, t1, Out.bind_val, if_neg c2, if_neg c3, if_neg c4, if_neg c5, hN n hn, Out.bind_val]
    by_cases c6 : ansOf r = none
    · by_cases c7 : m.2 = false ∧ s.flag = 2
      · exact whole (N := N) (o := (false, { s with flag := 1, sv := none })) (fun n hn => by rw [e n hn, if_pos c6, if_pos c7]) (fun h => by cases h)
      · exact next (N := N) { s with flag := 1, sv := none } rfl fun n hn => by rw [e n hn, if_pos c6, if_neg c7]
    by_cases c8 : s.flag = 1 ∧ b = true
    · exact next (N := N) { s with sv := none } c8.1 fun n hn => by rw [e n hn, if_neg c6, if_pos c8.1, hb, Out.bind_val, if_pos c8.2]
    · refine whole (N := N) (o := (true, ⟨2, ansOf r, k, q⟩)) (fun n hn => ?_) fun _ => ⟨Nat.le_refl _, fun hf _ => ?_⟩
      · rw [e n hn, if_neg c6]
        by_cases c9 : s.flag = 1
        · rw [if_pos c9, hb, Out.bind_val, if_neg fun h => c8 ⟨c9, h⟩, t3]; rfl
        · rw [if_neg c9, Out.bind_val, if_neg (by simp), t3]; rfl
      · obtain ⟨v, l, h1, h2⟩ := hslot.resolve_left (by omega)
        obtain ⟨w, hw⟩ := Option.ne_none_iff_exists'.mp c6
        have hr : r = .found w := by
          cases r with
          | found w' => exact congrArg _ (Option.some.inj hw)
          | none => cases hw
          | timeout => cases hw
        refine ⟨t, v, w, ?_, h1, hw, 1, N, N, ?_⟩
        · rcases hs with hs | ⟨_, hs⟩
          · omega
          · rw [hs]; exact t1
        · have := hN N (Nat.le_refl _)
          unfold unifSlot at this
          rw [if_neg (by omega), h1, hr] at this
          exact this

end MM.Repl
