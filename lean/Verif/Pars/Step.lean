import Verif.Pars.Inv
/-! # One statement of `parseStatements` preserves the invariant -/
namespace MM.Pars
open MM.Veri MM.Spec

variable {toks : List (Name × Bool)} {done : List Src} {s s' : PState} {x : Src} {y : Stmt}

theorem kinds_length (done : List Src) : (kinds done).length = done.length := by simp [kinds]

theorem kindAt_out (ks : List Kind) {i : Nat} (h : ks.length < i) : kindAt ks i = .none := by
  unfold kindAt
  rw [if_neg (by omega), List.getD_eq_default _ _ (by omega)]

theorem SInv.step (h : SInv toks done s) (ho : s'.out = s.out ++ [y]) (hn : NewOk toks done s s' x y) :
    SInv toks (done ++ [x]) s' := by
  have hold : ∀ i, i ≤ done.length → s'.stmt i = s.stmt i := fun i hi =>
    stmt_append rfl ho (by rw [h.len]; omega)
  have hmold : ∀ i, i ≤ (kinds done).length → s'.math i = s.math i := fun i hi => by
    unfold PState.math; rw [hold i (by simpa using hi)]
  have hnew : s'.stmt (done.length + 1) = y := by rw [← h.len]; exact stmt_new ho
  have hmnew : s'.math (done.length + 1) = y.math := by unfold PState.math; rw [hnew]
  have hkl : kindAt (kinds (done ++ [x])) (done.length + 1) = x.kind := by
    rw [kinds_append]; have := kindAt_last (ks := kinds done) (k := x.kind); rwa [kinds_length] at this
  have hko : ∀ i, i ≤ done.length → kindAt (kinds (done ++ [x])) i = kindAt (kinds done) i := fun i hi => by
    rw [kinds_append, kindAt_append (by simpa using hi)]
  have hout : ∀ i, done.length + 1 < i → kindAt (kinds (done ++ [x])) i = .none := fun i hi => kindAt_out _ (by simp; omega)
  have tri : ∀ i : Nat, i ≤ done.length ∨ i = done.length + 1 ∨ done.length + 1 < i := fun i => by omega
  have hta : ∀ i, i ≤ done.length + 1 → ∀ t, TokActive (kinds (done ++ [x])) s'.math i t ↔ TokActive (kinds done) s.math i t := by
    intro i hi t
    rw [kinds_append]
    unfold TokActive
    apply exists_congr
    intro j
    rw [active_old (by simpa using hi)]
    by_cases ha : Active (kinds done) j i
    · have hj : j ≤ (kinds done).length := by have := ha.2.1; simp; omega
      simp only [kindAt_append hj, hmold j hj]
    · simp [ha]
  constructor
  · unfold PState.n; rw [ho]; have := h.len; unfold PState.n at this; simp; omega
  · rw [hold 0 (by omega)]; exact h.zero
  · intro i
    rcases tri i with hi | rfl | hi
    · rw [hold i hi, hko i hi]; exact h.kind i
    · rw [hnew, hkl, hn.kind]
    · rw [hout i hi]
      unfold PState.stmt
      rw [List.getD_eq_default]
      rw [ho]
      have := h.len
      unfold PState.n at this
      simp; omega
  · intro i z hz
    rcases Nat.lt_or_ge i done.length with hi | hi
    · rw [List.getElem?_append_left hi] at hz
      rw [hmold _ (by simp; omega)]
      exact h.names i z hz
    · have : i < (done ++ [x]).length := List.getElem?_eq_some_iff.mp hz |>.1
      have : i = done.length := by simp at this; omega
      subst this
      simp at hz; subst hz
      rw [hmnew]; exact hn.names
  · intro i hi t ht
    rcases tri i with hle | rfl | hgt
    · rw [hko i hle] at hi
      rw [hmold i (by simpa using hle)] at ht
      rw [hta i (by omega)]
      exact h.acts i hi t ht
    · rw [hkl] at hi
      rw [hmnew] at ht
      rw [hta _ (by omega), ← h.len]
      exact hn.acts hi t ht
    · rw [hout i hgt] at hi; simp at hi
  · intro i hi
    rcases tri i with hle | rfl | hgt
    · rw [hko i hle] at hi
      rw [hmold i (by simpa using hle)]
      exact h.fShape i hi
    · rw [hkl] at hi
      rw [hmnew]
      exact hn.fShape hi
    · rw [hout i hgt] at hi; simp at hi
  · intro i hi
    rcases tri i with hle | rfl | hgt
    · rw [hko i hle] at hi
      rw [hmold i (by simpa using hle)]
      exact h.shape i hi
    · rw [hkl] at hi
      rw [hmnew]
      exact hn.shape hi
    · rw [hout i hgt] at hi; simp at hi
  · intro i hi
    rcases tri i with hle | rfl | hgt
    · rw [hko i hle] at hi
      rw [hmold i (by simpa using hle)]
      exact h.dShape i hi
    · rw [hkl] at hi
      rw [hmnew]
      exact hn.dShape hi
    · rw [hout i hgt] at hi; simp at hi
  · intro i hi
    rcases tri i with hle | rfl | hgt
    · rw [hko i hle] at hi
      rw [kinds_append]
      exact (h.frame i hi).old (by simpa using hle) (fun j hj => hold j (by simpa using hj))
    · rw [hkl] at hi
      rw [← h.len]
      exact hn.frame hi
    · rw [hout i hgt] at hi; simp at hi

/-- The predicates `DeclP`, `HypP` do not change for earlier statements. -/
theorem declP_old {k : Kind} (h : SInv toks done s) (ho : s'.out = s.out ++ [y]) {j : Nat}
    (hj : j ≤ (kinds done).length) (z : Nat × Int) :
    DeclP k (kinds done ++ [x.kind]) s'.math j z ↔ DeclP k (kinds done) s.math j z := by
  have : s'.math j = s.math j := by
    unfold PState.math; rw [stmt_append rfl ho (by rw [h.len]; simp at hj; omega)]
  unfold DeclP
  rw [kindAt_append hj, this, depth_append (by omega)]

theorem hypP_old {k : Kind} {T : Toks} (h : SInv toks done s) (ho : s'.out = s.out ++ [y]) {j : Nat}
    (hj : j ≤ (kinds done).length) (z : HypEnt) :
    HypP k T (kinds done ++ [x.kind]) s'.math j z ↔ HypP k T (kinds done) s.math j z := by
  have : s'.math j = s.math j := by
    unfold PState.math; rw [stmt_append rfl ho (by rw [h.len]; simp at hj; omega)]
  unfold HypP
  rw [kindAt_append hj, this, depth_append (by omega)]

theorem declP_new {k : Kind} (h : SInv toks done s) (ho : s'.out = s.out ++ [y]) (z : Nat × Int) :
    DeclP k (kinds done ++ [x.kind]) s'.math ((kinds done).length + 1) z ↔
      x.kind = k ∧ z.1 ∈ y.math ∧ z.2 = depth (kinds done) (done.length + 1) := by
  have : s'.math ((kinds done).length + 1) = y.math := by
    unfold PState.math; rw [kinds_length, ← h.len, stmt_new ho]
  unfold DeclP
  rw [kindAt_last, this, depth_append (by omega), kinds_length]

theorem hypP_new {k : Kind} {T : Toks} (h : SInv toks done s) (ho : s'.out = s.out ++ [y]) (z : HypEnt) :
    HypP k T (kinds done ++ [x.kind]) s'.math ((kinds done).length + 1) z ↔
      x.kind = k ∧ z = ⟨s.n, extractVars T y.math, depth (kinds done) (done.length + 1)⟩ := by
  have : s'.math ((kinds done).length + 1) = y.math := by
    unfold PState.math; rw [kinds_length, ← h.len, stmt_new ho]
  unfold HypP
  rw [kindAt_last, this, depth_append (by omega), kinds_length, h.len]

/-- `dSound` and `dComplete` over a statement that is neither `$d` nor `$}`. -/
theorem d_keep (h : PInv toks done s) (ho : s'.out = s.out ++ [y]) (hd : x.kind ≠ .d) (hrb : x.kind ≠ .rb) :
    (∀ g ∈ s.dstack, Active (kinds (done ++ [x])) g.stmt s'.n ∧ kindAt (kinds (done ++ [x])) g.stmt = .d ∧
      g.scope = depth (kinds (done ++ [x])) g.stmt ∧ g.a < g.b ∧ g.a ∈ s'.math g.stmt ∧ g.b ∈ s'.math g.stmt) ∧
    (∀ j, Active (kinds (done ++ [x])) j s'.n → kindAt (kinds (done ++ [x])) j = .d → ∀ a ∈ s'.math j, ∀ b ∈ s'.math j, a < b →
      ∃ g ∈ s.dstack, g.a = a ∧ g.b = b ∧ g.scope ≤ depth (kinds (done ++ [x])) j) := by
  have hn' : s'.n = (kinds done).length + 2 := by
    unfold PState.n; rw [ho]; have := h.len; unfold PState.n at this; simp; omega
  have hnn : s.n = (kinds done).length + 1 := by rw [h.len]; simp
  have hm : ∀ j ≤ (kinds done).length, s'.math j = s.math j := fun j hj => by
    unfold PState.math; rw [stmt_append rfl ho (by omega)]
  rw [kinds_append, hn']
  constructor
  · intro g hg
    obtain ⟨h1, h2, h3, h4, h5, h6⟩ := h.dSound g hg
    have hj : g.stmt ≤ (kinds done).length := by have := h1.2.1; omega
    rw [hnn] at h1
    rw [kindAt_append hj, depth_append (by omega), hm _ hj]
    exact ⟨active_step.mpr (Or.inr ⟨h1, fun e => absurd e hrb⟩), h2, h3, h4, h5, h6⟩
  · intro j h1 h2 a ha b hb hab
    rcases active_step.mp h1 with ⟨rfl, _⟩ | ⟨h3, _⟩
    · rw [kindAt_last] at h2; exact absurd h2 hd
    · have hj : j ≤ (kinds done).length := by have := h3.2.1; omega
      rw [kindAt_append hj] at h2
      rw [hm j hj] at ha hb
      rw [depth_append (by omega)]
      rw [← hnn] at h3
      exact h.dComplete j h3 h2 a ha b hb hab

/-- `${` -/
theorem PInv.lb (h : PInv toks done s) (hx : x.kind = .lb) : PInv toks (done ++ [x]) (doLb s) := by
  have ho : (doLb s).out = s.out ++ [{ kind := .lb }] := rfl
  have hS := h.toSInv
  have hdep : depth (kinds (done ++ [x])) ((done ++ [x]).length + 1) = depth (kinds done) (done.length + 1) + 1 := by
    rw [kinds_append]
    have := depth_last (ks := kinds done) (k := x.kind)
    simp at this ⊢
    rw [this, hx]; rfl
  constructor
  · apply hS.step ho
    constructor <;> simp [hx]
  · exact h.errs
  · rw [hdep, ← h.scope]; rfl
  · have := h.nonneg; show 0 ≤ s.scope + 1; omega
  · rw [declToks_append]; simp [declToks, hx]; exact h.next
  · exact h.cSort.up
  · exact h.vSort.up
  · exact h.eSort.up
  · exact h.fSort.up
  · exact h.dSort.up
  · rw [kinds_append]
    exact h.c.step (new := []) (by simp [hx]) (fun j hj z => declP_old hS ho hj z) (fun z => by rw [declP_new hS ho]; simp [hx])
  · rw [kinds_append]
    exact h.v.step (new := []) (by simp [hx]) (fun j hj z => declP_old hS ho hj z) (fun z => by rw [declP_new hS ho]; simp [hx])
  · rw [kinds_append]
    exact h.e.step (new := []) (by simp [hx]) (fun j hj z => hypP_old hS ho hj z) (fun z => by rw [hypP_new hS ho]; simp [hx])
  · rw [kinds_append]
    exact h.f.step (new := []) (by simp [hx]) (fun j hj z => hypP_old hS ho hj z) (fun z => by rw [hypP_new hS ho]; simp [hx])
  · exact h.cLt
  · exact h.vLt
  · exact h.cNodup
  · exact h.vNodup
  · exact h.act
  · exact h.actUniq
  · exact h.tmp
  · exact h.eDec
  · exact h.fDec
  · exact h.eVars
  · exact h.fVars
  · exact h.dVars
  · exact (d_keep h ho (by simp [hx]) (by simp [hx])).1
  · exact (d_keep h ho (by simp [hx]) (by simp [hx])).2
  · exact h.dNodup

theorem mem_pop_vs {cur : Int} {l : List (Nat × Int)} (h : ScopeSorted (·.2) cur l) {k : Nat} {sc b : Int}
    (h1 : (k, sc) ∈ l) (h2 : sc ≤ b) (h3 : b < cur) : ∃ sc ≤ b, (k, sc) ∈ popScope (·.2) cur l :=
  ⟨sc, h2, (mem_popScope h.sorted).mpr ⟨h1, by show sc < cur; omega⟩⟩

theorem mem_map_pop {cur : Int} {l : List (Nat × Int)} (hn : (l.map (·.1)).Nodup) {t : Nat} :
    t ∈ (popScope (·.2) cur l).map (·.1) ↔ t ∈ l.map (·.1) ∧ t ∉ (popped (·.2) cur l).map (·.1) := by
  have hsplit : l = popped (·.2) cur l ++ popScope (·.2) cur l := by
    unfold popped popScope; exact (List.takeWhile_append_dropWhile).symm
  have hn2 : ((popped (·.2) cur l ++ popScope (·.2) cur l).map (·.1)).Nodup := by rw [← hsplit]; exact hn
  rw [List.map_append, List.nodup_append] at hn2
  have hmem : t ∈ l.map (·.1) ↔ t ∈ (popped (·.2) cur l).map (·.1) ∨ t ∈ (popScope (·.2) cur l).map (·.1) := by
    conv_lhs => rw [hsplit]
    rw [List.map_append, List.mem_append]
  rw [hmem]
  constructor
  · intro h1; exact ⟨Or.inr h1, fun h2 => hn2.2.2 t h2 t h1 rfl⟩
  · rintro ⟨h1 | h1, h2⟩
    · exact absurd h1 h2
    · exact h1

theorem not_popped_of_not_mem {cur : Int} {l : List (Nat × Int)} {t : Nat} (h : t ∉ l.map (·.1)) :
    t ∉ (popped (·.2) cur l).map (·.1) := by
  intro h1
  apply h
  rw [List.mem_map] at h1 ⊢
  obtain ⟨a, ha, hb⟩ := h1
  exact ⟨a, (List.takeWhile_sublist _).subset ha, hb⟩

/-- `$}` -/
theorem PInv.rb (h : PInv toks done s) (hx : x.kind = .rb) (he : (doRb s).errs = []) :
    PInv toks (done ++ [x]) (doRb s) := by
  have hS := h.toSInv
  unfold doRb at he ⊢
  dsimp only at he ⊢
  obtain ⟨e1, e2⟩ := errIf_nil he
  rw [e1]
  simp only [decide_eq_false_iff_not, Int.not_lt] at e2
  generalize hs' : ({ s with
      active := fun t => s.active t && !((popped (·.2) s.scope s.cstack).map (·.1) ++ (popped (·.2) s.scope s.vstack).map (·.1)).contains t
      cstack := popScope (·.2) s.scope s.cstack
      vstack := popScope (·.2) s.scope s.vstack
      estack := popScope (·.scope) s.scope s.estack
      fstack := popScope (·.scope) s.scope s.fstack
      dstack := popScope (·.scope) s.scope s.dstack
      scope := s.scope - 1
      out := s.out ++ [{ kind := .rb }] } : PState) = s'
  have ho : s'.out = s.out ++ [{ kind := .rb }] := by rw [← hs']
  have hsc := h.scope
  have hdep : depth (kinds (done ++ [x])) ((done ++ [x]).length + 1) = s.scope - 1 := by
    rw [kinds_append, hsc]
    have := depth_last (ks := kinds done) (k := x.kind)
    simp at this ⊢
    rw [this, hx]; simp [delta]; omega
  have hcur : s.scope = depth (kinds done) ((kinds done).length + 1) := by rw [kinds_length]; exact hsc
  have hn' : s'.n = (kinds done).length + 2 := by
    unfold PState.n; rw [ho]; have := h.len; unfold PState.n at this; simp; omega
  have hnn : s.n = (kinds done).length + 1 := by rw [h.len]; simp
  have hm : ∀ j ≤ (kinds done).length, s'.math j = s.math j := fun j hj => by
    unfold PState.math; rw [stmt_append rfl ho (by omega)]
  have hact : ∀ t, s'.active t = true ↔ t ∈ s'.cstack.map (·.1) ∨ t ∈ s'.vstack.map (·.1) := by
    intro t
    have : s'.active t = true ↔ s.active t = true ∧ t ∉ (popped (·.2) s.scope s.cstack).map (·.1) ∧
        t ∉ (popped (·.2) s.scope s.vstack).map (·.1) := by
      rw [← hs']
      simp only [Bool.and_eq_true, Bool.not_eq_true', List.contains_eq_mem, decide_eq_false_iff_not, List.mem_append, not_or]
    rw [this, h.act t, show s'.cstack = popScope (·.2) s.scope s.cstack by rw [← hs'],
      show s'.vstack = popScope (·.2) s.scope s.vstack by rw [← hs'], mem_map_pop h.cNodup, mem_map_pop h.vNodup]
    have hdisj : t ∈ s.cstack.map (·.1) → t ∉ s.vstack.map (·.1) := by
      intro h1 h2
      rw [List.mem_map] at h1 h2
      obtain ⟨a, ha, rfl⟩ := h1
      obtain ⟨b, hb, hab⟩ := h2
      have u := (h.cLt a ha).2.1
      have w := (h.vLt b hb).2.1
      rw [hab, u] at w; cases w
    constructor
    · rintro ⟨h1 | h1, h2, h3⟩
      · exact Or.inl ⟨h1, h2⟩
      · exact Or.inr ⟨h1, h3⟩
    · rintro (⟨h1, h2⟩ | ⟨h1, h2⟩)
      · exact ⟨Or.inl h1, h2, not_popped_of_not_mem (hdisj h1)⟩
      · exact ⟨Or.inr h1, not_popped_of_not_mem (fun h3 => hdisj h3 h1), h2⟩
  have hactle : ∀ t, s'.active t = true → s.active t = true := by
    intro t ht; rw [← hs'] at ht; simp only [Bool.and_eq_true] at ht; exact ht.1
  have vdrop : s'.vstack <:+ s.vstack := by rw [← hs']; exact popScope_suffix _ _ _
  have cdrop : s'.cstack <:+ s.cstack := by rw [← hs']; exact popScope_suffix _ _ _
  have edrop : s'.estack <:+ s.estack := by rw [← hs']; exact popScope_suffix _ _ _
  have fdrop : s'.fstack <:+ s.fstack := by rw [← hs']; exact popScope_suffix _ _ _
  have ddrop : s'.dstack <:+ s.dstack := by rw [← hs']; exact popScope_suffix _ _ _
  constructor
  · apply hS.step ho
    constructor <;> simp [hx]
  · rw [← hs']; exact h.errs
  · rw [hdep, ← hs']
  · rw [← hs']; exact e2
  · rw [declToks_append, ← hs']; simp [declToks, hx]; exact h.next
  · rw [← hs']; exact h.cSort.pop
  · rw [← hs']; exact h.vSort.pop
  · rw [← hs']; exact h.eSort.pop
  · rw [← hs']; exact h.fSort.pop
  · rw [← hs']; exact h.dSort.pop
  · rw [kinds_append, show s'.cstack = popScope (·.2) s.scope s.cstack by rw [← hs'], hcur, hx]
    refine h.c.pop (hcur ▸ h.cSort) (fun j hj z => by have := declP_old (k := .c) (x := x) hS ho hj z; rwa [hx] at this) (fun j hj z hz => hz.2.2)
  · rw [kinds_append, show s'.vstack = popScope (·.2) s.scope s.vstack by rw [← hs'], hcur, hx]
    refine h.v.pop (hcur ▸ h.vSort) (fun j hj z => by have := declP_old (k := .v) (x := x) hS ho hj z; rwa [hx] at this) (fun j hj z hz => hz.2.2)
  · rw [kinds_append, show s'.estack = popScope (·.scope) s.scope s.estack by rw [← hs'], hcur, hx]
    refine h.e.pop (hcur ▸ h.eSort) (fun j hj z => by have := hypP_old (k := .e) (T := toksOf toks) (x := x) hS ho hj z; rwa [hx] at this)
      (fun j hj z hz => by rw [hz.2])
  · rw [kinds_append, show s'.fstack = popScope (·.scope) s.scope s.fstack by rw [← hs'], hcur, hx]
    refine h.f.pop (hcur ▸ h.fSort) (fun j hj z => by have := hypP_old (k := .f) (T := toksOf toks) (x := x) hS ho hj z; rwa [hx] at this)
      (fun j hj z hz => by rw [hz.2])
  · intro z hz
    have := h.cLt z (cdrop.subset hz)
    rw [← hs']; exact this
  · intro z hz
    have := h.vLt z (vdrop.subset hz)
    rw [← hs']; exact this
  · exact h.cNodup.sublist (cdrop.sublist.map _)
  · exact h.vNodup.sublist (vdrop.sublist.map _)
  · exact hact
  · intro t t' h1 h2 h3; exact h.actUniq t t' (hactle t h1) (hactle t' h2) h3
  · intro i z hz
    have : s'.vstack.reverse <+: s.vstack.reverse := List.reverse_prefix.mpr vdrop
    obtain ⟨r, hr⟩ := this
    have hi : i < s'.vstack.reverse.length := (List.getElem?_eq_some_iff.mp hz).1
    have := h.tmp i z (by rw [← hr, List.getElem?_append_left hi]; exact hz)
    rw [← hs']; exact this
  · exact h.eDec.sublist (edrop.sublist.map _)
  · exact h.fDec.sublist (fdrop.sublist.map _)
  · intro g hg k hk
    have hg2 : g ∈ s.estack ∧ g.scope < s.scope := by
      rw [show s'.estack = popScope (·.scope) s.scope s.estack by rw [← hs']] at hg
      exact (mem_popScope h.eSort.sorted).mp hg
    obtain ⟨sc, h1, h2⟩ := h.eVars g hg2.1 k hk
    rw [show s'.vstack = popScope (·.2) s.scope s.vstack by rw [← hs']]
    exact mem_pop_vs h.vSort h2 h1 hg2.2
  · intro g hg
    have hg2 : g ∈ s.fstack ∧ g.scope < s.scope := by
      rw [show s'.fstack = popScope (·.scope) s.scope s.fstack by rw [← hs']] at hg
      exact (mem_popScope h.fSort.sorted).mp hg
    obtain ⟨k, hk, sc, h1, h2⟩ := h.fVars g hg2.1
    rw [show s'.vstack = popScope (·.2) s.scope s.vstack by rw [← hs']]
    exact ⟨k, hk, mem_pop_vs h.vSort h2 h1 hg2.2⟩
  · intro g hg
    have hg2 : g ∈ s.dstack ∧ g.scope < s.scope := by
      rw [show s'.dstack = popScope (·.scope) s.scope s.dstack by rw [← hs']] at hg
      exact (mem_popScope h.dSort.sorted).mp hg
    obtain ⟨⟨sc, h1, h2⟩, ⟨sc', h3, h4⟩⟩ := h.dVars g hg2.1
    rw [show s'.vstack = popScope (·.2) s.scope s.vstack by rw [← hs']]
    exact ⟨mem_pop_vs h.vSort h2 h1 hg2.2, mem_pop_vs h.vSort h4 h3 hg2.2⟩
  · intro g hg
    have hg2 : g ∈ s.dstack ∧ g.scope < s.scope := by
      rw [show s'.dstack = popScope (·.scope) s.scope s.dstack by rw [← hs']] at hg
      exact (mem_popScope h.dSort.sorted).mp hg
    obtain ⟨h1, h2, h3, h4, h5, h6⟩ := h.dSound g hg2.1
    have hj : g.stmt ≤ (kinds done).length := by have := h1.2.1; omega
    rw [kinds_append, hn', kindAt_append hj, depth_append (by omega), hm _ hj]
    rw [hnn] at h1
    refine ⟨active_step.mpr (Or.inr ⟨h1, fun _ => ?_⟩), h2, h3, h4, h5, h6⟩
    rw [← hcur, ← h3]; exact hg2.2
  · intro j h1 h2 a ha b hb hab
    rw [kinds_append, hn'] at h1
    rcases active_step.mp h1 with ⟨_, h3⟩ | ⟨h3, h4⟩
    · exact absurd hx h3
    · have hj : j ≤ (kinds done).length := by have := h3.2.1; omega
      rw [kinds_append, kindAt_append hj] at h2
      rw [hm j hj] at ha hb
      rw [kinds_append, depth_append (by omega)]
      rw [← hnn] at h3
      obtain ⟨g, hg, g1, g2, g3⟩ := h.dComplete j h3 h2 a ha b hb hab
      refine ⟨g, ?_, g1, g2, g3⟩
      have h5 := h4 hx
      rw [← hcur] at h5
      rw [show s'.dstack = popScope (·.scope) s.scope s.dstack by rw [← hs']]
      exact (mem_popScope h.dSort.sorted).mpr ⟨hg, by omega⟩
  · exact h.dNodup.sublist (ddrop.sublist.map _)

end MM.Pars
