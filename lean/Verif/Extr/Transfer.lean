import Verif.Extr.Nest
import Verif.Extr.Model
import Verif.Pars.ReadProps
/-!
# A selection of statements that obeys the rules of READ

If the selection is closed (blocks, declarations, hypotheses), and declarations of further symbols are added at the end, the result obeys the rules.
-/
namespace MM.Extr
open MM.Veri MM.Pars MM.Spec

theorem written_pick {f : Nat → Bool} : ∀ {l : List Src} {n : Nat}, written f n l = pick f n l
  | [], _ => rfl
  | x :: l, n => by
    unfold written pick
    rw [written_pick]

section app
variable {ks ms : List Kind}

theorem kindAt_app {i : Nat} (h : i ≤ ks.length) : kindAt (ks ++ ms) i = kindAt ks i := by
  unfold kindAt
  by_cases h0 : i = 0
  · simp [h0]
  · rw [if_neg h0, if_neg h0, List.getD_append _ _ _ _ (by omega)]

theorem depth_app {i : Nat} (h : i ≤ ks.length + 1) : depth (ks ++ ms) i = depth ks i := by
  unfold depth
  rw [List.take_append_of_le_length (by omega)]

theorem active_app {i j : Nat} (h : i ≤ ks.length + 1) : Active (ks ++ ms) j i ↔ Active ks j i := by
  unfold Active
  constructor
  · rintro ⟨a, b, c⟩
    refine ⟨a, b, fun k h1 h2 => ?_⟩
    have := c k h1 h2
    rwa [depth_app (by omega), depth_app (by omega)] at this
  · rintro ⟨a, b, c⟩
    refine ⟨a, b, fun k h1 h2 => ?_⟩
    have := c k h1 h2
    rwa [depth_app (by omega), depth_app (by omega)]

end app

theorem symsAt_app {a b : List Src} {i : Nat} (h : i ≤ a.length) : symsAt (a ++ b) i = symsAt a i := by
  unfold symsAt
  by_cases h0 : i = 0
  · simp [h0]
  · rw [if_neg h0, if_neg h0, List.getD_append _ _ _ _ (by omega)]

theorem symsAt_pick {src : List Src} {keep : Nat → Bool} {i : Nat} (h1 : 1 ≤ i) (h2 : i ≤ src.length) (hk : keep i = true) :
    symsAt (pick keep 1 src) (pos keep i) = symsAt src i := by
  obtain ⟨i, rfl⟩ : ∃ k, i = k + 1 := ⟨i - 1, by omega⟩
  unfold symsAt
  rw [pos_kept hk, if_neg (by omega), if_neg (by omega), Nat.add_sub_cancel, Nat.add_sub_cancel]
  have := pick_get (l := src) (i := i) (by omega) hk
  simp [List.getD, this, show i < src.length by omega]

/-- The statements kept are closed under everything the rules of READ ask for. -/
structure Kept (src : List Src) (keep : Nat → Bool) : Prop where
  closed : Closed (kinds src) keep
  sym : ∀ i, keep i = true → kindAt (kinds src) i ∈ [Kind.d, .e, .f, .a, .p] → ∀ nm ∈ symsAt src i,
    ∃ j, keep j = true ∧ Active (kinds src) j i ∧ (kindAt (kinds src) j = .c ∨ kindAt (kinds src) j = .v) ∧ nm ∈ symsAt src j
  ess : ∀ i, keep i = true → kindAt (kinds src) i = .a ∨ kindAt (kinds src) i = .p → ∀ j, Active (kinds src) j i → kindAt (kinds src) j = .e → keep j = true
  flt : ∀ i, keep i = true → kindAt (kinds src) i = .a ∨ kindAt (kinds src) i = .p → ∀ nm, MandName src i nm → ∀ f, FFor src i f nm → keep f = true

/-- The symbols declared at the end: declared in the source, but by no statement kept. -/
structure Rest (src : List Src) (keep : Nat → Bool) (r : List Name × List Name) : Prop where
  cNodup : r.1.Nodup
  vNodup : r.2.Nodup
  c : ∀ nm ∈ r.1, ∃ j, kindAt (kinds src) j = .c ∧ nm ∈ symsAt src j
  v : ∀ nm ∈ r.2, ∃ j, kindAt (kinds src) j = .v ∧ nm ∈ symsAt src j
  new : ∀ nm, nm ∈ r.1 ∨ nm ∈ r.2 → ∀ j, keep j = true → (kindAt (kinds src) j = .c ∨ kindAt (kinds src) j = .v) → nm ∉ symsAt src j

section
variable {src : List Src} {keep : Nat → Bool} {r : List Name × List Name}

/-- The file written -/
abbrev ext (src : List Src) (keep : Nat → Bool) (r : List Name × List Name) : List Src := pick keep 1 src ++ unused r

theorem kinds_ext : kinds (ext src keep r) = pick keep 1 (kinds src) ++ kinds (unused r) := by
  unfold ext kinds
  rw [List.map_append, pick_map]

theorem pick_kinds_length : (pick keep 1 (kinds src)).length = pos keep src.length := by
  rw [pick_length, kinds_length]

theorem kind_bound {ks : List Kind} {i : Nat} (h : kindAt ks i ≠ .none) : 1 ≤ i ∧ i ≤ ks.length := by
  unfold kindAt at h
  by_cases h0 : i = 0
  · rw [if_pos h0] at h; exact absurd rfl h
  · rw [if_neg h0] at h
    refine ⟨by omega, ?_⟩
    rcases Nat.lt_or_ge ks.length i with c | c
    · rw [List.getD_eq_default _ _ (by omega)] at h; exact absurd rfl h
    · exact c

theorem kind_ext {i : Nat} (h1 : 1 ≤ i) (h2 : i ≤ src.length) (hk : keep i = true) :
    kindAt (kinds (ext src keep r)) (pos keep i) = kindAt (kinds src) i := by
  obtain ⟨k, rfl⟩ : ∃ k, i = k + 1 := ⟨i - 1, by omega⟩
  rw [kinds_ext, kindAt_app (by rw [pick_kinds_length]; exact pos_mono h2), kindAt_pick (by rw [kinds_length]; omega) hk]

theorem syms_ext {i : Nat} (h1 : 1 ≤ i) (h2 : i ≤ src.length) (hk : keep i = true) :
    symsAt (ext src keep r) (pos keep i) = symsAt src i := by
  unfold ext
  rw [symsAt_app (by rw [pick_length]; exact pos_mono h2), symsAt_pick h1 h2 hk]

variable (hn : Nested (kinds src)) (hK : Closed (kinds src) keep)
include hn hK

theorem depth_ext {i : Nat} (h1 : 1 ≤ i) (h2 : i ≤ src.length) (hk : keep i = true) :
    depth (kinds (ext src keep r)) (pos keep i) = depth (kinds src) i := by
  obtain ⟨k, rfl⟩ : ∃ k, i = k + 1 := ⟨i - 1, by omega⟩
  have := pos_mono (keep := keep) h2
  rw [kinds_ext, depth_app (by rw [pick_kinds_length]; omega), depth_pick hn hK (by rw [kinds_length]; omega) hk]

theorem active_ext {i j : Nat} (hi1 : 1 ≤ i) (hi2 : i ≤ src.length) (hj1 : 1 ≤ j) (hj2 : j ≤ src.length) (ki : keep i = true) (kj : keep j = true) :
    Active (kinds (ext src keep r)) (pos keep j) (pos keep i) ↔ Active (kinds src) j i := by
  obtain ⟨i, rfl⟩ : ∃ k, i = k + 1 := ⟨i - 1, by omega⟩
  obtain ⟨j, rfl⟩ : ∃ k, j = k + 1 := ⟨j - 1, by omega⟩
  have := pos_mono (keep := keep) hi2
  rw [kinds_ext, active_app (by rw [pick_kinds_length]; omega), active_pick hn hK (by rw [kinds_length]; omega) (by rw [kinds_length]; omega) ki kj]

/-- An active statement of the extract comes from an active statement. -/
theorem active_from {i p : Nat} (hi1 : 1 ≤ i) (hi2 : i ≤ src.length) (ki : keep i = true) (h : Active (kinds (ext src keep r)) p (pos keep i)) :
    ∃ j, keep j = true ∧ Active (kinds src) j i ∧ pos keep j = p ∧ 1 ≤ j ∧ j ≤ src.length := by
  obtain ⟨j, hj, kj, e⟩ := pos_surj (keep := keep) (n := src.length) (p := p) h.1 (by have := pos_mono (keep := keep) hi2; have := h.2.1; omega)
  subst e
  exact ⟨j + 1, kj, (active_ext hn hK hi1 hi2 (by omega) (by omega) ki kj).mp h, rfl, by omega, by omega⟩

theorem declared_ext {i : Nat} (hi1 : 1 ≤ i) (hi2 : i ≤ src.length) (ki : keep i = true) {k : Kind} {nm : Name} :
    Declared (ext src keep r) k (pos keep i) nm ↔ ∃ j, keep j = true ∧ Active (kinds src) j i ∧ kindAt (kinds src) j = k ∧ nm ∈ symsAt src j := by
  constructor
  · rintro ⟨p, h1, h2, h3⟩
    obtain ⟨j, a, b, rfl, c, d⟩ := active_from hn hK hi1 hi2 ki h1
    rw [kind_ext c d a] at h2
    rw [syms_ext c d a] at h3
    exact ⟨j, a, b, h2, h3⟩
  · rintro ⟨j, a, b, h2, h3⟩
    have c := b.1
    have d := b.2.1
    refine ⟨pos keep j, (active_ext hn hK hi1 hi2 c (by omega) ki a).mpr b, ?_, ?_⟩
    · rw [kind_ext c (by omega) a, h2]
    · rw [syms_ext c (by omega) a]; exact h3

theorem ffor_ext {i p : Nat} (hi1 : 1 ≤ i) (hi2 : i ≤ src.length) (ki : keep i = true) {nm : Name} :
    FFor (ext src keep r) (pos keep i) p nm ↔ ∃ f, keep f = true ∧ FFor src i f nm ∧ pos keep f = p := by
  constructor
  · rintro ⟨h1, h2, h3⟩
    obtain ⟨j, a, b, rfl, c, d⟩ := active_from hn hK hi1 hi2 ki h1
    rw [kind_ext c d a] at h2
    rw [syms_ext c d a] at h3
    exact ⟨j, a, ⟨b, h2, h3⟩, rfl⟩
  · rintro ⟨f, a, ⟨b, h2, h3⟩, rfl⟩
    have c := b.1
    have d := b.2.1
    refine ⟨(active_ext hn hK hi1 hi2 c (by omega) ki a).mpr b, ?_, ?_⟩
    · rw [kind_ext c (by omega) a, h2]
    · rw [syms_ext c (by omega) a]; exact h3

end

section rules
variable {src : List Src} {keep : Nat → Bool} {r : List Name × List Name}

theorem declared_mono {i : Nat} (hn : Nested (kinds src)) (hK : Closed (kinds src) keep) (hi1 : 1 ≤ i) (hi2 : i ≤ src.length) (ki : keep i = true)
    {k : Kind} {nm : Name} (h : Declared (ext src keep r) k (pos keep i) nm) : Declared src k i nm := by
  obtain ⟨j, _, a, b, c⟩ := (declared_ext hn hK hi1 hi2 ki).mp h
  exact ⟨j, a, b, c⟩

/-- A symbol used by a statement kept is declared in the extract as it is in the source. -/
theorem declared_kept (hR : ReadRules src) (hn : Nested (kinds src)) (hK : Kept src keep) {i : Nat} (hi1 : 1 ≤ i) (hi2 : i ≤ src.length) (ki : keep i = true)
    (hk : kindAt (kinds src) i ∈ [Kind.d, .e, .f, .a, .p]) {k : Kind} (hcv : k = .c ∨ k = .v) {nm : Name} (hm : nm ∈ symsAt src i) (h : Declared src k i nm) :
    Declared (ext src keep r) k (pos keep i) nm := by
  rw [declared_ext hn hK.closed hi1 hi2 ki]
  obtain ⟨j, a, b, c, d⟩ := hK.sym i ki hk nm hm
  obtain ⟨j', a', b', c'⟩ := h
  refine ⟨j, a, b, ?_, d⟩
  rcases hcv with rfl | rfl
  · rcases c with c | c
    · exact c
    · exact absurd d (hR.conVar j' j nm b' c c')
  · rcases c with c | c
    · exact absurd c' (hR.conVar j j' nm c b' d)
    · exact c

/-- The rules for a statement kept -/
theorem rules_kept (hR : ReadRules src) (hn : Nested (kinds src)) (hK : Kept src keep) {i : Nat} (hi1 : 1 ≤ i) (hi2 : i ≤ src.length) (ki : keep i = true) :
    StmtRules (ext src keep r) (pos keep i) := by
  have S := hR.stmt i hi1 hi2
  have ek := kind_ext (r := r) hi1 hi2 ki
  have es := syms_ext (r := r) hi1 hi2 ki
  have ed := depth_ext (r := r) hn hK.closed hi1 hi2 ki
  refine ⟨?_, ?_, ?_, ?_, ?_, ?_, ?_, ?_, ?_, ?_⟩
  · rw [ek]; exact S.kind
  · rw [ek, ed]; exact S.rb
  · rw [ek, ed]; exact S.outer
  · rw [ek, es]
    intro h
    obtain ⟨a, b, c⟩ := S.decl h
    exact ⟨a, b, fun nm hm => ⟨fun hd => (c nm hm).1 (declared_mono hn hK.closed hi1 hi2 ki hd), fun hd => (c nm hm).2 (declared_mono hn hK.closed hi1 hi2 ki hd)⟩⟩
  · rw [ek, es]
    intro h nm hm
    rcases S.used h nm hm with d | d
    · exact Or.inl (declared_kept hR hn hK hi1 hi2 ki h (Or.inl rfl) hm d)
    · exact Or.inr (declared_kept hR hn hK hi1 hi2 ki h (Or.inr rfl) hm d)
  · rw [ek, es]
    intro h
    obtain ⟨a, b, c⟩ := S.d h
    exact ⟨a, b, fun nm hm => declared_kept hR hn hK hi1 hi2 ki (by rw [h]; simp) (Or.inr rfl) hm (c nm hm)⟩
  · rw [ek, es]
    intro h
    obtain ⟨c, a, b⟩ := S.first h
    refine ⟨c, a, declared_kept hR hn hK hi1 hi2 ki ?_ (Or.inl rfl) (List.mem_of_getElem? a) b⟩
    simp only [List.mem_cons, List.not_mem_nil, or_false] at h ⊢
    tauto
  · rw [ek, es]
    intro h
    obtain ⟨c, v, a, b, d⟩ := S.f h
    exact ⟨c, v, a, declared_kept hR hn hK hi1 hi2 ki (by rw [h]; simp) (Or.inl rfl) (by rw [a]; simp) b,
      declared_kept hR hn hK hi1 hi2 ki (by rw [h]; simp) (Or.inr rfl) (by rw [a]; simp) d⟩
  · rw [ek]
    intro h p hp nm hm hv
    have hv' := declared_mono hn hK.closed hi1 hi2 ki hv
    obtain ⟨m, km, hm1, hm2, rfl, hmi, hms⟩ : ∃ m, keep m = true ∧ 1 ≤ m ∧ m ≤ src.length ∧ pos keep m = p ∧
        (m = i ∨ (Active (kinds src) m i ∧ kindAt (kinds src) m = .e)) ∧ nm ∈ symsAt src m := by
      rcases hp with rfl | ⟨hp, hke⟩
      · exact ⟨i, ki, hi1, hi2, rfl, Or.inl rfl, by rw [es] at hm; exact hm⟩
      · obtain ⟨j, a, b, rfl, c, d⟩ := active_from hn hK.closed hi1 hi2 ki hp
        rw [kind_ext c d a] at hke
        rw [syms_ext c d a] at hm
        exact ⟨j, a, c, d, rfl, Or.inr ⟨b, hke⟩, hm⟩
    obtain ⟨f, hf1, hf2⟩ := S.typed h m hmi nm hms hv'
    have hmand : MandName src i nm := by
      refine ⟨hv', ?_⟩
      rcases hmi with rfl | ⟨a, b⟩
      · exact Or.inl hms
      · exact Or.inr ⟨m, a, b, hms⟩
    have kf := hK.flt i ki h nm hmand f hf2
    exact ⟨pos keep f, pos_lt hf1 km, (ffor_ext hn hK.closed hi1 hi2 ki).mpr ⟨f, kf, hf2, rfl⟩⟩
  · rw [ek]
    intro h nm hm f g hf hg
    obtain ⟨f, kf, hf', rfl⟩ := (ffor_ext hn hK.closed hi1 hi2 ki).mp hf
    obtain ⟨g, kg, hg', rfl⟩ := (ffor_ext hn hK.closed hi1 hi2 ki).mp hg
    have hmand : MandName src i nm := by
      refine ⟨declared_mono hn hK.closed hi1 hi2 ki hm.1, ?_⟩
      rcases hm.2 with a | ⟨p, a, b, c⟩
      · rw [es] at a; exact Or.inl a
      · obtain ⟨j, a', b', rfl, c', d'⟩ := active_from hn hK.closed hi1 hi2 ki a
        rw [kind_ext c' d' a'] at b
        rw [syms_ext c' d' a'] at c
        exact Or.inr ⟨j, b', b, c⟩
    rw [S.single h nm hmand f g hf' hg']

/-- Statement `p` of the extract is one kept or a declaration at the end. -/
theorem ext_cases {p : Nat} (h1 : 1 ≤ p) (h2 : p ≤ (ext src keep r).length) :
    (∃ i, 1 ≤ i ∧ i ≤ src.length ∧ keep i = true ∧ p = pos keep i) ∨
    (r.1 ≠ [] ∧ p = pos keep src.length + 1 ∧ kindAt (kinds (ext src keep r)) p = .c ∧ symsAt (ext src keep r) p = r.1) ∨
    (r.2 ≠ [] ∧ pos keep src.length < p ∧ kindAt (kinds (ext src keep r)) p = .v ∧ symsAt (ext src keep r) p = r.2 ∧
      (p = pos keep src.length + 1 ∨ p = pos keep src.length + 2 ∧ kindAt (kinds (ext src keep r)) (pos keep src.length + 1) = .c ∧
        symsAt (ext src keep r) (pos keep src.length + 1) = r.1)) := by
  have hl : (pick keep 1 src).length = pos keep src.length := pick_length
  rcases Nat.lt_or_ge (pos keep src.length) p with c | c
  · right
    have hg : ∀ q, pos keep src.length < q → kindAt (kinds (ext src keep r)) q = ((unused r).getD (q - 1 - pos keep src.length) {}).kind ∧
        symsAt (ext src keep r) q = ((unused r).getD (q - 1 - pos keep src.length) {}).syms := by
      intro q hq
      constructor
      · have hl' : (pick keep 1 (kinds src)).length = pos keep src.length := pick_kinds_length
        rw [kinds_ext]
        unfold kindAt
        rw [if_neg (by omega), List.getD_append_right _ _ _ _ (by omega), hl']
        unfold kinds
        rw [show (Kind.none) = ({} : Src).kind from rfl, List.getD_map]
      · unfold symsAt ext
        rw [if_neg (by omega), List.getD_append_right _ _ _ _ (by omega), hl]
    unfold ext at h2
    rw [List.length_append, hl] at h2
    obtain ⟨cs, vs⟩ := r
    by_cases hc : cs = []
    · by_cases hv : vs = []
      · simp [unused, hc, hv] at h2; omega
      · right
        have hu : unused (cs, vs) = [{ kind := .v, syms := vs }] := by simp [unused, hc, hv]
        rw [hu] at h2 hg
        have : p = pos keep src.length + 1 := by simp at h2; omega
        obtain ⟨a, b⟩ := hg p c
        rw [this, Nat.add_sub_cancel, Nat.sub_self] at a b
        exact ⟨hv, c, by rw [this]; exact a, by rw [this]; exact b, Or.inl this⟩
    · by_cases hv : vs = []
      · left
        have hu : unused (cs, vs) = [{ kind := .c, syms := cs }] := by simp [unused, hc, hv]
        rw [hu] at h2 hg
        have : p = pos keep src.length + 1 := by simp at h2; omega
        obtain ⟨a, b⟩ := hg p c
        rw [this, Nat.add_sub_cancel, Nat.sub_self] at a b
        exact ⟨hc, this, by rw [this]; exact a, by rw [this]; exact b⟩
      · have hu : unused (cs, vs) = [{ kind := .c, syms := cs }, { kind := .v, syms := vs }] := by simp [unused, hc, hv]
        rw [hu] at h2 hg
        obtain ⟨a, b⟩ := hg (pos keep src.length + 1) (by omega)
        rw [Nat.add_sub_cancel, Nat.sub_self] at a b
        rcases Nat.lt_or_ge (pos keep src.length + 1) p with c2 | c2
        · right
          have : p = pos keep src.length + 2 := by simp at h2; omega
          obtain ⟨a', b'⟩ := hg p c
          rw [this, show pos keep src.length + 2 - 1 - pos keep src.length = 1 by omega] at a' b'
          exact ⟨hv, c, by rw [this]; exact a', by rw [this]; exact b', Or.inr ⟨this, a, b⟩⟩
        · left
          have : p = pos keep src.length + 1 := by omega
          exact ⟨hc, this, by rw [this]; exact a, by rw [this]; exact b⟩
  · left
    obtain ⟨i, a, b, e⟩ := pos_surj h1 c
    exact ⟨i + 1, by omega, by omega, b, e.symm⟩

theorem depth_unused {q : Nat} (hn : Nested (kinds src)) (hK : Closed (kinds src) keep) (h0 : depth (kinds src) (src.length + 1) = 0)
    (hq : pos keep src.length < q) : depth (kinds (ext src keep r)) q = 0 := by
  have he := end_pick hn hK (by rw [kinds_length]; exact h0)
  rw [pick_kinds_length] at he
  rw [kinds_ext]
  unfold depth at he ⊢
  rw [List.take_append, List.map_append, List.sum_append, pick_kinds_length]
  rw [Nat.add_sub_cancel, List.take_of_length_le (by rw [pick_kinds_length])] at he
  rw [List.take_of_length_le (by rw [pick_kinds_length]; omega), he]
  have : ∀ k ∈ kinds (unused r), delta k = 0 := by
    intro k hk
    unfold kinds unused at hk
    simp only [List.map_append, List.mem_append, List.mem_map] at hk
    rcases hk with ⟨x, hx, rfl⟩ | ⟨x, hx, rfl⟩
    · by_cases h : r.1 = []
      · simp [h] at hx
      · simp [h] at hx; subst hx; rfl
    · by_cases h : r.2 = []
      · simp [h] at hx
      · simp [h] at hx; subst hx; rfl
  have hz : ∀ l : List Kind, (∀ k ∈ l, delta k = 0) → (l.map delta).sum = 0 := by
    intro l
    induction l with
    | nil => intro _; rfl
    | cons x l ih =>
      intro h
      rw [List.map_cons, List.sum_cons, h x (by simp), ih (fun k hk => h k (by simp [hk]))]
      rfl
  rw [hz _ (fun k hk => this k (List.mem_of_mem_take hk))]
  rfl

/-- The rules for a declaration at the end -/
theorem rules_unused (hR : ReadRules src) (hn : Nested (kinds src)) (hK : Closed (kinds src) keep) (hX : Rest src keep r) {p : Nat} {k : Kind} (hcv : k = .c ∨ k = .v)
    (hp : pos keep src.length < p) (hk : kindAt (kinds (ext src keep r)) p = k) (hs : symsAt (ext src keep r) p ≠ []) (hnd : (symsAt (ext src keep r) p).Nodup)
    (hnew : ∀ nm ∈ symsAt (ext src keep r) p, (nm ∈ r.1 ∨ nm ∈ r.2) ∧
      ∀ q, pos keep src.length < q → q < p → nm ∉ symsAt (ext src keep r) q) : StmtRules (ext src keep r) p := by
  have hd := depth_unused (r := r) hn hK hR.closed hp
  have hnot : ∀ nm ∈ symsAt (ext src keep r) p, ∀ k', k' = .c ∨ k' = .v → ¬ Declared (ext src keep r) k' p nm := by
    rintro nm hm k' hk' ⟨q, h1, h2, h3⟩
    obtain ⟨a, b⟩ := hnew nm hm
    rcases Nat.lt_or_ge (pos keep src.length) q with c | c
    · exact b q c h1.2.1 h3
    · obtain ⟨i, hi, ki, e⟩ := pos_surj h1.1 c
      subst e
      rw [kind_ext (by omega) (by omega) ki] at h2
      rw [syms_ext (by omega) (by omega) ki] at h3
      exact hX.new nm a (i + 1) ki (by rw [h2]; exact hk') h3
  have hne : k ≠ .none ∧ k ≠ .rb ∧ k ∉ [Kind.d, .e, .f, .a, .p] ∧ k ≠ .d ∧ k ∉ [Kind.e, .a, .p] ∧ k ≠ .f ∧ k ≠ .a ∧ k ≠ .p := by
    rcases hcv with rfl | rfl <;> simp
  refine ⟨?_, ?_, ?_, ?_, ?_, ?_, ?_, ?_, ?_, ?_⟩ <;> rw [hk]
  · exact hne.1
  · intro h; exact absurd h hne.2.1
  · intro _; exact hd
  · intro _; exact ⟨hs, hnd, fun nm hm => ⟨hnot nm hm _ (Or.inl rfl), hnot nm hm _ (Or.inr rfl)⟩⟩
  · intro h; exact absurd h hne.2.2.1
  · intro h; exact absurd h hne.2.2.2.1
  · intro h; exact absurd h hne.2.2.2.2.1
  · intro h; exact absurd h hne.2.2.2.2.2.1
  · rintro (h | h)
    · exact absurd h hne.2.2.2.2.2.2.1
    · exact absurd h hne.2.2.2.2.2.2.2
  · rintro (h | h)
    · exact absurd h hne.2.2.2.2.2.2.1
    · exact absurd h hne.2.2.2.2.2.2.2

/-- What the extract declares as `$c` (`$v`) is declared so in the source. -/
theorem decl_from (hX : Rest src keep r) {p : Nat} {nm : Name} {k : Kind} (hcv : k = .c ∨ k = .v) (hk : kindAt (kinds (ext src keep r)) p = k)
    (hm : nm ∈ symsAt (ext src keep r) p) : ∃ j, kindAt (kinds src) j = k ∧ nm ∈ symsAt src j := by
  obtain ⟨h1, h2⟩ := kind_bound (ks := kinds (ext src keep r)) (i := p) (by rw [hk]; rcases hcv with rfl | rfl <;> simp)
  rw [kinds_length] at h2
  rcases ext_cases h1 h2 with ⟨i, a, b, c, rfl⟩ | ⟨_, _, a, b⟩ | ⟨_, _, a, b, _⟩
  · rw [kind_ext a b c] at hk
    rw [syms_ext a b c] at hm
    exact ⟨i, hk, hm⟩
  · rw [hk] at a; subst a; rw [b] at hm; exact hX.c nm hm
  · rw [hk] at a; subst a; rw [b] at hm; exact hX.v nm hm

/-- The extract obeys the rules. -/
theorem rules_ext (hR : ReadRules src) (hn : Nested (kinds src)) (hK : Kept src keep) (hX : Rest src keep r) : ReadRules (ext src keep r) := by
  have hdisj : ∀ nm ∈ r.2, nm ∉ r.1 := by
    intro nm hv hc
    obtain ⟨j, a, b⟩ := hX.v nm hv
    obtain ⟨j', a', b'⟩ := hX.c nm hc
    exact hR.conVar j' j nm a' a b' b
  refine ⟨fun p h1 h2 => ?_, ?_, ?_⟩
  · rcases ext_cases h1 h2 with ⟨i, a, b, c, rfl⟩ | ⟨hne, e, a, b⟩ | ⟨hne, hlt, a, b, e⟩
    · exact rules_kept hR hn hK a b c
    · exact rules_unused hR hn hK.closed hX (Or.inl rfl) (by omega) a (by rw [b]; exact hne) (by rw [b]; exact hX.cNodup)
        (fun nm hm => ⟨Or.inl (by rw [b] at hm; exact hm), fun q _ _ => by omega⟩)
    · refine rules_unused hR hn hK.closed hX (Or.inr rfl) hlt a (by rw [b]; exact hne) (by rw [b]; exact hX.vNodup)
        (fun nm hm => ⟨Or.inr (by rw [b] at hm; exact hm), fun q h3 h4 => ?_⟩)
      rcases e with e | ⟨e, a', b'⟩
      · omega
      · have : q = pos keep src.length + 1 := by omega
        rw [this, b']
        rw [b] at hm
        exact hdisj nm hm
  · apply depth_unused hn hK.closed hR.closed
    unfold ext
    rw [List.length_append, pick_length]
    omega
  · intro i j nm hi hj h1 h2
    obtain ⟨i', a, b⟩ := decl_from hX (Or.inl rfl) hi h1
    obtain ⟨j', a', b'⟩ := decl_from hX (Or.inr rfl) hj h2
    exact hR.conVar i' j' nm a a' b b'

end rules

end MM.Extr
