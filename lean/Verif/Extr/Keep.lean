import Verif.Extr.Transfer
import Verif.Extr.Flags2
import Verif.Extr.DeclAt
/-! # The statements `writeExtractedSource` flags are closed under what the rules of READ ask for -/
namespace MM.Extr
open MM.Veri MM.Pars MM.Spec MM.Trace

theorem depth_opens' {ks : List Kind} (h : ∀ i, kindAt ks (i + 1) = .rb → 1 ≤ depth ks (i + 1)) : ∀ i, depth ks (i + 1) = ((opens ks i).length : Int)
  | 0 => by simp [depth, opens]
  | i + 1 => by
    have := h i
    rw [depth_succ, depth_opens' h i, opens_succ]
    rw [depth_opens' h i] at this
    cases hk : kindAt ks (i + 1) <;> simp only [delta, openStep] <;> try omega
    · rw [List.length_cons]; omega
    · rw [List.length_tail]; have := this hk; omega

section
variable {src : List Src} {s : PState}

theorem nested_of (hR : ReadRules src) : Nested (kinds src) := by
  have h : ∀ i, kindAt (kinds src) (i + 1) = .rb → 1 ≤ depth (kinds src) (i + 1) := by
    intro i hi
    have := kind_bound (ks := kinds src) (i := i + 1) (by rw [hi]; simp)
    rw [kinds_length] at this
    exact (hR.stmt (i + 1) (by omega) this.2).rb hi
  intro i hi ho
  have := h i hi
  rw [depth_opens' h, ho] at this
  simp at this

theorem end_opens (hR : ReadRules src) : opens (kinds src) src.length = [] := by
  have := depth_opens (nested_of hR) src.length
  rw [hR.closed] at this
  exact List.length_eq_zero_iff.mp (by omega)

theorem inv_of (h : Accepted src s) : PInv (declToks src) src s := (parse_inv h.1 h.2).1

theorem kindFn (h : Accepted src s) : (fun i => (s.stmt i).kind) = kindAt (kinds src) := funext (inv_of h).kind

theorem mem_forall2 {α β : Type} {R : α → β → Prop} : ∀ {l : List α} {m : List β}, List.Forall₂ R l m → ∀ y ∈ m, ∃ x ∈ l, R x y
  | _, _, .nil, y, hy => by cases hy
  | _, _, .cons (a := a) h1 h2, y, hy => by
    rcases List.mem_cons.mp hy with rfl | hy
    · exact ⟨a, by simp, h1⟩
    · obtain ⟨x, hx, hr⟩ := mem_forall2 h2 y hy
      exact ⟨x, by simp [hx], hr⟩

theorem mem_forall2' {α β : Type} {R : α → β → Prop} : ∀ {l : List α} {m : List β}, List.Forall₂ R l m → ∀ x ∈ l, ∃ y ∈ m, R x y
  | _, _, .nil, y, hy => by cases hy
  | _, _, .cons (b := b) h1 h2, y, hy => by
    rcases List.mem_cons.mp hy with rfl | hy
    · exact ⟨b, by simp, h1⟩
    · obtain ⟨x, hx, hr⟩ := mem_forall2' h2 y hy
      exact ⟨x, by simp [hx], hr⟩

/-- A symbol of a statement is declared by an active statement, the one `g_MathToken` tells. -/
theorem decl_active (h : Accepted src s) {j t : Nat} (hk : kindAt (kinds src) j ∈ [Kind.d, .e, .f, .a, .p]) (ht : t ∈ s.math j) :
    t < (declToks src).length ∧ Active (kinds src) ((declStmts 1 src).getD t 0) j ∧
      (kindAt (kinds src) ((declStmts 1 src).getD t 0) = .c ∨ kindAt (kinds src) ((declStmts 1 src).getD t 0) = .v) ∧ t ∈ s.math ((declStmts 1 src).getD t 0) := by
  obtain ⟨a, i, b, c, d⟩ := (inv_of h).acts j hk t ht
  rw [decl_getD h c d]
  exact ⟨a, b, c, d⟩

/-- Everything active is active later in the same scopes. -/
theorem active_trans {ks : List Kind} (hn : Nested ks) {a b c : Nat} (h1 : Active ks a b) (h2 : Active ks b c) : Active ks a c := by
  obtain ⟨a, rfl⟩ : ∃ k, a = k + 1 := ⟨a - 1, by have := h1.1; omega⟩
  obtain ⟨b, rfl⟩ : ∃ k, b = k + 1 := ⟨b - 1, by have := h2.1; omega⟩
  obtain ⟨c, rfl⟩ : ∃ k, c = k + 1 := ⟨c - 1, by have := h2.2.1; omega⟩
  rw [active_iff hn] at *
  exact ⟨by omega, h1.2.trans h2.2⟩

theorem mandatory_decl (h : Accepted src s) (hn : Nested (kinds src)) {j v : Nat} (hj : IsAssert src j) (hm : Mandatory (isVarOf src) (kinds src) s.math j v) :
    v < (declToks src).length ∧ Active (kinds src) ((declStmts 1 src).getD v 0) j ∧
      (kindAt (kinds src) ((declStmts 1 src).getD v 0) = .c ∨ kindAt (kinds src) ((declStmts 1 src).getD v 0) = .v) := by
  rcases hm.2 with hv | ⟨e, a, b, hv⟩
  · obtain ⟨x, y, z, _⟩ := decl_active h (j := j) (by rcases hj with e | e <;> rw [e] <;> simp) hv
    exact ⟨x, y, z⟩
  · obtain ⟨x, y, z, _⟩ := decl_active h (j := e) (by rw [b]; simp) hv
    exact ⟨x, active_trans hn y a, z⟩

/-- What the frame of an assertion lists is active there. -/
theorem frame_mem (h : Accepted src s) (hn : Nested (kinds src)) {j : Nat} (hj : IsAssert src j) :
    (∀ t ∈ (s.stmt j).reqVars ++ (s.stmt j).optVars, t < (declToks src).length) ∧
    ∀ i ∈ frameStmts (declStmts 1 src) (s.stmt j), Active (kinds src) i j ∧ kindAt (kinds src) i ∈ [Kind.c, .v, .d, .e, .f] := by
  have F := (inv_of h).frame j hj
  have hopt : ∀ t ∈ (s.stmt j).optVars, t < (declToks src).length ∧ Active (kinds src) ((declStmts 1 src).getD t 0) j ∧
      (kindAt (kinds src) ((declStmts 1 src).getD t 0) = .c ∨ kindAt (kinds src) ((declStmts 1 src).getD t 0) = .v) := by
    intro t ht
    rcases hj with ha | hp
    · rw [(F.aOptS ha).1] at ht; cases ht
    · obtain ⟨⟨i, a, b, c⟩, _⟩ := (F.oVar hp t).mp ht
      have e := decl_of_mem h (Or.inr b) c
      rw [decl_getD h (Or.inr b) c]
      refine ⟨?_, a, Or.inr b⟩
      obtain ⟨hl, _⟩ := List.getElem?_eq_some_iff.mp e
      rwa [declStmts_length] at hl
  have hreq : ∀ t ∈ (s.stmt j).reqVars, t < (declToks src).length ∧ Active (kinds src) ((declStmts 1 src).getD t 0) j ∧
      (kindAt (kinds src) ((declStmts 1 src).getD t 0) = .c ∨ kindAt (kinds src) ((declStmts 1 src).getD t 0) = .v) :=
    fun t ht => mandatory_decl h hn hj ((F.var t).mp ht)
  refine ⟨fun t ht => ?_, fun i hi => ?_⟩
  · rcases List.mem_append.mp ht with ht | ht
    · exact (hreq t ht).1
    · exact (hopt t ht).1
  · unfold frameStmts at hi
    simp only [List.mem_append, List.mem_map] at hi
    rcases hi with ((((hi | hi) | ⟨t, ht, rfl⟩) | ⟨t, ht, rfl⟩) | hi) | hi
    · obtain ⟨a, b⟩ := (F.hyp i).mp hi
      refine ⟨a, ?_⟩
      rcases b with b | ⟨b, _⟩ <;> rw [b] <;> simp
    · rcases hj with ha | hp
      · rw [(F.aOpt ha).1] at hi; cases hi
      · obtain ⟨a, b, _⟩ := (F.opt hp i).mp hi
        exact ⟨a, by rw [b]; simp⟩
    · obtain ⟨_, a, b⟩ := hreq t ht
      refine ⟨a, ?_⟩
      rcases b with b | b <;> rw [b] <;> simp
    · obtain ⟨_, a, b⟩ := hopt t ht
      refine ⟨a, ?_⟩
      rcases b with b | b <;> rw [b] <;> simp
    · obtain ⟨_, _, a, b, _⟩ := mem_forall2 F.dStmt i hi
      exact ⟨a, by rw [b]; simp⟩
    · rcases hj with ha | hp
      · rw [(F.aOptS ha).2] at hi; cases hi
      · obtain ⟨_, _, a, b, _⟩ := mem_forall2 (F.odStmt hp) i hi
        exact ⟨a, by rw [b]; simp⟩

theorem framesIn (h : Accepted src s) (hn : Nested (kinds src)) : FramesIn src.length (declStmts 1 src) s.stmt := by
  have hk := (inv_of h).kind
  refine ⟨fun j h1 h2 hj => ?_, fun j h1 h2 hj t ht => ?_⟩
  · rw [hk] at hj
    obtain ⟨a, b⟩ := frame_mem h hn (j := j) hj
    refine ⟨fun t ht => by rw [declStmts_length]; exact a t ht, fun i hi => ?_⟩
    obtain ⟨c, d⟩ := b i hi
    exact ⟨c.1, by have := c.2.1; omega, by rw [hk]; exact d⟩
  · rw [hk] at hj
    obtain ⟨a, b, c, _⟩ := decl_active h (j := j) (t := t) (by simp only [List.mem_cons, List.not_mem_nil, or_false] at hj ⊢; tauto) ht
    exact ⟨by rw [declStmts_length]; exact a, b.1, by have := b.2.1; omega, by rw [hk]; exact c⟩

/-- Before the symbols are added -/
def Base (D : TDb) (src : List Src) (s : PState) (list : List Char) (i : Nat) : Prop :=
  Wanted D list i ∨ (∃ j, Wanted D list j ∧ Around (kinds src) j i) ∨ ∃ j, Wanted D list j ∧ i ∈ frameStmts (declStmts 1 src) (s.stmt j)

/-- The statements flagged -/
def Flag (D : TDb) (src : List Src) (s : PState) (list : List Char) (i : Nat) : Prop :=
  Base D src s list i ∨ ∃ j, Base D src s list j ∧ kindAt (kinds src) j ∈ [Kind.a, .p, .e, .f] ∧ ∃ t ∈ s.math j, i = (declStmts 1 src).getD t 0

/-- What is known of the database used for the trace -/
structure DbOk (D : TDb) (src : List Src) (list : List Char) : Prop where
  n : D.n = src.length
  kind : ∀ i, D.kind i = kindAt (kinds src) i
  sane : Sane D false
  total : ∀ m, 1 ≤ m → m ≤ D.n → ∃ b, isMatch D m list = .val b

variable {D : TDb} {list : List Char}

theorem wanted_ok (hD : DbOk D src list) {i : Nat} (h : Wanted D list i) : 1 ≤ i ∧ i ≤ src.length ∧ IsAssert src i := by
  obtain ⟨m, hm, hr⟩ := h
  have hk : IsAssert src i := by
    have := reached_kind hm.2.2.1 hr
    rwa [hD.kind] at this
  obtain ⟨a, b⟩ := kind_bound (ks := kinds src) (i := i) (by rcases hk with e | e <;> rw [e] <;> simp)
  rw [kinds_length] at b
  exact ⟨a, b, hk⟩

theorem needed_ok (h : Accepted src s) (hR : ReadRules src) (hD : DbOk D src list) :
    ∃ keep, needed D src s list = .val keep ∧ ∀ i, keep i = true ↔ Flag D src s list i := by
  have hn := nested_of hR
  have hF := framesIn h hn
  have hkf := kindFn h
  obtain ⟨L, hL, hLi⟩ := links_ok (ks := kinds src) src.length
  obtain ⟨f, hf, hfi⟩ := pick_ok (list := list) hD.sane hD.total
  rw [hD.n] at hf
  have hfk : ∀ i, f i = true → kindAt (kinds src) i = .a ∨ kindAt (kinds src) i = .p := fun i hi => (wanted_ok hD ((hfi i).mp hi)).2.2
  obtain ⟨g, hg, hgi⟩ := scopeLoop_ok hLi (end_opens hR) hfk (count := src.length) (stmt := 1) (g := f) (Nat.le_refl _) (by omega)
    (fun i => ⟨Or.inl, fun h => by
      rcases h with h | ⟨j, a, b, _⟩
      · exact h
      · omega⟩)
  obtain ⟨u, hu, hui⟩ := frameLoop_ok hF (f := g) (count := src.length) (stmt := 1) (g := g) (Nat.le_refl _) (by omega)
    (fun i => ⟨Or.inl, fun h => by
      rcases h with h | ⟨j, a, b, _⟩
      · exact h
      · omega⟩)
  obtain ⟨w, hw, hwi⟩ := symLoop_ok hF (f := u) (count := src.length) (stmt := 1) (g := u) (Nat.le_refl _) (by omega)
    (fun i => ⟨Or.inl, fun h => by
      rcases h with h | ⟨j, a, b, _⟩
      · exact h
      · omega⟩)
  have hgflag : ∀ j, flagged (fun i => (s.stmt i).kind) g j = true ↔ Wanted D list j := by
    intro j
    rw [flagged_iff, hgi j]
    rw [show (s.stmt j).kind = kindAt (kinds src) j from (inv_of h).kind j]
    constructor
    · rintro ⟨a | ⟨k, _, _, _, c⟩, b⟩
      · exact (hfi j).mp a
      · have := around_kind c
        rcases b with b | b <;> rw [b] at this <;> simp at this
    · intro a
      exact ⟨Or.inl ((hfi j).mpr a), (wanted_ok hD a).2.2⟩
  have hub : ∀ i, u i = true ↔ Base D src s list i := by
    intro i
    rw [hui i, hgi i]
    unfold Base
    constructor
    · rintro ((a | ⟨j, _, _, a, b⟩) | ⟨j, _, _, a, b⟩)
      · exact Or.inl ((hfi i).mp a)
      · exact Or.inr (Or.inl ⟨j, (hfi j).mp a, b⟩)
      · exact Or.inr (Or.inr ⟨j, (hgflag j).mp a, b⟩)
    · rintro (a | ⟨j, a, b⟩ | ⟨j, a, b⟩)
      · exact Or.inl (Or.inl ((hfi i).mpr a))
      · have := wanted_ok hD a
        exact Or.inl (Or.inr ⟨j, this.1, this.2.1, (hfi j).mpr a, b⟩)
      · have := wanted_ok hD a
        exact Or.inr ⟨j, this.1, this.2.1, (hgflag j).mpr a, b⟩
  refine ⟨w, ?_, fun i => ?_⟩
  · unfold needed
    rw [hkf, hL, Out.bind_val, hf, Out.bind_val, hg, Out.bind_val, hu, Out.bind_val]
    exact hw
  · rw [hwi i, hub i]
    unfold Flag
    constructor
    · rintro (a | ⟨j, _, _, a, b⟩)
      · exact Or.inl a
      · rw [hasMath_iff, hub j, show (s.stmt j).kind = kindAt (kinds src) j from (inv_of h).kind j] at a
        exact Or.inr ⟨j, a.1, a.2, b⟩
    · rintro (a | ⟨j, a, b, c⟩)
      · exact Or.inl a
      · have hb := kind_bound (ks := kinds src) (i := j) (by intro e; rw [e] at b; simp at b)
        rw [kinds_length] at hb
        refine Or.inr ⟨j, hb.1, hb.2, ?_, c⟩
        rw [hasMath_iff, hub j, show (s.stmt j).kind = kindAt (kinds src) j from (inv_of h).kind j]
        exact ⟨a, b⟩

end
end MM.Extr
