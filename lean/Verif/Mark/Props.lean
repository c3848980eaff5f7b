import Verif.Mark.Spec
import Verif.Vstr.EditProps
import Verif.Vstr.Props
import Mathlib.Data.List.GetD
/-!
# C93: discouraged statements
-/
namespace MM.Mark
open MM.Vstr MM.Veri
open Out

theorem occurs_infix {s m : Str} : (∃ p, OccursAt s m p) ↔ m <:+: s := by
  constructor
  · rintro ⟨p, a, b, h, _⟩
    exact ⟨a, b, h.symm⟩
  · rintro ⟨a, b, h⟩
    exact ⟨a.length + 1, a, b, h.symm, rfl⟩

theorem instr_iff (s m : Str) (hm : m ≠ []) : instr 1 s m ≠ 0 ↔ m <:+: s := by
  rw [← occurs_infix]
  rcases C26_instr 1 s m hm with ⟨h1, h2⟩ | ⟨h1, h2, _⟩
  · refine ⟨fun h => absurd h1 h, ?_⟩
    rintro ⟨p, hp⟩
    have : 1 ≤ p := by obtain ⟨a, b, _, rfl⟩ := hp; omega
    exact absurd hp (h2 p (by omega))
  · exact ⟨fun _ => ⟨_, h2⟩, fun _ => by omega⟩

/-! ### The last comment -/

theorem chars_mid (x b y : Str) : chars (x ++ ['$', '('] ++ b ++ ['$', ')'] ++ y) ((x.length + 1 : Nat) + 2) ((x.length + 2 + b.length + 1 : Nat) - 1) = b := by
  rw [chars_eq _ _ (by omega)]
  rw [show ((((x.length + 1 : Nat) : Int) + 2 - 1).toNat) = (x ++ ['$', '(']).length by simp only [List.length_append, List.length_cons, List.length_nil]; omega]
  rw [show (((x.length + 2 + b.length + 1 : Nat) : Int) - 1 - (((x.length + 1 : Nat) : Int) + 2) + 1).toNat = b.length by omega]
  simp only [List.append_assoc]
  rw [← List.append_assoc, List.drop_left, List.take_left]

theorem occ_cut {s : Str} {a b : Char} {p q : Nat} (h : OccursAt s [a, b] p) (h2 : q < p) (x r : Str) (e : s = x ++ r) (hx : x.length = q) : [a, b] <:+: r := by
  obtain ⟨u, v, rfl, rfl⟩ := h
  refine ⟨u.drop q, v, ?_⟩
  have h3 := congrArg (List.drop q) e
  rw [List.drop_left' hx, List.append_assoc, List.drop_append_of_le_length (by omega)] at h3
  rw [← h3]; simp

theorem occ_lift {x r : Str} {a b : Char} (h : [a, b] <:+: r) : ∃ p, OccursAt (x ++ r) [a, b] p ∧ x.length < p := by
  obtain ⟨u, v, rfl⟩ := h
  exact ⟨(x ++ u).length + 1, ⟨x ++ u, v, by simp, rfl⟩, by simp; omega⟩

theorem last_unique {s m : Str} {p q : Nat} (h1 : OccursAt s m p) (h2 : ∀ k, OccursAt s m k → k ≤ p) (h3 : OccursAt s m q) (h4 : ∀ k, OccursAt s m k → k ≤ q) : p = q :=
  Nat.le_antisymm (h4 p h1) (h2 q h3)

/-- C93: the comment of a statement is the last one before it, without the blanks around it; it is empty if there is none. -/
theorem C93_comment (g : Nat → Char) (sec : Str) :
    (∃ b, LastComment sec b ∧ getDescription g sec = edit (8 + 128) g b) ∨ ((∀ b, ¬ LastComment sec b) ∧ getDescription g sec = .val []) := by
  obtain ⟨p1, e1, h1⟩ := C26_rinstr sec "$(".toList (by simp)
  obtain ⟨p2, e2, h2⟩ := C26_rinstr sec "$)".toList (by simp)
  have s1 : "$(".toList = ['$', '('] := by decide
  have s2 : "$)".toList = ['$', ')'] := by decide
  rw [s1] at h1
  rw [s2] at h2
  have key : ∀ b, LastComment sec b → ∃ x y, sec = x ++ ['$', '('] ++ b ++ ['$', ')'] ++ y ∧ p1 = x.length + 1 ∧ p2 = x.length + 2 + b.length + 1 := by
    rintro b ⟨x, y, e, n1, n2⟩
    refine ⟨x, y, e, ?_, ?_⟩
    · have ho : OccursAt sec ['$', '('] (x.length + 1) := ⟨x, b ++ ['$', ')'] ++ y, by rw [e]; simp, rfl⟩
      rcases h1 with ⟨_, h⟩ | ⟨h, hl⟩
      · exact absurd ho (h _)
      refine last_unique h hl ho fun k hk => Classical.byContradiction fun hc => ?_
      have := occ_cut (q := (x ++ ['$']).length) hk (by simp; omega) (x ++ ['$']) ('(' :: (b ++ ['$', ')'] ++ y)) (by rw [e]; simp) rfl
      rcases List.infix_cons_iff.mp this with hp | hp
      · obtain ⟨w, hw⟩ := hp; simp at hw
      · exact n1 hp
    · have ho : OccursAt sec ['$', ')'] (x.length + 2 + b.length + 1) := ⟨x ++ ['$', '('] ++ b, y, by rw [e], by simp; omega⟩
      rcases h2 with ⟨_, h⟩ | ⟨h, hl⟩
      · exact absurd ho (h _)
      refine last_unique h hl ho fun k hk => Classical.byContradiction fun hc => ?_
      have := occ_cut (q := (x ++ ['$', '('] ++ b ++ ['$']).length) hk (by simp; omega) (x ++ ['$', '('] ++ b ++ ['$']) (')' :: y) (by rw [e]; simp) rfl
      rcases List.infix_cons_iff.mp this with hp | hp
      · obtain ⟨w, hw⟩ := hp; simp at hw
      · exact n2 hp
  unfold getDescription
  rw [e1 _ (by omega), bind_val, e2 _ (by omega), bind_val]
  by_cases c : p1 = 0 ∨ p2 = 0 ∨ p2 < p1
  · refine Or.inr ⟨fun b hb => ?_, by rw [if_pos c]⟩
    obtain ⟨x, y, _, e3, e4⟩ := key b hb
    omega
  · rcases h1 with ⟨h, _⟩ | ⟨o1, l1⟩
    · exact absurd (Or.inl h) c
    rcases h2 with ⟨h, _⟩ | ⟨o2, l2⟩
    · exact absurd (Or.inr (Or.inl h)) c
    obtain ⟨x, r, e3, rfl⟩ := o1
    obtain ⟨z, y, e4, rfl⟩ := o2
    have e3' : sec = x ++ (['$', '('] ++ r) := by rw [e3]; simp
    have e4' : sec = z ++ (['$', ')'] ++ y) := by rw [e4]; simp
    have hlen : x.length ≤ z.length := by omega
    have ez : z = x ++ z.drop x.length := by
      have := congrArg (List.take x.length) (e3'.symm.trans e4')
      rw [List.take_left' rfl, List.take_append_of_le_length hlen] at this
      conv_lhs => rw [← List.take_append_drop x.length z, ← this]
    obtain ⟨w, hw⟩ : ∃ w, w = z.drop x.length := ⟨_, rfl⟩
    rw [← hw] at ez
    have e5 : ['$', '('] ++ r = w ++ (['$', ')'] ++ y) := by
      have h := e3'.symm.trans e4'
      rw [ez, List.append_assoc] at h
      exact List.append_cancel_left h
    obtain ⟨b, rfl⟩ : ∃ b, w = ['$', '('] ++ b := by
      match w, e5 with
      | [], e5 => simp at e5
      | [a], e5 => simp at e5
      | a :: a' :: b, e5 =>
        simp at e5
        exact ⟨b, by rw [← e5.1, ← e5.2.1]; rfl⟩
    have er : r = b ++ ['$', ')'] ++ y := by simpa using e5
    have es : sec = x ++ ['$', '('] ++ b ++ ['$', ')'] ++ y := by rw [e3', er]; simp
    have hz : z.length = x.length + 2 + b.length := by rw [ez]; simp; omega
    refine Or.inl ⟨b, ⟨x, y, es, ?_, ?_⟩, ?_⟩
    · intro h
      obtain ⟨p, hp, hl⟩ := occ_lift (x := x ++ ['$', '(']) h
      have := l1 p (by rw [es]; simpa using hp)
      simp at hl
      omega
    · intro h
      obtain ⟨p, hp, hl⟩ := occ_lift (x := x ++ ['$', '('] ++ b ++ ['$', ')']) h
      have := l2 p (by rw [es]; simpa using hp)
      simp at hl
      omega
    · rw [if_neg c, C25_seg, if_neg (by rw [es]; simp; omega), bind_val, hz]
      congr 1
      conv_lhs => rw [es]
      exact chars_mid x b y

theorem lastComment_unique {sec b c : Str} (hb : LastComment sec b) (hc : LastComment sec c) : b = c := by
  have pos : ∀ {b}, LastComment sec b → ∃ x y, sec = x ++ ['$', '('] ++ b ++ ['$', ')'] ++ y ∧ (OccursAt sec ['$', '('] (x.length + 1) ∧ ∀ k, OccursAt sec ['$', '('] k → k ≤ x.length + 1) ∧
      (OccursAt sec ['$', ')'] (x.length + 2 + b.length + 1) ∧ ∀ k, OccursAt sec ['$', ')'] k → k ≤ x.length + 2 + b.length + 1) := by
    rintro b ⟨x, y, e, n1, n2⟩
    refine ⟨x, y, e, ⟨⟨x, b ++ ['$', ')'] ++ y, by rw [e]; simp, rfl⟩, fun k hk => Classical.byContradiction fun hc => ?_⟩,
      ⟨⟨x ++ ['$', '('] ++ b, y, by rw [e], by simp; omega⟩, fun k hk => Classical.byContradiction fun hc => ?_⟩⟩
    · have := occ_cut (q := (x ++ ['$']).length) hk (by simp; omega) (x ++ ['$']) ('(' :: (b ++ ['$', ')'] ++ y)) (by rw [e]; simp) rfl
      rcases List.infix_cons_iff.mp this with hp | hp
      · obtain ⟨w, hw⟩ := hp; simp at hw
      · exact n1 hp
    · have := occ_cut (q := (x ++ ['$', '('] ++ b ++ ['$']).length) hk (by simp; omega) (x ++ ['$', '('] ++ b ++ ['$']) (')' :: y) (by rw [e]; simp) rfl
      rcases List.infix_cons_iff.mp this with hp | hp
      · obtain ⟨w, hw⟩ := hp; simp at hw
      · exact n2 hp
  obtain ⟨x, y, e, ⟨o1, l1⟩, ⟨o2, l2⟩⟩ := pos hb
  obtain ⟨x', y', e', ⟨o1', l1'⟩, ⟨o2', l2'⟩⟩ := pos hc
  have h1 := last_unique o1 l1 o1' l1'
  have h2 := last_unique o2 l2 o2' l2'
  have hl : x.length = x'.length := by omega
  have hl2 : b.length = c.length := by omega
  rw [e] at e'
  simp only [List.append_assoc] at e'
  have e3 := List.append_inj_right e' hl
  have e4 := List.append_inj_right e3 rfl
  exact List.append_inj_left e4 hl2

/-! ### The phrase -/

def keep (s : Str) : Str := s.filter fun c => !isCtrl c

theorem isBlank_iff' (c : Char) : isBlank c = true ↔ c = ' ' ∨ c = '\t' := by simp [isBlank]

theorem isCtrl_iff (c : Char) : isCtrl c = true ↔ c.toNat ∈ [13, 10, 12, 27, 8] := by simp [isCtrl]

theorem ctrl_not_blank {c : Char} (h : isCtrl c = true) : isBlank c = false := by
  rw [Bool.eq_false_iff]
  intro hb
  rcases (isBlank_iff' c).mp hb with rfl | rfl <;> revert h <;> decide

/-- A phrase: words, separated by single spaces. -/
inductive Phrase : Str → Prop
  | one {c} : isBlank c = false → isCtrl c = false → Phrase [c]
  | char {c m} : isBlank c = false → isCtrl c = false → Phrase m → Phrase (c :: m)
  | gap {c m} : isBlank c = false → isCtrl c = false → Phrase m → Phrase (c :: ' ' :: m)

theorem Phrase.head {m : Str} (h : Phrase m) : ∃ c t, m = c :: t ∧ isBlank c = false ∧ isCtrl c = false := by
  cases h with
  | one h1 h2 => exact ⟨_, _, rfl, h1, h2⟩
  | char h1 h2 _ => exact ⟨_, _, rfl, h1, h2⟩
  | gap h1 h2 _ => exact ⟨_, _, rfl, h1, h2⟩

/-- A phrase, or one behind a space, or none -/
inductive Rest : Str → Prop
  | nil : Rest []
  | ph {m} : Phrase m → Rest m
  | sp {m} : Phrase m → Rest (' ' :: m)

theorem Rest.tail {c : Char} {m : Str} (h : Rest (c :: m)) (hc : isBlank c = false) : Rest m := by
  cases h with
  | ph h =>
    cases h with
    | one => exact .nil
    | char _ _ h => exact .ph h
    | gap _ _ h => exact .sp h
  | sp h => exact absurd hc (by decide)

theorem Rest.sp_tail {m : Str} (h : Rest (' ' :: m)) : Phrase m := by
  cases h with
  | ph h => obtain ⟨c, t, e, h1, _⟩ := h.head; obtain ⟨rfl, _⟩ := List.cons.inj e; exact absurd h1 (by decide)
  | sp h => exact h

theorem keep_cons (c : Char) (s : Str) : keep (c :: s) = if isCtrl c = true then keep s else c :: keep s := by
  unfold keep
  rw [List.filter_cons]
  cases isCtrl c <;> rfl

theorem reads_iff : ∀ {s m : Str}, Rest m → (m <+: reduce false (keep s) ↔ Reads m s) ∧ (Phrase m → (m <+: reduce true (keep s) ↔ Reads (' ' :: m) (' ' :: s)))
  | [], m, hm => by
    have e : keep [] = [] := rfl
    rw [e]
    refine ⟨?_, fun hp => ?_⟩
    · show m <+: [] ↔ _
      constructor
      · intro h; rw [List.prefix_nil.mp h]; exact .done _
      · intro h; cases h; exact List.prefix_rfl
    · show m <+: [] ↔ _
      obtain ⟨c, t, rfl, h1, _⟩ := hp.head
      refine ⟨fun h => by simp at h, fun h => ?_⟩
      cases h with
      | skip h _ => exact absurd h (by decide)
      | char h => exact absurd rfl h
      | gap _ h => cases h
      | more _ h => cases h
  | c :: s, m, hm => by
    have ih := fun {m} => @reads_iff s m
    rw [keep_cons]
    by_cases hc : isCtrl c = true
    · rw [if_pos hc]
      have hcm := (isCtrl_iff c).mp hc
      have hcb := ctrl_not_blank hc
      have hn : ¬ (c = ' ' ∨ c = '\t') := fun h => by rw [(isBlank_iff' c).mpr h] at hcb; cases hcb
      refine ⟨(ih hm).1.trans ⟨.skip hcm, fun h => ?_⟩, fun hp => ((ih hm).2 hp).trans ⟨fun h => ?_, fun h => ?_⟩⟩
      · cases h with
        | done => exact .done _
        | skip _ h => exact h
        | char _ _ _ =>
          exfalso
          cases hm with
          | ph h => obtain ⟨d, t, e, _, h2⟩ := h.head; obtain ⟨rfl, _⟩ := List.cons.inj e; rw [hc] at h2; cases h2
          | sp h => exact hn (Or.inl rfl)
        | gap h => exact absurd h hn
        | more h => exact absurd h hn
      · cases h with
        | skip h _ => exact absurd h (by decide)
        | char h => exact absurd rfl h
        | gap h1 h => exact .gap h1 (.skip hcm h)
        | more h1 h => exact .more h1 (.skip hcm h)
      · cases h with
        | skip h _ => exact absurd h (by decide)
        | char h => exact absurd rfl h
        | gap h1 h =>
          cases h with
          | done => obtain ⟨d, t, e, _, h2⟩ := hp.head; cases e
          | skip _ h => exact .gap h1 h
          | char _ _ h => obtain ⟨d, t, e, _, h2⟩ := hp.head; obtain ⟨rfl, _⟩ := List.cons.inj e; rw [hc] at h2; cases h2
          | gap h => exact absurd h hn
          | more h => exact absurd h hn
        | more h1 h =>
          cases h with
          | skip _ h => exact .more h1 h
          | char _ _ h => exact absurd rfl ‹_›
          | gap h => exact absurd h hn
          | more h => exact absurd h hn
    rw [if_neg hc]
    have hnc : ¬ c.toNat ∈ [13, 10, 12, 27, 8] := fun h => hc ((isCtrl_iff c).mpr h)
    by_cases hb : isBlank c = true
    · have hb' := (isBlank_iff' c).mp hb
      have e1 : reduce false (c :: keep s) = ' ' :: reduce true (keep s) := by rw [reduce, if_pos hb]; rfl
      have e2 : reduce true (c :: keep s) = reduce true (keep s) := by rw [reduce, if_pos hb]; rfl
      rw [e1, e2]
      refine ⟨?_, fun hp => ((ih hm).2 hp).trans ⟨fun h => ?_, fun h => ?_⟩⟩
      · cases hm with
        | nil => exact ⟨fun _ => .done _, fun _ => List.nil_prefix⟩
        | ph hp =>
          obtain ⟨d, t, rfl, h1, _⟩ := hp.head
          refine ⟨fun h => ?_, fun h => ?_⟩
          · rw [(List.cons_prefix_cons.mp h).1] at h1; exact absurd h1 (by decide)
          · cases h with
            | skip h _ => exact absurd h hnc
            | char h3 h4 => rcases hb' with h | h; exact absurd h h3; exact absurd h h4
            | gap => exact absurd h1 (by decide)
            | more => exact absurd h1 (by decide)
        | sp hp =>
          rw [List.cons_prefix_cons, and_iff_right rfl, (ih (.ph hp)).2 hp]
          refine ⟨fun h => ?_, fun h => ?_⟩
          · cases h with
            | skip h _ => exact absurd h (by decide)
            | char h => exact absurd rfl h
            | gap _ h => exact .gap hb' h
            | more _ h => exact .more hb' h
          · cases h with
            | skip h _ => exact absurd h hnc
            | char h => exact absurd rfl h
            | gap _ h => exact .gap (Or.inl rfl) h
            | more _ h => exact .more (Or.inl rfl) h
      · cases h with
        | skip h _ => exact absurd h (by decide)
        | char h => exact absurd rfl h
        | gap _ h => exact .more (Or.inl rfl) (.gap hb' h)
        | more _ h => exact .more (Or.inl rfl) (.more hb' h)
      · have : Reads (' ' :: m) (c :: s) := by
          cases h with
          | skip h _ => exact absurd h (by decide)
          | char h => exact absurd rfl h
          | gap _ h =>
            obtain ⟨d, t, rfl, h1, _⟩ := hp.head
            cases h with
            | skip h _ => exact absurd h hnc
            | char h3 h4 => rcases hb' with h | h; exact absurd h h3; exact absurd h h4
            | gap => exact absurd h1 (by decide)
            | more => exact absurd h1 (by decide)
          | more _ h => exact h
        cases this with
        | skip h _ => exact absurd h hnc
        | char hne => exact absurd rfl hne
        | gap _ h => exact .gap (Or.inl rfl) h
        | more _ h => exact .more (Or.inl rfl) h
    · have hb0 : isBlank c = false := Bool.eq_false_iff.mpr hb
      have hn : ¬ (c = ' ' ∨ c = '\t') := fun h => hb ((isBlank_iff' c).mpr h)
      have e : ∀ l, reduce l (c :: keep s) = c :: reduce false (keep s) := fun l => by rw [reduce, if_neg hb]
      rw [e, e]
      have key : m <+: c :: reduce false (keep s) ↔ Reads m (c :: s) := by
        cases m with
        | nil => exact ⟨fun _ => .done _, fun _ => List.nil_prefix⟩
        | cons d t =>
          rw [List.cons_prefix_cons]
          constructor
          · rintro ⟨rfl, h⟩
            exact .char (fun h => hn (Or.inl h)) (fun h => hn (Or.inr h)) ((ih (hm.tail hb0)).1.mp h)
          · intro h
            cases h with
            | skip h _ => exact absurd h hnc
            | char h1 h2 h => exact ⟨rfl, (ih (hm.tail hb0)).1.mpr h⟩
            | gap h => exact absurd h hn
            | more h => exact absurd h hn
      refine ⟨key, fun hp => key.trans ⟨fun h => .gap (Or.inl rfl) h, fun h => ?_⟩⟩
      cases h with
      | skip h _ => exact absurd h (by decide)
      | char h => exact absurd rfl h
      | gap _ h => exact h
      | more _ h =>
        cases h with
        | skip h _ => exact absurd h hnc
        | char h => exact absurd rfl h
        | gap h => exact absurd h hn
        | more h => exact absurd h hn

theorem has_cons {m s : Str} {c : Char} : Has m (c :: s) ↔ Reads m (c :: s) ∨ Has m s := by
  constructor
  · rintro ⟨x, u, e, h⟩
    cases x with
    | nil => left; rw [e]; exact h
    | cons d x => right; exact ⟨x, u, (List.cons.inj e).2, h⟩
  · rintro (h | ⟨x, u, e, h⟩)
    · exact ⟨[], _, rfl, h⟩
    · exact ⟨c :: x, u, by rw [e]; rfl, h⟩

theorem no_blank_start {m s : Str} {c : Char} (hm : Phrase m) (hb : isBlank c = true) : ¬ Reads m (c :: s) := by
  obtain ⟨d, t, rfl, h1, _⟩ := hm.head
  intro h
  cases h with
  | skip h _ => rw [ctrl_not_blank ((isCtrl_iff c).mpr h)] at hb; cases hb
  | char => rw [h1] at hb; cases hb
  | gap => exact absurd h1 (by decide)
  | more => exact absurd h1 (by decide)

theorem has_iff {m : Str} (hm : Phrase m) : ∀ {s : Str} (l : Bool), m <:+: reduce l (keep s) ↔ Has m s
  | [], l => by
    obtain ⟨d, t, rfl, h1, _⟩ := hm.head
    constructor
    · intro h
      have h : (d :: t) <:+: ([] : Str) := by cases l <;> exact h
      simp at h
    · rintro ⟨x, u, e, h⟩
      have : u = [] := (List.append_eq_nil_iff.mp e.symm).2
      subst this
      cases h
  | c :: s, l => by
    rw [has_cons]
    by_cases hc : isCtrl c = true
    · rw [keep_cons, if_pos hc, has_iff hm l]
      refine ⟨Or.inr, ?_⟩
      rintro (h | h)
      · cases h with
        | done => obtain ⟨d, t, e, _⟩ := hm.head; cases e
        | skip _ h => exact ⟨[], _, rfl, h⟩
        | char => obtain ⟨d, t, e, _, h2⟩ := hm.head; obtain ⟨rfl, _⟩ := List.cons.inj e; rw [hc] at h2; cases h2
        | gap => obtain ⟨d, t, e, h2, _⟩ := hm.head; obtain ⟨rfl, _⟩ := List.cons.inj e; exact absurd h2 (by decide)
        | more => obtain ⟨d, t, e, h2, _⟩ := hm.head; obtain ⟨rfl, _⟩ := List.cons.inj e; exact absurd h2 (by decide)
      · exact h
    by_cases hb : isBlank c = true
    · rw [or_iff_right (no_blank_start hm hb), ← has_iff hm true, keep_cons, if_neg hc]
      rw [reduce, if_pos hb]
      cases l with
      | true => exact Iff.rfl
      | false =>
        show m <:+: ' ' :: reduce true (keep s) ↔ _
        rw [List.infix_cons_iff, or_iff_right]
        obtain ⟨d, t, rfl, h1, _⟩ := hm.head
        intro h
        rw [(List.cons_prefix_cons.mp h).1] at h1
        exact absurd h1 (by decide)
    · have h1 := (reads_iff (s := c :: s) (.ph hm)).1
      rw [← has_iff hm false, ← h1, keep_cons, if_neg hc]
      rw [reduce, if_neg hb, reduce, if_neg hb]
      exact List.infix_cons_iff

theorem reads_append {m s : Str} (h : Reads m s) (v : Str) : Reads m (s ++ v) := by
  induction h with
  | done => exact .done _
  | skip h _ ih => exact .skip h ih
  | char h1 h2 _ ih => exact .char h1 h2 ih
  | gap h1 _ ih => exact .gap h1 ih
  | more h1 _ ih => exact .more h1 ih

theorem reads_cut {b : Char} (hb : isBlank b = true) : ∀ {u m : Str}, Rest m → Reads m (u ++ [b]) → Reads m u
  | [], m, hm, h => by
    cases h with
    | done => exact .done _
    | skip h _ => rw [ctrl_not_blank ((isCtrl_iff b).mpr h)] at hb; cases hb
    | char h1 h2 _ => rcases (isBlank_iff' b).mp hb with h | h; exact absurd h h1; exact absurd h h2
    | gap _ h => obtain ⟨d, t, rfl, _⟩ := hm.sp_tail.head; cases h
    | more _ h => cases h
  | c :: u, m, hm, h => by
    cases h with
    | done => exact .done _
    | skip h1 h => exact .skip h1 (reads_cut hb hm h)
    | char h1 h2 h => exact .char h1 h2 (reads_cut hb (hm.tail (Bool.eq_false_iff.mpr fun h => by rcases (isBlank_iff' c).mp h with h | h; exact h1 h; exact h2 h)) h)
    | gap h1 h => exact .gap h1 (reads_cut hb (.ph hm.sp_tail) h)
    | more h1 h => exact .more h1 (reads_cut hb hm h)

theorem has_snoc {m s : Str} {b : Char} (hm : Phrase m) (hb : isBlank b = true) : Has m (s ++ [b]) ↔ Has m s := by
  constructor
  · rintro ⟨x, u, e, h⟩
    rcases List.eq_nil_or_concat u with rfl | ⟨w, d, rfl⟩
    · obtain ⟨d, t, rfl, _⟩ := hm.head; cases h
    · rw [List.concat_eq_append, ← List.append_assoc] at e
      obtain ⟨e1, e2⟩ := List.append_inj' e rfl
      obtain rfl := (List.cons.inj e2).1
      rw [List.concat_eq_append] at h
      exact ⟨x, w, e1, reads_cut hb (.ph hm) h⟩
  · rintro ⟨x, u, e, h⟩
    exact ⟨x, u ++ [b], by rw [e]; simp, reads_append h _⟩

theorem has_trim {m : Str} (hm : Phrase m) (s : Str) : Has m (trimEnd isBlank s) ↔ Has m s := by
  induction s using List.reverseRecOn with
  | nil => exact Iff.rfl
  | append_singleton s b ih =>
    by_cases hb : isBlank b = true
    · rw [has_snoc hm hb, ← ih]
      unfold trimEnd
      rw [List.reverse_append, List.reverse_singleton, List.singleton_append, List.dropWhile_cons_of_pos hb]
    · unfold trimEnd
      rw [List.reverse_append, List.reverse_singleton, List.singleton_append, List.dropWhile_cons_of_neg hb, ← List.singleton_append, List.reverse_append, List.reverse_reverse,
        List.reverse_singleton]

theorem has_drop {m : Str} (hm : Phrase m) : ∀ (s : Str), Has m (s.dropWhile isBlank) ↔ Has m s
  | [] => Iff.rfl
  | c :: s => by
    by_cases hb : isBlank c = true
    · rw [List.dropWhile_cons_of_pos hb, has_drop hm s, has_cons, or_iff_right (no_blank_start hm hb)]
    · rw [List.dropWhile_cons_of_neg hb]

theorem keep_keep (s : Str) : keep (keep s) = keep s := by
  unfold keep; rw [List.filter_filter]; simp

theorem has_keep {m : Str} (hm : Phrase m) (s : Str) : Has m (keep s) ↔ Has m s := by
  rw [← has_iff hm false, keep_keep, has_iff hm false]

theorem keep_of {s : Str} (h : ∀ c ∈ s, isCtrl c = false) : keep s = s := by
  unfold keep
  rw [List.filter_eq_self]
  intro c hc
  rw [h c hc]; rfl

theorem loop136 {s : Str} (hs : NoNul s) : editLoop (8 + 128) false s = s := by
  rw [editLoop_noquote (by decide)]
  refine filterMap_id fun c hc => ?_
  have e : editChar (8 + 128) c = if c.toNat = 0 then none else some c := rfl
  rw [e, if_neg (hs c hc)]

theorem loop156 {s : Str} (hs : NoNul s) : editLoop (4 + 8 + 16 + 128) false s = keep s := by
  rw [editLoop_noquote (by decide)]
  unfold keep
  refine filterMap_filter fun c hc => ?_
  have e : editChar (4 + 8 + 16 + 128) c = if c.toNat = 0 then none else if isCtrl c then none else some c := rfl
  rw [e, if_neg (hs c hc)]

theorem trim_noNul {s : Str} (hs : NoNul s) : NoNul (trimEnd isBlank s) := fun c hc => hs c ((trimEnd_prefix _ _).subset hc)

theorem drop_noNul {s : Str} (hs : NoNul s) : NoNul (s.dropWhile isBlank) := fun c hc => hs c ((List.dropWhile_suffix _).subset hc)

/-- The two `edit`s leave the phrase where it is. -/
theorem edited (g : Nat → Char) {b : Str} (hs : NoNul b) : ∃ d t, edit (8 + 128) g b = .val d ∧ edit (4 + 8 + 16 + 128) g d = .val t ∧ ∀ m, Phrase m → (m <:+: t ↔ Has m b) := by
  have hd : edit (8 + 128) g b = .val (trimEnd isBlank (b.dropWhile isBlank)) := by
    rw [C36_edit_plain (by decide) (by decide)]
    show Out.val (trimEnd isBlank (editLoop (8 + 128) false (b.dropWhile isBlank))) = _
    rw [loop136 (drop_noNul hs)]
  have hn := trim_noNul (drop_noNul hs)
  generalize hD : trimEnd isBlank (b.dropWhile isBlank) = d at hd hn
  have ht : edit (4 + 8 + 16 + 128) g d = .val (reduce false (trimEnd isBlank (keep (d.dropWhile isBlank)))) := by
    rw [C36_edit_plain (by decide) (by decide)]
    show Out.val (reduce false (trimEnd isBlank (editLoop (4 + 8 + 16 + 128) false (d.dropWhile isBlank)))) = _
    rw [loop156 (drop_noNul hn)]
  refine ⟨_, _, hd, ht, fun m hm => ?_⟩
  have hk : keep (trimEnd isBlank (keep (d.dropWhile isBlank))) = trimEnd isBlank (keep (d.dropWhile isBlank)) := by
    refine keep_of fun c hc => ?_
    have := (trimEnd_prefix _ _).subset hc
    unfold keep at this
    have := (List.mem_filter.mp this).2
    simpa using this
  rw [← hk, has_iff hm, has_trim hm, has_keep hm, has_drop hm, ← hD, has_trim hm, has_drop hm]

theorem phrase_of : ∀ {m : Str}, (m.all fun c => c == ' ' || (!isBlank c && !isCtrl c)) = true → m ≠ [] → (∀ c ∈ m.head?, c ≠ ' ') → (∀ c ∈ m.getLast?, c ≠ ' ') →
    List.IsChain (fun a b => ¬ (a = ' ' ∧ b = ' ')) m → Phrase m
  | [], _, h, _, _, _ => absurd rfl h
  | [c], h1, _, h2, _, _ => by
    have := h2 c rfl
    simp [this] at h1
    exact .one h1.1 h1.2
  | [c, d], h1, _, h2, h3, _ => by
    have e1 := h2 c rfl
    have e2 := h3 d rfl
    simp [e1, e2] at h1
    exact .char h1.1.1 h1.1.2 (.one h1.2.1 h1.2.2)
  | c :: d :: e :: m, h1, _, h2, h3, h4 => by
    have e1 := h2 c rfl
    rw [List.all_cons, Bool.and_eq_true] at h1
    have hc : isBlank c = false ∧ isCtrl c = false := by simpa [e1] using h1.1
    obtain ⟨h5, h6⟩ := List.isChain_cons_cons.mp h4
    by_cases hd : d = ' '
    · subst hd
      obtain ⟨h7, h8⟩ := List.isChain_cons_cons.mp h6
      have h9 := h1.2
      rw [List.all_cons, Bool.and_eq_true] at h9
      exact .gap hc.1 hc.2 (phrase_of h9.2 (by simp) (fun x hx => by rw [← Option.some.inj hx]; exact fun h => h7 ⟨rfl, h⟩) (fun x hx => h3 x (by simpa using hx)) h8)
    · exact .char hc.1 hc.2 (phrase_of h1.2 (by simp) (fun x hx => by rw [← Option.some.inj hx]; exact hd) (fun x hx => h3 x (by simpa using hx)) h6)

theorem phrase_proof : Phrase proofMarkup := phrase_of (by decide +kernel) (by decide +kernel) (by decide +kernel) (by decide +kernel) (by decide +kernel)
theorem phrase_usage : Phrase usageMarkup := phrase_of (by decide +kernel) (by decide +kernel) (by decide +kernel) (by decide +kernel) (by decide +kernel)

/-- What is computed for a statement the first time. -/
theorem computed (g : Nat → Char) {sec : Str} (hs : NoNul sec) : ∃ d t, getDescription g sec = .val d ∧ edit (4 + 8 + 16 + 128) g d = .val t ∧
    ∀ m, Phrase m → (instr 1 t m ≠ 0 ↔ ∃ b, LastComment sec b ∧ Has m b) := by
  have hne : ∀ m, Phrase m → m ≠ [] := fun m h => by obtain ⟨c, t, rfl, _⟩ := h.head; simp
  rcases C93_comment g sec with ⟨b, hb, he⟩ | ⟨hb, he⟩
  · have hnb : NoNul b := by
      obtain ⟨x, y, e, _⟩ := hb
      intro c hc
      exact hs c (by rw [e]; simp [hc])
    obtain ⟨d, t, h1, h2, h3⟩ := edited g hnb
    refine ⟨d, t, he.trans h1, h2, fun m hm => ?_⟩
    rw [instr_iff _ _ (hne m hm), h3 m hm]
    refine ⟨fun h => ⟨b, hb, h⟩, ?_⟩
    rintro ⟨b', hb', h⟩
    have : b' = b := lastComment_unique hb' hb
    rw [← this]; exact h
  · refine ⟨[], [], he, rfl, fun m hm => ?_⟩
    rw [instr_iff _ _ (hne m hm)]
    constructor
    · intro h; exact absurd (List.infix_nil.mp h) (hne m hm)
    · rintro ⟨b, h, _⟩; exact absurd h (hb b)

/-- What the static variables hold. -/
def Good (db : Db) (c : Cache) : Prop :=
  c.searched.length = db.n + 1 ∧ c.proof.length = db.n + 1 ∧ c.usage.length = db.n + 1 ∧
  ∀ i, i < db.n + 1 → c.searched.getD i ' ' ≠ 'N' → (c.proof.getD i ' ' = 'Y' ↔ Marked db proofMarkup i) ∧ (c.usage.getD i ' ' = 'Y' ↔ Marked db usageMarkup i)

theorem good_start (db : Db) : Good db (start db.n) := by
  refine ⟨by simp [start], by simp [start], by simp [start], fun i hi h => ?_⟩
  exfalso
  apply h
  show (List.replicate (db.n + 1) 'N').getD i ' ' = 'N'
  rw [List.getD_eq_getElem _ _ (by simpa using hi)]
  simp

theorem fillIn_good (g : Nat → Char) {db : Db} (hs : ∀ i, CString (db.sec i)) {c : Cache} (hc : Good db c) {i : Nat} (hi : i < db.n + 1) :
    (db.kind i = .a ∨ db.kind i = .p ∨ db.kind i = .e ∨ db.kind i = .f → ∃ c', fillIn g db c i = .val c') ∧
    ∀ c', fillIn g db c i = .val c' → Good db c' ∧ c'.searched.getD i ' ' ≠ 'N' := by
  obtain ⟨l1, l2, l3, h⟩ := hc
  have tail : ∀ b : Bool × Bool, (b.1 = true ↔ Marked db proofMarkup i) → (b.2 = true ↔ Marked db usageMarkup i) →
      ∃ c', (poke c.proof i (if b.1 then 'Y' else 'N') >>= fun p => poke c.usage i (if b.2 then 'Y' else 'N') >>= fun u => poke c.searched i 'Y' >>= fun s =>
        (.val ⟨s, p, u⟩ : Out Cache)) = .val c' ∧ Good db c' ∧ c'.searched.getD i ' ' ≠ 'N' := by
    intro b h1 h2
    unfold poke
    rw [if_pos (by omega), bind_val, if_pos (by omega), bind_val, if_pos (by omega), bind_val]
    refine ⟨_, rfl, ⟨by simpa using l1, by simpa using l2, by simpa using l3, fun j hj hn => ?_⟩, ?_⟩
    · dsimp only at hn ⊢
      by_cases e : j = i
      · subst e
        rw [← h1, ← h2]
        simp only [List.getD_eq_getElem?_getD, List.getElem?_set, if_pos (show j < c.proof.length by omega), if_pos (show j < c.usage.length by omega), if_true, Option.getD_some]
        constructor
        · cases b.1 <;> decide
        · cases b.2 <;> decide
      · have e' : ¬ i = j := fun h => e h.symm
        simp only [List.getD_eq_getElem?_getD, List.getElem?_set, if_neg e'] at hn ⊢
        have := h j hj (by rw [List.getD_eq_getElem?_getD]; exact hn)
        simpa only [List.getD_eq_getElem?_getD] using this
    · dsimp only
      simp only [List.getD_eq_getElem?_getD, List.getElem?_set, if_pos (show i < c.searched.length by omega), if_true, Option.getD_some]
      decide
  unfold fillIn
  by_cases k1 : db.kind i = .f ∨ db.kind i = .e
  · have hno : ∀ m, ¬ Marked db m i := by
      rintro m ⟨h | h, _⟩ <;> rw [h] at k1 <;> rcases k1 with h | h <;> cases h
    rw [if_pos k1, bind_val]
    obtain ⟨c', t1, t2⟩ := tail (false, false) ⟨fun h => (by cases h), fun h => absurd h (hno _)⟩ ⟨fun h => (by cases h), fun h => absurd h (hno _)⟩
    exact ⟨fun _ => ⟨c', t1⟩, fun d hd => by rw [t1] at hd; rw [← Out.val.inj hd]; exact t2⟩
  by_cases k2 : db.kind i ≠ .a ∧ db.kind i ≠ .p
  · rw [if_neg k1, if_pos k2]
    refine ⟨?_, fun d hd => by cases hd⟩
    rintro (h | h | h | h)
    · exact absurd h k2.1
    · exact absurd h k2.2
    · exact absurd (Or.inr h) k1
    · exact absurd (Or.inl h) k1
  have k3 : db.kind i = .a ∨ db.kind i = .p := by
    by_cases e : db.kind i = .a
    · exact Or.inl e
    · exact Or.inr (Classical.byContradiction fun e2 => k2 ⟨e, e2⟩)
  obtain ⟨d, t, h1, h2, h3⟩ := computed g (hs i)
  rw [if_neg k1, if_neg k2, h1, bind_val, h2, bind_val, bind_val]
  obtain ⟨c', t1, t2⟩ := tail (decide (instr 1 t proofMarkup ≠ 0), decide (instr 1 t usageMarkup ≠ 0))
    (by dsimp only; rw [decide_eq_true_iff, h3 _ phrase_proof]; exact ⟨fun h => ⟨k3, h⟩, fun h => h.2⟩)
    (by dsimp only; rw [decide_eq_true_iff, h3 _ phrase_usage]; exact ⟨fun h => ⟨k3, h⟩, fun h => h.2⟩)
  exact ⟨fun _ => ⟨c', t1⟩, fun d hd => by rw [t1] at hd; rw [← Out.val.inj hd]; exact t2⟩

theorem read_getD {s : Str} {i : Nat} (h : i < s.length) : Out.read s i = .val (s.getD i ' ') := by
  unfold Out.read
  rw [List.getElem?_eq_getElem h, List.getD_eq_getElem _ _ h]

theorem flag_good (g : Nat → Char) {db : Db} (hs : ∀ i, CString (db.sec i)) {o : Option Cache} (hc : Good db (o.getD (start db.n))) {i mode : Nat} :
    (∀ r, getMarkupFlag g db o i mode = .val r → Good db (r.2.getD (start db.n)) ∧ (mode = 1 ∧ (r.1 = true ↔ Marked db proofMarkup i) ∨ mode = 2 ∧ (r.1 = true ↔ Marked db usageMarkup i))) ∧
    (1 ≤ i → i ≤ db.n → mode = 1 ∨ mode = 2 → db.kind i = .a ∨ db.kind i = .p ∨ db.kind i = .e ∨ db.kind i = .f → ∃ r, getMarkupFlag g db o i mode = .val r) := by
  unfold getMarkupFlag
  dsimp only
  generalize o.getD (start db.n) = c at hc
  by_cases c1 : i < 1 ∨ db.n < i
  · rw [if_pos c1]
    exact ⟨fun r hr => (by cases hr), fun h1 h2 => by omega⟩
  rw [if_neg c1, read_getD (by rw [hc.1]; omega), bind_val]
  obtain ⟨f1, f2⟩ := fillIn_good g hs hc (i := i) (by omega)
  have fin : ∀ c', Good db c' → c'.searched.getD i ' ' ≠ 'N' → ∀ r : Bool × Option Cache,
      (if mode = 1 then Out.read c'.proof i >>= fun y => (.val (y == 'Y', some c') : Out (Bool × Option Cache)) else
        if mode = 2 then Out.read c'.usage i >>= fun y => .val (y == 'Y', some c') else .bug 1394) = .val r →
      Good db (r.2.getD (start db.n)) ∧ (mode = 1 ∧ (r.1 = true ↔ Marked db proofMarkup i) ∨ mode = 2 ∧ (r.1 = true ↔ Marked db usageMarkup i)) := by
    intro c' g1 g2 r hr
    obtain ⟨q1, q2⟩ := g1.2.2.2 i (by omega) g2
    by_cases m1 : mode = 1
    · rw [if_pos m1, read_getD (by rw [g1.2.1]; omega), bind_val] at hr
      rw [← Out.val.inj hr]
      exact ⟨g1, Or.inl ⟨m1, by rw [← q1]; exact beq_iff_eq⟩⟩
    rw [if_neg m1] at hr
    by_cases m2 : mode = 2
    · rw [if_pos m2, read_getD (by rw [g1.2.2.1]; omega), bind_val] at hr
      rw [← Out.val.inj hr]
      exact ⟨g1, Or.inr ⟨m2, by rw [← q2]; exact beq_iff_eq⟩⟩
    · rw [if_neg m2] at hr; cases hr
  have fin2 : ∀ c', Good db c' → mode = 1 ∨ mode = 2 → ∃ r : Bool × Option Cache,
      (if mode = 1 then Out.read c'.proof i >>= fun y => (.val (y == 'Y', some c') : Out (Bool × Option Cache)) else
        if mode = 2 then Out.read c'.usage i >>= fun y => .val (y == 'Y', some c') else .bug 1394) = .val r := by
    intro c' g1 hm
    rw [read_getD (by rw [g1.2.1]; omega), read_getD (by rw [g1.2.2.1]; omega), bind_val, bind_val]
    rcases hm with rfl | rfl
    · exact ⟨_, rfl⟩
    · exact ⟨_, rfl⟩
  by_cases c2 : c.searched.getD i ' ' = 'N'
  · rw [if_pos c2]
    constructor
    · intro r hr
      cases hf : fillIn g db c i with
      | val c' => rw [hf, bind_val] at hr; exact fin c' (f2 c' hf).1 (f2 c' hf).2 r hr
      | ub => rw [hf] at hr; cases hr
      | bug => rw [hf] at hr; cases hr
      | fuel => rw [hf] at hr; cases hr
    · intro _ _ hm hk
      obtain ⟨c', hc'⟩ := f1 hk
      rw [hc', bind_val]
      exact fin2 c' (f2 c' hc').1 hm
  · rw [if_neg c2, bind_val]
    exact ⟨fin c hc c2, fun _ _ hm _ => fin2 c hc hm⟩

theorem reached_good {g : Nat → Char} {db : Db} {o : Option Cache} (h : Reached g db o) : (∀ i, CString (db.sec i)) ∧ Good db (o.getD (start db.n)) := by
  induction h with
  | read h => exact ⟨h, good_start _⟩
  | ask _ h1 ih => exact ⟨ih.1, ((flag_good _ ih.1 ih.2).1 _ h1).1⟩

/-- C93: whatever was asked for before, the answer for an assertion or a hypothesis is given, and it is right: modifying the proof is discouraged if and only if the statement is an
assertion and the last comment before it has the phrase; and so for new usage.  The buffers hold the same at any time (`g`). -/
theorem C93_flag {g : Nat → Char} {db : Db} {o : Option Cache} (h : Reached g db o) {i : Nat} (h1 : 1 ≤ i) (h2 : i ≤ db.n)
    (hk : db.kind i = .a ∨ db.kind i = .p ∨ db.kind i = .e ∨ db.kind i = .f) :
    (∃ b o', getMarkupFlag g db o i 1 = .val (b, o') ∧ (b = true ↔ Marked db "(Proof modification is discouraged.)".toList i)) ∧ ∃ b o', getMarkupFlag g db o i 2 = .val (b, o') ∧ (b = true ↔ Marked db "(New usage is discouraged.)".toList i) := by
  obtain ⟨hs, hg⟩ := reached_good h
  constructor
  · obtain ⟨q1, q2⟩ := flag_good g hs hg (i := i) (mode := 1)
    obtain ⟨r, hr⟩ := q2 h1 h2 (Or.inl rfl) hk
    rcases (q1 r hr).2 with ⟨_, h⟩ | ⟨h, _⟩
    · exact ⟨r.1, r.2, hr, h⟩
    · cases h
  · obtain ⟨q1, q2⟩ := flag_good g hs hg (i := i) (mode := 2)
    obtain ⟨r, hr⟩ := q2 h1 h2 (Or.inr rfl) hk
    rcases (q1 r hr).2 with ⟨h, _⟩ | ⟨_, h⟩
    · cases h
    · exact ⟨r.1, r.2, hr, h⟩

end MM.Mark
