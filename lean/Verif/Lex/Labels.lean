import Verif.Lex.Keywords
import Verif.Proof.Model
import Mathlib.Data.List.Nodup
/-!
# Model of `parseLabels` (src/mmpars.c 427–552) and C16
-/
namespace MM.Lex
open MM.Veri MM.Pars MM.Proof

/-- The label of a statement and the number of error messages about it (mmpars.c 444–487). -/
def labelOf (x : KStmt) : Out (Name × Nat) := do
  let q ← skipWs .ws x.label
  let j := tokenLen q
  if j ≠ 0 then do
    let q2 ← skipWs .ws (q.drop j)
    .val (q.take j, (if (q.take j).any (fun c => !legalLabelChar c) then 1 else 0) +
      (if x.kind = .d ∨ x.kind = .rb ∨ x.kind = .lb ∨ x.kind = .v ∨ x.kind = .c then 1 else 0) + (if tokenLen q2 ≠ 0 then 1 else 0))
  else .val ([], if x.kind = .e ∨ x.kind = .f ∨ x.kind = .a ∨ x.kind = .p then 1 else 0)

/-- The loop over the statements (mmpars.c 443–487). -/
def labelsOf : List KStmt → Out (List Name × Nat)
  | [] => .val ([], 0)
  | x :: xs => do
    let l ← labelOf x
    let r ← labelsOf xs
    .val (l.1 :: r.1, l.2 + r.2)

/-- `strcmp(a, b) <= 0` -/
def leName : Name → Name → Bool
  | [], _ => true
  | _ :: _, [] => false
  | c :: a, d :: b => decide (c.toNat < d.toNat) || (decide (c = d) && leName a b)

/-- The non-empty labels with their statement numbers. -/
def labelled (labels : List Name) : List (Name × Nat) := (labels.zipIdx 1).filter fun e => !e.1.isEmpty

/-- What is assumed of `qsort` with `labelSortCmp` (mmpars.c 498–514): the result is a permutation in the order of the labels. -/
def SortOk (sort : List (Name × Nat) → List (Name × Nat)) : Prop :=
  ∀ l, (sort l).Perm l ∧ (sort l).Pairwise fun a b => leName a.1 b.1 = true

/-- The loop over the sorted labels (mmpars.c 530–550): the statements for which "This label is declared more than once" is
printed.  `prev` is the label before, `flag` is `dupFlag`. -/
def dupLoop : Option Name → Bool → List (Name × Nat) → List Nat
  | _, _, [] => []
  | prev, flag, e :: r =>
    let f1 := flag && decide (prev = some e.1)
    let f2 := f1 || decide ((r.head?.map Prod.fst) = some e.1)
    if f2 then e.2 :: dupLoop (some e.1) f2 r else dupLoop (some e.1) f2 r

/-- Result of `parseLabels`: the labels, the statements reported as having a label declared more than once, the number of all messages. -/
structure LabelsOut where
  labels : List Name
  dups : List Nat
  errs : Nat

/-- `parseLabels` (mmpars.c 427–552); `last` is the pointer to the text after the last statement. -/
def parseLabels (sort : List (Name × Nat) → List (Name × Nat)) (stmts : List KStmt) (last : List Char) : Out LabelsOut := do
  let l ← labelsOf stmts
  let q ← skipWs .ws last
  let dups := dupLoop none false (sort (labelled l.1))
  .val ⟨l.1, dups, l.2 + (if tokenLen q ≠ 0 then 1 else 0) + dups.length⟩

/-! ### Duplicate labels -/

theorem leName_antisymm : ∀ {a b : Name}, leName a b = true → leName b a = true → a = b := by
  intro a
  induction a with
  | nil => intro b _ h; cases b with
    | nil => rfl
    | cons d b => simp [leName] at h
  | cons c a ih =>
    intro b h1 h2
    cases b with
    | nil => simp [leName] at h1
    | cons d b =>
      simp only [leName, Bool.or_eq_true, Bool.and_eq_true, decide_eq_true_eq] at h1 h2
      rcases h1 with h1 | ⟨rfl, h1⟩
      · rcases h2 with h2 | ⟨rfl, _⟩ <;> omega
      · rcases h2 with h2 | ⟨_, h2⟩
        · omega
        · rw [ih h1 h2]

/-- The loop reports exactly the entries whose label occurs again. -/
theorem mem_dupLoop : ∀ {keys : List (Name × Nat)} {prev : Option Name} {flag : Bool}, keys.Pairwise (fun a b => leName a.1 b.1 = true) → keys.Nodup →
    (∀ nm, prev = some nm → ∀ e ∈ keys, leName nm e.1 = true) → (∀ e, keys.head? = some e → prev = some e.1 → flag = true) →
    ∀ i, i ∈ dupLoop prev flag keys ↔ ∃ e ∈ keys, e.2 = i ∧ (prev = some e.1 ∨ ∃ e' ∈ keys, e' ≠ e ∧ e'.1 = e.1) := by
  intro keys
  induction keys with
  | nil => intro prev flag _ _ _ _ i; simp [dupLoop]
  | cons e r ih =>
    intro prev flag hs hn hp hf i
    obtain ⟨hs1, hs2⟩ := List.pairwise_cons.1 hs
    obtain ⟨hn1, hn2⟩ := List.nodup_cons.1 hn
    generalize hf2 : ((flag && decide (prev = some e.1)) || decide ((r.head?.map Prod.fst) = some e.1)) = f2
    have hf2' : f2 = true ↔ (prev = some e.1 ∨ ∃ e' ∈ r, e'.1 = e.1) := by
      rw [← hf2, Bool.or_eq_true, Bool.and_eq_true, decide_eq_true_eq, decide_eq_true_eq]
      constructor
      · rintro (⟨_, h⟩ | h)
        · exact Or.inl h
        · cases r with
          | nil => simp at h
          | cons x r => exact Or.inr ⟨x, by simp, by simpa using h⟩
      · rintro (h | ⟨e', he', h⟩)
        · exact Or.inl ⟨hf e rfl h, h⟩
        · right
          cases r with
          | nil => simp at he'
          | cons x r =>
            have h1 := hs1 x (by simp)
            have h2 : leName x.1 e.1 = true := by
              rcases List.mem_cons.1 he' with rfl | he'
              · rw [h]; rw [h] at h1; exact h1
              · rw [← h]; exact (List.pairwise_cons.1 hs2).1 e' he'
            simp [leName_antisymm h2 h1]
    have ih' := ih (prev := some e.1) (flag := f2) hs2 hn2 (by
      intro nm hnm x hx; simp at hnm; subst hnm; exact hs1 x hx) (by
      intro x hx hxe
      rw [hf2']
      right
      exact ⟨x, List.mem_of_mem_head? hx, by simpa using hxe.symm⟩) i
    have hstep : i ∈ dupLoop prev flag (e :: r) ↔ (f2 = true ∧ i = e.2) ∨ i ∈ dupLoop (some e.1) f2 r := by
      rw [dupLoop, hf2]
      cases f2 <;> simp
    rw [hstep, ih', hf2']
    constructor
    · rintro (⟨h | ⟨e', he', h⟩, rfl⟩ | ⟨x, hx, rfl, h⟩)
      · exact ⟨e, by simp, rfl, Or.inl h⟩
      · exact ⟨e, by simp, rfl, Or.inr ⟨e', by simp [he'], fun hh => hn1 (hh ▸ he'), h⟩⟩
      · refine ⟨x, by simp [hx], rfl, Or.inr ?_⟩
        rcases h with h | ⟨e', he', h1, h2⟩
        · exact ⟨e, by simp, fun hh => hn1 (hh ▸ hx), by simpa using h⟩
        · exact ⟨e', by simp [he'], h1, h2⟩
    · rintro ⟨x, hx, rfl, h⟩
      rcases List.mem_cons.1 hx with rfl | hx'
      · left
        refine ⟨?_, rfl⟩
        rcases h with h | ⟨e', he', h1, h2⟩
        · exact Or.inl h
        · rcases List.mem_cons.1 he' with rfl | he'
          · exact absurd rfl h1
          · exact Or.inr ⟨e', he', h2⟩
      · right
        refine ⟨x, hx', rfl, ?_⟩
        rcases h with h | ⟨e', he', h1, h2⟩
        · left
          have h1 := hp _ h e (by simp)
          rw [leName_antisymm (hs1 x hx') h1]
        · rcases List.mem_cons.1 he' with rfl | he'
          · left; rw [h2]
          · exact Or.inr ⟨e', he', h1, h2⟩

theorem mem_labelled {labels : List Name} {nm : Name} {i : Nat} : (nm, i) ∈ labelled labels ↔ nm ≠ [] ∧ 1 ≤ i ∧ labels[i - 1]? = some nm := by
  unfold labelled
  rw [List.mem_filter, List.mk_mem_zipIdx_iff_le_and_getElem?_sub]
  simp only [Bool.not_eq_true', List.isEmpty_eq_false_iff]
  tauto

theorem nodup_labelled (labels : List Name) : (labelled labels).Nodup := by
  unfold labelled
  apply List.Nodup.filter
  have : ((labels.zipIdx 1).map Prod.snd).Nodup := by
    rw [List.zipIdx_map_snd]; exact List.nodup_range'
  exact List.Nodup.of_map _ this

/-- C16: statement `i` is reported as declaring a label more than once exactly when another statement has the same label. -/
theorem C16_duplicates_reported {sort : List (Name × Nat) → List (Name × Nat)} {stmts : List KStmt} {last : List Char} {o : LabelsOut}
    (hsort : SortOk sort) (h : parseLabels sort stmts last = .val o) (i : Nat) :
    i ∈ o.dups ↔ ∃ nm, nm ≠ [] ∧ 1 ≤ i ∧ o.labels[i - 1]? = some nm ∧ ∃ j, j ≠ i ∧ 1 ≤ j ∧ o.labels[j - 1]? = some nm := by
  unfold parseLabels at h
  cases hl : labelsOf stmts with
  | val l =>
    rw [hl, Out.bind_val] at h
    cases hq : skipWs .ws last with
    | val q =>
      rw [hq, Out.bind_val] at h
      cases h
      simp only
      obtain ⟨hperm, hsorted⟩ := hsort (labelled l.1)
      rw [mem_dupLoop hsorted (hperm.nodup_iff.2 (nodup_labelled _)) (by simp) (by simp)]
      constructor
      · rintro ⟨⟨nm, k⟩, he, rfl, h | ⟨⟨nm', j⟩, he', hne, heq⟩⟩
        · simp at h
        · simp only at heq; subst heq
          obtain ⟨g1, g2, g3⟩ := mem_labelled.1 (hperm.mem_iff.1 he)
          obtain ⟨_, f2, f3⟩ := mem_labelled.1 (hperm.mem_iff.1 he')
          exact ⟨nm', g1, g2, g3, j, fun hh => hne (by simp at hh; rw [hh]), f2, f3⟩
      · rintro ⟨nm, g1, g2, g3, j, hne, f2, f3⟩
        exact ⟨(nm, i), hperm.mem_iff.2 (mem_labelled.2 ⟨g1, g2, g3⟩), rfl, Or.inr ⟨(nm, j), hperm.mem_iff.2 (mem_labelled.2 ⟨g1, f2, f3⟩),
          fun hh => hne (by simpa using hh), rfl⟩⟩
    | ub => rw [hq] at h; cases h
    | bug n => rw [hq] at h; cases h
    | fuel => rw [hq] at h; cases h
  | ub => rw [hl] at h; cases h
  | bug n => rw [hl] at h; cases h
  | fuel => rw [hl] at h; cases h

end MM.Lex
