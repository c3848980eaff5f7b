import Verif.Incl.Term
import Verif.Lex.Read
/-!
# `readInclude` over comments and words
-/
namespace MM.Incl
open MM.Veri MM.Pars MM.Lex

variable {fs : Name → Out (Option (List Char))} {main : Name}

/-- No comment of the words begins with Begin or Skip. -/
def NM (ws : List Name) : Prop := ¬ [['$', '('], ['B', 'e', 'g', 'i', 'n']] <:+: ws ∧ ¬ [['$', '('], ['S', 'k', 'i', 'p']] <:+: ws

theorem NM.suffix {ws vs : List Name} (h : NM ws) (hs : vs <:+ ws) : NM vs :=
  ⟨fun hi => h.1 (hi.trans hs.isInfix), fun hi => h.2 (hi.trans hs.isInfix)⟩

theorem comment_plain {p : List Char} (hnm : NM (['$', '('] :: words p)) : comment none (rawWs p) = .other (rawWs p) := by
  have key : ∀ w : Name, w ≠ [] → rawTok (rawWs p) = w → [['$', '('], w] <:+: (['$', '('] :: words p) := by
    intro w hw h
    have hne : rawTok (rawWs p) ≠ [] := by rw [h]; exact hw
    rw [words_step hne, h]
    exact ⟨[], words (afterTok (rawWs p)), rfl⟩
  unfold comment
  dsimp only
  rw [if_neg (fun h => hnm.1 (key _ (by simp) h)), if_neg (fun h => hnm.2 (key _ (by simp) h))]

theorem words_gap {z : List Char} (h : ∀ c ∈ z, isGraph c = false) : words z = [] := by
  induction z with
  | nil => exact words_nil
  | cons c z ih => rw [words_blank (h c (List.mem_cons_self))]; exact ih fun d hd => h d (List.mem_cons_of_mem _ hd)

theorem rawWs_split (p : List Char) : ∃ z, p = z ++ rawWs p ∧ ∀ c ∈ z, isGraph c = false := by
  refine ⟨p.takeWhile fun c => !isGraph c, (List.takeWhile_append_dropWhile).symm, ?_⟩
  intro c hc
  simpa using List.mem_takeWhile_imp hc

theorem mem_words_infix : ∀ (k : Nat) (b : List Char), b.length ≤ k → ∀ w ∈ words b, w <:+: b
  | 0, b, hb, w, h => by
    have : b = [] := List.length_eq_zero_iff.1 (Nat.le_zero.1 hb)
    subst this
    rw [words_nil] at h
    cases h
  | k + 1, b, hb, w, h => by
    by_cases h0 : rawTok (rawWs b) = []
    · rw [words_end h0] at h; cases h
    · rw [words_step h0] at h
      rcases List.mem_cons.1 h with h | h
      · have : rawTok (rawWs b) <:+: b := (List.IsPrefix.isInfix ⟨afterTok (rawWs b), rawTok_append _⟩).trans (rawWs_suffix b).isInfix
        rw [← h] at this
        exact this
      · have e1 := len_after h0
        exact (mem_words_infix k _ (by omega) w h).trans ((afterTok_suffix _).trans (rawWs_suffix b)).isInfix

/-- `getNextInclusion` skips comments. -/
theorem skip_comments : ∀ (n : Nat) (p : List Char) (ts : List Name), p.length ≤ n → uncomment false (words p) = some ts → NM (words p) →
    ∃ a p', p = a ++ p' ∧ scan none p = scan none p' ∧ uncomment false (words a) = some [] ∧ (a = [] ∨ AtGap p') ∧
      uncomment false (words p') = some ts ∧ words p' <:+ words p ∧ rawTok (rawWs p') ≠ ['$', '(']
  | 0, p, ts, hn, h, _ => by
    have : p = [] := List.length_eq_zero_iff.1 (Nat.le_zero.1 hn)
    subst this
    exact ⟨[], [], rfl, rfl, by rw [words_nil]; rfl, Or.inl rfl, h, List.suffix_refl _, by intro h; cases h⟩
  | n + 1, p, ts, hn, h, hnm => by
    by_cases h1 : rawTok (rawWs p) = ['$', '(']
    · have hne : rawTok (rawWs p) ≠ [] := by rw [h1]; simp
      have hlen := len_after hne
      have hws := words_step hne
      rw [h1] at hws
      have h' := h
      rw [hws, uncomment, if_pos rfl] at h'
      obtain ⟨b, hb, hgap, hbe, hu, hct, hwb⟩ := findClose_spec _ _ _ (Nat.le_refl _) h'
      have hsc : scan none p = scan none (findClose (afterTok (rawWs p))) := by
        rw [scan_comment (by rw [h1]) (comment_plain (by rw [← hws]; exact hnm)), ← findClose_ws]
      have e1 := (findClose_suffix (afterTok (rawWs p))).length_le
      have hsuf : words (findClose (afterTok (rawWs p))) <:+ words p := by
        rw [hws, hwb]
        exact (List.suffix_cons _ _).trans ((List.suffix_append _ _).trans (List.suffix_cons _ _))
      obtain ⟨a, p', i1, i2, i3, i4, i5, i6, i7⟩ := skip_comments n _ ts (by omega) hu (hnm.suffix hsuf)
      obtain ⟨z, hz, hzg⟩ := rawWs_split p
      have hp : p = (z ++ (['$', '('] ++ (b ++ (['$', ')'] ++ a)))) ++ p' := by
        conv_lhs => rw [hz, ← rawTok_append (rawWs p), h1, hb, i1]
        simp only [List.append_assoc]
      have hgap' : AtGap p' := by
        rcases i4 with rfl | i4
        · rw [i1] at hgap; exact hgap
        · exact i4
      refine ⟨_, p', hp, hsc.trans i2, ?_, Or.inr hgap', i5, i6.trans hsuf, i7⟩
      -- the words of the comments
      have hagap : AtGap a := by
        intro c hc
        apply hgap c
        rw [i1]
        cases a with
        | nil => cases hc
        | cons x a => simpa using hc
      have hbgap : AtGap (b ++ (['$', ')'] ++ a)) := by
        intro c hc
        apply atGap_after (rawWs p) c
        rw [hb]
        cases b with
        | nil => simpa using hc
        | cons x b => simpa using hc
      have hw1 : words (z ++ (['$', '('] ++ (b ++ (['$', ')'] ++ a)))) = ['$', '('] :: (words b ++ (['$', ')'] :: words a)) := by
        rw [words_app (Or.inl (fun c hc => hzg c (List.mem_of_getLast? hc))), words_gap hzg, List.nil_append, words_word (by decide) (by decide) hbgap,
          words_app (Or.inl hbe), words_word (by decide) (by decide) hagap]
      have hw2 : words (findClose (afterTok (rawWs p))) = words a ++ words p' := by
        rw [i1]
        exact words_app (Or.inr hgap')
      rw [hw1, uncomment, if_pos rfl]
      -- in a comment only the closing word matters
      have hcl : ∀ (com x y : List Name), uncomment true (com ++ ['$', ')'] :: (x ++ y)) = some ts →
          (∀ w ∈ com, w ≠ ['$', ')']) → uncomment true (com ++ ['$', ')'] :: x) = uncomment false x := by
        intro com
        induction com with
        | nil => intro x y _ _; rw [List.nil_append, uncomment, if_pos rfl]
        | cons w com ih =>
          intro x y hxy hm
          rw [List.cons_append, uncomment, if_neg (hm w (List.mem_cons_self))] at hxy ⊢
          by_cases hk : hasMark w = true
          · rw [if_pos hk] at hxy; cases hxy
          · rw [if_neg hk] at hxy ⊢
            exact ih x y hxy fun v hv => hm v (List.mem_cons_of_mem _ hv)
      rw [hcl (words b) (words a) (words p') (by rw [← hw2, ← hwb]; exact h')]
      · exact i3
      · intro w hw hcw
        rw [hcw] at hw
        exact hct.1 (mem_words_infix _ _ (Nat.le_refl _) _ hw)
    · exact ⟨[], p, rfl, rfl, by rw [words_nil]; rfl, Or.inl rfl, h, List.suffix_refl _, h1⟩

/-- `getNextInclusion` at a file inclusion. -/
theorem scan_incl {p : List Char} {f : Name} {ts : List Name} (h1 : rawTok (rawWs p) = ['$', '[']) (hf : '$' ∉ f)
    (h : uncomment false (words (afterTok (rawWs p))) = some (f :: ['$', ']'] :: ts)) :
    ∃ c2 y, scan none p = .val (.incl (rawWs p) f c2) ∧ uncomment false (words c2) = some ts ∧ words c2 <:+ words p ∧ AtGap c2 ∧
      p = y ++ (['$', ']'] ++ c2) ∧ f ≠ [] ∧ ∀ c ∈ f, isGraph c = true := by
  have hne : rawTok (rawWs p) ≠ [] := by rw [h1]; simp
  have hpre : ['$', '['] <+: rawTok (rawWs p) := by rw [h1]
  obtain ⟨e1, e2⟩ := prefix_pair hpre
  have nf : ¬ ['$', '!'] <+: f := fun hp => hf (hp.subset (List.mem_cons_self))
  obtain ⟨q1, a1, a2, a3, a4, a5⟩ := skipWs_word _ _ _ _ (Nat.le_refl _) h nf
  obtain ⟨q2, b1, b2, b3, b4, b5⟩ := skipWs_word _ _ _ _ (Nat.le_refl _) a3 (by decide)
  have hfne : f ≠ [] := by
    have : f ∈ words (afterTok (rawWs p)) := by
      have key : ∀ (ws : List Name) (m : Bool) (x : List Name), uncomment m ws = some x → ∀ w ∈ x, w ∈ ws := by
        intro ws
        induction ws with
        | nil => intro m x h w hw; cases m <;> cases h; exact hw
        | cons v ws ih =>
          intro m x h w hw
          cases m with
          | false =>
            rw [uncomment] at h
            by_cases h1 : v = ['$', '(']
            · rw [if_pos h1] at h; exact List.mem_cons_of_mem _ (ih _ _ h w hw)
            · rw [if_neg h1] at h
              by_cases h2 : hasMark v = true
              · rw [if_pos h2] at h; cases h
              · rw [if_neg h2] at h
                cases hu : uncomment false ws with
                | none => rw [hu] at h; cases h
                | some y =>
                  rw [hu] at h
                  cases h
                  rcases List.mem_cons.1 hw with rfl | hw
                  · exact List.mem_cons_self
                  · exact List.mem_cons_of_mem _ (ih _ _ hu w hw)
          | true =>
            rw [uncomment] at h
            by_cases h1 : v = ['$', ')']
            · rw [if_pos h1] at h; exact List.mem_cons_of_mem _ (ih _ _ h w hw)
            · rw [if_neg h1] at h
              by_cases h2 : hasMark v = true
              · rw [if_pos h2] at h; cases h
              · rw [if_neg h2] at h; exact List.mem_cons_of_mem _ (ih _ _ h w hw)
      exact key _ _ _ h f (List.mem_cons_self)
    exact words_ne_nil f this
  have hq2 : q2 <:+ p := b5.trans ((afterTok_suffix q1).trans (a5.trans ((afterTok_suffix _).trans (rawWs_suffix p))))
  obtain ⟨y, hy⟩ := hq2
  refine ⟨afterTok q2, y, ?_, b3, ?_, atGap_after _, ?_, hfne, ?_⟩
  · rw [scan_eq]
    unfold stepIncl
    dsimp only
    rw [if_neg hne, if_neg (by simp [e1]), if_pos e2, a1, Out.bind_val, b1, Out.bind_val, if_pos b2, a2]
  · rw [words_step hne]
    exact b4.trans (a4.trans (List.suffix_cons _ _))
  · rw [← hy, ← b2, rawTok_append]
  · rw [← a2]; exact rawTok_graph q1

/-- What is before the pointer does not matter to `readInclude`. -/
theorem expand_skip {a p' : List Char} (hsc : scan none (a ++ p') = scan none p') (n : Nat) (s : St) :
    expand fs main (n + 1) s (a ++ p') = expand fs main (n + 1) s p' >>= fun x => .val (a ++ x.1, x.2) := by
  have hup : ∀ c : List Char, c <:+ p' → upTo (a ++ p') c = a ++ upTo p' c := by
    intro c hc
    have := hc.length_le
    unfold upTo
    rw [List.length_append, Nat.add_sub_assoc this, List.take_length_add_append]
  have hnew : ∀ c1 nm c2, c1 <:+ p' → inclNew fs (expand fs main n) s (a ++ p') c1 nm c2 = inclNew fs (expand fs main n) s p' c1 nm c2 >>= fun x => .val (a ++ x.1, x.2) := by
    intro c1 nm c2 hc
    unfold inclNew
    cases fs nm with
    | val t =>
      simp only [Out.bind_val]
      cases expand fs main n (content { s with seen := nm :: s.seen } t).2 (content s t).1 with
      | val x =>
        simp only [Out.bind_val]
        cases expand fs main n x.2 c2 with
        | val y => simp only [Out.bind_val]; rw [hup _ hc, List.append_assoc]
        | ub => rfl
        | bug k => rfl
        | fuel => rfl
      | ub => rfl
      | bug k => rfl
      | fuel => rfl
    | ub => rfl
    | bug k => rfl
    | fuel => rfl
  have one : ∀ (s1 : St) (q : List Char) (g : List Char → List Char), (expand fs main n s1 q >>= fun x => .val (a ++ g x.1, x.2)) =
      ((expand fs main n s1 q >>= fun x => .val (g x.1, x.2)) >>= fun x => .val (a ++ x.1, x.2)) := by
    intro s1 q g
    cases expand fs main n s1 q <;> rfl
  rw [expand_succ, expand_succ, hsc]
  cases hcmd : scan none p' with
  | val cmd =>
    have hok := scan_ok' hcmd
    simp only [Out.bind_val]
    cases cmd with
    | none => rfl
    | noEnd c2 =>
      unfold expandStep
      dsimp only
      by_cases h1 : c2.length < 2
      · rw [if_pos h1, if_pos h1]; rfl
      · rw [if_neg h1, if_neg h1, hup _ ((List.drop_suffix 2 c2).trans hok.1)]
        simp only [List.append_assoc]
        exact one _ _ fun y => upTo p' (c2.drop 2) ++ y
    | incl c1 nm c2 =>
      unfold expandStep
      dsimp only
      by_cases h1 : nm = main
      · rw [if_pos h1, if_pos h1]; rfl
      · rw [if_neg h1, if_neg h1]
        by_cases h2 : nm ∈ s.seen
        · rw [if_pos h2, if_pos h2, hup _ hok.1]
          simp only [List.append_assoc]
          exact one _ _ fun y => upTo p' c1 ++ (skipText nm ++ y)
        · rw [if_neg h2, if_neg h2]
          exact hnew _ _ _ hok.1
    | skip c1 nm c2 =>
      unfold expandStep
      dsimp only
      by_cases h1 : nm = main
      · rw [if_pos h1, if_pos h1]; rfl
      · rw [if_neg h1, if_neg h1]
        by_cases h2 : nm ∈ s.seen
        · rw [if_pos h2, if_pos h2, hup _ (hok.2.1.trans hok.1)]
          simp only [List.append_assoc]
          exact one _ _ fun y => upTo p' c2 ++ y
        · rw [if_neg h2, if_neg h2]
          exact hnew _ _ _ hok.1
    | block c1 nm c2 e1 e2 =>
      unfold expandStep
      dsimp only
      by_cases h1 : nm = main
      · rw [if_pos h1, if_pos h1]; rfl
      · rw [if_neg h1, if_neg h1]
        by_cases h2 : nm ∈ s.seen
        · rw [if_pos h2, if_pos h2, hup _ hok.1]
          simp only [List.append_assoc]
          exact one _ _ fun y => upTo p' c1 ++ (skipText nm ++ y)
        · rw [if_neg h2, if_neg h2, hup _ hok.1]
          cases expand fs main n { s with seen := nm :: s.seen } (upTo c2.tail e1) with
          | val x =>
            simp only [Out.bind_val]
            by_cases h3 : c1.length < (c1.length - c2.tail.length) + x.1.length + (e1.length - e2.length)
            · rw [if_pos h3, if_pos h3]; rfl
            · rw [if_neg h3, if_neg h3]
              simp only [List.append_assoc]
              exact one _ _ fun y => upTo p' c1 ++ (c1.take ((c1.length - c2.tail.length) + x.1.length + (e1.length - e2.length)) ++ y)
          | ub => rfl
          | bug k => rfl
          | fuel => rfl
  | ub => rfl
  | bug k => rfl
  | fuel => rfl

end MM.Incl
