import Verif.Long.Lines
import Verif.Lex.Toks
/-!
# What is left of a text printed with `printLongLine`
-/
namespace MM.Long
open MM.Vstr MM.Lex MM.Veri

/-- Functions of a text that do not see what white space separates its parts: the words, the words of a proof, the printable characters. -/
structure WordFn {α : Type} (f : Str → List α) : Prop where
  nil : f [] = []
  sep : ∀ a d b, printable d = false → f (a ++ d :: b) = f a ++ f b

def White (s : Str) : Prop := ∀ d ∈ s, printable d = false

theorem words_sep (a : Str) (d : Char) (b : Str) (hd : isGraph d = false) : words (a ++ d :: b) = words a ++ words b := by
  induction h : a.length using Nat.strongRecOn generalizing a with
  | ind n ih =>
    subst h
    cases a with
    | nil => rw [List.nil_append, words_blank hd, words_nil]; rfl
    | cons c a =>
      cases hc : isGraph c
      · rw [List.cons_append, words_blank hc, words_blank hc]
        exact ih a.length (by simp) a rfl
      · have e : c :: a = (c :: a).takeWhile isGraph ++ (c :: a).dropWhile isGraph := (List.takeWhile_append_dropWhile).symm
        have hw : ∀ x ∈ (c :: a).takeWhile isGraph, isGraph x = true := by
          have := List.all_takeWhile (p := isGraph) (l := c :: a)
          rw [List.all_eq_true] at this
          exact this
        have hne : (c :: a).takeWhile isGraph ≠ [] := by rw [List.takeWhile_cons_of_pos hc]; simp
        have hlen : ((c :: a).dropWhile isGraph).length < (c :: a).length := by
          have := congrArg List.length e
          rw [List.length_append] at this
          have := List.length_pos_iff.2 hne
          omega
        have hhead : ∀ x, ((c :: a).dropWhile isGraph).head? = some x → isGraph x = false := by
          intro x hx
          have := List.head?_dropWhile_not isGraph (c :: a)
          rw [hx] at this
          simpa using this
        conv_lhs => rw [e, List.append_assoc]
        conv_rhs => rw [e]
        rw [words_word hw hne, words_word hw hne hhead, ih _ hlen _ rfl]
        · rfl
        · intro x hx
          cases hr : (c :: a).dropWhile isGraph with
          | nil => rw [hr] at hx; simp at hx; rw [← hx]; exact hd
          | cons y r => rw [hr] at hx hhead; simp at hx; exact hhead x (by simp [hx])

theorem words_fn : WordFn words := ⟨words_nil, fun a d b h => words_sep a d b (by rw [← printable_eq]; exact h)⟩

theorem proofWords_fn : WordFn proofWords := by
  refine ⟨words_nil, fun a d b h => ?_⟩
  rw [printable_eq] at h
  have hs : (fun c => [':', '?', '(', ')', '='].contains c) d = false := by
    cases hd : (fun c => [':', '?', '(', ')', '='].contains c) d
    · rfl
    · exfalso
      simp at hd
      rcases hd with rfl | rfl | rfl | rfl | rfl <;> revert h <;> decide
  have : spreadBy (fun c => [':', '?', '(', ')', '='].contains c) (a ++ d :: b) =
      spreadBy (fun c => [':', '?', '(', ')', '='].contains c) a ++ d :: spreadBy (fun c => [':', '?', '(', ')', '='].contains c) b := by
    unfold spreadBy
    rw [List.flatMap_append, List.flatMap_cons, if_neg (by rw [hs]; simp)]
    rfl
  unfold proofWords
  rw [this, words_sep _ _ _ h]

theorem graph_fn : WordFn (fun s : Str => s.filter printable) := by
  refine ⟨rfl, fun a d b h => ?_⟩
  rw [List.filter_append, List.filter_cons_of_neg (by simp [h])]

section
variable {α : Type} {f : Str → List α} (hf : WordFn f)
include hf

theorem WordFn.white {w : Str} (hw : White w) (b : Str) : f (w ++ b) = f b := by
  induction w with
  | nil => rfl
  | cons d w ih =>
    have := hf.sep [] d (w ++ b) (hw d (by simp))
    rw [hf.nil] at this
    rw [List.cons_append]
    exact this.trans (ih fun x hx => hw x (by simp [hx]))

theorem WordFn.white' {w : Str} (hw : White w) (a b : Str) (hne : w ≠ []) : f (a ++ w ++ b) = f a ++ f b := by
  cases w with
  | nil => exact absurd rfl hne
  | cons d w =>
    rw [List.append_assoc, List.cons_append, hf.sep a d _ (hw d (by simp)), hf.white fun x hx => hw x (by simp [hx])]

theorem WordFn.unquote' (s : Str) : ∀ pre, f (pre ++ unquote s) = f (pre ++ s) := by
  induction s with
  | nil => intro pre; rfl
  | cons d t ih =>
    intro pre
    have e : unquote (d :: t) = (if d = QSP then ' ' else d) :: unquote t := rfl
    rw [e]
    by_cases h : d = QSP
    · rw [if_pos h, hf.sep _ _ _ (by decide), h, hf.sep _ _ _ (by decide)]
      have := ih []
      rw [List.nil_append, List.nil_append] at this
      rw [this]
    · rw [if_neg h]
      have := ih (pre ++ [d])
      rw [List.append_assoc, List.append_assoc] at this
      exact this

theorem WordFn.unquote (s : Str) : f (unquote s) = f s := hf.unquote' s []

theorem WordFn.lines (m : Str) : f m = (linesOf m).flatMap f := by
  induction h : m.length using Nat.strongRecOn generalizing m with
  | ind n ih =>
    subst h
    rcases instr_nl m with ⟨_, h2⟩ | ⟨a, b, h1, h2, _⟩
    · by_cases he : m = []
      · subst he; rw [hf.nil]; rfl
      · rw [linesOf_last m h2 he]; simp
    · rw [h1, linesOf_cons a b h2, List.flatMap_cons, hf.sep _ _ _ (by decide), ih b.length (by rw [h1]; simp; omega) b rfl]

theorem WordFn.printed (ls : List Str) : f (printed ls) = ls.flatMap f := by
  induction ls with
  | nil => exact hf.nil
  | cons l ls ih =>
    have : MM.Long.printed (l :: ls) = l ++ '\n' :: MM.Long.printed ls := by simp [MM.Long.printed]
    rw [this, hf.sep _ _ _ (by decide), ih, List.flatMap_cons]

end

theorem ind_white {c : Cfg} {W : Int} {next : Str} (hn : White next) {first : Bool} {line i : Str} (h : Ind c W next first line i) : White i := by
  unfold Ind at h
  have hnil : White [] := fun d hd => by cases hd
  split at h
  · rw [h]; exact hnil
  · rcases h with ⟨h, _⟩ | ⟨k, n, _, _, h⟩
    · rw [h]; exact hnil
    · rw [h]
      intro d hd
      rcases List.mem_append.1 hd with hd | hd
      · exact hn d (List.mem_of_mem_take hd)
      · rw [List.eq_of_mem_replicate hd]; rfl

/-- Where the lines are broken at spaces only. -/
theorem wrapped_words {α : Type} {f : Str → List α} (hf : WordFn f) {c : Cfg} (hb : c.bm ≠ []) (h8 : c.bm.head? ≠ some '&') (ht : c.tilde = false) {W : Int} {next : Str}
    (hn : White next) {first : Bool} {line : Str} {ls : List Str} (h : Wrapped c W next first line ls) : ls.flatMap f = f line := by
  induction h with
  | last hi => simp [hf.white (ind_white hn hi)]
  | @more first a g b i ls hi hg _ ih =>
    have hw : White g ∧ g ≠ [] := by
      unfold Gap at hg
      rw [if_neg hb] at hg
      rcases hg with ⟨rfl, _⟩ | rfl | ⟨hg, _⟩
      · exact ⟨fun d hd => by simp at hd; subst hd; rfl, by simp⟩
      · exact ⟨fun d hd => by simp at hd; subst hd; rfl, by simp⟩
      · exact absurd hg h8
    rw [List.flatMap_cons, ih, ht, hf.white' hw.1 a b hw.2]
    simp [hf.white (ind_white hn hi)]

/-- The printable characters stay, wherever the lines are broken. -/
theorem wrapped_graph {c : Cfg} (ht : c.tilde = false) {W : Int} {next : Str} (hn : White next) {first : Bool} {line : Str} {ls : List Str}
    (h : Wrapped c W next first line ls) : ls.flatMap (fun s => s.filter printable) = line.filter printable := by
  induction h with
  | last hi => simp [List.filter_eq_nil_iff.2 fun d hd => by simpa using ind_white hn hi d hd]
  | @more first a g b i ls hi hg _ ih =>
    have hw : g.filter printable = [] := by
      unfold Gap at hg
      split at hg
      · rw [hg.1]; rfl
      · rcases hg with ⟨rfl, _⟩ | rfl | ⟨_, rfl, _⟩ <;> rfl
    rw [List.flatMap_cons, ih, ht]
    simp [hw, List.filter_eq_nil_iff.2 fun d hd => by simpa using ind_white hn hi d hd]

theorem quote_map : ∀ (s : Str) (p : Option Char) (q : Bool), unquote (quoteSpaces p q s) = unquote s
  | [], _, _ => rfl
  | d :: t, p, q => by
    rw [quoteSpaces]
    have ih := quote_map t (some d)
    unfold unquote at ih ⊢
    rw [List.map_cons, List.map_cons, ih]
    congr 1
    generalize (if d = '"' ∧ p ≠ none then decide (q = false ∧ p = some '=') else q) = q'
    by_cases h : d = ' ' ∧ q' = true
    · rw [if_pos h, h.1]; rfl
    · rw [if_neg h]

theorem quote_mem : ∀ (s : Str) (p : Option Char) (q : Bool), ∀ d ∈ quoteSpaces p q s, d = QSP ∨ d ∈ s
  | [], _, _ => fun d hd => by cases hd
  | e :: t, p, q => by
    intro d hd
    rw [quoteSpaces] at hd
    rcases List.mem_cons.1 hd with hd | hd
    · generalize (if e = '"' ∧ p ≠ none then decide (q = false ∧ p = some '=') else q) = q' at hd
      by_cases h : e = ' ' ∧ q' = true
      · rw [if_pos h] at hd; exact Or.inl hd
      · rw [if_neg h] at hd; exact Or.inr (by simp [hd])
    · exact (quote_mem t _ _ d hd).imp id (List.mem_cons_of_mem _)

theorem flatMap_eq_flatten {α : Type} (f : Str → List α) (hu : ∀ s, f (unquote s) = f s) {R : Str → List Str → Prop} (hR : ∀ l ls, R l ls → ls.flatMap f = f l) :
    ∀ {xs : List Str} {lss : List (List Str)}, List.Forall₂ R xs lss → (lss.flatten.map unquote).flatMap f = xs.flatMap f
  | _, _, .nil => rfl
  | x :: xs, ls :: lss, .cons h t => by
    have : (ls.map unquote).flatMap f = ls.flatMap f := by rw [List.flatMap_map]; simp [hu]
    rw [List.flatten_cons, List.map_append, List.flatMap_append, this, hR _ _ h, flatMap_eq_flatten f hu hR t, List.flatMap_cons]

end MM.Long
