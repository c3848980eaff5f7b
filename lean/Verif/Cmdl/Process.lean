import Verif.Cmdl.Again
/-!
# C78: a command in full is the same command (the whole command)
-/
namespace MM.Cmdl
open MM.Vstr MM.Date

/-- The command the program works with: the full arguments without a `chr(3)` at the end. -/
def trimmed (l : List Str) : List Str := if l.getLastD [] = nothing3 then l.dropLast else l

theorem trimmed_prefix (l : List Str) : ∃ r, l = trimmed l ++ r ∧ r.length ≤ 1 := by
  unfold trimmed
  split
  · cases h : l.reverse with
    | nil =>
      obtain rfl : l = [] := by simpa using h
      exact ⟨[], rfl, by simp⟩
    | cons x m =>
      have : l = m.reverse ++ [x] := by rw [← List.reverse_reverse l, h]; simp
      exact ⟨[x], by rw [this]; simp, by simp⟩
  · exact ⟨[], by simp, by simp⟩

theorem process_zero {W : World} {next : List Str → Next} {s : St} : process W next 0 s = .fuel := by
  unfold process; rfl

theorem process_bad {W : World} {next : List Str → Next} {f : Nat} {s : St} (h : next s.full = .bad) : process W next (f + 1) s = .val (none, s) := by
  simp only [process, h]

theorem process_good {W : World} {next : List Str → Next} {f : Nat} {s : St} (h : next s.full = .good) :
    process W next (f + 1) s = if s.full = [] then .ub else if s.raw.length < (trimmed s.full).length then .bug 1102
      else if (trimmed s.full).length < s.raw.length then .val (none, s) else .val (some (trimmed s.full), s) := by
  simp only [process, h]
  rfl

theorem process_call {W : World} {next : List Str → Next} {f : Nat} {s : St} {cmd : Str} (h : next s.full = .call cmd) :
    process W next (f + 1) s = (getFullArg W cmd s.full.length s >>= fun r => if r.1.isSome then .val (none, r.2) else process W next f r.2) := by
  simp only [process, h]

theorem call_inv {W : World} {next : List Str → Next} {f : Nat} {s t : St} {cmd : Str} {F : List Str} (h : next s.full = .call cmd) (hp : process W next (f + 1) s = .val (some F, t)) :
    ∃ t1, getFullArg W cmd s.full.length s = .val (none, t1) ∧ process W next f t1 = .val (some F, t) := by
  rw [process_call h] at hp
  obtain ⟨⟨e, t1⟩, h1, h2⟩ := bind_inv hp
  cases e with
  | some e => cases h2
  | none => exact ⟨t1, h1, h2⟩

theorem process_facts {W : World} {next : List Str → Next} (hS : ∀ l cmd, next l = .call cmd → Sane cmd) (hA : ∀ n, W.answer n ≠ nothingWord) :
    ∀ (f : Nat) (s t : St) (F : List Str), process W next f s = .val (some F, t) →
      (∃ r, t.full = s.full ++ r) ∧ F = trimmed t.full ∧ F.length = t.raw.length ∧ s.raw.length ≤ t.raw.length ∧ (s.raw.length < s.full.length → t.raw.length = s.raw.length)
  | 0, s, t, F, h => by rw [process_zero] at h; cases h
  | f + 1, s, t, F, h => by
    cases hn : next s.full with
    | bad => rw [process_bad hn] at h; cases h
    | good =>
      rw [process_good hn] at h
      split at h
      · cases h
      split at h
      · cases h
      split at h
      · cases h
      obtain ⟨h1, h2⟩ := Prod.mk.inj (Out.val.inj h)
      have h1 := Option.some.inj h1
      subst h2
      exact ⟨⟨[], by simp⟩, h1.symm, by rw [← h1]; omega, Nat.le_refl _, fun _ => rfl⟩
    | call cmd =>
      obtain ⟨t1, h1, h2⟩ := call_inv hn h
      obtain ⟨K, A⟩ := arg_again (W2 := W) (hS _ _ hn) rfl hA h1
      obtain ⟨⟨r, hr⟩, g2, g3, g4, g5⟩ := process_facts hS hA f t1 t F h2
      refine ⟨⟨K :: r, by rw [hr, A.full]; simp⟩, g2, g3, Nat.le_trans A.raw g4, fun hl => ?_⟩
      have e := A.push hl
      rw [g5 (by rw [e, A.full]; simp; omega), e]

theorem process_again {W W2 : World} {next : List Str → Next} (hS : ∀ l cmd, next l = .call cmd → Sane cmd) (hA : ∀ n, W.answer n ≠ nothingWord) (hW : W2.opens = W.opens) :
    ∀ (f : Nat) (s t s2 : St) (F : List Str), process W next f s = .val (some F, t) → s2.full = s.full → s2.raw = F → s2.query = false →
      process W2 next f s2 = .val (some F, { s2 with full := t.full })
  | 0, s, t, s2, F, h, _, _, _ => by rw [process_zero] at h; cases h
  | f + 1, s, t, s2, F, h, e1, e2, e3 => by
    have FF := process_facts hS hA (f + 1) s t F h
    cases hn : next s.full with
    | bad => rw [process_bad hn] at h; cases h
    | good =>
      rw [process_good hn] at h
      split at h
      · cases h
      rename_i hne
      split at h
      · cases h
      split at h
      · cases h
      obtain ⟨h1, h2⟩ := Prod.mk.inj (Out.val.inj h)
      have h1 := Option.some.inj h1
      subst h2
      rw [process_good (by rw [e1]; exact hn), e1, e2, h1, if_neg hne, if_neg (by omega), if_neg (by omega), ← e1, ← e2]
    | call cmd =>
      obtain ⟨t1, h1, h2⟩ := call_inv hn h
      obtain ⟨K, A⟩ := arg_again (W2 := W2) (hS _ _ hn) hW hA h1
      obtain ⟨⟨r, hr⟩, g2, g3, g4, g5⟩ := process_facts hS hA f t1 t F h2
      have hg : getFullArg W2 cmd s2.full.length s2 = .val (none, { s2 with full := s2.full ++ [K] }) := by
        rcases A.again with ⟨ha, hb⟩ | ⟨ha, hb⟩
        · have x := hb s2 (by rw [e1]) (by
            obtain ⟨q, hq, _⟩ := trimmed_prefix t.full
            rw [← g2, hr, A.full] at hq
            have : (F ++ q)[s.full.length]? = some K := by rw [← hq]; simp
            rw [e2, ← this, List.getElem?_append_left (by omega)])
          rw [e1]; rw [e1] at x; exact x
        · have e := g5 (by rw [A.full]; simp; omega)
          have x := hb s2 (by rw [e1]) (by rw [e2]; omega) e3
          rw [e1]; rw [e1] at x; exact x
      rw [process_call (by rw [e1]; exact hn), hg, Out.bind_val, if_neg (by simp)]
      exact process_again hS hA hW f t1 t { s2 with full := s2.full ++ [K] } F h2 (by show s2.full ++ [K] = _; rw [e1, A.full]) e2 e3

/-- **C78.** A command that was accepted — its words may have been abbreviated, or missing and asked for — is, written in full, accepted again with the same meaning, without a
question (whatever the user would answer), in every state of the program in which the first one was.  What is missing: the user did not answer a question with `nothing`
(see `C78_nothing_answer`). -/
theorem C78_full_form_partial {W W2 : World} {next : List Str → Next} {f : Nat} {raw F : List Str} {t : St} (hS : ∀ l cmd, next l = .call cmd → Sane cmd)
    (hA : ∀ n, W.answer n ≠ nothingWord) (hW : W2.opens = W.opens) (h : process W next f ⟨raw, [], false, 0⟩ = .val (some F, t)) :
    process W2 next f ⟨F, [], false, 0⟩ = .val (some F, ⟨F, t.full, false, 0⟩) := process_again hS hA hW f _ t ⟨F, [], false, 0⟩ F h rfl rfl rfl

theorem finish_raw {s t : St} {arg : Nat} {kw d : Str} {e : Option Err} (h : finish s arg kw d = .val (e, t)) : t.raw = s.raw := by
  unfold finish at h
  split at h
  · rw [← (Prod.mk.inj (Out.val.inj h)).2]
  split at h
  · cases h
  · rw [← (Prod.mk.inj (Out.val.inj h)).2]

theorem arg_raw {W : World} {cmd : Str} {arg : Nat} {s t : St} {e : Option Err} (h : getFullArg W cmd arg s = .val (e, t)) : s.raw <+: t.raw := by
  have hask : ∀ {d bug s1}, (if s.raw.length ≤ arg then askArg W d bug arg s else .val s) = .val s1 → s.raw <+: s1.raw := by
    intro d bug s1 h1
    split at h1
    · obtain ⟨a, rfl, h2⟩ := askArg_inv h1
      exact List.prefix_append _ _
    · obtain rfl := Out.val.inj h1
      exact List.prefix_refl _
  unfold getFullArg at h
  split at h
  · unfold numArg at h
    obtain ⟨d, hd, h⟩ := bind_inv h
    obtain ⟨s1, h1, h⟩ := bind_inv h
    obtain ⟨a, _, h⟩ := bind_inv h
    obtain ⟨v, hv, h⟩ := bind_inv h
    have e1 : t.raw = s1.raw := by
      split at h
      · rw [← (Prod.mk.inj (Out.val.inj h)).2]
      · exact finish_raw h
    rw [e1]
    exact hask h1
  split at h
  · unfold anyArg at h
    obtain ⟨d, hd, h⟩ := bind_inv h
    split at h
    · rw [finish_raw h]; exact List.prefix_refl _
    obtain ⟨s1, h1, h⟩ := bind_inv h
    dsimp only at h
    obtain ⟨kw, hk, h⟩ := bind_inv h
    have e1 : t.raw = s1.raw := by
      split at h
      · rw [← (Prod.mk.inj (Out.val.inj h)).2]
      · exact finish_raw h
    rw [e1]
    exact hask h1
  · unfold keyArg at h
    dsimp only at h
    split at h
    · cases h
    obtain ⟨s1, hq, h⟩ := bind_inv h
    have h1 : s.raw <+: s1.raw := by
      split at hq
      · rcases askKey_inv hq with ⟨e, _⟩ | ⟨a, e, _⟩
        · rw [e]; exact List.prefix_refl _
        · rw [e]; exact List.prefix_append _ _
      · rw [← Out.val.inj hq]; exact List.prefix_refl _
    have e1 : t.raw = s1.raw := by
      split at h
      · exact finish_raw h
      · cases hp : pick (s1.raw.getD arg []) (choices cmd).1 with
        | inr e =>
          rw [hp] at h
          rw [← (Prod.mk.inj (Out.val.inj h)).2]
        | inl K =>
          rw [hp] at h
          exact finish_raw h
    rw [e1]
    exact h1

theorem process_words {W : World} {next : List Str → Next} : ∀ (f : Nat) (s t : St) (F : List Str), process W next f s = .val (some F, t) → F.length = t.raw.length ∧ s.raw <+: t.raw
  | 0, s, t, F, h => by rw [process_zero] at h; cases h
  | f + 1, s, t, F, h => by
    cases hn : next s.full with
    | bad => rw [process_bad hn] at h; cases h
    | good =>
      rw [process_good hn] at h
      split at h
      · cases h
      split at h
      · cases h
      split at h
      · cases h
      obtain ⟨h1, h2⟩ := Prod.mk.inj (Out.val.inj h)
      have h1 := Option.some.inj h1
      subst h2
      exact ⟨by rw [← h1]; omega, List.prefix_refl _⟩
    | call cmd =>
      obtain ⟨t1, h1, h2⟩ := call_inv hn h
      obtain ⟨g1, g2⟩ := process_words f t1 t F h2
      exact ⟨g1, (arg_raw h1).trans g2⟩

/-- **C78.** A command is only accepted if every word of its line was used: it has as many words as the line has, followed by the answers to the questions. -/
theorem C78_all_words {W : World} {next : List Str → Next} {f : Nat} {raw F : List Str} {t : St} (h : process W next f ⟨raw, [], false, 0⟩ = .val (some F, t)) :
    F.length = t.raw.length ∧ raw <+: t.raw := process_words f _ t F h

end MM.Cmdl
