import Verif.Trace.Text
import Verif.Trace.Source
import Verif.Trace.Props
import Verif.Proof.CompExample
/-!
# Databases that meet the hypotheses of C51 and C52, and one where SHOW USAGE / DIRECT misses a use
-/
namespace MM.Trace.Ex
open MM.Veri MM.Pars MM.Spec MM.Proof MM.Lex

/-- The match environment on top of an `Env`: no pink numbers, no proof in progress. -/
def menvOf (E : Env) : MM.Match.MEnv := { E with pink := fun _ => 0, prove := 0, changed := fun _ => false, val := fun _ => 0 }

/-! ## A small database: `a1 $a`, `a2 $a`, `t3 $p` uses `a1` (an inessential step uses `a2`), `t4 $p` uses `t3` and has a `?`, `t5 $p` uses `t4`, `t6 $p` has an error -/

def d6 : TDb where
  n := 6
  kind := fun i => if i = 1 ∨ i = 2 then .a else if i ≤ 6 ∧ 3 ≤ i then .p else .none
  label := fun i => ["", "a1", "a2", "t3", "t4", "t5", "t6"].getD i "" |>.toList
  parse := fun i => .val (if i = 3 then ⟨[2, 1], 0, 0⟩ else if i = 4 then ⟨[3, -63], 1, 0⟩ else if i = 5 then ⟨[4, -1000], 0, 0⟩ else ⟨[9], 2, 0⟩)
  ess := fun l => .val (if l = [2, 1] then [0, 1] else l.map fun _ => 1)
  menv := menvOf (pfEnv pfOut pfSrc)
  text := fun _ => []
  textLen := fun _ => 0

theorem d6_sane (e : Bool) : Sane d6 e where
  parses := by
    intro p h1 h2 hk
    have hp : p = 3 ∨ p = 4 ∨ p = 5 ∨ p = 6 := by
      have h2' : p ≤ 6 := h2
      rcases (by omega : p = 1 ∨ p = 2 ∨ p = 3 ∨ p = 4 ∨ p = 5 ∨ p = 6) with rfl | rfl | h
      · cases hk
      · cases hk
      · exact h
    refine ⟨_, rfl, fun hr => ⟨?_, fun _ => ⟨_, rfl, ?_⟩⟩⟩
    · rcases hp with rfl | rfl | rfl | rfl
      · decide
      · decide
      · decide
      · exact absurd hr (by decide)
    · rcases hp with rfl | rfl | rfl | rfl <;> decide
  unk := fun _ => rfl

/-- The hypotheses of C51 and C52 are met: `t5` traces back to `a1`, `a2`, `t3`, `t4`, and `t4` is reported as not proved. -/
example : traceProof d6 false false [] [] 5 = .val ([1, 2, 3, 4], [4]) := by decide +kernel
example : traceProof d6 true false [] [] 5 = .val ([1, 3, 4], [4]) := by decide +kernel
example : traceProof d6 false true [] [] 5 = .val ([1, 2], [4]) := by decide +kernel
example : traceProof d6 false false ['t', '*'] [] 5 = .val ([3, 4], [4]) := by decide +kernel
example : traceProof d6 false false [] ['t', '3'] 5 = .val ([3, 4], [4]) := by decide +kernel
example : traceTest d6 false ['?', '2'] [] 5 = .val true := by decide +kernel
example : (traceUsage d6 true 1 0 >>= fun g => .val ((List.range 7).map g)) = Out.val [true, false, false, true, true, true, false] := by decide +kernel

example : ∃ l un, traceProof d6 true true ['a', '*'] ['t', '3'] 5 = .val (l, un) ∧ l.Pairwise (· < ·) ∧ un.Nodup ∧
    (∀ q, q ∈ l ↔ q ≠ 5 ∧ Reached d6 true 5 q ∧ (true = true → d6.kind q = .a) ∧ (['a', '*'] = [] ∨ isMatch d6 q ['a', '*'] = .val true) ∧
      (['t', '3'] = [] ∨ LeadsTo d6 ['t', '3'] q)) ∧
    (∀ q, q ∈ un ↔ (q = 5 ∨ (Reached d6 true 5 q ∧ (['t', '3'] = [] ∨ LeadsTo d6 ['t', '3'] q))) ∧ Unproved d6 true q) := by
  refine C51_trace_back (d6_sane _) (d6_sane _) (by decide) (by decide) rfl true ?_
  have : ∀ t ∈ [['a', '*'], ['t', '3']], ∀ m < 7, (isMatch d6 m t = .val true) ∨ (isMatch d6 m t = .val false) := by decide +kernel
  rintro t ht _ m _ hm
  rcases this t (by simpa using ht) m (Nat.lt_succ_of_le hm) with h | h <;> exact ⟨_, h⟩

/-! ## After READ -/

/-- The source of `Verif/Proof/Example.lean`, the proof of `th` in the compressed format. -/
def cpSection : List Char := cpText ++ '$' :: '.' :: []

theorem cp_sec : SecOk cpSection cpText.length := by
  obtain ⟨b, u1, u2, hB, _⟩ := cp_section
  exact secOk_of ⟨_, hB⟩ (Or.inr (by exact ⟨_, _, rfl, by decide, by decide⟩))

theorem cp_clean : LabelListClean cpSection := by
  intro r hr
  have h : skipWs .ws cpSection = .val ('(' :: (" wi ".toList ++ ')' :: " ABCZ $( x $) DC $.".toList)) := by decide +kernel
  rw [h] at hr
  cases hr
  exact ⟨" wi ".toList, _, rfl, by decide, by decide, by decide⟩

/-- The database of C51 and C52 after READ of that source. -/
def cpDb : TDb := srcDb (menvOf (pfEnv pfOut pfSrc)) (fun _ => 100) (fun _ => cpSection) (fun _ => cpText.length)

theorem only_th {p : Nat} (h1 : 1 ≤ p) (h2 : p ≤ pfSrc.length) (hk : kindAt (kinds pfSrc) p = .p) : p = 6 := by
  have : ∀ p < 7, 1 ≤ p → kindAt (kinds pfSrc) p = .p → p = 6 := by decide
  exact this p (Nat.lt_succ_of_le h2) h1 hk

theorem cp_par {p : Nat} (h1 : 1 ≤ p) (h2 : p ≤ pfSrc.length) (hk : kindAt (kinds pfSrc) p = .p) :
    ∃ r, parseProofText (menvOf (pfEnv pfOut pfSrc)).toEnv 100 p cpSection cpText.length = .val r := by
  cases only_th h1 h2 hk
  exact ⟨_, cp_parse⟩

/-- The hypotheses of `C51_sane_after_read` are met ... -/
theorem cpDb_sane (e : Bool) : Sane cpDb e := by
  obtain ⟨s, h, ho⟩ := pfSrc_accepted
  exact C51_sane_after_read h linLook_ok (pfEnv_eq (src := pfSrc) ho).symm (fun p h1 h2 hk => cp_par h1 h2 hk) e

example : traceProof cpDb true false [] [] 6 = .val ([5], []) := by decide +kernel

/-- ... and those of `C52_usage_direct_source`: the usage of `wi` is `th`. -/
example : ∃ g, traceUsage cpDb false 5 0 = .val g ∧ (∀ t, 1 ≤ t → t ≤ pfSrc.length → (g t = true ↔ Refers cpDb t 5)) ∧
    (g 0 = true ↔ ∃ t, 1 ≤ t ∧ t ≤ pfSrc.length ∧ Refers cpDb t 5) := by
  obtain ⟨s, h, ho⟩ := pfSrc_accepted
  exact C52_usage_direct_source h linLook_ok (pfEnv_eq (src := pfSrc) ho).symm (fun p h1 h2 hk => cp_par h1 h2 hk)
    (fun p h1 h2 hk => ⟨cp_sec, cp_clean⟩) (Or.inl (by decide)) (by decide)

example : (traceUsage cpDb false 5 0 >>= fun g => .val ((List.range 7).map g)) = Out.val [true, false, false, false, false, false, true] := by decide +kernel

/-! ## A comment between the parentheses of a compressed proof -/

/-- The same proof with a comment in front of the label `wi`. -/
def ccSection : List Char := " ( $( x $) wi ) ABCZ DC $.".toList

def ccDb : TDb := srcDb (menvOf (pfEnv pfOut pfSrc)) (fun _ => 100) (fun _ => ccSection) (fun _ => 24)

/-- `parseProof` accepts the proof, and it uses `wi` (statement 5) ... -/
theorem cc_parse : ccDb.parse 6 = .val ⟨[3, 4, 5, -1002, 5], 0, 0⟩ := by decide +kernel

theorem cc_refers : Refers ccDb 6 5 := ⟨rfl, _, cc_parse, by decide, Or.inl ⟨rfl, by decide⟩⟩

/-- ... but SHOW USAGE wi / DIRECT does not find it: the search for the label stops at the `)` of the comment's end mark.  (With / RECURSIVE it does.) -/
theorem C52_direct_misses : ∃ g, traceUsage ccDb false 5 0 = .val g ∧ g 6 = false ∧ g 0 = false := by
  have h : (traceUsage ccDb false 5 0 >>= fun g => .val (g 6, g 0)) = Out.val (false, false) := by decide +kernel
  cases hg : traceUsage ccDb false 5 0 with
  | val g =>
    rw [hg, Out.bind_val] at h
    cases h' : g 6 <;> cases h'' : g 0 <;> rw [h', h''] at h <;> cases h
    exact ⟨g, rfl, h', h''⟩
  | ub => rw [hg] at h; cases h
  | bug _ => rw [hg] at h; cases h
  | fuel => rw [hg] at h; cases h

example : (traceUsage ccDb true 5 0 >>= fun g => .val (g 6)) = Out.val true := by decide +kernel

/-- A proof that starts with `(`, in a file with no `)` after it, is an internal error (`bug(217)`) of SHOW USAGE / DIRECT; READ accepts the source (VERIFY
PROOF reports the proof). -/
example : (traceUsage (srcDb (menvOf (pfEnv pfOut pfSrc)) (fun _ => 100) (fun _ => " ( wi $.".toList) (fun _ => 6)) false 5 0 >>= fun _ => .val ()) = Out.bug 217 := by
  decide +kernel

end MM.Trace.Ex
