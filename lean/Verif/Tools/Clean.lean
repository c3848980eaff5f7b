import Verif.Tools.Misc
/-!
# C80: the letters of CLEAN
-/
namespace MM.Tools
open MM.Vstr MM.Date

/-- The letters of HELP CLEAN and the code of `edit` each stands for (C36): bit `k` is the code 2^k. -/
def letters : List (Char × Char × Nat) := [('P', 'p', 0), ('D', 'd', 1), ('G', 'g', 2), ('B', 'b', 3), ('R', 'r', 4), ('C', 'c', 5), ('E', 'e', 7), ('Q', 'q', 8), ('L', 'l', 9),
  ('T', 't', 10), ('U', 'u', 11), ('V', 'v', 12)]

def bits (b : Bool) (n : Nat) : Nat := if b = true then n else 0

theorem bits_sum : ∀ p d g b r c e q l t u v : Bool, ∀ k < 14,
    (bits p 1 + bits d 2 + bits g 4 + bits b 8 + bits r 16 + bits c 32 + bits e 128 + bits q 256 + bits l 512 + bits t 1024 + bits u 2048 + bits v 4096).testBit k =
      [p, d, g, b, r, c, false, e, q, l, t, u, v].getD k false := by decide +kernel

theorem up_iff (c d : Char) (hd : 'a' ≤ d ∧ d ≤ 'z') (hc : c = Char.ofNat (d.toNat - 32)) (hc2 : ¬ ('a' ≤ c ∧ c ≤ 'z')) {s : Str} (hs : NoNul s) :
    instr 1 (editBase 32 s) [c] > 0 ↔ c ∈ s ∨ d ∈ s := by
  have e : editBase 32 s = s.map fun c => if 'a' ≤ c ∧ c ≤ 'z' then Char.ofNat (c.toNat - 32) else c := by
    have h1 := (C36_code32 (fun _ => ' ') hs).1
    rw [C36_edit_plain (by decide) (by decide)] at h1
    exact Out.val.inj h1
  have h0 : instr 1 (editBase 32 s) [c] > 0 ↔ c ∈ editBase 32 s := by
    rcases instr_cases (editBase 32 s) (m := [c]) (by simp) 1 with ⟨e, hn⟩ | ⟨x, y, hf, e⟩
    · have e : instr 1 (editBase 32 s) [c] = 0 := e
      rw [e]
      refine ⟨fun h => by omega, fun h => ?_⟩
      obtain ⟨a, b, e⟩ := List.append_of_mem h
      exact absurd ⟨a, b, by rw [e]; simp, rfl⟩ (hn (a.length + 1) (by omega))
    · have e : instr 1 (editBase 32 s) [c] = x.length + 1 := e
      rw [e]
      refine ⟨fun _ => by rw [hf.eq]; simp, fun _ => by omega⟩
  rw [h0, e, List.mem_map]
  constructor
  · rintro ⟨x, hx, hxe⟩
    by_cases hl : 'a' ≤ x ∧ x ≤ 'z'
    · rw [if_pos hl] at hxe
      right
      have h1 : x.toNat = d.toNat := by
        have b1 : 97 ≤ x.toNat ∧ x.toNat ≤ 122 := ⟨hl.1, hl.2⟩
        have b2 : 97 ≤ d.toNat ∧ d.toNat ≤ 122 := ⟨hd.1, hd.2⟩
        have t : ∀ n, n < 128 → (Char.ofNat n).toNat = n := by
          intro n hn
          rw [Char.ofNat, dif_pos (Or.inl (by omega))]
          rfl
        have := congrArg Char.toNat (hxe.trans hc)
        rw [t _ (by omega), t _ (by omega)] at this
        omega
      have : x = d := Char.ext (UInt32.toNat_inj.mp h1)
      exact this ▸ hx
    · rw [if_neg hl] at hxe
      exact Or.inl (hxe ▸ hx)
  · rintro (h | h)
    · exact ⟨c, h, by rw [if_neg hc2]⟩
    · exact ⟨d, h, by rw [if_pos hd, hc]⟩

/-- **C80, CLEAN.** Each line is edited (C36) with the codes of the letters that are in the argument, in upper or lower case, and with no other; with no letter it is not changed. -/
theorem C80_clean (g : Nat → Char) {arg : Str} (ha : NoNul arg) :
    (∀ l, clean g arg l = if cleanFlags arg = 0 then .val l else edit (cleanFlags arg) g l) ∧
    (∀ c d k, (c, d, k) ∈ letters → (on (cleanFlags arg) k = true ↔ c ∈ arg ∨ d ∈ arg)) ∧
    (∀ k, k ∉ letters.map (·.2.2) → k < 14 → on (cleanFlags arg) k = false) := by
  refine ⟨fun l => ?_, fun c d k h => ?_, fun k hk h => ?_⟩
  · unfold clean
    by_cases h : cleanFlags arg = 0
    · rw [if_neg (by simpa using h), if_pos h]
    · rw [if_pos h, if_neg h]
  all_goals
    have key := bits_sum (decide (instr 1 (editBase 32 arg) ['P'] > 0)) (decide (instr 1 (editBase 32 arg) ['D'] > 0)) (decide (instr 1 (editBase 32 arg) ['G'] > 0))
      (decide (instr 1 (editBase 32 arg) ['B'] > 0)) (decide (instr 1 (editBase 32 arg) ['R'] > 0)) (decide (instr 1 (editBase 32 arg) ['C'] > 0))
      (decide (instr 1 (editBase 32 arg) ['E'] > 0)) (decide (instr 1 (editBase 32 arg) ['Q'] > 0)) (decide (instr 1 (editBase 32 arg) ['L'] > 0))
      (decide (instr 1 (editBase 32 arg) ['T'] > 0)) (decide (instr 1 (editBase 32 arg) ['U'] > 0)) (decide (instr 1 (editBase 32 arg) ['V'] > 0))
    simp only [bits, decide_eq_true_eq] at key
    have key : ∀ k < 14, on (cleanFlags arg) k = _ := key
  · simp only [letters, List.mem_cons, Prod.mk.injEq, List.not_mem_nil, or_false] at h
    rcases h with ⟨rfl, rfl, rfl⟩ | ⟨rfl, rfl, rfl⟩ | ⟨rfl, rfl, rfl⟩ | ⟨rfl, rfl, rfl⟩ | ⟨rfl, rfl, rfl⟩ | ⟨rfl, rfl, rfl⟩ | ⟨rfl, rfl, rfl⟩ | ⟨rfl, rfl, rfl⟩ | ⟨rfl, rfl, rfl⟩ |
      ⟨rfl, rfl, rfl⟩ | ⟨rfl, rfl, rfl⟩ | ⟨rfl, rfl, rfl⟩ <;>
    · rw [key _ (by decide)]
      simp only [List.getD_cons_zero, List.getD_cons_succ, decide_eq_true_eq]
      exact up_iff _ _ (by decide) (by decide) (by decide) ha
  · rw [key k h]
    simp only [letters, List.map_cons, List.map_nil, List.mem_cons, List.not_mem_nil, or_false, not_or] at hk
    have : k = 6 ∨ k = 13 := by omega
    rcases this with rfl | rfl <;> simp

example : clean (fun _ => ' ') "r,B".toList " a   b ".toList = .val "a b ".toList := by decide +kernel

end MM.Tools
