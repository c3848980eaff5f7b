import Verif.Write.Spec
import Verif.Write.Back
import Verif.Vstr.Props
/-!
# Lemmas about `writeSourceToBuffer` and the changes of SAVE PROOF
-/
namespace MM.Write
open MM.Veri MM.Pars MM.Lex

/-! ### The buffer -/

/-- The lengths fit the memory, and sections that do not exist have length 0. -/
structure Fit (x : KStmt) : Prop where
  kind : x.kind ≠ .none
  label : x.labelLen ≤ x.label.length
  math : x.mathLen ≤ x.math.length
  proof : x.proofLen ≤ x.proof.length
  noMath : x.kind = .lb ∨ x.kind = .rb → x.mathLen = 0
  noProof : x.kind ≠ .p → x.proofLen = 0

theorem kwSize_eq {x : KStmt} (h : Fit x) (d : Bool) : ∃ k, kwSize d x.kind = .val k ∧ x.labelLen + x.mathLen + x.proofLen + k = x.sections.render.length := by
  have h1 : (x.label.take x.labelLen).length = x.labelLen := by rw [List.length_take]; have := h.label; omega
  have h2 : (x.math.take x.mathLen).length = x.mathLen := by rw [List.length_take]; have := h.math; omega
  have h3 : (x.proof.take x.proofLen).length = x.proofLen := by rw [List.length_take]; have := h.proof; omega
  have hm := h.noMath
  have hp := h.noProof
  have hn := h.kind
  have hl1 := h.label
  have hl2 := h.math
  have hl3 := h.proof
  unfold KStmt.sections Sections.render
  dsimp only
  cases hk : x.kind <;> rw [hk] at hm hp hn <;> simp [kwSize, List.length_append] at hm hp hn ⊢ <;> omega

theorem copy_eq {size len : Nat} {src out : List Char} (h1 : len ≤ src.length) (h2 : out.length + len ≤ size + 1) : copy size src len out = .val (out ++ src.take len) := by
  unfold copy
  rw [if_neg (by omega)]

theorem put_eq {size : Nat} {c : Char} {out : List Char} (h : out.length + 2 ≤ size + 1) : put size c out = .val (out ++ ['$', c]) := by
  unfold put
  rw [if_neg (by omega)]

theorem copyStmt_eq {x : KStmt} (h : Fit x) (d : Bool) (size : Nat) (out : List Char) (hs : out.length + x.sections.render.length ≤ size) :
    (copy size x.label x.labelLen out >>= fun o => copyKw size d x o) = .val (out ++ x.sections.render) := by
  have h1 : (x.label.take x.labelLen).length = x.labelLen := by rw [List.length_take]; have := h.label; omega
  have h2 : (x.math.take x.mathLen).length = x.mathLen := by rw [List.length_take]; have := h.math; omega
  have h3 : (x.proof.take x.proofLen).length = x.proofLen := by rw [List.length_take]; have := h.proof; omega
  have hl := h.label
  have hm := h.math
  have hp := h.proof
  unfold KStmt.sections Sections.render at hs ⊢
  dsimp only at hs ⊢
  rw [List.length_append, List.length_append, h1] at hs
  rw [copy_eq hl (by omega), Out.bind_val]
  unfold copyKw
  rw [if_neg h.kind]
  by_cases hb : x.kind = .lb ∨ x.kind = .rb
  · rw [if_pos hb] at hs ⊢
    rw [if_pos hb, put_eq (by simp [h1]; simp at hs; omega)]
    simp
  · rw [if_neg hb] at hs ⊢
    rw [if_neg hb]
    by_cases hpk : x.kind = .p
    · rw [if_pos hpk] at hs ⊢
      rw [if_pos hpk]
      simp [h2, h3] at hs
      rw [put_eq (by simp [h1]; omega), Out.bind_val, copy_eq hm (by simp [h1]; omega), Out.bind_val, put_eq (by simp [h1, h2]; omega), Out.bind_val,
        copy_eq hp (by simp [h1, h2]; omega), Out.bind_val, put_eq (by simp [h1, h2, h3]; omega)]
      simp
    · rw [if_neg hpk] at hs ⊢
      rw [if_neg hpk]
      simp [h2] at hs
      rw [put_eq (by simp [h1]; omega), Out.bind_val, copy_eq hm (by simp [h1]; omega), Out.bind_val, put_eq (by simp [h1, h2]; omega)]
      simp

theorem sizeLoop_eq : ∀ (xs : List KStmt) (last : List Char) (n : Nat), (∀ x ∈ xs, Fit x) →
    sizeLoop (xs ++ [dummyStmt last]) n = .val (n + ((xs.map KStmt.sections).flatMap Sections.render ++ last).length)
  | [], last, n, _ => by
    rw [List.nil_append, sizeLoop]
    simp [dummyStmt, kwSize, sizeLoop]
  | x :: xs, last, n, h => by
    rw [List.cons_append, sizeLoop]
    obtain ⟨k, hk, he⟩ := kwSize_eq (h x (by simp)) (xs ++ [dummyStmt last]).isEmpty
    rw [hk, Out.bind_val, sizeLoop_eq xs last _ (fun y hy => h y (by simp [hy]))]
    simp only [List.map_cons, List.flatMap_cons, List.length_append] at he ⊢
    congr 1
    omega

theorem copyLoop_eq (size : Nat) : ∀ (xs : List KStmt) (last out : List Char), (∀ x ∈ xs, Fit x) →
    out.length + ((xs.map KStmt.sections).flatMap Sections.render ++ last).length ≤ size →
    copyLoop size (xs ++ [dummyStmt last]) out = .val (out ++ ((xs.map KStmt.sections).flatMap Sections.render ++ last))
  | [], last, out, _, hs => by
    rw [List.nil_append, copyLoop]
    simp only [List.map_nil, List.flatMap_nil, List.nil_append] at hs ⊢
    rw [show (dummyStmt last).label = last from rfl, show (dummyStmt last).labelLen = last.length from rfl, copy_eq (Nat.le_refl _) (by omega), Out.bind_val]
    unfold copyKw
    rw [if_pos (show (dummyStmt last).kind = .none from rfl), if_pos (c := ([] : List KStmt).isEmpty = true) rfl, Out.bind_val, copyLoop, List.take_length]
  | x :: xs, last, out, h, hs => by
    rw [List.cons_append, copyLoop]
    have hx := copyStmt_eq (h x (by simp)) (xs ++ [dummyStmt last]).isEmpty size out (by
      simp only [List.map_cons, List.flatMap_cons, List.length_append] at hs; omega)
    have e : ∀ (a : Out (List Char)) (f g : List Char → Out (List Char)), (a >>= fun o => f o >>= g) = (a >>= f) >>= g := by
      intro a f g; cases a <;> rfl
    rw [e, hx, Out.bind_val, copyLoop_eq size xs last _ (fun y hy => h y (by simp [hy])) (by
      simp only [List.map_cons, List.flatMap_cons, List.length_append] at hs ⊢; omega)]
    simp

/-- The buffer holds the statements one after the other. -/
theorem write_eq {xs : List KStmt} (last : List Char) (h : ∀ x ∈ xs, Fit x) :
    writeSourceToBuffer (xs ++ [dummyStmt last]) = .val ((xs.map KStmt.sections).flatMap Sections.render ++ last) := by
  unfold writeSourceToBuffer
  rw [sizeLoop_eq xs last 0 h, Out.bind_val, copyLoop_eq _ xs last [] h (by simp), Out.bind_val, if_neg (by simp)]
  rfl

theorem fit_placed {x : Sections} (hx : Good x) (rest : List Char) : Fit (placed x rest) := by
  have hk : (placed x rest).kind = x.kind := congrArg Sections.kind (placed_sections hx rest)
  refine ⟨by rw [hk]; exact hx.kind, ?_, ?_, ?_, ?_, ?_⟩
  · unfold placed; split
    · simp [Sections.render]
    · split <;> simp [Sections.render]
  · unfold placed; split
    · simp
    · split <;> simp
  · unfold placed; split
    · simp
    · split <;> simp
  · rw [hk]; intro h; unfold placed; rw [if_pos h]
  · rw [hk]; intro h; unfold placed; split
    · rfl
    · rfl

theorem fit_place : ∀ (xs : List Sections) (last : List Char), (∀ x ∈ xs, Good x) → ∀ y ∈ place xs last, Fit y
  | [], _, _, y, hy => by cases hy
  | x :: xs, last, h, y, hy => by
    rw [place, List.mem_cons] at hy
    rcases hy with rfl | hy
    · exact fit_placed (h x (by simp)) _
    · exact fit_place xs last (fun z hz => h z (by simp [hz])) y hy

/-! ### The new sections -/

theorem storeProof_eq {body : List Char} (x : KStmt) :
    storeProof (body ++ [' ', '$', '.', '\n']) x = .val { x with proof := '\n' :: (body ++ [' ', '$', '.', '\n']), proofLen := body.length + 2 } := by
  unfold storeProof
  dsimp only
  rw [Vstr.C25_right, Out.bind_val]
  have h1 : Vstr.chars ('\n' :: (body ++ [' ', '$', '.', '\n'])) ((('\n' :: (body ++ [' ', '$', '.', '\n'])).length : Int) - 3)
      ('\n' :: (body ++ [' ', '$', '.', '\n'])).length = [' ', '$', '.', '\n'] := by
    rw [Vstr.chars_eq _ _ (by simp; omega)]
    simp only [List.length_cons, List.length_append, List.length_nil]
    rw [show ((((body.length + (0 + 1 + 1 + 1 + 1) + 1 : Nat) : Int) - 3 - 1).toNat) = body.length + 1 by omega, List.drop_succ_cons, List.drop_left' rfl]
    rw [List.take_of_length_le (by simp)]
  rw [h1, if_neg (by simp)]
  congr 2
  simp

theorem last_unique {a b a' b' : List Char} (h : a ++ ['$', ')'] ++ b = a' ++ ['$', ')'] ++ b') (hb : ¬ ['$', ')'] <:+: b) (hb' : ¬ ['$', ')'] <:+: b') :
    a = a' ∧ b = b' := by
  rw [List.append_assoc, List.append_assoc, List.append_eq_append_iff] at h
  rcases h with ⟨d, h1, h2⟩ | ⟨d, h1, h2⟩
  · cases d with
    | nil => simp at h1 h2; exact ⟨h1.symm, h2⟩
    | cons x d =>
      cases d with
      | nil => simp at h2
      | cons y d =>
        exfalso; apply hb
        simp at h2
        exact ⟨d, b', by rw [h2.2.2]; simp⟩
  · cases d with
    | nil => simp at h1 h2; exact ⟨h1, h2.symm⟩
    | cons x d =>
      cases d with
      | nil => simp at h2
      | cons y d =>
        exfalso; apply hb'
        simp at h2
        exact ⟨d, b, by rw [h2.2.2]; simp⟩

theorem storeNote_eq {n : List Char} {x : KStmt} (h : x.labelLen ≤ x.label.length) :
    ∃ l : List Char × Nat, storeNote n x = .val { x with label := l.1, labelLen := l.2 } ∧ l.2 ≤ l.1.length ∧ NoteAdded (some n) (x.label.take x.labelLen) (l.1.take l.2) := by
  unfold storeNote
  rw [if_neg (by omega)]
  dsimp only
  obtain ⟨r, hr, hs⟩ := Vstr.C26_rinstr (x.label.take x.labelLen) ['$', ')'] (by simp)
  rw [hr _ (by omega), Out.bind_val]
  rcases hs with ⟨rfl, hno⟩ | ⟨⟨a, b, hab, hra⟩, hmax⟩
  · rw [if_neg (by simp)]
    refine ⟨(x.label, x.labelLen), rfl, h, Or.inl ⟨?_, rfl⟩⟩
    rintro ⟨a, b, hab⟩
    exact hno _ ⟨a, b, hab.symm, rfl⟩
  · rw [if_pos (by omega), Vstr.C25_left, Out.bind_val, Vstr.C25_right, Out.bind_val]
    refine ⟨(_, _), rfl, Nat.le_refl _, Or.inr ⟨a, b, hab, ?_, ?_⟩⟩
    · rintro ⟨c, d, hcd⟩
      have := hmax (a.length + 2 + c.length + 1) ⟨a ++ ['$', ')'] ++ c, d, by rw [hab, ← hcd]; simp, by simp; omega⟩
      omega
    · dsimp only
      rw [List.take_length, hab, Vstr.chars_eq _ _ (by omega), Vstr.chars_eq _ _ (by omega), hra]
      rw [show ((1 : Int) - 1).toNat = 0 by omega, List.drop_zero, show (((a.length + 1 : Nat) : Int) - 1 - 1 + 1).toNat = a.length by omega,
        show (((a.length + 1 : Nat) : Int) - 1).toNat = a.length by omega, List.append_assoc a ['$', ')'] b, List.take_left' rfl, List.drop_left' rfl,
        List.take_of_length_le (by simp; omega)]
      simp

end MM.Write
