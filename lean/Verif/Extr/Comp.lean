import Verif.Extr.Text
import Verif.Long.Text
/-!
# Compressed proofs in the extract, and proof sections as text
-/
namespace MM.Extr
open MM.Veri MM.Pars MM.Spec MM.Proof MM.Trace MM.Lex

/-- The reference in the extract -/
def refAt (keep : Nat → Bool) : Ref → Ref
  | .stmt j => .stmt (pos keep j)
  | .step i => .step i

theorem refAt_code (keep : Nat → Bool) (x : Ref) : (refAt keep x).code = codeAt keep x.code := by
  cases x with
  | stmt j =>
    show (pos keep j : Int) = codeAt keep (j : Int)
    unfold codeAt
    rw [if_pos (by omega), Int.toNat_natCast]
  | step i =>
    show -1000 - (i : Int) = codeAt keep (-1000 - (i : Int))
    unfold codeAt
    rw [if_neg (by omega)]

section
variable {src : List Src} {s s' : PState} {keep : Nat → Bool} {r : List Name × List Name} {look look' : Look}

theorem mandList_ext (h : Accepted src s) (h' : Accepted (ext src keep r) s') (hK : Kept src keep) {p : Nat} (hp : kindAt (kinds src) p = .p) (kp : keep p = true) {hs : List Nat}
    (hm : MandList src s p hs) : MandList (ext src keep r) s' (pos keep p) (hs.map (pos keep)) := by
  obtain ⟨p1, p2⟩ := assert_bound (src := src) (i := p) (Or.inr hp)
  have hp' : kindAt (kinds (ext src keep r)) (pos keep p) = .p := by rw [kind_ext p1 p2 kp]; exact hp
  rw [mandList_unique hm (mandList_req h hp), ← hyps_ext h h' hK (Or.inr hp) kp]
  exact mandList_req h' hp'

theorem compMeans_ext (h : Accepted src s) (h' : Accepted (ext src keep r) s') (hK : Kept src keep) {p : Nat} (hp : kindAt (kinds src) p = .p) (kp : keep p = true)
    {labs : List Name} {xs : List CStep} {refs : List Ref} (hM : CompMeans src s p labs xs refs) (hlist : ∀ j, ListEntry src s p (srcLabel src j) j → srcLabel src j ∈ labs → keep j = true)
    (hk : ∀ j, Ref.stmt j ∈ refs → keep j = true) :
    CompMeans (ext src keep r) s' (pos keep p) labs xs (refs.map (refAt keep)) := by
  have hn := nested_of ((C41_read_accepts_exactly src).mp ⟨s, h⟩)
  obtain ⟨p1, p2⟩ := assert_bound (src := src) (i := p) (Or.inr hp)
  obtain ⟨hs, js, a, b, c⟩ := hM.lists
  have hjs : ∀ {ls : List Name} {js : List Nat}, (∀ l ∈ ls, l ∈ labs) → List.Forall₂ (ListEntry src s p) ls js → List.Forall₂ (ListEntry (ext src keep r) s' (pos keep p)) ls (js.map (pos keep)) := by
    intro ls js hls hf
    induction hf with
    | nil => exact .nil
    | @cons l j ls js e1 _ ih =>
      refine .cons ?_ (ih fun l hl => hls l (by simp [hl]))
      have kj : keep j = true := hlist j (by rw [e1.1]; exact e1) (by rw [e1.1]; exact hls _ (by simp))
      obtain ⟨f1, f2⟩ := e1
      rcases f2 with ⟨g1, g2, g3⟩ | ⟨g1, g2⟩
      · have j2 : j ≤ src.length := by have := g1.2.1; omega
        refine ⟨by rw [label_ext g1.1 j2 kj]; exact f1, Or.inl ⟨(active_ext hn hK.closed p1 p2 g1.1 j2 kp kj).mpr g1, by rw [kind_ext g1.1 j2 kj]; exact g2, ?_⟩⟩
        intro v' hv' hm
        obtain ⟨v, v1, v2, rfl⟩ := mand_from h h' hK (Or.inr hp) kp hm
        obtain ⟨u, q⟩ := math_tau h h' hK kj (by rw [g2]; simp)
        rw [q] at hv'
        obtain ⟨w, w1, w2⟩ := List.mem_map.mp hv'
        have := tau_inj h h' (u w w1) v2 w2
        subst this
        exact g3 w w1 v1
      · obtain ⟨j1, j2⟩ := assert_bound g2
        refine ⟨by rw [label_ext j1 j2 kj]; exact f1, Or.inr ⟨pos_lt g1 kp, ?_⟩⟩
        unfold IsAssert
        rw [kind_ext j1 j2 kj]; exact g2
  refine ⟨⟨hs.map (pos keep), js.map (pos keep), mandList_ext h h' hK hp kp a, hjs (fun _ hl => hl) b, ⟨by rw [List.length_map]; exact c.len, fun k x hx => ?_⟩⟩, fun k x ref hx hr hm => ?_⟩
  · rw [List.getElem?_map, c.get k x hx]
    have : (hs.map (pos keep) ++ js.map (pos keep)).map Ref.stmt ++ (marked 0 (xs.take k)).map Ref.step =
        ((hs ++ js).map Ref.stmt ++ (marked 0 (xs.take k)).map Ref.step).map (refAt keep) := by
      simp [List.map_append, List.map_map, Function.comp_def, refAt]
    rw [this, List.getElem?_map]
  · rw [List.getElem?_map] at hr
    cases hg : refs[k]? with
    | none => rw [hg] at hr; cases hr
    | some y =>
      rw [hg] at hr
      simp only [Option.map_some, Option.some.injEq] at hr
      subst hr
      obtain ⟨j, rfl, hj⟩ := hM.marks k x y hx hg hm
      obtain ⟨j1, j2⟩ := assert_bound hj
      refine ⟨pos keep j, rfl, ?_⟩
      unfold IsAssert
      rw [kind_ext j1 j2 (hk j (List.mem_of_getElem? hg))]; exact hj

end
end MM.Extr
