import Verif.Save.Model
import Verif.Write.Main
import Verif.Cmd.Props
/-!
# A saved proof after WRITE SOURCE and READ
-/
namespace MM.Save
open MM.Veri MM.Pars MM.Lex MM.Proof MM.Write MM.Spec MM.Cmd

theorem place_get : ∀ (a : List Sections) (x : Sections) (b : List Sections) (last : List Char),
    (place (a ++ x :: b) last)[a.length]? = some (placed x (b.flatMap Sections.render ++ last))
  | [], _, _, _ => rfl
  | _ :: a, x, b, last => by
    rw [List.cons_append, place, List.length_cons, List.getElem?_cons_succ]
    exact place_get a x b last

/-- A SAVE PROOF of another statement does not change the proof. -/
theorem saved_other {s : Save} {xs ys : List Sections} (h : Saved s xs ys) {i : Nat} (hi : s.stmt ≠ i + 1) : ys[i]? = xs[i]? := by
  obtain ⟨a, x, b, y, body, h1, h2, h3, _⟩ := h
  subst h1 h2
  by_cases hlt : i < a.length
  · rw [List.getElem?_append_left hlt, List.getElem?_append_left hlt]
  · rw [List.getElem?_append_right (by omega), List.getElem?_append_right (by omega)]
    obtain ⟨k, hk⟩ : ∃ k, i - a.length = k + 1 := ⟨i - a.length - 1, by omega⟩
    rw [hk, List.getElem?_cons_succ, List.getElem?_cons_succ]

theorem savedAll_other : ∀ {ss : List Save} {xs ys : List Sections}, SavedAll ss xs ys → ∀ {i : Nat}, (∀ s ∈ ss, s.stmt ≠ i + 1) → ys[i]? = xs[i]?
  | _, _, _, .nil _, _, _ => rfl
  | _, _, _, .cons h hs, _, hi => by
    rw [savedAll_other hs (fun s hm => hi s (by simp [hm])), saved_other h (hi _ (by simp))]

/-- The last SAVE PROOF of a statement determines its proof. -/
theorem savedAll_last : ∀ {ss1 : List Save} {s : Save} {ss2 : List Save} {xs ys : List Sections}, SavedAll (ss1 ++ s :: ss2) xs ys →
    (∀ r ∈ ss2, r.stmt ≠ s.stmt) → ∃ i y body, s.stmt = i + 1 ∧ ys[i]? = some y ∧ s.printed = body ++ [' ', '$', '.', '\n'] ∧ y.proof = '\n' :: body ++ [' ']
  | [], s, ss2, _, _, .cons h hs, hi => by
    obtain ⟨a, x, b, y, body, h1, h2, h3, h4, _, _, h5, _⟩ := h
    refine ⟨a.length, y, body, h3, ?_, h4, h5⟩
    rw [savedAll_other hs (fun r hr => by rw [← h3]; exact hi r hr), h2]
    simp
  | _ :: ss1, s, ss2, _, _, .cons _ hs, hi => savedAll_last (ss1 := ss1) hs hi

theorem declToks_zip : ∀ (src : List Src) (ys : List Sections), src.length = ys.length →
    declToks (List.zipWith (fun (x : Src) (y : Sections) => { x with proof := y.proof }) src ys) = declToks src
  | [], _, _ => rfl
  | x :: src, [], h => by simp at h
  | x :: src, y :: ys, h => by
    rw [List.zipWith_cons_cons, declToks, declToks, declToks_zip src ys (by simpa using h)]

theorem labels_zip : ∀ (src : List Src) (ys : List Sections), src.length = ys.length →
    (List.zipWith (fun (x : Src) (y : Sections) => { x with proof := y.proof }) src ys).map Src.label = src.map Src.label
  | [], _, _ => rfl
  | x :: src, [], h => by simp at h
  | x :: src, y :: ys, h => by
    rw [List.zipWith_cons_cons, List.map_cons, List.map_cons, labels_zip src ys (by simpa using h)]

theorem savedAll_length : ∀ {ss : List Save} {xs ys : List Sections}, SavedAll ss xs ys → ys.length = xs.length
  | _, _, _, .nil _ => rfl
  | _, _, _, .cons h hs => by
    rw [savedAll_length hs]
    obtain ⟨a, x, b, y, body, h1, h2, _⟩ := h
    rw [h1, h2]; simp

theorem src_shape {sort : List (Name × Nat) → List (Name × Nat)} {text : List Char} {o : ReadOut} (h : readSource sort text = .val o) (he : o.errs = 0) :
    o.src.length = o.stmts.length ∧ o.src.map Src.kind = o.stmts.map KStmt.kind := by
  obtain ⟨c1, c2, c3⟩ := read_clean h he
  obtain ⟨hok, _⟩ := C24_sections_clean c1 c2
  unfold readSource at h
  dsimp only at h
  cases hp : parseLabels sort (parseKeywords text).stmts (parseKeywords text).start <;> rw [hp] at h
  all_goals try cases h
  rename_i l
  rw [Out.bind_val] at h
  cases hs : symsOf (parseKeywords text).stmts <;> rw [hs] at h
  all_goals try cases h
  rename_i ms
  rw [Out.bind_val] at h
  cases hst : parseStatements (mkSrc (parseKeywords text).stmts l.labels ms) <;> rw [hst] at h
  all_goals try cases h
  clear c3 he
  dsimp only
  obtain ⟨r, f1, f2, f3⟩ := labelsOf_spec hok
  obtain ⟨ms', f4, f5, f6⟩ := symsOf_spec hok
  rw [hs] at f4
  cases f4
  unfold parseLabels at hp
  rw [f1, Out.bind_val] at hp
  cases hq : skipWs .ws (parseKeywords text).start <;> rw [hq] at hp
  all_goals try cases hp
  dsimp only at hst ⊢
  obtain ⟨g1, g2⟩ := mkSrc_get (xs := (parseKeywords text).stmts) (ls := r.1) (ms := ms) f2 f5
  refine ⟨g1, List.ext_getElem? fun i => ?_⟩
  rw [List.getElem?_map, List.getElem?_map]
  cases hi : (parseKeywords text).stmts[i]? with
  | none =>
    have : (mkSrc (parseKeywords text).stmts r.1 ms)[i]? = none := by
      rw [List.getElem?_eq_none_iff] at hi ⊢
      omega
    rw [this]; rfl
  | some x =>
    obtain ⟨l, m, _, _, k⟩ := g2 i x hi
    rw [k]; rfl

theorem kind_shape {sort : List (Name × Nat) → List (Name × Nat)} {text : List Char} {o : ReadOut} (h : readSource sort text = .val o) (he : o.errs = 0) {p : Nat}
    (hp : kindAt (kinds o.src) p = .p) : ∃ n, p = n + 1 ∧ (o.stmts.map KStmt.kind)[n]? = some .p := by
  rw [← (src_shape h he).2]
  cases p with
  | zero => unfold kindAt at hp; simp at hp
  | succ n =>
    refine ⟨n, rfl, ?_⟩
    unfold kindAt kinds at hp
    simp at hp
    rw [List.getElem?_map]
    cases hn : o.src[n]? with
    | none => rw [hn] at hp; cases hp
    | some x => rw [hn] at hp; exact congrArg some hp

/-- The saved proof after WRITE SOURCE and READ: it is in the proof section of its statement, and everything else `parseProof` uses is the same. -/
theorem saved_read {sort : List (Name × Nat) → List (Name × Nat)} {look : Look} {text : List Char} {o : ReadOut} (h : readSource sort text = .val o) (he : o.errs = 0)
    {ss1 ss2 : List Save} {s : Save} (hs : ∀ r ∈ ss1 ++ s :: ss2, r.Ok (o.stmts.map KStmt.kind)) (hlast : ∀ r ∈ ss2, r.stmt ≠ s.stmt) :
    ∃ st buf o' body rest, saveAll (ss1 ++ s :: ss2) (statements text) = .val st ∧ writeSourceToBuffer st = .val buf ∧ readSource sort buf = .val o' ∧ o'.errs = 0 ∧
      envOf look o'.src o'.state = envOf look o.src o.state ∧ s.printed = body ++ [' ', '$', '.', '\n'] ∧
      secOf o' s.stmt = (('\n' :: body ++ [' ']) ++ '$' :: '.' :: rest, ('\n' :: body ++ [' ']).length) := by
  obtain ⟨st, buf, ys, last, o', e1, e2, e3, e4, e5, e6, e7, e8, e9, e10⟩ := C60_saved_source h he hs
  obtain ⟨i, y, body, b1, b2, b3, b4⟩ := savedAll_last e4 hlast
  obtain ⟨c1, c2, c3⟩ := read_clean e6 e7
  obtain ⟨xs, last', h1, h2, h3, h4, h5⟩ := read_good c1 c2
  have hys : xs = ys := by rw [← e9, c3, h4, place_sections xs last' h2]
  subst hys
  obtain ⟨hi, hy⟩ := List.getElem?_eq_some_iff.1 b2
  obtain ⟨a, b, hab, hal⟩ : ∃ a b, xs = a ++ y :: b ∧ a.length = i :=
    ⟨xs.take i, xs.drop (i + 1), by rw [← hy]; simp, by rw [List.length_take]; omega⟩
  have hyk : y.kind = .p := by
    cases hk : decide (y.kind = .p) with
    | true => exact of_decide_eq_true hk
    | false =>
      have := (h2 y (by rw [hab]; simp)).noProof (of_decide_eq_false hk)
      rw [this] at b4; cases b4
  have hlen : o.src.length = xs.length := by
    rw [(src_shape h he).1, savedAll_length e4, List.length_map]
  refine ⟨st, buf, o', body, b.flatMap Sections.render ++ last', e1, e2, e6, e7, ?_, b3, ?_⟩
  · have hsl : srcLabel (List.zipWith (fun (x : Src) (y : Sections) => { x with proof := y.proof }) o.src xs) = srcLabel o.src := by
      funext i
      unfold srcLabel
      rw [labels_zip _ _ hlen]
    rw [e8, e10]
    unfold envOf toDb
    rw [declToks_zip _ _ hlen, hsl, List.length_zipWith, hlen, Nat.min_self]
  · have hst : o'.stmts[s.stmt - 1]? = some (placed y (b.flatMap Sections.render ++ last')) := by
      rw [c3, h4, b1, Nat.add_sub_cancel, hab, ← hal]
      exact place_get a y b last'
    unfold secOf
    rw [hst]
    unfold placed
    dsimp only
    rw [if_neg (by rw [hyk]; decide), if_pos hyk, b4]

end MM.Save
