import Verif.Save.Main
import Verif.Lex.Example
import Verif.Data.CompressExample
/-!
# SAVE PROOF, WRITE SOURCE and READ on examples; a compressed proof that is not read back
-/
namespace MM.Save
open MM.Vstr MM.Long MM.Veri MM.Pars MM.Lex MM.Proof MM.Write MM.Spec MM.Cmd MM.Data MM

/-! ### Why `C62_compressed_partial` has the condition `NotTakenForOld` -/

def lab2 (c : Char) (i : Nat) : List Char := [c, Char.ofNat (97 + i / 12), Char.ofNat (97 + i % 12)]

/-- `$c W $.  ${ x $e W $.  y $e W $.  aaa $a W $.  … (21 axioms) $}  eaa $e W $.  … (120 hypotheses)  th $p W $= … $.` -/
def wrapSrc : List Src := [st .c "" ['W'], st .lb "" [], st .e "x" ['W'], st .e "y" ['W']] ++
  (List.range 21).map (fun i => { kind := .a, label := lab2 'a' i, syms := [['W']] }) ++ [st .rb "" []] ++
  (List.range 120).map (fun i => { kind := .e, label := lab2 'e' i, syms := [['W']] }) ++ [st .p "th" ['W']]

def wrapOut : List Stmt := [({} : Stmt), { kind := .c, math := [0] }, { kind := .lb }, { kind := .e, math := [0] }, { kind := .e, math := [0] }] ++
  (List.range 21).map (fun _ => { kind := .a, math := [0], reqHyp := [3, 4] }) ++ [{ kind := .rb }] ++
  (List.range 120).map (fun _ => { kind := .e, math := [0] }) ++ [{ kind := .p, math := [0], reqHyp := List.range' 27 120 }]

theorem wrapSrc_accepted : ∃ s, Accepted wrapSrc s ∧ s.out = wrapOut := accepted_of_result (by decide +kernel)

/-- Each of the 21 axioms is used once. -/
def wrapRefs : List Ref := .stmt 47 :: .stmt 47 :: .stmt 5 :: (List.range 19).flatMap (fun i => [.stmt 47, .stmt (6 + i)]) ++ [.stmt 27, .stmt 25]

/-- The height of the stack after the steps. -/
def height (db : Db) : List Int → Nat → Option Nat
  | [], n => some n
  | a :: l, n =>
    if a ≤ -1000 then height db l (n + 1)
    else if 0 ≤ a ∧ ((db.stmt a.toNat).kind = .e ∨ (db.stmt a.toNat).kind = .f) then height db l (n + 1)
    else if 0 ≤ a ∧ ((db.stmt a.toNat).kind = .a ∨ (db.stmt a.toNat).kind = .p) ∧ (db.stmt a.toNat).reqHyp.length ≤ n then
      height db l (n - (db.stmt a.toNat).reqHyp.length + 1)
    else none

theorem height_depth {db : Db} : ∀ (l : List Int) {pre : List Int} {n m : Nat}, Depth db pre n → height db l n = some m → Depth db (pre ++ l) m
  | [], pre, n, m, h, hr => by cases hr; rw [List.append_nil]; exact h
  | a :: l, pre, n, m, h, hr => by
    rw [height] at hr
    split at hr
    next hc =>
      have := height_depth l (Depth.push h (Or.inr (Or.inl hc))) hr
      rwa [List.append_assoc] at this
    next =>
    split at hr
    next hc =>
      have := height_depth l (Depth.push h (Or.inr (Or.inr hc))) hr
      rwa [List.append_assoc] at this
    next =>
      split at hr
      next hc =>
        have := height_depth l (Depth.use h hc.1 hc.2.1 hc.2.2) hr
        rwa [List.append_assoc] at this
      next => cases hr

theorem wrap_packed {s : PState} (h : Accepted wrapSrc s) (ho : s.out = wrapOut) : PackedProof wrapSrc s 147 wrapRefs := by
  have hk : kindAt (kinds wrapSrc) 147 = .p := by decide +kernel
  have hr : (s.stmt 147).reqHyp = List.range' 27 120 := by unfold PState.stmt; rw [ho]; decide +kernel
  have hdb : toDb wrapSrc s = (pfEnv wrapOut wrapSrc).toDb := by rw [← pfEnv_eq ho]; rfl
  refine ⟨?_, ?_, ?_⟩
  · intro j hj
    have key : ∀ r ∈ wrapRefs, r = .stmt 27 ∨ r = .stmt 47 ∨ ∃ i : Fin 21, r = .stmt (5 + i.val) := by decide +kernel
    have ha : ∀ i : Fin 21, kindAt (kinds wrapSrc) (5 + i.val) = .a := by decide +kernel
    have hm := (mandList_req h hk).2
    rw [hr] at hm
    rcases key _ hj with hj | hj | ⟨i, hj⟩ <;> cases hj
    · exact Or.inl ((hm 27).1 (by simp))
    · exact Or.inl ((hm 47).1 (by simp))
    · exact Or.inr (Or.inr ⟨by omega, Or.inl (ha i)⟩)
  · intro k i hki
    have key : ∀ r ∈ wrapRefs, ∃ j : Fin 200, r = .stmt j.val := by decide +kernel
    obtain ⟨j, hj⟩ := key _ (List.mem_of_getElem? hki)
    cases hj
  · rw [hdb]
    exact height_depth (pre := []) _ .nil (by decide +kernel)

def wrapText : List Char := "( aaa aab aac aad aae aaf aag aah aai aaj aak aal aba abb abc abd abe abf abg abh abi ) UAUAUUAUAUUBUAUUCUAUUDUAUUEUAUUFUAUUGUAUUHUAUUIUAUUJUAUUKUAUULUAUUMUAUUNUAUUOUAUUPUAUUQUAUURUAUUSUAUUTAUVA".toList

def wrapBody : List Char := "  ( aaa\n  aab\n  aac\n  aad\n  aae\n  aaf\n  aag\n  aah\n  aai\n  aaj\n  aak\n  aal\n  aba\n  abb\n  abc\n  abd\n  abe\n  abf\n  abg\n  abh\n  abi )\n  UAUAU\n  UAUAU\n  UBUAU\n  UCUAU\n  UDUAU\n  UEUAU\n  UFUAU\n  UGUAU\n  UHUAU\n  UIUAU\n  UJUAU\n  UKUAU\n  ULUAU\n  UMUAU\n  UNUAU\n  UOUAU\n  UPUAU\n  UQUAU\n  URUAU\n  USUAU\n  UTAUV\n  A".toList

theorem wrap_compress : compressProof (pfEnv wrapOut wrapSrc) 147 (wrapRefs.map Ref.code) true 7 2 10 = .val wrapText := by decide +kernel

theorem wrap_parse : parseProofText (pfEnv wrapOut wrapSrc) 1000 147 (wrapText ++ ['$', '.']) wrapText.length = .val ⟨wrapRefs.map Ref.code, 0, 0⟩ := by decide +kernel

theorem wrap_save : saveText 7 2 true wrapText = .val (wrapBody ++ [' ', '$', '.', '\n']) := by decide +kernel

/-- The proof is read as something else. -/
def readsOther (x : Out Parsed) (proof : List Int) : Bool := match x with
  | .val r => decide (r.proof ≠ proof)
  | _ => false

theorem wrap_other : readsOther (parseProofText (pfEnv wrapOut wrapSrc) 1000 147 (('\n' :: wrapBody ++ [' ']) ++ ['$', '.']) ('\n' :: wrapBody ++ [' ']).length)
    (wrapRefs.map Ref.code) = true := by decide +kernel

theorem other_of {x : Out Parsed} {proof : List Int} (h : readsOther x proof = true) : ∃ r, x = .val r ∧ r.proof ≠ proof := by
  cases x with
  | val r => exact ⟨r, rfl, of_decide_eq_true h⟩
  | ub => cases h
  | bug n => cases h
  | fuel => cases h

/-- **C62 is false in general for compressed proofs, also for statements with 120 mandatory hypotheses or less.**  Here every `UU` is broken by the end of a line; the
heuristic (mmpars.c 3061–3080), which searches the text for `UU`, finds none, finds a `UV`, and takes the proof for one made by the old algorithm.
The proof is read correctly before it is broken into lines (C18), but not the way SAVE PROOF stores it. -/
theorem C62_witness_wrap : ∃ s, Accepted wrapSrc s ∧ PackedProof wrapSrc s 147 wrapRefs ∧
    compressProof (envOf linLook wrapSrc s) 147 (wrapRefs.map Ref.code) true 7 2 10 = .val wrapText ∧
    parseProofText (envOf linLook wrapSrc s) 1000 147 (wrapText ++ ['$', '.']) wrapText.length = .val ⟨wrapRefs.map Ref.code, 0, 0⟩ ∧
    saveText 7 2 true wrapText = .val (wrapBody ++ [' ', '$', '.', '\n']) ∧
    (∃ r, parseProofText (envOf linLook wrapSrc s) 1000 147 (('\n' :: wrapBody ++ [' ']) ++ ['$', '.']) ('\n' :: wrapBody ++ [' ']).length = .val r ∧ r.proof ≠ wrapRefs.map Ref.code) := by
  obtain ⟨s, h, ho⟩ := wrapSrc_accepted
  have e := pfEnv_eq (src := wrapSrc) ho
  refine ⟨s, h, wrap_packed h ho, ?_, ?_, wrap_save, ?_⟩
  · rw [e]; exact wrap_compress
  · rw [e]; exact wrap_parse
  · rw [e]; exact other_of wrap_other

/-! ### The hypotheses of C62 are met -/

def rtText : List Char := "$c W I $. $v p q $.\nwp $f W p $. wq $f W q $. wi $a W I p q $.\n$( A theorem. $)\n  th $p W I I p q I p q $= ? $.\n$( End. $)\n".toList

def rtSrc : List Src := [{ kind := .c, label := [], syms := [['W'], ['I']] }, { kind := .v, label := [], syms := [['p'], ['q']] },
  { kind := .f, label := "wp".toList, syms := [['W'], ['p']] }, { kind := .f, label := "wq".toList, syms := [['W'], ['q']] },
  { kind := .a, label := "wi".toList, syms := [['W'], ['I'], ['p'], ['q']] },
  { kind := .p, label := "th".toList, syms := [['W'], ['I'], ['I'], ['p'], ['q'], ['I'], ['p'], ['q']], proof := " ? ".toList }]

def rtOut : List Stmt := [({} : Stmt), { kind := .c, math := [0, 1] }, { kind := .v, math := [2, 3] }, { kind := .f, math := [0, 2] }, { kind := .f, math := [0, 3] },
  { kind := .a, math := [0, 1, 2, 3], reqHyp := [3, 4], reqVars := [2, 3] },
  { kind := .p, math := [0, 1, 1, 2, 3, 1, 2, 3], reqHyp := [3, 4], reqVars := [2, 3] }]

def rtGood (x : Out ReadOut) : Bool := match x with
  | .val o => decide (o.errs = 0) && decide (o.src = rtSrc) && decide (o.state.out = rtOut) && decide (o.stmts.map KStmt.kind = [.c, .v, .f, .f, .a, .p])
  | _ => false

theorem rt_check : rtGood (readSource insSort rtText) = true := by decide +kernel

theorem rt_read : ∃ o, readSource insSort rtText = .val o ∧ o.errs = 0 ∧ o.src = rtSrc ∧ o.state.out = rtOut ∧ o.stmts.map KStmt.kind = [.c, .v, .f, .f, .a, .p] := by
  have := rt_check
  generalize readSource insSort rtText = x at this
  cases x with
  | val o =>
    unfold rtGood at this
    simp only [Bool.and_eq_true, decide_eq_true_eq] at this
    exact ⟨o, rfl, this.1.1.1, this.1.1.2, this.1.2, this.2⟩
  | ub => cases this
  | bug n => cases this
  | fuel => cases this

theorem rt_packed {s : PState} (h : Accepted rtSrc s) (ho : s.out = rtOut) : PackedProof rtSrc s 6 pfRefs := by
  have hr : (s.stmt 6).reqHyp = [3, 4] := by unfold PState.stmt; rw [ho]; rfl
  have hm := (mandList_req h (p := 6) (by decide)).2
  rw [hr] at hm
  have h5 : IsAssert rtSrc 5 := Or.inl (by decide)
  have hdb : toDb rtSrc s = (pfEnv rtOut rtSrc).toDb := by rw [← pfEnv_eq ho]; rfl
  refine ⟨?_, ?_, ?_⟩
  · intro j hj
    have hj' : j = 3 ∨ j = 4 ∨ j = 5 := by simp [pfRefs] at hj; omega
    rcases hj' with rfl | rfl | rfl
    · exact Or.inl ((hm 3).1 (by simp))
    · exact Or.inl ((hm 4).1 (by simp))
    · exact Or.inr (Or.inr ⟨by decide, h5⟩)
  · intro k i hk
    match k with
    | 0 => simp [pfRefs] at hk
    | 1 => simp [pfRefs] at hk
    | 2 => simp [pfRefs] at hk
    | 3 => simp [pfRefs] at hk; subst hk; exact ⟨by decide, 5, rfl, h5⟩
    | 4 => simp [pfRefs] at hk
    | k + 5 => simp [pfRefs] at hk
  · rw [hdb]
    exact height_depth (pre := []) _ .nil (by decide +kernel)

theorem rt_normal : nmbrCvtRToVString (pfEnv rtOut rtSrc) (pfRefs.map Ref.code) = .val "wp wq 1:wi 1 wi".toList := by decide +kernel
theorem rt_comp : compressProof (pfEnv rtOut rtSrc) 6 (pfRefs.map Ref.code) false 79 4 10 = .val "( wi ) ABCZDC".toList := by decide +kernel
theorem rt_comp_text : saveText 79 4 true "( wi ) ABCZDC".toList = .val "    ( wi ) ABCZDC $.\n".toList := by decide +kernel

/-- `C62_normal`: the proof `wp wq 1:wi 1 wi`, then a proof of the same statement saved before, none after. -/
example : ∃ o t, readSource insSort rtText = .val o ∧ saveText 79 4 false "wp wq 1:wi 1 wi".toList = .val t ∧
    ∃ o', Rewritten insSort rtText ([⟨6, "  ? $.\n".toList, none⟩] ++ ⟨6, t, some "\n (Contributed by NM, 1-Jan-2000.) ".toList⟩ :: []) o' ∧
      ∀ W, parseProofText (envOf linLook o'.src o'.state) W 6 (secOf o' 6).1 (secOf o' 6).2 = .val ⟨[3, 4, 5, -1002, 5], 0, 0⟩ := by
  obtain ⟨o, h1, h2, h3, h4, h5⟩ := rt_read
  obtain ⟨_, hacc, _⟩ := C42_read_stores_source sortOk_insSort h1 h2
  have e := pfEnv_eq (src := o.src) h4
  have hP : PackedProof o.src o.state 6 pfRefs := by rw [h3] at hacc ⊢; exact rt_packed hacc h4
  obtain ⟨t, g1, g2⟩ := C62_normal sortOk_insSort linLook_ok h1 h2 (p := 6) (by rw [h3]; decide) hP (width := 79) (by decide) (ind := 4) (by decide)
    (by rw [e, h3]; exact rt_normal)
  refine ⟨o, t, h1, g1, ?_⟩
  refine g2 [⟨6, "  ? $.\n".toList, none⟩] [] _ ?_ ?_ (by simp)
  · intro n hn
    cases hn
    exact ⟨by unfold TextChar; decide, ⟨'\n', _, rfl, by decide⟩, ⟨"\n (Contributed by NM, 1-Jan-2000.)".toList, ' ', rfl, by decide⟩⟩
  · rw [h5]
    intro s hs
    simp at hs
    subst hs
    exact ⟨⟨5, rfl, rfl⟩, ⟨"  ?".toList, rfl, by unfold TextChar; decide⟩, by intro n hn; cases hn⟩

/-- `C62_compressed_partial`: the proof `( wi ) ABCZDC`. -/
example : ∃ o', Rewritten insSort rtText ([] ++ ⟨6, "    ( wi ) ABCZDC $.\n".toList, none⟩ :: []) o' ∧
    ∀ W, (∀ o, readSource insSort rtText = .val o → ∀ hs, MandList o.src o.state 6 hs → hs.length + (secOf o' 6).2 ≤ W) → W ≤ 2 ^ 63 →
      parseProofText (envOf linLook o'.src o'.state) W 6 (secOf o' 6).1 (secOf o' 6).2 = .val ⟨[3, 4, 5, -1002, 5], 0, 0⟩ := by
  obtain ⟨o, h1, h2, h3, h4, h5⟩ := rt_read
  obtain ⟨_, hacc, _⟩ := C42_read_stores_source sortOk_insSort h1 h2
  have e := pfEnv_eq (src := o.src) h4
  have hP : PackedProof o.src o.state 6 pfRefs := by rw [h3] at hacc ⊢; exact rt_packed hacc h4
  obtain ⟨t, g1, g2⟩ := C62_compressed_partial sortOk_insSort linLook_ok h1 h2 (p := 6) (by rw [h3]; decide) hP (width := 79) (by decide) (ind := 4) (by decide)
    (old := false) (Or.inr (by decide)) (fuel := 10) (by rw [e, h3]; exact rt_comp)
  rw [rt_comp_text] at g1
  cases g1
  obtain ⟨o', r1, r2⟩ := g2 (Or.inl (by rw [← hasSub_iff]; decide +kernel)) [] [] none (by simp) (by simp) (by simp)
  exact ⟨o', r1, fun W hW hW2 => r2 W (hW o h1) hW2⟩

end MM.Save
