import Verif.Count.Main
import Verif.Trace.Source

/-!
# C67 for a source that READ accepted
-/
namespace MM.Count
open MM.Veri MM.Pars MM.Spec MM.Proof MM.Lex MM.Trace

variable {src : List Src} {s : PState} {look : Look}

/-- The database after READ. -/
def srcDb (M : MM.Match.MEnv) (W : Nat → Nat) (text : Nat → List Char) (textLen : Nat → Nat) : CDb :=
  { MM.Trace.srcDb M W text textLen with req := fun p => (M.stmt p).reqHyp }

variable {M : MM.Match.MEnv} {W : Nat → Nat} {text : Nat → List Char} {textLen : Nat → Nat}

theorem sane_of_trace {D : CDb} {ess : Bool} (h : MM.Trace.Sane D.toTDb ess)
    (hr : ∀ p, 1 ≤ p → p ≤ D.n → D.kind p = .p → (D.req p).Nodup ∧ ∀ h ∈ D.req p, D.kind h = .e ∨ D.kind h = .f) : Sane D ess where
  steps := by
    intro p h1 h2 hk
    obtain ⟨r, e, hp⟩ := h.parses p h1 h2 hk
    by_cases hret : r.ret ≤ 1
    · obtain ⟨a, b⟩ := hp hret
      cases ess with
      | false => exact ⟨r.proof, ⟨r, e, Or.inr (Or.inl ⟨hret, rfl, rfl⟩)⟩, a⟩
      | true =>
        obtain ⟨es, k1, k2⟩ := b rfl
        refine ⟨_, ⟨r, e, Or.inr (Or.inr ⟨hret, rfl, es, k1, k2, rfl⟩)⟩, fun x hx h0 => a x ?_ h0⟩
        obtain ⟨q, hq, rfl⟩ := List.mem_map.1 hx
        exact (List.of_mem_zip (List.mem_filter.1 hq).1).1
    · refine ⟨[-63], ⟨r, e, Or.inl ⟨by omega, rfl⟩⟩, fun x hx h0 => ?_⟩
      rw [List.mem_singleton.1 hx] at h0
      omega
  req := hr
  unk := h.unk

/-- After READ, SHOW TRACE_BACK / COUNT_STEPS runs on a sane database, provided `parseProof` ends normally for every proof (C39, C40, C20). -/
theorem C67_sane_after_read (h : Accepted src s) (hl : LookOk look) (hM : M.toEnv = envOf look src s)
    (hpar : ∀ p, 1 ≤ p → p ≤ src.length → kindAt (kinds src) p = .p → ∃ r, parseProofText M.toEnv (W p) p (text p) (textLen p) = .val r) (ess : Bool) :
    Sane (srcDb M W text textLen) ess := by
  refine sane_of_trace (C51_sane_after_read h hl hM hpar ess) (fun p h1 h2 hk => ?_)
  have hk' : kindAt (kinds src) p = .p := by
    have : (M.toEnv.stmt p).kind = .p := hk
    rw [hM, kind_env h] at this; exact this
  have ho := hypsOk_of (look := look) h hk'
  have e : (srcDb M W text textLen).req p = ((envOf look src s).stmt p).reqHyp := by
    show (M.toEnv.stmt p).reqHyp = _
    rw [hM]
  rw [e]
  refine ⟨(List.nodup_append.1 ho.nodup).1, fun q hq => ?_⟩
  have := (ho.mem q (List.mem_append_left _ hq)).2.2
  show (M.toEnv.stmt q).kind = .e ∨ (M.toEnv.stmt q).kind = .f
  rw [hM]
  exact this

end MM.Count
