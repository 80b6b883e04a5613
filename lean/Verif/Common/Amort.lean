import Verif.Common.History

/-! What a history of calls costs, and the bound of it by a potential. -/

namespace Verif

variable {σ ω ρ : Type}

/-- The cost of a history: the sum of the costs of its calls, each in the state it is made in. The
call that panics is counted, those behind it are not made. -/
def total (step : σ → ω → Option (σ × ρ)) (cost : σ → ω → Nat) : σ → List ω → Nat
  | _, [] => 0
  | s, o :: os =>
    cost s o + match step s o with
      | none => 0
      | some (s', _) => total step cost s' os

/-- The method of potentials. -/
theorem total_le {step : σ → ω → Option (σ × ρ)} {cost : σ → ω → Nat} (I : σ → Prop) (Φ : σ → Nat)
    (a : Nat) (h0 : ∀ s o, I s → cost s o ≤ Φ s + a)
    (h : ∀ s o s' r, I s → step s o = some (s', r) → I s' ∧ cost s o + Φ s' ≤ Φ s + a) :
    ∀ (os : List ω) (s : σ), I s → total step cost s os ≤ Φ s + a * os.length
  | [], s, _ => by simp [total]
  | o :: os, s, hI => by
    simp only [total, List.length_cons, Nat.mul_succ]
    cases hs : step s o with
    | none => have := h0 s o hI; simp only; omega
    | some p =>
      obtain ⟨s', r⟩ := p
      obtain ⟨hI', hc⟩ := h s o s' r hI hs
      have := total_le I Φ a h0 h os s' hI'
      simp only; omega

/-- An invariant of the calls holds at the end of a history. -/
theorem run_inv {step : σ → ω → Option (σ × ρ)} (I : σ → Prop)
    (h : ∀ s o s' r, I s → step s o = some (s', r) → I s') :
    ∀ (os : List ω) (s s' : σ) (rs : List ρ), I s → run step s os = some (s', rs) → I s'
  | [], s, s', rs, hI, hr => by
    simp only [run, Option.some.injEq, Prod.mk.injEq] at hr
    exact hr.1 ▸ hI
  | o :: os, s, s', rs, hI, hr => by
    simp only [run] at hr
    cases hs : step s o with
    | none => rw [hs] at hr; cases hr
    | some p =>
      obtain ⟨t, r⟩ := p
      rw [hs] at hr
      simp only at hr
      cases ht : run step t os with
      | none => rw [ht] at hr; cases hr
      | some q =>
        obtain ⟨t', rs'⟩ := q
        rw [ht] at hr
        simp only [Option.some.injEq, Prod.mk.injEq] at hr
        exact hr.1 ▸ run_inv I h os t t' rs' (h s o t r hI hs) ht

end Verif
