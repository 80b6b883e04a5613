import Verif.Common.History

/-! Refinement of partial implementations: what a run that succeeds answers, and runs that succeed
while a guard holds. -/

namespace Verif

variable {σ τ ω ρ : Type}

/-- If every call that succeeds answers as the specification, so does every history that succeeds. -/
theorem run_partial {step : σ → ω → Option (σ × ρ)} {spec : τ → ω → τ × ρ} (R : σ → τ → Prop)
    (P : ω → Prop)
    (h : ∀ s t o s' r, P o → R s t → step s o = some (s', r) → r = (spec t o).2 ∧ R s' (spec t o).1)
    (os : List ω) (hos : ∀ o ∈ os, P o) : ∀ s t s' rs, R s t → run step s os = some (s', rs) →
    rs = (runSpec spec t os).2 ∧ R s' (runSpec spec t os).1 := by
  induction os with
  | nil => intro s t s' rs hR he; cases he; exact ⟨rfl, hR⟩
  | cons o os ih =>
    intro s t s' rs hR he
    simp only [run] at he
    cases h1 : step s o with
    | none => simp [h1] at he
    | some p =>
      obtain ⟨s1, r1⟩ := p
      simp only [h1] at he
      cases h2 : run step s1 os with
      | none => simp [h2] at he
      | some q =>
        obtain ⟨s2, r2⟩ := q
        simp only [h2] at he
        cases he
        obtain ⟨e1, hR1⟩ := h s t o s1 r1 (hos o (by simp)) hR h1
        obtain ⟨e2, hR2⟩ := ih (fun o ho => hos o (by simp [ho])) s1 _ _ _ hR1 h2
        exact ⟨by simp [runSpec, e1, e2], hR2⟩

/-- The state reached by a history that succeeds is related to the state of the specification. -/
theorem run_state {step : σ → ω → Option (σ × ρ)} {spec : τ → ω → τ × ρ} (R : σ → τ → Prop)
    (h : ∀ s t o s' r, R s t → step s o = some (s', r) → R s' (spec t o).1)
    (os : List ω) : ∀ s t s' rs, R s t → run step s os = some (s', rs) →
    R s' (runSpec spec t os).1 := by
  induction os with
  | nil => intro s t s' rs hR he; cases he; exact hR
  | cons o os ih =>
    intro s t s' rs hR he
    simp only [run] at he
    cases h1 : step s o with
    | none => simp [h1] at he
    | some p =>
      obtain ⟨s1, r1⟩ := p
      simp only [h1] at he
      cases h2 : run step s1 os with
      | none => simp [h2] at he
      | some q =>
        obtain ⟨s2, r2⟩ := q
        simp only [h2] at he
        cases he
        exact ih s1 _ _ _ (h s t o s1 r1 hR h1) h2

theorem runSpec_append (spec : τ → ω → τ × ρ) (os₁ os₂ : List ω) : ∀ t,
    runSpec spec t (os₁ ++ os₂) = ((runSpec spec (runSpec spec t os₁).1 os₂).1,
      (runSpec spec t os₁).2 ++ (runSpec spec (runSpec spec t os₁).1 os₂).2) := by
  induction os₁ with
  | nil => intro t; rfl
  | cons o os ih => intro t; simp [runSpec, ih]

/-- An invariant of a partial implementation that holds as long as a guard does. -/
theorem run_guard {step : σ → ω → Option (σ × ρ)} (I : σ → Prop) (G : σ → Prop)
    (h : ∀ s o, I s → G s → ∃ s' r, step s o = some (s', r) ∧ I s')
    (os : List ω) : ∀ s, I s →
    (∀ os₁ os₂ s' rs, os = os₁ ++ os₂ → os₂ ≠ [] → run step s os₁ = some (s', rs) → I s' → G s') →
    ∃ s' rs, run step s os = some (s', rs) ∧ I s' := by
  induction os with
  | nil => intro s hI _; exact ⟨s, [], rfl, hI⟩
  | cons o os ih =>
    intro s hI hG
    obtain ⟨s1, r1, h1, hI1⟩ := h s o hI (hG [] (o :: os) s [] rfl (by simp) rfl hI)
    obtain ⟨s2, r2, h2, hI2⟩ := ih s1 hI1 (fun os₁ os₂ s' rs he hne hr hi =>
      hG (o :: os₁) os₂ s' (r1 :: rs) (by simp [he]) hne (by simp [run, h1, hr]) hi)
    exact ⟨s2, r1 :: r2, by simp [run, h1, h2], hI2⟩

/-- If every legal call either panics or answers as the specification, so does every history: the
calls before the first panic answer as the specification. -/
theorem run_partial_legal {step : σ → ω → Option (σ × ρ)} {spec : τ → ω → τ × ρ}
    {legal : τ → ω → Prop} (R : σ → τ → Prop)
    (h : ∀ s t o s' r, legal t o → R s t → step s o = some (s', r) →
      r = (spec t o).2 ∧ R s' (spec t o).1)
    (os : List ω) : ∀ s t s' rs, LegalRun spec legal t os → R s t → run step s os = some (s', rs) →
    rs = (runSpec spec t os).2 ∧ R s' (runSpec spec t os).1 := by
  induction os with
  | nil => intro s t s' rs _ hR he; cases he; exact ⟨rfl, hR⟩
  | cons o os ih =>
    intro s t s' rs hl hR he
    simp only [run] at he
    cases h1 : step s o with
    | none => simp [h1] at he
    | some p =>
      obtain ⟨s1, r1⟩ := p
      simp only [h1] at he
      cases h2 : run step s1 os with
      | none => simp [h2] at he
      | some q =>
        obtain ⟨s2, r2⟩ := q
        simp only [h2] at he
        cases he
        obtain ⟨e1, hR1⟩ := h s t o s1 r1 hl.1 hR h1
        obtain ⟨e2, hR2⟩ := ih s1 _ _ _ hl.2 hR1 h2
        exact ⟨by simp [runSpec, e1, e2], hR2⟩

end Verif
