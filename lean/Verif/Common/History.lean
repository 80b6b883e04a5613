/-
Histories of operations and refinement of an implementation by an abstract specification.
-/

namespace Verif

variable {σ τ ω ρ : Type}

/-- Run a history of operations on an implementation whose operations may panic (`none`);
collects the results of all operations. -/
def run (step : σ → ω → Option (σ × ρ)) : σ → List ω → Option (σ × List ρ)
  | s, [] => some (s, [])
  | s, o :: os =>
    match step s o with
    | none => none
    | some (s', r) =>
      match run step s' os with
      | none => none
      | some (s'', rs) => some (s'', r :: rs)

theorem run_append (step : σ → ω → Option (σ × ρ)) (os₁ os₂ : List ω) : ∀ s,
    run step s (os₁ ++ os₂) = match run step s os₁ with
      | none => none
      | some (s', rs) => match run step s' os₂ with
        | none => none
        | some (s'', rs') => some (s'', rs ++ rs') := by
  induction os₁ with
  | nil =>
    intro s
    simp only [List.nil_append, run]
    cases run step s os₂ <;> rfl
  | cons o os ih =>
    intro s
    simp only [List.cons_append, run]
    cases step s o with
    | none => rfl
    | some p =>
      obtain ⟨s', r⟩ := p
      simp only [ih]
      cases run step s' os with
      | none => rfl
      | some q =>
        obtain ⟨s'', rs⟩ := q
        simp only
        cases run step s'' os₂ <;> rfl

/-- Run a history on a total specification. -/
def runSpec (step : τ → ω → τ × ρ) : τ → List ω → τ × List ρ
  | t, [] => (t, [])
  | t, o :: os =>
    let (t', r) := step t o
    let (t'', rs) := runSpec step t' os
    (t'', r :: rs)

/-- A simulation relation that is preserved by every operation with equal results gives equal
results for every history, and no panic. -/
theorem run_refines {step : σ → ω → Option (σ × ρ)} {spec : τ → ω → τ × ρ} (R : σ → τ → Prop)
    (h : ∀ s t o, R s t → ∃ s', step s o = some (s', (spec t o).2) ∧ R s' (spec t o).1)
    (os : List ω) : ∀ s t, R s t →
    ∃ s', run step s os = some (s', (runSpec spec t os).2) ∧ R s' (runSpec spec t os).1 := by
  induction os with
  | nil => intro s t hR; exact ⟨s, rfl, hR⟩
  | cons o os ih =>
    intro s t hR
    obtain ⟨s1, hs1, hR1⟩ := h s t o hR
    obtain ⟨s2, hs2, hR2⟩ := ih s1 _ hR1
    refine ⟨s2, ?_, hR2⟩
    simp [run, runSpec, hs1, hs2]

/-- The same for operations restricted to a class `P` of legal calls in the abstract state. -/
theorem run_refines_on {step : σ → ω → Option (σ × ρ)} {spec : τ → ω → τ × ρ} (R : σ → τ → Prop)
    (P : ω → Prop)
    (h : ∀ s t o, P o → R s t → ∃ s', step s o = some (s', (spec t o).2) ∧ R s' (spec t o).1)
    (os : List ω) (hos : ∀ o ∈ os, P o) : ∀ s t, R s t →
    ∃ s', run step s os = some (s', (runSpec spec t os).2) ∧ R s' (runSpec spec t os).1 := by
  induction os with
  | nil => intro s t hR; exact ⟨s, rfl, hR⟩
  | cons o os ih =>
    intro s t hR
    obtain ⟨s1, hs1, hR1⟩ := h s t o (hos o (by simp)) hR
    obtain ⟨s2, hs2, hR2⟩ := ih (fun o ho => hos o (by simp [ho])) s1 _ hR1
    refine ⟨s2, ?_, hR2⟩
    simp [run, runSpec, hs1, hs2]

/-- A history of operations with their results is allowed by a relational specification. -/
inductive Trace (spec : τ → ω → ρ → τ → Prop) : τ → List ω → List ρ → τ → Prop
  | nil (t : τ) : Trace spec t [] [] t
  | cons {t t' t'' : τ} {o : ω} {r : ρ} {os : List ω} {rs : List ρ} :
      spec t o r t' → Trace spec t' os rs t'' → Trace spec t (o :: os) (r :: rs) t''

/-- Refinement of a relational specification: no history panics and all results are allowed. -/
theorem run_refines_rel {step : σ → ω → Option (σ × ρ)} {spec : τ → ω → ρ → τ → Prop}
    (R : σ → τ → Prop)
    (h : ∀ s t o, R s t → ∃ s' r t', step s o = some (s', r) ∧ spec t o r t' ∧ R s' t')
    (os : List ω) : ∀ s t, R s t →
    ∃ s' rs t', run step s os = some (s', rs) ∧ Trace spec t os rs t' ∧ R s' t' := by
  induction os with
  | nil => intro s t hR; exact ⟨s, [], t, rfl, .nil t, hR⟩
  | cons o os ih =>
    intro s t hR
    obtain ⟨s1, r, t1, h1, h2, hR1⟩ := h s t o hR
    obtain ⟨s2, rs, t2, h3, h4, hR2⟩ := ih s1 t1 hR1
    exact ⟨s2, r :: rs, t2, by simp [run, h1, h3], .cons h2 h4, hR2⟩

/-- Run a history of operations that may fail with a reason. -/
def runE {ε : Type} (step : σ → ω → Except ε (σ × ρ)) : σ → List ω → Except ε (σ × List ρ)
  | s, [] => .ok (s, [])
  | s, o :: os =>
    match step s o with
    | .error e => .error e
    | .ok (s', r) =>
      match runE step s' os with
      | .error e => .error e
      | .ok (s'', rs) => .ok (s'', r :: rs)

/-- Every operation of the history is legal in the abstract state it is called in. -/
def LegalRun (spec : τ → ω → τ × ρ) (legal : τ → ω → Prop) : τ → List ω → Prop
  | _, [] => True
  | t, o :: os => legal t o ∧ LegalRun spec legal (spec t o).1 os

/-- Refinement when every call may also fail with the one reason `e`. -/
theorem runE_refines {ε : Type} {step : σ → ω → Except ε (σ × ρ)} {spec : τ → ω → τ × ρ}
    {legal : τ → ω → Prop} (e : ε) (R : σ → τ → Prop)
    (h : ∀ s t o, legal t o → R s t → step s o = .error e ∨
      ∃ s', step s o = .ok (s', (spec t o).2) ∧ R s' (spec t o).1)
    (os : List ω) : ∀ s t, LegalRun spec legal t os → R s t → runE step s os = .error e ∨
    ∃ s', runE step s os = .ok (s', (runSpec spec t os).2) ∧ R s' (runSpec spec t os).1 := by
  induction os with
  | nil => intro s t _ hR; exact .inr ⟨s, rfl, hR⟩
  | cons o os ih =>
    intro s t hl hR
    rcases h s t o hl.1 hR with h1 | ⟨s1, hs1, hR1⟩
    · left; simp [runE, h1]
    · rcases ih s1 _ hl.2 hR1 with h2 | ⟨s2, hs2, hR2⟩
      · left; simp [runE, hs1, h2]
      · right; exact ⟨s2, by simp [runE, runSpec, hs1, hs2], hR2⟩

/-- Refinement for histories whose calls are legal in the abstract state. -/
theorem run_refines_legal {step : σ → ω → Option (σ × ρ)} {spec : τ → ω → τ × ρ}
    {legal : τ → ω → Prop} (R : σ → τ → Prop)
    (h : ∀ s t o, legal t o → R s t → ∃ s', step s o = some (s', (spec t o).2) ∧ R s' (spec t o).1)
    (os : List ω) : ∀ s t, LegalRun spec legal t os → R s t →
    ∃ s', run step s os = some (s', (runSpec spec t os).2) ∧ R s' (runSpec spec t os).1 := by
  induction os with
  | nil => intro s t _ hR; exact ⟨s, rfl, hR⟩
  | cons o os ih =>
    intro s t hl hR
    obtain ⟨s1, hs1, hR1⟩ := h s t o hl.1 hR
    obtain ⟨s2, hs2, hR2⟩ := ih s1 _ hl.2 hR1
    exact ⟨s2, by simp [run, runSpec, hs1, hs2], hR2⟩

end Verif
