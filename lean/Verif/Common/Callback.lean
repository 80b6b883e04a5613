/-! Callbacks that call methods of the container they were handed to. -/

namespace Verif

variable {σ τ ω ρ α : Type}

/-- The body of a callback: what it calls on the container may depend on the answers so far; in the
end it returns. -/
inductive Prog (ω ρ α : Type) where
  | ret (a : α)
  | call (op : ω) (next : ρ → Prog ω ρ α)

/-- Run a callback on an implementation whose calls may panic (`none`). The result: the state, what
the callback returned, the calls with their answers. -/
def Prog.run (step : σ → ω → Option (σ × ρ)) : Prog ω ρ α → σ → Option (σ × α × List (ω × ρ))
  | .ret a, s => some (s, a, [])
  | .call op next, s => (step s op).bind fun p =>
    ((next p.2).run step p.1).map fun q => (q.1, q.2.1, (op, p.2) :: q.2.2)

/-- Run a callback on a total specification. -/
def Prog.runSpec (step : τ → ω → τ × ρ) : Prog ω ρ α → τ → τ × α × List (ω × ρ)
  | .ret a, t => (t, a, [])
  | .call op next, t =>
    let p := step t op
    let q := (next p.2).runSpec step p.1
    (q.1, q.2.1, (op, p.2) :: q.2.2)

/-- A relation that every call of the callback keeps, with equal answers. -/
theorem Prog.run_refines {step : σ → ω → Option (σ × ρ)} {spec : τ → ω → τ × ρ} {R : σ → τ → Prop}
    {Q : ω → ρ → Prop}
    (h : ∀ s t o, R s t → Q o (spec t o).2 →
      ∃ s', step s o = some (s', (spec t o).2) ∧ R s' (spec t o).1) :
    ∀ (p : Prog ω ρ α) {s : σ} {t : τ}, R s t → (∀ c ∈ (p.runSpec spec t).2.2, Q c.1 c.2) →
      ∃ s', p.run step s = some (s', (p.runSpec spec t).2) ∧ R s' (p.runSpec spec t).1
  | .ret a, s, t, hR, _ => ⟨s, rfl, hR⟩
  | .call op next, s, t, hR, hq => by
    obtain ⟨s₁, h1, h2⟩ := h s t op hR (hq (op, (spec t op).2) (by simp [Prog.runSpec]))
    obtain ⟨s₂, h3, h4⟩ := run_refines h (next (spec t op).2) h2 fun c hc =>
      hq c (by simp only [Prog.runSpec, List.mem_cons]; exact .inr hc)
    refine ⟨s₂, ?_, h4⟩
    simp only [Prog.run, h1, Option.bind_some, h3, Option.map_some]
    rfl

/-- Run a callback on an implementation whose calls may fail in several ways. -/
def Prog.runE {ε : Type} (step : σ → ω → Except ε (σ × ρ)) : Prog ω ρ α → σ → Except ε (σ × α)
  | .ret a, s => .ok (s, a)
  | .call op next, s =>
    match step s op with
    | .error e => .error e
    | .ok p => (next p.2).runE step p.1

/-- Every call of the callback is legal where it is made. -/
def Prog.Legal (spec : τ → ω → τ × ρ) (legal : τ → ω → Prop) : Prog ω ρ α → τ → Prop
  | .ret _, _ => True
  | .call op next, t => legal t op ∧ (next (spec t op).2).Legal spec legal (spec t op).1

/-- All calls of the callback, whatever the answers, are of the kind `Q`. -/
def Prog.Calls (Q : ω → Prop) : Prog ω ρ α → Prop
  | .ret _ => True
  | .call op next => Q op ∧ ∀ r, (next r).Calls Q

/-- Whatever the answers, the callback returns a value of the kind `P`. -/
def Prog.Returns (P : α → Prop) : Prog ω ρ α → Prop
  | .ret a => P a
  | .call _ next => ∀ r, (next r).Returns P

theorem Prog.runE_refines {ε : Type} {step : σ → ω → Except ε (σ × ρ)} {spec : τ → ω → τ × ρ}
    {legal : τ → ω → Prop} (e : ε) (R : σ → τ → Prop)
    (h : ∀ s t o, legal t o → R s t →
      step s o = .error e ∨ ∃ s', step s o = .ok (s', (spec t o).2) ∧ R s' (spec t o).1) :
    ∀ (p : Prog ω ρ α) {s : σ} {t : τ}, R s t → p.Legal spec legal t →
      p.runE step s = .error e ∨
      ∃ s', p.runE step s = .ok (s', (p.runSpec spec t).2.1) ∧ R s' (p.runSpec spec t).1
  | .ret a, s, t, hR, _ => .inr ⟨s, rfl, hR⟩
  | .call op next, s, t, hR, hl => by
    rcases h s t op hl.1 hR with h1 | ⟨s₁, h1, h2⟩
    · left; simp only [Prog.runE, h1]
    · rcases runE_refines e R h (next (spec t op).2) h2 hl.2 with h3 | ⟨s₂, h3, h4⟩
      · left; simp only [Prog.runE, h1, h3]
      · exact .inr ⟨s₂, by simp only [Prog.runE, h1, h3, Prog.runSpec], h4⟩

theorem Prog.run_refines_legal {step : σ → ω → Option (σ × ρ)} {spec : τ → ω → τ × ρ}
    {legal : τ → ω → Prop} (R : σ → τ → Prop)
    (h : ∀ s t o, legal t o → R s t →
      ∃ s', step s o = some (s', (spec t o).2) ∧ R s' (spec t o).1) :
    ∀ (p : Prog ω ρ α) {s : σ} {t : τ}, R s t → p.Legal spec legal t →
      ∃ s', p.run step s = some (s', (p.runSpec spec t).2) ∧ R s' (p.runSpec spec t).1
  | .ret a, s, t, hR, _ => ⟨s, rfl, hR⟩
  | .call op next, s, t, hR, hl => by
    obtain ⟨s₁, h1, h2⟩ := h s t op hl.1 hR
    obtain ⟨s₂, h3, h4⟩ := run_refines_legal R h (next (spec t op).2) h2 hl.2
    refine ⟨s₂, ?_, h4⟩
    simp only [Prog.run, h1, Option.bind_some, h3, Option.map_some]
    rfl

/-- Calls of one kind that keep a property and are legal under it. -/
theorem Prog.calls_legal {spec : τ → ω → τ × ρ} {legal : τ → ω → Prop} {Q : ω → Prop} {P : τ → Prop}
    (h : ∀ t o, P t → Q o → legal t o ∧ P (spec t o).1) :
    ∀ (p : Prog ω ρ α) {t : τ}, P t → p.Calls Q → p.Legal spec legal t ∧ P (p.runSpec spec t).1
  | .ret _, _, hP, _ => ⟨trivial, hP⟩
  | .call op next, t, hP, hc => by
    obtain ⟨h1, h2⟩ := h t op hP hc.1
    obtain ⟨h3, h4⟩ := calls_legal h (next (spec t op).2) h2 (hc.2 _)
    exact ⟨⟨h1, h3⟩, h4⟩

theorem Prog.returns {spec : τ → ω → τ × ρ} {P : α → Prop} :
    ∀ (p : Prog ω ρ α) (t : τ), p.Returns P → P (p.runSpec spec t).2.1
  | .ret _, _, h => h
  | .call op next, t, h => returns (next (spec t op).2) _ (h _)

end Verif
