import Verif.Stack.Lemmas

/-! C04, C05: the three stacks are LIFO stacks. -/

namespace Verif.Stack
variable {α : Type} [Inhabited α]

/-- The ideal LIFO stack: a list with the top first. -/
def spec (l : List α) : Op α → List α × Res α
  | .push v => (v :: l, .unit)
  | .pop => match l with
    | [] => ([], .val default false)
    | v :: l => (l, .val v true)
  | .peek => match l with
    | [] => ([], .val default false)
    | v :: _ => (l, .val v true)
  | .clear => ([], .unit)
  | .empty => (l, .bool l.isEmpty)
  | .size => (l, .nat l.length)
  | .values => (l, .list l.reverse)

/-- C04 (slice stack): every history gives exactly the results of the ideal stack. -/
theorem C04_array_lifo (os : List (Op α)) :
    ∃ s, run AStack.step (AStack.new : AStack α) os = some (s, (runSpec spec [] os).2) := by
  suffices H : _ from
    let ⟨s, h, _⟩ := run_refines (step := AStack.step) (spec := spec)
      (fun s l => s.element = l.reverse) H os AStack.new [] rfl
    ⟨s, h⟩
  intro s l o hR
  obtain ⟨e⟩ := s
  simp only at hR; subst hR
  cases o <;> simp only [AStack.step, spec]
  case push v => simp
  case pop => cases l <;> simp
  case peek => cases l <;> simp
  case clear => simp
  case empty => cases l <;> simp
  case size => simp
  case values => simp

/-- C04 (linked stack): every history gives exactly the results of the ideal stack. -/
theorem C04_list_lifo (os : List (Op α)) :
    ∃ s, run LStack.step (LStack.new : LStack α) os = some (s, (runSpec spec [] os).2) := by
  suffices H : _ from
    let ⟨s, h, _⟩ := run_refines (step := LStack.step) (spec := spec)
      (fun s l => s.top = l ∧ s.size = l.length) H os LStack.new [] ⟨rfl, rfl⟩
    ⟨s, h⟩
  rintro ⟨top, size⟩ l o ⟨h1, h2⟩
  simp only at h1 h2; subst h1; subst h2
  cases o <;> simp only [LStack.step, spec]
  case push v => simp
  case pop => cases top <;> simp
  case peek => cases top <;> simp
  case clear => simp
  case empty => cases top <;> simp
  case size => simp
  case values =>
    exact ⟨⟨top, top.length⟩, by rw [LStack.values_eq]; rfl, rfl, rfl⟩

/-- C05 (segmented stack): for every initial capacity at least one, every history gives exactly
the results of the ideal stack and never panics. -/
theorem C05_listarray_lifo (cap : Nat) (hcap : 1 ≤ cap) (os : List (Op α)) :
    ∃ s, run GStack.step (GStack.newWithCap cap : GStack α) os
      = some (s, (runSpec spec [] os).2) := by
  suffices H : _ from
    let ⟨s, h, _⟩ := run_refines (step := GStack.step) (spec := spec)
      (fun s l => s.WF ∧ s.content = l) H os (GStack.newWithCap cap) [] ⟨GStack.newWithCap_wf cap hcap, GStack.newWithCap_content cap⟩
    ⟨s, h⟩
  rintro s l o ⟨hwf, rfl⟩
  cases o <;> simp only [GStack.step, spec]
  case push v =>
    obtain ⟨s', h1, h2, h3⟩ := GStack.push_ok s v hwf
    exact ⟨s', by simp [h1], h2, h3⟩
  case pop =>
    cases hc : s.content with
    | nil => exact ⟨s, GStack.pop_nil s hwf hc, hwf, hc⟩
    | cons v l =>
      obtain ⟨s', h1, h2, h3⟩ := GStack.pop_cons s hwf hc
      exact ⟨s', h1, h2, h3⟩
  case peek =>
    cases hc : s.content with
    | nil => exact ⟨s, GStack.peek_nil s hwf hc, hwf, hc⟩
    | cons v l => exact ⟨s, GStack.peek_cons s hwf hc, hwf, hc⟩
  case clear =>
    exact ⟨_, rfl, GStack.clear_wf s hwf, GStack.clear_content s⟩
  case empty =>
    refine ⟨s, ?_, hwf, rfl⟩
    rw [hwf.size_eq]; cases s.content <;> simp
  case size => exact ⟨s, by rw [hwf.size_eq], hwf, rfl⟩
  case values => exact ⟨s, by rw [GStack.values_eq s hwf]; rfl, hwf, rfl⟩

/-- Outside the precondition of C05: with capacity 0 the first `Push` panics. -/
theorem C05_cap_zero_panics (v : α) :
    run GStack.step (GStack.newWithCap 0 : GStack α) [.push v] = none := rfl

/-- Non-vacuity: a history with two segments, a cached segment and its reuse. -/
example : (run GStack.step (GStack.newWithCap 1 : GStack Nat)
    [.push 1, .push 2, .pop, .push 3, .push 4, .values, .pop, .pop, .pop, .pop]).map (·.2) =
    some [.unit, .unit, .val 2 true, .unit, .unit, .list [1, 3, 4], .val 4 true, .val 3 true,
      .val 1 true, .val 0 false] := by decide

example : (run AStack.step (AStack.new : AStack Nat) [.push 1, .push 2, .pop, .peek]).map (·.2) =
    some [.unit, .unit, .val 2 true, .val 1 true] := by decide

end Verif.Stack
