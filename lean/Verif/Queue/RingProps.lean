import Verif.Queue.RingLemmas
import Verif.Queue.ListProps

/-! C07, C08: the circular queue is a double-ended queue with index access. -/

namespace Verif.Queue
variable {α : Type} [Inhabited α]

/-- Reading `Front`/`Back` of an empty queue is outside the contract (the code returns whatever the
slot holds), so C07 is about histories that do not do that. `Legal l os`: in no state of the ideal
run from `l` is `front` or `back` called on the empty queue. -/
def Legal : List α → List (Op α) → Prop
  | _, [] => True
  | l, o :: os => ((o = .front ∨ o = .back) → l ≠ []) ∧ Legal (spec l o).1 os

theorem Ring.step_ok (q : Ring α) (l : List α) (o : Op α) (h : q.Rep l)
    (ho : (o = .front ∨ o = .back) → l ≠ []) :
    ∃ q', q.step o = some (q', (spec l o).2) ∧ q'.Rep (spec l o).1 := by
  cases o with
  | pushBack v =>
    obtain ⟨q', h1, h2⟩ := pushBack_ok q l v h
    exact ⟨q', by simp [step, spec, h1], h2⟩
  | pushFront v =>
    obtain ⟨q', h1, h2⟩ := pushFront_ok q l v h
    exact ⟨q', by simp [step, spec, h1], h2⟩
  | popBack =>
    rcases nil_or_snoc l with rfl | ⟨l, v, rfl⟩
    · exact ⟨q, popBack_nil q h, h⟩
    · obtain ⟨q', h1, h2⟩ := popBack_concat q l v h
      exact ⟨q', by simp [step, spec, h1], by simpa [spec] using h2⟩
  | popFront =>
    cases l with
    | nil => exact ⟨q, popFront_nil q h, h⟩
    | cons v l =>
      obtain ⟨q', h1, h2⟩ := popFront_cons q l v h
      exact ⟨q', by simp [step, spec, h1], by simpa [spec] using h2⟩
  | front =>
    refine ⟨q, ?_, h⟩
    cases l with
    | nil => simp at ho
    | cons v l => simp [step, spec, front_eq q v l h]
  | back =>
    refine ⟨q, ?_, h⟩
    rcases nil_or_snoc l with rfl | ⟨l, v, rfl⟩
    · simp at ho
    · simp [step, spec, back, (back_get q l v h).1]
  | size =>
    exact ⟨q, by simp [step, spec, h.size], h⟩

theorem Ring.run_ok (os : List (Op α)) : ∀ (q : Ring α) (l : List α), q.Rep l → Legal l os →
    ∃ q', run Ring.step q os = some (q', (runSpec spec l os).2) ∧ q'.Rep (runSpec spec l os).1 := by
  induction os with
  | nil => intro q l h _; exact ⟨q, rfl, h⟩
  | cons o os ih =>
    intro q l h hl
    obtain ⟨q1, h1, h2⟩ := step_ok q l o h hl.1
    obtain ⟨q2, h3, h4⟩ := ih q1 _ h2 hl.2
    exact ⟨q2, by simp [run, runSpec, h1, h3], h4⟩

/-- C07: every history (not asking for the ends of an empty queue) returns what the ideal deque
returns, never panics, and afterwards `Values` lists the ideal content in order — across every
growth and shrinking of the buffer. -/
theorem C07_ring_deque (os : List (Op α)) (hl : Legal [] os) :
    ∃ q, run Ring.step (Ring.new : Ring α) os = some (q, (runSpec spec [] os).2) ∧
      q.values = some (runSpec spec [] os).1 := by
  obtain ⟨q, h1, h2⟩ := Ring.run_ok os Ring.new [] Ring.new_rep hl
  exact ⟨q, h1, q.values_eq _ h2⟩

example : Legal ([] : List Nat) [.pushBack 1, .front, .popBack, .popFront, .pushFront 2, .back] := by
  simp [Legal, spec]

/-- Non-vacuity of C07 with wrap-around and shrinking. -/
example : (run Ring.step (Ring.new : Ring Nat) [.pushFront 1, .pushBack 2, .pushFront 3, .popBack,
    .front, .popFront, .popFront, .popFront, .size]).map (·.2) =
    some [.unit, .unit, .unit, .val (some 2), .val (some 3), .val (some 3), .val (some 1),
      .val none, .int 0] := by decide

/-- The calls a traversal of `l` starting at index `i` makes: up to and including the first one on
which the callback returns false. -/
def visitSpec (cb : Nat → α → Bool) (l : List α) : List (Nat × α) :=
  let p := l.zipIdx.map (fun (v, i) => (i, v))
  let good := p.takeWhile (fun (i, v) => cb i v)
  p.take (good.length + 1)

theorem visit_eq_spec (cb : Nat → α → Bool) (l : List α) : visit cb 0 l = visitSpec cb l := by
  suffices H : ∀ i, visit cb i l =
      ((l.zipIdx i).map (fun (v, i) => (i, v))).take
        ((((l.zipIdx i).map (fun (v, i) => (i, v))).takeWhile
          (fun (i, v) => cb i v)).length + 1) from H 0
  induction l with
  | nil => intro i; rfl
  | cons v l ih =>
    intro i
    simp only [visit, List.zipIdx_cons, List.map_cons]
    by_cases hc : cb i v
    · simp [hc, ih (i + 1)]
    · simp [hc]

/-- C08 (partial): after every legal history, `Index i` is the `i`-th element for
`0 ≤ i < Size` and panics for `i ≥ Size`; `Front`/`Back` are the first and last element; `Values`
and `Traverse` list the elements in order. Missing: negative indices, for which the claim is false,
see `C08_negative_index_not_rejected`. -/
theorem C08_ring_index_partial (os : List (Op α)) (hl : Legal [] os) :
    ∃ q, run Ring.step (Ring.new : Ring α) os = some (q, (runSpec spec [] os).2) ∧
      let l := (runSpec spec [] os).1
      (∀ i : Nat, q.index i = l[i]?) ∧
      (l ≠ [] → q.front = l.head? ∧ q.back = l.getLast?) ∧
      q.values = some l ∧ (∀ cb, q.traverse cb = some (visitSpec cb l)) := by
  obtain ⟨q, h1, h2⟩ := Ring.run_ok os Ring.new [] Ring.new_rep hl
  refine ⟨q, h1, q.index_eq _ h2, ?_, q.values_eq _ h2, ?_⟩
  · intro hne
    constructor
    · obtain ⟨v, t, e⟩ := List.exists_cons_of_ne_nil hne
      rw [e] at h2 ⊢
      exact q.front_eq v t h2
    · rcases nil_or_snoc (runSpec spec ([] : List α) os).1 with e | ⟨t, v, e⟩
      · exact absurd e hne
      · rw [e] at h2 ⊢
        simpa [Ring.back] using (q.back_get t v h2).1
  · intro cb
    rw [q.traverse_eq _ h2 cb, visit_eq_spec]

/-- The full claim of C08 about out-of-range indices fails: after three pushes and one `PopFront`
(which moves the start off zero), `Index(-1)` does not panic but returns the stale, already removed
element. -/
theorem C08_negative_index_not_rejected :
    ∃ q, run Ring.step (Ring.new : Ring Nat)
        [.pushBack 7, .pushBack 8, .pushBack 8, .pushBack 8, .pushBack 8, .pushBack 8, .popFront]
        = some (q, [.unit, .unit, .unit, .unit, .unit, .unit, .val (some 7)]) ∧
      q.index (-1) = some 7 := by
  refine ⟨_, rfl, ?_⟩
  decide

/-- The ends of an empty queue: `Front()` returns the content of an unused slot instead of reporting emptiness. -/
theorem C08_front_of_empty_not_nil :
    ∃ q, (run Ring.step (Ring.new : Ring Nat) [.pushFront 7, .popBack]).map (·.1) = some q ∧
      q.size = 0 ∧ q.front = some 0 := by
  refine ⟨_, rfl, ?_, ?_⟩ <;> decide

end Verif.Queue
