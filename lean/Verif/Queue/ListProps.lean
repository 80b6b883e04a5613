import Verif.Queue.ListLemmas

/-! C06: the linked queue is a double-ended queue. -/

namespace Verif.Queue
open DLL
variable {α : Type}

/-- The ideal double-ended queue: a list, front first. -/
def spec (l : List α) : Op α → List α × Res α
  | .pushBack v => (l ++ [v], .unit)
  | .pushFront v => (v :: l, .unit)
  | .popBack => (l.dropLast, .val l.getLast?)
  | .popFront => (l.tail, .val l.head?)
  | .front => (l, .val l.head?)
  | .back => (l, .val l.getLast?)
  | .size => (l, .int l.length)

/-- C06: every history returns what the ideal deque returns without panicking, and afterwards
walking the `Next` links from `Front()` and the `Prev` links from `Back()` sees exactly the ideal
content, forwards and backwards. -/
theorem C06_list_deque (h0 : Store α) (os : List (Op α)) :
    ∃ q, run LQ.step (LQ.new h0) os = some (q, (runSpec spec [] os).2) ∧
      WalkNext q.h q.head (runSpec spec [] os).1 ∧
      WalkPrev q.h q.tail (runSpec spec [] os).1.reverse := by
  suffices H : _ from
    let ⟨s, h, ids, hi, hv⟩ := run_refines (step := LQ.step) (spec := spec)
      (fun q l => q.Rep l) H os (LQ.new h0) [] (LQ.new_rep h0)
    ⟨s, h, by
      rw [← hv, hi.head]; exact walkNext_of_linked hi.linked hi.last, by
      rw [← hv, hi.tail]; exact walkPrev_of_linked hi.linked hi.first⟩
  intro q l o hR
  cases o with
  | pushBack v =>
    obtain ⟨q', h1, h2⟩ := LQ.pushBack_ok q l v hR
    exact ⟨q', by simp [LQ.step, spec, h1], h2⟩
  | pushFront v =>
    obtain ⟨q', h1, h2⟩ := LQ.pushFront_ok q l v hR
    exact ⟨q', by simp [LQ.step, spec, h1], h2⟩
  | popBack =>
    rcases nil_or_snoc l with rfl | ⟨l, v, rfl⟩
    · exact ⟨q, LQ.popBack_nil q hR, hR⟩
    · obtain ⟨q', h1, h2⟩ := LQ.popBack_concat q v l hR
      exact ⟨q', by simp [LQ.step, spec, h1], by simpa [spec] using h2⟩
  | popFront =>
    cases l with
    | nil => exact ⟨q, LQ.popFront_nil q hR, hR⟩
    | cons v l =>
      obtain ⟨q', h1, h2⟩ := LQ.popFront_cons q v l hR
      exact ⟨q', by simp [LQ.step, spec, h1], by simpa [spec] using h2⟩
  | front =>
    refine ⟨q, ?_, hR⟩
    obtain ⟨ids, hi, rfl⟩ := hR
    simp [LQ.step, spec, hi.head, vals]
  | back =>
    refine ⟨q, ?_, hR⟩
    obtain ⟨ids, hi, rfl⟩ := hR
    simp [LQ.step, spec, hi.tail, vals]
  | size =>
    refine ⟨q, ?_, hR⟩
    obtain ⟨ids, hi, rfl⟩ := hR
    simp [LQ.step, spec, hi.size, vals]

/-- Non-vacuity: a history using both ends and emptying the queue. -/
example : (run LQ.step (LQ.new fun _ => ⟨none, none, 0⟩ : LQ Nat)
    [.pushBack 1, .pushFront 2, .pushBack 3, .popFront, .front, .popBack, .popBack, .popBack]).map
      (·.2) = some [.unit, .unit, .unit, .val (some 2), .val (some 1), .val (some 3),
        .val (some 1), .val none] := by decide

end Verif.Queue
