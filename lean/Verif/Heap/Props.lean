import Verif.Heap.Lemmas
import Verif.Compare.Props
import Mathlib.Algebra.Order.Ring.Int

/-! C09, C10: the heap is a priority queue. -/

namespace Verif.Heap
variable {α : Type} [Inhabited α] {cmp : α → α → Int}

/-- The specification of the priority queue over a multiset `m` (a list up to permutation).
Which of several least elements is returned is left open. -/
inductive Spec (cmp : α → α → Int) : List α → Op α → Res α → List α → Prop
  | put (m m' : List α) (v : α) : m'.Perm (v :: m) → Spec cmp m (.put v) .unit m'
  | popEmpty : Spec cmp [] .pop (.val default false) []
  | pop (m m' : List α) (x : α) : x ∈ m → (∀ y ∈ m, cmp x y ≤ 0) → m.Perm (x :: m') →
      Spec cmp m .pop (.val x true) m'
  | topEmpty : Spec cmp [] .top (.val default false) []
  | top (m : List α) (x : α) : x ∈ m → (∀ y ∈ m, cmp x y ≤ 0) → Spec cmp m .top (.val x true) m
  | size (m : List α) : Spec cmp m .size (.nat m.length) m
  | empty (m : List α) : Spec cmp m .empty (.bool m.isEmpty) m
  | clear (m : List α) : Spec cmp m .clear .unit []
  | reset (m : List α) : Spec cmp m .reset .unit []

theorem PQ.new_rep (cmp : α → α → Int) : (PQ.new : PQ α).Rep cmp [] := by
  refine ⟨by simp [PQ.new], by simp [PQ.new], ?_, by simp [PQ.new]⟩
  intro i hi hin
  simp [PQ.new] at hin

theorem PQ.step_ok (hc : Lawful cmp) (h : PQ α) (m : List α) (o : Op α) (hr : h.Rep cmp m) :
    ∃ h' r m', h.step cmp o = some (h', r) ∧ Spec cmp m o r m' ∧ h'.Rep cmp m' := by
  cases o with
  | put v =>
    obtain ⟨h', h1, h2⟩ := PQ.put_ok hc h m v hr
    exact ⟨h', .unit, v :: m, by simp [step, h1], .put _ _ _ (List.Perm.refl _), h2⟩
  | pop =>
    by_cases hm : m = []
    · subst hm
      exact ⟨h, _, [], PQ.pop_empty h hr, .popEmpty, hr⟩
    · obtain ⟨h', m', h1, h2, h3⟩ := PQ.pop_ok hc h m hr hm
      obtain ⟨-, h5, h6⟩ := PQ.top_min hc h m hr hm
      exact ⟨h', _, m', h1, .pop _ _ _ h5 h6 h3, h2⟩
  | top =>
    by_cases hm : m = []
    · subst hm
      have := hr.size
      simp at this
      exact ⟨h, _, [], by simp [step, PQ.top, this], .topEmpty, hr⟩
    · obtain ⟨h4, h5, h6⟩ := PQ.top_min hc h m hr hm
      have hs : h.size ≠ 0 := by
        have := hr.size
        have := List.length_pos_iff.2 hm
        omega
      exact ⟨h, _, m, by simp [step, PQ.top, hs, h4], .top _ _ h5 h6, hr⟩
  | size => exact ⟨h, _, m, rfl, by rw [hr.size]; exact .size m, hr⟩
  | empty =>
    refine ⟨h, _, m, rfl, ?_, hr⟩
    have : (decide (h.size < 1)) = m.isEmpty := by
      rw [hr.size]; cases m <;> simp
    rw [this]; exact .empty m
  | clear =>
    refine ⟨_, _, [], rfl, .clear m, hr.cap, by simp, ?_, by simp⟩
    intro i _ hi; simp at hi
  | reset =>
    refine ⟨_, _, [], rfl, .reset m, PQ.new_rep cmp⟩

/-- C09 and C10: for every lawful comparator and every history, no call panics, and the results are
those of a priority queue over an exactly conserved multiset: `Top`/`Pop` report false exactly on
the empty multiset, otherwise return a member that no member is smaller than; `Pop` removes exactly
that occurrence, `Put` adds exactly one; `Size` is the cardinality. -/
theorem C09_heap_priority_queue (hc : Lawful cmp) (os : List (Op α)) :
    ∃ h rs m, run (PQ.step cmp) (PQ.new : PQ α) os = some (h, rs) ∧
      Trace (Spec cmp) [] os rs m := by
  obtain ⟨h, rs, m, h1, h2, -⟩ := run_refines_rel (fun h m => h.Rep cmp m)
    (fun h m o hr => PQ.step_ok hc h m o hr) os PQ.new [] (PQ.new_rep cmp)
  exact ⟨h, rs, m, h1, h2⟩

/-- The results of draining. -/
def vals : List (Res α) → List α
  | [] => []
  | .val v _ :: rs => v :: vals rs
  | _ :: rs => vals rs

theorem PQ.drain (hc : Lawful cmp) (n : Nat) : ∀ (h : PQ α) (m : List α), h.Rep cmp m →
    m.length = n → ∃ h' rs, run (PQ.step cmp) h (List.replicate n .pop) = some (h', rs) ∧
      h'.Rep cmp [] ∧ (vals rs).Perm m ∧ (vals rs).Pairwise (fun a b => cmp a b ≤ 0) ∧
      ∀ r ∈ rs, ∃ v, r = .val v true := by
  induction n with
  | zero =>
    intro h m hr hm
    have : m = [] := List.length_eq_zero_iff.1 hm
    subst this
    exact ⟨h, [], rfl, hr, List.Perm.refl _, List.Pairwise.nil, by simp⟩
  | succ n ih =>
    intro h m hr hm
    have hne : m ≠ [] := by rintro rfl; simp at hm
    obtain ⟨h1, m1, e1, r1, p1⟩ := PQ.pop_ok hc h m hr hne
    obtain ⟨-, -, hmin⟩ := PQ.top_min hc h m hr hne
    have hl : m1.length = n := by have := p1.length_eq; simp at this; omega
    obtain ⟨h2, rs, e2, r2, p2, s2, t2⟩ := ih h1 m1 r1 hl
    refine ⟨h2, .val (g h.elements 0) true :: rs, ?_, r2, ?_, ?_, ?_⟩
    · simp only [List.replicate_succ, run]
      rw [show PQ.step cmp h .pop = h.pop cmp from rfl, e1]
      simp only [e2]
    · exact (p2.cons _).trans p1.symm
    · simp only [vals]
      refine List.Pairwise.cons ?_ s2
      intro a ha
      exact hmin a (p1.symm.subset (List.mem_cons_of_mem _ (p2.subset ha)))
    · intro r hr'
      rw [List.mem_cons] at hr'
      rcases hr' with rfl | hr'
      · exact ⟨_, rfl⟩
      · exact t2 r hr'

/-- C10 (draining): after any history whose multiset is `m`, popping `m.length` times succeeds,
leaves the heap empty and yields `m` sorted. -/
theorem C10_heap_drains_sorted (hc : Lawful cmp) (os : List (Op α)) :
    ∃ h rs m, run (PQ.step cmp) (PQ.new : PQ α) os = some (h, rs) ∧
      Trace (Spec cmp) [] os rs m ∧
      ∃ h' ps, run (PQ.step cmp) h (List.replicate m.length .pop ++ [.pop]) =
          some (h', ps ++ [.val default false]) ∧
        (vals ps).Perm m ∧ (vals ps).Pairwise (fun a b => cmp a b ≤ 0) ∧
        ∀ r ∈ ps, ∃ v, r = .val v true := by
  obtain ⟨h, rs, m, h1, h2, h3⟩ := run_refines_rel (fun h m => h.Rep cmp m)
    (fun h m o hr => PQ.step_ok hc h m o hr) os PQ.new [] (PQ.new_rep cmp)
  obtain ⟨h', ps, e, r, p, s, t⟩ := PQ.drain hc m.length h m h3 rfl
  refine ⟨h, rs, m, h1, h2, h', ps, ?_, p, s, t⟩
  rw [run_append, e]
  simp only [run]
  rw [show PQ.step cmp h' .pop = h'.pop cmp from rfl, PQ.pop_empty h' r]

/-- Non-vacuity: a lawful comparator exists and a mixed history behaves as specified. -/
example : Lawful (Compare.any : Int → Int → Int) := Compare.C01_any_lawful.1

example : (run (PQ.step (fun a b : Nat => (a : Int) - b)) PQ.new
    [.put 5, .put 3, .put 9, .put 3, .top, .pop, .pop, .size, .pop, .pop, .pop]).map (·.2) =
    some [.unit, .unit, .unit, .unit, .val 3 true, .val 3 true, .val 3 true, .nat 2, .val 5 true,
      .val 9 true, .val 0 false] := by decide +kernel

end Verif.Heap
