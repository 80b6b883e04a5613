import Verif.Queue.PriorityHeapIterRun
import Verif.Queue.PriorityHeapProps

/-! Iterators of queue/priority while the queue is modified: property C94. -/

namespace Verif.PriorityHeap
open Verif.AvlHeap (PIter Mem follow follow_none)
open Verif.Avl (IOp IRes ord)
open Priority (Op Res spec legal)
variable {K V : Type} {cmp : K → K → Int}

/-- C94. The calls of the queue answer as the ideal stable queue, the iterator as a cursor (`crel`): the
calls that add or remove no entry leave it where it is, and after the others it is right again from the
next seek on. Missing from the full statement, and false (below): an iterator that goes on after a call
that added or removed an entry without being placed by a seek, an iterator whose array is shorter than
the tree is deep, and a seek in a queue that has become empty; and what is missing from C54 for the
place that `SeekGT` and `SeekLT` go to. -/
theorem C94_iterator_partial (hc : LawfulEx cmp) (zero : V) (junk : K × V) (os₀ : List (Op K V))
    (hl₀ : LegalRun (spec (ord cmp)) legal [] os₀) :
    ∃ s it, run (step cmp zero) (PQueue.new junk) os₀ =
        some (s, (runSpec (spec (ord cmp)) [] os₀).2) ∧ s.iterator = some it ∧
      ∀ os, LegalRun (lspec (ord cmp)) clegal ((runSpec (spec (ord cmp)) [] os₀).1, true) os →
        Roomy cmp zero (s, it) os →
        ∃ q rs x, run (cstep cmp zero) (s, it) os = some (q, rs) ∧
          Trace (crel (ord cmp)) ((runSpec (spec (ord cmp)) [] os₀).1, some none) os rs x := by
  obtain ⟨s, it, h1, h2, h3⟩ := start_ok hc zero junk hl₀
  refine ⟨s, it, h1, h2, fun os hl hr => ?_⟩
  obtain ⟨q, rs, x, h4, h5, -⟩ := crun_ok hc zero os (h3 (hr [] List.nil_prefix _ _ rfl)) hl hr
  exact ⟨q, rs, x, h4, h5⟩

/-- Make a queue by `Put` of the keys, an iterator, and then the calls: the answers. -/
def session (ks : List Int) (os : List (COp Int Int)) : Option (List (CRes Int Int)) :=
  (run (step Compare.anyEx 0) (PQueue.new (0, 0)) (ks.map fun k => .put k k)).bind fun p =>
  p.1.iterator.bind fun it => (run (cstep Compare.anyEx 0) (p.1, it) os).map (·.2)

/-- False in general: while the iterator is on 1, `Put(3)` turns the tree; then `Next` is at the end,
although 2 was in the queue all the time. -/
theorem C94_put_skips : session [1, 2]
    [.iter .seekToFirst, .look, .call (.put 3 3), .iter .next, .look, .call .values] =
    some [.iter .unit, .look (some (1, 1)), .call (.bool true), .iter .unit, .look none,
      .call (.list [1, 2, 3])] := rfl

/-- False in general: the iterator shows 3 twice, on the way back after `Remove(2)`. -/
theorem C94_remove_repeats : session [1, 2, 3]
    [.iter .seekToLast, .look, .call (.remove 2), .iter .prev, .look] =
    some [.iter .unit, .look (some (3, 3)), .call (.val (some 2)), .iter .unit, .look (some (3, 3))] := rfl

/-- False in general: the iterator shows the key 2 after `Remove(2)`. -/
theorem C94_removed_shown : session [2, 1]
    [.iter .seekToFirst, .look, .call (.remove 2), .iter .next, .look, .call (.get 2)] =
    some [.iter .unit, .look (some (1, 1)), .call (.val (some 2)), .iter .unit, .look (some (2, 2)),
      .call (.val none)] := rfl

/-- False in general: a loop that removes the entry which the iterator is on misses the rest. -/
theorem C94_remove_current_skips : session [1, 2, 3]
    [.iter (.seekGE 2), .call (.remove 2), .iter .next, .look, .call .values] =
    some [.iter (.bool true), .call (.val (some 2)), .iter .unit, .look none,
      .call (.list [1, 3])] := rfl

/-- False in general: an iterator made while the queue was empty panics when it leaves the only entry
that the queue is given later, and can not be placed on the second of two: the limit `Roomy` is needed. -/
theorem C94_old_iterator_panics :
    session [] [.call (.put 1 1), .iter (.seekGE 1), .look] =
      some [.call (.bool true), .iter (.bool true), .look (some (1, 1))] ∧
    session [] [.call (.put 1 1), .iter (.seekGE 1), .look, .iter .next] = none ∧
    session [] [.call (.put 1 1), .call (.put 2 2), .iter (.seekGE 2)] = none := ⟨rfl, rfl, rfl⟩

/-- False in general: a seek in a queue that has become empty leaves the old path, and `Next` shows an
entry that is not in the queue any more. -/
theorem C94_cleared_shown : session [1, 2, 3]
    [.iter .seekToFirst, .iter .prev, .call .clear, .iter (.seekGE 1), .iter .next, .look, .call .size] =
    some [.iter .unit, .iter .unit, .call .unit, .iter (.bool false), .iter .unit,
      .look (some (1, 1)), .call (.int 0)] := rfl

/-- False in general: the copy that `Clone` makes after the queue has become smaller can not be moved. -/
theorem C94_clone_panics : session [1, 2, 3]
      [.iter .seekToFirst, .call .clear, .iter .clone, .look] =
    some [.iter .unit, .call .unit, .iter .unit, .look (some (1, 1))] ∧
    session [1, 2, 3] [.iter .seekToFirst, .call .clear, .iter .clone, .iter .next] = none :=
  ⟨rfl, rfl⟩

/-! ### An example -/

/-- `Fits`, tested. -/
def depthB (m : Mem K V) : Nat → Option Nat → Bool
  | _, none => true
  | 0, some _ => false
  | n + 1, some a => depthB m n (m a).lo && depthB m n (m a).hi

theorem fits_of_test {m : Mem K V} : ∀ {π : List Bool} {n : Nat} {p : Option Nat} {a : Nat},
    depthB m n p = true → follow m p π = some a → π.length < n
  | π, n, none, a, _, h => by rw [follow_none] at h; cases h
  | _, 0, some b, a, h, _ => by cases h
  | [], n + 1, some b, a, _, _ => by simp
  | c :: π, n + 1, some b, a, h, h1 => by
    simp only [depthB, Bool.and_eq_true] at h
    have : depthB m n ((m b).kid c) = true := by cases c; exacts [h.1, h.2]
    have := fits_of_test this h1
    simp only [List.length_cons]; omega

/-- `Roomy`, tested call by call. -/
def roomyB (cmp : K → K → Int) (zero : V) : List (COp K V) → PQueue K V × PIter → Bool
  | [], q => depthB q.1.mem q.2.cap q.1.root
  | o :: os, q => depthB q.1.mem q.2.cap q.1.root &&
      (cstep cmp zero q o).all fun p => roomyB cmp zero os p.1

theorem roomy_of_test {zero : V} : ∀ {os : List (COp K V)}
    {q : PQueue K V × PIter}, roomyB cmp zero os q = true → Roomy cmp zero q os
  | os, q, h, [], _, q', rs, hr, π, a, hx => by
    cases hr
    cases os <;> simp only [roomyB, Bool.and_eq_true] at h
    · exact fits_of_test h hx
    · exact fits_of_test h.1 hx
  | [], q, h, o :: os₁, hp, _, _, _, _, _, _ => by simp at hp
  | o :: os, q, h, o' :: os₁, hp, q', rs, hr, π, a, hx => by
    obtain ⟨rfl, hp2⟩ := List.cons_prefix_cons.1 hp
    simp only [roomyB, Bool.and_eq_true] at h
    simp only [run] at hr
    cases h1 : cstep cmp zero q o' with
    | none => rw [h1] at hr; cases hr
    | some p =>
      rw [h1] at hr h
      simp only at hr
      cases h2 : run (cstep cmp zero) p.1 os₁ with
      | none => rw [h2] at hr; cases hr
      | some y =>
        rw [h2] at hr
        cases hr
        exact roomy_of_test h.2 os₁ hp2 _ _ h2 π a hx

/-- The example: an update and a missing key during a scan, a removal, a new seek, a clone. -/
def sdemo : List (COp Int String) :=
  [.iter .seekToFirst, .look, .call (.upsert 2 "B"), .call (.remove 9), .call (.insertIfAbsent 3 "x"),
   .iter .next, .look, .call .popHead, .iter .seekToLast, .iter .clone, .iter .prev, .look]

def sdemo₀ : List (Op Int String) := [.put 2 "b", .put 1 "a", .put 3 "c", .put 3 "d"]

example : ∃ s it, run (step Compare.anyEx "") (PQueue.new blank) sdemo₀ =
      some (s, List.replicate 4 (.bool true)) ∧
    s.iterator = some it ∧ ∃ q rs x, run (cstep Compare.anyEx "") (s, it) sdemo = some (q, rs) ∧
      rs = [.iter .unit, .look (some (1, "a")), .call (.bool true), .call (.val none), .call (.bool false),
        .iter .unit, .look (some (2, "B")), .call (.val (some "a")), .iter .unit, .iter .unit,
        .iter .unit, .look (some (3, "c"))] ∧
      Trace (crel (ord Compare.anyEx)) ([(1, "a"), (2, "b"), (3, "c"), (3, "d")], some none) sdemo rs x := by
  obtain ⟨s, it, h1, h2, h3⟩ := C94_iterator_partial Avl.anyEx_lawful "" blank sdemo₀
    ⟨trivial, trivial, trivial, trivial, trivial⟩
  refine ⟨s, it, h1, h2, ?_⟩
  have e : run (step Compare.anyEx "") (PQueue.new blank) sdemo₀ =
    some ((run (step Compare.anyEx "") (PQueue.new blank) sdemo₀).get rfl) := rfl
  rw [e] at h1
  cases h1
  cases h2
  obtain ⟨q, rs, x, h4, h5⟩ := h3 sdemo ⟨.inl rfl, trivial, trivial, trivial, trivial, .inl rfl, trivial,
    trivial, .inr ⟨rfl, by decide⟩, trivial, .inl rfl, trivial, trivial⟩ (roomy_of_test rfl)
  refine ⟨q, rs, x, h4, ?_, h5⟩
  have h6 := congrArg (Option.map Prod.snd) h4
  exact (Option.some.inj h6).symm.trans rfl

end Verif.PriorityHeap
