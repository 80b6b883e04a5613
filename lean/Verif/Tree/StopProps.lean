import Verif.Tree.AvlStopProps
import Verif.Tree.TreeSetProps
import Verif.Tree.AvlsProps

/-! C107: a call during which the comparator panics leaves no trace. tree/avl, set/treeset, tree/avls and
queue/priority; the other containers are in `IndexStopProps`, `ListStopProps` and
`Heap/StopProps`. -/

namespace Verif

namespace AvlHeap
open Avl (Op Res spec ord)
variable {K V : Type} {cmp : K → K → Int}

/-- C107 for tree/avl and set/treeset with any comparison and threshold: in a history in which the
comparator may panic anywhere, the calls that were not ended by such a panic leave the same nodes and
answer the same as if the other calls had never been made. -/
theorem C107_no_trace (cmp : K → K → Int) (one : Bool) (d : Int) (zero : V) (junk : K × V)
    (os : List (Op K V × Bad)) {s : PMap K V} {rs : List (Option (Res K V))}
    (h : runStop (fun b s => stepB b cmp one d zero s) (PMap.new junk) os = some (s, rs)) :
    Justified Bad.some os rs ∧
      run (step cmp one d zero) (PMap.new junk) (survived os rs) = some (s, rs.filterMap id) :=
  runStop_trace (P := Bad.some) (Q := fun _ => True) (fun _ _ o _ => stepB_stop o) os
    (fun _ _ => trivial) _ _ _ h

/-- C107 for tree/avl: no call fails other than by a panic of the comparator, and the answers are those of
the ideal sorted map that is asked only the other calls. The limit on the size is that of
`C25_map_partial`. -/
theorem C107_avl (hc : LawfulEx cmp) {d : Int} (h1 : 1 ≤ d) (h2 : d ≤ 127) (zero : V) (junk : K × V)
    (os : List (Op K V × Bad)) (ha : ∀ o ∈ os, o.1.abstract = true) (hf : os.length < Avl.room d) :
    ∃ s rs, runStop (fun b s => stepB b cmp false d zero s) (PMap.new junk) os = some (s, rs) ∧
      Justified Bad.some os rs ∧
      rs.filterMap id = (runSpec (spec (ord cmp)) [] (survived os rs)).2 ∧ IsTree s := by
  have ht : ∀ os' : List (Op K V), os'.Sublist (os.map (·.1)) →
      ∃ s, run (step cmp false d zero) (PMap.new junk) os' =
        some (s, (runSpec (spec (ord cmp)) [] os').2) ∧ IsTree s := by
    intro os' hs
    refine C87_avl_answers hc h1 h2 zero junk os' (fun o ho => ?_) fun os₁ hp => ?_
    · obtain ⟨q, hq, rfl⟩ := List.mem_map.1 (hs.subset ho)
      exact ha q hq
    · have g1 := Avl.runSpec_length (o := ord cmp) os₁ []
      have g2 := hp.length_le
      have g3 := hs.length_le
      simp only [List.length_nil, List.length_map] at g1 g3
      omega
  obtain ⟨s, rs, g1, g2, g3⟩ := runStop_ok (stepB := fun b s => stepB b cmp false d zero s)
    (step := step cmp false d zero) (Q := fun _ => True)
    (fun _ _ o _ => stepB_stop o) os (fun _ _ => trivial) (PMap.new junk)
    fun os' hs => by obtain ⟨s, h, -⟩ := ht os' hs; rw [h]; rfl
  obtain ⟨s', g4, g5⟩ := ht _ (survived_sublist os rs)
  rw [g3, Option.some.injEq, Prod.mk.injEq] at g4
  obtain ⟨rfl, g6⟩ := g4
  exact ⟨s, rs, g1, g2, g6, g5⟩

/-- C107 for set/treeset with fewer than 2^63 calls. -/
theorem C107_treeset (hc : LawfulEx cmp) (zero : V) (junk : K × V)
    (os : List (Op K V × Bad)) (ha : ∀ o ∈ os, o.1.abstract = true) (hf : os.length < 2 ^ 63) :
    ∃ s rs, runStop (fun b s => stepB b cmp true 2 zero s) (PMap.new junk) os = some (s, rs) ∧
      Justified Bad.some os rs ∧
      rs.filterMap id = (runSpec (spec (ord cmp)) [] (survived os rs)).2 ∧ IsTree s := by
  have ht : ∀ os' : List (Op K V), os'.Sublist (os.map (·.1)) →
      ∃ s, run (step cmp true 2 zero) (PMap.new junk) os' =
        some (s, (runSpec (spec (ord cmp)) [] os').2) ∧ IsTree s := by
    intro os' hs
    refine C87_treeset_answers hc zero junk os' (fun o ho => ?_) fun os₁ hp => ?_
    · obtain ⟨q, hq, rfl⟩ := List.mem_map.1 (hs.subset ho)
      exact ha q hq
    · have g1 := Avl.runSpec_length (o := ord cmp) os₁ []
      have g2 := hp.length_le
      have g3 := hs.length_le
      simp only [List.length_nil, List.length_map] at g1 g3
      omega
  obtain ⟨s, rs, g1, g2, g3⟩ := runStop_ok (stepB := fun b s => stepB b cmp true 2 zero s)
    (step := step cmp true 2 zero) (Q := fun _ => True)
    (fun _ _ o _ => stepB_stop o) os (fun _ _ => trivial) (PMap.new junk)
    fun os' hs => by obtain ⟨s, h, -⟩ := ht os' hs; rw [h]; rfl
  obtain ⟨s', g4, g5⟩ := ht _ (survived_sublist os rs)
  rw [g3, Option.some.injEq, Prod.mk.injEq] at g4
  obtain ⟨rfl, g6⟩ := g4
  exact ⟨s, rs, g1, g2, g6, g5⟩

/-- The comparator panics in the first search at the node `a`. -/
def atNode (a : Nat) : Bad := fun i b => i == 0 && b == a

/-- The comparator never panics. -/
def never : Bad := fun _ _ => false

def stopDemo : List (Op Int Nat × Bad) :=
  [(.put 1 10, never), (.put 2 20, never), (.put 3 30, never), (.put 4 40, atNode 3), (.remove 1, atNode 2),
    (.set 2 21, fun _ _ => true), (.size, fun _ _ => true), (.get 2, atNode 1), (.values, never)]

/-- `stopDemo` meets the hypotheses, three of its calls are ended by a panic, and the search of `Get`
does not come to the node at which it would be. -/
example : (∀ o ∈ stopDemo, o.1.abstract = true) ∧ stopDemo.length < Avl.room 1 ∧
    (runStop (fun b s => stepB b Compare.anyEx false 1 0 s) (PMap.new (0, 0)) stopDemo).map (·.2) =
      some [some (.bool true), some (.bool true), some (.bool true), none, none, none, some (.nat 3),
        some (.val (some 20)), some (.list [10, 20, 30])] :=
  ⟨by decide, by decide, rfl⟩

end AvlHeap

namespace AvlsHeap
open AvlHeap
open Avl (Res ord)
open Avls (Op spec)
variable {K V : Type} {cmp : K → K → Int}

/-- C107 for tree/avls with any comparison and threshold. -/
theorem C107_no_trace (cmp : K → K → Int) (d : Int) (zero : V) (junk : K × V)
    (os : List (Op K V × Bad)) {s : PMap K V} {rs : List (Option (Res K V))}
    (h : runStop (fun b s => stepB b cmp d zero s) (PMap.new junk) os = some (s, rs)) :
    Justified Bad.some os rs ∧
      run (step cmp d zero) (PMap.new junk) (survived os rs) = some (s, rs.filterMap id) :=
  runStop_trace (P := Bad.some) (Q := fun _ => True) (fun _ _ o _ => stepB_stop o) os
    (fun _ _ => trivial) _ _ _ h

/-- C107 for tree/avls with fewer than 2^63 calls. -/
theorem C107_avls (hc : LawfulEx cmp) (zero : V) (junk : K × V)
    (os : List (Op K V × Bad)) (ha : ∀ o ∈ os, o.1.abstract = true) (hf : os.length < 2 ^ 63) :
    ∃ s rs, runStop (fun b s => stepB b cmp 2 zero s) (PMap.new junk) os = some (s, rs) ∧
      Justified Bad.some os rs ∧
      rs.filterMap id = (runSpec (spec (ord cmp)) [] (survived os rs)).2 ∧ IsTree s := by
  have ht : ∀ os' : List (Op K V), os'.Sublist (os.map (·.1)) →
      ∃ s, run (step cmp 2 zero) (PMap.new junk) os' =
        some (s, (runSpec (spec (ord cmp)) [] os').2) ∧ IsTree s := by
    intro os' hs
    refine C95_answers hc zero junk os' (fun o ho => ?_) (Avls.short_fits ?_)
    · obtain ⟨q, hq, rfl⟩ := List.mem_map.1 (hs.subset ho)
      exact ha q hq
    · have g3 := hs.length_le
      simp only [List.length_map] at g3
      omega
  obtain ⟨s, rs, g1, g2, g3⟩ := runStop_ok (stepB := fun b s => stepB b cmp 2 zero s)
    (step := step cmp 2 zero) (Q := fun _ => True)
    (fun _ _ o _ => stepB_stop o) os (fun _ _ => trivial) (PMap.new junk)
    fun os' hs => by obtain ⟨s, h, -⟩ := ht os' hs; rw [h]; rfl
  obtain ⟨s', g4, g5⟩ := ht _ (survived_sublist os rs)
  rw [g3, Option.some.injEq, Prod.mk.injEq] at g4
  obtain ⟨rfl, g6⟩ := g4
  exact ⟨s, rs, g1, g2, g6, g5⟩

def stopDemo : List (Op Int Nat × Bad) :=
  [(.put 1 10, never), (.put 1 11, never), (.put 3 30, never), (.put 4 40, atNode 3), (.remove 1, atNode 1),
    (.upsert 5 50, fun i a => i == 1 && a == 3), (.get 1, never), (.values, never)]

/-- `stopDemo` meets the hypotheses. `Upsert` panics in its second search. -/
example : (∀ o ∈ stopDemo, o.1.abstract = true) ∧ stopDemo.length < 2 ^ 63 ∧
    (runStop (fun b s => stepB b Compare.anyEx 2 0 s) (PMap.new (0, 0)) stopDemo).map (·.2) =
      some [some (.bool true), some (.bool true), some (.bool true), none, none, none,
        some (.val (some 10)), some (.list [10, 11, 30])] :=
  ⟨by decide, by decide, rfl⟩

end AvlsHeap

namespace PriorityHeap
open AvlHeap (atNode never)
open Avl (ord)
open Priority (Op Res spec legal)
variable {K V : Type} {cmp : K → K → Int}

/-- C107 for queue/priority with any comparison. -/
theorem C107_no_trace (cmp : K → K → Int) (zero : V) (junk : K × V)
    (os : List (Op K V × Bad)) {s : PQueue K V} {rs : List (Option (Res K V))}
    (h : runStop (fun b s => stepB b cmp zero s) (PQueue.new junk) os = some (s, rs)) :
    Justified Bad.some os rs ∧
      run (step cmp zero) (PQueue.new junk) (survived os rs) = some (s, rs.filterMap id) :=
  runStop_trace (P := Bad.some) (Q := fun _ => True) (fun _ _ o _ => stepB_stop o) os
    (fun _ _ => trivial) _ _ _ h

theorem legal_of_none {o : K → K → Ordering} : ∀ (os : List (Op K V)) (xs : List (K × V)),
    (∀ op ∈ os, ∀ i, op ≠ .removeIndex i) → LegalRun (spec o) legal xs os
  | [], _, _ => trivial
  | op :: os, xs, h => by
    refine ⟨?_, legal_of_none os _ fun op' hop => h op' (List.mem_cons_of_mem _ hop)⟩
    have := h op List.mem_cons_self
    cases op <;> first | trivial | exact absurd rfl (this _)

/-- C107 for queue/priority, without `RemoveIndex`, which compares nothing and of which
`C93_panic_changes_size` speaks. -/
theorem C107_priority (hc : LawfulEx cmp) (zero : V) (junk : K × V)
    (os : List (Op K V × Bad)) (ha : ∀ o ∈ os, ∀ i, o.1 ≠ .removeIndex i) :
    ∃ s rs, runStop (fun b s => stepB b cmp zero s) (PQueue.new junk) os = some (s, rs) ∧
      Justified Bad.some os rs ∧
      rs.filterMap id = (runSpec (spec (ord cmp)) [] (survived os rs)).2 ∧ IsTree s ∧ SizesRight s := by
  have ht : ∀ os' : List (Op K V), os'.Sublist (os.map (·.1)) →
      ∃ s, run (step cmp zero) (PQueue.new junk) os' =
        some (s, (runSpec (spec (ord cmp)) [] os').2) ∧ IsTree s ∧ SizesRight s := by
    intro os' hs
    obtain ⟨s, g1, g2, g3, -⟩ := C93_answers_partial hc zero junk os'
      (legal_of_none os' [] fun op hop => by
        obtain ⟨q, hq, rfl⟩ := List.mem_map.1 (hs.subset hop)
        exact ha q hq)
    exact ⟨s, g1, g2, g3⟩
  obtain ⟨s, rs, g1, g2, g3⟩ := runStop_ok (stepB := fun b s => stepB b cmp zero s)
    (step := step cmp zero) (Q := fun _ => True)
    (fun _ _ o _ => stepB_stop o) os (fun _ _ => trivial) (PQueue.new junk)
    fun os' hs => by obtain ⟨s, h, -⟩ := ht os' hs; rw [h]; rfl
  obtain ⟨s', g4, g5⟩ := ht _ (survived_sublist os rs)
  rw [g3, Option.some.injEq, Prod.mk.injEq] at g4
  obtain ⟨rfl, g6⟩ := g4
  exact ⟨s, rs, g1, g2, g6, g5⟩

def stopDemo : List (Op Int Nat × Bad) :=
  [(.put 1 10, never), (.put 2 20, never), (.put 3 30, never), (.put 4 40, atNode 2), (.remove 1, atNode 1),
    (.insertIfAbsent 5 50, fun i a => i == 1 && a == 3), (.size, never), (.values, never)]

example : (∀ o ∈ stopDemo, ∀ i, o.1 ≠ .removeIndex i) ∧
    (runStop (fun b s => stepB b Compare.anyEx 0 s) (PQueue.new (0, 0)) stopDemo).map (·.2) =
      some [some (.bool true), some (.bool true), some (.bool true), none, none, none,
        some (.int 3), some (.list [10, 20, 30])] :=
  ⟨by simp [stopDemo], rfl⟩

end PriorityHeap
end Verif
