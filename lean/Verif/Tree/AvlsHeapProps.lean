import Verif.Tree.AvlsHeapSim
import Verif.Tree.AvlHeapProps
import Verif.Tree.AvlsProps

/-! The pointer program of tree/avls: property C95. -/

namespace Verif.AvlsHeap
open Verif.AvlHeap (PMap IsTree MRel MRel.new)
open Verif.Avl (Res ord)
open Avls (Op spec)
variable {K V : Type} {cmp : K → K → Int}

/-- C95: after any history of calls, for any comparison, threshold and zero value, the nodes form a
tree with `Size()` nodes. -/
theorem C95_nodes_form_tree (cmp : K → K → Int) (d : Int) (zero : V) (junk : K × V)
    (os : List (Op K V)) {s : PMap K V} {rs : List (Res K V)}
    (h : run (step cmp d zero) (PMap.new junk) os = some (s, rs)) : IsTree s := by
  have h1 := run_sim (cmp := cmp) (d := d) (zero := zero) os (MRel.new junk)
  rw [h] at h1
  obtain ⟨⟨m, rs'⟩, -, -, h2⟩ := h1.some_left
  exact h2.isTree

/-- C95: the program on pointers and the model with subtrees give the same answers, and one of them
panics exactly if the other does; again for any comparison and threshold, also unlawful ones. -/
theorem C95_same_answers (cmp : K → K → Int) (d : Int) (zero : V) (junk : K × V)
    (os : List (Op K V)) :
    (run (step cmp d zero) (PMap.new junk) os).map (·.2) =
      (run (Avls.step cmp d) Avl.Map.new os).map (·.2) :=
  (run_sim (cmp := cmp) (d := d) (zero := zero) os (MRel.new junk)).map_eq fun _ _ h => h.1

/-- C95: for every threshold and every history, as long as no call fails, the answers are those of the
ideal stable multimap. -/
theorem C95_answers_right (hc : LawfulEx cmp) (d : Int) (zero : V) (junk : K × V) (os : List (Op K V))
    (ha : ∀ op ∈ os, op.abstract = true) {s : PMap K V} {rs : List (Res K V)}
    (h : run (step cmp d zero) (PMap.new junk) os = some (s, rs)) :
    rs = (runSpec (spec (ord cmp)) [] os).2 := by
  have h1 := C95_same_answers cmp d zero junk os
  rw [h] at h1
  cases h2 : run (Avls.step cmp d) Avl.Map.new os with
  | none => rw [h2] at h1; cases h1
  | some q =>
    obtain ⟨m, rs'⟩ := q
    rw [h2] at h1
    cases h1
    exact Avls.C30_answers_right hc d os ha h2

/-- C95 for the default tree of fewer than 2^63 entries: the program follows no nil pointer, and its
answers are those of the ideal stable multimap. -/
theorem C95_answers (hc : LawfulEx cmp) (zero : V) (junk : K × V) (os : List (Op K V))
    (ha : ∀ op ∈ os, op.abstract = true)
    (hf : ∀ os₁, os₁ <+: os → (runSpec (spec (ord cmp)) [] os₁).1.length < 2 ^ 63) :
    ∃ s, run (step cmp 2 zero) (PMap.new junk) os = some (s, (runSpec (spec (ord cmp)) [] os).2) ∧
      IsTree s := by
  obtain ⟨m, h3, -⟩ := Avls.C30_stable_multimap hc os ha hf
  have h4 := C95_same_answers cmp 2 zero junk os
  rw [h3] at h4
  cases h5 : run (step cmp 2 zero) (PMap.new junk) os with
  | none => rw [h5] at h4; cases h4
  | some q =>
    obtain ⟨s, rs⟩ := q
    rw [h5] at h4
    cases h4
    exact ⟨s, rfl, C95_nodes_form_tree cmp 2 zero junk os h5⟩

/-- The example: rotations, `Set` of the first of three equal keys, removal of a node with two children
whose key is also in its left subtree. -/
def demo : List (Op Int String) :=
  [.put 2 "b", .put 1 "a", .put 2 "c", .put 2 "d", .put 0 "z", .set 2 "B", .values, .remove 2, .get 2,
   .insertIfAbsent 1 "x", .upsert 3 "e", .remove 1, .values, .size]

example : ∃ s, run (step Compare.anyEx 2 "") (PMap.new (0, "")) demo =
    some (s, [.bool true, .bool true, .bool true, .bool true, .bool true, .bool false,
      .list ["z", "a", "B", "c", "d"], .val (some "B"), .val (some "c"), .bool false, .bool false,
      .val (some "a"), .list ["z", "c", "d", "e"], .nat 4]) ∧ IsTree s := by
  obtain ⟨s, h, hs⟩ := C95_answers Avl.anyEx_lawful "" (0, "") demo (by decide)
    (Avls.short_fits (by decide))
  exact ⟨s, h.trans rfl, hs⟩

example : ∃ s, run (step Compare.anyEx 1 "") (PMap.new (0, "")) demo =
    some (s, (runSpec (spec (ord Compare.anyEx)) [] demo).2) := by
  obtain ⟨s, rs, hs⟩ : ∃ s rs, run (step Compare.anyEx 1 "") (PMap.new (0, "")) demo = some (s, rs) :=
    ⟨_, _, rfl⟩
  exact ⟨s, by rw [hs, C95_answers_right Avl.anyEx_lawful 1 "" (0, "") demo (by decide) hs]⟩

/-- A comparison that finds all keys equal. -/
example : ∃ s, run (step (fun _ _ => -1) 2 "") (PMap.new ((0 : Int), ""))
    [.put 1 "a", .put 1 "b", .put 1 "c"] =
    some (s, [.bool true, .bool true, .bool true]) ∧ IsTree s := by
  obtain ⟨s, hs⟩ : ∃ s, run (step (fun _ _ => -1) 2 "") (PMap.new ((0 : Int), ""))
    [.put 1 "a", .put 1 "b", .put 1 "c"] = some (s, [.bool true, .bool true, .bool true]) := ⟨_, rfl⟩
  exact ⟨s, hs, C95_nodes_form_tree _ _ _ _ _ hs⟩

example : (run (step (fun _ _ => 2) 2 "") (PMap.new ((0 : Int), "")) [.put 1 "a", .put 2 "b"]).map (·.2) =
    none := (C95_same_answers _ _ _ _ _).trans rfl

end Verif.AvlsHeap
