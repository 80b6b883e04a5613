import Verif.Tree.AvlHeapIterRun
import Verif.Tree.AvlHeapProps

/-! Iterators of tree/avl and set/treeset while the map is modified: property C88. -/

namespace Verif.AvlHeap
open Avl (IOp IRes Op Res Fits spec ord)
variable {K V : Type} {cmp : K → K → Int}

/-- C88 for tree/avl. Missing from the full statement, and false (below): an iterator that goes on
after a call that added or removed an entry without being placed by a seek, an iterator in a map that
has become higher than it was when the iterator was made, and a seek in a map that has become empty. -/
theorem C88_avl_partial (hc : LawfulEx cmp) {d : Int} (h1 : 1 ≤ d) (h2 : d ≤ 127) (zero : V)
    (junk : K × V) (os₀ : List (Op K V)) (hf : Fits (ord cmp) d os₀) :
    ∃ s rs it, run (step cmp false d zero) (PMap.new junk) os₀ = some (s, rs) ∧
      s.iterator = some it ∧
      ∀ os, LegalRun (cspec (ord cmp)) (clegal (ord cmp) false d)
          ((runSpec (spec (ord cmp)) [] os₀).1, some none) os →
        Roomy cmp false d zero (s, it) os →
        ∃ q, run (cstep cmp false d zero) (s, it) os = some (q,
          (runSpec (cspec (ord cmp)) ((runSpec (spec (ord cmp)) [] os₀).1, some none) os).2) := by
  obtain ⟨s, rs, it, h3, h4, h5⟩ := start_ok hc (Avl.cfg_avl h1 h2) zero junk hf
  refine ⟨s, rs, it, h3, h4, fun os hl hr => ?_⟩
  obtain ⟨q, h6, -⟩ := crun_ok hc (Avl.cfg_avl h1 h2) zero os h5 hl hr
  exact ⟨q, h6⟩

/-- C88 for set/treeset; the same is missing. -/
theorem C88_treeset_partial (hc : LawfulEx cmp) (zero : V) (junk : K × V) (os₀ : List (Op K V))
    (hf : Fits (ord cmp) 2 os₀) :
    ∃ s rs it, run (step cmp true 2 zero) (PMap.new junk) os₀ = some (s, rs) ∧
      s.iterator = some it ∧
      ∀ os, LegalRun (cspec (ord cmp)) (clegal (ord cmp) true 2)
          ((runSpec (spec (ord cmp)) [] os₀).1, some none) os →
        Roomy cmp true 2 zero (s, it) os →
        ∃ q, run (cstep cmp true 2 zero) (s, it) os = some (q,
          (runSpec (cspec (ord cmp)) ((runSpec (spec (ord cmp)) [] os₀).1, some none) os).2) := by
  obtain ⟨s, rs, it, h3, h4, h5⟩ := start_ok hc TreeSet.cfg zero junk hf
  refine ⟨s, rs, it, h3, h4, fun os hl hr => ?_⟩
  obtain ⟨q, h6, -⟩ := crun_ok hc TreeSet.cfg zero os h5 hl hr
  exact ⟨q, h6⟩

/-- Make a map by `Put` of the keys, an iterator, and then the calls: the answers. -/
def session (one : Bool) (d : Int) (ks : List Int) (os : List (COp Int Int)) :
    Option (List (CRes Int Int)) :=
  (run (step Compare.anyEx one d 0) (PMap.new (0, 0)) (ks.map fun k => .put k k)).bind fun p =>
  p.1.iterator.bind fun it => (run (cstep Compare.anyEx one d 0) (p.1, it) os).map (·.2)

/-- False in general, tree/avl with the default threshold: while the iterator is on 3, `Put(6)` turns
the tree; then `Next` is at the end, although 5 was in the map all the time. -/
theorem C88_avl_put_skips : session false 1 [3, 1, 5]
    [.iter (.seekGE 3), .call (.put 6 6), .iter .next, .iter .valid] =
    some [.iter (.bool true), .call (.bool true), .iter .unit, .iter (.bool false)] := rfl

/-- False in general, tree/avl with the default threshold: `Remove(3)` while the iterator is on 1;
then it shows 5 twice. -/
theorem C88_avl_remove_repeats : session false 1 [3, 1, 5]
    [.iter .seekToFirst, .call (.remove 3), .iter .next, .iter .entry, .iter .next, .iter .entry] =
    some [.iter .unit, .call (.val (some 3)), .iter .unit, .iter (.entry (5, 5)), .iter .unit,
      .iter (.entry (5, 5))] := rfl

/-- False in general, tree/avl with the default threshold: the iterator shows the key 3 after
`Remove(3)`. -/
theorem C88_avl_removed_shown : session false 1 [1, 3]
    [.iter .seekToFirst, .call (.remove 3), .iter .next, .iter .entry, .call (.get 3)] =
    some [.iter .unit, .call (.val (some 3)), .iter .unit, .iter (.entry (3, 3)),
      .call (.val none)] := rfl

/-- False in general, both packages: a loop that removes the entry which the iterator is on misses the
rest. -/
theorem C88_remove_current_skips (one : Bool) : session one 2 [3, 1, 5]
    [.iter (.seekGE 3), .call (.remove 3), .iter .next, .iter .valid, .call .values] =
    some [.iter (.bool true), .call (.val (some 3)), .iter .unit, .iter (.bool false),
      .call (.list [1, 5])] := by
  cases one <;> rfl

/-- False in general, tree/avl with threshold 2 and set/treeset: the array of the iterator is too
short after `Put(2)`, the second `Next` is an index out of range. -/
theorem C88_put_panics (one : Bool) : session one 2 [1]
    [.iter .seekToFirst, .call (.put 2 2), .iter .next, .iter .entry] =
      some [.iter .unit, .call (.bool true), .iter .unit, .iter (.entry (2, 2))] ∧
    session one 2 [1] [.iter .seekToFirst, .call (.put 2 2), .iter .next, .iter .next] = none := by
  cases one <;> exact ⟨rfl, rfl⟩

/-- False in general: an iterator made while the map was empty can not be used for a map of two entries
that it is given later, not even after a seek: the limit `Roomy` is needed. -/
theorem C88_old_iterator_panics (one : Bool) : session one 2 []
    [.call (.put 1 1), .call (.put 2 2), .iter (.seekGE 2)] = none := by
  cases one <;> rfl

/-- False in general: a seek in a map that has become empty leaves the old path, and `Next` shows an
entry that is not in the map any more. -/
theorem C88_cleared_shown (one : Bool) : session one 2 [3, 1, 5]
    [.iter .seekToFirst, .iter .prev, .call .clear, .iter (.seekGE 1), .iter .next, .iter .valid,
      .iter .entry, .call .size] =
    some [.iter .unit, .iter .unit, .call .unit, .iter (.bool false), .iter .unit, .iter (.bool true),
      .iter (.entry (1, 1)), .call (.nat 0)] := by
  cases one <;> rfl

/-- False in general: after the map has become lower `Clone` of set/treeset is an index out of range;
that of tree/avl is not, but the copy can not be moved. -/
theorem C88_clone_panics : session true 2 [3, 1, 5]
    [.iter .seekToFirst, .call .clear, .iter .clone] = none ∧
    session false 2 [3, 1, 5] [.iter .seekToFirst, .call .clear, .iter .clone, .iter .entry] =
      some [.iter .unit, .call .unit, .iter .unit, .iter (.entry (1, 1))] ∧
    session false 2 [3, 1, 5] [.iter .seekToFirst, .call .clear, .iter .clone, .iter .next] = none :=
  ⟨rfl, rfl, rfl⟩

/-- `Roomy`, tested call by call. -/
def roomyB (cmp : K → K → Int) (one : Bool) (d : Int) (zero : V) :
    List (COp K V) → PMap K V × PIter → Bool
  | [], q => q.1.height.all fun h => decide (h ≤ (q.2.cap : Int))
  | o :: os, q => (q.1.height.all fun h => decide (h ≤ (q.2.cap : Int))) &&
      (cstep cmp one d zero q o).all fun p => roomyB cmp one d zero os p.1

theorem roomy_of_test {one : Bool} {d : Int} {zero : V} : ∀ {os : List (COp K V)}
    {q : PMap K V × PIter}, roomyB cmp one d zero os q = true → Roomy cmp one d zero q os
  | os, q, h, [], _, q', rs, hr, x, hx => by
    cases hr
    cases os <;> simp [roomyB, hx] at h
    · exact h
    · exact h.1
  | [], q, h, o :: os₁, hp, _, _, _, _, _ => by simp at hp
  | o :: os, q, h, o' :: os₁, hp, q', rs, hr, x, hx => by
    obtain ⟨rfl, hp2⟩ := List.cons_prefix_cons.1 hp
    simp only [roomyB, Bool.and_eq_true] at h
    simp only [run] at hr
    cases h1 : cstep cmp one d zero q o' with
    | none => rw [h1] at hr; cases hr
    | some p =>
      rw [h1] at hr h
      simp only at hr
      cases h2 : run (cstep cmp one d zero) p.1 os₁ with
      | none => rw [h2] at hr; cases hr
      | some y =>
        rw [h2] at hr
        cases hr
        exact roomy_of_test h.2 os₁ hp2 _ _ h2 x hx

/-- The example: two updates during a scan, an insertion, a new seek. -/
def sdemo : List (COp Int String) :=
  [.iter .seekToFirst, .iter .entry, .call (.set 2 "B"), .call (.upsert 1 "A"), .call (.remove 9),
   .iter .entry, .iter .next, .iter .entry, .call (.remove 2), .iter .seekToLast, .iter .entry]

def sdemo₀ : List (Op Int String) := [.put 2 "b", .put 1 "a", .put 3 "c"]

example : ∃ s rs it, run (step Compare.anyEx false 2 "") (PMap.new (0, "")) sdemo₀ = some (s, rs) ∧
    s.iterator = some it ∧ ∃ q, run (cstep Compare.anyEx false 2 "") (s, it) sdemo = some (q,
      [.iter .unit, .iter (.entry (1, "a")), .call (.bool false), .call (.bool true),
       .call (.val none), .iter (.entry (1, "A")), .iter .unit, .iter (.entry (2, "B")),
       .call (.val (some "B")), .iter .unit, .iter (.entry (3, "c"))]) := by
  obtain ⟨s, rs, it, h1, h2, h3⟩ := C88_avl_partial Avl.anyEx_lawful (d := 2) (by decide) (by decide) ""
    (0, "") sdemo₀ (Avl.fits_of_short (by decide))
  refine ⟨s, rs, it, h1, h2, ?_⟩
  have e : run (step Compare.anyEx false 2 "") (PMap.new (0, "")) sdemo₀ =
    some ((run (step Compare.anyEx false 2 "") (PMap.new (0, "")) sdemo₀).get rfl) := rfl
  rw [e] at h1
  cases h1
  cases h2
  refine h3 sdemo ?_ (roomy_of_test rfl)
  have room : ∀ n, n < 127 → n < Avl.room 2 := fun n h => Nat.lt_of_lt_of_le h Avl.room_ge
  exact ⟨trivial, ⟨0, rfl, by decide, by decide⟩, ⟨rfl, room _ (by decide)⟩, ⟨rfl, room _ (by decide)⟩,
    ⟨rfl, room _ (by decide)⟩, ⟨0, rfl, by decide, by decide⟩, trivial, ⟨1, rfl, by decide, by decide⟩,
    ⟨rfl, room _ (by decide)⟩, .inl ⟨rfl, by decide⟩, ⟨1, rfl, by decide, by decide⟩, trivial⟩

example : ∃ s rs it, run (step Compare.anyEx true 2 "") (PMap.new (0, "")) sdemo₀ = some (s, rs) ∧
    s.iterator = some it ∧ ∃ q, run (cstep Compare.anyEx true 2 "") (s, it) sdemo = some (q,
      [.iter .unit, .iter (.entry (1, "a")), .call (.bool false), .call (.bool true),
       .call (.val none), .iter (.entry (1, "A")), .iter .unit, .iter (.entry (2, "B")),
       .call (.val (some "B")), .iter .unit, .iter (.entry (3, "c"))]) := by
  obtain ⟨s, rs, it, h1, h2, h3⟩ := C88_treeset_partial Avl.anyEx_lawful ""
    (0, "") sdemo₀ (Avl.fits_of_short (by decide))
  refine ⟨s, rs, it, h1, h2, ?_⟩
  have e : run (step Compare.anyEx true 2 "") (PMap.new (0, "")) sdemo₀ =
    some ((run (step Compare.anyEx true 2 "") (PMap.new (0, "")) sdemo₀).get rfl) := rfl
  rw [e] at h1
  cases h1
  cases h2
  refine h3 sdemo ?_ (roomy_of_test rfl)
  have room : ∀ n, n < 127 → n < Avl.room 2 := fun n h => Nat.lt_of_lt_of_le h Avl.room_ge
  exact ⟨trivial, ⟨0, rfl, by decide, by decide⟩, ⟨rfl, room _ (by decide)⟩, ⟨rfl, room _ (by decide)⟩,
    ⟨rfl, room _ (by decide)⟩, ⟨0, rfl, by decide, by decide⟩, trivial, ⟨1, rfl, by decide, by decide⟩,
    ⟨rfl, room _ (by decide)⟩, .inl ⟨rfl, by decide⟩, ⟨1, rfl, by decide, by decide⟩, trivial⟩

end Verif.AvlHeap
