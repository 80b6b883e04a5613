import Verif.Tree.AvlsHeapIterRun
import Verif.Tree.AvlsHeapProps

/-! Iterators of tree/avls while the tree is modified: property C96. -/

namespace Verif.AvlsHeap
open Verif.AvlHeap (PMap PIter CRes)
open Avl (IOp IRes Res ord)
open Avls (Op spec)
variable {K V : Type} {cmp : K → K → Int}

/-- C96. Missing from the full statement, and false (below): an iterator that goes on after a call that
added or removed an entry without being placed by a seek, and an iterator in a tree that has become
higher than it was when the iterator was made. -/
theorem C96_iterator_partial (hc : LawfulEx cmp) (zero : V) (junk : K × V) (os₀ : List (Op K V))
    (hf : ∀ os₁, os₁ <+: os₀ → (runSpec (spec (ord cmp)) [] os₁).1.length < 2 ^ 63) :
    ∃ s rs it, run (step cmp 2 zero) (PMap.new junk) os₀ = some (s, rs) ∧ s.iterator = some it ∧
      ∀ os, LegalRun (cspec (ord cmp)) (clegal (ord cmp))
          ((runSpec (spec (ord cmp)) [] os₀).1, some none) os →
        Roomy cmp zero (s, it) os →
        ∃ q, run (cstep cmp 2 zero) (s, it) os = some (q,
          (runSpec (cspec (ord cmp)) ((runSpec (spec (ord cmp)) [] os₀).1, some none) os).2) := by
  obtain ⟨s, rs, it, h3, h4, h5⟩ := start_ok hc zero junk hf
  refine ⟨s, rs, it, h3, h4, fun os hl hr => ?_⟩
  obtain ⟨q, h6, -⟩ := crun_ok hc zero os h5 hl hr
  exact ⟨q, h6⟩

/-- Make a tree by `Put` of the entries, an iterator, and then the calls: the answers. -/
def session (ks : List (Int × Int)) (os : List (COp Int Int)) : Option (List (CRes Int Int)) :=
  (run (step Compare.anyEx 2 0) (PMap.new (0, 0)) (ks.map fun k => .put k.1 k.2)).bind fun p =>
  p.1.iterator.bind fun it => (run (cstep Compare.anyEx 2 0) (p.1, it) os).map (·.2)

/-- False in general: while the iterator is on 1, `Put` of 3, 5 and 6 turns the tree; then the scan ends
after 3, although 4 was in the tree all the time. -/
theorem C96_put_skips : session [(2, 2), (1, 1), (4, 4)]
    [.iter .seekToFirst, .call (.put 3 3), .call (.put 5 5), .call (.put 6 6), .iter .next, .iter .entry,
      .iter .next, .iter .entry, .iter .next, .iter .valid, .call .values] =
    some [.iter .unit, .call (.bool true), .call (.bool true), .call (.bool true), .iter .unit,
      .iter (.entry (2, 2)), .iter .unit, .iter (.entry (3, 3)), .iter .unit, .iter (.bool false),
      .call (.list [1, 2, 3, 4, 5, 6])] := rfl

/-- False in general: the array of the iterator is too short after `Put(2)`, the second `Next` is an
index out of range. -/
theorem C96_put_panics : session [(1, 1)]
    [.iter .seekToFirst, .call (.put 2 2), .iter .next, .iter .entry] =
      some [.iter .unit, .call (.bool true), .iter .unit, .iter (.entry (2, 2))] ∧
    session [(1, 1)] [.iter .seekToFirst, .call (.put 2 2), .iter .next, .iter .next] = none :=
  ⟨rfl, rfl⟩

/-- False in general: `Remove(2)` while the iterator is on 1; then it shows 1 twice. -/
theorem C96_remove_repeats :
    session [(4, 4), (2, 2), (6, 6), (1, 1), (3, 3), (5, 5), (7, 7)]
      [.iter .seekToFirst, .iter .entry, .call (.remove 2), .iter .next, .iter .entry, .iter .next,
        .iter .entry] =
    some [.iter .unit, .iter (.entry (1, 1)), .call (.val (some 2)), .iter .unit, .iter (.entry (1, 1)),
      .iter .unit, .iter (.entry (3, 3))] := rfl

/-- False in general: the iterator shows the key 1 after `Remove(1)`. -/
theorem C96_removed_shown : session [(1, 1), (3, 3)]
    [.iter .seekToLast, .call (.remove 1), .iter .entry, .iter .prev, .iter .entry, .call (.get 1)] =
    some [.iter .unit, .call (.val (some 1)), .iter (.entry (3, 3)), .iter .unit, .iter (.entry (1, 1)),
      .call (.val none)] := rfl

/-- False in general: a loop that removes the entry which the iterator is on misses the rest. -/
theorem C96_remove_current_skips : session [(3, 3), (1, 1), (5, 5)]
    [.iter (.seekGE 3), .call (.remove 3), .iter .next, .iter .valid, .call .values] =
    some [.iter (.bool true), .call (.val (some 3)), .iter .unit, .iter (.bool false),
      .call (.list [1, 5])] := rfl

/-- False in general: an iterator made while the tree was empty can not be used for a tree of two
entries that it is given later, not even after a seek: the limit `Roomy` is needed. -/
theorem C96_old_iterator_panics : session []
    [.call (.put 1 1), .call (.put 2 2), .iter (.seekGE 2)] = none := rfl

/-- False in general: the copy made by `Clone` after the tree has become lower shows an entry that is
not in the tree and can not be moved. -/
theorem C96_clone_panics :
    session [(3, 3), (1, 1), (5, 5)]
      [.iter .seekToFirst, .call .clear, .iter .clone, .iter .entry, .call .size] =
      some [.iter .unit, .call .unit, .iter .unit, .iter (.entry (1, 1)), .call (.nat 0)] ∧
    session [(3, 3), (1, 1), (5, 5)] [.iter .seekToFirst, .call .clear, .iter .clone, .iter .next] =
      none := ⟨rfl, rfl⟩

/-- `Roomy`, tested call by call. -/
def roomyB (cmp : K → K → Int) (zero : V) : List (COp K V) → PMap K V × PIter → Bool
  | [], q => q.1.height.all fun h => decide (h ≤ (q.2.cap : Int))
  | o :: os, q => (q.1.height.all fun h => decide (h ≤ (q.2.cap : Int))) &&
      (cstep cmp 2 zero q o).all fun p => roomyB cmp zero os p.1

theorem roomy_of_test {zero : V} : ∀ {os : List (COp K V)}
    {q : PMap K V × PIter}, roomyB cmp zero os q = true → Roomy cmp zero q os
  | os, q, h, [], _, q', rs, hr, x, hx => by
    cases hr
    cases os <;> simp [roomyB, hx] at h
    · exact h
    · exact h.1
  | [], q, h, o :: os₁, hp, _, _, _, _, _ => by simp at hp
  | o :: os, q, h, o' :: os₁, hp, q', rs, hr, x, hx => by
    obtain ⟨rfl, hp2⟩ := List.cons_prefix_cons.1 hp
    simp only [roomyB, Bool.and_eq_true] at h
    simp only [run] at hr
    cases h1 : cstep cmp 2 zero q o' with
    | none => rw [h1] at hr; cases hr
    | some p =>
      rw [h1] at hr h
      simp only at hr
      cases h2 : run (cstep cmp 2 zero) p.1 os₁ with
      | none => rw [h2] at hr; cases hr
      | some y =>
        rw [h2] at hr
        cases hr
        exact roomy_of_test h.2 os₁ hp2 _ _ h2 x hx

/-- The example: an update during a scan over equal keys, a removal, seeks, also in the emptied tree. -/
def idemo : List (COp Int String) :=
  [.iter .seekToFirst, .iter .entry, .call (.set 1 "A"), .call (.remove 9), .iter .next, .iter .entry,
   .call (.remove 1), .iter (.seekGT 1), .iter .entry, .call .clear, .iter (.seekLE 5), .iter .valid]

def idemo₀ : List (Op Int String) := [.put 2 "b", .put 1 "a", .put 1 "a2", .put 3 "c"]

example : ∃ s rs it, run (step Compare.anyEx 2 "") (PMap.new ((0 : Int), "")) idemo₀ = some (s, rs) ∧
    s.iterator = some it ∧ ∃ q, run (cstep Compare.anyEx 2 "") (s, it) idemo = some (q,
      [.iter .unit, .iter (.entry (1, "a")), .call (.bool false), .call (.val none), .iter .unit,
       .iter (.entry (1, "a2")), .call (.val (some "A")), .iter (.bool true), .iter (.entry (2, "b")),
       .call .unit, .iter (.bool false), .iter (.bool false)]) := by
  obtain ⟨s, rs, it, h1, h2, h3⟩ := C96_iterator_partial Avl.anyEx_lawful "" ((0 : Int), "") idemo₀
    (Avls.short_fits (by decide))
  refine ⟨s, rs, it, h1, h2, ?_⟩
  have e : run (step Compare.anyEx 2 "") (PMap.new ((0 : Int), "")) idemo₀ =
    some ((run (step Compare.anyEx 2 "") (PMap.new ((0 : Int), "")) idemo₀).get rfl) := rfl
  rw [e] at h1
  cases h1
  cases h2
  refine h3 idemo ?_ (roomy_of_test rfl)
  exact ⟨trivial, ⟨0, rfl, by decide, by decide⟩, ⟨rfl, by decide⟩, ⟨rfl, by decide⟩, trivial,
    ⟨1, rfl, by decide, by decide⟩, ⟨rfl, by decide⟩, .inl rfl, ⟨1, rfl, by decide, by decide⟩,
    ⟨rfl, by decide⟩, .inl rfl, trivial, trivial⟩

end Verif.AvlsHeap
