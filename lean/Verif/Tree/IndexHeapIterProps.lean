import Verif.Tree.IndexHeapIterRun
import Verif.Tree.IndexHeapProps

/-! The iterator of tree/indextree while the tree is modified: property C90. -/

namespace Verif.IndexHeap
open Verif.AvlHeap (P ptr addrs erase)
open Verif.Tree Verif.Size Verif.IndexTree
variable {K W : Type} {cmp : K → K → Int}

/-- C90. Missing from the full statement, and false (below): an iterator that goes on after a call that
added or removed an entry without being placed by a seek, an iterator in a tree that has become higher
than it was when the iterator was made, a seek in a tree that has become empty, and what C42 excludes
already for a tree that is not modified (`SeekGT` and `SeekLT`, steps after `SeekByIndex`, `Index` after
a seek that did not find the key). After a call for a range of entries a seek is always asked for. -/
theorem C90_iterator_partial (hc : Lawful cmp) (shift : Nat) (junk : K × Option W) (os₀ : List (Op K W))
    (hl₀ : LegalRun (spec (ord cmp)) (legal cmp) [] os₀) :
    ∃ s it, run (step shift cmp junk) (PTree.new junk) os₀ =
        some (s, (runSpec (spec (ord cmp)) [] os₀).2) ∧ s.iterator = some it ∧
      ∀ os, LegalRun (cspec (ord cmp)) (clegal cmp)
          ((runSpec (spec (ord cmp)) [] os₀).1, some ⟨none, false, true⟩) os →
        Roomy cmp shift junk (s, it) os →
        ∃ q, run (cstep cmp shift junk) (s, it) os = some (q, (runSpec (cspec (ord cmp))
          ((runSpec (spec (ord cmp)) [] os₀).1, some ⟨none, false, true⟩) os).2) := by
  obtain ⟨u, h1, hR⟩ := IndexTree.run_ok hc shift os₀ hl₀
  obtain ⟨s, t, h2, rfl, hO, hB⟩ := run_sim (shift := shift) (junk := junk) os₀ (PTree.new junk) nil u _
    ⟨trivial, rfl, rfl, by simp [addrs]⟩ (by intro x hx; simp [addrs, PTree.new] at hx ⊢; exact hx) h1
  have hi := iterator_ok hO hB hR.exact
  refine ⟨s, _, h2, hi, fun os hl hr => ?_⟩
  have hh := (hr [] List.nil_prefix _ _ rfl _ hi).2
  simp only at hh
  obtain ⟨q, h6, -⟩ := crun_ok hc os (q := (s, ⟨max t.height 2, none, [], 0⟩)) ⟨t, hO, hB, hR, fun c hc => by
    cases hc
    exact ⟨⟨nil, [], rfl, .unset (by simp only; omega) rfl rfl, fun _ => rfl⟩, fun h => by cases h⟩⟩ hl hr
  exact ⟨q, h6⟩

/-- Make a tree by `Put` of the keys, an iterator, and then the calls: the answers. -/
def session (ks : List Int) (os : List (COp Int Int)) : Option (List (CRes Int Int)) :=
  (run (step 2 Compare.any (0, none)) (PTree.new (0, none)) (ks.map fun k => .put k (some k))).bind fun p =>
  p.1.iterator.bind fun it => (run (cstep Compare.any 2 (0, none)) (p.1, it) os).map (·.2)

/-- False in general: while the iterator is on 1, `Put(3)` turns the tree; then `Next` is at the end,
although 2 was in the tree all the time. -/
theorem C90_put_skips : session [1, 2] [.iter .seekToFirst, .call (.put 3 none), .iter .next, .iter .valid,
      .call (.get 2)] =
    some [.iter .unit, .call (.bool true), .iter .unit, .iter (.bool false), .call (.found (some (some 2)))] :=
  rfl

/-- False in general: `Remove(3)` while the iterator is on 5, the last entry; `Prev` shows 5 again. -/
theorem C90_remove_repeats : session [3, 1, 5]
    [.iter .seekToLast, .iter .entry, .call (.remove 3), .iter .prev, .iter .entry] =
    some [.iter .unit, .iter (.entry (5, some 5)), .call (.val (some 3)), .iter .unit,
      .iter (.entry (5, some 5))] := rfl

/-- False in general: the iterator shows the key 3 after `Remove(3)`. -/
theorem C90_removed_shown : session [1, 3]
    [.iter .seekToLast, .call (.remove 3), .iter .entry, .call (.get 3)] =
    some [.iter .unit, .call (.val (some 3)), .iter (.entry (3, some 3)), .call (.found none)] := rfl

/-- False in general: a loop that removes the entry which the iterator is on misses the rest. -/
theorem C90_remove_current_skips : session [3, 1, 5]
    [.iter (.seekGE 3), .call (.remove 3), .iter .next, .iter .valid, .call .values] =
    some [.iter (.bool true), .call (.val (some 3)), .iter .unit, .iter (.bool false),
      .call (.list [some 1, some 5])] := rfl

/-- False in general: after `Put(0)` the iterator goes on to the right entry, but `Index` is not its
rank. -/
theorem C90_index_stale : session [1, 2, 3]
    [.iter (.seekGE 2), .call (.put 0 none), .iter .next, .iter .entry, .iter .index, .call (.indexOf 3)] =
    some [.iter (.bool true), .call (.bool true), .iter .unit, .iter (.entry (3, some 3)), .iter (.int 2),
      .call (.int 3)] := rfl

/-- False in general: a seek in a tree that has become empty leaves the old path, and `Next` shows an
entry that is not in the tree any more. -/
theorem C90_cleared_shown : session [3, 1, 5]
    [.iter .seekToFirst, .iter .prev, .call .clear, .iter (.seekGE 1), .iter .next, .iter .valid,
      .iter .entry, .call .size] =
    some [.iter .unit, .iter .unit, .call .unit, .iter (.bool false), .iter .unit, .iter (.bool true),
      .iter (.entry (1, some 1)), .call (.int 0)] := rfl

/-- False in general: an iterator made while the tree was empty can not be placed on the smallest of
seven entries that the tree is given later: the limit `Roomy` is needed. -/
theorem C90_old_iterator_panics : session []
      [.call (.put 4 none), .call (.put 2 none), .call (.put 6 none), .call (.put 1 none),
        .call (.put 5 none), .call (.put 3 none), .call (.put 0 none), .iter (.seekGE 1)] =
      some (List.replicate 7 (.call (.bool true)) ++ [.iter (.bool true)]) ∧
    session []
      [.call (.put 4 none), .call (.put 2 none), .call (.put 6 none), .call (.put 1 none),
        .call (.put 5 none), .call (.put 3 none), .call (.put 0 none), .iter (.seekGE 0)] = none :=
  ⟨rfl, rfl⟩

/-- False in general: the copy that `Clone` makes after the tree has become lower can not be moved. -/
theorem C90_clone_panics : session [1, 2, 3, 4]
      [.iter (.seekGE 4), .iter .next, .call .clear, .iter .clone] =
    some [.iter (.bool true), .iter .unit, .call .unit, .iter .unit] ∧
    session [1, 2, 3, 4] [.iter (.seekGE 4), .iter .next, .call .clear, .iter .clone, .iter .prev] = none :=
  ⟨rfl, rfl⟩

/-- False in general, as for the iterator of C42: `SeekGT` and `SeekLT` give the
entry with the key itself. -/
theorem C90_seek_than_wrong : session [1, 2, 3, 4, 5]
      [.iter (.seekGT 2), .iter .entry, .iter (.seekLT 3), .iter .entry] =
    some [.iter (.bool false), .iter (.entry (2, some 2)), .iter (.bool true),
      .iter (.entry (3, some 3))] := rfl

/-- `Roomy`, tested call by call. -/
def roomyB (cmp : K → K → Int) (shift : Nat) (junk : K × Option W) :
    List (COp K W) → PTree K (Option W) × PIter → Bool
  | [], q => q.1.iterator.all fun i => decide (i.cap ≤ q.2.cap ∧ i.cap ≤ 128)
  | o :: os, q => (q.1.iterator.all fun i => decide (i.cap ≤ q.2.cap ∧ i.cap ≤ 128)) &&
      (cstep cmp shift junk q o).all fun p => roomyB cmp shift junk os p.1

theorem roomy_of_test {shift : Nat} {junk : K × Option W} : ∀ {os : List (COp K W)}
    {q : PTree K (Option W) × PIter}, roomyB cmp shift junk os q = true → Roomy cmp shift junk q os
  | os, q, h, [], _, q', rs, hr, x, hx => by
    cases hr
    cases os <;> simp [roomyB, hx] at h
    · exact h
    · exact h.1
  | [], q, h, o :: os₁, hp, _, _, _, _, _ => by simp at hp
  | o :: os, q, h, o' :: os₁, hp, q', rs, hr, x, hx => by
    obtain ⟨rfl, hp2⟩ := List.cons_prefix_cons.1 hp
    simp only [roomyB, Bool.and_eq_true] at h
    simp only [run] at hr
    cases h1 : cstep cmp shift junk q o' with
    | none => rw [h1] at hr; cases hr
    | some p =>
      rw [h1] at hr h
      simp only at hr
      cases h2 : run (cstep cmp shift junk) p.1 os₁ with
      | none => rw [h2] at hr; cases hr
      | some y =>
        rw [h2] at hr
        cases hr
        exact roomy_of_test h.2 os₁ hp2 _ _ h2 x hx

/-- The example: two updates during a scan, a removal, a new seek. -/
def sdemo : List (COp Int String) :=
  [.iter .seekToFirst, .iter .entry, .call (.set 2 (some "B")), .call (.upsert 1 (some "A")),
   .call (.remove 9), .iter .entry, .iter .next, .iter .entry, .iter .index, .call (.remove 2),
   .iter .seekToLast, .iter .entry, .iter .index]

def sdemo₀ : List (Op Int String) := [.put 2 (some "b"), .put 1 (some "a"), .put 3 (some "c")]

example : ∃ s it, run (step 2 Compare.any blank) (PTree.new blank) sdemo₀ =
      some (s, [.bool true, .bool true, .bool true]) ∧
    s.iterator = some it ∧ ∃ q, run (cstep Compare.any 2 blank) (s, it) sdemo = some (q,
      [.iter .unit, .iter (.entry (1, some "a")), .call (.bool true), .call (.bool true),
       .call (.val none), .iter (.entry (1, some "A")), .iter .unit, .iter (.entry (2, some "B")),
       .iter (.int 1), .call (.val (some "B")), .iter .unit, .iter (.entry (3, some "c")),
       .iter (.int 1)]) := by
  obtain ⟨s, it, h1, h2, h3⟩ := C90_iterator_partial any_lawful 2 blank sdemo₀ ⟨trivial, trivial, trivial, trivial⟩
  refine ⟨s, it, h1, h2, ?_⟩
  have e : run (step 2 Compare.any blank) (PTree.new blank) sdemo₀ =
    some ((run (step 2 Compare.any blank) (PTree.new blank) sdemo₀).get rfl) := rfl
  rw [e] at h1
  cases h1
  cases h2
  refine h3 sdemo ?_ (roomy_of_test rfl)
  have one : ∀ op : Op Int String, (∀ k incl, op ≠ .split k incl true) →
      ∀ xs, legal Compare.any xs op → legal Compare.any xs op ∧ ∀ k incl, op ≠ .split k incl true :=
    fun op h xs hl => ⟨hl, h⟩
  exact ⟨trivial, (by intro h; cases h), one _ (by intros; simp) _ (by intro h; cases h),
    one _ (by intros; simp) _ trivial, one _ (by intros; simp) _ trivial, (by intro h; cases h), rfl,
    (by intro h; cases h), rfl, one _ (by intros; simp) _ trivial, .inl rfl, (by intro h; cases h), rfl, trivial⟩

end Verif.IndexHeap
