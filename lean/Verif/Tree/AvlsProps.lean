import Verif.Tree.AvlsLemmas
import Verif.Tree.AvlProps

/-! Properties C30 to C32: the AVL tree with duplicate keys, `tree/avls`. -/

namespace Verif.Avls

open Verif.Tree Verif.Avl

variable {K V : Type} {cmp : K → K → Int}

/-! ### C30 -/

/-- C30, answers: for every threshold and every history, as long as no call fails. -/
theorem C30_answers_right (hc : LawfulEx cmp) (d : Int) (os : List (Op K V))
    (ha : ∀ op ∈ os, op.abstract = true) {m : Map K V} {rs : List (Res K V)}
    (h : run (step cmp d) Map.new os = some (m, rs)) :
    rs = (runSpec (spec (ord cmp)) [] os).2 :=
  (run_partial (step := step cmp d) (spec := spec (ord cmp)) (Rel cmp)
    (fun op => op.abstract = true) (fun _ _ _ _ _ ha hR h =>
      ⟨(step_partial hc hR h).1 ha, (step_partial hc hR h).2⟩) os ha _ _ _ _ Rel.new h).1

/-- C30: the default tree is a stable multimap, for all histories on trees of fewer than 2^63
entries; its entries are sorted. -/
theorem C30_stable_multimap (hc : LawfulEx cmp) (os : List (Op K V))
    (ha : ∀ op ∈ os, op.abstract = true)
    (hf : ∀ os₁, os₁ <+: os → (runSpec (spec (ord cmp)) [] os₁).1.length < 2 ^ 63) :
    ∃ m, run (step cmp 2) Map.new os = some (m, (runSpec (spec (ord cmp)) [] os).2) ∧
      (runSpec (spec (ord cmp)) [] os).1.Pairwise (fun a b => exOrd (cmp a.1 b.1) ≠ .gt) := by
  obtain ⟨m, rs, h1, -, h2⟩ := run_ok hc hf
  rw [C30_answers_right hc 2 os ha h1] at h1
  exact ⟨m, h1, h2.sorted⟩

/-- For the examples: histories of fewer than 2^63 calls. -/
theorem short_fits {os : List (Op K V)} {o : K → K → Ordering} (h : os.length < 2 ^ 63) :
    ∀ os₁, os₁ <+: os → (runSpec (spec o) [] os₁).1.length < 2 ^ 63 := by
  have hs : ∀ (xs : List (K × V)) op, (spec o xs op).1.length ≤ xs.length + 1 := by
    intro xs op
    have h1 : ∀ k v, (setFirst o k v xs).length = xs.length := fun k v => by
      have := congrArg List.length (setFirst_keys (o := o) (k := k) (L := xs) v)
      simpa using this
    have h2 : ∀ k, (xs.eraseP fun e => o e.1 k == .eq).length ≤ xs.length := fun k =>
      List.Sublist.length_le List.eraseP_sublist
    cases op <;> simp only [spec] <;> (try split) <;>
      (try simp only [length_insertAfter, h1, List.length_nil]) <;> (try omega)
    all_goals exact Nat.le_succ_of_le (h2 _)
  have hl : ∀ (os : List (Op K V)) xs, (runSpec (spec o) xs os).1.length ≤ xs.length + os.length := by
    intro os
    induction os with
    | nil => intro xs; simp [runSpec]
    | cons op os ih =>
      intro xs
      have h1 := hs xs op
      have h2 := ih (spec o xs op).1
      simp only [runSpec, List.length_cons]
      omega
  intro os₁ hp
  have h1 := hl os₁ []
  have h2 := hp.length_le
  simp only [List.length_nil] at h1
  omega

def demo : List (Op Int String) :=
  [.put 2 "b", .put 1 "a", .put 2 "c", .put 2 "d", .set 2 "B", .values, .remove 2, .get 2, .size]

example : ∃ m, run (step Compare.anyEx 2) Map.new demo =
    some (m, [.bool true, .bool true, .bool true, .bool true, .bool false,
      .list ["a", "B", "c", "d"], .val (some "B"), .val (some "c"), .nat 3]) := by
  obtain ⟨m, h, -⟩ := C30_stable_multimap anyEx_lawful demo (by decide) (short_fits (by decide))
  exact ⟨m, h.trans rfl⟩

/-! ### C31 -/

/-- C31, default tree: heights exact, siblings differ by at most one, no overflow. Missing from the
full statement: other thresholds, for which it is false, see `C31_thresholds_inexact`. -/
theorem C31_default_balanced_partial (hc : LawfulEx cmp) {m : Map K V} {xs : List (K × V)}
    (h : Reached cmp m xs) :
    m.height = some (m.root.height : Int) ∧ Exact m.root ∧ Bal 2 m.root ∧
      2 ^ (m.root.height / 2) ≤ xs.length + 1 ∧ m.root.height ≤ 126 := by
  obtain ⟨hI, hR, hx⟩ := h.inv hc
  have hb := hI.good.2 (by decide)
  refine ⟨by rw [height_eq hI.rel.size, hI.good.1.hgt], hI.good.1, hb, ?_,
    height_small hR hI.good hx⟩
  have h6 := minNodes_le_count (by decide) hb
  rw [count_eq, hR.list] at h6
  have h7 := minNodes_two (m.root.height / 2)
  have h8 := minNodes_mono 1 (show 2 * (m.root.height / 2) ≤ m.root.height by omega)
  exact Nat.le_trans h7 (Nat.succ_le_succ (Nat.le_trans h8 h6))

/-- With the thresholds 1, 3 and 4 `Height()` is wrong after a few insertions. -/
theorem C31_thresholds_inexact :
    (∃ (m : Map Int Unit) (rs : List (Res Int Unit)), run (step Compare.anyEx 1) Map.new
      [.put 0 (), .put 2 (), .put 3 (), .put 1 ()] = some (m, rs) ∧
      m.height = some 2 ∧ m.root.height = 3) ∧
    (∃ (m : Map Int Unit) (rs : List (Res Int Unit)), run (step Compare.anyEx 3) Map.new
      [.put 0 (), .put 1 (), .put 2 (), .put 3 ()] = some (m, rs) ∧
      m.height = some 2 ∧ m.root.height = 3) ∧
    (∃ (m : Map Int Unit) (rs : List (Res Int Unit)), run (step Compare.anyEx 4) Map.new
      [.put 0 (), .put 1 (), .put 2 (), .put 3 (), .put 4 ()] = some (m, rs) ∧
      m.height = some 2 ∧ m.root.height = 4) :=
  ⟨⟨_, _, rfl, rfl, rfl⟩, ⟨_, _, rfl, rfl, rfl⟩, ⟨_, _, rfl, rfl, rfl⟩⟩

theorem demo_reached : ∃ m, Reached Compare.anyEx m [((1 : Int), "a"), (2, "c"), (2, "d")] := by
  obtain ⟨m, h, -⟩ := C30_stable_multimap anyEx_lawful demo (by decide) (short_fits (by decide))
  exact ⟨m, _, _, short_fits (by decide), h, rfl⟩

example : ∃ m : Map Int String, 2 ^ (m.root.height / 2) ≤ 3 + 1 := by
  obtain ⟨m, h⟩ := demo_reached
  exact ⟨m, (C31_default_balanced_partial anyEx_lawful h).2.2.2.1⟩

/-! ### C32 -/

/-- C32: every history of calls on an iterator of the default tree answers as the cursor `ispec` and
never panics; afterwards every seek goes to the entry it documents: `SeekGE` the first and `SeekLE`
the last of a run of equal keys, `SeekGT` and `SeekLT` beyond the run. -/
theorem C32_iterator (hc : LawfulEx cmp) {m : Map K V} {xs : List (K × V)} (h : Reached cmp m xs)
    (ops : List (IOp K)) (hl : LegalRun (ispec (ord cmp) true xs) (ilegal xs) none ops) :
    ∃ it it', m.iterator = some it ∧ run (istep cmp true m.root) it ops =
      some (it', (runSpec (ispec (ord cmp) true xs) none ops).2) ∧
      ∀ key, Seeks cmp true m.root xs it' key := by
  obtain ⟨hI, hR, -⟩ := h.inv hc
  obtain ⟨it, h3, h4⟩ := iterator_ok hI
  have hx := hR.list
  subst hx
  obtain ⟨it', h5, -, h6⟩ := iter_run hc true hR.sorted h4 ops hl
  exact ⟨it, it', h3, h5, h6⟩

/-- C32, scans. -/
theorem C32_scan (hc : LawfulEx cmp) {m : Map K V} {xs : List (K × V)} (h : Reached cmp m xs) :
    ∃ it it' it'', m.iterator = some it ∧
      run (istep cmp true m.root) it (scan false xs.length) = some (it', sees xs) ∧
      run (istep cmp true m.root) it (scan true xs.length) = some (it'', sees xs.reverse) := by
  obtain ⟨f1, f2⟩ := scan_forward_spec (o := ord cmp) (b := true) xs
  obtain ⟨b1, b2⟩ := scan_backward_spec (o := ord cmp) (b := true) xs
  obtain ⟨it, it', g1, g2, -⟩ := C32_iterator hc h _ f1
  obtain ⟨it2, it'', g3, g4, -⟩ := C32_iterator hc h _ b1
  rw [g1] at g3
  cases g3
  exact ⟨it, it', it'', g1, by rw [g2, f2], by rw [g4, b2]⟩

/-- With threshold 4 the wrong `Height()` makes the stack of an iterator too small: a seek panics on
a tree of five entries. -/
theorem C32_threshold_four_panics :
    ∃ (m : Map Int Unit) (rs : List (Res Int Unit)) (it : Iter Int Int Unit),
      run (step Compare.anyEx 4) Map.new
        [.put 0 (), .put 1 (), .put 2 (), .put 3 (), .put 4 ()] = some (m, rs) ∧
      m.iterator = some it ∧ run (istep Compare.anyEx true m.root) it [.seekToLast] = none :=
  ⟨_, _, _, rfl, rfl, rfl⟩

example : ∃ (m : Map Int String) (it it' : Iter Int Int String), m.iterator = some it ∧
    run (istep Compare.anyEx true m.root) it [.seekGE 2, .entry, .seekLE 2, .entry, .prev, .entry, .seekGT 2,
      .valid] =
    some (it', [.bool true, .entry (2, "c"), .bool true, .entry (2, "d"), .unit, .entry (2, "c"), .bool true,
      .bool false]) := by
  obtain ⟨m, h⟩ := demo_reached
  obtain ⟨it, it', h1, h2, -⟩ := C32_iterator anyEx_lawful h
    [.seekGE 2, .entry, .seekLE 2, .entry, .prev, .entry, .seekGT 2, .valid]
    ⟨trivial, ⟨1, rfl, by decide, by decide⟩, trivial, ⟨2, rfl, by decide, by decide⟩, trivial,
      ⟨1, rfl, by decide, by decide⟩, trivial, trivial, trivial⟩
  exact ⟨m, it, it', h1, h2.trans rfl⟩

end Verif.Avls
