import Verif.Tree.AvlScan
import Verif.Compare.Props

/-! Properties C25 to C29: the AVL map `tree/avl`. -/

namespace Verif.Avl

open Tree

variable {K V : Type} {cmp : K → K → Int}

/-- `NewEx(compare, d)` for `1 ≤ d`, an `int8`. -/
theorem cfg_avl {d : Int} (h1 : 1 ≤ d) (h2 : d ≤ 127) : Cfg false d := ⟨h1, h2, by simp⟩

/-! ### C25 -/

/-- C25, answers: for every threshold and every history, whatever the shape of the tree and even if
the 8-bit heights overflow, the answers are those of the ideal map, as long as no call fails. -/
theorem C25_answers_right (hc : LawfulEx cmp) (d : Int) (os : List (Op K V))
    (ha : ∀ op ∈ os, op.abstract = true) {m : Map K V} {rs : List (Res K V)}
    (h : run (step cmp false d) Map.new os = some (m, rs)) :
    rs = (runSpec (spec (ord cmp)) [] os).2 :=
  (run_partial (step := step cmp false d) (spec := spec (ord cmp)) (Rel cmp)
    (fun op => op.abstract = true) (fun _ _ _ _ _ ha hR h => step_partial hc ha hR h) os ha _ _ _ _
    Rel.new h).1

/-- C25, no failure. Missing from the full statement: maps as large as `room d`, for which the
heights (`int8`) may overflow; `room d` is at least 127, and at least 2^63 for `d = 2`. -/
theorem C25_map_partial (hc : LawfulEx cmp) {d : Int} (h1 : 1 ≤ d) (h2 : d ≤ 127)
    (os : List (Op K V)) (ha : ∀ op ∈ os, op.abstract = true) (hf : Fits (ord cmp) d os) :
    ∃ m, run (step cmp false d) Map.new os = some (m, (runSpec (spec (ord cmp)) [] os).2) := by
  obtain ⟨m, rs, h3, -⟩ := run_ok hc (cfg_avl h1 h2) hf
  rw [C25_answers_right hc d os ha h3] at h3
  exact ⟨m, h3⟩

/-- C25 for threshold 2: histories of any length on maps of fewer than 2^63 entries. -/
theorem C25_map_threshold_two (hc : LawfulEx cmp) (os : List (Op K V))
    (ha : ∀ op ∈ os, op.abstract = true)
    (hf : ∀ os₁, os₁ <+: os → (runSpec (spec (ord cmp)) [] os₁).1.length < 2 ^ 63) :
    ∃ m, run (step cmp false 2) Map.new os = some (m, (runSpec (spec (ord cmp)) [] os).2) :=
  C25_map_partial hc (by decide) (by decide) os ha fun os₁ h =>
    Nat.lt_of_lt_of_le (hf os₁ h) room_two

/-- A history of fewer than 127 insertions fits for every threshold. -/
theorem fits_of_short {d : Int} {os : List (Op K V)} (h : os.length < 127) : Fits (ord cmp) d os := by
  intro os₁ hp
  have h1 := runSpec_length (o := ord cmp) os₁ []
  have h2 := hp.length_le
  have h3 := room_ge (d := d)
  simp only [List.length_nil] at h1
  omega

/-- The comparator of the examples: `compare.AnyEx[int]`. -/
theorem anyEx_lawful : LawfulEx Compare.anyEx := Compare.C03_anyEx_lawful_partial.1

/-- A history for the examples. -/
def demo : List (Op Int String) :=
  [.put 3 "c", .put 1 "a", .set 2 "b", .put 3 "x", .upsert 1 "A", .get 3, .remove 2, .remove 2, .size,
    .values]

example : ∃ m, run (step Compare.anyEx false 1) Map.new demo =
    some (m, [.bool true, .bool true, .bool true, .bool false, .bool true, .val (some "c"),
      .val (some "b"), .val none, .nat 2, .list ["A", "c"]]) := by
  obtain ⟨m, h⟩ := C25_map_partial anyEx_lawful (d := 1) (by decide) (by decide) demo
    (by decide) (fits_of_short (by decide))
  exact ⟨m, h.trans rfl⟩

example : ∃ m, run (step Compare.anyEx false 2) Map.new demo =
    some (m, (runSpec (spec (ord Compare.anyEx)) [] demo).2) :=
  C25_map_threshold_two anyEx_lawful demo (by decide) fun os₁ h => by
    have h1 := runSpec_length (o := ord Compare.anyEx) os₁ []
    have h2 := h.length_le
    have h3 : demo.length = 10 := rfl
    simp only [List.length_nil] at h1
    omega

/-- C25 needs the comparator to be lawful: with `compare.ArrayAnyEx` (see C03) a key that was put is
lost. The keys are "b", "a", "aa", "c". -/
theorem C25_arrayAnyEx_loses_key : ∃ m : Map (List Nat) Nat,
    run (step Compare.arrayAnyEx false 1) Map.new
      [.put [98] 1, .put [97] 2, .put [97, 97] 3, .put [99] 4, .get [97, 97]] =
    some (m, [.bool true, .bool true, .bool true, .bool true, .val none]) := ⟨_, rfl⟩

/-! ### C26 -/

/-- C26: after any history, for any threshold, `Traverse` and `Values` enumerate the entries of the
ideal map in strictly increasing order of their keys; a `Traverse` that is stopped sees the entries up to the one
where it stops. -/
theorem C26_sorted (hc : LawfulEx cmp) (d : Int) (os : List (Op K V)) {m : Map K V}
    {rs : List (Res K V)} (h : run (step cmp false d) Map.new os = some (m, rs)) :
    ∃ xs, xs = (runSpec (spec (ord cmp)) [] os).1 ∧
      xs.Pairwise (fun a b => exOrd (cmp a.1 b.1) = .lt) ∧
      step cmp false d m .values = some (m, .list (xs.map (·.2))) ∧
      ∀ every, step cmp false d m (.traverse every) =
        some (m, .entries (seen (fun e => every e.1 e.2) xs)) := by
  have hR := run_state (step := step cmp false d) (spec := spec (ord cmp)) (Rel cmp)
    (fun s t o s' r hR h => step_state hc hR h) os _ _ _ _ Rel.new h
  refine ⟨_, rfl, hR.sorted, ?_, ?_⟩
  · exact congrArg (fun r => some (m, r))
      (step_partial hc (one := false) (d := d) (op := .values) (m' := m) rfl hR rfl).1
  · intro every
    exact congrArg (fun r => some (m, r))
      (step_partial hc (one := false) (d := d) (op := .traverse every) (m' := m) rfl hR rfl).1

example : ∃ m rs, run (step Compare.anyEx false 1) Map.new demo = some (m, rs) ∧
    step Compare.anyEx false 1 m .values = some (m, .list ["A", "c"]) := by
  refine ⟨_, _, rfl, ?_⟩
  obtain ⟨xs, h1, -, h3, -⟩ := C26_sorted anyEx_lawful 1 demo rfl
  rw [h3, h1]; rfl

/-! ### C27 -/

/-- C27, heights: every recorded height, and so `Height`, is exact, and with threshold `d ≥ 2`
sibling heights differ by less than `d`. Missing from the full statement: the default map, see
`C27_default_not_avl`. -/
theorem C27_height_balance_partial (hc : LawfulEx cmp) {d : Int} (h1 : 1 ≤ d) (h2 : d ≤ 127)
    {m : Map K V} {xs : List (K × V)} (h : Reached cmp false d m xs) :
    m.height = some (m.root.height : Int) ∧ Exact m.root ∧ (2 ≤ d → Bal d m.root) := by
  obtain ⟨hI, hR⟩ := h.inv hc (cfg_avl h1 h2)
  have h3 := step_height (one := false) (d := d) hR
  simp only [step, Option.map_eq_some_iff] at h3
  obtain ⟨hh, h4, h5⟩ := h3
  cases h5
  exact ⟨by rw [h4, hI.good.1.hgt], hI.good.1, hI.good.2⟩

/-- The default map (`New`, threshold 1) is not an AVL tree: after eight insertions and a removal a
left subtree is two levels higher than its sibling. -/
theorem C27_default_not_avl : ∃ (os : List (Op Int Unit)) (m : Map Int Unit) (rs : List (Res Int Unit)),
    run (step Compare.anyEx false 1) Map.new os = some (m, rs) ∧ ¬ Bal 2 m.root := by
  refine ⟨[.put 0 (), .put 1 (), .put 2 (), .put 3 (), .put 4 (), .put 5 (), .put 6 (), .put 7 (),
    .remove 2], _, _, rfl, ?_⟩
  simp [Bal, height]

/-- Not even without removals: 27 insertions make such a tree. -/
theorem C27_default_puts : ∃ ks : List Int, ks.length = 27 ∧ ∃ (m : Map Int Unit) (rs : List (Res Int Unit)),
    run (step Compare.anyEx false 1) Map.new (ks.map fun k => .put k ()) = some (m, rs) ∧ ¬ Bal 2 m.root := by
  refine ⟨[18, 20, 21, 17, 1, 0, 2, 15, 8, 3, 24, 25, 23, 13, 11, 9, 16, 14, 12, 10, 4, 5, 6, 7, 26, 22, 19],
    rfl, _, _, rfl, ?_⟩
  simp [Bal, height]

/-- For the examples: a map with the two entries 1 and 3. -/
theorem demo_reached : ∃ m, Reached Compare.anyEx false 1 m [((1 : Int), "A"), (3, "c")] := by
  obtain ⟨m, rs, h, -⟩ := run_ok anyEx_lawful (cfg_avl (d := 1) (by decide) (by decide))
    (os := demo) (fits_of_short (by decide))
  exact ⟨m, demo, rs, fits_of_short (by decide), h, rfl⟩

example : ∃ m : Map Int String, m.height = some 2 := by
  obtain ⟨m, h⟩ := demo_reached
  have h1 := C27_height_balance_partial anyEx_lawful (by decide) (by decide) h
  obtain ⟨m', rs, h2⟩ : ∃ m rs, run (step Compare.anyEx false 1) Map.new demo = some (m, rs) ∧
    m.height = some 2 := ⟨_, _, rfl, rfl⟩
  exact ⟨m', h2.2⟩

/-! ### C28, C29 -/

/-- C28 and C29: on every map reached, every history of calls on an iterator (seeks, steps past the
ends and back, tests, copies) answers as the cursor `ispec` and never panics; `Key` and `Value` only
when valid. -/
theorem C28_iterator (hc : LawfulEx cmp) {d : Int} (h1 : 1 ≤ d) (h2 : d ≤ 127)
    {m : Map K V} {xs : List (K × V)} (h : Reached cmp false d m xs) (ops : List (IOp K))
    (hl : LegalRun (ispec (ord cmp) false xs) (ilegal xs) none ops) :
    ∃ it it', m.iterator = some it ∧ run (istep cmp false m.root) it ops =
      some (it', (runSpec (ispec (ord cmp) false xs) none ops).2) := by
  obtain ⟨hI, hR⟩ := h.inv hc (cfg_avl h1 h2)
  obtain ⟨it, h3, h4⟩ := iterator_ok hI
  have hx := hR.list
  subst hx
  obtain ⟨it', h5, -⟩ := iter_run hc false hR.sorted h4 ops hl
  exact ⟨it, it', h3, h5⟩

/-- C28, scans: `SeekToFirst` and `Next` see exactly the entries in order and end invalid;
`SeekToLast` and `Prev` see them in reverse order. -/
theorem C28_scan (hc : LawfulEx cmp) {d : Int} (h1 : 1 ≤ d) (h2 : d ≤ 127)
    {m : Map K V} {xs : List (K × V)} (h : Reached cmp false d m xs) :
    ∃ it it' it'', m.iterator = some it ∧
      run (istep cmp false m.root) it (scan false xs.length) = some (it', sees xs) ∧
      run (istep cmp false m.root) it (scan true xs.length) = some (it'', sees xs.reverse) := by
  obtain ⟨f1, f2⟩ := scan_forward_spec (o := ord cmp) (b := false) xs
  obtain ⟨b1, b2⟩ := scan_backward_spec (o := ord cmp) (b := false) xs
  obtain ⟨it, it', g1, g2⟩ := C28_iterator hc h1 h2 h _ f1
  obtain ⟨it2, it'', g3, g4⟩ := C28_iterator hc h1 h2 h _ b1
  rw [g1] at g3
  cases g3
  exact ⟨it, it', it'', g1, by rw [g2, f2], by rw [g4, b2]⟩

/-- C29, a seek on its own: from any state of the iterator the four seeks go to the least entry not
below, the least entry above, the greatest entry not above, the greatest entry below the key, or
become invalid, and answer whether the key is present. -/
theorem C29_seek (hc : LawfulEx cmp) {d : Int} (h1 : 1 ≤ d) (h2 : d ≤ 127)
    {m : Map K V} {xs : List (K × V)} (h : Reached cmp false d m xs) (ops : List (IOp K))
    (hl : LegalRun (ispec (ord cmp) false xs) (ilegal xs) none ops) (key : K) :
    ∃ it it' rs, m.iterator = some it ∧ run (istep cmp false m.root) it ops = some (it', rs) ∧
      Seeks cmp false m.root xs it' key := by
  obtain ⟨hI, hR⟩ := h.inv hc (cfg_avl h1 h2)
  obtain ⟨it, h3, h4⟩ := iterator_ok hI
  have hx := hR.list
  subst hx
  obtain ⟨it', h5, -, h6⟩ := iter_run hc false hR.sorted h4 ops hl
  exact ⟨it, it', _, h3, h5, h6 key⟩

example : ∃ (m : Map Int String) (it it' : Iter Int Int String), m.iterator = some it ∧
    run (istep Compare.anyEx false m.root) it
      [.seekGE 2, .entry, .next, .valid, .prev, .entry, .prev, .entry, .prev, .next, .entry] =
    some (it', [.bool false, .entry (3, "c"), .unit, .bool false, .unit, .entry (3, "c"), .unit,
      .entry (1, "A"), .unit, .unit, .entry (1, "A")]) := by
  obtain ⟨m, h⟩ := demo_reached
  obtain ⟨it, it', h1, h2⟩ := C28_iterator anyEx_lawful (by decide) (by decide) h
    [.seekGE 2, .entry, .next, .valid, .prev, .entry, .prev, .entry, .prev, .next, .entry]
    ⟨trivial, ⟨1, rfl, by decide, by decide⟩, trivial, trivial, trivial, ⟨1, rfl, by decide, by decide⟩,
      trivial, ⟨0, rfl, by decide, by decide⟩, trivial, trivial, ⟨0, rfl, by decide, by decide⟩, trivial⟩
  exact ⟨m, it, it', h1, h2.trans rfl⟩

example : ∃ (m : Map Int String) (it it' : Iter Int Int String) (rs : List (IRes Int String)),
    m.iterator = some it ∧ run (istep Compare.anyEx false m.root) it [.seekToLast, .next] =
      some (it', rs) ∧ Seeks Compare.anyEx false m.root [((1 : Int), "A"), (3, "c")] it' 2 := by
  obtain ⟨m, h⟩ := demo_reached
  obtain ⟨it, it', rs, h1⟩ := C29_seek anyEx_lawful (by decide) (by decide) h [.seekToLast, .next]
    ⟨trivial, trivial, trivial⟩ 2
  exact ⟨m, it, it', rs, h1⟩

end Verif.Avl
