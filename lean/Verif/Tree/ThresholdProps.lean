import Verif.Tree.Threshold

/-! C108: the trees of tree/avl, set/treeset and tree/avls that `NewEx` makes with any threshold. -/

namespace Verif.Avl
open Verif.Tree
variable {K V : Type} {cmp : K → K → Int}

/-- C108 for tree/avl (`one = false`) and set/treeset (`one = true`), any threshold: as long as no call
panics, the answers are those of the ideal sorted map. -/
theorem C108_map_answers (hc : LawfulEx cmp) (one : Bool) (d : Int) (os : List (Op K V))
    (ha : ∀ op ∈ os, op.abstract = true) {m : Map K V} {rs : List (Res K V)}
    (h : run (step cmp one d) Map.new os = some (m, rs)) :
    rs = (runSpec (spec (ord cmp)) [] os).2 :=
  (run_partial (step := step cmp one d) (spec := spec (ord cmp)) (Rel cmp)
    (fun op => op.abstract = true) (fun _ _ _ _ _ ha hR h => step_partial hc ha hR h) os ha _ _ _ _
    Rel.new h).1

/-- C108 for tree/avl and set/treeset: with any threshold of at least one, every history with at most 126
calls that insert answers as the ideal sorted map, although the recorded heights may be wrong. Missing from
the full statement: more insertions, and thresholds below one, for which it is false, see
`C108_map_negative` and `C108_map_zero`. -/
theorem C108_map_partial (hc : LawfulEx cmp) (one : Bool) {d : Int} (h1 : 1 ≤ d) (h2 : d ≤ 127)
    (os : List (Op K V)) (ha : ∀ op ∈ os, op.abstract = true)
    (hn : (os.filter Op.inserts).length ≤ 126) :
    ∃ m, run (step cmp one d) Map.new os = some (m, (runSpec (spec (ord cmp)) [] os).2) := by
  obtain ⟨m, rs, h⟩ := run_lim (one := one) hc h1 h2 os (n := 0) (m := Map.new) ⟨0, trivial, Nat.le_refl _⟩ ha
    (by omega)
  exact ⟨m, by rw [h, C108_map_answers hc one d os ha h]⟩

/-- With a negative threshold the second `Put` of a new tree panics if its key is the greater one. -/
theorem C108_map_negative (hc : LawfulEx cmp) (one : Bool) {d : Int} (h : d < 0) {a b : K}
    (hab : ord cmp a b = .lt) (v w : V) :
    run (step cmp one d) Map.new [.put a v, .put b w] = none := by
  have e : cmp a b = 1 := by
    rcases hc.range a b with e | e | e <;> simp [ord, exOrd, e] at hab <;> exact e
  have w : w8 (-1) = -1 := by decide
  have g : d ≤ -1 := by omega
  simp [run, step, Map.put, Map.new, put, e, rebalance, hgt, w, kids, g, isNil]

/-- With the threshold zero a `Remove` that leaves one entry panics. -/
theorem C108_map_zero (hc : LawfulEx cmp) (one : Bool) {a b : K} (hab : ord cmp a b = .lt) (v w : V) :
    run (step cmp one 0) Map.new [.put a v, .put b w, .remove a] = none := by
  have e : cmp a b = 1 := by
    rcases hc.range a b with e | e | e <;> simp [ord, exOrd, e] at hab <;> exact e
  have := hc.trans
  have e2 : cmp b a = 0 := by
    have h : ord cmp b a = .gt := (Ord.gt_iff (o := ord cmp)).2 hab
    rcases hc.range b a with e | e | e <;> simp [ord, exOrd, e] at h <;> exact e
  have e3 : cmp a a = -1 := by
    have h : ord cmp a a = .eq := Ord.refl (o := ord cmp) a
    rcases hc.range a a with e | e | e <;> simp [ord, exOrd, e] at h <;> exact e
  have w : w8 (-1) = -1 := by decide
  have w0 : w8 0 = 0 := by decide
  cases one <;> simp [run, step, Map.put, Map.remove, Map.new, put, remove, removeHere, e, e2, e3, rebalance, rebIf, leftRotate, hgt, w, w0,
    kids, isNil]

/-- With the thresholds 1, 3 and 4 the height of a tree set is wrong after a few insertions. -/
theorem C108_treeset_heights_wrong :
    (∃ (m : Map Int Unit) (rs : List (Res Int Unit)), run (step Compare.anyEx true 1) Map.new
      [.put 0 (), .put 2 (), .put 3 (), .put 1 ()] = some (m, rs) ∧
      m.height = some 2 ∧ m.root.height = 3) ∧
    (∃ (m : Map Int Unit) (rs : List (Res Int Unit)), run (step Compare.anyEx true 3) Map.new
      [.put 0 (), .put 1 (), .put 2 (), .put 3 ()] = some (m, rs) ∧
      m.height = some 2 ∧ m.root.height = 3) ∧
    (∃ (m : Map Int Unit) (rs : List (Res Int Unit)), run (step Compare.anyEx true 4) Map.new
      [.put 0 (), .put 1 (), .put 2 (), .put 3 (), .put 4 ()] = some (m, rs) ∧
      m.height = some 2 ∧ m.root.height = 4) :=
  ⟨⟨_, _, rfl, rfl, rfl⟩, ⟨_, _, rfl, rfl, rfl⟩, ⟨_, _, rfl, rfl, rfl⟩⟩

/-- With the threshold 4 an iterator of a tree set of five items panics. -/
theorem C108_treeset_iterator_panics :
    ∃ (m : Map Int Unit) (rs : List (Res Int Unit)) (it : Iter Int Int Unit),
      run (step Compare.anyEx true 4) Map.new
        [.put 0 (), .put 1 (), .put 2 (), .put 3 (), .put 4 ()] = some (m, rs) ∧
      m.iterator = some it ∧ run (istep Compare.anyEx false m.root) it [.seekToLast] = none :=
  ⟨_, _, _, rfl, rfl, rfl⟩

/-- A history with rotations for the threshold 4, after which the recorded heights are wrong. -/
example : ∃ m : Map Int Nat, run (step Compare.anyEx true 4) Map.new
    [.put 0 0, .put 1 10, .put 2 20, .put 3 30, .put 4 40, .remove 1, .set 3 31, .upsert 7 70, .size, .values] =
    some (m, [.bool true, .bool true, .bool true, .bool true, .bool true, .val (some 10), .bool false,
      .bool false, .nat 5, .list [0, 20, 31, 40, 70]]) := by
  obtain ⟨m, h⟩ := C108_map_partial anyEx_lawful true (d := 4) (by decide) (by decide)
    [.put 0 0, .put 1 10, .put 2 20, .put 3 30, .put 4 40, .remove 1, .set 3 31, .upsert 7 70, .size, .values]
    (by decide) (by decide)
  exact ⟨m, h.trans rfl⟩

end Verif.Avl

namespace Verif.Avls
open Verif.Tree Verif.Avl
variable {K V : Type} {cmp : K → K → Int}

/-- C108 for tree/avls: with any threshold of at least one, every history with at most 126 calls that insert
answers as the ideal stable multimap. For all thresholds and histories without a panic this is
`C30_answers_right`. Missing from the full statement: more insertions, and thresholds below one, for which it is false,
see `C108_avls_negative` and `C108_avls_zero`. -/
theorem C108_avls_partial (hc : LawfulEx cmp) {d : Int} (h1 : 1 ≤ d) (h2 : d ≤ 127)
    (os : List (Op K V)) (ha : ∀ op ∈ os, op.abstract = true)
    (hn : (os.filter Op.inserts).length ≤ 126) :
    ∃ m, run (step cmp d) Map.new os = some (m, (runSpec (spec (ord cmp)) [] os).2) := by
  obtain ⟨m, rs, h⟩ := run_lim hc h1 h2 os (n := 0) (m := Map.new) ⟨0, trivial, Nat.le_refl _⟩ ha
    (by omega)
  exact ⟨m, by rw [h, C30_answers_right hc d os ha h]⟩

/-- With a negative threshold the second `Put` of a new tree panics if its key is not the lesser one. -/
theorem C108_avls_negative (hc : LawfulEx cmp) {d : Int} (h : d < 0) {a b : K}
    (hab : ord cmp a b ≠ .gt) (v w : V) :
    run (step cmp d) Map.new [.put a v, .put b w] = none := by
  have e : cmp a b < 0 ∨ cmp a b = 1 := by
    rcases hc.range a b with e | e | e <;> simp [ord, exOrd, e] at hab <;> simp [e]
  have w : w8 (-1) = -1 := by decide
  have g : d ≤ -1 := by omega
  rcases e with e | e <;> simp [run, step, Map.put, Map.new, put, e, rebIf, rebalance, hgt, w, kids, g, isNil]

/-- With the threshold zero a `Remove` that leaves one entry panics. -/
theorem C108_avls_zero (hc : LawfulEx cmp) {a b : K} (hab : ord cmp a b = .lt) (v w : V) :
    run (step cmp 0) Map.new [.put a v, .put b w, .remove a] = none := by
  have e : cmp a b = 1 := by
    rcases hc.range a b with e | e | e <;> simp [ord, exOrd, e] at hab <;> exact e
  have := hc.trans
  have e2 : cmp b a = 0 := by
    have h : ord cmp b a = .gt := (Ord.gt_iff (o := ord cmp)).2 hab
    rcases hc.range b a with e | e | e <;> simp [ord, exOrd, e] at h <;> exact e
  have e3 : cmp a a = -1 := by
    have h : ord cmp a a = .eq := Ord.refl (o := ord cmp) a
    rcases hc.range a a with e | e | e <;> simp [ord, exOrd, e] at h <;> exact e
  have w : w8 (-1) = -1 := by decide
  have w0 : w8 0 = 0 := by decide
  simp [run, step, Map.put, Map.remove, Map.new, put, remove, removeHere, e, e2, e3, rebalance, rebIf, leftRotate, hgt, w, w0,
    kids, isNil]

example : ∃ m : Map Int Nat, run (step Compare.anyEx 1) Map.new
    [.put 0 0, .put 0 10, .put 2 20, .put 2 30, .put 4 40, .remove 0, .set 2 31, .size, .values] =
    some (m, [.bool true, .bool true, .bool true, .bool true, .bool true, .val (some 0), .bool false,
      .nat 4, .list [10, 31, 30, 40]]) := by
  obtain ⟨m, h⟩ := C108_avls_partial anyEx_lawful (d := 1) (by decide) (by decide)
    [.put 0 0, .put 0 10, .put 2 20, .put 2 30, .put 4 40, .remove 0, .set 2 31, .size, .values]
    (by decide) (by decide)
  exact ⟨m, h.trans rfl⟩

end Verif.Avls
