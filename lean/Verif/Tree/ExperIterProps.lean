import Verif.Tree.ExperProps

/-! Property C101: the iterator of `experiment.Tree`. The files iterator.go and iterator_hide.go of
tree/indextree/experiment are those of tree/avl but for the package clause, so the iterator is that of
`Verif.Tree.AvlIter` (with tree/indextree/experiment/iterator.go:22-90, iterator_hide.go:5-135). -/

namespace Verif.Exper.AvlLike

open Tree
open Avl (Map T IOp IRes Iter istep ispec ilegal)

variable {K V : Type} {cmp : K → K → Int}

/-- The calls of an iterator that do not search. -/
def walks : IOp K → Bool
  | .seekToFirst | .seekToLast | .next | .prev | .valid | .entry | .clone => true
  | _ => false

/-- The order of the tree is the opposite of that of the comparator. -/
def rord (cmp : K → K → Int) (a b : K) : Ordering := ordOf (cmp b a)

theorem ord_flip (hc : Lawful cmp) : Avl.ord (flip cmp) = rord cmp := by
  have : Std.TransCmp (Size.ord cmp) := hc
  funext a b
  exact (exOrd_flip a b).trans (Std.OrientedCmp.eq_swap (cmp := Size.ord cmp)).symm

theorem istep_walks {A : Type} {c c' : K → K → Int} {root : Tree A K V} {it : Iter A K V} {op : IOp K}
    (h : walks op = true) : istep c false root it op = istep c' false root it op := by
  cases op <;> first | rfl | cases h

theorem run_walks {A : Type} {c c' : K → K → Int} {root : Tree A K V} : ∀ (ops : List (IOp K)) (it : Iter A K V),
    (∀ op ∈ ops, walks op = true) → run (istep c false root) it ops = run (istep c' false root) it ops
  | [], _, _ => rfl
  | op :: ops, it, h => by
    simp only [run, istep_walks (c := c) (c' := c') (root := root) (it := it) (h op (List.mem_cons_self ..))]
    cases istep c' false root it op with
    | none => rfl
    | some p => simp only [run_walks (c := c) (c' := c') ops p.1 fun o ho => h o (List.mem_cons_of_mem _ ho)]

/-- C101, walks: on every tree made by calls of C80 that fit (fewer than 127 entries for
every threshold, more than 2^63 for threshold 2), every sequence of `SeekToFirst`,
`SeekToLast`, `Next`, `Prev`, `Valid`, `Key`, `Value` and `Clone`, also past the ends and back, answers as a
cursor on the entries of the ideal map in descending order, and never panics. Missing from the full
statement: larger trees, and the seeks for a key, for which see the theorems below. -/
theorem C101_walk_partial (hc : Lawful cmp) {d : Int} (h1 : 1 ≤ d) (h2 : d ≤ 127) (os : List (Avl.Op K V))
    (hs : ∀ op ∈ os, noSearch op = true) (hn : Avl.Fits (rord cmp) d os) {m : Map K V} {rs : List (Avl.Res K V)}
    (h : run (step cmp d) Map.new os = some (m, rs)) (ops : List (IOp K)) (hw : ∀ op ∈ ops, walks op = true)
    (hl : LegalRun (ispec (rord cmp) false (runSpec (Avl.spec (rord cmp)) [] os).1)
      (ilegal (runSpec (Avl.spec (rord cmp)) [] os).1) none ops) :
    ∃ it it', m.iterator = some it ∧ run (istep cmp false m.root) it ops =
      some (it', (runSpec (ispec (rord cmp) false (runSpec (Avl.spec (rord cmp)) [] os).1) none ops).2) := by
  rw [run_eq d os _ hs] at h
  have hR : Avl.Reached (flip cmp) false d m (runSpec (Avl.spec (rord cmp)) [] os).1 := by
    rw [← ord_flip hc] at hn ⊢
    exact ⟨os, rs, hn, h, rfl⟩
  rw [← ord_flip hc] at hl hR ⊢
  obtain ⟨it, it', e1, e2⟩ := Avl.C28_iterator (flip_lawful hc) h1 h2 hR ops hl
  exact ⟨it, it', e1, by rw [run_walks (c' := flip cmp) ops it hw, e2]⟩

theorem down_cur {A : Type} {c b : Bool} {it it' : Iter A K V} (hn : it.cur ≠ nil)
    (h : it.down c = some (it', b)) : ∀ e ∈ it'.cur.toList, e ∈ it.cur.toList := by
  cases hcur : it.cur with
  | nil => exact absurd hcur hn
  | node a k v l r =>
    simp only [Iter.down, hcur, Avl.isNil_node, Bool.false_eq_true, if_false] at h
    split at h
    · cases h; rw [hcur]; exact fun e he => he
    · obtain ⟨x, h1, h2⟩ := Option.map_eq_some_iff.1 h
      cases h2
      unfold Iter.push at h1
      split at h1
      · cases h1
        intro e he
        rw [toList_node]
        cases c <;> simp only [Avl.child, Bool.false_eq_true, if_false, if_true] at he <;> simp [he]
      · cases h1

theorem seekLoop_true {A : Type} {key : K} {c strict : Bool} : ∀ (n : Nat) (it it' : Iter A K V),
    it.seekLoop cmp key c strict n = some (it', true) →
    (∃ e ∈ it.cur.toList, cmp e.1 key < 0) ∧ (strict = false → ∃ e, it'.current = some e ∧ cmp e.1 key < 0)
  | 0, _, _, h => by cases h
  | n + 1, it, it', h => by
    cases hcur : it.cur with
    | nil => simp [Iter.seekLoop, hcur] at h
    | node a k v l r =>
      simp only [Iter.seekLoop, hcur] at h
      split at h
      · rename_i hlt
        refine ⟨⟨(k, v), by simp [toList_node], hlt⟩, fun hst => ?_⟩
        subst hst
        cases h
        exact ⟨(k, v), by simp [Iter.current, hcur], hlt⟩
      · split at h
        · simp only [Option.bind_eq_some_iff] at h
          obtain ⟨p, h1, h2⟩ := h
          split at h2
          · obtain ⟨⟨e, i1, i2⟩, i3⟩ := seekLoop_true n _ _ h2
            refine ⟨⟨e, ?_, i2⟩, i3⟩
            rw [← hcur]
            exact down_cur (by rw [hcur]; simp) h1 e i1
          · split at h2
            · simp at h2
            · simp at h2
        · cases h

/-- The seeks for a key: forwards (`GE`, `GT`) or backwards, with or without the key itself. -/
def seekOf (key : K) : Bool → Bool → IOp K
  | true, false => .seekGE key
  | true, true => .seekGT key
  | false, false => .seekLE key
  | false, true => .seekLT key

theorem istep_seekOf {A : Type} {root : Tree A K V} {it it' : Iter A K V} {key : K} {c strict : Bool}
    (h : istep cmp false root it (seekOf key c strict) = some (it', .bool true)) :
    it.seek cmp root key c strict = some (it', true) := by
  have : (it.seek cmp root key c strict).map (fun p => (p.1, (IRes.bool p.2 : IRes K V))) =
      some (it', .bool true) := by
    cases c <;> cases strict <;> exact h
  obtain ⟨p, h1, h2⟩ := Option.map_eq_some_iff.1 this
  obtain ⟨a, b⟩ := p
  cases h2
  exact h1

/-- The negation of C101 for the seeks, in general, for every tree and every comparator: when a seek answers
that the key is there, it has met an entry for which the comparator says that its key is less, and `SeekGE`
and `SeekLE` stop at such an entry. -/
theorem C101_seek_finds_smaller {A : Type} {root : Tree A K V} {it it' : Iter A K V} {key : K} {c strict : Bool}
    (h : istep cmp false root it (seekOf key c strict) = some (it', .bool true)) :
    (∃ e ∈ root.toList, cmp e.1 key < 0) ∧ (strict = false → ∃ e, it'.current = some e ∧ cmp e.1 key < 0) := by
  have h := istep_seekOf h
  unfold Iter.seek at h
  split at h
  · cases h
  · exact seekLoop_true _ _ _ h

example : ∃ it it' : Iter Int Int String,
    istep Compare.any false (node 2 2 "b" (node 1 3 "c" nil nil) (node 1 1 "a" nil nil)) it (seekOf 3 true false) =
      some (it', .bool true) := ⟨⟨2, nil, []⟩, _, rfl⟩

/-- So every seek for the least key of a tree that answers, denies that it is there. -/
theorem C101_least_denied {A : Type} {root : Tree A K V} {it it' : Iter A K V} {key : K} {v : V}
    (_hk : (key, v) ∈ root.toList) (hmin : ∀ e ∈ root.toList, 0 ≤ cmp e.1 key) {c strict b : Bool}
    (h : istep cmp false root it (seekOf key c strict) = some (it', .bool b)) : b = false := by
  cases b with
  | false => rfl
  | true =>
    obtain ⟨⟨e, h1, h2⟩, -⟩ := C101_seek_finds_smaller h
    have := hmin e h1
    omega

example : ∃ it it' : Iter Int Int String,
    istep Compare.any false (node 2 2 "b" (node 1 3 "c" nil nil) (node 1 1 "a" nil nil)) it (seekOf 1 true false) =
      some (it', .bool false) := ⟨⟨2, nil, []⟩, _, rfl⟩

/-- `compare.Any[int]`, keys 1, 2 and 3: the seek of a tree made by `Put`, what it answers, whether the
iterator is valid, and the key. -/
def seekAfterPuts (op : IOp Int) : Option (IRes Int String × Option (Int × String)) := do
  let (m, _) ← run (step Compare.any 1) (Map.new : Map Int String) [.put 1 "a", .put 2 "b", .put 3 "c"]
  let it ← m.iterator
  let (it', r) ← istep Compare.any false m.root it op
  some (r, it'.current)

/-- `SeekGE(3)` and `SeekLE(3)` say that 3 is there and stop at 2. `SeekGE(2)` denies that 2 is there,
`SeekLE(2)` also, and it stops at 3; `SeekGT(2)` stops at 2 itself; `SeekGE(4)` says that 4 is there. -/
theorem C101_seek_wrong :
    seekAfterPuts (.seekGE 3) = some (.bool true, some (2, "b")) ∧
    seekAfterPuts (.seekLE 3) = some (.bool true, some (2, "b")) ∧
    seekAfterPuts (.seekGE 2) = some (.bool false, some (2, "b")) ∧
    seekAfterPuts (.seekLE 2) = some (.bool false, some (3, "c")) ∧
    seekAfterPuts (.seekGT 2) = some (.bool false, some (2, "b")) ∧
    seekAfterPuts (.seekGE 4) = some (.bool true, some (2, "b")) := by
  refine ⟨rfl, rfl, rfl, rfl, rfl, rfl⟩

/-- Walk from the first entry past the end and back. -/
def demoWalk : List (IOp Int) := [.seekToFirst, .entry, .next, .entry, .next, .entry, .next, .valid, .prev, .entry]

example : ∃ (m : Map Int String) (it it' : Iter Int Int String), m.iterator = some it ∧
    run (istep Compare.any false m.root) it demoWalk =
      some (it', [.unit, .entry (3, "c"), .unit, .entry (2, "b"), .unit, .entry (1, "a"), .unit, .bool false, .unit,
        .entry (1, "a")]) := by
  obtain ⟨m, rs, h⟩ := C80_no_panic_partial IndexTree.any_lawful (d := 1) (by decide) (by decide)
    [.put 1 "a", .put 2 "b", .put 3 "c"] (by simp [noSearch]) (by decide)
  obtain ⟨it, it', h1, h2⟩ := C101_walk_partial IndexTree.any_lawful (d := 1) (by decide) (by decide)
    [.put 1 "a", .put 2 "b", .put 3 "c"] (by simp [noSearch])
    (by rw [← ord_flip IndexTree.any_lawful]; exact Avl.fits_of_short (by decide)) h demoWalk (by simp [demoWalk, walks])
    ⟨trivial, ⟨0, rfl, by decide, by decide⟩, trivial, ⟨1, rfl, by decide, by decide⟩, trivial,
      ⟨2, rfl, by decide, by decide⟩, trivial, trivial, trivial, ⟨2, rfl, by decide, by decide⟩, trivial⟩
  exact ⟨m, it, it', h1, h2.trans rfl⟩

end Verif.Exper.AvlLike
