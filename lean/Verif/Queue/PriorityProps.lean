import Verif.Queue.PriorityIter
import Verif.Tree.AvlProps

/-! Properties C51 to C54: the priority tree, `queue/priority`. -/

namespace Verif.Priority

open Tree Size
open Avl (anyEx_lawful Place Seeks)

variable {K V : Type} {cmp : K → K → Int}

/-- A tree left by a history of legal calls, and its entries. -/
def Reached (cmp : K → K → Int) (t : T K V) (xs : List (K × V)) : Prop :=
  ∃ os rs, LegalRun (spec (Avl.ord cmp)) legal [] os ∧ run (step cmp) nil os = some (t, rs) ∧
    xs = (runSpec (spec (Avl.ord cmp)) [] os).1

theorem Reached.rel (hc : LawfulEx cmp) {t : T K V} {xs : List (K × V)} (h : Reached cmp t xs) :
    Rel cmp t xs := by
  obtain ⟨os, rs, h1, h2, rfl⟩ := h
  obtain ⟨t', h3, h4⟩ := run_ok hc os h1
  rw [h3] at h2
  cases h2
  exact h4

/-! ### C51 -/

/-- C51: every history of calls answers as the ideal stable multimap and never fails, and the entries
are sorted. Missing from the full statement: `RemoveIndex` with an index that is no rank of the tree,
see C53. -/
theorem C51_stable_multimap_partial (hc : LawfulEx cmp) (os : List (Op K V))
    (hl : LegalRun (spec (Avl.ord cmp)) legal [] os) :
    ∃ t, run (step cmp) nil os = some (t, (runSpec (spec (Avl.ord cmp)) [] os).2) ∧
      (runSpec (spec (Avl.ord cmp)) [] os).1.Pairwise (fun a b => exOrd (cmp a.1 b.1) ≠ .gt) ∧
      t.toList = (runSpec (spec (Avl.ord cmp)) [] os).1 := by
  obtain ⟨t, h1, h2⟩ := run_ok hc os hl
  exact ⟨t, h1, h2.sorted, h2.list⟩

def demo : List (Op Int String) :=
  [.put 2 "b", .put 1 "a", .put 2 "c", .put 3 "z", .put 2 "d", .upsert 2 "B", .values, .remove 2,
    .get 2, .removeIndex 2, .popHead, .size, .popTail, .put 1 "x", .put 1 "y", .index (-1)]

example : ∃ t, run (step Compare.anyEx) nil demo = some (t, [.bool true, .bool true, .bool true,
    .bool true, .bool true, .bool true, .list ["a", "B", "c", "d", "z"], .val (some "B"),
    .val (some "c"), .val (some "d"), .val (some "a"), .int 2, .val (some "z"), .bool true,
    .bool true, .val (some "c")]) := by
  obtain ⟨t, h, -⟩ := C51_stable_multimap_partial anyEx_lawful demo
    ⟨trivial, trivial, trivial, trivial, trivial, trivial, trivial, trivial, trivial,
      ⟨by decide, by decide⟩, trivial, trivial, trivial, trivial, trivial, trivial, trivial⟩
  exact ⟨t, h.trans rfl⟩

theorem demo_reached : ∃ t, Reached Compare.anyEx t [((1 : Int), "x"), (1, "y"), (2, "c")] := by
  obtain ⟨t, h, -⟩ := C51_stable_multimap_partial anyEx_lawful demo
    ⟨trivial, trivial, trivial, trivial, trivial, trivial, trivial, trivial, trivial,
      ⟨by decide, by decide⟩, trivial, trivial, trivial, trivial, trivial, trivial, trivial⟩
  exact ⟨t, demo, _, ⟨trivial, trivial, trivial, trivial, trivial, trivial, trivial, trivial, trivial,
      ⟨by decide, by decide⟩, trivial, trivial, trivial, trivial, trivial, trivial, trivial⟩, h, rfl⟩

/-! ### C52 -/

/-- C52: `Gets` gives the values stored under the key, each as often as it is stored. -/
theorem C52_gets (hc : LawfulEx cmp) {t : T K V} {xs : List (K × V)} (h : Reached cmp t xs) (key : K) :
    ∃ vs, gets cmp key t = some vs ∧
      vs.Perm ((xs.filter fun e => exOrd (cmp e.1 key) == .eq).map (·.2)) := by
  have hR := h.rel hc
  have hx := hR.list
  subst hx
  rw [gets_eq hc]
  exact collect_ok hc hR.sorted

/-- The order of `Gets` is not the order of insertion. -/
theorem C52_order_differs : ∃ (t : T Int Nat) (rs : List (Res Int Nat)), run (step Compare.anyEx) nil
    [.put 1 1, .put 1 2, .put 1 3] = some (t, rs) ∧ gets Compare.anyEx 1 t = some [2, 1, 3] :=
  ⟨_, _, rfl, rfl⟩

example : ∃ (t : T Int String) (vs : List String), gets Compare.anyEx 1 t = some vs ∧
    vs.Perm ["x", "y"] := by
  obtain ⟨t, h⟩ := demo_reached
  obtain ⟨vs, h1, h2⟩ := C52_gets anyEx_lawful h 1
  exact ⟨t, vs, h1, h2⟩

/-! ### C53 -/

/-- C53, `Index`: the entry of that rank, negative indices from the end; out of range it panics. The
tree is not changed. -/
theorem C53_index (hc : LawfulEx cmp) {t : T K V} {xs : List (K × V)} (h : Reached cmp t xs) (i : Int) :
    step cmp t (.index i) = some (t, match at? xs (if i < 0 then xs.length + i else i) with
      | some e => .val (some e.2)
      | none => .panic) := by
  have hR := h.rel hc
  have h1 := nodeAt_eq (i := if i < 0 then sz t + i else i) hR.exact (here_root t)
  rw [hR.exact.sz, hR.list, Int.sub_zero] at h1
  simp only [step, doIndex, hR.exact.sz, hR.list, h1]
  cases at? xs (if i < 0 then (xs.length : Int) + i else i) <;> rfl

/-- C53, `RemoveIndex` with a rank of the tree removes and returns that entry. Missing from the full
statement: negative indices, see `C53_negative_panics`, and an unchanged tree after a panic, see
`C53_panic_changes_size`. -/
theorem C53_removeIndex_partial (hc : LawfulEx cmp) {t : T K V} {xs : List (K × V)}
    (h : Reached cmp t xs) {i : Nat} (hi : i < xs.length) :
    ∃ t', step cmp t (.removeIndex i) = some (t', .val (some xs[i].2)) ∧ t'.toList = xs.eraseIdx i ∧
      Reached cmp t' (xs.eraseIdx i) := by
  have hR := h.rel hc
  obtain ⟨t', h1, h2⟩ := doRemoveIndex_ok hR (i := i) (by omega) (by omega)
  have hr : rank xs (i : Int) = some i := by
    simp only [rank]
    rw [show (if (i : Int) < 0 then (xs.length : Int) + i else i) = i from if_neg (by omega),
      if_pos ⟨by omega, by omega⟩]
    simp
  have h3 := h2.list
  simp only [spec, hr, List.getElem?_eq_getElem hi, Option.map_some] at h1 h3
  refine ⟨t', h1, h3, ?_⟩
  obtain ⟨os, rs, g1, g2, g3⟩ := h
  have app : ∀ (os : List (Op K V)) (ys : List (K × V)), LegalRun (spec (Avl.ord cmp)) legal ys os →
      legal (runSpec (spec (Avl.ord cmp)) ys os).1 (.removeIndex i : Op K V) →
      LegalRun (spec (Avl.ord cmp)) legal ys (os ++ [.removeIndex i]) ∧
      (runSpec (spec (Avl.ord cmp)) ys (os ++ [.removeIndex i])).1 =
        (spec (Avl.ord cmp) (runSpec (spec (Avl.ord cmp)) ys os).1 (.removeIndex i)).1 := by
    intro os
    induction os with
    | nil => intro ys _ h; exact ⟨⟨h, trivial⟩, rfl⟩
    | cons op os ih =>
      intro ys hl h
      obtain ⟨i1, i2⟩ := ih _ hl.2 h
      exact ⟨⟨hl.1, i1⟩, i2⟩
  obtain ⟨a1, a2⟩ := app os [] g1 (by rw [← g3]; exact ⟨by omega, by omega⟩)
  refine ⟨os ++ [.removeIndex i], rs ++ [.val (some xs[i].2)], a1, ?_, ?_⟩
  · rw [run_append, g2]
    simp only [run]
    rw [show step cmp t (.removeIndex i) = _ from h1]
  · rw [a2, ← g3]
    simp only [spec, hr]

/-- C53 fails: `RemoveIndex` panics for every negative index, also `-1` on a tree with entries. -/
theorem C53_negative_panics (hc : LawfulEx cmp) {t : T K V} {xs : List (K × V)} (h : Reached cmp t xs)
    {i : Int} (hi : i < 0 ∨ xs.length ≤ i) :
    ∃ t', step cmp t (.removeIndex i) = some (t', .panic) ∧ t'.toList = xs ∧
      (sz t' = xs.length ∨ sz t' = xs.length - 1) := by
  have hR := h.rel hc
  have hx := hR.list
  subst hx
  simp only [step, doRemoveIndex]
  cases hn : t.isNil with
  | true => rw [if_pos rfl]; exact ⟨t, rfl, rfl, .inl hR.exact.sz⟩
  | false =>
    rw [if_neg (by simp)]
    have hl : 0 ≤ leftSz t := by
      cases t with
      | nil => simp [leftSz]
      | node a k v l r => exact (exact_node.1 hR.exact).2.1.sz_nonneg
    obtain ⟨t', h1, h2, h3⟩ := removeIndex_out (right := true) hR.exact (isNil_false hn) (here_root t)
      (i := i) (by omega)
    simp only [if_neg (show ¬ leftSz t < 0 by omega), h1]
    rw [hR.exact.sz] at h3
    exact ⟨t', rfl, h2, h3⟩

/-- C53 fails: a call out of range counts down sizes before it panics. A caller who recovers has a
tree of three entries whose `Size` is 2 and then 1, and where `Index(0)` is the second entry. -/
theorem C53_panic_changes_size : ∃ (t : T Int Nat), run (step Compare.anyEx) nil
    [.put 1 1, .put 2 2, .put 3 3, .removeIndex 3, .size, .removeIndex (-1), .size, .values] =
      some (t, [.bool true, .bool true, .bool true, .panic, .int 2, .panic, .int 1, .list [1, 2, 3]]) :=
  ⟨_, rfl⟩

/-- C51 fails after such a panic: three more of them, and the tree says it is empty while it still
has its entries. -/
theorem C51_panic_loses_entries : ∃ (t : T Int Nat), run (step Compare.anyEx) nil
    [.put 1 1, .put 2 2, .put 3 3, .removeIndex 3, .removeIndex 3, .removeIndex 3, .size, .popHead,
      .values] =
      some (t, [.bool true, .bool true, .bool true, .panic, .panic, .panic, .int 0, .val none,
        .list [1, 2, 3]]) :=
  ⟨_, rfl⟩

example : ∃ (t t' : T Int String), step Compare.anyEx t (.index (-3)) = some (t, .val (some "x")) ∧
    step Compare.anyEx t (.removeIndex (1 : Nat)) = some (t', .val (some "y")) := by
  obtain ⟨t, h⟩ := demo_reached
  obtain ⟨t', h1, -⟩ := C53_removeIndex_partial anyEx_lawful h (i := 1) (by decide)
  exact ⟨t, t', C53_index anyEx_lawful h (-3), h1⟩

/-! ### C54 -/

/-- The stack of a new iterator has room for the tree. -/
def Roomy (t : T K V) : Prop := ∃ h, maybeHeight t.toList.length = some h ∧ t.height ≤ h + h / 2

theorem iterator_ok {t : T K V} {xs : List (K × V)} (hR : Rel cmp t xs) (hroom : Roomy t) :
    ∃ it, iterator t = some it ∧ Place t it none := by
  obtain ⟨h, h1, h2⟩ := hroom
  exact ⟨⟨h + h / 2, nil, []⟩, by rw [iterator, hR.exact.sz, h1]; rfl, .unset h2 rfl rfl⟩

/-- C54, scans of a tree that fits the stack: forward and backward every entry in order, without a
panic. Missing from the full statement: trees that do not fit, see `C54_iterator_panics`. -/
theorem C54_scan_partial (hc : LawfulEx cmp) {t : T K V} {xs : List (K × V)} (h : Reached cmp t xs)
    (hroom : Roomy t) : ∃ it it' it'', iterator t = some it ∧
      run (Avl.istep cmp false t) it (Avl.scan false xs.length) = some (it', Avl.sees xs) ∧
      run (Avl.istep cmp false t) it (Avl.scan true xs.length) = some (it'', Avl.sees xs.reverse) := by
  have hR := h.rel hc
  obtain ⟨it, h1, h2⟩ := iterator_ok hR hroom
  have hx := hR.list
  subst hx
  obtain ⟨f1, f2⟩ := Avl.scan_forward_spec (o := Avl.ord cmp) (b := false) t.toList
  obtain ⟨b1, b2⟩ := Avl.scan_backward_spec (o := Avl.ord cmp) (b := false) t.toList
  obtain ⟨it', g1⟩ := irun_plain (cmp := cmp) (Avl.ord cmp) _ (scan_plain _ _) h2 f1
  obtain ⟨it'', g2⟩ := irun_plain (cmp := cmp) (Avl.ord cmp) _ (scan_plain _ _) h2 b1
  exact ⟨it, it', it'', h1, by rw [g1, f2], by rw [g2, b2]⟩

/-- C54, histories on an iterator of a tree that fits the stack: no call panics, a seek answers whether
the key is there, and goes to the nearest entry if it is not; if it is there, to an entry with the key,
and `SeekGT`, `SeekLT` to the neighbour of such an entry (`Lands`). Missing from the full statement:
trees that do not fit, and the whole run of equal keys for `SeekGT` and `SeekLT`, see
`C54_seekGT_stays`. -/
theorem C54_iterator_partial (hc : LawfulEx cmp) {t : T K V} {xs : List (K × V)} (h : Reached cmp t xs)
    (hroom : Roomy t) (ops : List (Avl.IOp K)) (hops : .entry ∉ ops) :
    ∃ it it' rs p, iterator t = some it ∧ run (Avl.istep cmp false t) it ops = some (it', rs) ∧
      Trace (cursor (Avl.ord cmp) xs) none ops rs p ∧ it'.current = Avl.entryAt xs p := by
  have hR := h.rel hc
  obtain ⟨it, h1, h2⟩ := iterator_ok hR hroom
  have hx := hR.list
  subst hx
  obtain ⟨it', rs, p, h3, h4, h5⟩ := irun_dup hc hR.sorted ops hops h2
  exact ⟨it, it', rs, p, h1, h3, h4, h5⟩

/-- C54, a tree without equal keys that fits the stack: every history, and every seek goes to the
entry it documents. -/
theorem C54_distinct_partial (hc : LawfulEx cmp) {t : T K V} {xs : List (K × V)} (h : Reached cmp t xs)
    (hroom : Roomy t) (hd : xs.Pairwise fun a b => exOrd (cmp a.1 b.1) ≠ .eq) (ops : List (Avl.IOp K))
    (hl : LegalRun (Avl.ispec (Avl.ord cmp) false xs) (Avl.ilegal xs) none ops) :
    ∃ it it', iterator t = some it ∧ run (Avl.istep cmp false t) it ops =
      some (it', (runSpec (Avl.ispec (Avl.ord cmp) false xs) none ops).2) ∧
      ∀ key, Seeks cmp false t xs it' key := by
  have hR := h.rel hc
  obtain ⟨it, h1, h2⟩ := iterator_ok hR hroom
  have hx := hR.list
  subst hx
  have hs : Sorted (Avl.ord cmp) t.toList :=
    List.Pairwise.imp₂ (fun a b h1 h2 => by
      cases h : exOrd (cmp a.1 b.1)
      · exact h
      · exact absurd h h2
      · exact absurd h h1) hR.sorted hd
  obtain ⟨it', h5, -, h6⟩ := Avl.iter_run hc false hs h2 ops hl
  exact ⟨it, it', h1, h5, h6⟩

/-- Trees of at most four entries always fit the stack. -/
theorem C54_small_fits {t : T K V} (h : t.toList.length ≤ 4) : Roomy t := by
  have h1 := height_le_length t
  refine ⟨if (t.toList.length : Int) = 0 then 0 else (t.toList.length : Int).toNat.log2 + 1, ?_, ?_⟩
  · rw [maybeHeight, if_neg (by omega)]
  · have : ∀ n : Nat, n ≤ 4 → n ≤ (if (n : Int) = 0 then 0 else (n : Int).toNat.log2 + 1) +
        (if (n : Int) = 0 then 0 else (n : Int).toNat.log2 + 1) / 2 := by decide
    exact Nat.le_trans h1 (this _ h)

/-- C54 fails: after seven insertions of different keys a scan panics at the end, because the stack is
too small. -/
theorem C54_iterator_panics : ∃ (t : T Int Nat) (rs : List (Res Int Nat)) (it it' : Avl.Iter Int Int Nat),
    run (step Compare.anyEx) nil [.put 0 0, .put 1 1, .put 4 4, .put 2 2, .put 3 3, .put 5 5, .put 6 6] =
      some (t, rs) ∧ iterator t = some it ∧
    run (Avl.istep Compare.anyEx false t) it
      [.seekToFirst, .next, .next, .next, .next, .next, .next, .entry] = some (it',
        [.unit, .unit, .unit, .unit, .unit, .unit, .unit, .entry (6, 6)]) ∧
    Avl.istep Compare.anyEx false t it' .next = none :=
  ⟨_, _, _, _, rfl, rfl, rfl, rfl⟩

/-- C54 fails: `SeekGT(1)` and `SeekLT(1)` stay on the key 1. -/
theorem C54_seekGT_stays : ∃ (t : T Int Nat) (rs : List (Res Int Nat)) (it it' : Avl.Iter Int Int Nat),
    run (step Compare.anyEx) nil [.put 1 1, .put 1 2, .put 1 3] = some (t, rs) ∧
    iterator t = some it ∧
    run (Avl.istep Compare.anyEx false t) it [.seekGT 1, .entry, .seekLT 1, .entry] =
      some (it', [.bool true, .entry (1, 3), .bool true, .entry (1, 1)]) :=
  ⟨_, _, _, _, rfl, rfl, rfl⟩

example : ∃ (t : T Int String) (it it' : Avl.Iter Int Int String) (rs : List (Avl.IRes Int String)) (p : Option Int),
    iterator t = some it ∧
    run (Avl.istep Compare.anyEx false t) it [.seekGE 1, .next, .seekLT 7, .prev] = some (it', rs) ∧
    Trace (cursor (Avl.ord Compare.anyEx) [((1 : Int), "x"), (1, "y"), (2, "c")]) none
      [.seekGE 1, .next, .seekLT 7, .prev] rs p := by
  obtain ⟨t, h⟩ := demo_reached
  have hl : t.toList.length ≤ 4 := by rw [(h.rel anyEx_lawful).list]; decide
  obtain ⟨it, it', rs, p, h1, h2, h3, -⟩ := C54_iterator_partial anyEx_lawful h (C54_small_fits hl)
    [.seekGE 1, .next, .seekLT 7, .prev] (by simp)
  exact ⟨t, it, it', rs, p, h1, h2, h3⟩

example : ∃ (t : T Int String) (it it' : Avl.Iter Int Int String), iterator t = some it ∧
    run (Avl.istep Compare.anyEx false t) it (Avl.scan false 3) =
      some (it', Avl.sees [((1 : Int), "x"), (1, "y"), (2, "c")]) := by
  obtain ⟨t, h⟩ := demo_reached
  have hl : t.toList.length ≤ 4 := by rw [(h.rel anyEx_lawful).list]; decide
  obtain ⟨it, it', -, h1, h2, -⟩ := C54_scan_partial anyEx_lawful h (C54_small_fits hl)
  exact ⟨t, it, it', h1, h2⟩

end Verif.Priority
