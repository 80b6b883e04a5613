import Verif.Tree.ExperLemmas
import Verif.Tree.AvlProps
import Verif.Tree.IndexProps

/-! Properties C76 to C80: tree/indextree/experiment. -/

namespace Verif.Exper

open Tree

variable {K V : Type} {cmp : K → K → Int}

/-! ### The set of entries -/

/-- What a sequence of `Put` should leave: of the entries with equal keys the first, in the order in which
they came. -/
def firsts (cmp : K → K → Int) (es : List (K × V)) : List (K × V) :=
  es.foldl (fun xs e => if xs.any fun x => cmp x.1 e.1 = 0 then xs else xs ++ [e]) []

/-- The entries given to `Put` in a history. -/
def puts : List (Op K V) → List (K × V)
  | [] => []
  | .put k v :: os => (k, v) :: puts os
  | _ :: os => puts os

/-- `s` is reached from the new tree by some history of calls, and `xs` is what should be in it. -/
def Reached (shift : Nat) (cmp : K → K → Int) (s : Shift K V) (xs : List (K × V)) : Prop :=
  ∃ os rs, run (step shift cmp) Shift.new os = some (s, rs) ∧ xs = firsts cmp (puts os)

theorem puts_append (os os' : List (Op K V)) : puts (os ++ os') = puts os ++ puts os' := by
  induction os with
  | nil => rfl
  | cons o os ih => cases o <;> simp [puts, ih]

theorem Reached.step {shift : Nat} {s s' : Shift K V} {xs : List (K × V)} {op : Op K V} {r : Res V}
    (h : Reached shift cmp s xs) (e : step shift cmp s op = some (s', r)) :
    Reached shift cmp s' ((puts [op]).foldl
      (fun xs e => if xs.any fun x => cmp x.1 e.1 = 0 then xs else xs ++ [e]) xs) := by
  obtain ⟨os, rs, h1, rfl⟩ := h
  refine ⟨os ++ [op], rs ++ [r], ?_, ?_⟩
  · rw [run_append, h1]
    simp [run, e]
  · rw [puts_append, firsts, firsts, List.foldl_append]

/-- What is true of every reachable tree. -/
structure Rel (cmp : K → K → Int) (s : Shift K V) (xs : List (K × V)) : Prop where
  exact : Size.Exact (sizes s.root)
  sorted : Sorted (Size.ord cmp) s.root.toList
  perm : s.root.toList.Perm xs
  size : s.size = xs.length
  hok : HOK s.root

theorem Rel.new : Rel cmp (Shift.new : Shift K V) [] :=
  ⟨by simp [Size.Exact, sizes, Shift.new], by simp [Shift.new, Sorted], List.Perm.refl _, rfl, trivial⟩

theorem any_same {l : List (K × V)} {k : K} :
    (l.any fun x => decide (cmp x.1 k = 0)) = !(same (Size.ord cmp) k l).isEmpty := by
  rw [Bool.eq_iff_iff]
  simp only [List.any_eq_true, decide_eq_true_eq, Bool.not_eq_true', List.isEmpty_eq_false_iff, ne_eq, same,
    List.filter_eq_nil_iff, Classical.not_forall, beq_iff_eq, Size.ord_eq, Classical.not_not]
  constructor
  · rintro ⟨x, h1, h2⟩; exact ⟨x, h1, h2⟩
  · rintro ⟨x, h1, h2⟩; exact ⟨x, h1, h2⟩

theorem Rel.put (hc : Lawful cmp) {shift : Nat} {s : Shift K V} {xs : List (K × V)} (h : Rel cmp s xs)
    (k : K) (v : V) :
    ∃ p, Exper.put cmp shift k v s.root = some p ∧
      Size.put (IndexTree.limit shift) cmp k v id (sizes s.root) = some (sizes p.1, p.2) ∧
      p.2.isSome = !(xs.any fun x => cmp x.1 k = 0) ∧
      Rel cmp ⟨p.1, if p.2.isSome then s.size + 1 else s.size⟩
        (if xs.any fun x => cmp x.1 k = 0 then xs else xs ++ [(k, v)]) := by
  have : Std.TransCmp (Size.ord cmp) := hc
  obtain ⟨q, h1, h2, -, -⟩ := Size.put_ok (cmp := cmp) (key := k) (val := v) (upd := id)
    (IndexTree.limOK shift) h.exact (fun _ _ _ => rfl)
  have e := sizes_put hc shift k v s.root h.exact
  rw [h1, Option.map_eq_some_iff] at e
  obtain ⟨p, hp, e⟩ := e
  have hs := h.sorted
  rw [← toList_sizes] at hs
  obtain ⟨h3, h4⟩ := Size.put_list hc hs h1
  rw [toList_sizes] at h3 h4 hs
  cases e
  simp only [toList_sizes] at h3 h4
  have ha : (xs.any fun x => cmp x.1 k = 0) = !p.2.isSome := by
    rw [h4, ← any_same]
    rw [Bool.eq_iff_iff]
    simp only [List.any_eq_true, h.perm.mem_iff]
  have hpa := parts k (Sorted.le hs)
  refine ⟨p, hp, h1, by rw [ha, Bool.not_not], ?_⟩
  rw [ha]
  cases hq : p.2 with
  | none =>
    rw [hq] at h4
    have := sizes_found hp hq
    simp only [Option.isSome_none, Bool.not_false, if_true, Bool.false_eq_true, if_false, this]
    exact ⟨h.exact, h.sorted, h.perm, h.size, h.hok⟩
  | some up =>
    rw [hq, Option.isSome_some] at h4
    rw [if_pos h4.symm] at h3
    have hsame : same (Size.ord cmp) k s.root.toList = [] := List.isEmpty_iff.1 h4.symm
    simp only [Option.isSome_some, Bool.not_true, Bool.false_eq_true, if_false, if_true]
    refine ⟨h2, ?_, ?_, ?_, h.hok.put hp⟩
    · rw [h3]
      rw [List.append_assoc]
      exact hs.put (e := (k, v)) (Ord.refl (o := Size.ord cmp) k)
    · rw [h3]
      have h5 : (below (Size.ord cmp) k s.root.toList ++ above (Size.ord cmp) k s.root.toList).Perm xs := by
        have h6 := h.perm
        rw [hpa, hsame, List.append_nil] at h6
        exact h6
      refine List.Perm.trans ?_ (h5.append_right [(k, v)])
      rw [List.append_assoc, List.append_assoc]
      exact List.Perm.append_left _ List.perm_append_comm
    · simp [h.size]

/-- A call that does not panic keeps the relation, and `Put` answers as it should. -/
theorem Rel.step (hc : Lawful cmp) {shift : Nat} {s s' : Shift K V} {xs : List (K × V)} {op : Op K V}
    {r : Res V} (h : Rel cmp s xs) (e : Exper.step shift cmp s op = some (s', r)) :
    Rel cmp s' ((puts [op]).foldl
      (fun xs e => if xs.any fun x => cmp x.1 e.1 = 0 then xs else xs ++ [e]) xs) := by
  cases op with
  | put k v =>
    obtain ⟨p, h1, -, -, h4⟩ := h.put hc (shift := shift) k v
    simp only [Exper.step, h1, Option.map_some] at e
    cases e
    exact h4
  | get k =>
    obtain ⟨x, -, h2⟩ := Option.map_eq_some_iff.1 e
    cases h2; exact h
  | size => cases e; exact h
  | height =>
    simp only [Exper.step] at e
    split at e
    · cases e; exact h
    · split at e
      · cases e
      · cases e; exact h
  | stats =>
    obtain ⟨x, -, h2⟩ := Option.map_eq_some_iff.1 e
    cases h2; exact h

theorem run_rel (hc : Lawful cmp) (shift : Nat) : ∀ (os : List (Op K V)) (s s' : Shift K V)
    (xs : List (K × V)) (rs : List (Res V)), Rel cmp s xs → run (Exper.step shift cmp) s os = some (s', rs) →
    Rel cmp s' ((puts os).foldl
      (fun xs e => if xs.any fun x => cmp x.1 e.1 = 0 then xs else xs ++ [e]) xs)
  | [], s, s', xs, rs, h, e => by cases e; exact h
  | op :: os, s, s', xs, rs, h, e => by
    simp only [run] at e
    cases h1 : Exper.step shift cmp s op with
    | none => simp [h1] at e
    | some p =>
      cases h2 : run (Exper.step shift cmp) p.1 os with
      | none => simp [h1, h2] at e
      | some q =>
        simp only [h1, h2, Option.some.injEq] at e
        cases e
        have h3 := run_rel hc shift os p.1 q.1 _ q.2 (h.step hc h1) h2
        rw [← List.foldl_append, ← puts_append] at h3
        exact h3

theorem Reached.rel (hc : Lawful cmp) {shift : Nat} {s : Shift K V} {xs : List (K × V)}
    (h : Reached shift cmp s xs) : Rel cmp s xs := by
  obtain ⟨os, rs, h1, rfl⟩ := h
  exact run_rel hc shift os _ _ _ _ Rel.new h1

/-! ### C76 -/

/-- C76, `Put`: after every history it does not panic, answers whether the key was absent, and leaves the
entry in the tree in that case only. -/
theorem C76_put (hc : Lawful cmp) {shift : Nat} {s : Shift K V} {xs : List (K × V)}
    (h : Reached shift cmp s xs) (k : K) (v : V) :
    ∃ s', step shift cmp s (.put k v) = some (s', .bool (!(xs.any fun x => cmp x.1 k = 0))) ∧
      Reached shift cmp s' (if xs.any fun x => cmp x.1 k = 0 then xs else xs ++ [(k, v)]) := by
  obtain ⟨p, h1, -, h3, -⟩ := (h.rel hc).put hc (shift := shift) k v
  have e : step shift cmp s (.put k v) =
      some (⟨p.1, if p.2.isSome then s.size + 1 else s.size⟩, .bool (!(xs.any fun x => cmp x.1 k = 0))) := by
    simp only [step, h1, Option.map_some, h3]
  exact ⟨_, e, h.step e⟩

/-- C76, contents: the nodes hold the first entry put for each key, in the order of the keys; `Size` is
their number. -/
theorem C76_contents (hc : Lawful cmp) {shift : Nat} {s : Shift K V} {xs : List (K × V)}
    (h : Reached shift cmp s xs) :
    s.root.toList.Perm xs ∧ s.root.toList.Pairwise (fun a b => cmp a.1 b.1 < 0) ∧
      step shift cmp s .size = some (s, .nat xs.length) := by
  have hR := h.rel hc
  refine ⟨hR.perm, hR.sorted.imp fun h => Size.ord_lt.1 h, ?_⟩
  rw [step, hR.size]

/-- A history for the examples: seven ascending keys, one of them twice. -/
def demo : List (Op Int (Option String)) :=
  [.put 1 (some "a"), .put 2 (some "b"), .put 3 (some "c"), .put 2 (some "x"), .put 4 (some "d"),
    .put 5 (some "e"), .put 6 (some "f"), .put 7 (some "g")]

example : ∃ s : Shift Int (Option String), Reached 2 Compare.any s (firsts Compare.any (puts demo)) ∧
    (firsts Compare.any (puts demo)).length = 7 := ⟨_, ⟨demo, _, rfl, rfl⟩, by decide +kernel⟩

/-- C76, shape: with the same shift the tree has, node for node, the shape, keys, values and sizes of the
map of tree/indextree after the same calls of `Put`, and the answers are the same. -/
theorem C76_same_tree {W : Type} (hc : Lawful cmp) (shift : Nat) (es : List (K × Option W)) :
    ∃ (s : Shift K (Option W)) (bs : List Bool),
      run (step shift cmp) Shift.new (es.map fun e => .put e.1 e.2) = some (s, bs.map .bool) ∧
      run (IndexTree.step shift cmp) nil (es.map fun e => .put e.1 e.2) =
        some (sizes s.root, bs.map .bool) := by
  suffices H : ∀ (es : List (K × Option W)) (s : Shift K (Option W)) (xs : List (K × Option W)),
      Rel cmp s xs → ∃ (s' : Shift K (Option W)) (bs : List Bool),
      run (step shift cmp) s (es.map fun e => .put e.1 e.2) = some (s', bs.map .bool) ∧
      run (IndexTree.step shift cmp) (sizes s.root) (es.map fun e => .put e.1 e.2) =
        some (sizes s'.root, bs.map .bool) from H es Shift.new [] Rel.new
  intro es
  induction es with
  | nil => exact fun s xs h => ⟨s, [], rfl, rfl⟩
  | cons e es ih =>
    intro s xs h
    obtain ⟨p, h1, h2, -, h4⟩ := h.put hc (shift := shift) e.1 e.2
    obtain ⟨s', bs, h5, h6⟩ := ih _ _ h4
    refine ⟨s', p.2.isSome :: bs, ?_, ?_⟩
    · simp only [List.map_cons, run, step, h1, Option.map_some, h5]
    · have h2' : Size.put (IndexTree.limit shift) cmp e.1 e.2 IndexTree.kept (sizes s.root) =
          some (sizes p.1, p.2) := h2
      simp only [List.map_cons, run, IndexTree.step, h2', Option.map_some, h6]

/-- The shape is not that of a list. -/
example : ∃ s rs, run (step 2 Compare.any) (Shift.new : Shift Int (Option String)) demo = some (s, rs) ∧
    s.root.height = 3 := ⟨_, _, rfl, by decide +kernel⟩

/-! ### C77 -/

/-- C77. Missing from the full statement: trees with a path of more than 127 nodes, see
`C77_overflow`. -/
theorem C77_height_partial (hc : Lawful cmp) {shift : Nat} {s : Shift K V} {xs : List (K × V)}
    (h : Reached shift cmp s xs) (hh : s.root.height ≤ 127) :
    step shift cmp s .height = some (s, .int s.root.height) := by
  have hR := h.rel hc
  have h1 := hR.size
  have h2 := hR.perm.length_eq
  rw [step]
  cases ht : s.root with
  | nil =>
    rw [ht] at h2
    rw [if_pos (by rw [h1, ← h2]; rfl)]
    rfl
  | node a k v l r =>
    rw [ht, toList_node] at h2
    have hk := hR.hok
    rw [ht] at hk hh
    rw [if_neg (by simp at h2; omega)]
    simp only [hk.1 hh]
    rfl

/-- At most 127 entries are always fine. -/
theorem C77_height_small (hc : Lawful cmp) {shift : Nat} {s : Shift K V} {xs : List (K × V)}
    (h : Reached shift cmp s xs) (hn : xs.length ≤ 127) :
    step shift cmp s .height = some (s, .int s.root.height) := by
  refine C77_height_partial hc h (Nat.le_trans ?_ hn)
  rw [← (h.rel hc).perm.length_eq, ← count_eq]
  induction s.root with
  | nil => exact Nat.le_refl _
  | node a k v l r ihl ihr => simp only [height, count]; omega

example : ∃ s : Shift Int (Option String), Reached 2 Compare.any s (firsts Compare.any (puts demo)) ∧
    s.root.height = 3 ∧ s.root.height ≤ 127 ∧ (firsts Compare.any (puts demo)).length ≤ 127 :=
  ⟨_, ⟨demo, _, rfl, rfl⟩, by decide +kernel, by decide +kernel, by decide +kernel⟩

/-- The negation of C77: with shift 0 nothing is ever rotated, and after the keys 1 to 128 `Height` is
-128. -/
theorem C77_overflow :
    ((run (step 0 Compare.any) (Shift.new : Shift Int Unit)
      ((List.range 128).map fun (i : Nat) => .put (i : Int) ())).bind fun p =>
        (step 0 Compare.any p.1 .height).map fun q => (p.1.root.height, match q.2 with
          | .int n => n
          | _ => 0)) = some (128, -128) := by decide +kernel

/-! ### C78 -/

/-- What `Get` finds has a smaller key, whatever the tree. -/
theorem get_lt {key : K} : ∀ {t : N K V} {e : K × V}, get cmp key t = some (some e) →
    e ∈ t.toList ∧ cmp e.1 key < 0
  | nil, e, h => by cases h
  | node a k v l r, e, h => by
    simp only [get] at h
    rw [toList_node]
    split at h
    · rename_i h1
      cases h
      exact ⟨by simp, h1⟩
    · split at h
      · obtain ⟨h1, h2⟩ := get_lt h
        exact ⟨by simp [h1], h2⟩
      · split at h
        · obtain ⟨h1, h2⟩ := get_lt h
          exact ⟨by simp [h1], h2⟩
        · cases h

/-- The negation of C78, in general: whatever was put, the value that `Get(key)` finds is never that of an
entry with the key `key`; it belongs to an entry with a smaller key. -/
theorem C78_get_finds_smaller {shift : Nat} {s s' : Shift K V} {key : K} {v : V}
    (h : step shift cmp s (.get key) = some (s', .val (some v))) :
    ∃ k, (k, v) ∈ s.root.toList ∧ cmp k key < 0 := by
  obtain ⟨e, h1, h2⟩ := Option.map_eq_some_iff.1 h
  cases e with
  | none => cases h2
  | some e =>
    cases h2
    obtain ⟨h3, h4⟩ := get_lt h1
    exact ⟨e.1, h3, h4⟩

/-- The smallest key is never found, although it was put. -/
theorem C78_smallest_not_found (hc : Lawful cmp) {shift : Nat} {s : Shift K V} {xs : List (K × V)}
    (h : Reached shift cmp s xs) {k : K} {v : V} (_hm : (k, v) ∈ xs) (hk : ∀ e ∈ xs, ¬cmp e.1 k < 0)
    (s' : Shift K V) (w : V) : step shift cmp s (.get k) ≠ some (s', .val (some w)) := by
  intro e
  obtain ⟨k', h1, h2⟩ := C78_get_finds_smaller e
  exact hk _ ((h.rel hc).perm.mem_iff.1 h1) h2

/-- After the first `Put` of all the key just put is not found. -/
theorem C78_put_get (hc : Lawful cmp) (shift : Nat) (k : K) (v : V) :
    (run (step shift cmp) Shift.new [.put k v, .get k]).map (·.2) = some [.bool true, .val none] := by
  have : Std.TransCmp (Size.ord cmp) := hc
  have h1 : cmp k k = 0 := Size.ord_eq.1 (Ord.refl k)
  simp [run, step, put, get, h1, Shift.new]

/-- `compare.Any[int]`: put 1 and 2, ask for 2, get the value of 1. -/
theorem C78_wrong_value :
    (run (step 2 Compare.any) (Shift.new : Shift Int String) [.put 1 "one", .put 2 "two", .get 2]).map (·.2) =
      some [.bool true, .bool true, .val (some "one")] := by rfl

/-- With a comparator of the other convention, under which `Get` does find a key, `Put` inserts it
again. -/
theorem C78_ex_twice (hc : LawfulEx cmp) (shift : Nat) (k : K) (v w : V) :
    (run (step shift cmp) Shift.new [.put k v, .get k, .put k w, .size]).map (·.2) =
      some [.bool true, .val (some v), .bool true, .nat 2] := by
  have := hc.trans
  have h1 : cmp k k < 0 := by
    have h2 : exOrd (cmp k k) = .eq := Ord.refl (o := fun a b => exOrd (cmp a b)) k
    unfold exOrd at h2
    split at h2
    · assumption
    · split at h2 <;> cases h2
  simp [run, step, put, get, h1, Shift.new, fixNode]

example : ∃ s : Shift Int (Option String), Reached 2 Compare.any s (firsts Compare.any (puts demo)) ∧
    (1, some "a") ∈ firsts Compare.any (puts demo) ∧
    ∀ e ∈ firsts Compare.any (puts demo), ¬Compare.any e.1 1 < 0 :=
  ⟨_, ⟨demo, _, rfl, rfl⟩, by decide +kernel, by decide +kernel⟩

/-! ### C79 -/

/-- C79: `BenchmarkStats` does not panic; its `Height` is the number of nodes on the longest path, the
average is that of the depths of all nodes, and `P50Depth` and `P95Depth` are the values at half and at 95%
of the depths in ascending order. -/
theorem C79_stats {A : Type} (t : Tree A K V) :
    ∃ st, stats t = some st ∧ st.height = t.height ∧ st.total = (depths t 1).sum ∧ st.count = t.count ∧
      (t.isNil = true → st.p50 = 0 ∧ st.p95 = 0) ∧
      (t.isNil = false → ∃ ds : List Nat, ds.Perm (depths t 1) ∧ ds.Pairwise (· ≤ ·) ∧
        ds[(t.count - 1) / 2]? = some st.p50 ∧ ds[(t.count - 1) * 95 / 100]? = some st.p95) := by
  cases hn : t.isNil with
  | true =>
    cases t with
    | nil => exact ⟨_, rfl, rfl, rfl, rfl, fun _ => ⟨rfl, rfl⟩, fun h => (by cases h)⟩
    | node => cases hn
  | false =>
    have hq : queued [(t, 1)] = depths t 1 := by simp [queued]
    have h1 : (visit t.count [(t, 1)]).Perm (depths t 1) := by
      have := visit_perm t.count [(t, 1)] (by simpa using hn) (by rw [hq, depths_length])
      rwa [hq] at this
    have h2 := sortNat_perm (visit t.count [(t, 1)])
    have h3 : (sortNat (visit t.count [(t, 1)])).length = t.count := by
      rw [(h2.trans h1).length_eq, depths_length]
    have h0 : 0 < t.count := by
      cases t with
      | nil => cases hn
      | node => simp [count]
    have b1 : (t.count - 1) / 2 < (sortNat (visit t.count [(t, 1)])).length := by omega
    have b2 : (t.count - 1) * 95 / 100 < (sortNat (visit t.count [(t, 1)])).length := by omega
    simp only [stats, hn, Bool.false_eq_true, if_false, h3, List.getElem?_eq_getElem b1,
      List.getElem?_eq_getElem b2, Option.bind_some, Option.map_some]
    refine ⟨_, rfl, ?_, ?_, ?_, fun h => (by cases h), fun _ => ⟨_, h2.trans h1, sortNat_sorted _,
      List.getElem?_eq_getElem b1, List.getElem?_eq_getElem b2⟩⟩
    · obtain ⟨-, m1, m2⟩ := foldl_max (visit t.count [(t, 1)]) 0
      obtain ⟨d1, d2⟩ := depths_max t 1
      obtain ⟨x, hx, hx'⟩ := d2 hn
      have := m1 x (h1.mem_iff.2 hx)
      rcases m2 with m2 | m2
      · rw [m2] at this
        simp only [m2]
        omega
      · have := d1 _ (h1.mem_iff.1 m2)
        simp only
        omega
    · rw [← h1.sum_nat, List.sum_eq_foldl]
    · simp only [h1.length_eq, depths_length]

example : ∃ s rs, run (step 2 Compare.any) (Shift.new : Shift Int (Option String)) demo = some (s, rs) ∧
    stats s.root = some ⟨3, 17, 7, 3, 3⟩ := ⟨_, _, rfl, by decide +kernel⟩

/-! ### C80 -/

namespace AvlLike

open Avl (Map T)

/-- The comparator read as `put` reads it, in the convention of tree/avl. -/
def flip (cmp : K → K → Int) (a b : K) : Int := if cmp a b < 0 then 0 else if cmp a b > 0 then 1 else -1

theorem put_eq (d : Int) (key : K) (val : V) (upd : K × V → K × V) : ∀ (t : T K V) (sib : Bool),
    put cmp d key val upd t sib = Avl.put (flip cmp) false d key val upd t sib
  | nil, _ => rfl
  | node h k v l r, _ => by
    simp only [put, Avl.put, put_eq d key val upd l, put_eq d key val upd r, flip]
    by_cases h1 : cmp k key < 0
    · simp [h1]
    · by_cases h2 : cmp k key > 0
      · simp [h1, h2]
      · simp [h1, h2]

theorem exOrd_flip (a b : K) : exOrd (flip cmp a b) = (Size.ord cmp a b).swap := by
  unfold flip exOrd Size.ord ordOf
  by_cases h1 : cmp a b < 0
  · simp [h1]
  · by_cases h2 : cmp a b > 0
    · simp [h1, h2]
    · simp [h1, h2]

/-- The order in which `put` sorts: the opposite of that of the comparator. -/
theorem flip_lawful (hc : Lawful cmp) : LawfulEx (flip cmp) := by
  refine ⟨fun a b => ?_, ?_⟩
  · unfold flip
    split
    · exact Or.inr (Or.inl rfl)
    · split
      · exact Or.inr (Or.inr rfl)
      · exact Or.inl rfl
  · have : Std.TransCmp (Size.ord cmp) := hc
    have e : (fun a b => exOrd (flip cmp a b)) = fun a b => Size.ord cmp b a := by
      funext a b
      rw [exOrd_flip]
      exact (Std.OrientedCmp.eq_swap (cmp := Size.ord cmp)).symm
    rw [e]
    exact inferInstanceAs (Std.TransCmp fun a b => Size.ord cmp b a)

/-- The calls that do not search with `get` or `remove`. -/
def noSearch : Avl.Op K V → Bool
  | .put .. | .insertIfAbsent .. | .set .. | .clear | .size | .len | .empty | .values | .traverse _ => true
  | _ => false

theorem step_eq (d : Int) (m : Map K V) {op : Avl.Op K V} (h : noSearch op = true) :
    step cmp d m op = Avl.step (flip cmp) false d m op := by
  cases op <;> first
    | (exfalso; simp [noSearch] at h; done)
    | simp only [step, Avl.step, putNew, set, Map.put, Map.set, put_eq]

theorem run_eq (d : Int) : ∀ (os : List (Avl.Op K V)) (m : Map K V), (∀ op ∈ os, noSearch op = true) →
    run (step cmp d) m os = run (Avl.step (flip cmp) false d) m os
  | [], _, _ => rfl
  | op :: os, m, h => by
    simp only [run]
    rw [step_eq d m (h op (List.mem_cons_self ..))]
    cases Avl.step (flip cmp) false d m op with
    | none => rfl
    | some p => simp only [run_eq d os p.1 fun o ho => h o (List.mem_cons_of_mem _ ho)]

/-- C80, the calls that do not search: `Put`, `InsertIfAbsent`, `Set`, `Clear`, `Size`, `Len`, `Values` and
`Traverse` answer, if no call panics, as the ideal map whose order is the opposite of that of the
comparator. Missing from the full statement: `Get`, `Upsert`, `Remove`, `Delete`, see the theorems
below. -/
theorem C80_insert_partial (hc : Lawful cmp) (d : Int) (os : List (Avl.Op K V))
    (hs : ∀ op ∈ os, noSearch op = true) {m : Map K V} {rs : List (Avl.Res K V)}
    (h : run (step cmp d) Map.new os = some (m, rs)) :
    rs = (runSpec (Avl.spec fun a b => ordOf (cmp b a)) [] os).2 := by
  rw [run_eq d os _ hs] at h
  have h1 := Avl.C25_answers_right (flip_lawful hc) d os (fun op ho => by
    have := hs op ho
    cases op <;> first | rfl | simp [noSearch] at this) h
  have : Std.TransCmp (Size.ord cmp) := hc
  have e : Avl.ord (flip cmp) = fun a b => ordOf (cmp b a) := by
    funext a b
    exact (exOrd_flip a b).trans (Std.OrientedCmp.eq_swap (cmp := Size.ord cmp)).symm
  rw [e] at h1
  exact h1

/-- They do not panic for `NewEx` with `1 ≤ d` and fewer than 127 calls. -/
theorem C80_no_panic_partial (hc : Lawful cmp) {d : Int} (h1 : 1 ≤ d) (h2 : d ≤ 127)
    (os : List (Avl.Op K V)) (hs : ∀ op ∈ os, noSearch op = true) (hl : os.length < 127) :
    ∃ m rs, run (step cmp d) (Map.new : Map K V) os = some (m, rs) := by
  rw [run_eq d os _ hs]
  obtain ⟨m, h⟩ := Avl.C25_map_partial (flip_lawful hc) h1 h2 os (fun op ho => by
    have := hs op ho
    cases op <;> first | rfl | simp [noSearch] at this) (Avl.fits_of_short hl)
  exact ⟨m, _, h⟩

/-- A history for the examples. -/
def demo : List (Avl.Op Int String) :=
  [.put 3 "c", .put 1 "a", .set 2 "b", .put 3 "x", .set 1 "A", .size, .values]

example : (∀ op ∈ demo, noSearch op = true) ∧ demo.length < 127 ∧
    (run (step Compare.any 1) (Map.new : Map Int String) demo).map (·.2) =
      some [.bool true, .bool true, .bool true, .bool false, .bool false, .nat 3, .list ["c", "b", "A"]] :=
  ⟨by simp [demo, noSearch], by decide, rfl⟩

theorem get_lt {key : K} : ∀ {t : T K V} {e : K × V}, Avl.get cmp key t = some (some e) →
    e ∈ t.toList ∧ cmp e.1 key < 0
  | nil, e, h => by cases h
  | node a k v l r, e, h => by
    simp only [Avl.get] at h
    rw [toList_node]
    split at h
    · rename_i h1
      cases h
      exact ⟨by simp, h1⟩
    · split at h
      · obtain ⟨h1, h2⟩ := get_lt h
        exact ⟨by simp [h1], h2⟩
      · split at h
        · obtain ⟨h1, h2⟩ := get_lt h
          exact ⟨by simp [h1], h2⟩
        · cases h

/-- The negation of C80 for `Get`, in general: the value found never belongs to an entry with the key asked
for, but to one with a smaller key. -/
theorem C80_get_finds_smaller {d : Int} {m m' : Map K V} {key : K} {v : V}
    (h : step cmp d m (.get key) = some (m', .val (some v))) :
    ∃ k, (k, v) ∈ m.root.toList ∧ cmp k key < 0 := by
  simp only [step, Avl.step, Map.get] at h
  obtain ⟨e, h1, h2⟩ := Option.map_eq_some_iff.1 h
  obtain ⟨x, h3, rfl⟩ := Option.map_eq_some_iff.1 h1
  cases x with
  | none => cases h2
  | some x =>
    cases h2
    obtain ⟨h4, h5⟩ := get_lt h3
    exact ⟨x.1, h4, h5⟩

/-- The key just put is not found, `Remove` does not remove it, and `Upsert` denies that it replaced a
value. -/
theorem C80_put_get (hc : Lawful cmp) (d : Int) (k : K) (v w : V) :
    (run (step cmp d) Map.new [.put k v, .get k, .remove k, .upsert k w, .size, .values]).map (·.2) =
      some [.bool true, .val none, .val none, .bool false, .nat 1, .list [w]] := by
  have : Std.TransCmp (Size.ord cmp) := hc
  have h1 : cmp k k = 0 := Size.ord_eq.1 (Ord.refl k)
  simp [run, step, Avl.step, putNew, put, Map.get, Avl.get, Map.remove, Avl.remove, Avl.rebIf, upsert, set,
    Map.new, h1, traverse]

/-- `compare.Any[int]`: `Remove(2)` takes out 1 and its value. -/
theorem C80_remove_other :
    (run (step Compare.any 1) (Map.new : Map Int String)
      [.put 2 "two", .put 1 "one", .get 2, .remove 2, .traverse fun _ _ => true]).map (·.2) =
      some [.bool true, .bool true, .val (some "one"), .val (some "one"), .entries [(2, "two")]] := by rfl

/-- With a comparator of the convention of tree/avl, `Put` of a new, smaller key answers that it is
there, and `Set` gives the entry of another key away (for every comparator that returns 0 for a greater
first key). -/
theorem C80_ex_refused (d : Int) (k k' : K) (v w : V) (h : cmp k k' = 0) :
    exOrd (cmp k k') = .gt ∧
    (run (step cmp d) Map.new [.put k v, .put k' w, .set k' w, .traverse fun _ _ => true]).map (·.2) =
      some [.bool true, .bool false, .bool false, .entries [(k', w)]] := by
  refine ⟨by rw [h]; rfl, ?_⟩
  simp [run, step, Avl.step, putNew, put, set, Map.new, h, traverse]

example : Compare.anyEx 5 3 = 0 := by decide

end AvlLike

end Verif.Exper
