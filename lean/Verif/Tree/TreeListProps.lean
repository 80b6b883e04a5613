import Verif.Tree.TreeListIter
import Verif.Tree.TreeListSet
import Verif.Tree.TreeListPanic
import Verif.Tree.IndexProps

/-! Properties C44 to C50: the threaded sorted map `tree/treelist`. -/

namespace Verif.TreeList

open Tree Size DLL
open IndexTree (any_lawful any_uniform diff diff_lawful inside_iff)

variable {K V : Type} {cmp : K → K → Int}

theorem Rel.new (junk : K × V) : Rel cmp (new junk) [] := ⟨[], Good.empty rfl rfl rfl, rfl⟩

theorem step_partial (hc : Lawful cmp) {s s' : TL K V} {xs : List (K × V)} {op : Op K V} {r : Res K V}
    (hl : legal cmp xs op) (hR : Rel cmp s xs) (h : step cmp s op = some (s', r)) :
    r = (spec (ord cmp) xs op).2 ∧ Rel cmp s' (spec (ord cmp) xs op).1 := by
  rcases step_ok hc hl hR with ⟨h1, -⟩ | ⟨s1, h1, h2⟩
  · rw [h1] at h; cases h
  · rw [h1] at h
    cases h
    exact ⟨rfl, h2⟩

theorem Rel.height {s : TL K V} {xs : List (K × V)} (hR : Rel cmp s xs) : s.tree.height ≤ xs.length := by
  obtain ⟨zs, hG, rfl⟩ := hR
  have := length_le_height s.tree
  rw [hG.list] at this
  simpa using this

/-! ### C44 -/

/-- C44: every history that does not panic answers as the ideal sorted map. Missing from the full
statement: no history panics; see `C44_small_partial` and `C44_put_panics`. -/
theorem C44_sorted_map_partial (hc : Lawful cmp) (junk : K × V) (os : List (Op K V))
    (hl : LegalRun (spec (ord cmp)) (legal cmp) [] os) (s : TL K V) (rs : List (Res K V))
    (h : run (step cmp) (new junk) os = some (s, rs)) : rs = (runSpec (spec (ord cmp)) [] os).2 :=
  (run_partial_legal (step := step cmp) (spec := spec (ord cmp)) (Rel cmp)
    (fun _ _ _ _ _ h1 h2 h3 => step_partial hc h1 h2 h3) os _ _ _ _ hl (Rel.new junk) h).1

/-- The legal calls with insertions only while there are at most 63 entries. -/
def legalSmall (cmp : K → K → Int) (xs : List (K × V)) (op : Op K V) : Prop :=
  legal cmp xs op ∧ (op.inserts = true → xs.length ≤ 63)

/-- C44: no history panics that inserts only while there are at most 63 entries, and it answers as the
ideal sorted map. -/
theorem C44_small_partial (hc : Lawful cmp) (junk : K × V) (os : List (Op K V))
    (hl : LegalRun (spec (ord cmp)) (legalSmall cmp) [] os) :
    ∃ s, run (step cmp) (new junk) os = some (s, (runSpec (spec (ord cmp)) [] os).2) := by
  obtain ⟨s, h, -⟩ := run_refines_legal (step := step cmp) (spec := spec (ord cmp))
    (legal := legalSmall cmp) (Rel cmp)
    (fun s xs op h1 h2 => by
      rcases step_ok hc h1.1 h2 with ⟨-, h3, h4⟩ | h3
      · have := h1.2 h3
        have := h2.height
        omega
      · exact h3) os _ _ hl (Rel.new junk)
  exact ⟨s, h⟩

/-- Some history of `Put` and `Remove` panics. -/
theorem C44_put_panics (junk : Int × Unit) : ∃ os : List (Op Int Unit),
    (∀ o ∈ os, (∃ k, o = .put k ()) ∨ ∃ k, o = .remove k) ∧
    run (step Compare.any) (new junk) os = none := by
  refine ⟨deep.map Move.op, ?_, run_deep junk⟩
  intro o ho
  rw [List.mem_map] at ho
  obtain ⟨m, -, rfl⟩ := ho
  cases m with
  | put k => exact .inl ⟨k, rfl⟩
  | del k => exact .inr ⟨k, rfl⟩

/-- A history for the examples. -/
def demo : List (Op Int String) :=
  [.put 3 "c", .put 1 "a", .set 2 "b", .put 3 "x", .putDup 1 "z" (· ++ "!"), .get 1, .remove 2, .remove 2,
    .set 5 "e", .indexOf 5, .index 1, .index 3, .size, .put 7 "g", .removeHead, .removeTail, .forward]

theorem demo_legal : LegalRun (spec (ord Compare.any)) (legalSmall Compare.any) [] demo :=
  ⟨⟨trivial, by decide⟩, ⟨trivial, by decide⟩, ⟨trivial, by decide⟩, ⟨trivial, by decide⟩,
    ⟨trivial, by decide⟩, ⟨trivial, by decide⟩, ⟨trivial, by decide⟩, ⟨trivial, by decide⟩,
    ⟨trivial, by decide⟩, ⟨trivial, by decide⟩, ⟨trivial, by decide⟩, ⟨trivial, by decide⟩,
    ⟨trivial, by decide⟩, ⟨trivial, by decide⟩, ⟨trivial, by decide⟩, ⟨trivial, by decide⟩,
    ⟨trivial, by decide⟩, trivial⟩

def demoResults : List (Res Int String) :=
  [.bool true, .bool true, .bool false, .bool false, .bool true, .found (some "a!"), .slice (some (2, "b")),
    .slice none, .bool false, .int 2, .slice (some (3, "c")), .panic, .int 3, .bool true,
    .slice (some (1, "a!")), .slice (some (7, "g")), .list [(3, "c"), (5, "e")]]

example : ∃ s, run (step Compare.any) (new (0, "")) demo = some (s, demoResults) := by
  obtain ⟨s, h⟩ := C44_small_partial any_lawful (0, "") demo demo_legal
  exact ⟨s, h.trans rfl⟩

example : ∃ s rs, run (step Compare.any) (new (0, "")) demo = some (s, rs) ∧ rs = demoResults := by
  obtain ⟨s, h⟩ := C44_small_partial any_lawful (0, "") demo demo_legal
  refine ⟨s, _, h, C44_sorted_map_partial any_lawful (0, "") demo ?_ s _ h⟩
  exact ⟨trivial, trivial, trivial, trivial, trivial, trivial, trivial, trivial, trivial, trivial, trivial,
    trivial, trivial, trivial, trivial, trivial, trivial, trivial⟩

/-! ### Reachable tree lists -/

/-- `s` is made by calls on new tree lists and should hold the entries `xs`. -/
inductive Reached (cmp : K → K → Int) : TL K V → List (K × V) → Prop
  | new (junk : K × V) : Reached cmp (TreeList.new junk) []
  | call {s s' : TL K V} {xs : List (K × V)} {op : Op K V} {r : Res K V} :
      Reached cmp s xs → legal cmp xs op → step cmp s op = some (s', r) →
      Reached cmp s' (spec (ord cmp) xs op).1
  | setOp {s t r : TL K V} {xs ys zs : List (K × V)} {op : SetOp} {junk : K × V} :
      Reached cmp s xs → Reached cmp t ys → TreeList.setOp cmp op s t junk = some r →
      Merged (ord cmp) op xs ys zs → Reached cmp r zs

/-- `Merged` leaves no choice. -/
theorem sorted_unique {o : K → K → Ordering} [Std.TransCmp o] : ∀ {xs ys : List (K × V)}, Sorted o xs →
    Sorted o ys → (∀ e, e ∈ xs ↔ e ∈ ys) → xs = ys := by
  intro xs
  induction xs with
  | nil =>
    intro ys _ _ h
    cases ys with
    | nil => rfl
    | cons y ys => exact absurd ((h y).2 (by simp)) (by simp)
  | cons x xs ih =>
    intro ys hx hy h
    cases ys with
    | nil => exact absurd ((h x).1 (by simp)) (by simp)
    | cons y ys =>
      obtain ⟨gx, sx⟩ := List.pairwise_cons.1 hx
      obtain ⟨gy, sy⟩ := List.pairwise_cons.1 hy
      have hxy : x = y := by
        rcases List.mem_cons.1 ((h x).1 (by simp)) with h1 | h1
        · exact h1
        · rcases List.mem_cons.1 ((h y).2 (by simp)) with h2 | h2
          · exact h2.symm
          · have := Ord.lt_trans (gx y h2) (gy x h1)
            rw [Ord.refl (o := o)] at this
            cases this
      subst hxy
      have hne : ∀ e, (e ∈ xs ∨ e ∈ ys) → e ≠ x := by
        rintro e he rfl
        have := he.elim (gx e) (gy e)
        rw [Ord.refl (o := o)] at this
        cases this
      rw [ih sx sy fun e => ⟨fun he => (List.mem_cons.1 ((h e).1 (by simp [he]))).resolve_left
        (hne e (.inl he)), fun he => (List.mem_cons.1 ((h e).2 (by simp [he]))).resolve_left
        (hne e (.inr he))⟩]

theorem Reached.rel (hc : Lawful cmp) {s : TL K V} {xs : List (K × V)} (h : Reached cmp s xs) :
    Rel cmp s xs := by
  have : Std.TransCmp (ord cmp) := hc
  induction h with
  | new junk => exact Rel.new junk
  | call _ hl hs ih => exact (step_partial hc hl ih hs).2
  | setOp _ _ hs hm ih1 ih2 =>
    obtain ⟨r, zs, h1, h2, h3⟩ := setOp_ok hc _ _ ih1 ih2
    rw [hs] at h1
    cases h1
    rw [sorted_unique hm.1 h3.1 fun e => (hm.2 e).trans (h3.2 e).symm]
    exact h2

/-- Every history leads to reached tree lists. -/
theorem Reached.run {s' : TL K V} (os : List (Op K V)) : ∀ {s : TL K V}
    {xs : List (K × V)} {rs : List (Res K V)}, Reached cmp s xs →
    LegalRun (spec (ord cmp)) (legal cmp) xs os → Verif.run (step cmp) s os = some (s', rs) →
    Reached cmp s' (runSpec (spec (ord cmp)) xs os).1 := by
  induction os with
  | nil => intro s xs rs h _ he; cases he; exact h
  | cons o os ih =>
    intro s xs rs h hl he
    simp only [Verif.run] at he
    cases h1 : step cmp s o with
    | none => simp [h1] at he
    | some p =>
      obtain ⟨s1, r1⟩ := p
      simp only [h1] at he
      cases h2 : Verif.run (step cmp) s1 os with
      | none => simp [h2] at he
      | some q =>
        obtain ⟨s2, r2⟩ := q
        simp only [h2] at he
        cases he
        exact ih (h.call hl.1 h1) hl.2 h2

/-- A call that does not insert succeeds. -/
theorem Reached.next (hc : Lawful cmp) {s : TL K V} {xs : List (K × V)} (h : Reached cmp s xs)
    (op : Op K V) (hl : legal cmp xs op) (hi : op.inserts = false) :
    ∃ s', step cmp s op = some (s', (spec (ord cmp) xs op).2) ∧
      Reached cmp s' (spec (ord cmp) xs op).1 := by
  rcases step_ok hc hl (h.rel hc) with ⟨-, h1, -⟩ | ⟨s', h1, -⟩
  · rw [hi] at h1; cases h1
  · exact ⟨s', h1, h.call hl h1⟩

/-- For the examples: the keys 3 and 5. -/
theorem demo_reached : ∃ s, Reached Compare.any s [((3 : Int), "c"), (5, "e")] := by
  obtain ⟨s, h⟩ := C44_small_partial any_lawful (0, "") demo demo_legal
  refine ⟨s, Reached.run demo (.new (0, "")) ?_ h⟩
  exact ⟨trivial, trivial, trivial, trivial, trivial, trivial, trivial, trivial, trivial, trivial, trivial,
    trivial, trivial, trivial, trivial, trivial, trivial, trivial⟩

/-- C44, order, size, ranks and lookup in a reached tree list. -/
theorem C44_sorted (hc : Lawful cmp) {s : TL K V} {xs : List (K × V)} (h : Reached cmp s xs) :
    xs.Pairwise (fun a b => cmp a.1 b.1 < 0) ∧
    step cmp s .size = some (s, .int xs.length) ∧
    step cmp s .slices = some (s, .list xs) ∧
    (∀ e ∈ xs, ∀ k, cmp e.1 k = 0 → step cmp s (.get k) = some (s, .found (some e.2))) ∧
    (∀ k, (∀ e ∈ xs, cmp e.1 k ≠ 0) → step cmp s (.get k) = some (s, .found none) ∧
      step cmp s (.indexOf k) = some (s, .int (-1))) ∧
    (∀ i : Int, i < 0 ∨ xs.length ≤ i → step cmp s (.index i) = some (s, .panic)) ∧
    (∀ (i : Nat) (e : K × V), xs[i]? = some e → step cmp s (.index i) = some (s, .slice (some e)) ∧
      ∀ k, cmp e.1 k = 0 → step cmp s (.indexOf k) = some (s, .int i)) := by
  have : Std.TransCmp (ord cmp) := hc
  have hR := h.rel hc
  have hs : Sorted (ord cmp) xs := by
    obtain ⟨zs, hG, rfl⟩ := hR
    exact sorted_strip_iff.2 hG.sorted
  -- a query leaves the state alone
  have query : ∀ (op : Op K V) (r : Res K V), legal cmp xs op → op.inserts = false →
      (spec (ord cmp) xs op).2 = r → (∀ p, step cmp s op = some p → p.1 = s) →
      step cmp s op = some (s, r) := by
    intro op r hl hi hr hp
    obtain ⟨s', h1, -⟩ := h.next hc op hl hi
    have := hp _ h1
    simp only at this
    rw [h1, this, hr]
  have get : ∀ k, step cmp s (.get k) = some (s, .found ((xs.find? fun e => ord cmp e.1 k == .eq).map
      (·.2))) := fun k => query _ _ trivial rfl rfl (by rintro p ⟨⟩; rfl)
  have idx : ∀ i, step cmp s (.index i) = some (s, match at? xs i with
      | none => .panic | some e => .slice (some e)) := fun i => query _ _ trivial rfl rfl (by
    intro p hp
    rw [step] at hp
    split at hp <;> cases hp <;> rfl)
  have iof : ∀ k, step cmp s (.indexOf k) = some (s, .int
      (match xs.findIdx? fun e => ord cmp e.1 k == .eq with | none => -1 | some n => n)) := fun k =>
    query _ _ trivial rfl rfl (by rintro p ⟨⟩; rfl)
  refine ⟨hs.imp fun h => ord_lt.1 h, query _ _ trivial rfl rfl (by rintro p ⟨⟩; rfl),
    query _ _ trivial rfl rfl (by rintro p ⟨⟩; rfl), ?_, ?_, ?_, ?_⟩
  · intro e he k hk
    rw [get]
    rw [← ord_eq] at hk
    obtain ⟨e', h1⟩ : ∃ e', same (ord cmp) k xs = [e'] := by
      rcases hs.same_le k with h1 | ⟨e', h1, -⟩
      · have := mem_same.2 ⟨he, hk⟩; rw [h1] at this; simp at this
      · exact ⟨e', h1⟩
    have h2 := mem_same.2 ⟨he, hk⟩
    rw [h1, List.mem_singleton] at h2
    rw [Avl.find_same, h1, h2]; rfl
  · intro k hk
    have hk' : ∀ e ∈ xs, ¬(ord cmp e.1 k == .eq) = true := by
      intro e he; simpa [ord_eq] using hk e he
    constructor
    · rw [get, List.find?_eq_none.2 hk']; rfl
    · rw [iof, List.findIdx?_eq_none_iff.2 (fun e he => by simpa using hk' e he)]
  · intro i hi
    rw [idx, at?_none.2 hi]
  · intro i e he
    have hi : i < xs.length := (List.getElem?_eq_some_iff.1 he).1
    have e1 := (List.getElem?_eq_some_iff.1 he).2
    constructor
    · have : at? xs (i : Int) = some e := by unfold at?; rw [if_neg (by omega)]; simpa using he
      rw [idx, this]
    · intro k hk
      rw [← ord_eq] at hk
      have : xs.findIdx? (fun e => ord cmp e.1 k == .eq) = some i := by
        rw [List.findIdx?_eq_some_iff_getElem]
        refine ⟨hi, by simp [e1, hk], ?_⟩
        intro j hj
        unfold Sorted at hs
        rw [List.pairwise_iff_getElem] at hs
        have h1 := hs j i (by omega) hi hj
        rw [e1] at h1
        simp [Ord.lt_of_lt_of_eq h1 hk]
      rw [iof, this]

example : ∃ s : TL Int String, step Compare.any s (.index 1) = some (s, .slice (some (5, "e"))) ∧
    step Compare.any s (.indexOf 5) = some (s, .int 1) ∧
    step Compare.any s (.get 3) = some (s, .found (some "c")) := by
  obtain ⟨s, h⟩ := demo_reached
  obtain ⟨-, -, -, h3, -, -, h6⟩ := C44_sorted any_lawful h
  exact ⟨s, (h6 1 (5, "e") rfl).1, (h6 1 (5, "e") rfl).2 5 rfl, h3 (3, "c") (by simp) 3 rfl⟩

/-! ### C45 -/

/-- C45: in every reached tree list the thread holds the entries of the tree in order: the links of the
nodes from `head` on, back from `tail` on, and `Head` and `Tail`. Reached are all tree lists made by
`legal` calls; missing from the full statement: `Trim` to a range without entries, see `C47_trim_empty`,
and a `TrimByIndex` that panics, see `C47_trimByIndex_corrupts`. -/
theorem C45_thread_partial (hc : Lawful cmp) {s : TL K V} {xs : List (K × V)} (h : Reached cmp s xs) :
    s.tree.toList.map strip = xs ∧
    walk s.heap false s.free s.head = some xs ∧
    walk s.heap true s.free s.tail = some xs.reverse ∧
    s.head.map (fun a => (s.heap a).val) = xs.head? ∧
    s.tail.map (fun a => (s.heap a).val) = xs.getLast? := by
  have hR := h.rel hc
  have step' : ∀ op, legal cmp xs op → op.inserts = false →
      ∃ s', step cmp s op = some (s', (spec (ord cmp) xs op).2) := by
    intro op hl hi
    obtain ⟨s', h1, -⟩ := h.next hc op hl hi
    exact ⟨s', h1⟩
  refine ⟨?_, ?_, ?_, ?_, ?_⟩
  · obtain ⟨zs, hG, rfl⟩ := hR
    rw [hG.list]
  · obtain ⟨s', h1⟩ := step' .forward trivial rfl
    rw [step, spec, Option.map_eq_some_iff] at h1
    obtain ⟨l, h1, h2⟩ := h1
    cases h2
    exact h1
  · obtain ⟨s', h1⟩ := step' .backward trivial rfl
    rw [step, spec, Option.map_eq_some_iff] at h1
    obtain ⟨l, h1, h2⟩ := h1
    cases h2
    exact h1
  · obtain ⟨s', h1⟩ := step' .head trivial rfl
    simp only [step, spec, Option.some.injEq, Prod.mk.injEq, Res.slice.injEq] at h1
    exact h1.2
  · obtain ⟨s', h1⟩ := step' .tail trivial rfl
    simp only [step, spec, Option.some.injEq, Prod.mk.injEq, Res.slice.injEq] at h1
    exact h1.2

example : ∃ s : TL Int String, walk s.heap true s.free s.tail = some [(5, "e"), (3, "c")] := by
  obtain ⟨s, h⟩ := demo_reached
  exact ⟨s, (C45_thread_partial any_lawful h).2.2.1⟩

/-! ### C46 -/

/-- C46, keys. Missing from the full statement: comparators whose results differ in more than the sign,
see `C46_difference_comparator`. -/
theorem C46_removeRange_partial (hc : Lawful cmp) (hu : Uniform cmp) {s : TL K V} {xs : List (K × V)}
    (h : Reached cmp s xs) {low high : K} (hlh : cmp low high ≤ 0) :
    ∃ s', step cmp s (.removeRange low high) =
        some (s', .bool (xs.any fun e => decide (cmp low e.1 ≤ 0) && decide (cmp e.1 high ≤ 0))) ∧
      Reached cmp s' (xs.filter fun e => !(decide (cmp low e.1 ≤ 0) && decide (cmp e.1 high ≤ 0))) := by
  obtain ⟨s', h1, h2⟩ := h.next hc (.removeRange low high) hu rfl
  have h3 : ¬(ord cmp low high == .gt) = true := by simp [ord_gt]; omega
  rw [spec, if_neg h3] at h1 h2
  simp only [inside_iff] at h1 h2
  exact ⟨s', h1, h2⟩

/-- C46, ranks: a range that meets the ranks there are. -/
theorem C46_removeRangeByIndex_partial (hc : Lawful cmp) {s : TL K V} {xs : List (K × V)}
    (h : Reached cmp s xs) {low high : Int} (hlh : low ≤ high) (h1 : 0 ≤ high) (h2 : low < xs.length) :
    xs ≠ [] → ∃ s', step cmp s (.removeRangeByIndex low high) = some (s', .unit) ∧
      Reached cmp s' (xs.take low.toNat ++ xs.drop (high + 1).toNat) := by
  intro h3
  obtain ⟨s', h4, h5⟩ := h.next hc (.removeRangeByIndex low high) trivial rfl
  have h6 : 0 < xs.length := List.length_pos_iff.2 h3
  rw [spec, if_neg (show ¬low > high by omega),
    if_neg (show ¬max low 0 > min high ((xs.length : Int) - 1) by omega)] at h4 h5
  exact ⟨s', h4, h5⟩

/-- C46, ranks: a range that does not meet the ranks there are panics, where the full statement has it
remove nothing. The tree list stays as it was. -/
theorem C46_removeRangeByIndex_panics (hc : Lawful cmp) {s : TL K V} {xs : List (K × V)}
    (h : Reached cmp s xs) {low high : Int} (hlh : low ≤ high)
    (hr : high < 0 ∨ xs.length ≤ low ∨ xs = []) :
    ∃ s', step cmp s (.removeRangeByIndex low high) = some (s', .panic) ∧ Reached cmp s' xs := by
  obtain ⟨s', h4, h5⟩ := h.next hc (.removeRangeByIndex low high) trivial rfl
  have : max low 0 > min high ((xs.length : Int) - 1) := by
    rcases hr with hr | hr | hr
    · omega
    · omega
    · subst hr; simp only [List.length_nil]; omega
  rw [spec, if_neg (show ¬low > high by omega), if_pos this] at h4 h5
  exact ⟨s', h4, h5⟩

/-- `RemoveRange(2, 3)` of {0, 1, 2, 3} with a comparator that answers with the difference removes the
key 1, too. -/
theorem C46_difference_comparator :
    (run (step diff) (new ((0 : Int), ())) [.put 0 (), .put 1 (), .put 2 (), .put 3 (), .removeRange 2 3,
      .get 0, .get 1, .forward]).map (·.2) =
    some [.bool true, .bool true, .bool true, .bool true, .bool true, .found (some ()), .found none,
      .list [(0, ())]] := by decide +kernel

example : ∃ s s' : TL Int String, step Compare.any s (.removeRange 4 9) = some (s', .bool true) ∧
    Reached Compare.any s' [(3, "c")] := by
  obtain ⟨s, h⟩ := demo_reached
  obtain ⟨s', h1⟩ := C46_removeRange_partial any_lawful any_uniform h (low := 4) (high := 9) (by decide)
  exact ⟨s, s', h1⟩

example : ∃ s s' : TL Int String, step Compare.any s (.removeRangeByIndex (-1) 0) = some (s', .unit) ∧
    Reached Compare.any s' [(5, "e")] := by
  obtain ⟨s, h⟩ := demo_reached
  obtain ⟨s', h1⟩ := C46_removeRangeByIndex_partial any_lawful h (low := -1) (high := 0) (by decide)
    (by decide) (by decide) (by decide)
  exact ⟨s, s', h1⟩

example : ∃ s s' : TL Int String, step Compare.any s (.removeRangeByIndex 2 7) = some (s', .panic) ∧
    Reached Compare.any s' [(3, "c"), (5, "e")] := by
  obtain ⟨s, h⟩ := demo_reached
  obtain ⟨s', h1⟩ := C46_removeRangeByIndex_panics any_lawful h (low := 2) (high := 7) (by decide) (by decide)
  exact ⟨s, s', h1⟩

/-! ### C47 -/

/-- C47, keys: a range that holds an entry. Missing from the full statement: a range without, see
`C47_trim_empty`, and comparators whose results differ in more than the sign. -/
theorem C47_trim_partial (hc : Lawful cmp) (hu : Uniform cmp) {s : TL K V} {xs : List (K × V)}
    (h : Reached cmp s xs) {low high : K} (hlh : cmp low high ≤ 0)
    (hin : ∃ e ∈ xs, cmp low e.1 ≤ 0 ∧ cmp e.1 high ≤ 0) :
    ∃ s', step cmp s (.trim low high) = some (s', .unit) ∧
      Reached cmp s' (xs.filter fun e => decide (cmp low e.1 ≤ 0) && decide (cmp e.1 high ≤ 0)) := by
  obtain ⟨e, he, h1, h2⟩ := hin
  obtain ⟨s', h4, h5⟩ := h.next hc (.trim low high)
    ⟨hu, fun _ => .inr ⟨e, he, by rw [inside_iff]; simp [h1, h2]⟩⟩ rfl
  have h3 : ¬(ord cmp low high == .gt) = true := by simp [ord_gt]; omega
  rw [spec, if_neg h3] at h4 h5
  simp only [inside_iff] at h5
  exact ⟨s', h4, h5⟩

/-- C47, ranks. -/
theorem C47_trimByIndex (hc : Lawful cmp) {s : TL K V} {xs : List (K × V)} (h : Reached cmp s xs)
    {low high : Int} (hlh : low ≤ high) (h1 : 0 ≤ low) (h2 : high < xs.length) :
    ∃ s', step cmp s (.trimByIndex low high) = some (s', .unit) ∧
      Reached cmp s' ((xs.drop low.toNat).take (high + 1 - low).toNat) := by
  obtain ⟨s', h4, h5⟩ := h.next hc (.trimByIndex low high) (fun _ _ _ => h2) rfl
  rw [spec, if_neg (show ¬(low > high ∨ low < 0 ∨ high ≥ xs.length) by omega)] at h4 h5
  exact ⟨s', h4, h5⟩

/-- `Trim(5, 6)` of {1, 2}: the size is 0, but `Head`, `Tail` and the iterators still give the old entries. -/
theorem C47_trim_empty : ∃ s : TL Int Unit,
    run (step Compare.any) (new (0, ())) [.put 1 (), .put 2 (), .trim 5 6, .size, .head, .tail, .forward] =
    some (s, [.bool true, .bool true, .unit, .int 0, .slice (some (1, ())), .slice (some (2, ())),
      .list [(1, ()), (2, ())]]) := ⟨_, rfl⟩

/-- The union of an empty tree list with that one then holds the entries that were trimmed away. -/
theorem C47_trim_empty_union : ∃ s r r' : TL Int Unit,
    run (step Compare.any) (new (0, ())) [.put 1 (), .put 2 (), .trim 5 6] =
      some (s, [.bool true, .bool true, .unit]) ∧
    setOp Compare.any .union (new (0, ())) s (0, ()) = some r ∧
    step Compare.any r .slices = some (r', .list [(1, ()), (2, ())]) := ⟨_, _, _, rfl, rfl, rfl⟩

/-- `TrimByIndex(5, 9)` of seven keys panics, after it has removed the key with the rank 4 from the tree,
but not from the thread, and left the size as it was. -/
theorem C47_trimByIndex_corrupts :
    (run (step Compare.any) (new ((0 : Int), ())) ([0, 1, 2, 3, 4, 5, 6].map (fun k => .put k ()) ++
      [.trimByIndex 5 9, .get 4, .size, .slices, .forward])).map (·.2) =
    some [.bool true, .bool true, .bool true, .bool true, .bool true, .bool true, .bool true,
      .panic, .found none, .int 7, .list [(0, ()), (1, ()), (2, ()), (3, ()), (5, ()), (6, ())],
      .list [(0, ()), (1, ()), (2, ()), (3, ()), (4, ()), (5, ()), (6, ())]] := by decide +kernel

example : ∃ s s' : TL Int String, step Compare.any s (.trim 4 9) = some (s', .unit) ∧
    Reached Compare.any s' [(5, "e")] := by
  obtain ⟨s, h⟩ := demo_reached
  obtain ⟨s', h1⟩ := C47_trim_partial any_lawful any_uniform h (low := 4) (high := 9) (by decide)
    ⟨(5, "e"), by simp, by decide, by decide⟩
  exact ⟨s, s', h1⟩

example : ∃ s s' : TL Int String, step Compare.any s (.trimByIndex 1 1) = some (s', .unit) ∧
    Reached Compare.any s' [(5, "e")] := by
  obtain ⟨s, h⟩ := demo_reached
  obtain ⟨s', h1⟩ := C47_trimByIndex any_lawful h (low := 1) (high := 1) (by decide) (by decide) (by decide)
  exact ⟨s, s', h1⟩

/-! ### C48 -/

/-- C48: the set operations on any two reached tree lists (also a tree list with itself) succeed; the
result has the entries of the receiver whose keys are in the other as well, those of both with the
receiver's where the keys meet, and those of the receiver whose keys are not in the other. It is a tree
list as any other, so that C44 to C50 hold for it. (That the arguments stay as they are holds by the form
of the model: the code only reads them.) -/
theorem C48_set_operations (hc : Lawful cmp) {s t : TL K V} {xs ys : List (K × V)} (hs : Reached cmp s xs)
    (ht : Reached cmp t ys) (junk : K × V) :
    (∃ r zs, setOp cmp .inter s t junk = some r ∧ Reached cmp r zs ∧
      ∀ e, e ∈ zs ↔ e ∈ xs ∧ ∃ f ∈ ys, cmp e.1 f.1 = 0) ∧
    (∃ r zs, setOp cmp .union s t junk = some r ∧ Reached cmp r zs ∧
      ∀ e, e ∈ zs ↔ e ∈ xs ∨ e ∈ ys ∧ ¬∃ f ∈ xs, cmp e.1 f.1 = 0) ∧
    (∃ r zs, setOp cmp .diff s t junk = some r ∧ Reached cmp r zs ∧
      ∀ e, e ∈ zs ↔ e ∈ xs ∧ ¬∃ f ∈ ys, cmp e.1 f.1 = 0) := by
  have main : ∀ op, ∃ r zs, setOp cmp op s t junk = some r ∧ Reached cmp r zs ∧
      Merged (ord cmp) op xs ys zs := by
    intro op
    obtain ⟨r, zs, h1, -, h3⟩ := setOp_ok hc op junk (hs.rel hc) (ht.rel hc)
    exact ⟨r, zs, h1, .setOp hs ht h1 h3, h3⟩
  have meets : ∀ (e : K × V) ys, Meets (ord cmp) e ys ↔ ∃ f ∈ ys, cmp e.1 f.1 = 0 := by
    intro e ys
    simp only [Meets, ord_eq]
  refine ⟨?_, ?_, ?_⟩
  · obtain ⟨r, zs, h1, h2, -, h4⟩ := main .inter
    simp only [meets] at h4
    exact ⟨r, zs, h1, h2, h4⟩
  · obtain ⟨r, zs, h1, h2, -, h4⟩ := main .union
    simp only [meets] at h4
    exact ⟨r, zs, h1, h2, h4⟩
  · obtain ⟨r, zs, h1, h2, -, h4⟩ := main .diff
    simp only [meets] at h4
    exact ⟨r, zs, h1, h2, h4⟩

/-- The keys 3 and 5 and the keys 3 and 4. -/
example : ∃ s t r : TL Int String, ∃ zs, setOp Compare.any .inter s t (0, "") = some r ∧
    Reached Compare.any r zs ∧ ((3 : Int), "c") ∈ zs ∧ (5, "e") ∉ zs := by
  obtain ⟨s, hs⟩ := demo_reached
  have ht : ∃ t, Reached Compare.any t [((3 : Int), "x"), (4, "y")] := by
    obtain ⟨t, h⟩ := C44_small_partial any_lawful (0, "") [Op.put (3 : Int) "x", .put 4 "y"]
      ⟨⟨trivial, by decide⟩, ⟨trivial, by decide⟩, trivial⟩
    exact ⟨t, Reached.run [Op.put (3 : Int) "x", .put 4 "y"] (.new (0, ""))
      ⟨trivial, trivial, trivial⟩ h⟩
  obtain ⟨t, ht⟩ := ht
  obtain ⟨⟨r, zs, h1, h2, h3⟩, -⟩ := C48_set_operations any_lawful hs ht (0, "")
  exact ⟨s, t, r, zs, h1, h2, (h3 _).2 ⟨by simp, (3, "x"), by simp, rfl⟩,
    fun h => by obtain ⟨-, f, hf, h4⟩ := (h3 _).1 h; simp at hf; rcases hf with rfl | rfl <;> cases h4⟩

/-! ### C49 -/

/-- C49, histories: every history of calls on a new iterator answers as the ideal iterator, which is a
rank, as long as there is no seek by key in an empty tree list and no step or look from outside of the
entries (`ilegal`). -/
theorem C49_iterator_partial (hc : Lawful cmp) {s : TL K V} {xs : List (K × V)} (h : Reached cmp s xs)
    (ops : List (IOp K)) (hl : LegalRun (ispec cmp xs) (ilegal xs) none ops) :
    ∃ it, run (istep cmp s) ⟨none, 0⟩ ops = some (it, (runSpec (ispec cmp xs) none ops).2) := by
  obtain ⟨zs, hG, rfl⟩ := h.rel hc
  obtain ⟨it, h1, -⟩ := run_refines_legal (step := istep cmp s) (spec := ispec cmp (zs.map strip))
    (legal := ilegal (zs.map strip)) (IRel zs) (fun it p op h1 h2 => istep_ok hc hG h2 h1) ops ⟨none, 0⟩ none hl
    ⟨rfl, rfl⟩
  exact ⟨it, h1⟩

/-- The entry an iterator is on. -/
def Iter.entry (it : Iter) (s : TL K V) : Option (K × V) := it.cur.map fun a => (s.heap a).val

/-- The seeks. -/
theorem seek_rel (hc : Lawful cmp) {s : TL K V} {xs : List (K × V)} (h : Rel cmp s xs)
    (hn : xs ≠ []) (it : Iter) (key : K) :
    let there := xs.any fun e => decide (cmp e.1 key = 0)
    (∃ i, istep cmp s it (.seekGE key) = some (i, .bool there) ∧
      i.entry s = (xs.filter fun e => decide (0 ≤ cmp e.1 key)).head? ∧
      i.idx = (xs.filter fun e => decide (cmp e.1 key < 0)).length) ∧
    (∃ i, istep cmp s it (.seekGT key) = some (i, .bool there) ∧
      i.entry s = (xs.filter fun e => decide (0 < cmp e.1 key)).head? ∧
      i.idx = (xs.filter fun e => decide (cmp e.1 key ≤ 0)).length) ∧
    (∃ i, istep cmp s it (.seekLE key) = some (i, .bool there) ∧
      i.entry s = (xs.filter fun e => decide (cmp e.1 key ≤ 0)).getLast? ∧
      i.idx = (xs.filter fun e => decide (cmp e.1 key ≤ 0)).length - 1) ∧
    (∃ i, istep cmp s it (.seekLT key) = some (i, .bool there) ∧
      i.entry s = (xs.filter fun e => decide (cmp e.1 key < 0)).getLast? ∧
      i.idx = (xs.filter fun e => decide (cmp e.1 key < 0)).length - 1) := by
  have : Std.TransCmp (ord cmp) := hc
  obtain ⟨zs, hG, rfl⟩ := h
  have hs : Sorted (ord cmp) (zs.map strip) := sorted_strip_iff.2 hG.sorted
  obtain ⟨e1, e2, e3, e4⟩ := Avl.seek_entry hs.le key
  have hthere : ((zs.map strip).any fun e => decide (cmp e.1 key = 0)) =
      Avl.has (ord cmp) key (zs.map strip) := by
    unfold Avl.has; congr 1; funext e
    rw [Bool.eq_iff_iff]; simp [ord_eq]
  have f1 : (fun e : K × V => decide (0 ≤ cmp e.1 key)) = fun e => ord cmp e.1 key != .lt := by
    funext e; rw [Bool.eq_iff_iff]; simp [ord_lt]
  have f2 : (fun e : K × V => decide (0 < cmp e.1 key)) = fun e => ord cmp e.1 key == .gt := by
    funext e; rw [Bool.eq_iff_iff]; simp [ord_gt]
  have f3 : (fun e : K × V => decide (cmp e.1 key ≤ 0)) = fun e => ord cmp e.1 key != .gt := by
    funext e; rw [Bool.eq_iff_iff]; simp [ord_gt]
  have f4 : (fun e : K × V => decide (cmp e.1 key < 0)) = fun e => ord cmp e.1 key == .lt := by
    funext e; rw [Bool.eq_iff_iff]; simp [ord_lt]
  have r1 : rank (ord cmp) key false (zs.map strip) =
      ((zs.map strip).filter fun e => ord cmp e.1 key == .lt).length := rank_false _
  have r2 : rank (ord cmp) key true (zs.map strip) =
      ((zs.map strip).filter fun e => ord cmp e.1 key != .gt).length := by
    rw [rank, List.countP_eq_length_filter]; rfl
  simp only [hthere, f1, f2, f3, f4]
  -- every seek
  have main : ∀ (op : IOp K) (p : Int), ilegal (zs.map strip) none op →
      ispec cmp (zs.map strip) none op = (some p, .bool (Avl.has (ord cmp) key (zs.map strip))) →
      ∃ i, istep cmp s ⟨none, 0⟩ op = some (i, .bool (Avl.has (ord cmp) key (zs.map strip))) ∧
        i.entry s = Avl.entryAt (zs.map strip) (some p) ∧ i.idx = p := by
    intro op p hl hp
    obtain ⟨i, h1, h2⟩ := istep_ok hc hG (it := ⟨none, 0⟩) (p := none) ⟨rfl, rfl⟩ hl
    rw [hp] at h1 h2
    exact ⟨i, h1, h2.entry hG, h2.2⟩
  refine ⟨?_, ?_, ?_, ?_⟩
  · obtain ⟨i, h1, h2, h3⟩ := main (.seekGE key) _ hn rfl
    refine ⟨i, h1, ?_, by rw [h3, r1]⟩
    rw [h2, r1, ← e1]; rfl
  · obtain ⟨i, h1, h2, h3⟩ := main (.seekGT key) _ hn rfl
    refine ⟨i, h1, ?_, by rw [h3, r2]⟩
    rw [h2, r2, ← e2]; rfl
  · obtain ⟨i, h1, h2, h3⟩ := main (.seekLE key) _ hn rfl
    refine ⟨i, h1, ?_, by rw [h3, r2]⟩
    rw [h2, r2, ← e3]; rfl
  · obtain ⟨i, h1, h2, h3⟩ := main (.seekLT key) _ hn rfl
    refine ⟨i, h1, ?_, by rw [h3, r1]⟩
    rw [h2, r1, ← e4]; rfl

/-- C49, seeks in a tree list that is not empty: where the iterator is, its `Index`, and whether the key
was found. Missing from the full statement: the empty one, see `C49_empty_panics`. -/
theorem C49_seek_partial (hc : Lawful cmp) {s : TL K V} {xs : List (K × V)} (h : Reached cmp s xs)
    (hn : xs ≠ []) (it : Iter) (key : K) :
    let there := xs.any fun e => decide (cmp e.1 key = 0)
    (∃ i, istep cmp s it (.seekGE key) = some (i, .bool there) ∧
      i.entry s = (xs.filter fun e => decide (0 ≤ cmp e.1 key)).head? ∧
      i.idx = (xs.filter fun e => decide (cmp e.1 key < 0)).length) ∧
    (∃ i, istep cmp s it (.seekGT key) = some (i, .bool there) ∧
      i.entry s = (xs.filter fun e => decide (0 < cmp e.1 key)).head? ∧
      i.idx = (xs.filter fun e => decide (cmp e.1 key ≤ 0)).length) ∧
    (∃ i, istep cmp s it (.seekLE key) = some (i, .bool there) ∧
      i.entry s = (xs.filter fun e => decide (cmp e.1 key ≤ 0)).getLast? ∧
      i.idx = (xs.filter fun e => decide (cmp e.1 key ≤ 0)).length - 1) ∧
    (∃ i, istep cmp s it (.seekLT key) = some (i, .bool there) ∧
      i.entry s = (xs.filter fun e => decide (cmp e.1 key < 0)).getLast? ∧
      i.idx = (xs.filter fun e => decide (cmp e.1 key < 0)).length - 1) :=
  seek_rel hc (h.rel hc) hn it key

/-- In an empty tree list every seek by key panics. -/
theorem C49_empty_panics (hc : Lawful cmp) {s : TL K V} (h : Reached cmp s []) (it : Iter) (key : K) :
    istep cmp s it (.seekGE key) = none ∧ istep cmp s it (.seekGT key) = none ∧
    istep cmp s it (.seekLE key) = none ∧ istep cmp s it (.seekLT key) = none := by
  obtain ⟨zs, hG, hz⟩ := h.rel hc
  have h0 : zs = [] := by simpa using hz
  subst h0
  have ht : s.tree = nil := toList_eq_nil.1 hG.list
  obtain ⟨h1, h2⟩ := seek_empty (cmp := cmp) s ht false key
  obtain ⟨h3, h4⟩ := seek_empty (cmp := cmp) s ht true key
  refine ⟨?_, ?_, ?_, ?_⟩
  · rw [istep, h1]; rfl
  · rw [istep, h3]; rfl
  · rw [istep, h2]; rfl
  · rw [istep, h4]; rfl

/-- The other calls that panic are those from outside of the entries. -/
theorem C49_panics_only (hc : Lawful cmp) {s : TL K V} {xs : List (K × V)} (h : Reached cmp s xs)
    (ops : List (IOp K)) (op : IOp K) (hl : LegalRun (ispec cmp xs) (ilegal xs) none ops)
    (hp : ¬ilegal xs (runSpec (ispec cmp xs) none ops).1 op) :
    run (istep cmp s) ⟨none, 0⟩ (ops ++ [op]) = none := by
  obtain ⟨zs, hG, rfl⟩ := h.rel hc
  obtain ⟨it, h1, h2⟩ := run_refines_legal (step := istep cmp s) (spec := ispec cmp (zs.map strip))
    (legal := ilegal (zs.map strip)) (IRel zs) (fun it p op h1 h2 => istep_ok hc hG h2 h1) ops ⟨none, 0⟩
    none hl ⟨rfl, rfl⟩
  have h3 := istep_panics hG h2 hp
  rw [run_append, h1]
  simp [run, h3]

example : ∃ s : TL Int String, ∃ it, run (istep Compare.any s) ⟨none, 0⟩
    [.seekGE 4, .slice, .index, .prev, .slice, .index, .prev, .valid, .seekGT 5, .valid, .seekLE 4, .slice,
      .next, .slice, .seekLT 3, .valid, .seekByIndex 1, .slice] =
    some (it, [.bool false, .slice (5, "e"), .int 1, .unit, .slice (3, "c"), .int 0, .unit, .bool false,
      .bool true, .bool false, .bool false, .slice (3, "c"), .unit, .slice (5, "e"), .bool true, .bool false,
      .unit, .slice (5, "e")]) := by
  obtain ⟨s, h⟩ := demo_reached
  obtain ⟨it, h1⟩ := C49_iterator_partial any_lawful h
    [.seekGE 4, .slice, .index, .prev, .slice, .index, .prev, .valid, .seekGT 5, .valid, .seekLE 4, .slice,
      .next, .slice, .seekLT 3, .valid, .seekByIndex 1, .slice]
    ⟨List.cons_ne_nil _ _, rfl, trivial, rfl, rfl, trivial, rfl, trivial, List.cons_ne_nil _ _, trivial,
      List.cons_ne_nil _ _, rfl, rfl, rfl, List.cons_ne_nil _ _, trivial, trivial, rfl, trivial⟩
  exact ⟨s, it, h1.trans rfl⟩

example : ∃ s : TL Int String, ∃ i, istep Compare.any s ⟨none, 0⟩ (.seekGE 4) = some (i, .bool false) ∧
    i.entry s = some (5, "e") ∧ i.idx = 1 := by
  obtain ⟨s, h⟩ := demo_reached
  obtain ⟨⟨i, h1, h2, h3⟩, -⟩ := C49_seek_partial any_lawful h (by simp) ⟨none, 0⟩ 4
  exact ⟨s, i, h1, h2, h3⟩

example : ∃ s : TL Int String, run (istep Compare.any s) ⟨none, 0⟩ ([.seekToLast, .next] ++ [.next]) = none := by
  obtain ⟨s, h⟩ := demo_reached
  exact ⟨s, C49_panics_only any_lawful h [.seekToLast, .next] .next ⟨trivial, rfl, trivial⟩
    (by rw [ilegal]; decide)⟩

example : istep Compare.any (new ((0 : Int), "")) ⟨none, 0⟩ (.seekGE 4) = none :=
  (C49_empty_panics any_lawful (.new (0, "")) ⟨none, 0⟩ 4).1

/-! ### C50 -/

/-- C50: `GE2LE`, `GT2LE`, `GE2LT`, `GT2LT` (`gt`: the start is excluded, `lt`: the end is), then `Size`
and `Range` with a callback that may end the walk. Missing from the full statement: an empty tree list, see
`C50_empty_panics`. -/
theorem C50_range_partial (hc : Lawful cmp) {s : TL K V} {xs : List (K × V)} (h : Reached cmp s xs)
    (hn : xs ≠ []) (ir : IterRange) (gt lt : Bool) (start stop : K) :
    let inRange := xs.zipIdx.filter fun x =>
      (if gt then decide (0 < cmp x.1.1 start) else decide (0 ≤ cmp x.1.1 start)) &&
      (if lt then decide (cmp x.1.1 stop < 0) else decide (cmp x.1.1 stop ≤ 0))
    let visits := (if ir.reverse then inRange.reverse else inRange).map fun x => (x.1, (x.2 : Int))
    ∃ ir', setRange cmp s ir gt lt start stop = some ir' ∧ ir'.reverse = ir.reverse ∧
      ir'.size = visits.length ∧
      ∀ every, ir'.range s every = some (seen (fun x => every x.1 x.2) visits) := by
  obtain ⟨zs, hG, rfl⟩ := h.rel hc
  obtain ⟨ir', h1, h2, h3, h4⟩ := range_ok hc hG (by simpa using hn) ir gt lt start stop
  intro inRange visits
  have hin : inRange.map (fun x => (x.1, (x.2 : Int))) =
      (ranked (zs.map strip)).filter fun x => within (ord cmp) gt lt start stop x.1.1 := by
    rw [ranked, List.filter_map]
    congr 1
    refine List.filter_congr fun x _ => ?_
    simp only [Function.comp, within]
    rw [Bool.eq_iff_iff]
    cases gt <;> cases lt <;> simp [ord_lt, ord_gt]
  have hv : visits = visited (ord cmp) gt lt ir.reverse start stop (zs.map strip) := by
    simp only [visits, visited, ← hin]
    split
    · rw [List.map_reverse]
    · rfl
  rw [hv]
  exact ⟨ir', h1, h2, h3, h4⟩

/-- In an empty tree list all four panic. -/
theorem C50_empty_panics (hc : Lawful cmp) {s : TL K V} (h : Reached cmp s []) (ir : IterRange)
    (gt lt : Bool) (start stop : K) : setRange cmp s ir gt lt start stop = none := by
  obtain ⟨zs, hG, hz⟩ := h.rel hc
  have h0 : zs = [] := by simpa using hz
  subst h0
  rw [setRange, (seek_empty (cmp := cmp) s (toList_eq_nil.1 hG.list) gt start).1]
  rfl

example : ∃ s : TL Int String, ∃ ir', setRange Compare.any s ⟨⟨none, 0⟩, ⟨none, 0⟩, true⟩ false false 3 9 =
      some ir' ∧ ir'.size = 2 ∧
    ir'.range s (fun _ _ => true) = some [((5, "e"), 1), ((3, "c"), 0)] := by
  obtain ⟨s, h⟩ := demo_reached
  obtain ⟨ir', h1, -, h3, h4⟩ := C50_range_partial any_lawful h (by simp) ⟨⟨none, 0⟩, ⟨none, 0⟩, true⟩
    false false 3 9
  exact ⟨s, ir', h1, h3, h4 _⟩

example : setRange Compare.any (new ((0 : Int), "")) ⟨⟨none, 0⟩, ⟨none, 0⟩, false⟩ false false 3 9 = none :=
  C50_empty_panics any_lawful (.new (0, "")) _ _ _ _ _

end Verif.TreeList
