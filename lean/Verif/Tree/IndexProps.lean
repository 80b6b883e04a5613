import Verif.Tree.IndexIter
import Verif.Compare.Props

/-! Properties C37 to C42: the sorted map with ranks `tree/indextree`. -/

namespace Verif.IndexTree

open Tree Size

variable {K W : Type} {cmp : K → K → Int}

/-- The comparator of the examples: `compare.Any[int]`. -/
theorem any_lawful : Lawful (Compare.any : Int → Int → Int) := Compare.C01_any_lawful.1

theorem any_uniform : Uniform (Compare.any : Int → Int → Int) := by
  have h : ∀ a b : Int, Compare.any a b =
      match ord Compare.any a b with | .lt => -1 | .eq => 0 | .gt => 1 := by
    intro a b
    rcases Int.lt_trichotomy a b with h | h | h
    · have : Compare.any a b = -1 := by unfold Compare.any; simp; omega
      rw [ord_lt.2 (by omega), this]
    · have : Compare.any a b = 0 := by unfold Compare.any; simp [h]
      rw [ord_eq.2 (by omega), this]
    · have : Compare.any a b = 1 := by unfold Compare.any; simp; omega
      rw [ord_gt.2 (by omega), this]
  intro a b c d he
  rw [h a b, h c d, he]

/-- A comparator that answers with the difference: lawful, but not with one number for each case. -/
def diff (a b : Int) : Int := a - b

theorem diff_lawful : Lawful diff := by
  have e : (fun a b => ordOf (diff a b)) = fun a b => ordOf (Compare.any a b) := by
    funext a b
    unfold diff Compare.any ordOf
    rcases Int.lt_trichotomy a b with h | h | h
    · have h1 : ¬a = b := by omega
      have h2 : ¬b < a := by omega
      simp [h, h1, h2]
    · subst h; simp
    · have h1 : ¬a = b := by omega
      have h2 : ¬a < b := by omega
      simp [h, h1, h2]
  unfold Lawful
  rw [e]
  exact any_lawful

/-! ### C37 -/

/-- C37: every history of calls answers as the ideal sorted map, and none panics unless stated there.
Missing from the full statement: `Set` on an empty tree answers true (`C37_set_on_empty`). Outside of
C37, `legal` excludes some calls of C39 to C43. -/
theorem C37_sorted_map_partial (hc : Lawful cmp) (shift : Nat) (os : List (Op K W))
    (hl : LegalRun (spec (ord cmp)) (legal cmp) [] os) :
    ∃ t, run (step shift cmp) nil os = some (t, (runSpec (spec (ord cmp)) [] os).2) := by
  obtain ⟨t, h, -⟩ := run_ok hc shift os hl
  exact ⟨t, h⟩

/-- A history for the examples. -/
def demo : List (Op Int String) :=
  [.put 3 (some "c"), .put 1 (some "a"), .set 2 none, .put 3 (some "x"), .upsert 1 (some "A"), .get 3,
    .remove 2, .remove 2, .set 5 (some "e"), .indexOf 5, .index 1, .index 3, .size, .removeIndex 0, .values]

theorem demo_legal : LegalRun (spec (ord Compare.any)) (legal Compare.any) [] demo :=
  ⟨trivial, trivial, (by rw [legal]; decide), trivial, trivial, trivial, trivial, trivial,
    (by rw [legal]; decide), trivial, trivial, trivial, trivial, trivial, trivial, trivial⟩

example : ∃ t, run (step 2 Compare.any) nil demo =
    some (t, [.bool true, .bool true, .bool false, .bool false, .bool true, .found (some (some "c")),
      .val none, .val none, .bool false, .int 2, .entry (3, some "c"), .panic, .int 3,
      .val (some "A"), .list [some "c", some "e"]]) := by
  obtain ⟨t, h⟩ := C37_sorted_map_partial any_lawful 2 demo demo_legal
  exact ⟨t, h.trans rfl⟩

/-- `Set` reports that it replaced something in an empty tree. -/
theorem C37_set_on_empty (shift : Nat) (cmp : K → K → Int) (k : K) (v : Option W) :
    ∃ t, step shift cmp nil (.set k v) = some (t, .bool true) ∧
      (spec (ord cmp) [] (.set k v)).2 = .bool false := ⟨_, rfl, rfl⟩

/-- The calls after which the contents are right: also `Set` on an empty tree and `Delete` of nil. -/
def legalState (cmp : K → K → Int) (xs : List (K × Option W)) : Op K W → Prop
  | .set _ _ => True
  | .delete _ => True
  | op => legal cmp xs op

/-- The tree `t` is reached by some history and should hold the entries `xs`. -/
def Reached (shift : Nat) (cmp : K → K → Int) (t : T K (Option W)) (xs : List (K × Option W)) : Prop :=
  ∃ os rs, LegalRun (spec (ord cmp)) (legalState cmp) [] os ∧
    run (step shift cmp) nil os = some (t, rs) ∧ xs = (runSpec (spec (ord cmp)) [] os).1

theorem step_contents (hc : Lawful cmp) {shift : Nat} {t : T K (Option W)} {xs : List (K × Option W)}
    {op : Op K W} (hl : legalState cmp xs op) (hR : Rel cmp t xs) :
    ∃ p, step shift cmp t op = some p ∧ Rel cmp p.1 (spec (ord cmp) xs op).1 := by
  have H : ∀ op, legal cmp xs op →
      ∃ p, step shift cmp t op = some p ∧ Rel cmp p.1 (spec (ord cmp) xs op).1 := fun op h => by
    obtain ⟨t', h1, h2⟩ := step_ok hc (shift := shift) h hR
    exact ⟨_, h1, h2⟩
  cases op with
  | set k v =>
    cases xs with
    | nil =>
      have : t = nil := toList_eq_nil.1 hR.list
      subst this
      exact ⟨_, rfl, rfl, by simp [Avl.insertEntry, Avl.has, spec, Sorted],
        exact_node.2 ⟨rfl, trivial, trivial⟩⟩
    | cons x xs => exact H (.set k v) (by simp [legal])
  | delete k =>
    obtain ⟨p, h1, -, h3⟩ := remove_rel hc hR k
    exact ⟨_, by rw [step, h1]; rfl, h3⟩
  | put => exact H _ hl
  | insertIfAbsent => exact H _ hl
  | upsert => exact H _ hl
  | get => exact H _ hl
  | remove => exact H _ hl
  | index => exact H _ hl
  | indexOf => exact H _ hl
  | removeIndex => exact H _ hl
  | removeRange => exact H _ hl
  | removeRangeByIndex => exact H _ hl
  | trim => exact H _ hl
  | trimByIndex => exact H _ hl
  | split => exact H _ hl
  | clear => exact H _ hl
  | size => exact H _ hl
  | len => exact H _ hl
  | values => exact H _ hl
  | traverse => exact H _ hl

theorem run_contents (hc : Lawful cmp) {shift : Nat} (os : List (Op K W)) :
    ∀ (t : T K (Option W)) xs, LegalRun (spec (ord cmp)) (legalState cmp) xs os → Rel cmp t xs →
    ∃ p, run (step shift cmp) t os = some p ∧ Rel cmp p.1 (runSpec (spec (ord cmp)) xs os).1 := by
  induction os with
  | nil => intro t xs _ hR; exact ⟨_, rfl, hR⟩
  | cons op os ih =>
    intro t xs hl hR
    obtain ⟨p, h1, h2⟩ := step_contents hc (shift := shift) hl.1 hR
    obtain ⟨q, h3, h4⟩ := ih _ _ hl.2 h2
    exact ⟨(q.1, p.2 :: q.2), by simp [run, h1, h3], h4⟩

/-- C37, contents: no history panics in an unstated way, and the tree then holds what it should. -/
theorem C37_contents (hc : Lawful cmp) (shift : Nat) (os : List (Op K W))
    (hl : LegalRun (spec (ord cmp)) (legalState cmp) [] os) :
    ∃ t, Reached shift cmp t (runSpec (spec (ord cmp)) [] os).1 := by
  obtain ⟨p, h1, -⟩ := run_contents hc (shift := shift) os nil [] hl Rel.new
  exact ⟨p.1, os, p.2, hl, h1, rfl⟩

theorem Reached.rel (hc : Lawful cmp) {shift : Nat} {t : T K (Option W)} {xs : List (K × Option W)}
    (h : Reached shift cmp t xs) : Rel cmp t xs := by
  obtain ⟨os, rs, h1, h2, h3⟩ := h
  obtain ⟨p, h4, h5⟩ := run_contents hc (shift := shift) os nil [] h1 Rel.new
  rw [h2] at h4
  cases h4
  rw [h3]; exact h5

theorem legalRun_append {τ ω ρ : Type} {spec : τ → ω → τ × ρ} {legal : τ → ω → Prop} (os : List ω)
    (op : ω) : ∀ t, LegalRun spec legal t os → legal (runSpec spec t os).1 op →
      LegalRun spec legal t (os ++ [op]) := by
  induction os with
  | nil => intro t _ h; exact ⟨h, trivial⟩
  | cons o os ih => intro t h1 h2; exact ⟨h1.1, ih _ h1.2 h2⟩

theorem Reached.next {shift : Nat} {t t' : T K (Option W)} {xs : List (K × Option W)} {op : Op K W}
    {r : Res K W} (h : Reached shift cmp t xs) (hl : legalState cmp xs op)
    (hs : step shift cmp t op = some (t', r)) : Reached shift cmp t' (spec (ord cmp) xs op).1 := by
  obtain ⟨os, rs, h1, h2, rfl⟩ := h
  refine ⟨os ++ [op], rs ++ [r], legalRun_append os op _ h1 hl, ?_, ?_⟩
  · rw [run_append, h2]; simp [run, hs]
  · rw [runSpec_append]; rfl

/-- C37, order and size: after any history `Traverse` and `Values` enumerate in strictly increasing
order of the keys, `Size` and `Len` count the entries, `Get` finds an entry exactly if its key is there. -/
theorem C37_sorted (hc : Lawful cmp) {shift : Nat} {t : T K (Option W)} {xs : List (K × Option W)}
    (h : Reached shift cmp t xs) :
    xs.Pairwise (fun a b => cmp a.1 b.1 < 0) ∧
    step shift cmp t .values = some (t, .list (xs.map (·.2))) ∧
    (∀ every, step shift cmp t (.traverse every) =
      some (t, .entries (seen (fun e => every e.1 e.2) xs))) ∧
    step shift cmp t .size = some (t, .int xs.length) ∧ step shift cmp t .len = some (t, .int xs.length) ∧
    (∀ e ∈ xs, ∀ k, cmp e.1 k = 0 → step shift cmp t (.get k) = some (t, .found (some e.2))) ∧
    (∀ k, (∀ e ∈ xs, cmp e.1 k ≠ 0) → step shift cmp t (.get k) = some (t, .found none)) := by
  have : Std.TransCmp (ord cmp) := hc
  have hR := h.rel hc
  have get : ∀ k, step shift cmp t (.get k) = some (t, .found ((xs.find? fun e => ord cmp e.1 k == .eq).map
      (·.2))) := fun k => by
    rw [step, Size.get_eq hc (by rw [hR.list]; exact hR.sorted), hR.list, Avl.find_same]
  refine ⟨hR.sorted.imp fun h => ord_lt.1 h, ?_, ?_, ?_, ?_, ?_, ?_⟩
  · rw [step, Tree.traverse_eq, hR.list]; simp only [seen_true]
  · intro every; rw [step, Tree.traverse_eq, hR.list]
  · rw [step, hR.exact.sz, hR.list]
  · rw [step, hR.exact.sz, hR.list]
  · intro e he k hk
    rw [get]
    rw [← ord_eq] at hk
    obtain ⟨e', h1⟩ : ∃ e', same (ord cmp) k xs = [e'] := by
      rcases hR.sorted.same_le k with h1 | ⟨e', h1, -⟩
      · have := mem_same.2 ⟨he, hk⟩; rw [h1] at this; simp at this
      · exact ⟨e', h1⟩
    have h2 := mem_same.2 ⟨he, hk⟩
    rw [h1, List.mem_singleton] at h2
    rw [Avl.find_same, h1, h2]; rfl
  · intro k hk
    rw [get, List.find?_eq_none.2]
    · rfl
    · intro e he; simpa [ord_eq] using hk e he

/-- For the examples: a tree with the keys 3 and 5. -/
theorem demo_reached : ∃ t, Reached 2 Compare.any t [((3 : Int), some "c"), (5, some "e")] := by
  obtain ⟨t, h⟩ := C37_contents any_lawful 2 demo
    ⟨trivial, trivial, trivial, trivial, trivial, trivial, trivial, trivial, trivial, trivial, trivial,
      trivial, trivial, trivial, trivial, trivial⟩
  exact ⟨t, h⟩

example : ∃ t : T Int (Option String), step 2 Compare.any t .size = some (t, .int 2) := by
  obtain ⟨t, h⟩ := demo_reached
  exact ⟨t, (C37_sorted any_lawful h).2.2.2.1⟩

/-! ### C38 -/

/-- C38: after any history `Index` and `IndexOf` are the ranks of the sorted entries, and inverse to each
other. -/
theorem C38_ranks (hc : Lawful cmp) {shift : Nat} {t : T K (Option W)} {xs : List (K × Option W)}
    (h : Reached shift cmp t xs) :
    (∀ i : Int, i < 0 ∨ xs.length ≤ i → step shift cmp t (.index i) = some (t, .panic)) ∧
    (∀ (i : Nat) (e : K × Option W), xs[i]? = some e →
      step shift cmp t (.index i) = some (t, .entry e) ∧
      ∀ k, cmp e.1 k = 0 → step shift cmp t (.indexOf k) = some (t, .int i)) ∧
    (∀ k, step shift cmp t (.indexOf k) = some (t, .int (-1)) ∧ (∀ e ∈ xs, cmp e.1 k ≠ 0) ∨
      ∃ i : Nat, step shift cmp t (.indexOf k) = some (t, .int i) ∧
        (xs.filter fun e => decide (cmp e.1 k < 0)).length = i ∧
        ∃ e, xs[i]? = some e ∧ cmp e.1 k = 0) := by
  have : Std.TransCmp (ord cmp) := hc
  have hR := h.rel hc
  have hnode : ∀ i, nodeAt i t (leftSz t) = at? xs i := by
    intro i; rw [nodeAt_eq hR.exact (here_root t), hR.list]; simp
  have hof : ∀ k, step shift cmp t (.indexOf k) = some (t, .int
      (if (same (ord cmp) k xs).isEmpty then -1 else ((below (ord cmp) k xs).length : Int))) := by
    intro k
    rw [step, indexOf_eq hc hR.exact (by rw [hR.list]; exact hR.sorted) (here_root t), hR.list]
    simp
  have hbelow : ∀ k, (xs.filter fun e => decide (cmp e.1 k < 0)) = below (ord cmp) k xs := by
    intro k
    unfold below
    congr 1
    funext e
    rw [Bool.eq_iff_iff]; simp [ord_lt]
  have hpos : ∀ k e, same (ord cmp) k xs = [e] → xs[(below (ord cmp) k xs).length]? = some e := by
    intro k e he
    conv_lhs => arg 1; rw [parts k hR.sorted.le, he]
    simp
  refine ⟨?_, ?_, ?_⟩
  · intro i hi
    rw [step, hnode, at?_none.2 hi]
  · intro i e he
    have hi : i < xs.length := (List.getElem?_eq_some_iff.1 he).1
    refine ⟨?_, ?_⟩
    · have : at? xs (i : Int) = some e := by unfold at?; rw [if_neg (by omega)]; simpa using he
      rw [step, hnode, this]
    · intro k hk
      rw [← ord_eq] at hk
      have hm := mem_same.2 ⟨List.mem_of_getElem? he, hk⟩
      rcases hR.sorted.same_le k with h1 | ⟨e', h1, -⟩
      · rw [h1] at hm; simp at hm
      · rw [h1, List.mem_singleton] at hm
        subst hm
        have h2 := hpos k e h1
        have hb := (List.getElem?_eq_some_iff.1 h2).1
        have : (below (ord cmp) k xs).length = i := by
          have hs := hR.sorted
          unfold Sorted at hs
          rw [List.pairwise_iff_getElem] at hs
          have e1 := (List.getElem?_eq_some_iff.1 he).2
          have e2 := (List.getElem?_eq_some_iff.1 h2).2
          rcases Nat.lt_trichotomy (below (ord cmp) k xs).length i with h | h | h
          · have := hs _ _ hb hi h
            rw [e1, e2, Ord.refl (o := ord cmp)] at this; cases this
          · exact h
          · have := hs _ _ hi hb h
            rw [e1, e2, Ord.refl (o := ord cmp)] at this; cases this
        rw [hof, h1, this]; simp
  · intro k
    rcases hR.sorted.same_le k with h1 | ⟨e, h1, h2⟩
    · left
      refine ⟨by rw [hof, h1]; rfl, fun e he hk => ?_⟩
      have := mem_same.2 ⟨he, ord_eq.2 hk⟩
      rw [h1] at this; simp at this
    · right
      exact ⟨(below (ord cmp) k xs).length, by rw [hof, h1]; simp, by rw [hbelow], e, hpos k e h1, ord_eq.1 h2⟩

example : ∃ t : T Int (Option String), step 2 Compare.any t (.index 1) = some (t, .entry (5, some "e")) ∧
    step 2 Compare.any t (.indexOf 5) = some (t, .int 1) := by
  obtain ⟨t, h⟩ := demo_reached
  obtain ⟨-, h2, -⟩ := C38_ranks any_lawful h
  exact ⟨t, (h2 1 (5, some "e") rfl).1, (h2 1 (5, some "e") rfl).2 5 rfl⟩

/-! ### C39 -/

/-- The result of a call on a reached tree, as a reached tree. -/
theorem reach_of_legal (hc : Lawful cmp) {shift : Nat} {t : T K (Option W)} {xs : List (K × Option W)}
    (h : Reached shift cmp t xs) (op : Op K W) (hl : legal cmp xs op) (hl' : legalState cmp xs op) :
    ∃ t', step shift cmp t op = some (t', (spec (ord cmp) xs op).2) ∧
      Reached shift cmp t' (spec (ord cmp) xs op).1 := by
  obtain ⟨t', h1, -⟩ := step_ok hc (shift := shift) hl (h.rel hc)
  exact ⟨t', h1, h.next hl' h1⟩

theorem inside_iff {low high k : K} :
    inside (ord cmp) low high k = (decide (cmp low k ≤ 0) && decide (cmp k high ≤ 0)) := by
  unfold inside
  rw [Bool.eq_iff_iff]
  simp [ord_gt]

/-- C39, keys. Missing from the full statement: comparators whose results differ in more than the sign,
see `C39_difference_comparator`. -/
theorem C39_removeRange_partial (hc : Lawful cmp) (hu : Uniform cmp) {shift : Nat}
    {t : T K (Option W)} {xs : List (K × Option W)} (h : Reached shift cmp t xs) {low high : K}
    (hlh : cmp low high ≤ 0) :
    ∃ t', step shift cmp t (.removeRange low high) = some (t', .unit) ∧
      Reached shift cmp t'
        (xs.filter fun e => !(decide (cmp low e.1 ≤ 0) && decide (cmp e.1 high ≤ 0))) := by
  obtain ⟨t', h1, h2⟩ := reach_of_legal hc h (.removeRange low high) hu hu
  have h3 : ¬(ord cmp low high == .gt) = true := by simp [ord_gt]; omega
  rw [spec, if_neg h3] at h1 h2
  simp only [inside_iff] at h2
  exact ⟨t', h1, h2⟩

/-- C39, ranks: a range that meets the ranks of the tree (the part outside of them is ignored). -/
theorem C39_removeRangeByIndex (hc : Lawful cmp) {shift : Nat}
    {t : T K (Option W)} {xs : List (K × Option W)} (h : Reached shift cmp t xs) {low high : Int}
    (hlh : low ≤ high) (h1 : 0 ≤ high) (h2 : low < xs.length) (h3 : xs ≠ []) :
    ∃ t', step shift cmp t (.removeRangeByIndex low high) = some (t', .unit) ∧
      Reached shift cmp t' (xs.take low.toNat ++ xs.drop (high + 1).toNat) := by
  obtain ⟨t', h4, h5⟩ := reach_of_legal hc h (.removeRangeByIndex low high) trivial trivial
  have h6 : 0 < xs.length := List.length_pos_iff.2 h3
  rw [spec, if_neg (by omega), if_neg (by omega)] at h4 h5
  exact ⟨t', h4, h5⟩

/-- C39, ranks: a range that does not meet the ranks of the tree panics and changes nothing. -/
theorem C39_removeRangeByIndex_panics (hc : Lawful cmp) {shift : Nat}
    {t : T K (Option W)} {xs : List (K × Option W)} (h : Reached shift cmp t xs) {low high : Int}
    (hlh : low ≤ high) (hr : high < 0 ∨ xs.length ≤ low ∨ xs = []) :
    ∃ t', step shift cmp t (.removeRangeByIndex low high) = some (t', .panic) ∧
      Reached shift cmp t' xs := by
  obtain ⟨t', h4, h5⟩ := reach_of_legal hc h (.removeRangeByIndex low high) trivial trivial
  have : max low 0 > min high ((xs.length : Int) - 1) := by
    rcases hr with hr | hr | hr
    · omega
    · omega
    · subst hr; simp only [List.length_nil]; omega
  rw [spec, if_neg (by omega), if_pos this] at h4 h5
  exact ⟨t', h4, h5⟩

/-- `RemoveRange(2, 3)` of {0, 1, 2, 3} with a comparator that answers with the difference removes the
key 1, too. -/
theorem C39_difference_comparator : ∃ t : T Int (Option Unit),
    run (step 2 diff) nil [.put 0 none, .put 1 none, .put 2 none, .put 3 none, .removeRange 2 3,
      .get 0, .get 1, .size] =
    some (t, [.bool true, .bool true, .bool true, .bool true, .unit, .found (some none), .found none,
      .int 1]) := ⟨_, rfl⟩

example : ∃ t t' : T Int (Option String), step 2 Compare.any t (.removeRange 4 9) = some (t', .unit) ∧
    Reached 2 Compare.any t' [(3, some "c")] := by
  obtain ⟨t, h⟩ := demo_reached
  obtain ⟨t', h1⟩ := C39_removeRange_partial any_lawful any_uniform h (low := 4) (high := 9) (by decide)
  exact ⟨t, t', h1⟩

example : ∃ t t' : T Int (Option String),
    step 2 Compare.any t (.removeRangeByIndex (-1) 0) = some (t', .unit) ∧
    Reached 2 Compare.any t' [(5, some "e")] := by
  obtain ⟨t, h⟩ := demo_reached
  obtain ⟨t', h1⟩ := C39_removeRangeByIndex any_lawful h (low := -1) (high := 0) (by decide) (by decide)
    (by decide) (by decide)
  exact ⟨t, t', h1⟩

example : ∃ t t' : T Int (Option String),
    step 2 Compare.any t (.removeRangeByIndex 2 7) = some (t', .panic) ∧
    Reached 2 Compare.any t' [(3, some "c"), (5, some "e")] := by
  obtain ⟨t, h⟩ := demo_reached
  obtain ⟨t', h1⟩ := C39_removeRangeByIndex_panics any_lawful h (low := 2) (high := 7) (by decide)
    (by decide)
  exact ⟨t, t', h1⟩

/-! ### C40 -/

/-- C40, keys. Missing from the full statement: comparators whose results differ in more than the sign,
see `C40_difference_comparator`. -/
theorem C40_trim_partial (hc : Lawful cmp) (hu : Uniform cmp) {shift : Nat}
    {t : T K (Option W)} {xs : List (K × Option W)} (h : Reached shift cmp t xs) {low high : K}
    (hlh : cmp low high ≤ 0) :
    ∃ t', step shift cmp t (.trim low high) = some (t', .unit) ∧
      Reached shift cmp t'
        (xs.filter fun e => decide (cmp low e.1 ≤ 0) && decide (cmp e.1 high ≤ 0)) := by
  obtain ⟨t', h1, h2⟩ := reach_of_legal hc h (.trim low high) hu hu
  have h3 : ¬(ord cmp low high == .gt) = true := by simp [ord_gt]; omega
  rw [spec, if_neg h3] at h1 h2
  simp only [inside_iff] at h2
  exact ⟨t', h1, h2⟩

/-- C40, ranks. -/
theorem C40_trimByIndex (hc : Lawful cmp) {shift : Nat}
    {t : T K (Option W)} {xs : List (K × Option W)} (h : Reached shift cmp t xs) {low high : Int}
    (hlh : low ≤ high) (h1 : 0 ≤ low) (h2 : high < xs.length) :
    ∃ t', step shift cmp t (.trimByIndex low high) = some (t', .unit) ∧
      Reached shift cmp t' ((xs.drop low.toNat).take (high + 1 - low).toNat) := by
  obtain ⟨t', h4, h5⟩ := reach_of_legal hc h (.trimByIndex low high) (fun _ _ _ => h2) (fun _ _ _ => h2)
  rw [spec, if_neg (by omega)] at h4 h5
  exact ⟨t', h4, h5⟩

/-- C40, ranks out of range: the call panics. It leaves the tree unchanged if the first rank is out of
range, too. Missing from the full statement: the tree is unchanged in the other case; it is not, see
`C40_trimByIndex_corrupts`. -/
theorem C40_trimByIndex_panics_partial (hc : Lawful cmp) {shift : Nat}
    {t : T K (Option W)} {xs : List (K × Option W)} (h : Reached shift cmp t xs) {low high : Int}
    (hr : low > high ∨ low < 0 ∨ xs.length ≤ high) :
    ∃ t', step shift cmp t (.trimByIndex low high) = some (t', .panic) ∧
      (low > high ∨ low < 0 ∨ xs.length ≤ low → t' = t) := by
  have hR := h.rel hc
  have hlen : (t.toList.length : Int) = xs.length := by rw [hR.list]
  by_cases h1 : low > high
  · exact ⟨t, by rw [step, if_pos h1], fun _ => rfl⟩
  · by_cases h2 : low < 0 ∨ xs.length ≤ low
    · have h3 := trimIdx_untouched (low := low) (high := high) (by omega) hR.exact (here_root t)
        (by omega)
      exact ⟨t, by rw [step, if_neg h1, h3], fun _ => rfl⟩
    · obtain ⟨t', h3⟩ := trimIdx_broken (low := low) (high := high) hR.exact (here_root t)
        (by omega) (by omega) (by omega)
      exact ⟨t', by rw [step, if_neg h1, h3], fun h => by omega⟩

theorem C40_difference_comparator : ∃ t : T Int (Option Unit),
    run (step 2 diff) nil [.put 0 none, .put 1 none, .put 2 none, .put 3 none, .trim 2 3,
      .get 0, .size] =
    some (t, [.bool true, .bool true, .bool true, .bool true, .unit, .found (some none), .int 4]) :=
  ⟨_, rfl⟩

/-- `TrimByIndex(5, 9)` of seven keys panics, after it has removed the key with the rank 4 and left the
size as it was. -/
theorem C40_trimByIndex_corrupts : ∃ t : T Int (Option Unit),
    run (step 2 Compare.any) nil ([0, 1, 2, 3, 4, 5, 6].map (fun k => .put k none) ++
      [.trimByIndex 5 9, .get 4, .size, .index 6]) =
    some (t, [.bool true, .bool true, .bool true, .bool true, .bool true, .bool true, .bool true,
      .panic, .found none, .int 7, .panic]) := ⟨_, rfl⟩

example : ∃ t t' : T Int (Option String), step 2 Compare.any t (.trim 4 9) = some (t', .unit) ∧
    Reached 2 Compare.any t' [(5, some "e")] := by
  obtain ⟨t, h⟩ := demo_reached
  obtain ⟨t', h1⟩ := C40_trim_partial any_lawful any_uniform h (low := 4) (high := 9) (by decide)
  exact ⟨t, t', h1⟩

example : ∃ t t' : T Int (Option String), step 2 Compare.any t (.trimByIndex 1 1) = some (t', .unit) ∧
    Reached 2 Compare.any t' [(5, some "e")] := by
  obtain ⟨t, h⟩ := demo_reached
  obtain ⟨t', h1⟩ := C40_trimByIndex any_lawful h (low := 1) (high := 1) (by decide) (by decide)
    (by decide)
  exact ⟨t, t', h1⟩

example : ∃ t : T Int (Option String), step 2 Compare.any t (.trimByIndex (-1) 1) = some (t, .panic) := by
  obtain ⟨t, h⟩ := demo_reached
  obtain ⟨t', h1, h2⟩ := C40_trimByIndex_panics_partial any_lawful h (low := -1) (high := 1) (by decide)
  exact ⟨t, h2 (by decide) ▸ h1⟩

/-! ### C41 -/

/-- C41: `Split` (`incl = false`) and `SplitContain` (`incl = true`) of a tree that is not empty: what
stays in the tree and what is in the tree returned; both are trees as any other. Missing from the full
statement: an empty tree, for which nil is returned, `C41_split_empty`. -/
theorem C41_split_partial (hc : Lawful cmp) {shift : Nat} {t : T K (Option W)}
    {xs : List (K × Option W)} (h : Reached shift cmp t xs) (hn : xs ≠ []) (key : K) :
    (∃ l r, split cmp false key t = some (l, r) ∧
      Reached shift cmp l (xs.filter fun e => decide (cmp e.1 key < 0)) ∧
      Reached shift cmp r (xs.filter fun e => decide (0 ≤ cmp e.1 key))) ∧
    (∃ l r, split cmp true key t = some (l, r) ∧
      Reached shift cmp l (xs.filter fun e => decide (cmp e.1 key ≤ 0)) ∧
      Reached shift cmp r (xs.filter fun e => decide (0 < cmp e.1 key))) := by
  have hR := h.rel hc
  have hnt : t ≠ nil := by rintro rfl; exact hn hR.list.symm
  have hst : Sorted (ord cmp) t.toList := by rw [hR.list]; exact hR.sorted
  have key' : ∀ incl, ∃ l r, split cmp incl key t = some (l, r) ∧
      Reached shift cmp l (lefts (ord cmp) incl key xs) ∧
      Reached shift cmp r (rights (ord cmp) incl key xs) := by
    intro incl
    obtain ⟨p, h1, -⟩ := split_ok hc (incl := incl) (key := key) hR.exact hst hnt
    refine ⟨p.1, p.2, h1, ?_, ?_⟩
    · exact h.next (op := .split key incl false) (r := .unit) (fun h => by cases h)
        (by rw [step, h1]; rfl)
    · exact h.next (op := .split key incl true) (r := .unit) (fun _ => hn) (by rw [step, h1]; rfl)
  refine ⟨?_, ?_⟩
  · obtain ⟨l, r, h1, h2, h3⟩ := key' false
    refine ⟨l, r, h1, ?_, ?_⟩
    · convert h2 using 1
      unfold lefts; congr 1; funext e
      rw [Bool.eq_iff_iff]; simp [ord_lt]
    · convert h3 using 1
      unfold rights; congr 1; funext e
      rw [Bool.eq_iff_iff]; simp [ord_lt]
  · obtain ⟨l, r, h1, h2, h3⟩ := key' true
    refine ⟨l, r, h1, ?_, ?_⟩
    · convert h2 using 1
      unfold lefts; congr 1; funext e
      rw [Bool.eq_iff_iff]; simp [ord_gt]
    · convert h3 using 1
      unfold rights; congr 1; funext e
      rw [Bool.eq_iff_iff]; simp [ord_gt]

/-- On an empty tree both return nil, not an empty tree. -/
theorem C41_split_empty (incl : Bool) (key : K) : split cmp incl key (nil : T K W) = none := rfl

example : ∃ t l r : T Int (Option String), split Compare.any false 5 t = some (l, r) ∧
    Reached 2 Compare.any l [(3, some "c")] ∧ Reached 2 Compare.any r [(5, some "e")] := by
  obtain ⟨t, h⟩ := demo_reached
  obtain ⟨⟨l, r, h1⟩, -⟩ := C41_split_partial any_lawful h (by simp) 5
  exact ⟨t, l, r, h1⟩

/-! ### C42 -/

/-- C42, walking: on every tree of height at most 128, every history of calls on a new iterator answers
as the cursor `ispec` and does not panic. Missing from the full statement, see the theorems below: `SeekGT`
and `SeekLT`; `Next` and `Prev` after `SeekByIndex`; `Index` after a `SeekGE` or `SeekLE` for a key that is
not there and after more than one step past an end; higher trees. -/
theorem C42_iterator_partial (hc : Lawful cmp) {shift : Nat} {t : T K (Option W)}
    {xs : List (K × Option W)} (h : Reached shift cmp t xs) (hh : t.height ≤ 128) (ops : List (IOp K))
    (hl : LegalRun (ispec (ord cmp) xs) (ilegal xs) ⟨none, false, true⟩ ops) :
    ∃ s, run (istep cmp t) (It.new t) ops =
      some (s, (runSpec (ispec (ord cmp) xs) ⟨none, false, true⟩ ops).2) := by
  have hR := h.rel hc
  have hx := hR.list
  subst hx
  obtain ⟨s, h1, -⟩ := irun_ok hc hR.exact hR.sorted hh ops hl
  exact ⟨s, h1⟩

/-- C42, seeking: after every history of calls on an iterator, `SeekGE` and `SeekLE` go to the nearest entry
and report whether the key is there. Missing: `SeekGT` and `SeekLT`. -/
theorem C42_seek_partial (hc : Lawful cmp) {shift : Nat} {t : T K (Option W)}
    {xs : List (K × Option W)} (h : Reached shift cmp t xs) (hh : t.height ≤ 128) (ops : List (IOp K))
    (hl : LegalRun (ispec (ord cmp) xs) (ilegal xs) ⟨none, false, true⟩ ops) (key : K) :
    ∃ s rs, run (istep cmp t) (It.new t) ops = some (s, rs) ∧
      (∃ i, istep cmp t s (.seekGE key) = some (i, .bool (xs.any fun e => decide (cmp e.1 key = 0))) ∧
        i.it.current = (xs.filter fun e => decide (0 ≤ cmp e.1 key)).head?) ∧
      (∃ i, istep cmp t s (.seekLE key) = some (i, .bool (xs.any fun e => decide (cmp e.1 key = 0))) ∧
        i.it.current = (xs.filter fun e => decide (cmp e.1 key ≤ 0)).getLast?) := by
  have : Std.TransCmp (ord cmp) := hc
  have hR := h.rel hc
  have hx := hR.list
  subst hx
  obtain ⟨s, h1, h2⟩ := irun_ok hc hR.exact hR.sorted hh ops hl
  obtain ⟨e1, -, e3, -⟩ := Avl.seek_entry hR.sorted.le key
  have heq : (t.toList.any fun e => decide (cmp e.1 key = 0)) = Avl.has (ord cmp) key t.toList := by
    unfold Avl.has; congr 1; funext e
    rw [Bool.eq_iff_iff]; simp [ord_eq]
  have hend : ∀ i, Avl.entryAt t.toList (if t.toList.isEmpty then none else some i) =
      Avl.entryAt t.toList (some i) := by
    intro i
    cases t.toList <;> simp [Avl.entryAt]
  refine ⟨s, _, h1, ?_, ?_⟩
  · obtain ⟨i, g1, g2⟩ := seekEqual_ok hc hR.exact hR.sorted h2 key true
    refine ⟨i, by rw [heq]; exact g1, ?_⟩
    have e : (fun e : K × Option W => decide (0 ≤ cmp e.1 key)) = fun e => ord cmp e.1 key != .lt := by
      funext e; rw [Bool.eq_iff_iff]; simp [ord_lt]
    rw [g2.cur, e, ← e1]
    exact hend _
  · obtain ⟨i, g1, g2⟩ := seekEqual_ok hc hR.exact hR.sorted h2 key false
    refine ⟨i, by rw [heq]; exact g1, ?_⟩
    have e : (fun e : K × Option W => decide (cmp e.1 key ≤ 0)) = fun e => ord cmp e.1 key != .gt := by
      funext e; rw [Bool.eq_iff_iff]; simp [ord_gt]
    rw [g2.cur, e, ← e3]
    exact hend _

/-- The tree {1, 2, 3} of the witnesses below. -/
def three : T Int (Option Unit) := node 3 2 none (node 1 1 none nil nil) (node 1 3 none nil nil)

theorem three_reached : Reached 2 Compare.any three [(1, none), (2, none), (3, none)] :=
  ⟨[.put 2 none, .put 1 none, .put 3 none], _, ⟨trivial, trivial, trivial, trivial⟩, rfl, rfl⟩

/-- `SeekGT(1)` goes to 3. -/
theorem C42_seekGT_wrong : ∃ s, run (istep Compare.any three) (It.new three) [.seekGT 1, .entry] =
    some (s, [.bool true, .entry (3, none)]) := ⟨_, rfl⟩

/-- `SeekLT(3)` reports that the key is not there. -/
theorem C42_seekLT_wrong : ∃ s, run (istep Compare.any three) (It.new three) [.seekLT 3] =
    some (s, [.bool false]) := ⟨_, rfl⟩

/-- `SeekGT` for a key below the only one panics. -/
theorem C42_seekGT_panics : Reached 2 Compare.any (node 1 5 none nil nil : T Int (Option Unit)) [(5, none)] ∧
    run (istep Compare.any (node 1 5 none nil nil : T Int (Option Unit)))
      (It.new (node 1 5 none nil nil)) [.seekGT 1] = none :=
  ⟨⟨[.put 5 none], _, ⟨trivial, trivial⟩, rfl, rfl⟩, rfl⟩

/-- `SeekGE` for a key that is not there: on the right entry, but `Index` is -1. -/
theorem C42_index_after_seekGE : ∃ s, run (istep Compare.any three) (It.new three)
    [.seekGE 0, .entry, .index] = some (s, [.bool false, .entry (1, none), .int (-1)]) := ⟨_, rfl⟩

/-- `Next` after `SeekByIndex(0)` goes to the end. -/
theorem C42_next_after_seekByIndex : ∃ s, run (istep Compare.any three) (It.new three)
    [.seekByIndex 0, .entry, .next, .valid] = some (s, [.unit, .entry (1, none), .unit, .bool false]) :=
  ⟨_, rfl⟩

/-- Two steps past the end and one back: on the last entry with `Index` 3. -/
theorem C42_index_past_end : ∃ s, run (istep Compare.any three) (It.new three)
    [.seekToLast, .next, .next, .prev, .entry, .index] =
    some (s, [.unit, .unit, .unit, .unit, .entry (3, none), .int 3]) := ⟨_, rfl⟩

example : ∃ s, run (istep Compare.any three) (It.new three)
    [.seekToFirst, .entry, .index, .next, .entry, .index, .next, .index, .next, .valid, .prev, .entry,
      .seekGE 0, .entry, .seekLE 7, .entry, .seekByIndex 1, .index] =
    some (s, [.unit, .entry (1, none), .int 0, .unit, .entry (2, none), .int 1, .unit, .int 2, .unit,
      .bool false, .unit, .entry (3, none), .bool false, .entry (1, none), .bool false, .entry (3, none),
      .unit, .int 1]) := by
  obtain ⟨s, h⟩ := C42_iterator_partial any_lawful three_reached (by decide)
    [.seekToFirst, .entry, .index, .next, .entry, .index, .next, .index, .next, .valid, .prev, .entry,
      .seekGE 0, .entry, .seekLE 7, .entry, .seekByIndex 1, .index]
    ⟨trivial, (by rw [ilegal]; decide), rfl, rfl, (by rw [ilegal]; decide), rfl, rfl, rfl, rfl, trivial, rfl,
      (by rw [ilegal]; decide), trivial, (by rw [ilegal]; decide), trivial, (by rw [ilegal]; decide),
      trivial, rfl, trivial⟩
  exact ⟨s, h.trans rfl⟩

example : ∃ s rs i, run (istep Compare.any three) (It.new three) [.seekToLast, .next] = some (s, rs) ∧
    istep Compare.any three s (.seekGE 2) = some (i, .bool true) ∧
    i.it.current = some (2, none) := by
  obtain ⟨s, rs, h1, ⟨i, h2, h3⟩, -⟩ := C42_seek_partial any_lawful three_reached (by decide)
    [.seekToLast, .next] ⟨trivial, rfl, trivial⟩ 2
  exact ⟨s, rs, i, h1, h2, h3⟩

end Verif.IndexTree
