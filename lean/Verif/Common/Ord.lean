/-
Comparator conventions of the repository and the laws assumed of user supplied comparators.
-/

namespace Verif

/-- Decoding of the ordinary three-way convention (`c < 0`, `c > 0`, otherwise equal) as tested by
tree/indextree/tree.go:73-98, tree/treelist/utils.go:78-100, tree/skiplist/skiplist.go:72-78 and
tree/heap/heap.go:74,127,139. -/
def ordOf (c : Int) : Ordering :=
  if c < 0 then .lt else if c > 0 then .gt else .eq

/-- Decoding of the search-tree ("Ex") convention: `Compare(cur.Key, key)` negative means equal,
`0` means `key` belongs to child 0 (so `cur > key`), `1` means child 1 (so `cur < key`), as used by
tree/avl/tree_hide.go:20-27, tree/avls/tree_hide.go, set/treeset/tree_hide.go and
queue/priority/tree_hide.go:27-30. Go indexes a two-element array with the result, so a result
greater than 1 panics; `LawfulEx` excludes it. -/
def exOrd (c : Int) : Ordering :=
  if c < 0 then .eq else if c = 0 then .gt else .lt

/-- A lawful comparator in the ordinary convention: its sign describes a total preorder. -/
def Lawful {K : Type} (cmp : K → K → Int) : Prop :=
  Std.TransCmp (fun a b => ordOf (cmp a b))

/-- A lawful comparator in the search-tree convention: results are -1, 0, 1 and describe a total
preorder. -/
structure LawfulEx {K : Type} (cmp : K → K → Int) : Prop where
  range : ∀ a b, cmp a b = -1 ∨ cmp a b = 0 ∨ cmp a b = 1
  trans : Std.TransCmp (fun a b => exOrd (cmp a b))

namespace Ord
variable {K : Type} {o : K → K → Ordering} [ht : Std.TransCmp o]
include ht

theorem refl (a : K) : o a a = .eq := Std.ReflCmp.compare_self

theorem gt_iff {a b : K} : o a b = .gt ↔ o b a = .lt := Std.OrientedCmp.gt_iff_lt

theorem lt_iff {a b : K} : o a b = .lt ↔ o b a = .gt := Std.OrientedCmp.gt_iff_lt.symm

theorem eq_symm {a b : K} (h : o a b = .eq) : o b a = .eq := Std.OrientedCmp.eq_symm h

theorem eq_comm {a b : K} : o a b = .eq ↔ o b a = .eq := ⟨eq_symm, eq_symm⟩

theorem lt_trans {a b c : K} (h1 : o a b = .lt) (h2 : o b c = .lt) : o a c = .lt :=
  Std.TransCmp.lt_trans h1 h2

theorem lt_of_lt_of_eq {a b c : K} (h1 : o a b = .lt) (h2 : o b c = .eq) : o a c = .lt :=
  Std.TransCmp.lt_of_lt_of_eq h1 h2

theorem lt_of_eq_of_lt {a b c : K} (h1 : o a b = .eq) (h2 : o b c = .lt) : o a c = .lt :=
  Std.TransCmp.lt_of_eq_of_lt h1 h2

theorem eq_trans {a b c : K} (h1 : o a b = .eq) (h2 : o b c = .eq) : o a c = .eq :=
  Std.TransCmp.eq_trans h1 h2

theorem gt_trans {a b c : K} (h1 : o a b = .gt) (h2 : o b c = .gt) : o a c = .gt := by
  rw [gt_iff] at *; exact lt_trans h2 h1

theorem gt_of_gt_of_eq {a b c : K} (h1 : o a b = .gt) (h2 : o b c = .eq) : o a c = .gt := by
  rw [gt_iff] at *; exact lt_of_eq_of_lt (eq_symm h2) h1

theorem gt_of_eq_of_gt {a b c : K} (h1 : o a b = .eq) (h2 : o b c = .gt) : o a c = .gt := by
  rw [gt_iff] at *; exact lt_of_lt_of_eq h2 (eq_symm h1)

theorem congr_left {a b c : K} (h : o a b = .eq) : o a c = o b c := by
  cases hb : o b c
  · exact lt_of_eq_of_lt h hb
  · exact eq_trans h hb
  · exact gt_of_eq_of_gt h hb

theorem congr_right {a b c : K} (h : o a b = .eq) : o c a = o c b := by
  cases hb : o c b
  · exact lt_of_lt_of_eq hb (eq_symm h)
  · exact eq_trans hb (eq_symm h)
  · exact gt_of_gt_of_eq hb (eq_symm h)

/-- Non-strict transitivity: not greater, then not greater. -/
theorem ngt_trans {a b c : K} (h1 : o a b ≠ .gt) (h2 : o b c ≠ .gt) : o a c ≠ .gt := by
  cases hab : o a b <;> cases hbc : o b c <;> simp_all
  · rw [lt_trans hab hbc]; simp
  · rw [lt_of_lt_of_eq hab hbc]; simp
  · rw [lt_of_eq_of_lt hab hbc]; simp
  · rw [eq_trans hab hbc]; simp

theorem lt_of_lt_of_ngt {a b c : K} (h1 : o a b = .lt) (h2 : o b c ≠ .gt) : o a c = .lt := by
  cases hbc : o b c
  · exact lt_trans h1 hbc
  · exact lt_of_lt_of_eq h1 hbc
  · exact absurd hbc h2

theorem lt_of_ngt_of_lt {a b c : K} (h1 : o a b ≠ .gt) (h2 : o b c = .lt) : o a c = .lt := by
  cases hab : o a b
  · exact lt_trans hab h2
  · exact lt_of_eq_of_lt hab h2
  · exact absurd hab h1

end Ord

theorem Lawful.transCmp {K : Type} {cmp : K → K → Int} (h : Lawful cmp) :
    Std.TransCmp (fun a b => ordOf (cmp a b)) := h

/-- How to establish `TransCmp` for an ordering valued function from elementary laws. -/
theorem transCmp_of {K : Type} (o : K → K → Ordering)
    (hswap : ∀ a b, o a b = (o b a).swap)
    (htr : ∀ a b c, o a b ≠ .gt → o b c ≠ .gt → o a c ≠ .gt) : Std.TransCmp o where
  eq_swap := by intro a b; exact hswap a b
  isLE_trans := by
    intro a b c h1 h2
    have := htr a b c (by intro h; simp [h] at h1) (by intro h; simp [h] at h2)
    cases h : o a c
    · rfl
    · rfl
    · exact absurd h this

end Verif
