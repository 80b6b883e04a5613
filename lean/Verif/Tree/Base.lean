import Verif.Common.Ord
import Verif.Common.Tac

/-! Binary trees with payload, their in-order list, and lists of entries sorted by key. -/

namespace Verif

/-- A search tree: every node has some bookkeeping `a` (a height or a size), a key, a value and two
children (`Children[0]`, `Children[1]` in Go). -/
inductive Tree (A K V : Type) where
  | nil : Tree A K V
  | node (a : A) (k : K) (v : V) (l r : Tree A K V) : Tree A K V

variable {A K V : Type}

namespace Tree

/-- The entries in order. -/
def toList : Tree A K V → List (K × V)
  | nil => []
  | node _ k v l r => l.toList ++ (k, v) :: r.toList

@[simp] theorem toList_nil : (nil : Tree A K V).toList = [] := rfl
@[simp] theorem toList_node (a : A) (k : K) (v : V) (l r : Tree A K V) :
    (node a k v l r).toList = l.toList ++ (k, v) :: r.toList := rfl

/-- Is the pointer nil? -/
def isNil : Tree A K V → Bool
  | nil => true
  | node .. => false

/-- The true height. -/
def height : Tree A K V → Nat
  | nil => 0
  | node _ _ _ l r => max l.height r.height + 1

/-- The number of nodes. -/
def count : Tree A K V → Nat
  | nil => 0
  | node _ _ _ l r => l.count + r.count + 1

theorem count_eq (t : Tree A K V) : t.count = t.toList.length := by
  induction t with
  | nil => rfl
  | node a k v l r ihl ihr => simp only [count, ihl, ihr, toList, List.length_append, List.length_cons]; omega

theorem height_le_count (t : Tree A K V) : t.height ≤ t.count := by
  induction t with
  | nil => simp [height]
  | node a k v l r ihl ihr => simp only [height, count]; omega

theorem toList_eq_nil {t : Tree A K V} : t.toList = [] ↔ t = nil := by
  cases t <;> simp

/-- `Traverse` of the search trees (tree/avl/tree.go:114-133, tree/avls/tree.go:113-131,
set/treeset/tree.go:128-147, tree/indextree and tree/treelist alike): the entries handed to the
callback, and whether the walk goes on. -/
def traverse (every : K → V → Bool) : Tree A K V → List (K × V) × Bool
  | nil => ([], true)
  | node _ k v l r =>
    match l.traverse every with
    | (xs, false) => (xs, false)
    | (xs, true) =>
      if every k v then
        match r.traverse every with
        | (ys, b) => (xs ++ (k, v) :: ys, b)
      else (xs ++ [(k, v)], false)

end Tree

/-- The entries a callback sees that stops the walk by answering false: up to and including the
first entry refused. -/
def seen {α : Type} (every : α → Bool) : List α → List α
  | [] => []
  | x :: xs => if every x then x :: seen every xs else [x]

theorem seen_append {α : Type} (every : α → Bool) (xs ys : List α) :
    seen every (xs ++ ys) = if xs.all every then xs ++ seen every ys else seen every xs := by
  induction xs with
  | nil => simp
  | cons x xs ih =>
    simp only [List.cons_append, seen, ih, List.all_cons]
    by_cases h : every x <;> by_cases h' : xs.all every <;> simp [h, h']

theorem seen_all {α : Type} (every : α → Bool) (xs : List α) (h : xs.all every) :
    seen every xs = xs := by
  have := seen_append every xs []
  simpa [h, seen] using this

theorem seen_true {α : Type} (xs : List α) : seen (fun _ => true) xs = xs :=
  seen_all _ _ (by simp)

theorem Tree.traverse_eq (every : K → V → Bool) (t : Tree A K V) :
    t.traverse every = (seen (fun e => every e.1 e.2) t.toList,
      t.toList.all fun e => every e.1 e.2) := by
  induction t with
  | nil => rfl
  | node a k v l r ihl ihr =>
    simp only [traverse, ihl, ihr, toList]
    rw [seen_append]
    by_cases h : l.toList.all fun e => every e.1 e.2
    · simp only [h, seen, if_true, List.all_append, List.all_cons, Bool.true_and]
      by_cases h' : every k v
      · simp [h', seen_all _ _ h]
      · simp [h', seen_all _ _ h]
    · rw [Bool.not_eq_true] at h
      simp [h]

/-! ### Sorted lists of entries -/

section
variable (o : K → K → Ordering)

/-- Strictly increasing keys. -/
def Sorted (xs : List (K × V)) : Prop := xs.Pairwise fun a b => o a.1 b.1 = .lt
/-- Keys in order, repetitions allowed. -/
def SortedLE (xs : List (K × V)) : Prop := xs.Pairwise fun a b => o a.1 b.1 ≠ .gt

/-- The entries with a smaller key. -/
def below (k : K) (xs : List (K × V)) : List (K × V) := xs.filter fun e => o e.1 k == .lt
/-- The entries with an equal key. -/
def same (k : K) (xs : List (K × V)) : List (K × V) := xs.filter fun e => o e.1 k == .eq
/-- The entries with a greater key. -/
def above (k : K) (xs : List (K × V)) : List (K × V) := xs.filter fun e => o e.1 k == .gt

end

section
variable {o : K → K → Ordering}

theorem Sorted.le {xs : List (K × V)} (h : Sorted o xs) : SortedLE o xs :=
  List.Pairwise.imp (fun h => by rw [h]; simp) h

@[simp] theorem below_nil (k : K) : below o k ([] : List (K × V)) = [] := rfl
@[simp] theorem same_nil (k : K) : same o k ([] : List (K × V)) = [] := rfl
@[simp] theorem above_nil (k : K) : above o k ([] : List (K × V)) = [] := rfl

theorem below_append (k : K) (xs ys : List (K × V)) :
    below o k (xs ++ ys) = below o k xs ++ below o k ys := List.filter_append ..
theorem same_append (k : K) (xs ys : List (K × V)) :
    same o k (xs ++ ys) = same o k xs ++ same o k ys := List.filter_append ..
theorem above_append (k : K) (xs ys : List (K × V)) :
    above o k (xs ++ ys) = above o k xs ++ above o k ys := List.filter_append ..

theorem below_cons (k : K) (e : K × V) (xs : List (K × V)) :
    below o k (e :: xs) = if o e.1 k = .lt then e :: below o k xs else below o k xs := by
  simp [below, List.filter_cons]
theorem same_cons (k : K) (e : K × V) (xs : List (K × V)) :
    same o k (e :: xs) = if o e.1 k = .eq then e :: same o k xs else same o k xs := by
  simp [same, List.filter_cons]
theorem above_cons (k : K) (e : K × V) (xs : List (K × V)) :
    above o k (e :: xs) = if o e.1 k = .gt then e :: above o k xs else above o k xs := by
  simp [above, List.filter_cons]

/-- All keys smaller. -/
theorem all_lt {k : K} {xs : List (K × V)} (h : ∀ e ∈ xs, o e.1 k = .lt) :
    below o k xs = xs ∧ same o k xs = [] ∧ above o k xs = [] := by
  refine ⟨List.filter_eq_self.2 fun e he => by simp [h e he],
    List.filter_eq_nil_iff.2 fun e he => by simp [h e he],
    List.filter_eq_nil_iff.2 fun e he => by simp [h e he]⟩

theorem all_gt {k : K} {xs : List (K × V)} (h : ∀ e ∈ xs, o e.1 k = .gt) :
    below o k xs = [] ∧ same o k xs = [] ∧ above o k xs = xs := by
  refine ⟨List.filter_eq_nil_iff.2 fun e he => by simp [h e he],
    List.filter_eq_nil_iff.2 fun e he => by simp [h e he],
    List.filter_eq_self.2 fun e he => by simp [h e he]⟩

theorem SortedLE.split {L R : List (K × V)} {e : K × V} :
    SortedLE o (L ++ e :: R) ↔ SortedLE o L ∧ SortedLE o R ∧ (∀ x ∈ L, o x.1 e.1 ≠ .gt) ∧
      (∀ x ∈ R, o e.1 x.1 ≠ .gt) ∧ ∀ x ∈ L, ∀ y ∈ R, o x.1 y.1 ≠ .gt := by
  unfold SortedLE
  rw [List.pairwise_append, List.pairwise_cons]
  constructor
  · rintro ⟨h1, ⟨h2, h3⟩, h4⟩
    exact ⟨h1, h3, fun x hx => h4 x hx e (by simp), h2, fun x hx y hy => h4 x hx y (by simp [hy])⟩
  · rintro ⟨h1, h3, h5, h2, h6⟩
    refine ⟨h1, ⟨h2, h3⟩, fun x hx y hy => ?_⟩
    rcases List.mem_cons.1 hy with rfl | hy
    · exact h5 x hx
    · exact h6 x hx y hy

theorem Sorted.split {L R : List (K × V)} {e : K × V} :
    Sorted o (L ++ e :: R) ↔ Sorted o L ∧ Sorted o R ∧ (∀ x ∈ L, o x.1 e.1 = .lt) ∧
      (∀ x ∈ R, o e.1 x.1 = .lt) ∧ ∀ x ∈ L, ∀ y ∈ R, o x.1 y.1 = .lt := by
  unfold Sorted
  rw [List.pairwise_append, List.pairwise_cons]
  constructor
  · rintro ⟨h1, ⟨h2, h3⟩, h4⟩
    exact ⟨h1, h3, fun x hx => h4 x hx e (by simp), h2, fun x hx y hy => h4 x hx y (by simp [hy])⟩
  · rintro ⟨h1, h3, h5, h2, h6⟩
    refine ⟨h1, ⟨h2, h3⟩, fun x hx y hy => ?_⟩
    rcases List.mem_cons.1 hy with rfl | hy
    · exact h5 x hx
    · exact h6 x hx y hy

theorem mem_below {k : K} {xs : List (K × V)} {e : K × V} :
    e ∈ below o k xs ↔ e ∈ xs ∧ o e.1 k = .lt := by simp [below]
theorem mem_same {k : K} {xs : List (K × V)} {e : K × V} :
    e ∈ same o k xs ↔ e ∈ xs ∧ o e.1 k = .eq := by simp [same]
theorem mem_above {k : K} {xs : List (K × V)} {e : K × V} :
    e ∈ above o k xs ↔ e ∈ xs ∧ o e.1 k = .gt := by simp [above]

variable [ht : Std.TransCmp o]
include ht

/-- The sought key is smaller than the key in the middle. -/
theorem split_gt {L R : List (K × V)} {e : K × V} {k : K} (h : SortedLE o (L ++ e :: R))
    (he : o e.1 k = .gt) : below o k (L ++ e :: R) = below o k L ∧
      same o k (L ++ e :: R) = same o k L ∧ above o k (L ++ e :: R) = above o k L ++ e :: R := by
  obtain ⟨-, -, -, h4, -⟩ := SortedLE.split.1 h
  obtain ⟨a, b, c⟩ := all_gt (o := o) (k := k) (xs := R) (fun x hx => by
    have := h4 x hx
    rw [Ord.gt_iff] at he ⊢
    exact Ord.lt_of_lt_of_ngt he this)
  simp [below_append, same_append, above_append, below_cons, same_cons, above_cons, he, a, b, c]

/-- The sought key is greater than the key in the middle. -/
theorem split_lt {L R : List (K × V)} {e : K × V} {k : K} (h : SortedLE o (L ++ e :: R))
    (he : o e.1 k = .lt) : below o k (L ++ e :: R) = L ++ e :: below o k R ∧
      same o k (L ++ e :: R) = same o k R ∧ above o k (L ++ e :: R) = above o k R := by
  obtain ⟨-, -, h3, -, -⟩ := SortedLE.split.1 h
  obtain ⟨a, b, c⟩ := all_lt (o := o) (k := k) (xs := L) (fun x hx =>
    Ord.lt_of_ngt_of_lt (h3 x hx) he)
  simp [below_append, same_append, above_append, below_cons, same_cons, above_cons, he, a, b, c]

/-- The sought key is equal to the key in the middle. -/
theorem split_eq {L R : List (K × V)} {e : K × V} {k : K} (h : SortedLE o (L ++ e :: R))
    (he : o e.1 k = .eq) : below o k (L ++ e :: R) = below o k L ∧
      same o k (L ++ e :: R) = same o k L ++ e :: same o k R ∧
      above o k (L ++ e :: R) = above o k R ∧ above o k L = [] ∧ below o k R = [] := by
  obtain ⟨-, -, h3, h4, -⟩ := SortedLE.split.1 h
  have a : above o k L = [] := List.filter_eq_nil_iff.2 fun x hx => by
    have := h3 x hx
    rw [Ord.congr_right he] at this
    simpa using this
  have b : below o k R = [] := List.filter_eq_nil_iff.2 fun x hx => by
    have := h4 x hx
    rw [Ord.congr_left he, Ne, Ord.gt_iff] at this
    simpa using this
  simp [below_append, same_append, above_append, below_cons, same_cons, above_cons, he, a, b]

/-- The same for strictly sorted lists. -/
theorem split_eq' {L R : List (K × V)} {e : K × V} {k : K} (h : Sorted o (L ++ e :: R))
    (he : o e.1 k = .eq) : below o k (L ++ e :: R) = L ∧
      same o k (L ++ e :: R) = [e] ∧ above o k (L ++ e :: R) = R := by
  obtain ⟨-, -, h3, h4, -⟩ := Sorted.split.1 h
  obtain ⟨a, b, c⟩ := all_lt (o := o) (k := k) (xs := L) (fun x hx =>
    Ord.lt_of_lt_of_eq (h3 x hx) he)
  obtain ⟨a', b', c'⟩ := all_gt (o := o) (k := k) (xs := R) (fun x hx => by
    rw [Ord.gt_iff]
    exact Ord.lt_of_eq_of_lt (Ord.eq_symm he) (h4 x hx))
  simp [below_append, same_append, above_append, below_cons, same_cons, above_cons, he, a, b, c, a',
    b', c']

/-- A sorted list is its smaller, equal and greater part. -/
theorem parts {xs : List (K × V)} (k : K) (h : SortedLE o xs) :
    xs = below o k xs ++ same o k xs ++ above o k xs := by
  induction xs with
  | nil => rfl
  | cons e xs ih =>
    have h0 : SortedLE o ([] ++ e :: xs) := h
    obtain ⟨-, h2, -, h4, -⟩ := SortedLE.split.1 h0
    have ih := ih h2
    cases he : o e.1 k with
    | lt =>
      have := split_lt h0 he
      simp only [List.nil_append] at this
      rw [this.1, this.2.1, this.2.2]
      simpa using ih
    | eq =>
      have := split_eq h0 he
      simp only [List.nil_append] at this
      rw [this.1, this.2.1, this.2.2.1]
      rw [this.2.2.2.2] at ih
      simpa using ih
    | gt =>
      have := split_gt h0 he
      simp only [List.nil_append] at this
      rw [this.1, this.2.1, this.2.2]
      simp

/-- Putting an entry between the smaller and the greater ones keeps the list sorted. -/
theorem Sorted.put {xs : List (K × V)} {k : K} {e : K × V} (h : Sorted o xs) (he : o e.1 k = .eq) :
    Sorted o (below o k xs ++ e :: above o k xs) := by
  refine Sorted.split.2 ⟨h.sublist List.filter_sublist, h.sublist List.filter_sublist, ?_, ?_, ?_⟩
  · intro x hx
    exact Ord.lt_of_lt_of_eq (mem_below.1 hx).2 (Ord.eq_symm he)
  · intro x hx
    have := (mem_above.1 hx).2
    rw [Ord.gt_iff] at this
    exact Ord.lt_of_eq_of_lt he this
  · intro x hx y hy
    have h2 := (mem_above.1 hy).2
    rw [Ord.gt_iff] at h2
    exact Ord.lt_trans (mem_below.1 hx).2 h2

theorem Sorted.erase {xs : List (K × V)} (k : K) (h : Sorted o xs) :
    Sorted o (below o k xs ++ above o k xs) := by
  unfold Sorted
  rw [List.pairwise_append]
  refine ⟨h.sublist List.filter_sublist, h.sublist List.filter_sublist, ?_⟩
  intro x hx y hy
  have h2 := (mem_above.1 hy).2
  rw [Ord.gt_iff] at h2
  exact Ord.lt_trans (mem_below.1 hx).2 h2

/-- In a strictly sorted list at most one entry has a given key. -/
theorem Sorted.same_le {xs : List (K × V)} (k : K) (h : Sorted o xs) :
    same o k xs = [] ∨ ∃ e, same o k xs = [e] ∧ o e.1 k = .eq := by
  cases hs : same o k xs with
  | nil => exact .inl rfl
  | cons e ys =>
    right
    have he : o e.1 k = .eq := (mem_same (o := o) (xs := xs)).1 (by rw [hs]; simp) |>.2
    refine ⟨e, ?_, he⟩
    cases ys with
    | nil => rfl
    | cons e' ys =>
      have he' : o e'.1 k = .eq := (mem_same (o := o) (xs := xs)).1 (by rw [hs]; simp) |>.2
      have hp : Sorted o (same o k xs) := h.sublist List.filter_sublist
      rw [hs] at hp
      have := (List.pairwise_cons.1 hp).1 e' (by simp)
      rw [Ord.eq_trans he (Ord.eq_symm he')] at this
      exact absurd this (by simp)

end

end Verif
