import Verif.Print.Props
import Verif.Tree.IndexProps

/-! Property C98: the picture of an index tree that `String` gives. -/

namespace Verif.Print
open Verif.Tree
variable {K V W : Type} {sh : K → Text}

/-! ### The lines -/

/-- The parts of the space before a node. -/
inductive Bar where
  | blue | blank | red

def Bar.text : Bar → Text
  | .blue => blueBar
  | .blank => blanks
  | .red => redBar

def markOf (b : Bool) : Text := if b then blueMark else redMark

/-- One line without its end: bars, mark, key. -/
def lineOf (sh : K → Text) (x : List Bar × Bool × K) : Text :=
  (x.1.map Bar.text).flatten ++ (markOf x.2.1 ++ sh x.2.2)

/-- The lines of a subtree. -/
def rows : Size.T K V → List Bar → Bool → List (List Bar × Bool × K)
  | .nil, _, _ => []
  | .node _ k _ l r, us, b =>
    rows r (us ++ [if b then .blue else .blank]) false ++ (us, b, k) ::
      rows l (us ++ [if b then .blank else .red]) true

theorem output_eq : ∀ (t : Size.T K V) (us : List Bar) (b : Bool) (str : Text),
    output sh t (us.map Bar.text).flatten b str =
      str ++ (((rows t us b).map (lineOf sh)).map (· ++ [10])).flatten
  | .nil, us, b, str => by simp [output, rows]
  | .node a k v l r, us, b, str => by
    have e1 : (us.map Bar.text).flatten ++ (if b then blueBar else blanks) =
        ((us ++ [if b then Bar.blue else Bar.blank]).map Bar.text).flatten := by
      cases b <;> simp [Bar.text]
    have e2 : (us.map Bar.text).flatten ++ (if b then blanks else redBar) =
        ((us ++ [if b then Bar.blank else Bar.red]).map Bar.text).flatten := by
      cases b <;> simp [Bar.text]
    simp only [output, e1, e2, output_eq r, output_eq l, rows]
    simp [lineOf, markOf]

theorem rows_keys : ∀ (t : Size.T K V) (us : List Bar) (b : Bool),
    (rows t us b).map (·.2.2) = (t.toList.map (·.1)).reverse
  | .nil, _, _ => rfl
  | .node a k v l r, us, b => by simp [rows, rows_keys r, rows_keys l, toList]

theorem rows_deep : ∀ (t : Size.T K V) (us : List Bar) (b : Bool), ∀ x ∈ rows t us b,
    us.length ≤ x.1.length
  | .nil, _, _, x, hx => by simp [rows] at hx
  | .node a k v l r, us, b, x, hx => by
    simp only [rows, List.mem_append, List.mem_cons] at hx
    rcases hx with h | rfl | h
    · have := rows_deep r _ _ x h; simp at this; omega
    · exact Nat.le_refl _
    · have := rows_deep l _ _ x h; simp at this; omega

/-! ### Reading the picture -/

theorem lineOf_inj (hinj : ∀ a b, sh a = sh b → a = b) : ∀ {us vs : List Bar} {b c : Bool} {k j : K},
    lineOf sh (us, b, k) = lineOf sh (vs, c, j) → us = vs ∧ b = c ∧ k = j
  | [], [], b, c, k, j, h => by
    cases b <;> cases c <;> simp [lineOf, markOf, blueMark, redMark] at h <;> simp [hinj _ _ h]
  | [], v :: vs, b, c, k, j, h => by
    cases b <;> cases v <;>
      simp [lineOf, markOf, blueMark, redMark, Bar.text, blueBar, redBar, blanks] at h
  | u :: us, [], b, c, k, j, h => by
    cases c <;> cases u <;>
      simp [lineOf, markOf, blueMark, redMark, Bar.text, blueBar, redBar, blanks] at h
  | u :: us, v :: vs, b, c, k, j, h => by
    have h2 : u = v ∧ lineOf sh (us, b, k) = lineOf sh (vs, c, j) := by
      cases u <;> cases v <;>
        simp [lineOf, Bar.text, blueBar, redBar, blanks] at h <;> simpa [lineOf] using h
    obtain ⟨rfl, h3⟩ := h2
    obtain ⟨rfl, rfl, rfl⟩ := lineOf_inj hinj h3
    exact ⟨rfl, rfl, rfl⟩

theorem lineOf_one (hone : ∀ k, 10 ∉ sh k) (x : List Bar × Bool × K) : 10 ∉ lineOf sh x := by
  obtain ⟨us, b, k⟩ := x
  simp only [lineOf, List.mem_append, not_or, List.mem_flatten, List.mem_map, not_exists, not_and,
    forall_exists_index, and_imp]
  refine ⟨?_, ?_, hone k⟩
  · rintro _ u - rfl
    cases u <;> decide
  · cases b <;> decide

theorem cut_inj {n : Nat} {x y : List Bar × Bool × K} (hx : x.1.length = n) (hy : y.1.length = n) :
    ∀ {r s l m : List (List Bar × Bool × K)}, (∀ z ∈ r, n < z.1.length) → (∀ z ∈ s, n < z.1.length) →
    r ++ x :: l = s ++ y :: m → r = s ∧ x = y ∧ l = m
  | [], [], l, m, _, _, h => by simpa using h
  | [], z :: s, l, m, _, hs, h => by
    simp only [List.nil_append, List.cons_append, List.cons.injEq] at h
    have := hs z (by simp); rw [← h.1] at this; omega
  | z :: r, [], l, m, hr, _, h => by
    simp only [List.nil_append, List.cons_append, List.cons.injEq] at h
    have := hr z (by simp); rw [h.1] at this; omega
  | z :: r, w :: s, l, m, hr, hs, h => by
    simp only [List.cons_append, List.cons.injEq] at h
    obtain ⟨rfl, h⟩ := h
    obtain ⟨rfl, h2, h3⟩ := cut_inj hx hy (fun z hz => hr z (by simp [hz]))
      (fun z hz => hs z (by simp [hz])) h
    exact ⟨rfl, h2, h3⟩

/-- A tree without the sizes and the values. -/
def shape : Size.T K V → Tree Unit K Unit
  | .nil => .nil
  | .node _ k _ l r => .node () k () (shape l) (shape r)

theorem rows_inj : ∀ (t : Size.T K V) (u : Size.T K W) (us : List Bar) (b : Bool),
    rows t us b = rows u us b → shape t = shape u
  | .nil, .nil, _, _, _ => rfl
  | .nil, .node _ _ _ _ _, _, _, h => by simp [rows] at h
  | .node _ _ _ _ _, .nil, _, _, h => by simp [rows] at h
  | .node a k v l r, .node a2 k2 v2 l2 r2, us, b, h => by
    simp only [rows] at h
    obtain ⟨h1, h2, h3⟩ := cut_inj (n := us.length) rfl rfl
      (fun z hz => by have := rows_deep _ _ _ z hz; simp at this; omega)
      (fun z hz => by have := rows_deep _ _ _ z hz; simp at this; omega) h
    cases h2
    rw [shape, shape, rows_inj r r2 _ _ h1, rows_inj l l2 _ _ h3]

theorem indexTree_eq {t : Size.T K V} (h : t ≠ .nil) : indexTree sh t =
    header ++ (((rows t [] true).map (lineOf sh)).map (· ++ [10])).flatten := by
  cases t with
  | nil => exact absurd rfl h
  | node a k v l r => exact output_eq (.node a k v l r) [] true header

/-! ### C98 -/

/-- C98: `String` of a tree that is not empty has one line for each entry, from the greatest key to the
least; a line is a drawing, which is the same for all keys, and the text of the key. -/
theorem C98_lines {cmp : K → K → Int} (hc : Lawful cmp) {shift : Nat} {t : Size.T K (Option W)}
    {xs : List (K × Option W)} (h : IndexTree.Reached shift cmp t xs) (hne : xs ≠ []) :
    ∃ drawing : List Text, drawing.length = xs.length ∧ (∀ d ∈ drawing, 10 ∉ d) ∧ ∀ sh : K → Text,
      indexTree sh t =
        header ++ (List.zipWith (fun d k => d ++ sh k ++ [10]) drawing (xs.map (·.1)).reverse).flatten := by
  have hR := h.rel hc
  have ht : t ≠ .nil := by
    rintro rfl
    exact hne hR.list.symm
  have hk := rows_keys t [] true
  refine ⟨(rows t [] true).map fun x => (x.1.map Bar.text).flatten ++ markOf x.2.1, ?_, ?_, ?_⟩
  · have := congrArg List.length hk
    simpa [hR.list] using this
  · intro d hd
    obtain ⟨x, -, rfl⟩ := List.mem_map.1 hd
    have := lineOf_one (sh := fun _ => []) (by simp) (x.1, x.2.1, x.2.2)
    simpa [lineOf] using this
  · intro sh
    rw [indexTree_eq ht, ← hR.list, ← hk]
    congr 2
    generalize rows t [] true = ys
    induction ys with
    | nil => rfl
    | cons y ys ih => simp [lineOf, ih]

/-- C98: the empty tree. -/
theorem C98_empty {cmp : K → K → Int} (hc : Lawful cmp) {shift : Nat} {t : Size.T K (Option W)}
    (h : IndexTree.Reached shift cmp t []) : indexTree sh t = header ++ [110, 105, 108] := by
  have hR := h.rel hc
  cases t with
  | nil => rfl
  | node a k v l r => have := hR.list; simp [toList] at this

/-- C98: the picture shows the tree. If different keys have different texts of one line, two trees that
are not empty and have the same picture have the same keys at the same places. -/
theorem C98_picture_determines (hinj : ∀ a b, sh a = sh b → a = b) (hone : ∀ k, 10 ∉ sh k)
    {t : Size.T K V} {u : Size.T K W} (ht : t ≠ .nil) (hu : u ≠ .nil)
    (h : indexTree sh t = indexTree sh u) : shape t = shape u := by
  rw [indexTree_eq ht, indexTree_eq hu] at h
  have h2 := flat_inj (sep := 10) (by
      intro x hx; obtain ⟨y, -, rfl⟩ := List.mem_map.1 hx; exact lineOf_one hone y) (by
      intro x hx; obtain ⟨y, -, rfl⟩ := List.mem_map.1 hx; exact lineOf_one hone y)
    (List.append_cancel_left h)
  refine rows_inj t u [] true ?_
  revert h2
  generalize rows t [] true = xs
  generalize rows u [] true = ys
  intro h2
  exact (List.map_injective_iff.2 fun x y hxy => by
    obtain ⟨a, b, c⟩ := x
    obtain ⟨a2, b2, c2⟩ := y
    obtain ⟨rfl, rfl, rfl⟩ := lineOf_inj hinj hxy
    rfl) h2

/-- An empty tree never looks like one that is not empty. -/
theorem C98_empty_differs {t : Size.T K V} (ht : t ≠ .nil) :
    indexTree sh t ≠ indexTree sh (.nil : Size.T K W) := by
  rw [indexTree_eq ht]
  intro h
  have h2 := List.append_cancel_left h
  have h3 := congrArg List.getLast? h2
  cases t with
  | nil => exact ht rfl
  | node a k v l r =>
    have : ∀ (ls : List Text), ls ≠ [] → ((ls.map (· ++ [10])).flatten).getLast? = some 10 := by
      intro ls hls
      obtain ⟨ls', x, rfl⟩ := List.eq_nil_or_concat ls |>.resolve_left hls
      simp
    rw [this _ (by simp [rows])] at h3
    exact absurd h3 (by decide)

/-- The tree of 2, 1, 3: three lines. -/
example : indexTree digit (.node 3 2 () (.node 1 1 () .nil .nil) (.node 1 3 () .nil .nil)) =
    header ++ (blueBar ++ redMark ++ [51, 10]) ++ (blueMark ++ [50, 10]) ++
      (blanks ++ blueMark ++ [49, 10]) := rfl

example : ∃ t : Size.T Int (Option String), IndexTree.Reached 2 Compare.any t [(3, some "c"), (5, some "e")] ∧
    ∃ drawing : List Text, drawing.length = 2 ∧ ∀ sh : Int → Text, indexTree sh t =
      header ++ (List.zipWith (fun d k => d ++ sh k ++ [10]) drawing [5, 3]).flatten := by
  obtain ⟨t, h⟩ := IndexTree.demo_reached
  obtain ⟨d, h1, -, h2⟩ := C98_lines IndexTree.any_lawful h (by decide)
  exact ⟨t, h, d, h1, h2⟩

/-- The conditions of `C98_picture_determines`. -/
example : indexTree (fun b : Bool => if b then [49] else [48])
      (.node 2 true () (.node 1 false () .nil .nil) .nil) ≠
    indexTree (fun b : Bool => if b then [49] else [48])
      (.node 2 false () .nil (.node 1 true () .nil .nil)) := fun h => by
  have := C98_picture_determines (by decide) (by decide) (by simp) (by simp) h
  simp [shape] at this

end Verif.Print
