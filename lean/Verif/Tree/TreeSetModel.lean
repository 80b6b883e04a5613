import Verif.Tree.AvlScan

/-! Model of set/treeset: the map of `AvlModel` with `one = true` and threshold 2 (`New`), and the set
operations of set/treeset/tree.go. The other set is only read (`Traverse`, `Contains`); the model
takes it as a value, so the theorems are about two distinct sets. -/

namespace Verif.TreeSet

open Verif.Tree Verif.Avl

variable {K V : Type} {cmp : K → K → Int}

/-- The calls of set/treeset/tree.go: `Add` 65-72 is `put`. -/
abbrev step (cmp : K → K → Int) := Avl.step (V := V) cmp true 2

/-- A loop over `f` that may panic. -/
def each {A B : Type} (f : A → B → Option A) : A → List B → Option A
  | a, [] => some a
  | a, b :: bs => (f a b).bind fun a' => each f a' bs

/-- set/treeset/tree.go:204-209 `doUnion`. -/
def union (cmp : K → K → Int) (m other : Map K V) : Option (Map K V) :=
  each (fun m e => (m.set cmp true 2 e.1 e.2).map (·.1)) m (other.root.traverse fun _ _ => true).1

/-- The first loop of `retainAll`: the keys not in the other set. -/
def missing (cmp : K → K → Int) (other : Map K V) : List (K × V) → Option (List K)
  | [] => some []
  | e :: es => (other.get cmp e.1).bind fun o => (missing cmp other es).map fun ks =>
      if o.isSome then ks else e.1 :: ks

/-- set/treeset/tree.go:216-227 `retainAll`. -/
def intersection (cmp : K → K → Int) (m other : Map K V) : Option (Map K V) :=
  (missing cmp other (m.root.traverse fun _ _ => true).1).bind fun ks =>
    each (fun m k => (m.remove cmp true 2 k).map (·.1)) m ks

/-- set/treeset/tree.go:234-239 `removeAll`. -/
def difference (cmp : K → K → Int) (m other : Map K V) : Option (Map K V) :=
  each (fun m e => (m.remove cmp true 2 e.1).map (·.1)) m (other.root.traverse fun _ _ => true).1

/-! ### Loops as histories -/

theorem each_run {B : Type} {f : Map K V → B → Option (Map K V)} {g : B → Op K V}
    (hf : ∀ m b, f m b = (step cmp m (g b)).map (·.1)) (bs : List B) : ∀ m : Map K V,
    each f m bs = (run (step cmp) m (bs.map g)).map (·.1) := by
  induction bs with
  | nil => intro m; rfl
  | cons b bs ih =>
    intro m
    simp only [each, List.map_cons, run, hf]
    cases step cmp m (g b) with
    | none => rfl
    | some p =>
      show each f p.1 bs = _
      rw [ih p.1]
      cases h : run (step cmp) p.1 (bs.map g) <;> simp [h]

theorem traverse_all (t : T K V) : (t.traverse fun _ _ => true).1 = t.toList := by
  rw [traverse_eq]
  have : ∀ xs : List (K × V), seen (fun _ => true) xs = xs := by
    intro xs
    induction xs with
    | nil => rfl
    | cons e xs ih => simp [seen, ih]
  exact this _

section
variable {o : K → K → Ordering} [Std.TransCmp o]

omit [Std.TransCmp o] in
theorem mem_set {xs : List (K × V)} {k : K} {v : V} {e : K × V} :
    e ∈ (spec o xs (.set k v)).1 ↔ e = (k, v) ∨ (e ∈ xs ∧ o e.1 k ≠ .eq) := by
  rw [spec]
  split
  · rename_i h
    simp only [List.mem_map]
    constructor
    · rintro ⟨x, hx, rfl⟩
      split
      · exact .inl rfl
      · exact .inr ⟨hx, by simp_all⟩
    · rintro (rfl | ⟨h1, h2⟩)
      · simp only [has, List.any_eq_true] at h
        obtain ⟨x, hx, h3⟩ := h
        exact ⟨x, hx, by rw [if_pos h3]⟩
      · exact ⟨e, h1, by simp [h2]⟩
  · rename_i h
    simp only [has, List.any_eq_true, not_exists, not_and, beq_iff_eq] at h
    simp only [insertEntry, List.mem_append, List.mem_cons, List.mem_filter, beq_iff_eq]
    constructor
    · rintro (⟨h1, h2⟩ | rfl | ⟨h1, h2⟩)
      · exact .inr ⟨h1, h _ h1⟩
      · exact .inl rfl
      · exact .inr ⟨h1, h _ h1⟩
    · rintro (rfl | ⟨h1, h2⟩)
      · exact .inr (.inl rfl)
      · cases h3 : o e.1 k with
        | lt => exact .inl ⟨h1, rfl⟩
        | eq => exact absurd h3 h2
        | gt => exact .inr (.inr ⟨h1, rfl⟩)

theorem runSpec_set {ys : List (K × V)} (hs : Sorted o ys) : ∀ (xs : List (K × V)) (e : K × V),
    e ∈ (runSpec (spec o) xs (ys.map fun e => Op.set e.1 e.2)).1 ↔
      e ∈ ys ∨ (e ∈ xs ∧ has o e.1 ys = false) := by
  induction ys with
  | nil => intro xs e; simp [runSpec, has]
  | cons y ys ih =>
    intro xs e
    obtain ⟨h1, h2⟩ := List.pairwise_cons.1 hs
    simp only [List.map_cons, runSpec]
    rw [ih h2, mem_set]
    simp only [List.mem_cons, has, List.any_cons, Bool.or_eq_false_iff, beq_eq_false_iff_ne]
    have e1 : o y.1 e.1 = .eq ↔ o e.1 y.1 = .eq := ⟨Ord.eq_symm, Ord.eq_symm⟩
    have e2 : e = y → (ys.any fun x => o x.1 e.1 == .eq) = false := by
      rintro rfl
      rw [List.any_eq_false]
      intro x hx
      have h3 := h1 x hx
      rw [← Ord.gt_iff] at h3
      simp [h3]
    simp only [ne_eq, e1]
    constructor
    · rintro (h | ⟨h | h, h'⟩)
      · exact .inl (.inr h)
      · exact .inl (.inl h)
      · exact .inr ⟨h.1, h.2, h'⟩
    · rintro ((h | h) | ⟨h, h', h''⟩)
      · exact .inr ⟨.inl h, e2 h⟩
      · exact .inl h
      · exact .inr ⟨.inr ⟨h, h'⟩, h''⟩

omit [Std.TransCmp o] in
theorem runSpec_remove (ks : List K) : ∀ xs : List (K × V),
    (runSpec (spec o) xs (ks.map Op.remove)).1 =
      xs.filter fun e => !ks.any fun k => o e.1 k == .eq := by
  induction ks with
  | nil => intro xs; simp [runSpec]
  | cons k ks ih =>
    intro xs
    simp only [List.map_cons, runSpec]
    rw [ih]
    simp only [spec, List.filter_filter, List.any_cons, Bool.not_or]
    apply List.filter_congr
    intro e _
    rw [Bool.and_comm]; rfl

end

theorem missing_ok (hc : LawfulEx cmp) {other : Map K V} {ys : List (K × V)}
    (hR : Rel cmp other ys) (es : List (K × V)) :
    missing cmp other es = some ((es.filter fun e => !has (ord cmp) e.1 ys).map (·.1)) := by
  have hg : ∀ k, other.get cmp k = some ((ys.find? fun e => ord cmp e.1 k == .eq).map (·.2)) := by
    intro k
    have := hc.trans
    unfold Map.get
    rw [get_eq hc (by rw [hR.list]; exact hR.sorted), hR.list, find_same]
    rfl
  induction es with
  | nil => rfl
  | cons e es ih =>
    simp only [missing, hg, ih, Option.bind_some, Option.map_some, Option.isSome_map]
    have : (ys.find? fun x => ord cmp x.1 e.1 == .eq).isSome = has (ord cmp) e.1 ys := by
      rw [Bool.eq_iff_iff, List.find?_isSome, has, List.any_eq_true]
    rw [this, List.filter_cons]
    cases has (ord cmp) e.1 ys <;> simp

end Verif.TreeSet
