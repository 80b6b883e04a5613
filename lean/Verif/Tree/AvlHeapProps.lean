import Verif.Tree.AvlHeapMap
import Verif.Tree.AvlProps
import Verif.Tree.TreeSetProps

/-! The pointer program of tree/avl and set/treeset: properties C87. -/

namespace Verif.AvlHeap
open Avl (Op Res Fits spec ord)
open Verif.Tree
variable {K V : Type} {cmp : K → K → Int}

/-! ### The specification: what can be reached from the root -/

/-- Follow child pointers from `p`: `false` is `Children[0]`, `true` is `Children[1]`. -/
def follow (m : Mem K V) : Option Nat → List Bool → Option Nat
  | none, _ => none
  | some a, [] => some a
  | some a, c :: cs => follow m (if c then (m a).hi else (m a).lo) cs

/-- The nodes that can be reached from the root are a finite tree: no node is reached on two ways
(so none is shared and there is no cycle), the `Center` node is not reached, and there are as many as
`Size()` says. -/
def IsTree (s : PMap K V) : Prop :=
  (∀ π π' a, follow s.mem (s.mem 0).hi π = some a → follow s.mem (s.mem 0).hi π' = some a → π = π') ∧
  (∀ π, follow s.mem (s.mem 0).hi π ≠ some 0) ∧
  ∃ ns : List Nat, ns.Nodup ∧ ns.length = s.size ∧
    ∀ a, a ∈ ns ↔ ∃ π, follow s.mem (s.mem 0).hi π = some a

/-! ### Lemmas -/

theorem follow_none {m : Mem K V} {π : List Bool} : follow m none π = none := by
  cases π <;> rfl

theorem follow_mem {m : Mem K V} : ∀ {t : P K V}, Rep m t → ∀ {π a},
    follow m (ptr t) π = some a → a ∈ addrs t
  | nil, _, π, a, h => by rw [ptr_nil, follow_none] at h; exact absurd h (by simp)
  | .node b k v l r, hR, [], a, h => by
      simp only [ptr_node, follow, Option.some.injEq] at h
      simp [addrs, h]
  | .node b k v l r, hR, c :: cs, a, h => by
      obtain ⟨hc, hl, hr⟩ := hR
      simp only [ptr_node, follow, hc] at h
      cases c with
      | false => have := follow_mem hl h; simp [addrs, this]
      | true => have := follow_mem hr h; simp [addrs, this]

theorem mem_follow {m : Mem K V} : ∀ {t : P K V}, Rep m t → ∀ {a}, a ∈ addrs t →
    ∃ π, follow m (ptr t) π = some a
  | nil, _, a, h => by simp [addrs] at h
  | .node b k v l r, hR, a, h => by
      obtain ⟨hc, hl, hr⟩ := hR
      simp only [addrs, List.mem_append, List.mem_cons] at h
      have hroot : a = b.1 → ∃ π, follow m (ptr (Tree.node b k v l r)) π = some a :=
        fun e => ⟨[], by rw [ptr_node, e]; rfl⟩
      have hleft : a ∈ addrs l → ∃ π, follow m (ptr (Tree.node b k v l r)) π = some a := fun h => by
        obtain ⟨π, hπ⟩ := mem_follow hl h
        exact ⟨false :: π, by simpa [ptr_node, follow, hc] using hπ⟩
      have hright : a ∈ addrs r → ∃ π, follow m (ptr (Tree.node b k v l r)) π = some a := fun h => by
        obtain ⟨π, hπ⟩ := mem_follow hr h
        exact ⟨true :: π, by simpa [ptr_node, follow, hc] using hπ⟩
      grind

theorem follow_inj {m : Mem K V} : ∀ {t : P K V}, Rep m t → (addrs t).Nodup → ∀ {π π' a},
    follow m (ptr t) π = some a → follow m (ptr t) π' = some a → π = π'
  | nil, _, _, π, π', a, h, _ => by rw [ptr_nil, follow_none] at h; exact absurd h (by simp)
  | .node b k v l r, hR, hn, π, π', a, h, h' => by
      obtain ⟨hc, hl, hr⟩ := hR
      have e1 : ∀ cs, follow m (m b.1).lo cs = some a → a ∈ addrs l := fun cs h => by
        rw [hc] at h; exact follow_mem hl h
      have e2 : ∀ cs, follow m (m b.1).hi cs = some a → a ∈ addrs r := fun cs h => by
        rw [hc] at h; exact follow_mem hr h
      have i1 : ∀ cs cs', follow m (m b.1).lo cs = some a → follow m (m b.1).lo cs' = some a →
          cs = cs' := fun cs cs' h h' => by
        rw [hc] at h h'; exact follow_inj hl (by simp [addrs] at hn; grind) h h'
      have i2 : ∀ cs cs', follow m (m b.1).hi cs = some a → follow m (m b.1).hi cs' = some a →
          cs = cs' := fun cs cs' h h' => by
        rw [hc] at h h'; exact follow_inj hr (by simp [addrs] at hn; grind) h h'
      simp only [addrs] at hn
      rw [ptr_node] at h h'
      match π, π' with
      | [], [] => rfl
      | [], c :: cs => cases c <;> simp [follow] at h h' <;> grind
      | c :: cs, [] => cases c <;> simp [follow] at h h' <;> grind
      | c :: cs, c' :: cs' => cases c <;> cases c' <;> simp [follow] at h h' <;> grind

theorem MRel.isTree {s : PMap K V} {m : Avl.Map K V} (h : MRel s m) : IsTree s := by
  obtain ⟨-, t, -, hH, hlen⟩ := h
  have hroot : (s.mem 0).hi = ptr t := by simpa [Cell.kid] using hH.root
  have hn := List.nodup_cons.1 hH.nodup
  refine ⟨?_, ?_, addrs t, hn.2, hlen.symm, ?_⟩
  · rw [hroot]; intro π π' a; exact follow_inj hH.rep hn.2
  · rw [hroot]; intro π h; exact hn.1 (follow_mem hH.rep h)
  · rw [hroot]; exact fun a => ⟨mem_follow hH.rep, fun ⟨π, h⟩ => follow_mem hH.rep h⟩

/-! ### C87 -/

/-- C87: after any history of calls, for any comparison, threshold, zero value,
the nodes form a tree with `Size()` nodes. `one = false` is tree/avl, `one = true`
set/treeset. -/
theorem C87_nodes_form_tree (cmp : K → K → Int) (one : Bool) (d : Int) (zero : V) (junk : K × V)
    (os : List (Op K V)) {s : PMap K V} {rs : List (Res K V)}
    (h : run (step cmp one d zero) (PMap.new junk) os = some (s, rs)) : IsTree s := by
  have h1 := run_sim (cmp := cmp) (one := one) (d := d) (zero := zero) os (MRel.new junk)
  rw [h] at h1
  obtain ⟨⟨m, rs'⟩, -, -, h2⟩ := h1.some_left
  exact h2.isTree

/-- C87: the program on pointers and the model with subtrees give the same answers, and one of them
panics exactly if the other does; again for any comparison and threshold, also unlawful ones. -/
theorem C87_same_answers (cmp : K → K → Int) (one : Bool) (d : Int) (zero : V) (junk : K × V)
    (os : List (Op K V)) :
    (run (step cmp one d zero) (PMap.new junk) os).map (·.2) =
      (run (Avl.step cmp one d) Avl.Map.new os).map (·.2) :=
  (run_sim (cmp := cmp) (one := one) (d := d) (zero := zero) os (MRel.new junk)).map_eq
    fun _ _ h => h.1

/-- C87 for tree/avl: the program on pointers follows no nil pointer, and its answers are those of
the ideal sorted map. The limit on the size is that of `C25_map_partial`. -/
theorem C87_avl_answers (hc : LawfulEx cmp) {d : Int} (h1 : 1 ≤ d) (h2 : d ≤ 127) (zero : V)
    (junk : K × V) (os : List (Op K V)) (ha : ∀ op ∈ os, op.abstract = true)
    (hf : Fits (ord cmp) d os) :
    ∃ s, run (step cmp false d zero) (PMap.new junk) os =
      some (s, (runSpec (spec (ord cmp)) [] os).2) ∧ IsTree s := by
  obtain ⟨m, h3⟩ := Avl.C25_map_partial hc h1 h2 os ha hf
  have h4 := C87_same_answers cmp false d zero junk os
  rw [h3] at h4
  cases h5 : run (step cmp false d zero) (PMap.new junk) os with
  | none => rw [h5] at h4; cases h4
  | some q =>
    obtain ⟨s, rs⟩ := q
    rw [h5] at h4
    cases h4
    exact ⟨s, rfl, C87_nodes_form_tree cmp false d zero junk os h5⟩

/-- C87 for set/treeset (whose heights are updated from one child only): the same, for sets of fewer
than 2^63 elements. -/
theorem C87_treeset_answers (hc : LawfulEx cmp) (zero : V) (junk : K × V) (os : List (Op K V))
    (ha : ∀ op ∈ os, op.abstract = true)
    (hf : ∀ os₁, os₁ <+: os → (runSpec (spec (ord cmp)) [] os₁).1.length < 2 ^ 63) :
    ∃ s, run (step cmp true 2 zero) (PMap.new junk) os =
      some (s, (runSpec (spec (ord cmp)) [] os).2) ∧ IsTree s := by
  obtain ⟨m, h3, -⟩ := TreeSet.C33_sorted_set hc os ha hf
  have h4 := C87_same_answers cmp true 2 zero junk os
  rw [show Avl.step cmp true 2 = TreeSet.step cmp from rfl, h3] at h4
  cases h5 : run (step cmp true 2 zero) (PMap.new junk) os with
  | none => rw [h5] at h4; cases h4
  | some q =>
    obtain ⟨s, rs⟩ := q
    rw [h5] at h4
    cases h4
    exact ⟨s, rfl, C87_nodes_form_tree cmp true 2 zero junk os h5⟩

/-- What is in the `Center` node of the examples. -/
def blank : Int × String := (0, "")

/-- The example: rotations, removal of a node with two children, `Clear`. -/
def demo : List (Op Int String) :=
  [.put 1 "a", .put 2 "b", .put 3 "c", .put 5 "e", .put 4 "d", .remove 2, .set 3 "C", .values, .size]

example : ∃ s, run (step Compare.anyEx false 1 "") (PMap.new blank) demo =
    some (s, [.bool true, .bool true, .bool true, .bool true, .bool true, .val (some "b"),
      .bool false, .list ["a", "C", "d", "e"], .nat 4]) ∧ IsTree s := by
  obtain ⟨s, h, hs⟩ := C87_avl_answers Avl.anyEx_lawful (d := 1) (by decide) (by decide) "" blank demo
    (by decide) (Avl.fits_of_short (by decide))
  exact ⟨s, h.trans rfl, hs⟩

example : ∃ s, run (step Compare.anyEx true 2 "") (PMap.new blank) demo =
    some (s, (runSpec (spec (ord Compare.anyEx)) [] demo).2) ∧ IsTree s :=
  C87_treeset_answers Avl.anyEx_lawful "" blank demo (by decide)
    (TreeSet.short_fits (by decide))

/-- The hypothesis of `C87_nodes_form_tree` is also met by a comparison that orders nothing; the
second insertion goes to the left of the first. -/
example : ∃ s, run (step (fun _ _ => 0) false 1 "") (PMap.new blank)
    [.put 1 "a", .put 1 "b", .put 1 "c"] = some (s, [.bool true, .bool true, .bool true]) ∧
    IsTree s := by
  obtain ⟨s, hs⟩ : ∃ s, run (step (fun _ _ => 0) false 1 "") (PMap.new blank)
    [.put 1 "a", .put 1 "b", .put 1 "c"] = some (s, [.bool true, .bool true, .bool true]) := ⟨_, rfl⟩
  exact ⟨s, hs, C87_nodes_form_tree _ _ _ _ _ _ hs⟩

example : (run (step (fun _ _ => 2) false 1 "") (PMap.new blank) [.put 1 "a", .put 2 "b"]).map (·.2) =
    none := (C87_same_answers _ _ _ _ _ _).trans rfl

end Verif.AvlHeap
