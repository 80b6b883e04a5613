import Verif.Queue.PriorityHeapRun
import Verif.Queue.PriorityProps
import Verif.Tree.AvlHeapProps

/-! The pointer program of queue/priority: properties C93. -/

namespace Verif.PriorityHeap
open Verif.AvlHeap (Mem Rep P ptr addrs erase follow follow_inj follow_mem mem_follow follow_none
  ptr_node ptr_nil)
open Priority (Op Res spec legal)
open Avl (ord)
open Verif.Tree
variable {K V : Type} {cmp : K → K → Int}

/-! ### The specification: what can be reached from the root -/

/-- The nodes that can be reached from `p` are exactly `n` many. -/
def Count (m : Mem K V) (p : Option Nat) (n : Int) : Prop :=
  ∃ ns : List Nat, ns.Nodup ∧ (ns.length : Int) = n ∧ ∀ a, a ∈ ns ↔ ∃ π, follow m p π = some a

/-- The nodes that can be reached from the root are a finite tree: no node is reached on two ways (so
none is shared and there is no cycle), and the `Center` node is not reached. -/
def IsTree (s : PQueue K V) : Prop :=
  (∀ π π' a, follow s.mem s.root π = some a → follow s.mem s.root π' = some a → π = π') ∧
  (∀ π, follow s.mem s.root π ≠ some 0) ∧ ∃ n, Count s.mem s.root n

/-- The field `Size` of every node in the tree is the number of nodes that can be reached from it. -/
def SizesRight (s : PQueue K V) : Prop :=
  ∀ π a, follow s.mem s.root π = some a → Count s.mem (some a) (s.mem a).height

/-! ### Lemmas -/

theorem count_addrs {m : Mem K V} {t : P K V} (hR : Rep m t) (hn : (addrs t).Nodup) :
    Count m (ptr t) (addrs t).length :=
  ⟨addrs t, hn, rfl, fun _ => ⟨mem_follow hR, fun ⟨_, h⟩ => follow_mem hR h⟩⟩

theorem count_sub {m : Mem K V} : ∀ {t : P K V}, Rep m t → (addrs t).Nodup → Size.Exact (erase t) →
    ∀ {π a}, follow m (ptr t) π = some a → Count m (some a) (m a).height
  | nil, _, _, _, π, a, h => by rw [ptr_nil, follow_none] at h; cases h
  | .node b k v l r, hR, hn, hE, [], a, h => by
    simp only [ptr_node, follow, Option.some.injEq] at h
    subst h
    have h1 := count_addrs hR hn
    rw [AvlHeap.length_addrs, ← AvlHeap.toList_erase, ← hE.sz] at h1
    rw [hR.1]
    exact h1
  | .node b k v l r, hR, hn, hE, c :: cs, a, h => by
    obtain ⟨hc, hl, hr⟩ := hR
    simp only [addrs] at hn
    simp only [ptr_node, follow, hc] at h
    cases c with
    | false => exact count_sub hl (by grind) hE.2.1 h
    | true => exact count_sub hr (by grind) hE.2.2 h

theorem QRel.isTree {s : PQueue K V} {u : Tree Int K V} (h : QRel s u) : IsTree s := by
  obtain ⟨t, -, hH⟩ := h
  have hroot : s.root = ptr t := hH.root
  have hn := List.nodup_cons.1 hH.nodup
  simp only [IsTree, hroot]
  exact ⟨fun π π' a => follow_inj hH.rep hn.2, fun π h => hn.1 (follow_mem hH.rep h), _,
    count_addrs hH.rep hn.2⟩

theorem QRel.sizes {s : PQueue K V} {u : Tree Int K V} (h : QRel s u) (hE : Size.Exact u) :
    SizesRight s ∧ Count s.mem s.root u.toList.length := by
  obtain ⟨t, ht, hH⟩ := h
  have hroot : s.root = ptr t := hH.root
  have hn := List.nodup_cons.1 hH.nodup
  subst ht
  simp only [SizesRight, hroot]
  refine ⟨fun π a => count_sub hH.rep hn.2 hE, ?_⟩
  have := count_addrs hH.rep hn.2
  rwa [AvlHeap.length_addrs, ← AvlHeap.toList_erase] at this

/-! ### C93 -/

/-- C93: after any history of calls, also one with panics of `Index` and `RemoveIndex` a caller
recovered from, and for any comparison, the nodes form a tree. -/
theorem C93_nodes_form_tree (cmp : K → K → Int) (zero : V) (junk : K × V) (os : List (Op K V))
    {s : PQueue K V} {rs : List (Res K V)}
    (h : run (step cmp zero) (PQueue.new junk) os = some (s, rs)) : IsTree s := by
  have h1 := run_sim (cmp := cmp) (zero := zero) os (QRel.new junk)
  rw [h] at h1
  obtain ⟨⟨u, rs'⟩, -, -, h2⟩ := h1.some_left
  exact h2.isTree

/-- C93: the program on pointers and the model with subtrees give the same answers, and one of them
fails exactly if the other does; for any comparison, also unlawful ones. -/
theorem C93_same_answers (cmp : K → K → Int) (zero : V) (junk : K × V) (os : List (Op K V)) :
    (run (step cmp zero) (PQueue.new junk) os).map (·.2) =
      (run (Priority.step cmp) nil os).map (·.2) :=
  (run_sim (cmp := cmp) (zero := zero) os (QRel.new junk)).map_eq fun _ _ h => h.1

/-- C93: the program on pointers follows no nil pointer, its answers are those of the ideal stable
priority queue, and afterwards the nodes form a tree with as many nodes as the queue has entries, in
which every `Size` is right. `Gets` gives the values stored under a key. Missing from the full
statement: `RemoveIndex` with an index that is no rank, see `C93_panic_changes_size`. -/
theorem C93_answers_partial (hc : LawfulEx cmp) (zero : V) (junk : K × V) (os : List (Op K V))
    (hl : LegalRun (spec (ord cmp)) legal [] os) :
    ∃ s, run (step cmp zero) (PQueue.new junk) os = some (s, (runSpec (spec (ord cmp)) [] os).2) ∧
      IsTree s ∧ SizesRight s ∧
      Count s.mem s.root (runSpec (spec (ord cmp)) [] os).1.length ∧
      ∀ key, ∃ vs, s.gets cmp key = some vs ∧
        vs.Perm (((runSpec (spec (ord cmp)) [] os).1.filter
          fun e => exOrd (cmp e.1 key) == .eq).map (·.2)) := by
  obtain ⟨u, h1, h2⟩ := Priority.run_ok hc os hl
  have h3 := run_sim (cmp := cmp) (zero := zero) os (QRel.new junk)
  rw [h1] at h3
  obtain ⟨⟨s, rs⟩, h4, h5, h6⟩ := h3.some_right
  simp only at h5
  subst h5
  have h7 := h6.sizes h2.exact
  rw [h2.list] at h7
  refine ⟨s, h4, h6.isTree, h7.1, h7.2, fun key => ?_⟩
  obtain ⟨vs, h8, h9⟩ := Priority.C52_gets hc ⟨os, _, hl, h1, rfl⟩ key
  exact ⟨vs, (gets_sim h6 key).trans h8, h9⟩

/-- C93 fails: a call of `RemoveIndex` out of range counts down `Size` on its way before it panics,
so that the sizes are wrong afterwards. -/
theorem C93_panic_changes_size : ∃ (s : PQueue Int Nat), run (step Compare.anyEx 0)
    (PQueue.new (0, 0)) [.put 1 1, .put 2 2, .put 3 3, .removeIndex 3, .size, .values] =
      some (s, [.bool true, .bool true, .bool true, .panic, .int 2, .list [1, 2, 3]]) ∧
    ¬ SizesRight s := by
  obtain ⟨s, hs, h1, h2, h3, h4⟩ : ∃ s : PQueue Int Nat, run (step Compare.anyEx 0)
    (PQueue.new (0, 0)) [.put 1 1, .put 2 2, .put 3 3, .removeIndex 3, .size, .values] =
      some (s, [.bool true, .bool true, .bool true, .panic, .int 2, .list [1, 2, 3]]) ∧
    s.root = some 2 ∧ (s.mem 2).height = 2 ∧ (s.mem 2).lo = some 1 ∧ (s.mem 2).hi = some 3 :=
    ⟨_, rfl, rfl, rfl, rfl, rfl⟩
  refine ⟨s, hs, fun h => ?_⟩
  obtain ⟨ns, h5, h6, h7⟩ := h [] 2 (by rw [h1]; rfl)
  rw [h2] at h6
  have e1 : 1 ∈ ns := (h7 1).2 ⟨[false], by simp [follow, h3]⟩
  have e2 : 2 ∈ ns := (h7 2).2 ⟨[], rfl⟩
  have e3 : 3 ∈ ns := (h7 3).2 ⟨[true], by simp [follow, h4]⟩
  have h8 : ([1, 2, 3] : List Nat).length ≤ ns.length :=
    (List.subperm_of_subset (by decide) (by simp [e1, e2, e3])).length_le
  simp only [List.length_cons, List.length_nil] at h8
  omega

/-- What is in the `Center` node of the examples. -/
def blank : Int × String := (0, "")

theorem demo_legal : LegalRun (spec (ord Compare.anyEx)) legal [] Priority.demo :=
  ⟨trivial, trivial, trivial, trivial, trivial, trivial, trivial, trivial, trivial,
    ⟨by decide, by decide⟩, trivial, trivial, trivial, trivial, trivial, trivial, trivial⟩

example : ∃ s, run (step Compare.anyEx "") (PQueue.new blank) Priority.demo = some (s, [.bool true,
    .bool true, .bool true, .bool true, .bool true, .bool true, .list ["a", "B", "c", "d", "z"],
    .val (some "B"), .val (some "c"), .val (some "d"), .val (some "a"), .int 2, .val (some "z"),
    .bool true, .bool true, .val (some "c")]) ∧ IsTree s ∧ SizesRight s ∧
    Count s.mem s.root 3 := by
  obtain ⟨s, h, h1, h2, h3, -⟩ := C93_answers_partial Avl.anyEx_lawful "" blank Priority.demo demo_legal
  exact ⟨s, h.trans rfl, h1, h2, h3⟩

/-- The hypothesis of `C93_nodes_form_tree` is met also by a comparison that orders nothing, and with
a panic on the way. -/
example : ∃ s, run (step (fun _ _ => 0) "") (PQueue.new blank)
    [.put 1 "a", .put 1 "b", .put 1 "c", .removeIndex 7, .popTail] =
      some (s, [.bool true, .bool true, .bool true, .panic, .val (some "a")]) ∧ IsTree s := by
  obtain ⟨s, hs⟩ : ∃ s, run (step (fun _ _ => 0) "") (PQueue.new blank)
    [.put 1 "a", .put 1 "b", .put 1 "c", .removeIndex 7, .popTail] =
      some (s, [.bool true, .bool true, .bool true, .panic, .val (some "a")]) := ⟨_, rfl⟩
  exact ⟨s, hs, C93_nodes_form_tree _ _ _ _ hs⟩

example : (run (step (fun _ _ => 2) "") (PQueue.new blank) [.put 1 "a", .put 2 "b"]).map (·.2) =
    none := (C93_same_answers _ _ _ _).trans rfl

end Verif.PriorityHeap
