import Verif.Tree.TraverseWithLemmas
import Verif.Tree.TraverseWithTrees
import Verif.Tree.IndexHeapIterProps
import Verif.Tree.AvlsHeapIterProps
import Verif.Queue.PriorityHeapIterProps

/-! `Traverse` of tree/avls, tree/indextree and queue/priority with a callback that uses the container:
property C106. -/

namespace Verif
open Verif.AvlHeap (P ptr addrs erase mapN)
open Verif.Tree

/-! ### Nodes -/

section
variable {K V : Type}

def shape : P K V → Shape
  | nil => .nil
  | node a _ _ l r => .node a.1 (shape l) (shape r)

theorem ptr_shape (t : P K V) : (shape t).ptr = ptr t := by cases t <;> rfl

theorem shape_mapN (g : Nat × Int → K → V → K × V) : ∀ t : P K V, shape (mapN g t) = shape t
  | nil => rfl
  | node a k v l r => by simp only [mapN, shape, shape_mapN g l, shape_mapN g r]

theorem height_shape : ∀ t : P K V, (shape t).height = t.height
  | nil => rfl
  | node a k v l r => by simp only [shape, Shape.height, Tree.height, height_shape l, height_shape r]

theorem avl_lk {m : AvlHeap.Mem K V} : ∀ {t : P K V}, AvlHeap.Rep m t →
    (shape t).Lk (fun a => (m a).lo) (fun a => (m a).hi)
  | nil, _ => trivial
  | node a k v l r, h => by
    refine ⟨?_, ?_, avl_lk h.2.1, avl_lk h.2.2⟩ <;> simp only [h.1, ptr_shape]

theorem avl_ino {m : AvlHeap.Mem K V} : ∀ {t : P K V}, AvlHeap.Rep m t →
    t.toList = (shape t).ino.map fun a => ((m a).key, (m a).val)
  | nil, _ => rfl
  | node a k v l r, h => by
    simp only [Tree.toList, shape, Shape.ino, List.map_append, List.map_cons, avl_ino h.2.1,
      avl_ino h.2.2, h.1]

theorem index_lk {m : IndexHeap.Mem K V} : ∀ {p : Nat} {t : P K V}, IndexHeap.Rep m p t →
    (shape t).Lk (fun a => (m a).lo) (fun a => (m a).hi)
  | _, nil, _ => trivial
  | _, node a k v l r, ⟨⟨b, h⟩, hl, hr⟩ => by
    refine ⟨?_, ?_, index_lk hl, index_lk hr⟩ <;> simp only [h, ptr_shape]

theorem index_ino {m : IndexHeap.Mem K V} : ∀ {p : Nat} {t : P K V}, IndexHeap.Rep m p t →
    t.toList = (shape t).ino.map fun a => ((m a).key, (m a).val)
  | _, nil, _ => rfl
  | _, node a k v l r, ⟨⟨b, h⟩, hl, hr⟩ => by
    simp only [Tree.toList, shape, Shape.ino, List.map_append, List.map_cons, index_ino hl,
      index_ino hr, h]

theorem map_get {α β : Type} {f : α → β} {xs : List α} {ys : List β} (h : ys = xs.map f) {j : Nat} {a : α}
    (ha : xs[j]? = some a) : ys[0 + j]? = some (f a) := by
  rw [h, Nat.zero_add, List.getElem?_map, ha]; rfl

end

/-! ### tree/indextree -/

namespace IndexHeap
open Verif.Size Verif.IndexTree
variable {K W τ : Type} {cmp : K → K → Int}

/-- What a callback may call: a call for one entry that adds and takes out nothing. -/
def quiet (cmp : K → K → Int) (xs : List (K × Option W)) (op : Op K W) : Prop :=
  gentle op = true ∧ legal cmp xs op ∧ (spec (ord cmp) xs op).1.length = xs.length

def At (cmp : K → K → Int) (sh : Shape) (s : PTree K (Option W)) (xs : List (K × Option W)) : Prop :=
  ∃ t, One s.mem s.root t ∧ Below s.free s.root t ∧ Rel cmp (erase t) xs ∧ shape t = sh

theorem At.step (hc : Lawful cmp) {shift : Nat} {junk : K × Option W} {sh : Shape}
    (s : PTree K (Option W)) (xs : List (K × Option W)) (op : Op K W) (hq : quiet cmp xs op)
    (h : At cmp sh s xs) : ∃ s', step shift cmp junk s op = some (s', (spec (ord cmp) xs op).2) ∧
      At cmp sh s' (spec (ord cmp) xs op).1 := by
  obtain ⟨t, hO, hB, hR, rfl⟩ := h
  obtain ⟨hg, ha, hz⟩ := hq
  obtain ⟨u, h1, h2⟩ := IndexTree.step_ok hc (shift := shift) ha hR
  obtain ⟨s', t', h3, rfl, h5⟩ := step_sim (junk := junk) hO hB h1
  refine ⟨s', h3, t', h5.one, fun a ha => (h5.bound a ha).1, h2, ?_⟩
  obtain ⟨a, f, h7⟩ := step_same hc hO hB hR hg ha hz h3
  have h8 : mapN (fun b k v => if b.1 = a then f (k, v) else (k, v)) t = t' := by
    refine rep_unique (m := s'.mem) (p := s.root) ?_ h5.one.rep ?_
    · rw [h7]; exact writeAt_rep hO.rep
    · rw [AvlHeap.ptr_mapN, ← hO.lo, ← h5.one.lo, h7]
      simp only [writeAt, upd]
      split <;> rfl
  rw [← h8, shape_mapN]

/-- C106, tree/indextree. The callback reads, gives new values to keys that are there, or removes keys
that are not (`quiet`); what it calls may depend on all answers so far. Then `Traverse` is the ideal
walk: entry after entry in order, each as it is at that moment, every call of the callback answered
right; and the tree answers right ever after. -/
theorem C106_index_quiet_partial (hc : Lawful cmp) (shift : Nat) (junk : K × Option W) (os₀ : List (Op K W))
    (hl₀ : LegalRun (spec (ord cmp)) (legal cmp) [] os₀)
    (every : τ → K × Option W → Prog (Op K W) (Res K W) (τ × Bool)) (t : τ) {xs : List (K × Option W)}
    (hx : xs = (runSpec (spec (ord cmp)) [] os₀).1)
    (hq : LegalVisit (spec (ord cmp)) (quiet cmp) every xs.length 0 xs t) :
    ∃ s, run (step shift cmp junk) (PTree.new junk) os₀ =
        some (s, (runSpec (spec (ord cmp)) [] os₀).2) ∧
      ∀ n, s.free ≤ n → ∃ s', traverseWith shift cmp junk every n s t =
          some { visitWith (spec (ord cmp)) every xs.length 0 xs t with state := s' } ∧
        ∀ os, LegalRun (spec (ord cmp)) (legal cmp)
            (visitWith (spec (ord cmp)) every xs.length 0 xs t).state os →
          ∃ s'', run (step shift cmp junk) s' os = some (s'',
            (runSpec (spec (ord cmp)) (visitWith (spec (ord cmp)) every xs.length 0 xs t).state os).2) := by
  subst hx
  obtain ⟨u, h1, hR⟩ := IndexTree.run_ok hc shift os₀ hl₀
  obtain ⟨s, p, h2, rfl, hO, hB⟩ := run_sim (shift := shift) (junk := junk) os₀ (PTree.new junk) nil u _
    ⟨trivial, rfl, rfl, by simp [addrs]⟩ (by intro x hx; simp [addrs, PTree.new] at hx ⊢; exact hx) h1
  have hlist : p.toList = (runSpec (spec (ord cmp)) [] os₀).1 := by rw [← AvlHeap.toList_erase, hR.list]
  have hlen : (shape p).ino.length = (runSpec (spec (ord cmp)) [] os₀).1.length := by
    rw [← hlist, index_ino hO.rep, List.length_map]
  rw [← hlen] at hq ⊢
  refine ⟨s, h2, fun n hn => ?_⟩
  obtain ⟨s', h3, q, hO', hB', hR', -⟩ := walkWith_ok (A := At cmp (shape p)) (step := step shift cmp junk)
    (lo := fun s a => (s.mem a).lo) (hi := fun s a => (s.mem a).hi)
    (ent := fun s a => ((s.mem a).key, (s.mem a).val)) (every := every) (legal := quiet cmp)
    (spec := spec (ord cmp)) (At.step hc (shift := shift) (junk := junk)) (shape p)
    (n := n) (i := 0) (s := s) (t := t)
    (by rw [height_shape]; exact Nat.lt_of_lt_of_le (hO.fuel hB).2 hn)
    (by rintro s l ⟨t, h, -, -, h'⟩; rw [← h']; exact index_lk h.rep)
    (by
      rintro s l ⟨t, h, -, hR, h'⟩ j a ha
      rw [← h'] at ha
      exact map_get (f := fun a => ((s.mem a).key, (s.mem a).val)) (by rw [← hR.list, AvlHeap.toList_erase]; exact index_ino h.rep) ha)
    ⟨p, hO, hB, hR, rfl⟩ hq
  refine ⟨s', ?_, fun os hos => ?_⟩
  · rw [traverseWith, show s.top = (shape p).ptr by rw [ptr_shape]; exact hO.lo]
    exact h3
  · obtain ⟨u', h4, -⟩ := run_refines_legal (step := IndexTree.step shift cmp) (spec := spec (ord cmp))
      (legal := legal cmp) (Rel cmp) (fun _ _ _ h1 h2 => IndexTree.step_ok hc h1 h2) os _ _ hos hR'
    obtain ⟨s'', -, h5, -⟩ := run_sim (shift := shift) (junk := junk) os s' q u' _ hO' hB' h4
    exact ⟨s'', h5⟩

/-- The callback of the example: it counts, looks up its own index and gives the key a new value. -/
def mark : Nat → Int × Option Int → Prog (Op Int Int) (Res Int Int) (Nat × Bool) := fun c e =>
  .call (.indexOf e.1) fun r => .call (.upsert e.1 (some (match r with | .int i => 10 * e.1 + i | _ => 0)))
    fun _ => .call (.remove (e.1 + 100)) fun _ => .ret (c + 1, true)

theorem mark_quiet : LegalVisit (spec (ord Compare.any)) (quiet Compare.any) mark 3 0
    [(1, some 1), (2, some 2), (3, some 3)] 0 := by
  intro e he
  cases he
  refine ⟨⟨⟨rfl, trivial, rfl⟩, ⟨rfl, trivial, rfl⟩, ⟨rfl, trivial, rfl⟩, trivial⟩, fun _ e he => ?_⟩
  cases he
  refine ⟨⟨⟨rfl, trivial, rfl⟩, ⟨rfl, trivial, rfl⟩, ⟨rfl, trivial, rfl⟩, trivial⟩, fun _ e he => ?_⟩
  cases he
  exact ⟨⟨⟨rfl, trivial, rfl⟩, ⟨rfl, trivial, rfl⟩, ⟨rfl, trivial, rfl⟩, trivial⟩, fun _ => trivial⟩

example : ∃ s s' : PTree Int (Option Int), ∃ cs,
    traverseWith 2 Compare.any (0, none) mark (max s.free 4) s 0 =
      some ⟨s', 3, true, [(1, some 1), (2, some 2), (3, some 3)], cs⟩ ∧
    ∃ s'', run (step 2 Compare.any (0, none)) s' [.values, .removeRange 1 2, .values] =
      some (s'', [.list [some 10, some 21, some 32], .unit, .list [some 32]]) := by
  obtain ⟨s, h1, h2⟩ := C106_index_quiet_partial any_lawful 2 (0, none)
    [.put 1 (some 1), .put 2 (some 2), .put 3 (some 3)] (by simp [LegalRun, legal]) mark 0
    (xs := [(1, some 1), (2, some 2), (3, some 3)]) rfl mark_quiet
  obtain ⟨s', h3, h4⟩ := h2 (max s.free 4) (by omega)
  obtain ⟨s'', h5⟩ := h4 [.values, .removeRange 1 2, .values]
    ⟨trivial, any_uniform, trivial, trivial⟩
  exact ⟨s, s', _, h3, s'', h5⟩

/-- Make a tree by `Put` of the keys, walk it with a callback that makes the calls `f k` when it gets
the key `k`: the keys that were seen, the keys that are in the tree afterwards. -/
def walkOf (ks : List Int) (f : Int → List (Op Int Int)) : Option (List Int × List Int) :=
  (run (step 2 Compare.any (0, none)) (PTree.new (0, none)) (ks.map fun k => .put k (some k))).bind
  fun p => (traverseWith 2 Compare.any (0, none) (fun (_ : Unit) e =>
      (f e.1).foldr (fun o q => .call o fun _ => q) (.ret ((), true))) p.1.free p.1 ()).bind
  fun w => (traverse (fun _ _ => true) w.state.mem w.state.free w.state.top).map
  fun q => (w.seen.map (·.1), q.1.map (·.1))

/-- C106 is false for callbacks that add: 3 is put when the callback gets 1, and 2 is not seen. -/
theorem C106_index_put_misses :
    walkOf [1, 2] (fun k => if k = 1 then [.put 3 none] else []) = some ([1], [1, 2, 3]) := rfl

/-- C106 is false for callbacks that remove: each key is removed when it is seen, and 3 is not seen. -/
theorem C106_index_remove_misses :
    walkOf [1, 2, 3, 4] (fun k => [.remove k]) = some ([1, 2, 4], [3]) := rfl

end IndexHeap

/-! ### tree/avls -/

namespace AvlsHeap
open Verif.AvlHeap (PMap Rep Holds MRel)
open Avl (Res ord)
open Avls (Op spec Rel Inv)
variable {K V τ : Type} {cmp : K → K → Int}

/-- What a callback may call: a call whose answer the ideal multimap fixes, and that adds and takes out
nothing. -/
def quiet (o : K → K → Ordering) (xs : List (K × V)) (op : Op K V) : Prop :=
  op.abstract = true ∧ (spec o xs op).1.length = xs.length

def Good (cmp : K → K → Int) (s : PMap K V) (xs : List (K × V)) (t : P K V) : Prop :=
  ∃ m, MRel s m ∧ Inv cmp 2 m ∧ Rel cmp m xs ∧ xs.length < 2 ^ 63 ∧ Holds s t ∧ erase t = m.root

def At (cmp : K → K → Int) (sh : Shape) (s : PMap K V) (xs : List (K × V)) : Prop :=
  ∃ t, Good cmp s xs t ∧ shape t = sh

theorem Good.step (hc : LawfulEx cmp) {zero : V} {s : PMap K V} {xs : List (K × V)} {t : P K V} {op : Op K V}
    (ha : op.abstract = true) (hr : (spec (ord cmp) xs op).1.length < 2 ^ 63) (h : Good cmp s xs t) :
    ∃ s' t', step cmp 2 zero s op = some (s', (spec (ord cmp) xs op).2) ∧
      Good cmp s' (spec (ord cmp) xs op).1 t' ∧
      ((spec (ord cmp) xs op).1.length = xs.length → shape t' = shape t) := by
  obtain ⟨m, hM, hI, hR, hx, hH, ht⟩ := h
  obtain ⟨m', r, h1, h2⟩ := Avls.step_ok hc Avls.cfg hI (Avls.height_small hR hI.good hx) op
  obtain ⟨h3, h4⟩ := Avls.step_partial hc hR h1
  replace h3 := h3 ha
  have h5 := step_sim (cmp := cmp) (d := 2) (zero := zero) hM op
  rw [h1] at h5
  obtain ⟨⟨s', r'⟩, h6, h7, h8⟩ := h5.some_right
  simp only at h7 h8
  subst h7
  obtain ⟨hz, t', ht', hH', hlen'⟩ := id h8
  refine ⟨s', t', by rw [h6, h3], ⟨m', h8, h2, h4, hr, hH', ht'⟩, fun hlen => ?_⟩
  obtain ⟨a, f, h11⟩ := step_same hM h6 (by rw [hz, h4.size, hM.1, hR.size, hlen])
  have h12 : mapN (fun b k v => if b.1 = a then f (k, v) else (k, v)) t = t' := by
    refine AvlHeap.rep_unique (m := s'.mem) ?_ hH'.rep ?_
    · rw [h11]; exact AvlHeap.rep_write hH.rep (List.nodup_cons.1 hH.nodup).2
    · rw [AvlHeap.ptr_mapN, ← hH.root, ← hH'.root, h11]
      simp only [AvlHeap.write, AvlHeap.upd, AvlHeap.Cell.kid, if_true]
      by_cases h0 : 0 = a
      · subst h0; rfl
      · rw [if_neg h0]
  rw [← h12, shape_mapN]

/-- C106, tree/avls. -/
theorem C106_avls_quiet_partial (hc : LawfulEx cmp) (zero : V) (junk : K × V) (os₀ : List (Op K V))
    (hf : ∀ os₁, os₁ <+: os₀ → (runSpec (spec (ord cmp)) [] os₁).1.length < 2 ^ 63)
    (every : τ → K × V → Prog (Op K V) (Res K V) (τ × Bool)) (t : τ) {xs : List (K × V)}
    (hx : xs = (runSpec (spec (ord cmp)) [] os₀).1)
    (hq : LegalVisit (spec (ord cmp)) (quiet (ord cmp)) every xs.length 0 xs t) :
    ∃ s rs, run (step cmp 2 zero) (PMap.new junk) os₀ = some (s, rs) ∧
      ∀ n, s.free ≤ n → ∃ s', traverseWith cmp 2 zero every n s t =
          some { visitWith (spec (ord cmp)) every xs.length 0 xs t with state := s' } ∧
        ∀ os, LegalRun (spec (ord cmp))
            (fun l o => o.abstract = true ∧ (spec (ord cmp) l o).1.length < 2 ^ 63)
            (visitWith (spec (ord cmp)) every xs.length 0 xs t).state os →
          ∃ s'', run (step cmp 2 zero) s' os = some (s'',
            (runSpec (spec (ord cmp)) (visitWith (spec (ord cmp)) every xs.length 0 xs t).state os).2) := by
  subst hx
  obtain ⟨s, rs, it, h2, -, m, p, hM, hI, hR, hz, hH, hp, -⟩ := start_ok hc zero junk hf
  simp only at hM hR hz hH
  have hlist : p.toList = (runSpec (spec (ord cmp)) [] os₀).1 := by
    rw [← AvlHeap.toList_erase, hp, hR.list]
  have hlen : (shape p).ino.length = (runSpec (spec (ord cmp)) [] os₀).1.length := by
    rw [← hlist, avl_ino hH.rep, List.length_map]
  rw [← hlen] at hq ⊢
  refine ⟨s, rs, h2, fun n hn => ?_⟩
  obtain ⟨s', h3, q, hG, -⟩ := walkWith_ok (A := At cmp (shape p)) (step := step cmp 2 zero)
    (lo := fun s a => (s.mem a).lo) (hi := fun s a => (s.mem a).hi)
    (ent := fun s a => ((s.mem a).key, (s.mem a).val)) (every := every) (legal := quiet (ord cmp))
    (spec := spec (ord cmp))
    (by
      rintro s l o ⟨ha, hl⟩ ⟨t, hG, h'⟩
      obtain ⟨s', t', h1, h2, h3⟩ := hG.step (zero := zero) hc ha (by
        obtain ⟨_, _, _, _, h, _⟩ := hG; rw [hl]; exact h)
      exact ⟨s', h1, t', h2, (h3 hl).trans h'⟩) (shape p)
    (n := n) (i := 0) (s := s) (t := t)
    (by rw [height_shape]; exact Nat.lt_of_lt_of_le hH.height hn)
    (by rintro s l ⟨t, ⟨_, _, _, _, _, h, _⟩, h'⟩; rw [← h']; exact avl_lk h.rep)
    (by
      rintro s l ⟨t, ⟨_, _, _, hR, _, h, ht⟩, h'⟩ j a ha
      rw [← h'] at ha
      exact map_get (f := fun a => ((s.mem a).key, (s.mem a).val)) (by rw [← hR.list, ← ht, AvlHeap.toList_erase]; exact avl_ino h.rep) ha)
    ⟨p, ⟨m, hM, hI, hR, hz, hH, hp⟩, rfl⟩ hq
  refine ⟨s', ?_, fun os hos => ?_⟩
  · rw [traverseWith, show s.root = (shape p).ptr by rw [ptr_shape]; exact hH.root]
    exact h3
  · obtain ⟨s'', h4, -⟩ := run_refines_legal (step := step cmp 2 zero) (spec := spec (ord cmp))
      (legal := fun l o => o.abstract = true ∧ (spec (ord cmp) l o).1.length < 2 ^ 63)
      (fun s l => ∃ t, Good cmp s l t)
      (fun s l o h1 h2 => by
        obtain ⟨t, hG⟩ := h2
        obtain ⟨s', t', h3, h4, -⟩ := hG.step (zero := zero) hc h1.1 h1.2
        exact ⟨s', h3, t', h4⟩) os _ _ hos ⟨q, hG⟩
    exact ⟨s'', h4⟩

/-- The callback of the example: each entry gives its value to the last key. -/
def pass : Nat → Int × Int → Prog (Op Int Int) (Res Int Int) (Nat × Bool) := fun c e =>
  .call .size fun _ => .call (.upsert 2 e.2) fun _ => .call (.remove 5) fun _ => .ret (c + 1, true)

theorem pass_quiet : LegalVisit (spec (ord Compare.anyEx)) (quiet (ord Compare.anyEx)) pass 3 0
    [(1, 10), (1, 11), (2, 20)] 0 := by
  intro e he
  cases he
  refine ⟨⟨⟨rfl, rfl⟩, ⟨rfl, rfl⟩, ⟨rfl, rfl⟩, trivial⟩, fun _ e he => ?_⟩
  cases he
  refine ⟨⟨⟨rfl, rfl⟩, ⟨rfl, rfl⟩, ⟨rfl, rfl⟩, trivial⟩, fun _ e he => ?_⟩
  cases he
  exact ⟨⟨⟨rfl, rfl⟩, ⟨rfl, rfl⟩, ⟨rfl, rfl⟩, trivial⟩, fun _ => trivial⟩

example : ∃ s s' : PMap Int Int, ∃ cs,
    traverseWith Compare.anyEx 2 0 pass (max s.free 4) s 0 =
      some ⟨s', 3, true, [(1, 10), (1, 11), (2, 11)], cs⟩ ∧
    ∃ s'', run (step Compare.anyEx 2 0) s' [.values, .remove 1, .values] =
      some (s'', [.list [10, 11, 11], .val (some 10), .list [11, 11]]) := by
  obtain ⟨s, rs, h1, h2⟩ := C106_avls_quiet_partial Avl.anyEx_lawful 0 (0, 0)
    [.put 1 10, .put 2 20, .put 1 11] (Avls.short_fits (by decide)) pass 0
    (xs := [(1, 10), (1, 11), (2, 20)]) rfl pass_quiet
  obtain ⟨s', h3, h4⟩ := h2 (max s.free 4) (by omega)
  obtain ⟨s'', h5⟩ := h4 [.values, .remove 1, .values]
    ⟨⟨rfl, by decide⟩, ⟨rfl, by decide⟩, ⟨rfl, by decide⟩, trivial⟩
  exact ⟨s, s', _, h3, s'', h5⟩

/-- As `IndexHeap.walkOf`. -/
def walkOf (ks : List Int) (f : Int → List (Op Int Int)) : Option (List Int × List Int) :=
  (run (step Compare.anyEx 2 0) (PMap.new (0, 0)) (ks.map fun k => .put k k)).bind
  fun p => (traverseWith Compare.anyEx 2 0 (fun (_ : Unit) e =>
      (f e.1).foldr (fun o q => .call o fun _ => q) (.ret ((), true))) p.1.free p.1 ()).bind
  fun w => (AvlHeap.traverse (fun _ _ => true) w.state.mem w.state.free w.state.root).map
  fun q => (w.seen.map (·.1), q.1.map (·.1))

/-- C106 is false for callbacks that add: 3 is put when the callback gets 1, and 2 is not seen. -/
theorem C106_avls_put_misses :
    walkOf [1, 2] (fun k => if k = 1 then [.put 3 3] else []) = some ([1], [1, 2, 3]) := rfl

/-- C106 is false for callbacks that remove: each key is removed when it is seen, and 3 and 4 are not
seen. -/
theorem C106_avls_remove_misses :
    walkOf [1, 2, 3, 4] (fun k => [.remove k]) = some ([1, 2], [3, 4]) := by decide +kernel

end AvlsHeap

/-! ### queue/priority -/

namespace PriorityHeap
open Verif.AvlHeap (Rep)
open Avl (ord)
open Priority (Op Res spec legal Rel)
variable {K V τ : Type} {cmp : K → K → Int}

/-- What a callback may call: a call that adds and takes out nothing. -/
def quiet (o : K → K → Ordering) (xs : List (K × V)) (op : Op K V) : Prop :=
  legal xs op ∧ (spec o xs op).1.length = xs.length

def At (cmp : K → K → Int) (sh : Shape) (s : PQueue K V) (xs : List (K × V)) : Prop :=
  ∃ t, Held s t ∧ Rel cmp (erase t) xs ∧ shape t = sh

theorem At.step (hc : LawfulEx cmp) {zero : V} {sh : Shape} (s : PQueue K V) (xs : List (K × V))
    (op : Op K V) (hq : quiet (ord cmp) xs op) (h : At cmp sh s xs) :
    ∃ s', step cmp zero s op = some (s', (spec (ord cmp) xs op).2) ∧
      At cmp sh s' (spec (ord cmp) xs op).1 := by
  obtain ⟨t, hH, hR, rfl⟩ := h
  obtain ⟨hl, hlen⟩ := hq
  obtain ⟨u, h1, h2⟩ := Priority.step_ok hc op hl hR
  have h3 := step_sim (cmp := cmp) (zero := zero) ⟨t, rfl, hH⟩ op
  rw [h1] at h3
  obtain ⟨⟨s', r'⟩, h4, h5, t', h6, hH'⟩ := h3.some_right
  simp only at h5
  subst h5 h6
  refine ⟨s', h4, t', hH', h2, ?_⟩
  obtain ⟨a, f, h11⟩ := step_same hH hR hl h4 hlen
  have h12 : mapN (fun b k v => if b.1 = a then f (k, v) else (k, v)) t = t' := by
    refine AvlHeap.rep_unique (m := s'.mem) ?_ hH'.rep ?_
    · rw [h11]; exact AvlHeap.rep_write hH.rep (List.nodup_cons.1 hH.nodup).2
    · rw [AvlHeap.ptr_mapN, ← hH.root, ← hH'.root]
      simp only
      rw [h11]
      simp only [AvlHeap.write, AvlHeap.upd, AvlHeap.Cell.kid, if_true]
      by_cases h0 : 0 = a
      · subst h0; rfl
      · rw [if_neg h0]
  rw [← h12, shape_mapN]

/-- C106, queue/priority. -/
theorem C106_priority_quiet_partial (hc : LawfulEx cmp) (zero : V) (junk : K × V) (os₀ : List (Op K V))
    (hl₀ : LegalRun (spec (ord cmp)) legal [] os₀)
    (every : τ → K × V → Prog (Op K V) (Res K V) (τ × Bool)) (t : τ) {xs : List (K × V)}
    (hx : xs = (runSpec (spec (ord cmp)) [] os₀).1)
    (hq : LegalVisit (spec (ord cmp)) (quiet (ord cmp)) every xs.length 0 xs t) :
    ∃ s, run (step cmp zero) (PQueue.new junk) os₀ = some (s, (runSpec (spec (ord cmp)) [] os₀).2) ∧
      ∀ n, s.free ≤ n → ∃ s', traverseWith cmp zero every n s t =
          some { visitWith (spec (ord cmp)) every xs.length 0 xs t with state := s' } ∧
        ∀ os, LegalRun (spec (ord cmp)) legal
            (visitWith (spec (ord cmp)) every xs.length 0 xs t).state os →
          ∃ s'', run (step cmp zero) s' os = some (s'',
            (runSpec (spec (ord cmp)) (visitWith (spec (ord cmp)) every xs.length 0 xs t).state os).2) := by
  subst hx
  obtain ⟨u, h1, hR⟩ := Priority.run_ok hc os₀ hl₀
  have h3 := run_sim (cmp := cmp) (zero := zero) os₀ (QRel.new junk)
  rw [h1] at h3
  obtain ⟨⟨s, rs⟩, h2, h5, p, h6, hH⟩ := h3.some_right
  simp only at h5
  subst h5 h6
  have hlist : p.toList = (runSpec (spec (ord cmp)) [] os₀).1 := by rw [← AvlHeap.toList_erase, hR.list]
  have hlen : (shape p).ino.length = (runSpec (spec (ord cmp)) [] os₀).1.length := by
    rw [← hlist, avl_ino hH.rep, List.length_map]
  rw [← hlen] at hq ⊢
  refine ⟨s, h2, fun n hn => ?_⟩
  obtain ⟨s', h3, q, hH', hR', -⟩ := walkWith_ok (A := At cmp (shape p)) (step := step cmp zero)
    (lo := fun s a => (s.mem a).lo) (hi := fun s a => (s.mem a).hi)
    (ent := fun s a => ((s.mem a).key, (s.mem a).val)) (every := every) (legal := quiet (ord cmp))
    (spec := spec (ord cmp)) (At.step hc (zero := zero)) (shape p)
    (n := n) (i := 0) (s := s) (t := t)
    (by rw [height_shape]; exact Nat.lt_of_lt_of_le hH.height hn)
    (by rintro s l ⟨t, h, -, h'⟩; rw [← h']; exact avl_lk h.rep)
    (by
      rintro s l ⟨t, h, hR, h'⟩ j a ha
      rw [← h'] at ha
      exact map_get (f := fun a => ((s.mem a).key, (s.mem a).val)) (by rw [← hR.list, AvlHeap.toList_erase]; exact avl_ino h.rep) ha)
    ⟨p, hH, hR, rfl⟩ hq
  refine ⟨s', ?_, fun os hos => ?_⟩
  · rw [traverseWith, show s.root = (shape p).ptr by rw [ptr_shape]; exact hH.root]
    exact h3
  · obtain ⟨u', h4, -⟩ := run_refines_legal (step := Priority.step cmp) (spec := spec (ord cmp))
      (legal := legal) (Rel cmp) (fun _ _ op h hR => Priority.step_ok hc op h hR) os _ _ hos hR'
    have h5 := run_sim (cmp := cmp) (zero := zero) os (s := s') ⟨q, rfl, hH'⟩
    rw [h4] at h5
    obtain ⟨⟨s'', rs⟩, h6, h7, -⟩ := h5.some_right
    simp only at h7
    subst h7
    exact ⟨s'', h6⟩

/-- The callback of the example: each entry gives its value to the last key. -/
def passOn : Nat → Int × Int → Prog (Op Int Int) (Res Int Int) (Nat × Bool) := fun c e =>
  .call .size fun _ => .call (.upsert 2 e.2) fun _ => .call (.remove 5) fun _ => .ret (c + 1, true)

theorem passOn_quiet : LegalVisit (spec (ord Compare.anyEx)) (quiet (ord Compare.anyEx)) passOn 3 0
    [(1, 10), (1, 11), (2, 20)] 0 := by
  intro e he
  cases he
  refine ⟨⟨⟨trivial, rfl⟩, ⟨trivial, rfl⟩, ⟨trivial, rfl⟩, trivial⟩, fun _ e he => ?_⟩
  cases he
  refine ⟨⟨⟨trivial, rfl⟩, ⟨trivial, rfl⟩, ⟨trivial, rfl⟩, trivial⟩, fun _ e he => ?_⟩
  cases he
  exact ⟨⟨⟨trivial, rfl⟩, ⟨trivial, rfl⟩, ⟨trivial, rfl⟩, trivial⟩, fun _ => trivial⟩

example : ∃ s s' : PQueue Int Int, ∃ cs,
    traverseWith Compare.anyEx 0 passOn (max s.free 4) s 0 =
      some ⟨s', 3, true, [(1, 10), (1, 11), (2, 11)], cs⟩ ∧
    ∃ s'', run (step Compare.anyEx 0) s' [.values, .remove 1, .values] =
      some (s'', [.list [10, 11, 11], .val (some 10), .list [11, 11]]) := by
  obtain ⟨s, h1, h2⟩ := C106_priority_quiet_partial Avl.anyEx_lawful 0 (0, 0)
    [.put 1 10, .put 2 20, .put 1 11] ⟨trivial, trivial, trivial, trivial⟩ passOn 0
    (xs := [(1, 10), (1, 11), (2, 20)]) rfl passOn_quiet
  obtain ⟨s', h3, h4⟩ := h2 (max s.free 4) (by omega)
  obtain ⟨s'', h5⟩ := h4 [.values, .remove 1, .values]
    ⟨trivial, trivial, trivial, trivial⟩
  exact ⟨s, s', _, h3, s'', h5⟩

/-- As `IndexHeap.walkOf`. -/
def walkOf (ks : List Int) (f : Int → List (Op Int Int)) : Option (List Int × List Int) :=
  (run (step Compare.anyEx 0) (PQueue.new (0, 0)) (ks.map fun k => .put k k)).bind
  fun p => (traverseWith Compare.anyEx 0 (fun (_ : Unit) e =>
      (f e.1).foldr (fun o q => .call o fun _ => q) (.ret ((), true))) p.1.free p.1 ()).bind
  fun w => (AvlHeap.traverse (fun _ _ => true) w.state.mem w.state.free w.state.root).map
  fun q => (w.seen.map (·.1), q.1.map (·.1))

/-- C106 is false for callbacks that add: 3 is put when the callback gets 1, and 2 is not seen. -/
theorem C106_priority_put_misses :
    walkOf [1, 2] (fun k => if k = 1 then [.put 3 3] else []) = some ([1], [1, 2, 3]) := rfl

/-- C106 is false for callbacks that remove: each key is removed when it is seen, and 3 and 4 are not
seen. -/
theorem C106_priority_remove_misses :
    walkOf [1, 2, 3, 4] (fun k => [.remove k]) = some ([1, 2], [3, 4]) := rfl

end PriorityHeap
end Verif
