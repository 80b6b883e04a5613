import Verif.Tree.ListHeapRange
import Verif.Tree.TreeListRange

/-! The pointer program of `Verif.Tree.ListHeap` agrees with the model with subtrees of
`Verif.Tree.TreeListModel`: one call on one list. -/

namespace Verif.ListHeap
open Verif.IndexHeap Verif.DLL Verif.Tree Verif.Size
open Verif.AvlHeap (P ptr addrs erase ptr_nil ptr_node ptr_mem ptr_ne)
open Verif.TreeList (TL limit Op Res SetOp)
variable {K V : Type} {cmp : K → K → Int} {root : Nat}

/-! ### Trim -/

theorem first_tagged : ∀ {t : P K (Nat × V)}, Tagged t → t.isNil = false →
    TreeList.first (erase t) = some (IndexHeap.last false t)
  | nil, _, h => by cases h
  | node a k v nil r, ht, _ => by simp only [erase, TreeList.first, ht.1]; rfl
  | node a k v (node b k2 v2 x y) r, ht, _ => by
    have := first_tagged ht.2.1 rfl
    simp only [erase] at this
    simp only [erase, TreeList.first, Tree.isNil, Bool.false_eq_true, if_false, IndexHeap.last]
    simp only [TreeList.first] at this
    exact this

theorem last_tagged : ∀ {t : P K (Nat × V)}, Tagged t → t.isNil = false →
    TreeList.last (erase t) = some (IndexHeap.last true t)
  | nil, _, h => by cases h
  | node a k v l nil, ht, _ => by simp only [erase, TreeList.last, ht.1]; rfl
  | node a k v l (node b k2 v2 x y), ht, _ => by
    have := last_tagged ht.2.2 rfl
    simp only [erase] at this
    simp only [erase, TreeList.last, Tree.isNil, Bool.false_eq_true, if_false, IndexHeap.last]
    simp only [TreeList.last] at this
    exact this

/-- tree.go:594-610, 699-715. -/
theorem fence_sim {s : PList K V} {t : P K (Nat × V)} {S : List Nat} {d0 : Dir} {x : TL K V}
    (hR : One (gh s.mem) s.root t) (hf : t.height ≤ s.free) (hS : ∀ a ∈ addrs t, a ∈ S) (hx : x.tree = erase t)
    (ha : Agree s.root S d0 x s.dir) :
    ∃ d', s.fence = some { s with dir := d' } ∧ Agree s.root S d0 x.fence d' ∧ x.fence.tree = x.tree ∧
      x.fence.free = x.free := by
  have hlo : (s.mem s.root).lo = ptr t := by rw [← gh_lo]; exact hR.lo
  cases e : t.isNil with
  | true =>
    obtain rfl : t = nil := by cases t; rfl; cases e
    refine ⟨s.dir, by simp only [PList.fence, PList.top, hlo, ptr_nil], ?_⟩
    simp only [TL.fence, hx, erase, TreeList.first]
    exact ⟨ha, trivial, trivial⟩
  | false =>
    obtain ⟨b, hb⟩ := ptr_isNil e
    have ht := tagged hR.rep
    have f1 := far_ok (c := false) t s.root b s.free hR.rep hb hf
    have f2 := far_ok (c := true) t s.root b s.free hR.rep hb hf
    rw [gh_far] at f1 f2
    have m1 := last_mem (c := false) e
    have m2 := last_mem (c := true) e
    refine ⟨setDir (setDir (setDir (setDir s.dir (IndexHeap.last false t) false none) s.root false
        (some (IndexHeap.last false t))) (IndexHeap.last true t) true none) s.root true
        (some (IndexHeap.last true t)),
      by simp only [PList.fence, PList.top, hlo, hb, f1, f2, Option.bind_some, Option.map_some], ?_⟩
    have g1 : TreeList.first x.tree = _ := (congrArg _ hx).trans (first_tagged ht e)
    have g2 : TreeList.last x.tree = _ := (congrArg _ hx).trans (last_tagged ht e)
    simp only [TL.fence, g1, g2]
    refine ⟨?_, trivial, trivial⟩
    exact ((((ha.setPrev (hS _ m1) (by rintro h; exact hR.notMem (h ▸ m1)) none).setHead _).setNext (hS _ m2)
      (by rintro h; exact hR.notMem (h ▸ m2)) none).setTail _)

section
variable {s : PList K V} {t : P K (Nat × V)} {zs : List (TreeList.Ent K V)}

theorem Holds.top (h : Holds cmp s t zs) : s.top = ptr t := by
  rw [← h.one.lo, gh_lo]; rfl

theorem Holds.same (h : Holds cmp s t zs) : Sim s t s (abs s t) :=
  ⟨rfl, rfl, t, rfl, .refl h.one h.below, agree_abs ..⟩

theorem Holds.closed (h : Holds cmp s t zs) : Closed s.dir (addrs t) := by
  intro a ha c b hb
  cases c
  · exact (h.links (b := b) ha).1 hb
  · exact (h.links (b := b) ha).2 hb

/-- The tree of `s'` is `t'`, the links are the same. -/
theorem Holds.tree (h : Holds cmp s t zs) {m' : Mem K V} {t' : P K (Nat × V)} {u : T K (Nat × V)}
    {gone : List Nat} (he : erase t' = u) (hg : Good [] gone (gh s.mem) (gh m') s.root false t t') :
    Sim s t { s with mem := m' } { abs s t with tree := u } :=
  ⟨rfl, rfl, t', he, next_of_good' h.one h.below hg, (agree_abs s t _).tree rfl rfl (fun _ => rfl) fun _ => rfl⟩

/-- tree.go:74-79. -/
theorem get_node (h : Holds cmp s t zs) (k : K) :
    getNode cmp s.mem k s.free s.top = some ((Size.get cmp k (erase t)).map fun e => e.2.1) ∧
      ∀ e, Size.get cmp k (erase t) = some e → (s.mem e.2.1).val = e.2.2 := by
  have hf := h.one.fuel h.below
  have hg := get_ok (cmp := cmp) (key := k) t s.root false s.free h.one.rep h.one.nodup (h.one.hole []) hf.2
  rw [h.top]
  cases e : Size.get cmp k (erase t) with
  | none => rw [e] at hg; simp only [gh_getNode] at hg; exact ⟨hg, by simp⟩
  | some e' =>
    rw [e] at hg
    obtain ⟨b, h1, h2, -⟩ := hg
    rw [gh_getNode] at h1
    rw [gh_val] at h2
    refine ⟨by rw [h1]; simp only [Option.map_some, ← h2], ?_⟩
    rintro e ⟨⟩
    rw [← h2]

/-- tree.go:185-190. -/
theorem remove_sim {k : K} {x' : TL K V} {o : Option (K × V)} (h : Holds cmp s t zs)
    (hs : TreeList.doRemove cmp (abs s t) k = some (x', o)) :
    ∃ s', s.remove cmp k = some (s', o) ∧ Sim s t s' x' := by
  obtain ⟨h1, -⟩ := get_node h k
  simp only [TreeList.doRemove, abs] at hs
  simp only [PList.remove, h1]
  cases e : Size.get cmp k (erase t) with
  | none =>
    rw [e] at hs
    cases hs
    exact ⟨s, rfl, h.same⟩
  | some e' =>
    rw [e] at hs
    simp only [Option.map_eq_some_iff] at hs
    obtain ⟨⟨x, p⟩, h2, h3⟩ := hs
    cases h3
    obtain ⟨s', i1, i2⟩ := removeNode_sim h h2
    exact ⟨s', by simp [i1], i2⟩

/-- utils.go:482-507. -/
theorem index_node (h : Holds cmp s t zs) (i : Int) :
    index s.mem i s.free s.top = (nodeAt i (erase t) (leftSz (erase t))).map (fun e => e.2.1) ∧
      ∀ e, nodeAt i (erase t) (leftSz (erase t)) = some e → ((s.mem e.2.1).key, (s.mem e.2.1).val) = (e.1, e.2.2) := by
  have hf := h.one.fuel h.below
  rw [h.top]
  cases hp : ptr t with
  | none =>
    obtain rfl := ptr_none hp
    exact ⟨rfl, by simp [erase, nodeAt]⟩
  | some b =>
    have hi := (index_ok (root := s.root) (i := i) t s.root false s.free b (leftSz (erase t)) h.one.rep h.one.nodup
      (h.one.hole []) h.one.notMem (by omega) hp).1
    have e0 : index s.mem i s.free (some b) = indexLoop s.mem i s.free b (leftSz (erase t)) := by
      have := leftSz_ok h.one.rep hp
      rw [gh_lo, gh_getSize] at this
      simp only [index, Option.bind_some, this]
    cases e : nodeAt i (erase t) (leftSz (erase t)) with
    | none => rw [e] at hi; simp only [gh_indexLoop] at hi; exact ⟨by rw [e0, hi]; rfl, by simp⟩
    | some e' =>
      rw [e] at hi
      obtain ⟨x, i1, i2, i3⟩ := hi
      rw [gh_indexLoop] at i1
      rw [gh_key] at i2
      rw [gh_val] at i3
      refine ⟨by rw [e0, i1]; simp only [Option.map_some, ← i3], ?_⟩
      rintro e ⟨⟩
      rw [← i3, ← i2]

/-- tree.go:235-354. -/
theorem removeRange_sim {low high : K} {x' : TL K V} {r : Res K V} (h : Holds cmp s t zs)
    (hs : TreeList.doRemoveRange cmp (abs s t) low high = some (x', r)) :
    ∃ s', s.removeRange cmp low high = some (s', r) ∧ Sim s t s' x' := by
  have hf := h.one.fuel h.below
  simp only [TreeList.doRemoveRange] at hs
  simp only [PList.removeRange]
  by_cases c1 : cmp low high > 0
  · rw [if_pos c1] at hs
    cases hs
    simp only [if_pos c1]
    exact ⟨s, rfl, h.same⟩
  · rw [if_neg c1] at hs
    simp only [if_neg c1]
    by_cases c2 : cmp low high = 0
    · rw [if_pos c2, Option.map_eq_some_iff] at hs
      obtain ⟨⟨x, o⟩, h1, h2⟩ := hs
      cases h2
      obtain ⟨s', i1, i2⟩ := remove_sim h h1
      exact ⟨s', by simp only [if_pos c2, i1, Option.map_some], i2⟩
    · rw [if_neg c2] at hs
      simp only [if_neg c2]
      cases e : TreeList.rangeOut cmp low high (abs s t).heap (abs s t).tree with
      | none => rw [e] at hs; cases hs
      | some q =>
        obtain ⟨z, anc, o⟩ := q
        rw [e] at hs
        have ho := rangeOut_ok (root := s.root) (d := s.dir) (h := view s.mem s.dir) (fun _ => ⟨rfl, rfl⟩) h.closed
          t s.root false s.free z anc o (tagged h.one.rep) (fun _ h => h) h.one.rep h.one.nodup (h.one.hole [])
          h.one.notMem hf.2 e
        rcases ho with ⟨rfl, g1⟩ | ⟨dl, dr, rfl, f1, f2, -, b, g1, g2⟩
        · cases hs
          rw [gh_getRangeRoot, ← h.top] at g1
          simp only [g1, Option.bind_some]
          exact ⟨s, rfl, h.same⟩
        · cases hs
          rw [gh_getRangeRoot, ← h.top] at g1
          obtain ⟨m', t', gone, j1, j2, j3⟩ := g2.done (f := fun m => (m, dl, dr))
            (fun n m' => by simp only [ancD, ancLoop_root]; rfl) hf.1
          rw [gh_rangeAt, Option.map_eq_some_iff] at j3
          obtain ⟨⟨m1, e1⟩, j3, j4⟩ := j3
          obtain ⟨rfl, rfl⟩ := Prod.mk.inj j4
          simp only [g1, Option.bind_some, j3, Option.map_some]
          obtain ⟨-, -, t'', k1, k2, k3⟩ := h.tree j1 j2
          refine ⟨_, rfl, rfl, ?_, t'', ?_, k2, ?_⟩
          · simp only [TL.unlink, TreeList.setL_free, TreeList.setR_free]; rfl
          · rw [k1]; simp only [TL.unlink, TreeList.setL_tree, TreeList.setR_tree]
          · exact k3.unlink (h.inT (by simp +contextual) f1) (h.inT (by simp +contextual) f2)

/-- tree.go:357-500. -/
theorem removeRangeByIndex_sim {low high : Int} {x' : TL K V} {r : Res K V} (h : Holds cmp s t zs)
    (hs : TreeList.doRemoveRangeByIndex (abs s t) low high = some (x', r)) :
    ∃ s', s.removeRangeByIndex low high = some (s', r) ∧ Sim s t s' x' := by
  have hf := h.one.fuel h.below
  simp only [TreeList.doRemoveRangeByIndex] at hs
  simp only [PList.removeRangeByIndex]
  by_cases c1 : low > high
  · rw [if_pos c1] at hs
    cases hs
    simp only [if_pos c1]
    exact ⟨s, rfl, h.same⟩
  · rw [if_neg c1] at hs
    simp only [if_neg c1, h.top]
    cases hp : ptr t with
    | none =>
      obtain rfl := ptr_none hp
      simp only [abs, erase, TreeList.rangeIdxOut] at hs
      cases hs
      simp only [rangeFind, Option.bind_none]
      exact ⟨s, rfl, h.same⟩
    | some b =>
      have hi := rangeIdxOut_ok (root := s.root) (low := low) (high := high) (d := s.dir) (h := view s.mem s.dir)
        (fun _ => ⟨rfl, rfl⟩) h.closed t s.root false s.free b (leftSz (erase t)) (tagged h.one.rep) (fun _ h => h)
        h.one.rep h.one.nodup (h.one.hole []) h.one.notMem (by omega) hp
      have e0 : rangeFind s.mem low high s.free (some b) = rangeLoop s.mem low high s.free b (leftSz (erase t)) := by
        have := leftSz_ok h.one.rep hp
        rw [gh_lo, gh_getSize] at this
        simp only [rangeFind, Option.bind_some, this]
      rw [e0]
      simp only [abs] at hs
      cases e : TreeList.rangeIdxOut low high (view s.mem s.dir) (erase t) (leftSz (erase t)) with
      | none =>
        rw [e] at hi hs
        cases hs
        simp only [gh_rangeLoop] at hi
        rw [hi]
        exact ⟨s, rfl, h.same⟩
      | some o =>
        cases o with
        | none => rw [e] at hs; cases hs
        | some q =>
          obtain ⟨z, anc, dl, dr⟩ := q
          rw [e] at hi hs
          cases hs
          obtain ⟨f1, f2, -, x, i, g1, g2⟩ := hi
          rw [gh_rangeLoop] at g1
          obtain ⟨m', t', gone, j1, j2, j3⟩ := g2.done (f := fun m => (m, dl, dr))
            (fun n m' => by simp only [ancD, ancLoop_root]; rfl) hf.1
          rw [gh_rangeIdxAt, Option.map_eq_some_iff] at j3
          obtain ⟨⟨m1, e1⟩, j3, j4⟩ := j3
          obtain ⟨rfl, rfl⟩ := Prod.mk.inj j4
          simp only [g1, j3, Option.map_some]
          obtain ⟨-, -, t'', k1, k2, k3⟩ := h.tree j1 j2
          refine ⟨_, rfl, rfl, ?_, t'', ?_, k2, ?_⟩
          · simp only [TL.unlink, TreeList.setL_free, TreeList.setR_free]
          · rw [k1]; simp only [TL.unlink, TreeList.setL_tree, TreeList.setR_tree]
          · exact k3.unlink (h.inT (by simp +contextual) f1) (h.inT (by simp +contextual) f2)

/-- The end of both trims. -/
theorem fenced (h : Holds cmp s t zs) {m' : Mem K V} {t' : P K (Nat × V)} {u : T K (Nat × V)}
    {gone : List Nat} (he : erase t' = u) (hg : Good [] gone (gh s.mem) (gh m') s.root false t t') :
    ∃ s', ({ s with mem := m' } : PList K V).fence = some s' ∧ Sim s t s' (({ abs s t with tree := u } : TL K V).fence) := by
  subst he
  have hn := next_of_good' h.one h.below hg
  have hb : Below s.free s.root t' := fun x hx => (hn.bound x hx).1
  have hf := hn.one.fuel hb
  obtain ⟨-, -, -, -, -, k3⟩ := h.tree rfl hg
  obtain ⟨d', i1, i2, i3, i4⟩ := fence_sim (s := { s with mem := m' }) (t := t') (S := s.free :: addrs t) (d0 := s.dir)
    (x := { abs s t with tree := erase t' }) hn.one (Nat.le_of_lt hf.2) (fun a ha => by
      have h1 := hb a (by simp [ha])
      rcases (hn.bound a (by simp [ha])).2 with h2 | h2
      · rcases List.mem_cons.1 h2 with rfl | h3
        · exact absurd ha hn.one.notMem
        · simp [h3]
      · omega) rfl k3
  exact ⟨_, i1, rfl, i4.symm, t', i3.symm, hn, i2⟩

/-- One call. -/
theorem step_sim {op : Op K V} {x' : TL K V} {r : Res K V} (h : Holds cmp s t zs)
    (hs : TreeList.step cmp (abs s t) op = some (x', r)) :
    ∃ s', step cmp s op = some (s', r) ∧ Sim s t s' x' := by
  have hf := h.one.fuel h.below
  have hlo := h.top
  cases op with
  | put k v =>
    simp only [TreeList.step, Option.map_eq_some_iff] at hs
    obtain ⟨⟨x, b⟩, h1, h2⟩ := hs
    cases h2
    obtain ⟨s', i1, i2⟩ := putWith_sim h h1
    exact ⟨s', by simp only [step, i1, Option.map_some], i2⟩
  | set k v =>
    simp only [TreeList.step, Option.map_eq_some_iff] at hs
    obtain ⟨⟨x, b⟩, h1, h2⟩ := hs
    cases h2
    obtain ⟨s', i1, i2⟩ := putWith_sim h h1
    exact ⟨s', by simp only [step, i1, Option.map_some], i2⟩
  | putDup k v f =>
    simp only [TreeList.step, Option.map_eq_some_iff] at hs
    obtain ⟨⟨x, b⟩, h1, h2⟩ := hs
    cases h2
    obtain ⟨s', i1, i2⟩ := putWith_sim h h1
    exact ⟨s', by simp only [step, i1, Option.map_some], i2⟩
  | get k =>
    simp only [TreeList.step, Option.some.injEq, Prod.mk.injEq] at hs
    obtain ⟨rfl, rfl⟩ := hs
    obtain ⟨h1, h2⟩ := get_node h k
    refine ⟨s, ?_, h.same⟩
    simp only [step, h1, Option.map_some, abs]
    cases e : Size.get cmp k (erase t) with
    | none => rfl
    | some e' => simp only [Option.map_some, h2 e' e]
  | remove k =>
    simp only [TreeList.step, Option.map_eq_some_iff] at hs
    obtain ⟨⟨x, b⟩, h1, h2⟩ := hs
    cases h2
    obtain ⟨s', i1, i2⟩ := remove_sim h h1
    exact ⟨s', by simp only [step, i1, Option.map_some], i2⟩
  | removeIndex i =>
    obtain ⟨h1, -⟩ := index_node h i
    simp only [TreeList.step, abs] at hs
    simp only [step, h1]
    cases e : nodeAt i (erase t) (leftSz (erase t)) with
    | none => rw [e] at hs; cases hs; exact ⟨s, rfl, h.same⟩
    | some e' =>
      rw [e] at hs
      simp only [Option.map_eq_some_iff] at hs
      obtain ⟨⟨x, p⟩, h2, h3⟩ := hs
      cases h3
      obtain ⟨s', i1, i2⟩ := removeNode_sim h h2
      exact ⟨s', by simp only [Option.map_some, i1], i2⟩
  | removeHead =>
    simp only [TreeList.step] at hs
    simp only [step, h.top, isNone_ptr]
    rw [show (abs s t).tree = erase t from rfl] at hs
    by_cases c1 : (erase t).isNil = true
    · rw [if_pos c1] at hs ⊢
      cases hs
      exact ⟨s, rfl, h.same⟩
    · rw [if_neg c1] at hs ⊢
      simp only [Option.bind_eq_some_iff, Option.map_eq_some_iff] at hs
      obtain ⟨a, h1, ⟨x, p⟩, h2, h3⟩ := hs
      cases h3
      obtain ⟨s', i1, i2⟩ := removeNode_sim h h2
      have h1 : (s.dir s.root).1 = some a := h1
      exact ⟨s', by simp only [h1, Option.bind_some, i1, Option.map_some], i2⟩
  | removeTail =>
    simp only [TreeList.step] at hs
    simp only [step, h.top, isNone_ptr]
    rw [show (abs s t).tree = erase t from rfl] at hs
    by_cases c1 : (erase t).isNil = true
    · rw [if_pos c1] at hs ⊢
      cases hs
      exact ⟨s, rfl, h.same⟩
    · rw [if_neg c1] at hs ⊢
      simp only [Option.bind_eq_some_iff, Option.map_eq_some_iff] at hs
      obtain ⟨a, h1, ⟨x, p⟩, h2, h3⟩ := hs
      cases h3
      obtain ⟨s', i1, i2⟩ := removeNode_sim h h2
      have h1 : (s.dir s.root).2 = some a := h1
      exact ⟨s', by simp only [h1, Option.bind_some, i1, Option.map_some], i2⟩
  | head => cases hs; exact ⟨s, rfl, h.same⟩
  | tail => cases hs; exact ⟨s, rfl, h.same⟩
  | size =>
    cases hs
    refine ⟨s, ?_, h.same⟩
    have := getSize_ptr h.one.rep
    rw [gh_getSize] at this
    simp only [step, hlo, this]
    rfl
  | index i =>
    obtain ⟨h1, h2⟩ := index_node h i
    simp only [TreeList.step, abs] at hs
    simp only [step, h1]
    cases e : nodeAt i (erase t) (leftSz (erase t)) with
    | none => rw [e] at hs; cases hs; exact ⟨s, rfl, h.same⟩
    | some e' =>
      rw [e] at hs
      cases hs
      exact ⟨s, by simp only [Option.map_some, h2 e' e]; rfl, h.same⟩
  | indexOf k =>
    simp only [TreeList.step, Option.some.injEq, Prod.mk.injEq] at hs
    obtain ⟨rfl, rfl⟩ := hs
    simp only [step, hlo]
    cases hp : ptr t with
    | none => obtain rfl := ptr_none hp; exact ⟨s, rfl, h.same⟩
    | some b =>
      have e1 := leftSz_ok h.one.rep hp
      rw [gh_lo, gh_getSize] at e1
      have e2 := indexOf_ok (cmp := cmp) (key := k) t s.root s.free b (leftSz (erase t)) h.one.rep (by omega) hp
      rw [gh_indexOfLoop] at e2
      exact ⟨s, by simp only [e1, e2, Option.map_some]; rfl, h.same⟩
  | slices =>
    cases hs
    have := traverse_ok (every := fun _ _ => true) t s.root s.free h.one.rep hf.2
    refine ⟨s, ?_, h.same⟩
    simp only [step, hlo, gh_traverse (m := s.mem), this, Option.map_some]
    rfl
  | traverse every =>
    cases hs
    have := traverse_ok (every := fun k v => every k v.2) t s.root s.free h.one.rep hf.2
    refine ⟨s, ?_, h.same⟩
    simp only [step, hlo, gh_traverse (m := s.mem), this, Option.map_some]
    rfl
  | clear =>
    cases hs
    have hg : Good [] (addrs t) (gh s.mem) (gh (link s.mem s.root false none)) s.root false t nil := by
      rw [← gh_link]
      refine ⟨trivial, ?_, by simp [addrs], ?_⟩
      · simp [link, upd]
      · intro x _ hx; simp [link, upd, hx]
    obtain ⟨-, -, t'', k1, k2, k3⟩ := h.tree rfl hg
    exact ⟨_, rfl, rfl, rfl, t'', k1, k2, (k3.setHead none).setTail none⟩
  | removeRange low high => exact removeRange_sim h hs
  | removeRangeByIndex low high => exact removeRangeByIndex_sim h hs
  | trim low high =>
    simp only [TreeList.step, TreeList.doTrim, Option.some.injEq] at hs
    simp only [step]
    by_cases c1 : cmp low high > 0
    · rw [if_pos c1] at hs ⊢
      cases hs
      exact ⟨s, rfl, h.same⟩
    · rw [if_neg c1] at hs ⊢
      cases hs
      obtain ⟨m', t', gone, h1, h2, h3⟩ := trim_ok (cmp := cmp) (low := low) (high := high) h.one.rep h.one.nodup
        h.one.lo
      have h4 := h3 s.free hf.1
      rw [gh_trim, Option.map_eq_some_iff] at h4
      obtain ⟨m1, h4, rfl⟩ := h4
      obtain ⟨s', i1, i2⟩ := fenced h h1 h2
      exact ⟨s', by simp only [h4, Option.bind_some, i1, Option.map_some], i2⟩
  | trimByIndex low high =>
    simp only [TreeList.step, TreeList.doTrimByIndex, Option.some.injEq] at hs
    simp only [step]
    by_cases c1 : low > high
    · rw [if_pos c1] at hs ⊢
      cases hs
      exact ⟨s, rfl, h.same⟩
    · rw [if_neg c1] at hs ⊢
      simp only [abs] at hs
      cases hp : ptr t with
      | none =>
        obtain rfl := ptr_none hp
        simp only [erase, trimIdx] at hs
        cases hs
        have hlo' : (s.mem s.root).lo = none := hlo
        simp only [trimByIndex, hlo', rangeFind, Option.bind_none]
        exact ⟨s, rfl, h.same⟩
      | some b =>
        have hi := trimRun_ok (low := low) (high := high) (by omega) t s.root b (leftSz (erase t)) h.one.rep
          (List.nodup_cons.1 h.one.nodup).2 hp
        have e0 := trimByIndex_eq (root := s.root) (n := s.free) (low := low) (high := high) (h.one.lo.trans hp)
        rw [leftSz_ok h.one.rep hp, gh_trimByIndex] at e0
        have hh := height_le t
        cases e : trimIdx low high (erase t) (leftSz (erase t)) with
        | ok z =>
          rw [e] at hi hs
          cases hs
          obtain ⟨m', w, gone, q, x, i1, i2, i3, i4⟩ := hi
          rw [i4 s.free s.free (by omega) (by omega)] at e0
          have e1 : gh (trimByIndex s.root s.free s.mem low high).1 = replant m' s.root (some x) := (Prod.mk.inj e0).1
          have e2 : (trimByIndex s.root s.free s.mem low high).2 = false := (Prod.mk.inj e0).2
          have hg := replant_ok h.one.nodup i2
          rw [i3, ← e1] at hg
          obtain ⟨s', j1, j2⟩ := fenced h i1 hg
          exact ⟨s', by simp only [e2, Bool.false_eq_true, if_false, j1, Option.map_some], j2⟩
        | untouched =>
          rw [e] at hi hs
          cases hs
          rw [hi s.free s.free (by omega) (by omega)] at e0
          have e1 : gh (trimByIndex s.root s.free s.mem low high).1 = gh s.mem := (Prod.mk.inj e0).1
          have e2 : (trimByIndex s.root s.free s.mem low high).2 = true := (Prod.mk.inj e0).2
          simp only [e2, if_true]
          refine ⟨_, rfl, rfl, rfl, t, rfl, ?_, agree_abs ..⟩
          simp only [e1]
          exact .refl h.one h.below
        | broken z =>
          rw [e] at hi hs
          cases hs
          obtain ⟨m', t', gone, i1, i2, i3, i4⟩ := hi
          rw [i4 s.free s.free (by omega) (by omega)] at e0
          have e1 : gh (trimByIndex s.root s.free s.mem low high).1 = m' := (Prod.mk.inj e0).1
          have e2 : (trimByIndex s.root s.free s.mem low high).2 = true := (Prod.mk.inj e0).2
          simp only [e2, if_true]
          refine ⟨_, rfl, h.tree (gone := gone) i1 ?_⟩
          rw [e1]
          refine ⟨i2.rep, ?_, by simpa using i2.perm, fun x hx hxp => i2.frame x (by simpa using hx)⟩
          show m' s.root = _
          rw [i2.frame s.root h.one.notMem, i3]
          exact (setKid_kid (c := false) h.one.lo).symm
  | forward =>
    simp only [TreeList.step, Option.map_eq_some_iff] at hs
    obtain ⟨l, h1, h2⟩ := hs
    cases h2
    have h1 : TreeList.walk (view s.mem s.dir) false s.free (s.dir s.root).1 = some l := h1
    exact ⟨s, by simp only [step, h1, Option.map_some], h.same⟩
  | backward =>
    simp only [TreeList.step, Option.map_eq_some_iff] at hs
    obtain ⟨l, h1, h2⟩ := hs
    cases h2
    have h1 : TreeList.walk (view s.mem s.dir) true s.free (s.dir s.root).2 = some l := h1
    exact ⟨s, by simp only [step, h1, Option.map_some], h.same⟩

end
end Verif.ListHeap
