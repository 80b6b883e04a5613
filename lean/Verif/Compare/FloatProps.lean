import Verif.Compare.Float
import Verif.Tree.IndexModel
import Verif.Tree.AvlModel
import Verif.Tree.TreeListModel
import Verif.Skip.Model
import Verif.Heap.Model
import Mathlib.Order.Defs.LinearOrder

/-! C103: floating point numbers as keys. -/

namespace Verif.Float

variable {F α : Type} [LinearOrder α]

/-- The order of the values is what the comparators decode to. -/
theorem transCmp_val (val : F → α) : Std.TransCmp fun a b => compare (val a) (val b) where
  eq_swap := by
    intro a b
    exact Std.OrientedCmp.eq_swap (cmp := (compare : α → α → Ordering))
  isLE_trans := by
    intro a b c h1 h2
    exact Std.TransCmp.isLE_trans (cmp := (compare : α → α → Ordering)) h1 h2

/-- C103: among floats that are numbers the comparators are lawful, so everything proved for lawful
comparators holds for maps with such keys. -/
theorem C103_numbers_lawful_partial (val : F → Option α) (h : ∀ x, val x ≠ none) :
    Lawful (any val) ∧ Lawful (anyDesc val) ∧ LawfulEx (anyEx val) := by
  obtain ⟨w, hw⟩ : ∃ w : F → α, ∀ x, val x = some (w x) := by
    refine ⟨fun x => (val x).get (Option.isSome_iff_ne_none.2 (h x)), fun x => by simp⟩
  have hgt : ∀ a b, gt val a b = decide (w b < w a) := by
    intro a b; simp only [gt, hw]
  refine ⟨?_, ?_, ?_, ?_⟩
  · unfold Lawful
    convert transCmp_val w using 3 with a b
    simp only [any, hgt, ordOf]
    rcases lt_trichotomy (w a) (w b) with h | h | h
    · simp [h, not_lt_of_gt h, compare_lt_iff_lt.2 h]
    · simp [h]
    · simp [h, compare_gt_iff_gt.2 h]
  · unfold Lawful
    have := transCmp_val (α := αᵒᵈ) (fun x => OrderDual.toDual (w x))
    convert this using 3 with a b
    simp only [anyDesc, hgt, ordOf]
    rcases lt_trichotomy (w a) (w b) with h | h | h
    · have h' : OrderDual.toDual (w b) < OrderDual.toDual (w a) := h
      simp [h, not_lt_of_gt h, compare_gt_iff_gt.2 h']
    · simp [h]
    · have h' : OrderDual.toDual (w a) < OrderDual.toDual (w b) := h
      simp [h, compare_lt_iff_lt.2 h']
  · intro a b
    unfold anyEx
    split_ifs <;> simp
  · convert transCmp_val w using 3 with a b
    simp only [anyEx, hgt, exOrd]
    rcases lt_trichotomy (w a) (w b) with h | h | h
    · simp [h, not_lt_of_gt h, compare_lt_iff_lt.2 h]
    · simp [h]
    · simp [h, compare_gt_iff_gt.2 h]

/-- C103: NaN counts as equal to every float. -/
theorem C103_nan_equals_all (val : F → Option α) {x : F} (hx : val x = none) (y : F) :
    any val x y = 0 ∧ any val y x = 0 ∧ anyDesc val x y = 0 ∧ anyDesc val y x = 0 ∧
    anyEx val x y = -1 ∧ anyEx val y x = -1 := by
  have h1 : gt val x y = false := by simp [gt, hx]
  have h2 : gt val y x = false := by
    unfold gt; cases val y <;> simp [hx]
  simp [any, anyDesc, anyEx, h1, h2]

/-! ### Maps with NaN among the keys -/

/-- The calls of an index tree that put entries, one per key. -/
def IndexTree.puts {W : Type} : IndexTree.Op F W → Prop
  | .put _ _ | .insertIfAbsent _ _ | .upsert _ _ => True
  | _ => False

/-- C103 does not hold with NaN: an index tree whose first key is NaN never gets a second entry, whatever
keys are put, and finds NaN's entry for each of them. -/
theorem C103_index_first_nan {W : Type} (val : F → Option α) (shift : Nat) {x : F} (hx : val x = none)
    (w : Option W) (os : List (IndexTree.Op F W)) (ho : ∀ o ∈ os, IndexTree.puts o) :
    ∃ v rs, run (IndexTree.step shift (any val)) .nil (.put x w :: os)
      = some (.node 1 x v .nil .nil, rs) ∧
    ∀ k, Size.get (any val) k (.node 1 x v .nil .nil) = some (x, v) := by
  have key : ∀ (os : List (IndexTree.Op F W)) (v : Option W), (∀ o ∈ os, IndexTree.puts o) →
      ∃ v' rs, run (IndexTree.step shift (any val)) (.node 1 x v .nil .nil) os
        = some (.node 1 x v' .nil .nil, rs) := by
    intro os
    induction os with
    | nil => intro v _; exact ⟨v, [], rfl⟩
    | cons o os ih =>
      intro v h
      have h0 := h o (by simp)
      have hs : ∃ v' r, IndexTree.step shift (any val) (.node 1 x v .nil .nil) o
          = some (.node 1 x v' .nil .nil, r) := by
        cases o <;> first
          | exact absurd h0 id
          | (rename_i k u
             have hk := (C103_nan_equals_all val hx k).2.1
             simp [IndexTree.step, Size.put, Size.get, Size.setVal, hk, IndexTree.kept])
      obtain ⟨v', r, hs⟩ := hs
      obtain ⟨v'', rs, hr⟩ := ih v' fun o ho => h o (by simp [ho])
      exact ⟨v'', r :: rs, by simp only [run, hs, hr]⟩
  obtain ⟨v, rs, h⟩ := key os w ho
  refine ⟨v, .bool true :: rs, ?_, fun k => ?_⟩
  · have : IndexTree.step shift (any val) (.nil : Verif.Size.T F (Option W)) (.put x w)
        = some (.node 1 x w .nil .nil, .bool true) := by
      simp [IndexTree.step, Size.put]
    simp only [run, this, h]
  · simp [Size.get, (C103_nan_equals_all val hx k).2.1]

/-- The same for `avl` and `treeset` (`one` says which). -/
def Avl.puts {V : Type} : Avl.Op F V → Prop
  | .put _ _ | .insertIfAbsent _ _ | .upsert _ _ => True
  | _ => False

theorem C103_avl_first_nan {V : Type} (val : F → Option α) (one : Bool) (d : Int) {x : F}
    (hx : val x = none) (w : V) (os : List (Avl.Op F V)) (ho : ∀ o ∈ os, Avl.puts o) :
    ∃ v rs, run (Avl.step (anyEx val) one d) Avl.Map.new (.put x w :: os)
      = some (⟨.node 1 x v .nil .nil, 1⟩, rs) ∧
    ∀ k, Avl.get (anyEx val) k (.node 1 x v .nil .nil) = some (some (x, v)) := by
  have key : ∀ (os : List (Avl.Op F V)) (v : V), (∀ o ∈ os, Avl.puts o) →
      ∃ v' rs, run (Avl.step (anyEx val) one d) ⟨.node 1 x v .nil .nil, 1⟩ os
        = some (⟨.node 1 x v' .nil .nil, 1⟩, rs) := by
    intro os
    induction os with
    | nil => intro v _; exact ⟨v, [], rfl⟩
    | cons o os ih =>
      intro v h
      have h0 := h o (by simp)
      have hs : ∃ v' r, Avl.step (anyEx val) one d ⟨.node 1 x v .nil .nil, 1⟩ o
          = some (⟨.node 1 x v' .nil .nil, 1⟩, r) := by
        cases o <;> first
          | exact absurd h0 id
          | (rename_i k u
             have hk := (C103_nan_equals_all val hx k).2.2.2.2.1
             simp [Avl.step, Avl.Map.put, Avl.Map.upsert, Avl.put, Avl.get, Avl.setVal, hk])
      obtain ⟨v', r, hs⟩ := hs
      obtain ⟨v'', rs, hr⟩ := ih v' fun o ho => h o (by simp [ho])
      exact ⟨v'', r :: rs, by simp only [run, hs, hr]⟩
  obtain ⟨v, rs, h⟩ := key os w ho
  refine ⟨v, .bool true :: rs, ?_, fun k => ?_⟩
  · have : Avl.step (anyEx val) one d (Avl.Map.new : Avl.Map F V) (.put x w)
        = some (⟨.node 1 x w .nil .nil, 1⟩, .bool true) := by
      simp [Avl.step, Avl.Map.put, Avl.Map.new, Avl.put]
    simp only [run, this, h]
  · simp [Avl.get, (C103_nan_equals_all val hx k).2.2.2.2.1]

/-- The first insertion into a skip list links the node in the levels below `n`. -/
theorem link_first {V : Type} {h : Skip.Store F V} {level : Nat} (x : F) (hl : level ≤ 16)
    (h0 : (h 0).fwd = List.replicate 16 none) (hx : (h 1).key = x)
    (h1 : (h 1).fwd = List.replicate level none) : ∀ n ≤ level,
    ∃ h', Skip.link 1 (fun _ => 0) h n = some h' ∧
      (h' 0).fwd = List.replicate n (some 1) ++ List.replicate (16 - n) none ∧ (h' 1).key = x ∧
      (h' 1).fwd = List.replicate level none
  | 0, _ => ⟨h, rfl, by simpa using h0, hx, h1⟩
  | n + 1, hn => by
    obtain ⟨h', e, e0, ex, e1⟩ := link_first x hl h0 hx h1 n (by omega)
    have g0 : (h' 0).fwd[n]? = some none := by
      rw [e0, List.getElem?_append_right (by simp), List.length_replicate, List.getElem?_replicate,
        if_pos (by omega)]
    have s1 : h'.setFwd 1 n none = some (h'.put 1 { h' 1 with fwd := (h' 1).fwd.set n none }) := by
      rw [Skip.Store.setFwd, if_pos (by rw [e1]; simp; omega)]
    have s2 : (h'.put 1 { h' 1 with fwd := (h' 1).fwd.set n none }).setFwd 0 n (some 1) =
        some ((h'.put 1 { h' 1 with fwd := (h' 1).fwd.set n none }).put 0
          { h' 0 with fwd := (h' 0).fwd.set n (some 1) }) := by
      have : (h'.put 1 { h' 1 with fwd := (h' 1).fwd.set n none }) 0 = h' 0 := by
        simp [Skip.Store.put]
      rw [Skip.Store.setFwd, this, if_pos (by rw [e0]; simp; omega)]
    refine ⟨(h'.put 1 { h' 1 with fwd := (h' 1).fwd.set n none }).put 0
          { h' 0 with fwd := (h' 0).fwd.set n (some 1) },
      by rw [Skip.link, e]; simp only [Option.bind_some, g0, s1, s2], ?_, ?_, ?_⟩
    · simp only [Skip.Store.put, if_true, e0]
      apply List.ext_getElem?
      intro i
      rw [List.getElem?_set]
      simp only [List.getElem?_append, List.length_replicate, List.getElem?_replicate,
        List.length_append]
      split_ifs <;> first | rfl | omega
    · simp [Skip.Store.put, ex]
    · simp only [Skip.Store.put, Nat.one_ne_zero, if_true, if_false, e1]
      apply List.ext_getElem?
      intro i
      rw [List.getElem?_set]
      simp only [List.length_replicate, List.getElem?_replicate]
      split_ifs <;> first | rfl | omega

/-- The same for the skip list: after NaN, no call of `Put` adds an entry. -/
theorem C103_skip_first_nan {V : Type} (val : F → Option α) (max : Int) (junk : F × V) {x : F}
    (hx : val x = none) (w : V) (coins : List Bool) (es : List (F × V × List Bool)) :
    ∃ s rs, run (Skip.step (any val)) (Skip.new max junk)
        (.put x w coins :: es.map fun e => .put e.1 e.2.1 e.2.2) = some (s, rs) ∧ s.size = 1 := by
  have key : ∀ (es : List (F × V × List Bool)) (s : Skip.SL F V) (b : Nat), s.size = 1 → 0 < s.free →
      (s.heap b).key = x → b ≠ s.header → (s.heap s.header).fwd[0]? = some (some b) →
      (∀ i < s.level, (s.heap s.header).fwd[i]? = some none ∨ (s.heap s.header).fwd[i]? = some (some b)) →
      ∃ s' rs, run (Skip.step (any val)) s (es.map fun e => .put e.1 e.2.1 e.2.2) = some (s', rs) ∧
        s'.size = 1 := by
    intro es
    induction es with
    | nil => intro s b h1 _ _ _ _ _; exact ⟨s, [], rfl, h1⟩
    | cons e es ih =>
      intro s b h1 hf hb hbh h0 hl
      have hcmp : any val (s.heap b).key e.1 = 0 := by
        rw [hb]; exact (C103_nan_equals_all val hx e.1).1
      have hd : ∀ n ≤ s.level, ∃ us, Skip.descend s.heap (Skip.before (any val) s.heap e.1) s.free n
          s.header = some (us, s.header) := by
        intro n
        induction n with
        | zero => intro _; exact ⟨[], rfl⟩
        | succ n ihn =>
          intro hn
          obtain ⟨us, hus⟩ := ihn (by omega)
          obtain ⟨m, hm⟩ : ∃ m, s.free = m + 1 := ⟨s.free - 1, by omega⟩
          have hsc : Skip.scan s.heap (Skip.before (any val) s.heap e.1) n s.free s.header
              = some s.header := by
            rw [hm]
            rcases hl n (by omega) with h | h
            · simp [Skip.scan, h]
            · simp [Skip.scan, h, Skip.before, hcmp]
          exact ⟨us ++ [s.header], by simp [Skip.descend, hsc, hus]⟩
      obtain ⟨us, hus⟩ := hd s.level (Nat.le_refl _)
      have hp : Skip.step (any val) s (.put e.1 e.2.1 e.2.2) = some
          ({ s with heap := s.heap.put b { s.heap b with val := e.2.1 } }, .bool false) := by
        simp [Skip.step, Skip.putWith, Skip.search, hus, h0, hcmp]
      have hh : (s.heap.put b { s.heap b with val := e.2.1 }) s.header = s.heap s.header := by
        simp [Skip.Store.put, Ne.symm hbh]
      obtain ⟨s', rs, hr, hs'⟩ := ih { s with heap := s.heap.put b { s.heap b with val := e.2.1 } } b h1
        hf (by simp [Skip.Store.put, hb]) hbh (by simpa only [hh] using h0)
        (by simpa only [hh] using hl)
      exact ⟨s', .bool false :: rs, by simp only [List.map_cons, run, hp, hr], hs'⟩
  -- the first call
  have hM : 1 ≤ (if max < 1 ∨ max > Skip.MaxLevel then Skip.MaxLevel else max.toNat) ∧
      (if max < 1 ∨ max > Skip.MaxLevel then Skip.MaxLevel else max.toNat) ≤ 16 := by
    have h16 : Skip.MaxLevel = 16 := rfl
    by_cases hm : max < 1 ∨ max > Skip.MaxLevel
    · rw [if_pos hm]; omega
    · rw [if_neg hm]; omega
  obtain ⟨M, hMe, hM1, hM2⟩ : ∃ M, (Skip.new max junk : Skip.SL F V).maxLevel = M ∧ 1 ≤ M ∧ M ≤ 16 :=
    ⟨_, rfl, hM.1, hM.2⟩
  have hR : ∀ (cs : List Bool) (l : Nat), 1 ≤ l → l ≤ M →
      1 ≤ Skip.randomFrom M l cs ∧ Skip.randomFrom M l cs ≤ M := by
    intro cs
    induction cs with
    | nil => intro l h1 h2; exact ⟨h1, h2⟩
    | cons c cs ih =>
      intro l h1 h2
      unfold Skip.randomFrom
      split
      · exact ih _ (by omega) (by omega)
      · exact ⟨h1, h2⟩
  have hnl := hR coins 1 (Nat.le_refl _) hM1
  rw [show Skip.randomFrom M 1 coins = Skip.randomLevel M coins from rfl] at hnl
  generalize hN : Skip.randomLevel M coins = N at hnl
  have hse : Skip.search (any val) (Skip.new max junk : Skip.SL F V) x = some ([0], 0) := by
    simp [Skip.search, Skip.new, Skip.descend, Skip.scan, Skip.MaxLevel]
  have hupd : Skip.updAt 0 [0] = fun _ => 0 := by
    funext i
    cases i <;> simp [Skip.updAt]
  obtain ⟨L, hL⟩ : ∃ L, L = if (if N ≥ 1 then N + 1 else 1) > M then M else
      (if N ≥ 1 then N + 1 else 1) := ⟨_, rfl⟩
  have hLN : N ≤ L ∧ L ≤ 16 ∧ L ≤ N + 1 := by
    rw [hL, if_pos hnl.1]
    split <;> omega
  obtain ⟨h', e, e0, ex, e1⟩ := link_first (V := V)
    (h := (Skip.new max junk : Skip.SL F V).heap.put 1 ⟨x, w, List.replicate L none⟩) (level := L) x hLN.2.1
    (by simp [Skip.Store.put, Skip.new, Skip.MaxLevel]) (by simp [Skip.Store.put])
    (by simp [Skip.Store.put]) N hLN.1
  have hp : Skip.step (any val) (Skip.new max junk : Skip.SL F V) (.put x w coins) = some
      ({ (Skip.new max junk : Skip.SL F V) with heap := h', level := L, size := 1, free := 2 },
        .bool true) := by
    have hf : (((Skip.new max junk : Skip.SL F V).heap 0).fwd[0]?) = some none := by
      simp [Skip.new, Skip.MaxLevel]
    simp only [Skip.step, Skip.putWith, hse, Option.bind_some, hf, hMe, hN]
    rw [show (Skip.new max junk : Skip.SL F V).level = 1 from rfl,
      show (Skip.new max junk : Skip.SL F V).free = 1 from rfl,
      show (Skip.new max junk : Skip.SL F V).header = 0 from rfl,
      show (Skip.new max junk : Skip.SL F V).size = 0 from rfl, ← hL, hupd, e]
    rfl
  obtain ⟨s', rs, hr, hs⟩ := key es
    { (Skip.new max junk : Skip.SL F V) with heap := h', level := L, size := 1, free := 2 } 1 rfl
    (Nat.succ_pos 1) ex (by simp [Skip.new]) (by
      show (h' 0).fwd[0]? = some (some 1)
      rw [e0, List.getElem?_append_left (by simp; omega), List.getElem?_replicate, if_pos (by omega)]) (by
      intro i hi
      show (h' 0).fwd[i]? = some none ∨ (h' 0).fwd[i]? = some (some 1)
      rw [e0]
      simp only [List.getElem?_append, List.length_replicate, List.getElem?_replicate]
      have : i < L := hi
      split_ifs <;> first | exact .inl rfl | exact .inr rfl | omega)
  exact ⟨s', .bool true :: rs, by simp only [run, hp, hr], hs⟩

/-- The same for the tree list: after NaN, no call of `Put` or `Set` adds an entry. -/
theorem C103_treelist_first_nan {V : Type} (val : F → Option α) (junk : F × V) {x : F}
    (hx : val x = none) (w : V) (os : List (TreeList.Op F V))
    (ho : ∀ o ∈ os, (∃ k v, o = .put k v) ∨ ∃ k v, o = .set k v) :
    ∃ s e rs, run (TreeList.step (any val)) (TreeList.new junk) (.put x w :: os) = some (s, rs) ∧
      s.tree = .node 1 x e .nil .nil := by
  have key : ∀ (os : List (TreeList.Op F V)) (s : TreeList.TL F V) (e : Nat × V),
      s.tree = .node 1 x e .nil .nil → (∀ o ∈ os, (∃ k v, o = .put k v) ∨ ∃ k v, o = .set k v) →
      ∃ s' e' rs, run (TreeList.step (any val)) s os = some (s', rs) ∧
        s'.tree = .node 1 x e' .nil .nil := by
    intro os
    induction os with
    | nil => intro s e h _; exact ⟨s, e, [], rfl, h⟩
    | cons o os ih =>
      intro s e h ho
      have hs : ∃ s' e' r, TreeList.step (any val) s o = some (s', r) ∧
          s'.tree = .node 1 x e' .nil .nil := by
        rcases ho o (by simp) with ⟨k, v, rfl⟩ | ⟨k, v, rfl⟩ <;>
        · have hk := (C103_nan_equals_all val hx k).2.1
          simp [TreeList.step, TreeList.putWith, h, Verif.Tree.isNil, Size.put, Size.get, hk]
          try exact ⟨_, _, rfl⟩
      obtain ⟨s', e', r, hs, ht⟩ := hs
      obtain ⟨s'', e'', rs, hr, ht'⟩ := ih s' e' ht fun o h => ho o (by simp [h])
      exact ⟨s'', e'', r :: rs, by simp only [run, hs, hr], ht'⟩
  obtain ⟨s0, e0, h0, t0⟩ : ∃ s0 e0, TreeList.step (any val) (TreeList.new junk) (.put x w)
      = some (s0, .bool true) ∧ s0.tree = .node 1 x e0 .nil .nil := by
    refine ⟨_, (0, w), rfl, ?_⟩
    simp [TreeList.new]
  obtain ⟨s, e, rs, hr, ht⟩ := key os s0 e0 t0 ho
  exact ⟨s, e, .bool true :: rs, by simp only [run, h0, hr], ht⟩

/-- Keys for the examples: integers and NaN. -/
abbrev Num := Option Int

/-- C103 does not hold with NaN: `Remove(NaN)`, which was never put, takes the entry of 2 out of an index
tree. -/
theorem C103_remove_nan : (run (IndexTree.step 2 (any (id : Num → Option Int))) .nil
    [.put (some 1) (some 10), .put (some 2) (some 20), .put (some 3) (some 30), .remove none,
      .get (some 2), .values]).map (·.2) =
    some [.bool true, .bool true, .bool true, .val (some 20), .found none,
      .list [some 10, some 30]] := rfl

/-- C103 does not hold with NaN: in an `avl` map that has NaN, 3 is not put, and a search for it finds
the value of NaN. -/
theorem C103_avl_nan_hides : (run (Avl.step (anyEx (id : Num → Option Int)) false 1) Avl.Map.new
    [.put none 0, .put (some 3) 30, .get (some 3), .size]).map (·.2) =
    some [.bool true, .bool false, .val (some 0), .nat 1] := rfl

/-- C103 does not hold with NaN: a heap with 1, NaN and 2 gives out 2 before 1. -/
theorem C103_heap_nan : (run (Heap.PQ.step (any (id : Num → Option Int))) Heap.PQ.new
    [.put (some 1), .put none, .put (some 2), .pop, .pop, .pop]).map (·.2) =
    some [.unit, .unit, .unit, .val (some 2) true, .val (some 1) true, .val none true] := by
  decide +kernel

-- The hypotheses are met: integers are numbers, and NaN is there among the keys `Num`.
example : ∀ x : Int, (some : Int → Option Int) x ≠ none := by simp
example : any (some : Int → Option Int) 3 5 = -1 ∧ anyEx (some : Int → Option Int) 5 3 = 0 := by decide
example : (id : Num → Option Int) none = none := rfl
example : (run (IndexTree.step 2 (any (id : Num → Option Int))) .nil
    [.put none (some 0), .put (some 1) (some 10), .upsert (some 2) (some 20), .size, .get (some 5)]).map (·.2) =
    some [.bool true, .bool false, .bool true, .int 1, .found (some (some 20))] := rfl
example : (run (Skip.step (any (id : Num → Option Int))) (Skip.new 16 (none, 0))
    [.put none 0 [true], .put (some 1) 10 [], .size, .get (some 5)]).map (·.2) =
    some [.bool true, .bool false, .int 1, .found (some 10)] := by decide +kernel

end Verif.Float
