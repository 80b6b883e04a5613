import Verif.Tree.IndexLemmas
import Verif.Tree.AvlScan

/-! Iterators of tree/indextree against a cursor. -/

namespace Verif.IndexTree

open Tree Size

variable {K W : Type} {cmp : K → K → Int}

/-! ### The comparator as the search trees see it -/

theorem toEx_ord : (fun a b => exOrd (toEx cmp a b)) = ord cmp := by
  funext a b
  rcases Int.lt_trichotomy (cmp a b) 0 with h | h | h
  · rw [ord_lt.2 h]; unfold toEx; rw [if_neg (by omega), if_pos h]; rfl
  · rw [ord_eq.2 h]; unfold toEx; rw [if_pos h]; rfl
  · rw [ord_gt.2 h]; unfold toEx; rw [if_neg (by omega), if_neg (by omega)]; rfl

theorem toEx_lawful (hc : Lawful cmp) : LawfulEx (toEx cmp) where
  range := by
    intro a b
    unfold toEx
    split
    · omega
    · split <;> omega
  trans := by rw [toEx_ord]; exact hc

/-! ### The capacity of the stack -/

theorem hight_eq {t : T K W} (hx : Exact t) (hn : t ≠ nil) (h : Nat) : hight t h + 1 = h + t.height := by
  induction t generalizing h with
  | nil => exact absurd rfl hn
  | node a k v l r ihl ihr =>
    obtain ⟨ha, xl, xr⟩ := exact_node.1 hx
    unfold hight
    cases l with
    | nil =>
      cases r with
      | nil => simp [ha, Tree.height]
      | node ar kr vr lr rr =>
        have := ihr xr (by simp) (h + 1)
        rw [if_neg (by rw [ha]; simp; omega)]
        simp only [Tree.height, hight] at this ⊢
        omega
    | node al kl vl ll rl =>
      have h1 := ihl xl (by simp) (h + 1)
      rw [if_neg (by rw [ha]; simp; omega)]
      cases r with
      | nil =>
        simp only [Tree.height, hight] at h1 ⊢
        omega
      | node ar kr vr lr rr =>
        have h2 := ihr xr (by simp) (h + 1)
        simp only [Tree.height] at h1 h2 ⊢
        omega

theorem new_cap {t : T K W} (hx : Exact t) (hh : t.height ≤ 128) : t.height ≤ (It.new t).it.cap := by
  by_cases hn : t = nil
  · subst hn; simp [Tree.height]
  · have := hight_eq hx hn 0
    unfold It.new
    simp only
    split <;> omega

/-! ### The cursor -/

/-- A cursor: the rank it stands on (-1 before the first entry, the number of entries after the last
one, `none` for nowhere), whether `Index` knows the rank, whether `Next` and `Prev` can walk from here. -/
structure Cur where
  pos : Option Int
  known : Bool
  walk : Bool

section
variable (o : K → K → Ordering)

/-- The cursor, specified. -/
def ispec (xs : List (K × W)) (c : Cur) : IOp K → Cur × IRes K W
  | .seekToFirst => (⟨if xs.isEmpty then none else some 0, !xs.isEmpty, true⟩, .unit)
  | .seekToLast =>
    (⟨if xs.isEmpty then none else some ((xs.length : Int) - 1), !xs.isEmpty, true⟩, .unit)
  | .seekByIndex i =>
    (if 0 ≤ i ∧ i < xs.length then ⟨some i, true, false⟩ else ⟨none, false, false⟩, .unit)
  | .next => (⟨c.pos.map fun i => min (i + 1) xs.length, c.known && c.pos != some (xs.length : Int),
      c.walk⟩, .unit)
  | .prev => (⟨c.pos.map fun i => max (i - 1) (-1), c.known && c.pos != some (-1), c.walk⟩, .unit)
  | .seekGE k => go (Avl.target o k true false xs) k
  | .seekGT k => go (Avl.target o k true true xs) k
  | .seekLE k => go (Avl.target o k false false xs) k
  | .seekLT k => go (Avl.target o k false true xs) k
  | .valid => (c, .bool (Avl.entryAt xs c.pos).isSome)
  | .entry => (c, match Avl.entryAt xs c.pos with | none => .unit | some e => .entry e)
  | .index => (c, .int (c.pos.getD 0))
  | .clone => (c, .unit)
where
  go (i : Int) (k : K) : Cur × IRes K W :=
    (⟨if xs.isEmpty then none else some i, Avl.has o k xs, c.walk || !xs.isEmpty⟩,
      .bool (Avl.has o k xs))

/-- The calls that are right: not `SeekGT` and `SeekLT`, no walk after `SeekByIndex` before another
seek, `Index` only where it is known. -/
def ilegal (xs : List (K × W)) (c : Cur) : IOp K → Prop
  | .next => c.walk = true
  | .prev => c.walk = true
  | .seekGT _ => False
  | .seekLT _ => False
  | .entry => Avl.entryAt xs c.pos ≠ none
  | .index => c.known = true
  | _ => True

end

/-- The iterator is at the cursor. -/
structure IRel (root : T K W) (s : It K W) (c : Cur) : Prop where
  cap : root.height ≤ s.it.cap
  place : c.walk = true → Avl.Place root s.it c.pos
  cur : s.it.current = Avl.entryAt root.toList c.pos
  pos : c.known = true → c.pos = some s.pos

theorem IRel.of_place {root : T K W} {s : It K W} {c : Cur} (h : Avl.Place root s.it c.pos)
    (hp : c.known = true → c.pos = some s.pos) : IRel root s c :=
  ⟨h.cap, fun _ => h, h.current, hp⟩

theorem place_nil {A : Type} {it : Avl.Iter A K W} {p : Option Int} (h : Avl.Place nil it p) :
    it.stk = [] := by
  cases h with
  | unset h1 h2 h3 => exact h3
  | on h => have := h.before; simp at this
  | after _ _ h => have := h.before; simp at this
  | before _ _ h => have := h.before; simp at this

theorem place_bounds {A : Type} {root : Tree A K W} {it : Avl.Iter A K W} {p : Option Int}
    (h : Avl.Place root it p) {i : Int} (hp : p = some i) : -1 ≤ i ∧ i ≤ root.toList.length := by
  cases h with
  | unset h1 h2 h3 => cases hp
  | on h => have := h.before; cases hp; omega
  | after _ _ h => cases hp; omega
  | before _ _ h => cases hp; omega

/-- The entry at the top of a tree. -/
def top : T K W → Option (K × W)
  | nil => none
  | node _ k v _ _ => some (k, v)

theorem subAt_eq {i off idx : Int} {t : T K W} (hx : Exact t) (h : Here off t idx) :
    (istep.subAt i t idx).map top =
      (at? t.toList (i - off)).map some := by
  induction t generalizing off idx with
  | nil => simp [istep.subAt, at?]
  | node a k v l r ihl ihr =>
    obtain ⟨h1, h2⟩ := here_left hx h
    have h3 := here_right hx h
    obtain ⟨-, xl, xr⟩ := exact_node.1 hx
    simp only [istep.subAt, toList_node]
    split
    · rw [ihl xl h2, at?_lt (by omega)]
    · split
      · rw [ihr xr h3, at?_gt (by omega)]
        congr 2; omega
      · rw [at?_eq (by omega)]; rfl

theorem at?_entryAt {xs : List (K × W)} {i : Int} : at? xs i = Avl.entryAt xs (some i) := rfl

theorem seekEqual_ok (hc : Lawful cmp) {root : T K W} (hx : Exact root)
    (hs : Sorted (ord cmp) root.toList) {s : It K W} {c : Cur} (hR : IRel root s c) (k : K) (d : Bool) :
    ∃ s', istep.seekEqual cmp root s k d =
        some (s', .bool (Avl.has (ord cmp) k root.toList)) ∧
      IRel root s' (ispec.go (ord cmp) root.toList c (Avl.target (ord cmp) k d false root.toList) k).1 := by
  have : Std.TransCmp (ord cmp) := hc
  unfold istep.seekEqual ispec.go
  cases hr : root with
  | nil =>
    refine ⟨_, rfl, ?_, ?_, ?_, ?_⟩
    · simp [Tree.height]
    · intro hw
      simp at hw
      have hp := hR.place hw
      rw [hr] at hp
      exact .unset (by simp [Tree.height]) rfl
        (show s.it.stk = [] from place_nil hp)
    · simp [Avl.Iter.current, Avl.entryAt]
    · simp [Avl.has]
  | node a k' v l r =>
    rw [← hr]
    have hnil : root.isNil = false := by rw [hr]; rfl
    have hne : root.toList.isEmpty = false := by rw [hr]; simp
    rw [hnil, if_neg (by simp)]
    unfold Avl.Iter.seek
    rw [hnil, if_neg (by simp)]
    obtain ⟨it', b, g1, g2, g3, g4⟩ := Avl.seekLoop_ok (toEx_lawful hc) (key := k) (c := d)
      (strict := false) (it := { s.it with cur := root, stk := [] }) (by rw [toEx_ord]; exact hs) hR.cap
      .root (by simp [hr]) (Avl.Iter.fuel { s.it with cur := root, stk := [] })
      (by simp [Avl.Iter.fuel]) (by simp [Avl.befores]) (by simp [Avl.afters])
    have e : (fun e : K × W => exOrd (toEx cmp e.1 k) == .eq) = fun e => ord cmp e.1 k == .eq := by
      funext e; rw [← congrFun (congrFun (toEx_ord (cmp := cmp)) e.1) k]
    rw [e] at g3
    rw [toEx_ord] at g4
    simp only [g1, Option.map_some]
    refine ⟨_, by rw [g3]; rfl, IRel.of_place (by simpa [hne] using g4) ?_⟩
    intro hk
    simp only at hk ⊢
    rw [hne, if_neg (by simp), indexOf_eq hc hx hs (here_root root)]
    rw [Avl.has_iff, Bool.not_eq_true'] at hk
    rw [hk, if_neg (by simp)]
    congr 1
    unfold Avl.target
    cases d
    · have h1 := parts k hs.le
      have h2 : (same (ord cmp) k root.toList).length = 1 := by
        rcases hs.same_le k with h3 | ⟨e, h3, -⟩
        · rw [h3] at hk; simp at hk
        · rw [h3]; rfl
      have h5 : (root.toList.filter fun e => ord cmp e.1 k != .gt).length =
          (below (ord cmp) k root.toList).length + 1 := by
        conv_lhs => rw [h1]
        rw [Avl.counts, List.length_append, h2]
        · intro e he
          rcases List.mem_append.1 he with he | he
          · simp [(mem_below.1 he).2]
          · simp [(mem_same.1 he).2]
        · intro e he; simp [(mem_above.1 he).2]
      simp only [Bool.false_eq_true, if_false]
      rw [h5]; omega
    · simp only [if_true, Bool.false_eq_true, if_false, below]
      omega

/-- One legal call. -/
theorem istep_ok (hc : Lawful cmp) {root : T K W} (hx : Exact root)
    (hs : Sorted (ord cmp) root.toList) {s : It K W} {c : Cur} {op : IOp K}
    (hl : ilegal root.toList c op) (hR : IRel root s c) :
    ∃ s', istep cmp root s op = some (s', (ispec (ord cmp) root.toList c op).2) ∧
      IRel root s' (ispec (ord cmp) root.toList c op).1 := by
  cases op with
  | seekToFirst =>
    obtain ⟨i, h1, -, h3⟩ := Avl.seekFirst_ok (root := root) (it := s.it) hR.cap
    refine ⟨⟨i, 0⟩, by simp only [istep, h1]; rfl, IRel.of_place h3 ?_⟩
    intro h
    simp only [ispec] at h ⊢
    rw [if_neg (by simpa using h)]
  | seekToLast =>
    obtain ⟨i, h1, -, h3⟩ := Avl.seekLast_ok (root := root) (it := s.it) hR.cap
    refine ⟨⟨i, sz root - 1⟩, by simp only [istep, h1]; rfl, IRel.of_place h3 ?_⟩
    intro h
    simp only [ispec] at h ⊢
    rw [if_neg (by simpa using h), hx.sz]
  | seekByIndex i =>
    have h0 := subAt_eq (i := i) hx (here_root root)
    simp only [istep, ispec, hx.sz]
    rw [Int.sub_zero] at h0
    by_cases h : 0 ≤ i ∧ i < root.toList.length
    · rw [if_neg (by omega), if_pos h]
      obtain ⟨e, he⟩ : ∃ e, at? root.toList i = some e := by
        rw [← Option.ne_none_iff_exists', Ne, at?_none]; omega
      rw [he, Option.map_some, Option.map_eq_some_iff] at h0
      obtain ⟨t, g1, g2⟩ := h0
      rw [g1]
      refine ⟨_, rfl, hR.cap, (by simp), ?_, (by simp)⟩
      rw [at?_entryAt] at he
      simp only [he]
      rw [← g2]
      unfold Avl.Iter.current top
      cases t <;> rfl
    · rw [if_pos (by omega), if_neg h]
      exact ⟨_, rfl, hR.cap, (by simp), rfl, (by simp)⟩
  | next =>
    obtain ⟨i, h1, -, h3⟩ := Avl.move_true (hR.place hl)
    refine ⟨⟨i, s.pos + 1⟩, by simp only [istep, h1]; rfl, IRel.of_place h3 ?_⟩
    intro h
    simp only [ispec, Bool.and_eq_true, bne_iff_ne, ne_eq] at h ⊢
    have hp := hR.pos h.1
    have hle : s.pos ≤ root.toList.length := by
      exact (place_bounds (hR.place hl) hp).2
    rw [hp] at h ⊢
    have : s.pos ≠ (root.toList.length : Int) := fun e => h.2 (by rw [e])
    rw [Option.map_some]; congr 1; omega
  | prev =>
    obtain ⟨i, h1, -, h3⟩ := Avl.move_false (hR.place hl)
    refine ⟨⟨i, s.pos - 1⟩, by simp only [istep, h1]; rfl, IRel.of_place h3 ?_⟩
    intro h
    simp only [ispec, Bool.and_eq_true, bne_iff_ne, ne_eq] at h ⊢
    have hp := hR.pos h.1
    have hle : -1 ≤ s.pos := by
      exact (place_bounds (hR.place hl) hp).1
    rw [hp] at h ⊢
    have : s.pos ≠ -1 := fun e => h.2 (by rw [e])
    rw [Option.map_some]; congr 1; omega
  | seekGE k => exact seekEqual_ok hc hx hs hR k true
  | seekLE k => exact seekEqual_ok hc hx hs hR k false
  | seekGT k => exact hl.elim
  | seekLT k => exact hl.elim
  | valid =>
    refine ⟨s, ?_, hR⟩
    simp only [istep, ispec]
    rw [← hR.cur]
    unfold Avl.Iter.current
    cases s.it.cur <;> rfl
  | entry =>
    refine ⟨s, ?_, hR⟩
    simp only [istep, ispec, ilegal] at hl ⊢
    rw [← hR.cur] at hl ⊢
    unfold Avl.Iter.current at hl ⊢
    cases h : s.it.cur with
    | nil => rw [h] at hl; exact absurd rfl hl
    | node => rfl
  | index =>
    refine ⟨s, ?_, hR⟩
    simp only [istep, ispec]
    rw [hR.pos hl]; rfl
  | clone => exact ⟨s, rfl, hR⟩

/-- Every legal history of calls on a new iterator. -/
theorem irun_ok (hc : Lawful cmp) {root : T K W} (hx : Exact root)
    (hs : Sorted (ord cmp) root.toList) (hh : root.height ≤ 128) (ops : List (IOp K))
    (hl : LegalRun (ispec (ord cmp) root.toList) (ilegal root.toList) ⟨none, false, true⟩ ops) :
    ∃ s, run (istep cmp root) (It.new root) ops =
        some (s, (runSpec (ispec (ord cmp) root.toList) ⟨none, false, true⟩ ops).2) ∧
      IRel root s (runSpec (ispec (ord cmp) root.toList) ⟨none, false, true⟩ ops).1 :=
  run_refines_legal (step := istep cmp root) (spec := ispec (ord cmp) root.toList)
    (legal := ilegal root.toList) (IRel root) (fun _ _ _ h1 h2 => istep_ok hc hx hs h1 h2) ops _ _ hl
    (IRel.of_place (.unset (new_cap hx hh) rfl rfl) (by simp))

end Verif.IndexTree
