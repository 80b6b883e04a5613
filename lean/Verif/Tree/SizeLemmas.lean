import Verif.Tree.SizeModel
import Verif.Common.Ord

/-! The operations of the size balanced trees: sizes stay exact, nothing panics, and the entries
change as they should. -/

namespace Verif.Size

open Tree

variable {K V : Type}

/-- Every stored size is the number of nodes below. -/
def Exact : T K V → Prop
  | nil => True
  | node a _ _ l r => a = (l.count : Int) + r.count + 1 ∧ Exact l ∧ Exact r

theorem sz_nil : Size.sz (nil : T K V) = 0 := rfl

theorem Exact.sz {t : T K V} (h : Exact t) : sz t = (t.toList.length : Int) := by
  rw [← count_eq]
  cases t with
  | nil => rfl
  | node a k v l r => simp only [Size.sz, count, h.1]; push_cast; rfl

theorem exact_node {a : Int} {k : K} {v : V} {l r : T K V} :
    Exact (node a k v l r) ↔ a = (l.toList.length : Int) + r.toList.length + 1 ∧ Exact l ∧ Exact r := by
  simp only [Exact, count_eq]

theorem Exact.mk (k : K) (v : V) {l r : T K V} (hl : Exact l) (hr : Exact r) :
    Exact (mk k v l r) := by
  rw [Size.mk, exact_node, hl.sz, hr.sz]
  exact ⟨rfl, hl, hr⟩

@[simp] theorem toList_mk (k : K) (v : V) (l r : T K V) :
    (mk k v l r).toList = l.toList ++ (k, v) :: r.toList := rfl

theorem ne_nil_of_sz {t : T K V} (h : 0 < sz t) : ∃ a k v l r, t = node a k v l r := by
  cases t with
  | nil => simp [sz] at h
  | node a k v l r => exact ⟨a, k, v, l, r, rfl⟩

/-- The two subtrees of a rotation have exact sizes; the size of the top does not matter. -/
theorem lrotate_ok {a : Int} {k : K} {v : V} {l r : T K V} (hl : Exact l) (hr : Exact r)
    (hn : r ≠ nil) : ∃ t, lrotate (node a k v l r) = some t ∧ Exact t ∧
      t.toList = l.toList ++ (k, v) :: r.toList ∧ t ≠ nil := by
  cases r with
  | nil => exact absurd rfl hn
  | node b km vm c d =>
    obtain ⟨-, hc, hd⟩ := hr
    exact ⟨_, rfl, (Exact.mk k v hl hc).mk km vm hd, by simp, by simp [mk]⟩

theorem rrotate_ok {a : Int} {k : K} {v : V} {l r : T K V} (hl : Exact l) (hr : Exact r)
    (hn : l ≠ nil) : ∃ t, rrotate (node a k v l r) = some t ∧ Exact t ∧
      t.toList = l.toList ++ (k, v) :: r.toList ∧ t ≠ nil := by
  cases l with
  | nil => exact absurd rfl hn
  | node b km vm c d =>
    obtain ⟨-, hc, hd⟩ := hl
    exact ⟨_, rfl, hc.mk km vm (hd.mk k v hr), by simp, by simp [mk]⟩

theorem Exact.sz_nonneg {t : T K V} (h : Exact t) : 0 ≤ Size.sz t := by rw [h.sz]; omega

theorem sizeRRotate_ok {a : Int} {k : K} {v : V} {l r : T K V} (hl : Exact l) (hr : Exact r)
    (hn : r ≠ nil) : ∃ t, sizeRRotate (node a k v l r) = some t ∧ Exact t ∧
      t.toList = l.toList ++ (k, v) :: r.toList ∧ t ≠ nil := by
  cases r with
  | nil => exact absurd rfl hn
  | node b km vm c d =>
    simp only [sizeRRotate, kids, Option.bind_some]
    split
    · rename_i h
      have h0 := hr.2.2.sz_nonneg
      obtain ⟨t, h1, h2, h3, h4⟩ := rrotate_ok (a := b) (k := km) (v := vm) hr.2.1 hr.2.2 (by
        rintro rfl; rw [sz_nil] at h; omega)
      rw [h1, Option.bind_some]
      obtain ⟨t', g1, g2, g3, g4⟩ := lrotate_ok (a := a) (k := k) (v := v) hl h2 h4
      exact ⟨t', g1, g2, by rw [g3, h3]; rfl, g4⟩
    · exact lrotate_ok hl hr hn

theorem sizeLRotate_ok {a : Int} {k : K} {v : V} {l r : T K V} (hl : Exact l) (hr : Exact r)
    (hn : l ≠ nil) : ∃ t, sizeLRotate (node a k v l r) = some t ∧ Exact t ∧
      t.toList = l.toList ++ (k, v) :: r.toList ∧ t ≠ nil := by
  cases l with
  | nil => exact absurd rfl hn
  | node b km vm c d =>
    simp only [sizeLRotate, kids, Option.bind_some]
    split
    · rename_i h
      have h0 := hl.2.1.sz_nonneg
      obtain ⟨t, h1, h2, h3, h4⟩ := lrotate_ok (a := b) (k := km) (v := vm) hl.2.1 hl.2.2 (by
        rintro rfl; rw [sz_nil] at h; omega)
      rw [h1, Option.bind_some]
      obtain ⟨t', g1, g2, g3, g4⟩ := rrotate_ok (a := a) (k := k) (v := v) h2 hr h4
      exact ⟨t', g1, g2, by rw [g3, h3]; rfl, g4⟩
    · exact rrotate_ok hl hr hn

/-! ### Insertion -/

/-- A positive `rootsize` has a positive `bottomsize`. -/
def LimOK (lim : Nat → Option (Int × Int)) : Prop :=
  ∀ h s, lim h = some s → 0 < s.1 → 0 < s.2

/-- The height a walk has reached. -/
def Up.bound (n : Nat) : Up → Prop
  | .fix h => 2 ≤ h ∧ h ≤ n
  | _ => True

/-- One round of the walk after an insertion below. The sizes of the children are exact, that of the
node is one too small. -/
theorem fixNode_ok {lim : Nat → Option (Int × Int)} (hlim : LimOK lim) {up : Up} {a : Int} {k : K}
    {v : V} {l r : T K V} (hl : Exact l) (hr : Exact r)
    (ha : a = (l.toList.length : Int) + r.toList.length) {n : Nat} (hu : up.bound n)
    (hn : ∀ h, 2 ≤ h → h ≤ n → (lim h).isSome) :
    ∃ t up', fixNode lim up (node a k v l r) = some (t, up') ∧ Exact t ∧
      t.toList = l.toList ++ (k, v) :: r.toList ∧ up'.bound (max 2 (n + 1)) := by
  have hex : Exact (node (a + 1) k v l r) := exact_node.2 ⟨by omega, hl, hr⟩
  cases up with
  | leaf =>
    simp only [fixNode]
    split
    · exact ⟨_, _, rfl, hex, rfl, trivial⟩
    · exact ⟨_, _, rfl, hex, rfl, by simp only [Up.bound]; omega⟩
  | size => exact ⟨_, _, rfl, hex, rfl, trivial⟩
  | fix h =>
    obtain ⟨s, hs⟩ := Option.isSome_iff_exists.1 (hn h hu.1 hu.2)
    have hb : (Up.fix (h + 1)).bound (max 2 (n + 1)) := by simp only [Up.bound] at *; omega
    simp only [fixNode, hs, Option.bind_some]
    have hl0 := hl.sz_nonneg
    have hr0 := hr.sz_nonneg
    split
    · rename_i h1
      have hpos := hlim h s hs (by omega)
      split
      · split
        · obtain ⟨t, g1, g2, g3, -⟩ := sizeRRotate_ok (a := a + 1) (k := k) (v := v) hl hr (by
            rintro rfl; rename_i h2 _; rw [sz_nil] at h2; omega)
          rw [g1]
          exact ⟨_, _, rfl, g2, g3, trivial⟩
        · exact ⟨_, _, rfl, hex, rfl, hb⟩
      · split
        · obtain ⟨t, g1, g2, g3, -⟩ := sizeLRotate_ok (a := a + 1) (k := k) (v := v) hl hr (by
            rintro rfl; rename_i h2; rw [sz_nil] at h2; omega)
          rw [g1]
          exact ⟨_, _, rfl, g2, g3, trivial⟩
        · exact ⟨_, _, rfl, hex, rfl, hb⟩
    · exact ⟨_, _, rfl, hex, rfl, hb⟩

section
variable {cmp : K → K → Int}

/-- The order given by a comparator. -/
abbrev ord (cmp : K → K → Int) (a b : K) : Ordering := ordOf (cmp a b)

theorem ord_lt {a b : K} : ord cmp a b = .lt ↔ cmp a b < 0 := by
  unfold ord ordOf; split <;> simp_all; split <;> simp_all
theorem ord_gt {a b : K} : ord cmp a b = .gt ↔ cmp a b > 0 := by
  unfold ord ordOf
  split
  · simp; omega
  · split <;> simp_all
theorem ord_eq {a b : K} : ord cmp a b = .eq ↔ cmp a b = 0 := by
  unfold ord ordOf
  split
  · simp; omega
  · split <;> simp_all <;> omega

/-- `Compare(key, k)` decides which way the key of the node stands. -/
theorem ways (hc : Lawful cmp) (key k : K) :
    (cmp key k < 0 ∧ ord cmp k key = .gt) ∨ (¬cmp key k < 0 ∧ cmp key k > 0 ∧ ord cmp k key = .lt) ∨
    (¬cmp key k < 0 ∧ ¬cmp key k > 0 ∧ ord cmp k key = .eq) := by
  have : Std.TransCmp (ord cmp) := hc
  rcases Int.lt_trichotomy (cmp key k) 0 with h | h | h
  · left; exact ⟨h, Ord.gt_iff.2 (ord_lt.2 h)⟩
  · right; right; exact ⟨by omega, by omega, Ord.eq_symm (ord_eq.2 h)⟩
  · right; left
    exact ⟨by omega, h, Ord.lt_iff.2 (ord_gt.2 h)⟩

/-- Insertion never panics as long as the limits for heights up to that of the tree are there. -/
theorem put_ok {lim : Nat → Option (Int × Int)} (hlim : LimOK lim) {key : K} {val : V}
    {upd : K × V → K × V} {t : T K V} (h : Exact t)
    (hn : ∀ h, 2 ≤ h → h ≤ t.height → (lim h).isSome) :
    ∃ p, put lim cmp key val upd t = some p ∧ Exact p.1 ∧
      p.1.toList.length = t.toList.length + (if p.2.isSome then 1 else 0) ∧
      ∀ up, p.2 = some up → up.bound (t.height + 1) := by
  induction t with
  | nil => exact ⟨_, rfl, by simp [Exact, count], by simp, by simp [Up.bound]⟩
  | node a k v l r ihl ihr =>
    obtain ⟨ha, hl, hr⟩ := exact_node.1 h
    simp only [height] at hn
    obtain ⟨p, l1, l2, l3, l4⟩ := ihl hl (fun h h0 hh => hn h h0 (by omega))
    obtain ⟨q, r1, r2, r3, r4⟩ := ihr hr (fun h h0 hh => hn h h0 (by omega))
    simp only [put, l1, r1, Option.bind_some]
    split
    · obtain ⟨t', up⟩ := p
      cases up with
      | none =>
        simp only [Option.isSome_none, Bool.false_eq_true, if_false, Nat.add_zero] at l3
        exact ⟨_, rfl, exact_node.2 ⟨by rw [l3]; exact ha, l2, hr⟩, by simp [l3], by simp⟩
      | some up =>
        simp only [Option.isSome_some, if_true] at l3
        have hb : up.bound (l.height + 1) := l4 up rfl
        obtain ⟨s, up', g1, g2, g3, g4⟩ := fixNode_ok hlim (a := a) (k := k) (v := v) l2 hr
          (by rw [ha, l3]; push_cast; omega) (n := l.height + 1) hb (fun h h0 hh => hn h h0 (by omega))
        simp only [g1, Option.map_some]
        refine ⟨_, rfl, g2, by simp [g3, l3]; omega, ?_⟩
        rintro _ ⟨⟩
        cases up' <;> simp only [Up.bound, height] at *
        omega
    · split
      · obtain ⟨t', up⟩ := q
        cases up with
        | none =>
          simp only [Option.isSome_none, Bool.false_eq_true, if_false, Nat.add_zero] at r3
          exact ⟨_, rfl, exact_node.2 ⟨by rw [r3]; exact ha, hl, r2⟩, by simp [r3], by simp⟩
        | some up =>
          simp only [Option.isSome_some, if_true] at r3
          have hb : up.bound (r.height + 1) := r4 up rfl
          obtain ⟨s, up', g1, g2, g3, g4⟩ := fixNode_ok hlim (a := a) (k := k) (v := v) hl r2
            (by rw [ha, r3]; push_cast; omega) (n := r.height + 1) hb (fun h h0 hh => hn h h0 (by omega))
          simp only [g1, Option.map_some]
          refine ⟨_, rfl, g2, by simp [g3, r3]; omega, ?_⟩
          rintro _ ⟨⟩
          cases up' <;> simp only [Up.bound, height] at *
          omega
      · exact ⟨_, rfl, exact_node.2 ⟨ha, hl, hr⟩, by simp, by simp⟩

/-- Rotations keep the entries. -/
theorem lrotate_list {t t' : T K V} (h : lrotate t = some t') : t'.toList = t.toList := by
  unfold lrotate at h; split at h <;> cases h; simp
theorem rrotate_list {t t' : T K V} (h : rrotate t = some t') : t'.toList = t.toList := by
  unfold rrotate at h; split at h <;> cases h; simp
theorem sizeRRotate_list {t t' : T K V} (h : sizeRRotate t = some t') : t'.toList = t.toList := by
  cases t with
  | nil => cases h
  | node a k v l r =>
    simp only [sizeRRotate, Option.bind_eq_some_iff] at h
    obtain ⟨s, -, h⟩ := h
    split at h
    · obtain ⟨r', h1, h2⟩ := Option.bind_eq_some_iff.1 h
      rw [lrotate_list h2, toList_node, rrotate_list h1, toList_node]
    · exact lrotate_list h
theorem sizeLRotate_list {t t' : T K V} (h : sizeLRotate t = some t') : t'.toList = t.toList := by
  cases t with
  | nil => cases h
  | node a k v l r =>
    simp only [sizeLRotate, Option.bind_eq_some_iff] at h
    obtain ⟨s, -, h⟩ := h
    split at h
    · obtain ⟨r', h1, h2⟩ := Option.bind_eq_some_iff.1 h
      rw [rrotate_list h2, toList_node, lrotate_list h1, toList_node]
    · exact rrotate_list h

theorem fixNode_list {lim : Nat → Option (Int × Int)} {up : Up} {t : T K V} {q : T K V × Up}
    (h : fixNode lim up t = some q) : q.1.toList = t.toList := by
  cases t with
  | nil => cases up <;> cases h
  | node a k v l r =>
    cases up with
    | leaf => simp only [fixNode] at h; split at h <;> cases h <;> rfl
    | size => cases h; rfl
    | fix n =>
      simp only [fixNode, Option.bind_eq_some_iff] at h
      obtain ⟨s, -, h⟩ := h
      split at h
      · split at h
        · split at h
          · obtain ⟨t', h1, rfl⟩ := Option.map_eq_some_iff.1 h
            exact (sizeRRotate_list h1).trans rfl
          · cases h; rfl
        · split at h
          · obtain ⟨t', h1, rfl⟩ := Option.map_eq_some_iff.1 h
            exact (sizeLRotate_list h1).trans rfl
          · cases h; rfl
      · cases h; rfl

/-- The entries after an insertion. -/
theorem put_list (hc : Lawful cmp) {lim : Nat → Option (Int × Int)} {key : K} {val : V}
    {upd : K × V → K × V} {t : T K V} {p : T K V × Option Up} (hs : Sorted (ord cmp) t.toList)
    (h : put lim cmp key val upd t = some p) :
    p.1.toList = below (ord cmp) key t.toList ++
      (if (same (ord cmp) key t.toList).isEmpty then [(key, val)]
        else (same (ord cmp) key t.toList).map upd) ++ above (ord cmp) key t.toList ∧
    p.2.isSome = (same (ord cmp) key t.toList).isEmpty := by
  have : Std.TransCmp (ord cmp) := hc
  induction t generalizing p with
  | nil => cases h; simp
  | node a k v l r ihl ihr =>
    rw [toList_node] at hs
    obtain ⟨s1, s2, s3, s4, -⟩ := Sorted.split.1 hs
    simp only [put] at h
    rcases ways hc key k with ⟨h1, h2⟩ | ⟨h1, h2, h3⟩ | ⟨h1, h2, h3⟩
    · rw [if_pos h1, Option.bind_eq_some_iff] at h
      obtain ⟨q, hq, h⟩ := h
      obtain ⟨i1, i2⟩ := ihl s1 hq
      obtain ⟨g1, g2, g3⟩ := split_gt (Sorted.le hs) (show ord cmp (k, v).1 key = .gt from h2)
      rw [toList_node, g1, g2, g3]
      cases hq2 : q.2 with
      | none =>
        simp only [hq2] at h
        cases h
        rw [hq2] at i2
        exact ⟨by rw [toList_node, i1]; simp, i2⟩
      | some up =>
        simp only [hq2] at h
        obtain ⟨w, hw, rfl⟩ := Option.map_eq_some_iff.1 h
        rw [hq2] at i2
        exact ⟨by rw [fixNode_list hw, toList_node, i1]; simp, i2⟩
    · rw [if_neg h1, if_pos h2, Option.bind_eq_some_iff] at h
      obtain ⟨q, hq, h⟩ := h
      obtain ⟨i1, i2⟩ := ihr s2 hq
      obtain ⟨g1, g2, g3⟩ := split_lt (Sorted.le hs) (show ord cmp (k, v).1 key = .lt from h3)
      rw [toList_node, g1, g2, g3]
      cases hq2 : q.2 with
      | none =>
        simp only [hq2] at h
        cases h
        rw [hq2] at i2
        exact ⟨by rw [toList_node, i1]; simp, i2⟩
      | some up =>
        simp only [hq2] at h
        obtain ⟨w, hw, rfl⟩ := Option.map_eq_some_iff.1 h
        rw [hq2] at i2
        exact ⟨by rw [fixNode_list hw, toList_node, i1]; simp, i2⟩
    · rw [if_neg h1, if_neg h2] at h
      cases h
      obtain ⟨g1, g2, g3⟩ := split_eq' hs (show ord cmp (k, v).1 key = .eq from h3)
      rw [toList_node a k v, g1, g2, g3]
      simp

theorem get_eq (hc : Lawful cmp) {key : K} {t : T K V} (hs : Sorted (ord cmp) t.toList) :
    get cmp key t = (same (ord cmp) key t.toList).head? := by
  have : Std.TransCmp (ord cmp) := hc
  induction t with
  | nil => rfl
  | node a k v l r ihl ihr =>
    rw [toList_node] at hs ⊢
    obtain ⟨s1, s2, s3, s4, -⟩ := Sorted.split.1 hs
    simp only [get]
    rcases ways hc key k with ⟨h1, h2⟩ | ⟨h1, h2, h3⟩ | ⟨h1, h2, h3⟩
    · rw [if_pos h1, ihl s1, (split_gt (Sorted.le hs) (show ord cmp (k, v).1 key = .gt from h2)).2.1]
    · rw [if_neg h1, if_pos h2, ihr s2,
        (split_lt (Sorted.le hs) (show ord cmp (k, v).1 key = .lt from h3)).2.1]
    · rw [if_neg h1, if_neg h2, (split_eq' hs (show ord cmp (k, v).1 key = .eq from h3)).2.1]
      rfl

theorem setVal_list (hc : Lawful cmp) {key : K} {val : V} {t : T K V}
    (hs : Sorted (ord cmp) t.toList) : (setVal cmp key val t).toList =
      below (ord cmp) key t.toList ++ (same (ord cmp) key t.toList).map (fun e => (e.1, val)) ++
        above (ord cmp) key t.toList := by
  have : Std.TransCmp (ord cmp) := hc
  induction t with
  | nil => rfl
  | node a k v l r ihl ihr =>
    rw [toList_node] at hs ⊢
    obtain ⟨s1, s2, s3, s4, -⟩ := Sorted.split.1 hs
    simp only [setVal]
    rcases ways hc key k with ⟨h1, h2⟩ | ⟨h1, h2, h3⟩ | ⟨h1, h2, h3⟩
    · obtain ⟨g1, g2, g3⟩ := split_gt (Sorted.le hs) (show ord cmp (k, v).1 key = .gt from h2)
      rw [if_pos h1, g1, g2, g3, toList_node, ihl s1]; simp
    · obtain ⟨g1, g2, g3⟩ := split_lt (Sorted.le hs) (show ord cmp (k, v).1 key = .lt from h3)
      rw [if_neg h1, if_pos h2, g1, g2, g3, toList_node, ihr s2]; simp
    · obtain ⟨g1, g2, g3⟩ := split_eq' hs (show ord cmp (k, v).1 key = .eq from h3)
      rw [if_neg h1, if_neg h2, g1, g2, g3]; simp

theorem setVal_exact {key : K} {val : V} {t : T K V} (h : Exact t) :
    Exact (setVal cmp key val t) ∧ (setVal cmp key val t).count = t.count := by
  induction t with
  | nil => exact ⟨trivial, rfl⟩
  | node a k v l r ihl ihr =>
    obtain ⟨h1, h2, h3⟩ := h
    obtain ⟨l1, l2⟩ := ihl h2
    obtain ⟨r1, r2⟩ := ihr h3
    simp only [setVal]
    split
    · exact ⟨⟨by rw [l2]; exact h1, l1, h3⟩, by simp [count, l2]⟩
    · split
      · exact ⟨⟨by rw [r2]; exact h1, h2, r1⟩, by simp [count, r2]⟩
      · exact ⟨⟨h1, h2, h3⟩, rfl⟩

/-! ### Removal -/

theorem takeMax_ok {t : T K V} (h : Exact t) (hn : t ≠ nil) :
    ∃ p, takeMax t = some p ∧ Exact p.1 ∧ t.toList = p.1.toList ++ [p.2] := by
  induction t with
  | nil => exact absurd rfl hn
  | node a k v l r ihl ihr =>
    obtain ⟨h1, h2, h3⟩ := exact_node.1 h
    cases r with
    | nil => exact ⟨_, rfl, h2, by simp⟩
    | node b k' v' l' r' =>
      obtain ⟨p, g1, g2, g3⟩ := ihr h3 (by simp)
      simp only [takeMax] at g1 ⊢
      rw [g1]
      refine ⟨_, rfl, exact_node.2 ⟨?_, h2, g2⟩, ?_⟩
      · rw [h1, g3]; simp; omega
      · show l.toList ++ (k, v) :: (node b k' v' l' r').toList = _
        rw [g3]; simp

theorem takeMin_ok {t : T K V} (h : Exact t) (hn : t ≠ nil) :
    ∃ p, takeMin t = some p ∧ Exact p.1 ∧ t.toList = p.2 :: p.1.toList := by
  induction t with
  | nil => exact absurd rfl hn
  | node a k v l r ihl ihr =>
    obtain ⟨h1, h2, h3⟩ := exact_node.1 h
    cases l with
    | nil => exact ⟨_, rfl, h3, by simp⟩
    | node b k' v' l' r' =>
      obtain ⟨p, g1, g2, g3⟩ := ihl h2 (by simp)
      simp only [takeMin] at g1 ⊢
      rw [g1]
      refine ⟨_, rfl, exact_node.2 ⟨?_, g2, h3⟩, ?_⟩
      · rw [h1, g3]; simp; omega
      · show (node b k' v' l' r').toList ++ (k, v) :: r.toList = _
        rw [g3]; simp

/-- Sizes and shape; the entries are compared without values, which `mv` may change. -/
theorem removeNode_ok {mv : V → V → V} {a : Int} {k : K} {v : V} {l r : T K V}
    (h : Exact (node a k v l r)) :
    ∃ t, removeNode mv (node a k v l r) = some t ∧ Exact t ∧
      ((∃ L e, l.toList = L ++ [e] ∧ t.toList = L ++ (e.1, mv v e.2) :: r.toList) ∨
       (∃ e R, r.toList = e :: R ∧ t.toList = l.toList ++ (e.1, mv v e.2) :: R) ∨
       (l.toList = [] ∧ r.toList = [] ∧ t.toList = [])) := by
  obtain ⟨h1, h2, h3⟩ := exact_node.1 h
  simp only [removeNode]
  split
  · have hl : l.toList.length = 0 := by omega
    have hr : r.toList.length = 0 := by omega
    exact ⟨_, rfl, trivial, .inr (.inr ⟨List.length_eq_zero_iff.1 hl, List.length_eq_zero_iff.1 hr, rfl⟩)⟩
  · have h0 := h2.sz
    have h0' := h3.sz
    split
    · obtain ⟨p, g1, g2, g3⟩ := takeMax_ok h2 (by rintro rfl; simp at h0; omega)
      rw [g1]
      refine ⟨_, rfl, exact_node.2 ⟨?_, g2, h3⟩, .inl ⟨_, _, g3, rfl⟩⟩
      rw [h1, g3]; simp; omega
    · obtain ⟨p, g1, g2, g3⟩ := takeMin_ok h3 (by rintro rfl; simp at h0' h1; simp_all)
      rw [g1]
      refine ⟨_, rfl, exact_node.2 ⟨?_, h2, g2⟩, .inr (.inl ⟨_, _, g3, rfl⟩)⟩
      rw [h1, g3]; simp; omega

/-- When the value moves with the key. -/
theorem removeNode_list {a : Int} {k : K} {v : V} {l r : T K V} (h : Exact (node a k v l r)) :
    ∃ t, removeNode (fun _ w => w) (node a k v l r) = some t ∧ Exact t ∧
      t.toList = l.toList ++ r.toList := by
  obtain ⟨t, h1, h2, h3⟩ := removeNode_ok (mv := fun _ w => w) h
  refine ⟨t, h1, h2, ?_⟩
  rcases h3 with ⟨L, e, e1, e2⟩ | ⟨e, R, e1, e2⟩ | ⟨e1, e2, e3⟩
  · rw [e2, e1]; simp
  · rw [e2, e1]
  · rw [e1, e2, e3]; rfl

theorem remove_ok (hc : Lawful cmp) {key : K} {t : T K V} (h : Exact t)
    (hs : Sorted (ord cmp) t.toList) :
    ∃ p, remove (fun _ w => w) cmp key t = some p ∧ Exact p.1 ∧
      p.1.toList = below (ord cmp) key t.toList ++ above (ord cmp) key t.toList ∧
      p.2 = (same (ord cmp) key t.toList).head? ∧
      t.toList.length = p.1.toList.length + (if p.2.isSome then 1 else 0) := by
  have : Std.TransCmp (ord cmp) := hc
  induction t with
  | nil => exact ⟨_, rfl, trivial, rfl, rfl, rfl⟩
  | node a k v l r ihl ihr =>
    obtain ⟨h1, h2, h3⟩ := exact_node.1 h
    rw [toList_node] at hs ⊢
    obtain ⟨s1, s2, -, -, -⟩ := Sorted.split.1 hs
    simp only [remove]
    rcases ways hc key k with ⟨c1, c2⟩ | ⟨c1, c2, c3⟩ | ⟨c1, c2, c3⟩
    · obtain ⟨p, g1, g2, g3, g4, g5⟩ := ihl h2 s1
      obtain ⟨f1, f2, f3⟩ := split_gt (Sorted.le hs) (show ord cmp (k, v).1 key = .gt from c2)
      rw [if_pos c1, g1, f1, f2, f3]
      refine ⟨_, rfl, exact_node.2 ⟨?_, g2, h3⟩, by simp [g3], g4, ?_⟩
      · show (if p.2.isSome then a - 1 else a) = _
        split <;> simp_all; omega
      · simp only [List.length_append, toList_node, List.length_cons, g5]; omega
    · obtain ⟨p, g1, g2, g3, g4, g5⟩ := ihr h3 s2
      obtain ⟨f1, f2, f3⟩ := split_lt (Sorted.le hs) (show ord cmp (k, v).1 key = .lt from c3)
      rw [if_neg c1, if_pos c2, g1, f1, f2, f3]
      refine ⟨_, rfl, exact_node.2 ⟨?_, h2, g2⟩, by simp [g3], g4, ?_⟩
      · show (if p.2.isSome then a - 1 else a) = _
        split <;> simp_all; omega
      · simp only [List.length_append, toList_node, List.length_cons, g5]; omega
    · obtain ⟨f1, f2, f3⟩ := split_eq' hs (show ord cmp (k, v).1 key = .eq from c3)
      obtain ⟨t, g1, g2, g3⟩ := removeNode_list h
      rw [if_neg c1, if_neg c2, g1, f1, f2, f3]
      exact ⟨_, rfl, g2, by simp [g3], rfl, by simp [g3]; omega⟩

end

end Verif.Size
