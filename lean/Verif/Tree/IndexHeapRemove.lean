import Verif.Tree.IndexHeapPut

/-! The pointer program of `Verif.Tree.IndexHeap`: removal of one node. -/

namespace Verif.IndexHeap
open Verif.AvlHeap (P ptr addrs erase ptr_nil ptr_node ptr_mem ptr_ne)
open Verif.Tree Verif.Size
variable {K V : Type} {cmp : K → K → Int} {root : Nat}

/-- The last node in the direction `c`. -/
def last (c : Bool) : P K V → Nat
  | nil => 0
  | node a _ _ l r => if c then (match r with | nil => a.1 | node .. => last c r)
    else (match l with | nil => a.1 | node .. => last c l)

theorem last_nil {c : Bool} {a : Nat × Int} {k : K} {v : V} {w : P K V} :
    last c (bn c a k v nil w) = a.1 := by cases c <;> rfl

theorem last_node {c : Bool} {a : Nat × Int} {k : K} {v : V} {u w : P K V} (h : u.isNil = false) :
    last c (bn c a k v u w) = last c u := by
  cases u with
  | nil => cases h
  | node => cases c <;> rfl

theorem last_mem {c : Bool} : ∀ {t : P K V}, t.isNil = false → last c t ∈ addrs t
  | nil, h => by cases h
  | node a k v l r, _ => by
    cases c
    · match l with
      | nil => simp [last, addrs]
      | node b k2 v2 x y => have := last_mem (c := false) (t := node b k2 v2 x y) rfl; simp [last, addrs] at *; grind
    · match r with
      | nil => simp [last, addrs]
      | node b k2 v2 x y => have := last_mem (c := true) (t := node b k2 v2 x y) rfl; simp [last, addrs] at *; grind

theorem as_bn (c : Bool) {t : P K V} (h : t.isNil = false) : ∃ a k v u w, t = bn c a k v u w := by
  cases t with
  | nil => cases h
  | node a k v l r => cases c; exacts [⟨a, k, v, l, r, rfl⟩, ⟨a, k, v, r, l, rfl⟩]

theorem height_bn {A : Type} {c : Bool} {a : A} {k : K} {v : V} {u w : Tree A K V} :
    (bn c a k v u w).height = max u.height w.height + 1 := by
  cases c <;> simp [bn, Tree.height, Nat.max_comm]

theorem isNil_ptr {t : P K V} {a : Nat} (h : ptr t = some a) : t.isNil = false := by
  cases t; cases h; rfl

theorem ptr_isNil {t : P K V} (h : t.isNil = false) : ∃ a, ptr t = some a := by
  cases t; cases h; exact ⟨_, rfl⟩

/-- Induction on the spine in the direction `c`. -/
@[elab_as_elim] theorem spine_ind (c : Bool) {motive : P K V → Prop} (h0 : motive nil)
    (h1 : ∀ a k v u w, motive u → motive (bn c a k v u w)) (t : P K V) :
    motive t := by
  induction t with
  | nil => exact h0
  | node a k v l r ihl ihr => cases c; exacts [h1 a k v l r ihl, h1 a k v r l ihr]

theorem far_ok {m : Mem K V} {c : Bool} (t : P K V) : ∀ (p b n : Nat), Rep m p t → ptr t = some b →
    t.height ≤ n → far m c n b = some (last c t) := by
  induction t using spine_ind c
  case h0 => intro p b n _ h; cases h
  rename_i a k v u w ih
  intro p b n hR hb hn
  obtain ⟨⟨g, hg⟩, hu, hw⟩ := rep_bn.1 hR
  rw [ptr_bn, Option.some.injEq] at hb
  subst hb
  rw [height_bn] at hn
  obtain ⟨n, rfl⟩ : ∃ n', n = n' + 1 := ⟨n - 1, by omega⟩
  have k1 : (m a.1).kid c = ptr u := by rw [hg]; simp
  simp only [far, k1]
  cases u with
  | nil => rw [last_nil]; rfl
  | node a2 k2 v2 l2 r2 => rw [last_node rfl]; exact ih _ _ _ hu rfl (by omega)

/-- `takeMax` (for `c = false`) and `takeMin` of the model with subtrees. -/
def vtake (c : Bool) (t : T K V) : Option (T K V × (K × V)) := if c then takeMin t else takeMax t

theorem vtake_nil {c : Bool} {a : Int} {k : K} {v : V} {w : T K V} :
    vtake c (bn (!c) a k v nil w) = some (w, (k, v)) := by cases c <;> rfl

theorem vtake_node {c : Bool} {a : Int} {k : K} {v : V} {u w : T K V} (h : u.isNil = false) :
    vtake c (bn (!c) a k v u w) = (vtake c u).map fun p => (bn (!c) (a - 1) k v p.1 w, p.2) := by
  cases u with
  | nil => cases h
  | node => cases c <;> simp [vtake, bn, takeMax, takeMin]

theorem isNil_erase {t : P K V} : (erase t).isNil = t.isNil := by cases t <;> rfl

/-- `fixRemoveSize` at one node. -/
theorem dec_ok {m : Mem K V} {p a : Nat} {d : Bool} {s : Int} {k : K} {v : V} {l r : P K V}
    (hR : Rep m p (node (a, s) k v l r)) (hn : (p :: addrs (node (a, s) k v l r)).Nodup)
    (hp : (m p).kid d = some a) (hr : a ≠ root) :
    ∃ m', Good [] [] m m' p d (node (a, s) k v l r) (node (a, s - 1) k v l r) ∧
      ∀ n, fixRemoveSize root (n + 1) m a = fixRemoveSize root n m' p := by
  have hR' := hR
  obtain ⟨⟨b, hb⟩, hl, hr'⟩ := hR
  refine ⟨setSize m a ((m a).size - 1), tweak (b' := b) hR' hn hp (by simp [hb]), fun n => ?_⟩
  simp only [fixRemoveSize, if_neg hr]
  have : (setSize m a ((m a).size - 1) a).parent = some p := by simp [setSize, hb]
  rw [this]; rfl

theorem dec_bn {m : Mem K V} {p : Nat} {d c : Bool} {a : Nat × Int} {k : K} {v : V} {u w : P K V}
    (hR : Rep m p (bn c a k v u w)) (hn : (p :: addrs (bn c a k v u w)).Nodup)
    (hp : (m p).kid d = some a.1) (hr : a.1 ≠ root) :
    ∃ m', Good [] [] m m' p d (bn c a k v u w) (bn c (a.1, a.2 - 1) k v u w) ∧
      ∀ n, fixRemoveSize root (n + 1) m a.1 = fixRemoveSize root n m' p := by
  cases c
  · exact dec_ok hR hn hp hr
  · exact dec_ok hR hn hp hr

/-- `q.Children[c] = x`, and `q` becomes its parent. -/
def adopt (m : Mem K V) (q : Nat) (c : Bool) (x : Option Nat) : Mem K V :=
  setParent? (link m q c x) x q

theorem adopt_self {m : Mem K V} {q : Nat} {c : Bool} {x : Option Nat} (h : x ≠ some q) :
    adopt m q c x q = (m q).setKid c x := by
  cases x with
  | none => simp [adopt, setParent?, link]
  | some x =>
    simp only [adopt, setParent?, setParent, link]
    rw [upd_ne _ (by rintro rfl; exact h rfl), upd_self]

theorem adopt_other {m : Mem K V} {q z : Nat} {c : Bool} {x : Option Nat} (h : x ≠ some z)
    (hq : z ≠ q) : adopt m q c x z = m z := by
  cases x with
  | none => simp only [adopt, setParent?, link]; rw [upd_ne _ hq]
  | some x =>
    simp only [adopt, setParent?, setParent, link]
    rw [upd_ne _ (by rintro rfl; exact h rfl), upd_ne _ hq]

theorem adopt_kid {m : Mem K V} {q z : Nat} {c : Bool} {x : Option Nat} (h : x = some z)
    (hq : z ≠ q) : adopt m q c x z = { m z with parent := some q } := by
  subst h
  simp only [adopt, setParent?, setParent, link, upd_self]
  rw [upd_ne _ hq]

/-- The tree `w` takes the place of `t`. -/
theorem adopt_good {m : Mem K V} {p q : Nat} {d : Bool} {t w : P K V} {gone : List Nat}
    (hw : Rep m q w) (hn : (p :: addrs t).Nodup) (hg : (gone ++ addrs w).Perm (addrs t)) :
    Good [] gone m (adopt m p d (ptr w)) p d t w := by
  have hpw : p ∉ addrs w := fun h => (List.nodup_cons.1 hn).1 (hg.mem_iff.1 (by simp [h]))
  have hnw : (addrs w).Nodup := (List.nodup_append.1 (hg.nodup_iff.2 (List.nodup_cons.1 hn).2)).2.1
  refine ⟨hw.reparent hnw ?_ ?_, adopt_self (ptr_ne hpw), hg, ?_⟩
  · intro z hz hzw; exact adopt_other hzw (by rintro rfl; exact hpw hz)
  · intro z hz; exact adopt_kid hz (by rintro rfl; exact hpw (ptr_mem hz))
  · intro x hx hxp
    exact adopt_other (ptr_ne fun h => hx (hg.mem_iff.1 (List.mem_append_right _ h))) hxp

/-- The last node in the direction `!c` is taken out, and the walk of `fixRemoveSize` goes on at the
parent of the tree. -/
theorem take_ok {m : Mem K V} {c : Bool} (t : P K V) : ∀ (q : Nat) (d : Bool) (u : T K V) (e : K × V),
    Rep m q t → (q :: addrs t).Nodup → Hole [] m q d t → root ∉ addrs t →
    vtake c (erase t) = some (u, e) →
    (m (last (!c) t)).key = e.1 ∧ (m (last (!c) t)).val = e.2 ∧
    ∃ q', (m (last (!c) t)).parent = some q' ∧ q' ∈ q :: addrs t ∧
    ∃ m' t' j, j < t.height ∧ erase t' = u ∧ Good [] [last (!c) t] m m' q d t t' ∧
      ∀ n, fixRemoveSize root (n + j)
        (adopt m q' (if q' = q then d else !c) ((m (last (!c) t)).kid c)) q' =
        fixRemoveSize root n m' q := by
  induction t using spine_ind (!c)
  case h0 => intro q d u e _ _ _ _ h; cases c <;> cases h
  rename_i a k v u w ih
  intro q d x e hR hn hh hr h
  have hR' := hR
  obtain ⟨⟨g, hg⟩, hu, hw⟩ := rep_bn.1 hR
  have hp : (addrs (bn (!c) a k v u w)).Perm (a.1 :: (addrs u ++ addrs w)) := addrs_bn
  have hn' : (q :: (a.1 :: (addrs u ++ addrs w))).Nodup := (hp.cons q).nodup_iff.1 hn
  have hr' : root ∉ a.1 :: (addrs u ++ addrs w) := fun h => hr (hp.mem_iff.2 h)
  rw [erase_bn] at h
  by_cases hnil : u.isNil = true
  · obtain rfl : u = nil := by cases u; rfl; cases hnil
    rw [show erase (nil : P K V) = nil from rfl, vtake_nil] at h
    cases h
    rw [last_nil]
    have k1 : (m a.1).parent = some q := by rw [hg]; cases c <;> rfl
    have k2 : (m a.1).kid c = ptr w := by rw [hg]; cases c <;> rfl
    have k3 : (m a.1).key = k := by rw [hg]; cases c <;> rfl
    have k4 : (m a.1).val = v := by rw [hg]; cases c <;> rfl
    refine ⟨k3, k4, q, k1, by simp, adopt m q d (ptr w), w, 0, by rw [height_bn]; omega, rfl, ?_, ?_⟩
    · exact adopt_good hw hn hp.symm
    · intro n; rw [if_pos rfl, k2, Nat.add_zero]
  · rw [Bool.not_eq_true] at hnil
    rw [vtake_node (by rw [isNil_erase]; exact hnil), Option.map_eq_some_iff] at h
    obtain ⟨⟨u2, e2⟩, h1, h2⟩ := h
    cases h2
    rw [last_node hnil]
    obtain ⟨i1, i2, q', i3, i4, m1, t1, j, i5, i6, i7, i8⟩ := ih a.1 (!c) u2 e2 hu (by grind)
      (Hole.kid hR' (List.nodup_cons.1 hn).2) (by grind) h1
    have g1 := Good.kid hR' (by rw [hh.1, ptr_bn]) hn i7
    have hq : q' ≠ q := by rintro rfl; grind
    have hnn := (List.nodup_cons.1 (g1.nodup hn)).2
    have hn1 : (q :: addrs (bn (!c) a k v t1 w)).Nodup := by
      have := g1.nodup hn; grind
    obtain ⟨m2, g2, i9⟩ := dec_bn (root := root) g1.rep hn1 ((g1.hole hh).1.trans ptr_bn) (by grind)
    refine ⟨i1, i2, q', i3, ?_, m2, _, j + 1, by rw [height_bn]; omega, ?_, g1.trans g2, fun n => ?_⟩
    · rw [List.mem_cons, hp.mem_iff]; grind
    · rw [erase_bn, i6]
    · have := i8 (n + 1)
      rw [i9, show n + 1 + j = n + (j + 1) by omega] at this
      rw [if_neg hq]
      rw [ite_self] at this
      exact this

theorem fixRemoveSize_val : ∀ {n : Nat} {m m' : Mem K V} {a : Nat}, fixRemoveSize root n m a = some m' →
    ∀ x, (m' x).val = (m x).val
  | 0, _, _, _, h => by cases h
  | n + 1, m, m', a, h => by
    intro x
    simp only [fixRemoveSize] at h
    split at h
    · cases h; rfl
    · rw [Option.bind_eq_some_iff] at h
      obtain ⟨p, -, h⟩ := h
      rw [fixRemoveSize_val h x]
      simp only [setSize, upd]
      split <;> rfl

theorem getRelationship_ok {m : Mem K V} {p a : Nat} {d : Bool} {t : P K V} (hh : Hole [] m p d t)
    (ha : ptr t = some a) (hp : (m a).parent = some p) : getRelationship m a = some d := by
  simp only [getRelationship, hp, Option.map_some, Option.some.injEq]
  have h1 := hh.1
  have h2 := hh.2 a (ptr_mem ha)
  cases d <;> simp_all [Cell.kid]

/-- The removal at the node found. -/
theorem removeCell_ok {keep : V → V → V} {m : Mem K V} {p a : Nat} {d : Bool} {t : P K V} {u : T K V} (hR : Rep m p t)
    (hn : (p :: addrs t).Nodup) (hh : Hole [] m p d t) (ha : ptr t = some a) (hr : root ∉ addrs t)
    (h : removeNode keep (erase t) = some u) :
    ∃ m' t' gone j, j ≤ t.height ∧ erase t' = u ∧ Good [] gone m m' p d t t' ∧
      ∀ n, t.height ≤ n + j →
        removeCell root keep (n + j) m a = (fixRemoveSize root n m' p).map fun q => (q, (m a).val) := by
  match t with
  | nil => cases ha
  | node (a', s) k v l r =>
    obtain rfl : a = a' := by simpa using ha.symm
    have hR' := hR
    obtain ⟨⟨b, hb⟩, hl, hr'⟩ := hR
    have i1 : (m a).parent = some p := by rw [hb]
    simp only [erase, removeNode] at h
    by_cases c1 : s = 1
    · rw [if_pos c1] at h
      cases h
      refine ⟨link m p d none, nil, addrs (node (a, s) k v l r), 0, by omega, rfl, ?_, ?_⟩
      · exact adopt_good (w := nil) (q := 0) trivial hn (by simp [addrs])
      · intro n _
        have i2 : (m a).size = 1 := by rw [hb]; exact c1
        simp only [removeCell, if_pos i2, i1, Option.bind_some, getRelationship_ok hh ha i1, Nat.add_zero]
        cases h1 : fixRemoveSize root n (link m p d none) p with
        | none => rfl
        | some m2 =>
          have := fixRemoveSize_val h1 a
          simp only [Option.map_some, this, link, upd]
          split <;> (try cases d) <;> rfl
    · rw [if_neg c1] at h
      have i2 : ¬(m a).size = 1 := by rw [hb]; exact c1
      have i3 : getSize m (m a).lo = sz (erase l) := by rw [hb]; exact getSize_ptr hl
      have i4 : getSize m (m a).hi = sz (erase r) := by rw [hb]; exact getSize_ptr hr'
      have key : ∀ c (x w : P K V), node (a, s) k v l r = bn c (a, s) k v x w → ∀ y e,
          vtake c (erase x) = some (y, e) →
          ∃ m' t' gone j, j ≤ (node (a, s) k v l r).height ∧
            erase t' = bn c (s - 1) e.1 (keep v e.2) y (erase w) ∧
            Good [] gone m m' p d (node (a, s) k v l r) t' ∧
            ∀ n, (node (a, s) k v l r).height ≤ n + j →
              takeOut root keep (n + j) m c a = (fixRemoveSize root n m' p).map fun q => (q, (m a).val) := by
        intro c x w hx y e he
        rw [hx] at hR' hn hh hr ⊢
        have hp : (addrs (bn c (a, s) k v x w)).Perm (a :: (addrs x ++ addrs w)) := addrs_bn
        have hn' : (p :: (a :: (addrs x ++ addrs w))).Nodup := (hp.cons p).nodup_iff.1 hn
        have hr' : root ∉ a :: (addrs x ++ addrs w) := fun h => hr (hp.mem_iff.2 h)
        have hnil : x.isNil = false := by
          cases x with
          | nil => cases c <;> cases he
          | node => rfl
        obtain ⟨b2, hb2⟩ := ptr_isNil hnil
        obtain ⟨⟨g, hg⟩, hx', hw⟩ := rep_bn.1 hR'
        have hz := last_mem (c := !c) hnil
        have hza : last (!c) x ≠ a := by grind
        -- the entry of the neighbour
        have g0 : Good [] [] m (upd m a fun z => { z with key := e.1, val := keep z.val e.2 }) p d
            (bn c (a, s) k v x w) (bn c (a, s) e.1 (keep v e.2) x w) := by
          cases c
          · exact tweak (b' := g) hR' hn (by rw [hh.1, ptr_bn]) (by simp [hg, Cell.setKid])
          · exact tweak (b' := g) hR' hn (by rw [hh.1, ptr_bn]) (by simp [hg, Cell.setKid])
        obtain ⟨f1, f2, -⟩ := take_ok (root := root) (c := c) x a c y e hx' (by grind)
          (Hole.kid hR' (List.nodup_cons.1 hn).2) (by grind) he
        have hm1 : (upd m a fun z => { z with key := (m (last (!c) x)).key, val := keep z.val (m (last (!c) x)).val }) =
            upd m a fun z => { z with key := e.1, val := keep z.val e.2 } := by rw [f1, f2]
        generalize hm0 : (upd m a fun z => { z with key := e.1, val := keep z.val e.2 }) = m0 at g0 hm1
        have hn0 := g0.nodup hn
        have hh0 := g0.hole hh
        obtain ⟨⟨g3, hg3⟩, hx0, hw0⟩ := rep_bn.1 g0.rep
        obtain ⟨-, -, q', j1, j2, m1, x1, j, j3, j4, j5, j6⟩ := take_ok (root := root) (c := c) x a c y e hx0
          (by grind) (Hole.kid g0.rep (List.nodup_cons.1 hn0).2) (by grind) he
        have g1 := Good.kid g0.rep (by rw [hh0.1, ptr_bn]) hn0 j5
        have hn1 : (p :: addrs (bn c (a, s) e.1 (keep v e.2) x1 w)).Nodup := by
          have := g1.nodup hn0; grind
        obtain ⟨m2, g2, j7⟩ := dec_bn (root := root) g1.rep hn1 ((g1.hole hh0).1.trans ptr_bn) (by grind)
        refine ⟨m2, _, _, j + 1, by rw [height_bn]; omega, ?_, (g0.trans g1).trans g2, ?_⟩
        · rw [erase_bn, j4]
        · intro n hle
          rw [height_bn] at hle
          have kc : (m a).kid c = some b2 := by rw [hg]; simpa using hb2
          have hfar := far_ok (c := !c) x a b2 (n + (j + 1)) hx' hb2 (by omega)
          simp only [takeOut, kc, Option.bind_some, hfar, hm1, j1]
          have j8 := j6 (n + 1)
          rw [j7, show n + 1 + j = n + (j + 1) by omega] at j8
          by_cases hq : q' = a
          · subst hq
            rw [if_pos rfl] at j8 ⊢
            rw [← j8]
            simp [adopt, link]
          · rw [if_neg hq] at j8 ⊢
            rw [← j8]
            simp [adopt, link]
      simp only [removeCell, if_neg i2, i3, i4]
      split at h
      · rename_i c2
        simp only [if_pos c2]
        rw [Option.map_eq_some_iff] at h
        obtain ⟨⟨y, e⟩, h1, rfl⟩ := h
        exact key false l r rfl y e h1
      · rename_i c2
        simp only [if_neg c2]
        rw [Option.map_eq_some_iff] at h
        obtain ⟨⟨y, e⟩, h1, rfl⟩ := h
        exact key true r l rfl y e h1

/-! ### Programs that walk up -/

theorem length_bn {c : Bool} {a : Nat × Int} {k : K} {v : V} {u w : P K V} :
    (addrs (bn c a k v u w)).length = (addrs u).length + (addrs w).length + 1 := by
  rw [(addrs_bn (c := c)).length_eq]; simp

theorem height_le : ∀ (t : P K V), t.height ≤ (addrs t).length
  | nil => by simp [Tree.height]
  | node a k v l r => by
    have h1 := height_le l
    have h2 := height_le r
    simp only [Tree.height, addrs, List.length_cons, List.length_append]; omega

/-- The program replaces the tree `t` by one of the value `u` and goes on with `loop` at the node
`p`; `Q` speaks about the cells that are not in the tree any more. -/
def Runs {β : Type} (new : List Nat) (Q : List Nat → Mem K V → Prop) (prog : Nat → Option β)
    (loop : Nat → Mem K V → Nat → Option β) (m : Mem K V) (p : Nat) (d : Bool) (t : P K V) (u : T K V) :
    Prop :=
  ∃ m' t' gone j, j ≤ (addrs t).length ∧ erase t' = u ∧ Good new gone m m' p d t t' ∧ Q gone m' ∧
    ∀ n, (addrs t).length ≤ n + j → prog (n + j) = loop n m' p

theorem Runs.lift {β : Type} {new : List Nat} {Q : List Nat → Mem K V → Prop} {prog : Nat → Option β}
    {loop : Nat → Mem K V → Nat → Option β} {m : Mem K V} {p : Nat} {d c : Bool} {a : Nat × Int} {k : K}
    {v : V} {u w : P K V} {y z : T K V} (hR : Rep m p (bn c a k v u w))
    (hn : (p :: (new ++ addrs (bn c a k v u w))).Nodup) (hh : Hole new m p d (bn c a k v u w))
    (h : Runs new Q prog loop m a.1 c u y)
    (hQ : ∀ gone m1 m2, (∀ x ∈ gone, m2 x = m1 x) → Q gone m1 → Q gone m2)
    (hs : ∀ m1 u1, erase u1 = y → Rep m1 p (bn c a k v u1 w) → (p :: addrs (bn c a k v u1 w)).Nodup →
      Hole [] m1 p d (bn c a k v u1 w) → ∃ m2 t2, erase t2 = z ∧
        Good [] [] m1 m2 p d (bn c a k v u1 w) t2 ∧ ∀ n, loop (n + 1) m1 a.1 = loop n m2 p) :
    Runs new Q prog loop m p d (bn c a k v u w) z := by
  obtain ⟨m1, u1, gone, j, h1, h2, h3, h4, h5⟩ := h
  have g1 := Good.kid hR (hh.1.trans ptr_bn) hn h3
  have hn1 := g1.nodup hn
  obtain ⟨m2, t2, i1, i2, i3⟩ := hs m1 u1 h2 g1.rep (by grind) (g1.hole hh).mono
  have g2 := g1.trans i2
  rw [List.append_nil] at g2
  refine ⟨m2, t2, gone, j + 1, by rw [length_bn]; omega, i1, g2, hQ gone m1 m2 ?_ h4, fun n hl => ?_⟩
  · intro x hx
    refine i2.frame x ?_ ?_
    · intro hx2
      have := (List.nodup_append.1 (List.nodup_cons.1 hn1).2).2.2
      exact this x hx x (by simpa using hx2) rfl
    · rintro rfl; exact (List.nodup_cons.1 hn1).1 (List.mem_append_left _ hx)
  · rw [length_bn] at hl
    rw [← i3, ← h5 (n + 1) (by omega)]
    congr 1; omega

/-- No claim about the cells removed. -/
def any : List Nat → Mem K V → Prop := fun _ _ => True

theorem any_stable (gone : List Nat) (m1 m2 : Mem K V) (_ : ∀ x ∈ gone, m2 x = m1 x) (_ : any gone m1) :
    any gone m2 := trivial

/-- `fixRemoveSize`, and the value returned. -/
def decLoop (root : Nat) (val : V) (n : Nat) (m : Mem K V) (p : Nat) : Option (Mem K V × V) :=
  (fixRemoveSize root n m p).map fun q => (q, val)

theorem decLoop_step {p : Nat} {d c : Bool} {a : Nat × Int} {k : K} {v val : V} {w : P K V} {y : T K V} (hr : a.1 ≠ root) :
    ∀ m1 u1, erase u1 = y → Rep m1 p (bn c a k v u1 w) → (p :: addrs (bn c a k v u1 w)).Nodup →
      Hole [] m1 p d (bn c a k v u1 w) → ∃ m2 t2, erase t2 = bn c (a.2 - 1) k v y (erase w) ∧
        Good [] [] m1 m2 p d (bn c a k v u1 w) t2 ∧
        ∀ n, decLoop root val (n + 1) m1 a.1 = decLoop root val n m2 p := by
  intro m1 u1 h1 h2 h3 h4
  obtain ⟨m2, g, i⟩ := dec_bn h2 h3 (h4.1.trans ptr_bn) hr
  exact ⟨m2, _, by rw [erase_bn, h1], g, fun n => by rw [decLoop, decLoop, i]⟩

theorem removeCell_runs {keep : V → V → V} {m : Mem K V} {p a : Nat} {d : Bool} {t : P K V} {u : T K V} {val : V}
    (hR : Rep m p t) (hn : (p :: addrs t).Nodup) (hh : Hole [] m p d t) (ha : ptr t = some a)
    (hr : root ∉ addrs t) (h : removeNode keep (erase t) = some u) (hv : (m a).val = val) :
    Runs [] any (fun j => removeCell root keep j m a) (decLoop root val) m p d t u := by
  obtain ⟨m', t', gone, j, h1, h2, h3, h4⟩ := removeCell_ok hR hn hh ha hr h
  have := height_le t
  refine ⟨m', t', gone, j, by omega, h2, h3, trivial, fun n hl => ?_⟩
  simp only [h4 n (by omega), decLoop, hv]

/-- tree.go:277-349 `Remove`, the part below the node `p`. -/
theorem remove_ok {m : Mem K V} {key : K} : ∀ (t : P K V) (p : Nat) (d : Bool) (n : Nat) (u : T K V)
    (o : Option (K × V)), Rep m p t → (p :: addrs t).Nodup → Hole [] m p d t → root ∉ addrs t →
    t.height < n → Size.remove (fun _ w => w) cmp key (erase t) = some (u, o) →
    match o with
    | none => getNode cmp m key n (ptr t) = some none ∧ u = erase t
    | some e => ∃ b, getNode cmp m key n (ptr t) = some (some b) ∧
      Runs [] any (fun j => removeCell root (fun _ w => w) j m b) (decLoop root e.2) m p d t u
  | nil, p, d, n, u, o, _, _, _, _, hl, h => by
    simp only [erase, Size.remove, Option.some.injEq, Prod.mk.injEq] at h
    obtain ⟨rfl, rfl⟩ := h
    obtain ⟨n, rfl⟩ : ∃ n', n = n' + 1 := ⟨n - 1, by simp [Tree.height] at hl; omega⟩
    exact ⟨rfl, rfl⟩
  | node a k v l r, p, d, n, u, o, hR, hn, hh, hr, hl, h => by
    obtain ⟨⟨g, hg⟩, hl', hr'⟩ := hR
    have hR : Rep m p (node a k v l r) := ⟨⟨g, hg⟩, hl', hr'⟩
    have hlt : max l.height r.height + 1 < n := by simpa [Tree.height] using hl
    obtain ⟨n, rfl⟩ : ∃ n', n = n' + 1 := ⟨n - 1, by omega⟩
    have hn' : (p :: a.1 :: (addrs l ++ addrs r)).Nodup := hn
    have hra : root ∉ a.1 :: (addrs l ++ addrs r) := hr
    simp only [erase, Size.remove] at h
    have key0 : getNode cmp m key (n + 1) (ptr (node a k v l r)) =
        if cmp key k < 0 then getNode cmp m key n (ptr l)
        else if cmp key k > 0 then getNode cmp m key n (ptr r) else some (some a.1) := by
      simp only [ptr_node, getNode, hg]
    split at h
    · rename_i c1
      rw [if_pos c1] at key0
      rw [Option.map_eq_some_iff] at h
      obtain ⟨⟨u1, o1⟩, h1, h2⟩ := h
      simp only [Prod.mk.injEq] at h2
      obtain ⟨rfl, rfl⟩ := h2
      have ih := remove_ok l a.1 false n u1 o1 hl' (by grind)
        (Hole.kid (c := false) hR (List.nodup_cons.1 hn).2) (by grind) (by omega) h1
      match o1, ih with
      | none, ih => exact ⟨key0.trans ih.1, by simp [ih.2, erase]⟩
      | some e, ⟨b, ih1, ih2⟩ =>
        exact ⟨b, key0.trans ih1, ih2.lift (c := false) (w := r) hR hn hh any_stable
          (decLoop_step (c := false) (by grind))⟩
    · split at h
      · rename_i c0 c1
        rw [if_neg c0, if_pos c1] at key0
        rw [Option.map_eq_some_iff] at h
        obtain ⟨⟨u1, o1⟩, h1, h2⟩ := h
        simp only [Prod.mk.injEq] at h2
        obtain ⟨rfl, rfl⟩ := h2
        have ih := remove_ok r a.1 true n u1 o1 hr' (by grind)
          (Hole.kid (c := true) hR (List.nodup_cons.1 hn).2) (by grind) (by omega) h1
        match o1, ih with
        | none, ih => exact ⟨key0.trans ih.1, by simp [ih.2, erase]⟩
        | some e, ⟨b, ih1, ih2⟩ =>
          exact ⟨b, key0.trans ih1, ih2.lift (c := true) (w := l) hR hn hh any_stable
            (decLoop_step (c := true) (by grind))⟩
      · rename_i c0 c1
        rw [if_neg c0, if_neg c1] at key0
        rw [Option.map_eq_some_iff] at h
        obtain ⟨u1, h1, h2⟩ := h
        simp only [Prod.mk.injEq] at h2
        obtain ⟨rfl, rfl⟩ := h2
        exact ⟨a.1, key0, removeCell_runs hR hn hh rfl hr h1 (by rw [hg])⟩

/-! ### Reading -/

/-- utils.go:316-333 `getNode`, and `cur.Value = value` at the node found. -/
theorem get_ok {m : Mem K V} {key : K} : ∀ (t : P K V) (p : Nat) (d : Bool) (n : Nat), Rep m p t →
    (p :: addrs t).Nodup → Hole [] m p d t → t.height < n →
    match Size.get cmp key (erase t) with
    | none => getNode cmp m key n (ptr t) = some none
    | some e => ∃ b, getNode cmp m key n (ptr t) = some (some b) ∧ (m b).val = e.2 ∧
      ∀ v, ∃ t', erase t' = setVal cmp key v (erase t) ∧
        Good [] [] m (upd m b fun x => { x with val := v }) p d t t'
  | nil, p, d, n, _, _, _, hl => by
    obtain ⟨n, rfl⟩ : ∃ n', n = n' + 1 := ⟨n - 1, by simp [Tree.height] at hl; omega⟩
    rfl
  | node a k v l r, p, d, n, hR, hn, hh, hl => by
    obtain ⟨⟨g, hg⟩, hl', hr'⟩ := hR
    have hR : Rep m p (node a k v l r) := ⟨⟨g, hg⟩, hl', hr'⟩
    have hlt : max l.height r.height + 1 < n := by simpa [Tree.height] using hl
    obtain ⟨n, rfl⟩ : ∃ n', n = n' + 1 := ⟨n - 1, by omega⟩
    have hn' : (p :: a.1 :: (addrs l ++ addrs r)).Nodup := hn
    have key0 : getNode cmp m key (n + 1) (ptr (node a k v l r)) =
        if cmp key k < 0 then getNode cmp m key n (ptr l)
        else if cmp key k > 0 then getNode cmp m key n (ptr r) else some (some a.1) := by
      simp only [ptr_node, getNode, hg]
    simp only [erase, Size.get, setVal]
    by_cases c1 : cmp key k < 0
    · rw [if_pos c1] at key0
      simp only [if_pos c1]
      have ih := get_ok (key := key) l a.1 false n hl' (by grind)
        (Hole.kid (c := false) hR (List.nodup_cons.1 hn).2) (by omega)
      cases hget : Size.get cmp key (erase l) with
      | none => rw [hget] at ih; exact key0.trans ih
      | some e =>
        rw [hget] at ih
        obtain ⟨b, i1, i2, i3⟩ := ih
        refine ⟨b, key0.trans i1, i2, fun v' => ?_⟩
        obtain ⟨t', j1, j2⟩ := i3 v'
        exact ⟨bn false a k v t' r, by rw [erase_bn, j1]; rfl,
          Good.kid (c := false) (w := r) hR hh.1 hn j2⟩
    · by_cases c2 : cmp key k > 0
      · rw [if_neg c1, if_pos c2] at key0
        simp only [if_neg c1, if_pos c2]
        have ih := get_ok (key := key) r a.1 true n hr' (by grind)
          (Hole.kid (c := true) hR (List.nodup_cons.1 hn).2) (by omega)
        cases hget : Size.get cmp key (erase r) with
        | none => rw [hget] at ih; exact key0.trans ih
        | some e =>
          rw [hget] at ih
          obtain ⟨b, i1, i2, i3⟩ := ih
          refine ⟨b, key0.trans i1, i2, fun v' => ?_⟩
          obtain ⟨t', j1, j2⟩ := i3 v'
          exact ⟨bn true a k v t' l, by rw [erase_bn, j1]; rfl,
            Good.kid (c := true) (w := l) hR hh.1 hn j2⟩
      · rw [if_neg c1, if_neg c2] at key0
        simp only [if_neg c1, if_neg c2]
        refine ⟨a.1, key0, by rw [hg], fun v' => ⟨node a k v' l r, rfl, ?_⟩⟩
        exact tweak (b' := g) hR hn hh.1 (by rw [hg])

theorem leftSz_ok {m : Mem K V} {p b : Nat} {t : P K V} (h : Rep m p t) (hb : ptr t = some b) :
    getSize m (m b).lo = leftSz (erase t) := by
  cases t with
  | nil => cases hb
  | node a k v l r =>
    obtain ⟨⟨g, hg⟩, hl, hr⟩ := h
    obtain rfl : b = a.1 := by simpa using hb.symm
    rw [hg]; exact getSize_ptr hl

theorem rightSz_ok {m : Mem K V} {p b : Nat} {t : P K V} (h : Rep m p t) (hb : ptr t = some b) :
    getSize m (m b).hi = rightSz (erase t) := by
  cases t with
  | nil => cases hb
  | node a k v l r =>
    obtain ⟨⟨g, hg⟩, hl, hr⟩ := h
    obtain rfl : b = a.1 := by simpa using hb.symm
    rw [hg]; exact getSize_ptr hr

/-- utils.go:301-312, and the removal at the node found (tree.go:370-434). -/
theorem index_ok {m : Mem K V} {i : Int} : ∀ (t : P K V) (p : Nat) (d : Bool) (n b : Nat) (idx : Int),
    Rep m p t → (p :: addrs t).Nodup → Hole [] m p d t → root ∉ addrs t → t.height ≤ n →
    ptr t = some b →
    (match nodeAt i (erase t) idx with
      | none => indexLoop m i n b idx = none
      | some e => ∃ x, indexLoop m i n b idx = some x ∧ (m x).key = e.1 ∧ (m x).val = e.2) ∧
    (match removeAt (fun _ w => w) i (erase t) idx with
      | none => indexLoop m i n b idx = none
      | some none => True
      | some (some q) => ∃ x, indexLoop m i n b idx = some x ∧
        Runs [] any (fun j => removeCell root (fun _ w => w) j m x) (decLoop root q.2.2) m p d t q.1)
  | nil, p, d, n, b, idx, _, _, _, _, _, hb => by cases hb
  | node a k v l r, p, d, n, b, idx, hR, hn, hh, hr, hl, hb => by
    obtain rfl : b = a.1 := by simpa using hb.symm
    obtain ⟨⟨g, hg⟩, hl', hr'⟩ := hR
    have hR : Rep m p (node a k v l r) := ⟨⟨g, hg⟩, hl', hr'⟩
    have hlt : max l.height r.height + 1 ≤ n := by simpa [Tree.height] using hl
    obtain ⟨n, rfl⟩ : ∃ n', n = n' + 1 := ⟨n - 1, by omega⟩
    have hn' : (p :: a.1 :: (addrs l ++ addrs r)).Nodup := hn
    have hra : root ∉ a.1 :: (addrs l ++ addrs r) := hr
    simp only [erase, nodeAt, removeAt]
    by_cases c1 : idx > i
    · have e0 : indexLoop m i (n + 1) a.1 idx =
          (ptr l).bind fun b => indexLoop m i n b (idx - (getSize m (m b).hi + 1)) := by
        simp only [indexLoop, if_pos c1, hg]
      simp only [if_pos c1, e0]
      cases hp : ptr l with
      | none =>
        obtain rfl : l = nil := by cases l; rfl; cases hp
        simp [erase, nodeAt, removeAt]
      | some b2 =>
        have ih := index_ok (i := i) l a.1 false n b2 (idx - (rightSz (erase l) + 1)) hl' (by grind)
          (Hole.kid (c := false) hR (List.nodup_cons.1 hn).2) (by grind) (by omega) hp
        rw [Option.bind_some, rightSz_ok hl' hp]
        refine ⟨ih.1, ?_⟩
        have ih2 := ih.2
        match hrm : removeAt (fun _ w => w) i (erase l) (idx - (rightSz (erase l) + 1)), ih2 with
        | none, ih2 => exact ih2
        | some none, ih2 => trivial
        | some (some q), ⟨x, j1, j2⟩ =>
          exact ⟨x, j1, j2.lift (c := false) (w := r) hR hn hh any_stable
            (decLoop_step (c := false) (by grind))⟩
    · by_cases c2 : idx < i
      · have e0 : indexLoop m i (n + 1) a.1 idx =
            (ptr r).bind fun b => indexLoop m i n b (idx + (getSize m (m b).lo + 1)) := by
          simp only [indexLoop, if_neg c1, if_pos c2, hg]
        simp only [if_neg c1, if_pos c2, e0]
        cases hp : ptr r with
        | none =>
          obtain rfl : r = nil := by cases r; rfl; cases hp
          simp [erase, nodeAt, removeAt]
        | some b2 =>
          have ih := index_ok (i := i) r a.1 true n b2 (idx + (leftSz (erase r) + 1)) hr' (by grind)
            (Hole.kid (c := true) hR (List.nodup_cons.1 hn).2) (by grind) (by omega) hp
          rw [Option.bind_some, leftSz_ok hr' hp]
          refine ⟨ih.1, ?_⟩
          have ih2 := ih.2
          match hrm : removeAt (fun _ w => w) i (erase r) (idx + (leftSz (erase r) + 1)), ih2 with
          | none, ih2 => exact ih2
          | some none, ih2 => trivial
          | some (some q), ⟨x, j1, j2⟩ =>
            exact ⟨x, j1, j2.lift (c := true) (w := l) hR hn hh any_stable
              (decLoop_step (c := true) (by grind))⟩
      · have e0 : indexLoop m i (n + 1) a.1 idx = some a.1 := by
          simp only [indexLoop, if_neg c1, if_neg c2]
        simp only [if_neg c1, if_neg c2, e0]
        refine ⟨⟨_, rfl, by rw [hg], by rw [hg]⟩, ?_⟩
        cases hrn : removeNode (fun _ w => w) (node a.2 k v (erase l) (erase r)) with
        | none => trivial
        | some u => exact ⟨a.1, rfl, removeCell_runs hR hn hh rfl hr hrn (by rw [hg])⟩

/-- tree.go:181-199. -/
theorem indexOf_ok {m : Mem K V} {key : K} : ∀ (t : P K V) (p n b : Nat) (off : Int), Rep m p t →
    t.height ≤ n → ptr t = some b →
    indexOfLoop cmp m key n b off = some (Size.indexOf cmp key (erase t) off)
  | nil, _, _, _, _, _, _, hb => by cases hb
  | node a k v l r, p, n, b, off, hR, hl, hb => by
    obtain rfl : b = a.1 := by simpa using hb.symm
    obtain ⟨⟨g, hg⟩, hl', hr'⟩ := hR
    have hlt : max l.height r.height + 1 ≤ n := by simpa [Tree.height] using hl
    obtain ⟨n, rfl⟩ : ∃ n', n = n' + 1 := ⟨n - 1, by omega⟩
    simp only [erase, Size.indexOf, indexOfLoop, hg]
    split
    · cases hp : ptr l with
      | none =>
        obtain rfl : l = nil := by cases l; rfl; cases hp
        rfl
      | some b2 =>
        simp only [rightSz_ok hl' hp]
        exact indexOf_ok l a.1 n b2 _ hl' (by omega) hp
    · split
      · cases hp : ptr r with
        | none =>
          obtain rfl : r = nil := by cases r; rfl; cases hp
          rfl
        | some b2 =>
          simp only [leftSz_ok hr' hp]
          exact indexOf_ok r a.1 n b2 _ hr' (by omega) hp
      · rfl

/-- tree.go:242-257. -/
theorem traverse_ok {m : Mem K V} {every : K → V → Bool} : ∀ (t : P K V) (p n : Nat), Rep m p t →
    t.height < n → traverse every m n (ptr t) = some ((erase t).traverse every)
  | nil, _, n, _, hl => by
    obtain ⟨n, rfl⟩ : ∃ n', n = n' + 1 := ⟨n - 1, by simp [Tree.height] at hl; omega⟩
    rfl
  | node a k v l r, p, n, hR, hl => by
    obtain ⟨⟨g, hg⟩, hl', hr'⟩ := hR
    have hlt : max l.height r.height + 1 < n := by simpa [Tree.height] using hl
    obtain ⟨n, rfl⟩ : ∃ n', n = n' + 1 := ⟨n - 1, by omega⟩
    simp only [ptr_node, traverse, hg, erase, Tree.traverse, traverse_ok l a.1 n hl' (by omega),
      traverse_ok r a.1 n hr' (by omega), Option.bind_some, Option.map_some]
    generalize (erase l).traverse every = x
    obtain ⟨xs, b⟩ := x
    cases b
    · rfl
    · cases every k v <;> rfl

end Verif.IndexHeap
