import Verif.Tree.IndexHeapRange

/-! The pointer program of `Verif.Tree.IndexHeap`: trimming. -/

namespace Verif.IndexHeap
open Verif.AvlHeap (P ptr addrs erase ptr_nil ptr_node ptr_mem ptr_ne)
open Verif.Tree Verif.Size
variable {K V : Type} {cmp : K → K → Int} {root : Nat}

theorem chop_ne {m : Mem K V} {a x : Nat} {c : Bool} (h : x ≠ a) : chop m a c x = m x := by
  simp only [chop, setSize, link]; rw [upd_ne _ h, upd_ne _ h]

/-- A node loses its child `c`. -/
theorem chop_rep {m : Mem K V} {q : Nat} {a : Nat × Int} {k : K} {v : V} {c : Bool} {w : P K V}
    {s b : Int} {o : Option Nat} (ha : m a.1 = (Cell.setKid ⟨k, v, s, b, some q, ptr w, ptr w⟩ c o))
    (hw : Rep m a.1 w) (hn : a.1 ∉ addrs w) :
    Rep (chop m a.1 c) q (bn c (a.1, sz (erase w) + 1) k v nil w) := by
  refine rep_bn.2 ⟨⟨b, ?_⟩, trivial, hw.congr fun x hx => chop_ne (by rintro rfl; exact hn hx)⟩
  have e : ((link m a.1 c none) a.1).kid (!c) = ptr w := by
    simp only [link, upd_self, ha]; cases c <;> rfl
  have hw' : Rep (link m a.1 c none) a.1 w :=
    hw.congr fun x hx => upd_ne _ (by rintro rfl; exact hn hx)
  simp only [chop, e, getSize_ptr hw']
  simp only [setSize, link, upd_self, ha]
  cases c <;> rfl

theorem chop_ok {m : Mem K V} {q : Nat} {a : Nat × Int} {k : K} {v : V} {c : Bool} {u w : P K V}
    (hR : Rep m q (bn c a k v u w)) (hn : (addrs (bn c a k v u w)).Nodup) :
    Near (addrs u) m (chop m a.1 c) q (bn c a k v u w) (bn c (a.1, sz (erase w) + 1) k v nil w) := by
  have hn' : (a.1 :: (addrs u ++ addrs w)).Nodup := (addrs_bn (c := c)).nodup_iff.1 hn
  obtain ⟨⟨g, hg⟩, hu, hw⟩ := rep_bn.1 hR
  refine ⟨chop_rep (s := a.2) (b := g) (o := ptr u) (by rw [hg]; cases c <;> rfl) hw (by grind), ?_, ?_⟩
  · refine ((addrs_bn (c := c)).append_left _).trans (List.Perm.trans ?_ (addrs_bn (c := c)).symm)
    exact List.perm_middle
  · intro x hx
    exact chop_ne (by rintro rfl; exact hx ((addrs_bn (c := c)).mem_iff.2 (by simp)))

/-- A change of a child in place. -/
theorem Near.kid {gone : List Nat} {m m' : Mem K V} {q : Nat} {a : Nat × Int} {k : K} {v : V} {c : Bool}
    {u w w' : P K V} (hR : Rep m q (bn c a k v u w)) (hn : (addrs (bn c a k v u w)).Nodup)
    (h : Near gone m m' a.1 w w') (hp : ptr w' = ptr w) :
    Near gone m m' q (bn c a k v u w) (bn c a k v u w') := by
  have hn' : (a.1 :: (addrs u ++ addrs w)).Nodup := (addrs_bn (c := c)).nodup_iff.1 hn
  obtain ⟨⟨g, hg⟩, hu, hw⟩ := rep_bn.1 hR
  refine ⟨rep_bn.2 ⟨⟨g, ?_⟩, hu.congr fun x hx => h.frame x (by grind), h.rep⟩, ?_, fun x hx => ?_⟩
  · rw [h.frame a.1 (by grind), hg, hp]
  · refine ((addrs_bn (c := c)).append_left _).trans (List.Perm.trans ?_ (addrs_bn (c := c)).symm)
    refine List.perm_middle.trans (List.Perm.cons _ ?_)
    have := h.perm.append_left (addrs u)
    refine List.Perm.trans ?_ this
    rw [← List.append_assoc, ← List.append_assoc]
    exact List.perm_append_comm.append_right _
  · have hx' : x ∉ a.1 :: (addrs u ++ addrs w) := fun h => hx ((addrs_bn (c := c)).mem_iff.2 h)
    exact h.frame x (by grind)

theorem Near.trans {g1 g2 : List Nat} {m m1 m2 : Mem K V} {q q1 : Nat} {t t1 t2 : P K V}
    (h1 : Near g1 m m1 q1 t t1) (h2 : Near g2 m1 m2 q t1 t2) : Near (g1 ++ g2) m m2 q t t2 := by
  refine ⟨h2.rep, ?_, fun x hx => ?_⟩
  · rw [List.append_assoc]; exact (h2.perm.append_left g1).trans h1.perm
  · rw [h2.frame x (fun h => hx (h1.sub h)), h1.frame x hx]

/-! ### `Trim` -/

/-- `trimL` (`c = false`) and `trimR` of the model with subtrees. -/
def vtrim (cmp : K → K → Int) (bound : K) (c : Bool) (t : T K V) : T K V :=
  if c then trimR cmp bound t else trimL cmp bound t

/-- `trimLAt` and `trimRAt`. -/
def vtrimAt (cmp : K → K → Int) (bound : K) (c : Bool) (t : T K V) : T K V :=
  if c then trimRAt cmp bound t else trimLAt cmp bound t

theorem vtrim_bn {bound : K} {c : Bool} {a : Int} {k : K} {v : V} {u w : T K V} :
    vtrim cmp bound c (bn c a k v u w) =
      if (if c then cmp bound k < 0 else cmp bound k > 0) then vtrim cmp bound c w
      else if (if c then cmp bound k > 0 else cmp bound k < 0) then
        bn c (sz (vtrim cmp bound c u) + sz w + 1) k v (vtrim cmp bound c u) w
      else bn c (sz w + 1) k v nil w := by
  cases c
  · simp only [vtrim, bn, trimL, mk, Bool.false_eq_true, if_false]
  · simp only [vtrim, bn, trimR, mk, if_true]
    rw [Int.add_comm (sz w)]

theorem vtrimAt_bn {bound : K} {c : Bool} {a : Int} {k : K} {v : V} {u w : T K V} :
    vtrimAt cmp bound c (bn c a k v u w) =
      if (if c then cmp bound k < 0 else cmp bound k > 0) then bn c a k v u (vtrimAt cmp bound c w)
      else vtrim cmp bound c (bn c a k v u w) := by
  cases c
  · simp only [vtrim, vtrimAt, bn, trimLAt, Bool.false_eq_true, if_false]
  · simp only [vtrim, vtrimAt, bn, trimRAt, if_true]

/-- tree.go:657-677, 682-702: the tree returned, and what became of the tree itself. -/
theorem trimRec_ok {bound : K} {c : Bool} (t : P K V) : ∀ (m : Mem K V) (q : Nat), Rep m q t →
    (addrs t).Nodup → ∃ m' t' gone q', (∀ n, t.height < n → trimRec cmp bound c n m (ptr t) = some (m', ptr t')) ∧
      erase t' = vtrim cmp bound c (erase t) ∧ Near gone m m' q' t t' ∧
      ∃ t'' gone', erase t'' = vtrimAt cmp bound c (erase t) ∧ ptr t'' = ptr t ∧ Near gone' m m' q t t'' := by
  induction t using both_ind c with
  | h0 =>
    intro m q _ _
    refine ⟨m, nil, [], q, fun n hl => ?_, by cases c <;> rfl, Near.refl trivial,
      nil, [], by cases c <;> rfl, rfl, Near.refl trivial⟩
    obtain ⟨n, rfl⟩ : ∃ n', n = n' + 1 := ⟨n - 1, by omega⟩
    rfl
  | h1 a k v u w ihu ihw =>
    intro m q hR hn
    have hn' : (a.1 :: (addrs u ++ addrs w)).Nodup := (addrs_bn (c := c)).nodup_iff.1 hn
    obtain ⟨⟨g, hg⟩, hu, hw⟩ := rep_bn.1 hR
    have k1 : (m a.1).kid c = ptr u := by rw [hg]; cases c <;> rfl
    have k2 : (m a.1).kid (!c) = ptr w := by rw [hg]; cases c <;> rfl
    have k3 : (m a.1).key = k := by rw [hg]; cases c <;> rfl
    rw [erase_bn, vtrimAt_bn, vtrim_bn]
    by_cases hc : (if c then cmp bound k < 0 else cmp bound k > 0)
    · simp only [if_pos hc]
      obtain ⟨m1, w1, gone, q1, h1, h2, h3, t2, gone', h4, h5, h6⟩ := ihw m a.1 hw (by grind)
      refine ⟨m1, w1, _, q1, fun n hl => ?_, h2, h3.drop, bn c a k v u t2, gone', ?_, by simp,
        h6.kid hR hn h5⟩
      · rw [height_bn] at hl
        obtain ⟨n, rfl⟩ : ∃ n', n = n' + 1 := ⟨n - 1, by omega⟩
        simp only [ptr_bn, trimRec, k2, k3, if_pos hc, h1 n (by omega)]
      · rw [erase_bn, h4]
    · simp only [if_neg hc]
      by_cases hc2 : (if c then cmp bound k > 0 else cmp bound k < 0)
      · simp only [if_pos hc2]
        obtain ⟨m1, u1, gone, q1, h1, h2, h3, -⟩ := ihu m a.1 hu (by grind)
        have nr := hook_ok hR hn h3
        refine ⟨_, _, gone, q, fun n hl => ?_, ?_, nr, _, gone, ?_, by simp, nr⟩
        · rw [height_bn] at hl
          obtain ⟨n, rfl⟩ : ∃ n', n = n' + 1 := ⟨n - 1, by omega⟩
          simp only [ptr_bn, trimRec, k1, k3, if_neg hc, if_pos hc2, h1 n (by omega), Option.map_some]
        · rw [erase_bn, h2]
        · rw [erase_bn, h2]
      · simp only [if_neg hc2]
        have nr := chop_ok hR hn
        refine ⟨_, _, _, q, fun n hl => ?_, ?_, nr, _, _, ?_, by simp, nr⟩
        · rw [height_bn] at hl
          obtain ⟨n, rfl⟩ : ∃ n', n = n' + 1 := ⟨n - 1, by omega⟩
          simp only [ptr_bn, trimRec, k3, if_neg hc, if_neg hc2]
        · rw [erase_bn]; rfl
        · rw [erase_bn]; rfl

/-- utils.go:202-223. -/
theorem rangeRoot_ok {m : Mem K V} {low high : K} : ∀ (t : P K V) (p : Nat), Rep m p t →
    ∃ s gone q, (∀ n, t.height < n → getRangeRoot cmp m low high n (ptr t) = some (ptr s)) ∧
      erase s = rangeRoot cmp low high (erase t) ∧ Near gone m m q t s
  | nil, p, _ => by
    refine ⟨nil, [], p, fun n hl => ?_, rfl, Near.refl trivial⟩
    obtain ⟨n, rfl⟩ : ∃ n', n = n' + 1 := ⟨n - 1, by omega⟩
    rfl
  | node a k v l r, p, hR => by
    obtain ⟨⟨g, hg⟩, hl', hr'⟩ := id hR
    have key0 : ∀ n, getRangeRoot cmp m low high (n + 1) (ptr (node a k v l r)) =
        if cmp low k ≠ cmp high k then some (some a.1)
        else if cmp low k < 0 then getRangeRoot cmp m low high n (ptr l)
        else if cmp low k > 0 then getRangeRoot cmp m low high n (ptr r) else some (some a.1) := by
      intro n; simp only [ptr_node, getRangeRoot, hg]
    have hh : ∀ n, (node a k v l r).height < n → ∃ n', n = n' + 1 ∧ l.height < n' ∧ r.height < n' := by
      intro n hn
      simp only [Tree.height] at hn
      exact ⟨n - 1, by omega, by omega, by omega⟩
    simp only [erase, rangeRoot]
    by_cases c1 : cmp low k ≠ cmp high k
    · simp only [if_pos c1]
      refine ⟨node a k v l r, [], p, fun n hl => ?_, rfl, Near.refl hR⟩
      obtain ⟨n, rfl, -, -⟩ := hh n hl
      rw [key0, if_pos c1]; rfl
    · simp only [if_neg c1]
      by_cases c2 : cmp low k < 0
      · simp only [if_pos c2]
        obtain ⟨s, gone, q, i1, i2, i3⟩ := rangeRoot_ok (low := low) (high := high) l a.1 hl'
        refine ⟨s, _, q, fun n hl => ?_, i2, i3.drop (c := true)⟩
        obtain ⟨n, rfl, h1, -⟩ := hh n hl
        rw [key0, if_neg c1, if_pos c2, i1 n h1]
      · simp only [if_neg c2]
        by_cases c3 : cmp low k > 0
        · simp only [if_pos c3]
          obtain ⟨s, gone, q, i1, i2, i3⟩ := rangeRoot_ok (low := low) (high := high) r a.1 hr'
          refine ⟨s, _, q, fun n hl => ?_, i2, i3.drop (c := false)⟩
          obtain ⟨n, rfl, -, h1⟩ := hh n hl
          rw [key0, if_neg c1, if_neg c2, if_pos c3, i1 n h1]
        · simp only [if_neg c3]
          refine ⟨node a k v l r, [], p, fun n hl => ?_, rfl, Near.refl hR⟩
          obtain ⟨n, rfl, -, -⟩ := hh n hl
          rw [key0, if_neg c1, if_neg c2, if_neg c3]; rfl

/-- tree.go:706-712, 797-802. -/
theorem replant_ok {m m' : Mem K V} {q : Nat} {t s : P K V} {gone : List Nat}
    (hn : (root :: addrs t).Nodup) (h : Near gone m m' q t s) :
    Good [] gone m (replant m' root (ptr s)) root false t s :=
  (adopt_good h.rep hn h.perm).before h.frame (List.nodup_cons.1 hn).1

/-- tree.go:644-714 `Trim`. -/
theorem trim_ok {m : Mem K V} {low high : K} {t : P K V} (hR : Rep m root t)
    (hn : (root :: addrs t).Nodup) (hh : (m root).lo = ptr t) :
    ∃ m' t' gone, erase t' = Size.trim cmp low high (erase t) ∧ Good [] gone m m' root false t t' ∧
      ∀ n, (addrs t).length < n → trim cmp root n m low high = some m' := by
  obtain ⟨s, g0, q, i1, i2, i3⟩ := rangeRoot_ok (cmp := cmp) (low := low) (high := high) t root hR
  have hns := i3.nodup (List.nodup_cons.1 hn).2
  obtain ⟨m1, s1', -, -, j1, -, -, s1, g1, j2, j3, j4⟩ :=
    trimRec_ok (cmp := cmp) (bound := low) (c := false) s m q i3.rep hns
  obtain ⟨m2, s2', -, -, k1, -, -, s2, g2, k2, k3, k4⟩ :=
    trimRec_ok (cmp := cmp) (bound := high) (c := true) s1 m1 q j4.rep (j4.nodup hns)
  have nr := (i3.trans j4).trans k4
  refine ⟨replant m2 root (ptr s2), s2, _, ?_, replant_ok hn nr, fun n hl => ?_⟩
  · rw [k2, j2, i2]; rfl
  · have h0 := height_le t
    have h1 := height_le s
    have h2 := height_le s1
    have h3 := i3.length
    have h4 := j4.length
    simp only [trim, hh, i1 n (by omega), Option.bind_some, j1 n (by omega)]
    rw [← j3, k1 n (by omega), ← k3]
    rfl

/-! ### `TrimByIndex` -/

/-- The rank of a child. -/
def below' (idx : Int) (dir : Bool) (t : T K V) : Int :=
  if dir then idx + leftSz t + 1 else idx - rightSz t - 1

/-- `trimIdxL` (`c = false`) and `trimIdxR` of the model with subtrees. -/
def vtrimIdx (bound : Int) (c : Bool) (t : T K V) (idx : Int) : Option (T K V) :=
  if c then trimIdxR bound t idx else trimIdxL bound t idx

theorem vtrimIdx_bn {bound : Int} {c : Bool} {a idx : Int} {k : K} {v : V} {u w : T K V} :
    vtrimIdx bound c (bn c a k v u w) idx =
      if (if c then idx > bound else idx < bound) then
        if w.isNil then none else vtrimIdx bound c w (below' idx (!c) w)
      else if (if c then idx < bound else idx > bound) then
        if u.isNil then none else (vtrimIdx bound c u (below' idx c u)).map fun u' =>
          bn c (sz u' + sz w + 1) k v u' w
      else some (bn c (sz w + 1) k v nil w) := by
  cases c
  · simp only [vtrimIdx, bn, trimIdxL, mk, Bool.false_eq_true, if_false, Bool.not_false, below', if_true]
  · simp only [vtrimIdx, bn, trimIdxR, mk, Bool.false_eq_true, if_false, Bool.not_true, below', if_true]
    simp only [Int.add_comm (sz w)]

theorem stepIdx_ok {m : Mem K V} {q : Nat} {a : Nat × Int} {idx : Int} {c : Bool} {t : P K V}
    (h : Rep m q t) (hk : (m a.1).kid c = ptr t) :
    stepIdx m idx c a.1 = (ptr t).map fun b => (below' idx c (erase t), b) := by
  simp only [stepIdx, hk]
  cases hp : ptr t with
  | none => rfl
  | some b => simp only [Option.map_some, leftSz_ok h hp, rightSz_ok h hp, below']

theorem ptr_none {t : P K V} (h : ptr t = none) : t = nil := by cases t; rfl; cases h

/-- tree.go:747-768, 772-793. -/
theorem trimIdxRec_ok {bound : Int} {c : Bool} (t : P K V) : ∀ (m : Mem K V) (q b : Nat) (idx : Int),
    Rep m q t → (addrs t).Nodup → ptr t = some b →
    match vtrimIdx bound c (erase t) idx with
    | none => ∀ n, t.height ≤ n → trimIdxRec bound c n m idx b = none
    | some z => ∃ m' t' gone q' b', (∀ n, t.height ≤ n → trimIdxRec bound c n m idx b = some (m', b')) ∧
      ptr t' = some b' ∧ erase t' = z ∧ Near gone m m' q' t t' ∧
      (¬(if c then idx > bound else idx < bound) → q' = q ∧ b' = b) := by
  induction t using both_ind c with
  | h0 => intro m q b idx _ _ h; cases h
  | h1 a k v u w ihu ihw =>
    intro m q b idx hR hn hb
    obtain rfl : b = a.1 := by simpa using hb.symm
    have hn' : (a.1 :: (addrs u ++ addrs w)).Nodup := (addrs_bn (c := c)).nodup_iff.1 hn
    obtain ⟨⟨g, hg⟩, hu, hw⟩ := rep_bn.1 hR
    have k1 : (m a.1).kid c = ptr u := by rw [hg]; cases c <;> rfl
    have k2 : (m a.1).kid (!c) = ptr w := by rw [hg]; cases c <;> rfl
    have s1 := stepIdx_ok (idx := idx) hu k1
    have s2 := stepIdx_ok (idx := idx) hw k2
    have hh : ∀ n, (bn c a k v u w).height ≤ n → ∃ n', n = n' + 1 ∧ u.height ≤ n' ∧ w.height ≤ n' := by
      intro n hn
      rw [height_bn] at hn
      exact ⟨n - 1, by omega, by omega, by omega⟩
    rw [erase_bn, vtrimIdx_bn]
    by_cases hc : (if c then idx > bound else idx < bound)
    · simp only [if_pos hc, isNil_erase]
      cases hp : ptr w with
      | none =>
        obtain rfl := ptr_none hp
        intro n hl
        obtain ⟨n, rfl, -, -⟩ := hh n hl
        simp only [trimIdxRec, if_pos hc, s2]; rfl
      | some b2 =>
        rw [isNil_ptr hp, if_neg (by simp)]
        have ih := ihw m a.1 b2 (below' idx (!c) (erase w)) hw (by grind) hp
        have e0 : ∀ n, trimIdxRec bound c (n + 1) m idx a.1 =
            trimIdxRec bound c n m (below' idx (!c) (erase w)) b2 := by
          intro n
          simp only [trimIdxRec, if_pos hc, s2, hp, Option.map_some, Option.bind_some]
        match hv : vtrimIdx bound c (erase w) (below' idx (!c) (erase w)), ih with
        | none, ih =>
          intro n hl
          obtain ⟨n, rfl, -, h2⟩ := hh n hl
          rw [e0, ih n h2]
        | some z, ⟨m1, t1, gone, q1, b1, i1, i2, i3, i4, _⟩ =>
          refine ⟨m1, t1, _, q1, b1, fun n hl => ?_, i2, i3, i4.drop, fun h => absurd hc h⟩
          obtain ⟨n, rfl, -, h2⟩ := hh n hl
          rw [e0, i1 n h2]
    · simp only [if_neg hc]
      by_cases hc2 : (if c then idx < bound else idx > bound)
      · simp only [if_pos hc2, isNil_erase]
        cases hp : ptr u with
        | none =>
          obtain rfl := ptr_none hp
          intro n hl
          obtain ⟨n, rfl, -, -⟩ := hh n hl
          simp only [trimIdxRec, if_neg hc, if_pos hc2, s1]; rfl
        | some b2 =>
          rw [isNil_ptr hp, if_neg (by simp)]
          have ih := ihu m a.1 b2 (below' idx c (erase u)) hu (by grind) hp
          have e0 : ∀ n, trimIdxRec bound c (n + 1) m idx a.1 =
              (trimIdxRec bound c n m (below' idx c (erase u)) b2).map fun p =>
                (hook p.1 a.1 c (some p.2), a.1) := by
            intro n
            simp only [trimIdxRec, if_neg hc, if_pos hc2, s1, hp, Option.map_some, Option.bind_some]
          match hv : vtrimIdx bound c (erase u) (below' idx c (erase u)), ih with
          | none, ih =>
            intro n hl
            obtain ⟨n, rfl, h2, -⟩ := hh n hl
            rw [e0, ih n h2]; rfl
          | some z, ⟨m1, t1, gone, q1, b1, i1, i2, i3, i4, _⟩ =>
            have nr := hook_ok hR hn i4
            refine ⟨_, _, gone, q, a.1, fun n hl => ?_, by rw [ptr_bn], ?_, nr, fun _ => ⟨rfl, rfl⟩⟩
            · obtain ⟨n, rfl, h2, -⟩ := hh n hl
              rw [e0, i1 n h2, i2]; rfl
            · rw [erase_bn, i3]
      · simp only [if_neg hc2]
        have nr := chop_ok hR hn
        refine ⟨_, _, _, q, a.1, fun n hl => ?_, by rw [ptr_bn], ?_, nr, fun _ => ⟨rfl, rfl⟩⟩
        · obtain ⟨n, rfl, -, -⟩ := hh n hl
          simp only [trimIdxRec, if_neg hc, if_neg hc2]
        · rw [erase_bn]; rfl

/-- The part of `TrimByIndex` after `getRoot`, without the last assignments: the memory, and the root of
the range unless the call panics. -/
def trimRun (low high : Int) (n1 n2 : Nat) (m : Mem K V) (b : Nat) (idx : Int) : Mem K V × Option Nat :=
  match rangeLoop m low high n1 b idx with
  | none => (m, none)
  | some (rt, i) =>
    match trimIdxRec low false n2 m i rt with
    | none => (m, none)
    | some p =>
      match trimIdxRec high true n2 p.1 i rt with
      | none => (p.1, none)
      | some q => (q.1, some rt)

theorem trimByIndex_eq {n : Nat} {m : Mem K V} {low high : Int} {b : Nat} (h : (m root).lo = some b) :
    trimByIndex root n m low high =
      match trimRun low high n n m b (getSize m (m b).lo) with
      | (m, none) => (m, true)
      | (m, some rt) => (replant m root (some rt), false) := by
  simp only [trimByIndex, h, rangeFind, Option.bind_some, trimRun]
  cases rangeLoop m low high n b (getSize m (m b).lo) with
  | none => rfl
  | some p =>
    obtain ⟨rt, i⟩ := p
    simp only
    cases trimIdxRec low false n m i rt with
    | none => rfl
    | some q =>
      simp only
      cases trimIdxRec high true n q.1 i rt <;> rfl

/-- tree.go:732-815. -/
theorem trimRun_ok {m : Mem K V} {low high : Int} (hlh : low ≤ high) : ∀ (t : P K V) (p b : Nat) (idx : Int),
    Rep m p t → (addrs t).Nodup → ptr t = some b →
    match trimIdx low high (erase t) idx with
    | .untouched => ∀ n1 n2, t.height ≤ n1 → (addrs t).length ≤ n2 →
      trimRun low high n1 n2 m b idx = (m, none)
    | .broken z => ∃ m' t' gone, erase t' = z ∧ Near gone m m' p t t' ∧ ptr t' = ptr t ∧
      ∀ n1 n2, t.height ≤ n1 → (addrs t).length ≤ n2 → trimRun low high n1 n2 m b idx = (m', none)
    | .ok z => ∃ m' s gone q x, erase s = z ∧ Near gone m m' q t s ∧ ptr s = some x ∧
      ∀ n1 n2, t.height ≤ n1 → (addrs t).length ≤ n2 → trimRun low high n1 n2 m b idx = (m', some x)
  | nil, p, b, idx, _, _, hb => by cases hb
  | node a k v l r, p, b, idx, hR, hn, hb => by
    obtain rfl : b = a.1 := by simpa using hb.symm
    obtain ⟨⟨g, hg⟩, hl', hr'⟩ := id hR
    have hn' : (a.1 :: (addrs l ++ addrs r)).Nodup := hn
    have hh : ∀ n, (node a k v l r).height ≤ n → ∃ n', n = n' + 1 ∧ l.height ≤ n' ∧ r.height ≤ n' := by
      intro n hn
      simp only [Tree.height] at hn
      exact ⟨n - 1, by omega, by omega, by omega⟩
    have hlen : (addrs (node a k v l r)).length = (addrs l).length + (addrs r).length + 1 := by simp [addrs]
    have e0 : ∀ n, rangeLoop m low high (n + 1) a.1 idx =
        if idx > low ∧ idx > high then
          (ptr l).bind fun b => rangeLoop m low high n b (idx - (getSize m (m b).hi + 1))
        else if idx < high ∧ idx < low then
          (ptr r).bind fun b => rangeLoop m low high n b (idx + (getSize m (m b).lo + 1))
        else some (a.1, idx) := by
      intro n; simp only [rangeLoop, hg]
    simp only [erase, trimIdx]
    by_cases c1 : idx > low ∧ idx > high
    · simp only [if_pos c1] at e0 ⊢
      cases hp : ptr l with
      | none =>
        obtain rfl := ptr_none hp
        simp only [erase, trimIdx, Trimmed.under]
        intro n1 n2 h1 h2
        obtain ⟨n, rfl, -, -⟩ := hh n1 h1
        simp only [trimRun, e0, hp, Option.bind_none]
      | some b2 =>
        have ih := trimRun_ok hlh l a.1 b2 (idx - (rightSz (erase l) + 1)) hl' (by grind) hp
        have e1 : ∀ n n2, trimRun low high (n + 1) n2 m a.1 idx =
            trimRun low high n n2 m b2 (idx - (rightSz (erase l) + 1)) := by
          intro n n2
          simp only [trimRun, e0, hp, Option.bind_some, rightSz_ok hl' hp]
        match ht : trimIdx low high (erase l) (idx - (rightSz (erase l) + 1)), ih with
        | .untouched, ih =>
          intro n1 n2 h1 h2
          obtain ⟨n, rfl, h3, -⟩ := hh n1 h1
          rw [e1, ih n n2 h3 (by omega)]
        | .broken z, ⟨m', t', gone, i1, i2, i3, i4⟩ =>
          refine ⟨m', bn true a k v r t', gone, by rw [erase_bn, i1]; rfl,
            Near.kid (c := true) hR hn i2 i3, rfl, ?_⟩
          intro n1 n2 h1 h2
          obtain ⟨n, rfl, h3, -⟩ := hh n1 h1
          rw [e1, i4 n n2 h3 (by omega)]
        | .ok z, ⟨m', s, gone, q, x, i1, i2, i3, i4⟩ =>
          refine ⟨m', s, _, q, x, i1, i2.drop (c := true), i3, ?_⟩
          intro n1 n2 h1 h2
          obtain ⟨n, rfl, h3, -⟩ := hh n1 h1
          rw [e1, i4 n n2 h3 (by omega)]
    · simp only [if_neg c1] at e0 ⊢
      by_cases c2 : idx < high ∧ idx < low
      · simp only [if_pos c2] at e0 ⊢
        cases hp : ptr r with
        | none =>
          obtain rfl := ptr_none hp
          simp only [erase, trimIdx, Trimmed.under]
          intro n1 n2 h1 h2
          obtain ⟨n, rfl, -, -⟩ := hh n1 h1
          simp only [trimRun, e0, hp, Option.bind_none]
        | some b2 =>
          have ih := trimRun_ok hlh r a.1 b2 (idx + (leftSz (erase r) + 1)) hr' (by grind) hp
          have e1 : ∀ n n2, trimRun low high (n + 1) n2 m a.1 idx =
              trimRun low high n n2 m b2 (idx + (leftSz (erase r) + 1)) := by
            intro n n2
            simp only [trimRun, e0, hp, Option.bind_some, leftSz_ok hr' hp]
          match ht : trimIdx low high (erase r) (idx + (leftSz (erase r) + 1)), ih with
          | .untouched, ih =>
            intro n1 n2 h1 h2
            obtain ⟨n, rfl, -, h3⟩ := hh n1 h1
            rw [e1, ih n n2 h3 (by omega)]
          | .broken z, ⟨m', t', gone, i1, i2, i3, i4⟩ =>
            refine ⟨m', bn false a k v l t', gone, by rw [erase_bn, i1]; rfl,
              Near.kid (c := false) hR hn i2 i3, rfl, ?_⟩
            intro n1 n2 h1 h2
            obtain ⟨n, rfl, -, h3⟩ := hh n1 h1
            rw [e1, i4 n n2 h3 (by omega)]
          | .ok z, ⟨m', s, gone, q, x, i1, i2, i3, i4⟩ =>
            refine ⟨m', s, _, q, x, i1, i2.drop (c := false), i3, ?_⟩
            intro n1 n2 h1 h2
            obtain ⟨n, rfl, -, h3⟩ := hh n1 h1
            rw [e1, i4 n n2 h3 (by omega)]
      · simp only [if_neg c2] at e0 ⊢
        have b1 := height_le (node a k v l r)
        have d1 : ¬idx < low := by omega
        have d2 : ¬idx > high := by omega
        have t1 := trimIdxRec_ok (bound := low) (c := false) (node a k v l r) m p a.1 idx hR hn rfl
        have ev : vtrimIdx low false (erase (node a k v l r)) idx =
          trimIdxL low (node a.2 k v (erase l) (erase r)) idx := rfl
        match h1 : trimIdxL low (node a.2 k v (erase l) (erase r)) idx, ev ▸ t1 with
        | none, t1 =>
          intro n1 n2 h1 h2
          obtain ⟨n, rfl, -, -⟩ := hh n1 h1
          simp only [trimRun, e0, t1 n2 (by omega)]
        | some z1, t1 =>
          obtain ⟨m1, s1, g1, q1, x1, i1, i2, i3, i4, i5⟩ := t1
          obtain ⟨rfl, rfl⟩ := i5 d1
          have hn1 := i4.nodup hn
          have hl1 := i4.length
          have b2 := height_le s1
          have t2 := trimIdxRec_ok (bound := high) (c := true) s1 m1 q1 a.1 idx i4.rep hn1 i2
          have ev2 : vtrimIdx high true (erase s1) idx = trimIdxR high z1 idx := by rw [i3]; rfl
          match h2 : trimIdxR high z1 idx, ev2 ▸ t2 with
          | none, t2 =>
            simp only [h2]
            refine ⟨m1, s1, g1, i3, i4, i2, ?_⟩
            intro n1 n2 h1 h2
            obtain ⟨n, rfl, -, -⟩ := hh n1 h1
            simp only [trimRun, e0, i1 n2 (by omega), t2 n2 (by omega)]
          | some z2, t2 =>
            obtain ⟨m2, s2, g2, q2, x2, j1, j2, j3, j4, j5⟩ := t2
            obtain ⟨rfl, rfl⟩ := j5 d2
            simp only [h2]
            refine ⟨m2, s2, _, _, a.1, j3, i4.trans j4, j2, ?_⟩
            intro n1 n2 h1 h2
            obtain ⟨n, rfl, -, -⟩ := hh n1 h1
            simp only [trimRun, e0, i1 n2 (by omega), j1 n2 (by omega)]

end Verif.IndexHeap
