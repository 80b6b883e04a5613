import Verif.Tree.IndexHeapRemove

/-! The pointer program of `Verif.Tree.IndexHeap`: removal of ranges. -/

namespace Verif.IndexHeap
open Verif.AvlHeap (P ptr addrs erase ptr_nil ptr_node ptr_mem ptr_ne)
open Verif.Tree Verif.Size
variable {K V : Type} {cmp : K → K → Int} {root : Nat}

/-- Induction on the children in the direction `c` and in the other one. -/
@[elab_as_elim] theorem both_ind (c : Bool) {motive : P K V → Prop} (h0 : motive nil)
    (h1 : ∀ a k v u w, motive u → motive w → motive (bn c a k v u w)) (t : P K V) : motive t := by
  induction t with
  | nil => exact h0
  | node a k v l r ihl ihr => cases c; exacts [h1 a k v l r ihl ihr, h1 a k v r l ihr ihl]

/-- The cells of `t` changed, and those of them that are not in `gone` are the tree `t'`. Its root has
the parent `q`. -/
structure Near (gone : List Nat) (m m' : Mem K V) (q : Nat) (t t' : P K V) : Prop where
  rep : Rep m' q t'
  perm : (gone ++ addrs t').Perm (addrs t)
  frame : ∀ x, x ∉ addrs t → m' x = m x

theorem Near.refl {m : Mem K V} {q : Nat} {t : P K V} (h : Rep m q t) : Near [] m m q t t :=
  ⟨h, .refl _, fun _ _ => rfl⟩

theorem Near.sub {gone : List Nat} {m m' : Mem K V} {q : Nat} {t t' : P K V} (h : Near gone m m' q t t')
    {x : Nat} (hx : x ∈ addrs t') : x ∈ addrs t := h.perm.mem_iff.1 (List.mem_append_right _ hx)

theorem Near.nodup {gone : List Nat} {m m' : Mem K V} {q : Nat} {t t' : P K V}
    (h : Near gone m m' q t t') (hn : (addrs t).Nodup) : (addrs t').Nodup :=
  (List.nodup_append.1 (h.perm.nodup_iff.2 hn)).2.1

theorem Near.length {gone : List Nat} {m m' : Mem K V} {q : Nat} {t t' : P K V}
    (h : Near gone m m' q t t') : (addrs t').length ≤ (addrs t).length := by
  have := h.perm.length_eq
  simp only [List.length_append] at this
  omega

/-- What remains of a child is what remains of the tree. -/
theorem Near.drop {gone : List Nat} {m m' : Mem K V} {q : Nat} {a : Nat × Int} {k : K} {v : V} {c : Bool}
    {u w w' : P K V} (h : Near gone m m' q w w') :
    Near (a.1 :: (addrs u ++ gone)) m m' q (bn c a k v u w) w' := by
  have hp : (addrs (bn c a k v u w)).Perm (a.1 :: (addrs u ++ addrs w)) := addrs_bn
  refine ⟨h.rep, ?_, fun x hx => h.frame x fun h => hx (hp.mem_iff.2 (by simp [h]))⟩
  refine List.Perm.trans ?_ hp.symm
  simpa using h.perm.append_left (addrs u)

theorem sumSize_ne {m : Mem K V} {a x : Nat} (h : x ≠ a) : sumSize m a x = m x := by
  simp only [sumSize, setSize]; rw [upd_ne _ h]

/-- `a.Size = getChildrenSumSize(a) + 1`. -/
theorem sum_rep {m : Mem K V} {q : Nat} {a : Nat × Int} {k : K} {v : V} {c : Bool} {u w : P K V}
    (hR : Rep m q (bn c a k v u w)) (hn : (addrs (bn c a k v u w)).Nodup) :
    Rep (sumSize m a.1) q (bn c (a.1, sz (erase u) + sz (erase w) + 1) k v u w) := by
  have hn' : (a.1 :: (addrs u ++ addrs w)).Nodup := (addrs_bn (c := c)).nodup_iff.1 hn
  obtain ⟨⟨g, hg⟩, hu, hw⟩ := rep_bn.1 hR
  have e : sumSize m a.1 = upd m a.1 fun x => { x with size := sz (erase u) + sz (erase w) + 1 } := by
    refine sumSize_eq m a.1 c ?_
    have h1 : (m a.1).kid c = ptr u := by rw [hg]; cases c <;> rfl
    have h2 : (m a.1).kid (!c) = ptr w := by rw [hg]; cases c <;> rfl
    rw [h1, h2, getSize_ptr hu, getSize_ptr hw]
  refine rep_bn.2 ⟨⟨g, ?_⟩, hu.congr fun x hx => sumSize_ne (by grind),
    hw.congr fun x hx => sumSize_ne (by grind)⟩
  rw [e, upd_self, hg]
  cases c <;> rfl

/-- A child takes the place of another one. -/
theorem adopt_rep {m1 : Mem K V} {q q1 : Nat} {a : Nat × Int} {k : K} {v : V} {c : Bool} {u1 w : P K V}
    {s b : Int} {o : Option Nat}
    (ha : m1 a.1 = (Cell.setKid ⟨k, v, s, b, some q, ptr w, ptr w⟩ c o)) (hu : Rep m1 q1 u1)
    (hw : Rep m1 a.1 w) (hn : (a.1 :: (addrs u1 ++ addrs w)).Nodup) :
    Rep (adopt m1 a.1 c (ptr u1)) q (bn c (a.1, s) k v u1 w) := by
  have h1 : a.1 ∉ addrs u1 := by grind
  refine rep_bn.2 ⟨⟨b, ?_⟩, hu.reparent (by grind) ?_ ?_, hw.congr ?_⟩
  · rw [adopt_self (ptr_ne h1), ha]; cases c <;> rfl
  · intro z hz hzw; exact adopt_other hzw (by rintro rfl; exact h1 hz)
  · intro z hz; exact adopt_kid hz (by rintro rfl; exact h1 (ptr_mem hz))
  · intro x hx; exact adopt_other (ptr_ne (by grind)) (by grind)

/-- A kept node of the cuts. -/
theorem hook_ok {m m1 : Mem K V} {q q1 : Nat} {a : Nat × Int} {k : K} {v : V} {c : Bool} {u u1 w : P K V}
    {gone : List Nat} (hR : Rep m q (bn c a k v u w)) (hn : (addrs (bn c a k v u w)).Nodup)
    (h : Near gone m m1 q1 u u1) :
    Near gone m (hook m1 a.1 c (ptr u1)) q (bn c a k v u w)
      (bn c (a.1, sz (erase u1) + sz (erase w) + 1) k v u1 w) := by
  have hn' : (a.1 :: (addrs u ++ addrs w)).Nodup := (addrs_bn (c := c)).nodup_iff.1 hn
  obtain ⟨⟨g, hg⟩, hu, hw⟩ := rep_bn.1 hR
  have hs : ∀ x ∈ addrs u1, x ∈ addrs u := fun x hx => h.sub hx
  have hnu := h.nodup (by grind)
  have hn1 : (a.1 :: (addrs u1 ++ addrs w)).Nodup := by
    refine List.nodup_cons.2 ⟨by grind, List.nodup_append.2 ⟨hnu, by grind, by grind⟩⟩
  have r1 := adopt_rep (c := c) (a := a) (k := k) (v := v) (q := q) (s := a.2) (b := g) (o := ptr u)
    (by rw [h.frame a.1 (by grind), hg]; cases c <;> rfl) h.rep (hw.congr fun x hx => h.frame x (by grind)) hn1
  have r2 := sum_rep r1 ((addrs_bn (c := c)).nodup_iff.2 hn1)
  refine ⟨r2, ?_, fun x hx => ?_⟩
  · refine ((addrs_bn (c := c)).append_left gone).trans (List.Perm.trans ?_ (addrs_bn (c := c)).symm)
    refine List.perm_middle.trans ?_
    have := (h.perm.append_right (addrs w)).cons a.1
    simpa using this
  · have hx' : x ∉ a.1 :: (addrs u ++ addrs w) := fun h => hx ((addrs_bn (c := c)).mem_iff.2 h)
    have : hook m1 a.1 c (ptr u1) = sumSize (adopt m1 a.1 c (ptr u1)) a.1 := rfl
    rw [this, sumSize_ne (by grind), adopt_other (ptr_ne (by grind)) (by grind), h.frame x (by grind)]

/-! ### The cuts -/

/-- `cutL` (`c = true`) and `cutR` of the model with subtrees. -/
def vcut (cmp : K → K → Int) (bound : K) (c : Bool) (t : T K V) : T K V :=
  if c then cutL cmp bound t else cutR cmp bound t

theorem vcut_bn {bound : K} {c : Bool} {a : Int} {k : K} {v : V} {u w : T K V} :
    vcut cmp bound c (bn c a k v u w) =
      if (if c then cmp bound k > 0 else cmp bound k < 0) then
        bn c (sz (vcut cmp bound c u) + sz w + 1) k v (vcut cmp bound c u) w
      else vcut cmp bound c w := by
  cases c
  · simp only [vcut, bn, cutR, mk, Bool.false_eq_true, if_false]
  · simp only [vcut, bn, cutL, mk, if_true]
    split
    · rw [Int.add_comm (sz w)]
    · rfl

/-- tree.go:460-476, 483-499. -/
theorem cut_ok {bound : K} {c : Bool} (t : P K V) : ∀ (m : Mem K V) (q : Nat), Rep m q t →
    (addrs t).Nodup → ∃ m' t' gone q',
      (∀ n, t.height < n → cut cmp bound c n m (ptr t) = some (m', ptr t')) ∧
      erase t' = vcut cmp bound c (erase t) ∧ Near gone m m' q' t t' := by
  induction t using both_ind c with
  | h0 =>
    intro m q _ _
    refine ⟨m, nil, [], q, fun n hl => ?_, by cases c <;> rfl, Near.refl trivial⟩
    obtain ⟨n, rfl⟩ : ∃ n', n = n' + 1 := ⟨n - 1, by omega⟩
    rfl
  | h1 a k v u w ihu ihw =>
    intro m q hR hn
    have hn' : (a.1 :: (addrs u ++ addrs w)).Nodup := (addrs_bn (c := c)).nodup_iff.1 hn
    obtain ⟨⟨g, hg⟩, hu, hw⟩ := rep_bn.1 hR
    have k1 : (m a.1).kid c = ptr u := by rw [hg]; cases c <;> rfl
    have k2 : (m a.1).kid (!c) = ptr w := by rw [hg]; cases c <;> rfl
    have k3 : (m a.1).key = k := by rw [hg]; cases c <;> rfl
    rw [erase_bn, vcut_bn]
    by_cases hc : (if c then cmp bound k > 0 else cmp bound k < 0)
    · simp only [if_pos hc]
      obtain ⟨m1, u1, gone, q1, h1, h2, h3⟩ := ihu m a.1 hu (by grind)
      refine ⟨_, _, gone, q, fun n hl => ?_, ?_, hook_ok hR hn h3⟩
      · rw [height_bn] at hl
        obtain ⟨n, rfl⟩ : ∃ n', n = n' + 1 := ⟨n - 1, by omega⟩
        simp only [ptr_bn, cut, k1, k3, if_pos hc, h1 n (by omega), Option.map_some]
      · rw [erase_bn, h2]
    · simp only [if_neg hc]
      obtain ⟨m1, w1, gone, q1, h1, h2, h3⟩ := ihw m a.1 hw (by grind)
      refine ⟨m1, w1, _, q1, fun n hl => ?_, h2, h3.drop⟩
      rw [height_bn] at hl
      obtain ⟨n, rfl⟩ : ∃ n', n = n' + 1 := ⟨n - 1, by omega⟩
      simp only [ptr_bn, cut, k2, k3, if_neg hc, h1 n (by omega)]

/-- The rank of a child of a node of rank `idx`. -/
def below (idx : Int) (dir : Bool) (t : T K V) : Int :=
  if dir then idx + (leftSz t + 1) else idx - (rightSz t + 1)

/-- `cutIdxL` (`c = true`) and `cutIdxR` of the model with subtrees. -/
def vcutIdx (bound : Int) (c : Bool) (t : T K V) (idx : Int) : T K V :=
  if c then cutIdxL bound t idx else cutIdxR bound t idx

theorem vcutIdx_bn {bound : Int} {c : Bool} {a idx : Int} {k : K} {v : V} {u w : T K V} :
    vcutIdx bound c (bn c a k v u w) idx =
      if (if c then idx < bound else idx > bound) then
        bn c (sz (vcutIdx bound c u (below idx c u)) + sz w + 1) k v (vcutIdx bound c u (below idx c u)) w
      else if (if c then idx > bound else idx < bound) then vcutIdx bound c w (below idx (!c) w)
      else w := by
  cases c
  · simp [vcutIdx, bn, cutIdxR, mk, below]
  · simp only [vcutIdx, bn, cutIdxL, mk, if_true, below]
    split
    · rw [Int.add_comm (sz w)]
    · simp

theorem below_ok {m : Mem K V} {p b : Nat} {idx : Int} {dir : Bool} {t : P K V} (h : Rep m p t)
    (hb : ptr t = some b) :
    (if dir then idx + (getSize m (m b).lo + 1) else idx - (getSize m (m b).hi + 1)) =
      below idx dir (erase t) := by
  rw [leftSz_ok h hb, rightSz_ok h hb]; rfl

/-- tree.go:560-584, 591-615. -/
theorem cutIdx_ok {bound : Int} {c : Bool} (t : P K V) : ∀ (m : Mem K V) (q : Nat) (idx : Int)
    (dir : Bool), Rep m q t → (addrs t).Nodup → ∃ m' t' gone q',
      (∀ n, t.height < n → cutIdx bound c n m idx dir (ptr t) = some (m', ptr t')) ∧
      erase t' = vcutIdx bound c (erase t) (below idx dir (erase t)) ∧ Near gone m m' q' t t' := by
  induction t using both_ind c with
  | h0 =>
    intro m q idx dir _ _
    refine ⟨m, nil, [], q, fun n hl => ?_, by cases c <;> rfl, Near.refl trivial⟩
    obtain ⟨n, rfl⟩ : ∃ n', n = n' + 1 := ⟨n - 1, by omega⟩
    rfl
  | h1 a k v u w ihu ihw =>
    intro m q idx dir hR hn
    have hn' : (a.1 :: (addrs u ++ addrs w)).Nodup := (addrs_bn (c := c)).nodup_iff.1 hn
    have hbe := below_ok (idx := idx) (dir := dir) hR ptr_bn
    obtain ⟨⟨g, hg⟩, hu, hw⟩ := rep_bn.1 hR
    have k1 : (m a.1).kid c = ptr u := by rw [hg]; cases c <;> rfl
    have k2 : (m a.1).kid (!c) = ptr w := by rw [hg]; cases c <;> rfl
    generalize below idx dir (erase (bn c a k v u w)) = i at hbe ⊢
    rw [erase_bn, vcutIdx_bn]
    by_cases hc : (if c then i < bound else i > bound)
    · simp only [if_pos hc]
      obtain ⟨m1, u1, gone, q1, h1, h2, h3⟩ := ihu m a.1 i c hu (by grind)
      refine ⟨_, _, gone, q, fun n hl => ?_, ?_, hook_ok hR hn h3⟩
      · rw [height_bn] at hl
        obtain ⟨n, rfl⟩ : ∃ n', n = n' + 1 := ⟨n - 1, by omega⟩
        simp only [ptr_bn, cutIdx, hbe, k1, if_pos hc, h1 n (by omega), Option.map_some]
      · rw [erase_bn, h2]
    · simp only [if_neg hc]
      by_cases hc2 : (if c then i > bound else i < bound)
      · simp only [if_pos hc2]
        obtain ⟨m1, w1, gone, q1, h1, h2, h3⟩ := ihw m a.1 i (!c) hw (by grind)
        refine ⟨m1, w1, _, q1, fun n hl => ?_, h2, h3.drop⟩
        rw [height_bn] at hl
        obtain ⟨n, rfl⟩ : ∃ n', n = n' + 1 := ⟨n - 1, by omega⟩
        simp only [ptr_bn, cutIdx, hbe, k2, if_neg hc, if_pos hc2, h1 n (by omega)]
      · simp only [if_neg hc2]
        refine ⟨m, w, _, a.1, fun n hl => ?_, rfl, (Near.refl hw).drop⟩
        rw [height_bn] at hl
        obtain ⟨n, rfl⟩ : ∃ n', n = n' + 1 := ⟨n - 1, by omega⟩
        simp only [ptr_bn, cutIdx, hbe, k2, if_neg hc, if_neg hc2]

/-! ### `mergeGroups` -/

/-- `x` hung below the last node in the direction `c`. -/
def attach (c : Bool) (x : P K V) : P K V → P K V
  | nil => nil
  | node a k v l r =>
    if c then (match r with | nil => node a k v l x | node .. => node a k v l (attach c x r))
    else (match l with | nil => node a k v x r | node .. => node a k v (attach c x l) r)

theorem attach_nil {c : Bool} {a : Nat × Int} {k : K} {v : V} {x w : P K V} :
    attach c x (bn c a k v nil w) = bn c a k v x w := by cases c <;> rfl

theorem attach_node {c : Bool} {a : Nat × Int} {k : K} {v : V} {x u w : P K V} (h : u.isNil = false) :
    attach c x (bn c a k v u w) = bn c a k v (attach c x u) w := by
  cases u with
  | nil => cases h
  | node => cases c <;> rfl

theorem addrs_attach {c : Bool} {x : P K V} (t : P K V) : t.isNil = false →
    (addrs (attach c x t)).Perm (addrs x ++ addrs t) := by
  induction t using spine_ind c with
  | h0 => intro h; cases h
  | h1 a k v u w ih =>
    intro _
    by_cases hu : u.isNil = true
    · obtain rfl : u = nil := by cases u; rfl; cases hu
      rw [attach_nil]
      refine addrs_bn.trans (List.Perm.trans ?_ (addrs_bn.append_left _).symm)
      exact List.perm_middle.symm
    · rw [Bool.not_eq_true] at hu
      rw [attach_node hu]
      refine addrs_bn.trans (List.Perm.trans ?_ (addrs_bn.append_left _).symm)
      refine List.Perm.trans ?_ List.perm_middle.symm
      rw [← List.append_assoc]
      exact ((ih hu).append_right _).cons _

theorem ptr_attach {c : Bool} {x t : P K V} : ptr (attach c x t) = ptr t := by
  cases t with
  | nil => rfl
  | node a k v l r =>
    cases c
    · cases l <;> rfl
    · cases r <;> rfl

theorem attach_ok {m : Mem K V} {c : Bool} {x : P K V} {q2 : Nat} (hx : Rep m q2 x) (t : P K V) :
    ∀ q, Rep m q t → (addrs x ++ addrs t).Nodup → t.isNil = false →
      Rep (adopt m (last c t) c (ptr x)) q (attach c x t) := by
  induction t using spine_ind c with
  | h0 => intro q _ _ h; cases h
  | h1 a k v u w ih =>
    intro q hR hn _
    have hn' : (addrs x ++ (a.1 :: (addrs u ++ addrs w))).Nodup :=
      (addrs_bn.append_left _).nodup_iff.1 hn
    obtain ⟨⟨g, hg⟩, hu, hw⟩ := rep_bn.1 hR
    by_cases hun : u.isNil = true
    · obtain rfl : u = nil := by cases u; rfl; cases hun
      rw [attach_nil, last_nil]
      exact adopt_rep (a := a) (s := a.2) (b := g) (o := none) (by rw [hg]; cases c <;> rfl) hx hw (by grind)
    · rw [Bool.not_eq_true] at hun
      rw [attach_node hun, last_node hun]
      have hz := last_mem (c := c) hun
      refine rep_bn.2 ⟨⟨g, ?_⟩, ih a.1 hu (by grind) hun, hw.congr ?_⟩
      · rw [adopt_other (ptr_ne (by grind)) (by grind), hg, ptr_attach]
      · intro y hy
        exact adopt_other (ptr_ne (by grind)) (by grind)

/-- utils.go:257-287. -/
theorem fixRange_ok {m : Mem K V} {p a : Nat} {d : Bool} {t : P K V} {u : T K V} (hR : Rep m p t)
    (hn : (p :: addrs t).Nodup) (hh : Hole [] m p d t) (ha : ptr t = some a)
    (h : fixRange (erase t) = some u) :
    ∃ m' t', fixRemoveRange m a = some m' ∧ erase t' = u ∧ Good [] [] m m' p d t t' := by
  match t with
  | nil => cases ha
  | node (a', s) k v l r =>
    obtain rfl : a = a' := by simpa using ha.symm
    obtain ⟨⟨g, hg⟩, hl, hr⟩ := hR
    have hR : Rep m p (node (a, s) k v l r) := ⟨⟨g, hg⟩, hl, hr⟩
    have i1 : (m a).size = s := by rw [hg]
    have i2 : getSize m (m a).lo = sz (erase l) := by rw [hg]; exact getSize_ptr hl
    have i3 : getSize m (m a).hi = sz (erase r) := by rw [hg]; exact getSize_ptr hr
    simp only [fixRemoveRange, i1, i2, i3]
    simp only [erase, fixRange] at h
    split at h
    · rename_i c1
      cases h
      exact ⟨m, node (a, s) k v l r, by rw [if_pos c1], rfl, Good.refl hR hh.1⟩
    · rename_i c1
      simp only [if_neg c1]
      split at h
      · rename_i c2
        simp only [if_pos c2]
        exact sizeRotate_ok (c := false) hR hn hh rfl h
      · rename_i c2
        simp only [if_neg c2]
        split at h
        · rename_i c3
          simp only [if_pos c3]
          exact sizeRotate_ok (c := true) hR hn hh rfl h
        · rename_i c3
          cases h
          exact ⟨m, node (a, s) k v l r, by rw [if_neg c3], rfl, Good.refl hR hh.1⟩

/-- One round of utils.go:242-247. -/
theorem mergeStep_ok {m : Mem K V} {p x : Nat} {d c : Bool} {a : Nat × Int} {k : K} {v : V} {u w : P K V}
    {cs : Int} {z : T K V} (hR : Rep m p (bn c a k v u w)) (hn : (p :: addrs (bn c a k v u w)).Nodup)
    (hh : Hole [] m p d (bn c a k v u w)) (hx : a.1 ≠ x)
    (h : fixRange (bn c (a.2 + cs) k v (erase u) (erase w)) = some z) :
    ∃ m' t', erase t' = z ∧ Good [] [] m m' p d (bn c a k v u w) t' ∧
      ∀ n, mergeLoop x cs (n + 1) m a.1 = mergeLoop x cs n m' p := by
  have hg0 := rep_bn.1 hR
  obtain ⟨⟨g, hg⟩, hu, hw⟩ := hg0
  have g1 : Good [] [] m (setSize m a.1 ((m a.1).size + cs)) p d (bn c a k v u w)
      (bn c (a.1, a.2 + cs) k v u w) := by
    cases c
    · exact tweak (b' := g) hR hn hh.1 (by simp [hg, Cell.setKid])
    · exact tweak (b' := g) hR hn hh.1 (by simp [hg, Cell.setKid])
  have hn1 := g1.nodup hn
  obtain ⟨m2, t2, j1, j2, j3⟩ := fixRange_ok g1.rep (by simpa using hn1) (g1.hole hh) ptr_bn
    (by rw [erase_bn]; exact h)
  refine ⟨m2, t2, j2, g1.trans j3, fun n => ?_⟩
  obtain ⟨⟨g2, hg2⟩, -⟩ := rep_bn.1 g1.rep
  have hp : ((setSize m a.1 ((m a.1).size + cs)) a.1).parent = some p := by
    rw [hg2]; cases c <;> rfl
  simp only [mergeLoop, if_neg hx, hp, Option.bind_some]
  rw [j1]; rfl

/-- `hangR` (`c = true`) and `hangL` of the model with subtrees. -/
def vhang (c : Bool) (x : T K V) (cs : Int) (t : T K V) : Option (T K V) :=
  if c then hangR x cs t else hangL x cs t

theorem vhang_nil {c : Bool} {a cs : Int} {k : K} {v : V} {x w : T K V} :
    vhang c x cs (bn c a k v nil w) = if x.isNil then some (bn c a k v x w)
      else fixRange (bn c (a + cs) k v x w) := by cases c <;> rfl

theorem vhang_node {c : Bool} {a cs : Int} {k : K} {v : V} {x u w : T K V} (h : u.isNil = false) :
    vhang c x cs (bn c a k v u w) = (vhang c x cs u).bind fun u' =>
      if x.isNil then some (bn c a k v u' w) else fixRange (bn c (a + cs) k v u' w) := by
  cases u with
  | nil => cases h
  | node => cases c <;> rfl

/-- utils.go:242-247. -/
theorem merge_ok {c : Bool} {x : P K V} {cs : Int} {rp : Nat} (hx : x.isNil = false) (t : P K V) :
    ∀ (m : Mem K V) (p : Nat) (d : Bool) (z : T K V), Rep m p (attach c x t) →
      (p :: addrs (attach c x t)).Nodup → Hole [] m p d (attach c x t) → rp ∉ addrs (attach c x t) →
      vhang c (erase x) cs (erase t) = some z →
      ∃ m' t' j, j ≤ t.height ∧ erase t' = z ∧ Good [] [] m m' p d (attach c x t) t' ∧
        ∀ n, mergeLoop rp cs (n + j) m (last c t) = mergeLoop rp cs n m' p := by
  have hxe : (erase x).isNil = false := by rw [isNil_erase]; exact hx
  induction t using spine_ind c with
  | h0 => intro m p d z _ _ _ _ h; cases c <;> cases h
  | h1 a k v u w ih =>
    intro m p d z hR hn hh hr h
    rw [erase_bn] at h
    by_cases hun : u.isNil = true
    · obtain rfl : u = nil := by cases u; rfl; cases hun
      rw [attach_nil] at hR hn hh hr ⊢
      rw [last_nil]
      rw [show erase (nil : P K V) = nil from rfl, vhang_nil, hxe] at h
      obtain ⟨m', t', j1, j2, j3⟩ := mergeStep_ok (x := rp) hR hn hh
        (by rintro rfl; exact hr ((addrs_bn (c := c)).mem_iff.2 (by simp))) h
      exact ⟨m', t', 1, by rw [height_bn]; omega, j1, j2, j3⟩
    · rw [Bool.not_eq_true] at hun
      rw [attach_node hun] at hR hn hh hr ⊢
      rw [last_node hun]
      rw [vhang_node (by rw [isNil_erase]; exact hun), Option.bind_eq_some_iff] at h
      obtain ⟨y, h1, h2⟩ := h
      rw [hxe] at h2
      have hp : (addrs (bn c a k v (attach c x u) w)).Perm (a.1 :: (addrs (attach c x u) ++ addrs w)) :=
        addrs_bn
      have hn' : (p :: a.1 :: (addrs (attach c x u) ++ addrs w)).Nodup := (hp.cons p).nodup_iff.1 hn
      have hr' : rp ∉ a.1 :: (addrs (attach c x u) ++ addrs w) := fun h => hr (hp.mem_iff.2 h)
      obtain ⟨⟨g, hg⟩, hu, hw⟩ := rep_bn.1 hR
      obtain ⟨m1, t1, j, i1, i2, i3, i4⟩ := ih m a.1 c y hu (by grind)
        (Hole.kid hR (List.nodup_cons.1 hn).2) (by grind) h1
      have g1 := Good.kid hR (hh.1.trans ptr_bn) hn i3
      have hn1 := g1.nodup hn
      obtain ⟨m2, t2, j1, j2, j3⟩ := mergeStep_ok (x := rp) g1.rep (by simpa using hn1) (g1.hole hh)
        (by grind) (z := z) (by rw [i2]; exact h2)
      refine ⟨m2, t2, j + 1, by rw [height_bn]; omega, j1, g1.trans j2, fun n => ?_⟩
      rw [← j3, ← i4]
      congr 1; omega

theorem vhang_none {c : Bool} {cs : Int} (t : P K V) : ∀ {z : T K V},
    vhang c nil cs (erase t) = some z → z = erase t := by
  induction t using spine_ind c with
  | h0 => intro z h; cases c <;> cases h
  | h1 a k v u w ih =>
    intro z h
    rw [erase_bn] at h ⊢
    by_cases hun : u.isNil = true
    · obtain rfl : u = nil := by cases u; rfl; cases hun
      rw [show erase (nil : P K V) = nil from rfl, vhang_nil] at h
      cases h; rfl
    · rw [Bool.not_eq_true] at hun
      rw [vhang_node (by rw [isNil_erase]; exact hun), Option.bind_eq_some_iff] at h
      obtain ⟨y, h1, h2⟩ := h
      cases h2
      rw [ih h1]

theorem attach_none {c : Bool} (t : P K V) : attach c nil t = t := by
  induction t using spine_ind c with
  | h0 => rfl
  | h1 a k v u w ih =>
    by_cases hun : u.isNil = true
    · obtain rfl : u = nil := by cases u; rfl; cases hun
      rw [attach_nil]
    · rw [Bool.not_eq_true] at hun
      rw [attach_node hun, ih]

/-- What is left when the part `t` of the memory was changed before. -/
theorem Good.before {gone : List Nat} {m0 m m' : Mem K V} {p : Nat} {d : Bool} {t t' : P K V}
    (h : Good [] gone m m' p d t t') (hf : ∀ x, x ∉ addrs t → m x = m0 x) (hp : p ∉ addrs t) :
    Good [] gone m0 m' p d t t' :=
  ⟨h.rep, by rw [h.par, hf p hp], h.perm, fun x hx hxp => by rw [h.frame x hx hxp, hf x hx]⟩

theorem adopt_adopt {m : Mem K V} {p : Nat} {d : Bool} {a : Nat} :
    setParent (link m p d (some a)) a p = adopt m p d (some a) := rfl

/-- utils.go:225-255: the node `a`, the root of `t`, is replaced by `g` with `x` below it. -/
theorem mergeGroups_ok {m0 m : Mem K V} {p q1 q2 a : Nat} {d c : Bool} {t g x : P K V} {cs : Int}
    {gone : List Nat} {z : T K V} (hn : (p :: addrs t).Nodup) (hh : Hole [] m0 p d t)
    (ha : ptr t = some a) (hf : ∀ y, y ∉ addrs t → m y = m0 y) (hpa : (m a).parent = some p)
    (hag : a ∈ gone) (hg : Rep m q1 g) (hx : Rep m q2 x) (hp : (gone ++ (addrs x ++ addrs g)).Perm (addrs t))
    (h : vhang c (erase x) cs (erase g) = some z) :
    ∃ m' t', erase t' = z ∧ Good [] gone m0 m' p d t t' ∧
      ∀ n, (addrs t).length ≤ n →
        mergeGroups root n m a (ptr g) (ptr x) cs c = sumLoop root n m' p := by
  have hpt : p ∉ addrs t := (List.nodup_cons.1 hn).1
  have hnd : (gone ++ (addrs x ++ addrs g)).Nodup := hp.nodup_iff.2 (List.nodup_cons.1 hn).2
  have hsub : ∀ y ∈ gone ++ (addrs x ++ addrs g), y ∈ addrs t := fun y hy => hp.mem_iff.1 hy
  have hgn : g.isNil = false := by
    cases g with
    | nil => cases c <;> cases h
    | node => rfl
  obtain ⟨b, hb⟩ := ptr_isNil hgn
  have hl := last_mem (c := c) hgn
  -- the child group below the group
  have r1 := attach_ok (c := c) hx g q1 hg (by grind) hgn
  have hp1 : (gone ++ addrs (attach c x g)).Perm (addrs t) :=
    ((addrs_attach g hgn).append_left gone).trans hp
  have f1 : ∀ y, y ∉ addrs x ++ addrs g → adopt m (last c g) c (ptr x) y = m y := fun y hy =>
    adopt_other (ptr_ne (by grind)) (by grind)
  generalize hm1 : adopt m (last c g) c (ptr x) = m1 at r1 f1
  have hp' : m1 p = m0 p := by rw [f1 p (by grind), hf p hpt]
  have hrel : getRelationship m1 a = some d := by
    have e : (m1 a).parent = some p := by rw [f1 a (by grind), hpa]
    have e2 : ((m1 p).hi = some a) = (d = true) := by
      rw [hp']
      have h1 := hh.1
      have h2 := hh.2 a (ptr_mem ha)
      rw [ha] at h1
      cases d <;> simp_all [Cell.kid]
    simp only [getRelationship, e, Option.map_some, e2, Bool.decide_eq_true]
  have g2 := (adopt_good (p := p) (d := d) r1 hn hp1).before (m0 := m0)
    (fun y hy => by rw [f1 y (by grind), hf y hy]) hpt
  rw [ptr_attach, hb] at g2
  have hlen : (addrs g).length < (addrs t).length := by
    have := hp.length_eq
    simp only [List.length_append] at this
    have : 0 < gone.length := List.length_pos_of_mem hag
    omega
  have hhe := height_le g
  -- the program up to here
  have prog : ∀ n, (addrs t).length ≤ n → mergeGroups root n m a (ptr g) (ptr x) cs c =
      ((match ptr x with
        | none => some (adopt m1 p d (some b))
        | some x => ((adopt m1 p d (some b)) x).parent.bind fun parent =>
          mergeLoop p cs n (adopt m1 p d (some b)) parent).bind fun m => sumLoop root n m p) := by
    intro n hle
    have hfar := far_ok (c := c) g q1 b n hg hb (by omega)
    have hm1' : setParent? (link m (last c g) c (ptr x)) (ptr x) (last c g) = m1 := hm1
    simp only [mergeGroups, hpa, hb, Option.bind_some, hfar, hm1', hrel, adopt_adopt]
    rfl
  by_cases hxn : x.isNil = true
  · obtain rfl : x = nil := by cases x; rfl; cases hxn
    have hz := vhang_none g (by simpa [erase] using h)
    rw [attach_none] at g2
    refine ⟨_, g, hz.symm, g2, fun n hle => ?_⟩
    rw [prog n hle]
    rfl
  · rw [Bool.not_eq_true] at hxn
    obtain ⟨x1, hx1⟩ := ptr_isNil hxn
    have hna : (p :: (gone ++ addrs (attach c x g))).Nodup := g2.nodup hn
    obtain ⟨m3, t3, j, i1, i2, i3, i4⟩ := merge_ok (cs := cs) (rp := p) hxn g _ p d z g2.rep (by grind)
      (g2.hole hh).mono (by grind) h
    have g3 := g2.trans i3
    rw [List.append_nil] at g3
    refine ⟨m3, t3, i2, g3, fun n hle => ?_⟩
    rw [prog n hle, hx1]
    have hx2 := ptr_mem hx1
    have hpar : (adopt m1 p d (some b) x1).parent = some (last c g) := by
      have : adopt m1 p d (some b) x1 = m1 x1 := by
        refine adopt_other ?_ (by grind)
        have := ptr_mem hb
        rintro ⟨⟩; grind
      rw [this, ← hm1, adopt_kid hx1 (by grind)]
    simp only [hpar, Option.bind_some]
    obtain ⟨n', rfl⟩ : ∃ n', n = n' + 1 + j := ⟨n - 1 - j, by omega⟩
    rw [i4 (n' + 1)]
    simp only [mergeLoop, if_pos, Option.bind_some]

/-! ### The walk to the root -/

/-- What the walk to the root does: tree.go:510-513, utils.go:250-254. -/
def ancLoop (root : Nat) : Anc → Nat → Mem K V → Nat → Option (Mem K V)
  | .keep => fun _ m _ => some m
  | .sub n => subLoop root n
  | .sum => sumLoop root

/-- `Anc.fix` with the children by side. -/
def vfix (anc : Anc) (c : Bool) (a : Int) (k : K) (v : V) (u w : T K V) : T K V :=
  if c then anc.fix a k v w u else anc.fix a k v u w

theorem ancLoop_step {anc : Anc} {p : Nat} {d c : Bool} {a : Nat × Int} {k : K} {v : V} {w : P K V}
    {y : T K V} (hr : a.1 ≠ root) (hk : anc ≠ .keep) :
    ∀ m1 u1, erase u1 = y → Rep m1 p (bn c a k v u1 w) → (p :: addrs (bn c a k v u1 w)).Nodup →
      Hole [] m1 p d (bn c a k v u1 w) → ∃ m2 t2, erase t2 = vfix anc c a.2 k v y (erase w) ∧
        Good [] [] m1 m2 p d (bn c a k v u1 w) t2 ∧
        ∀ n, ancLoop root anc (n + 1) m1 a.1 = ancLoop root anc n m2 p := by
  intro m1 u1 h1 hR hn hh
  obtain ⟨⟨g, hg⟩, hu, hw⟩ := rep_bn.1 hR
  cases anc with
  | keep => exact absurd rfl hk
  | sub s =>
    refine ⟨setSize m1 a.1 ((m1 a.1).size - s), bn c (a.1, a.2 - s) k v u1 w, ?_, ?_, fun n => ?_⟩
    · rw [erase_bn, h1]; cases c <;> rfl
    · cases c
      · exact tweak (b' := g) hR hn hh.1 (by simp [hg, Cell.setKid])
      · exact tweak (b' := g) hR hn hh.1 (by simp [hg, Cell.setKid])
    · simp only [ancLoop, subLoop, if_neg hr]
      have : ((setSize m1 a.1 ((m1 a.1).size - s)) a.1).parent = some p := by
        simp only [setSize, upd_self, hg]; cases c <;> rfl
      rw [this]; rfl
  | sum =>
    have r := sum_rep hR (List.nodup_cons.1 hn).2
    have hp : (addrs (bn c a k v u1 w)).Perm (a.1 :: (addrs u1 ++ addrs w)) := addrs_bn
    have ha : a.1 ∈ addrs (bn c a k v u1 w) := hp.mem_iff.2 (by simp)
    have hpa : p ≠ a.1 := by rintro rfl; exact (List.nodup_cons.1 hn).1 ha
    refine ⟨sumSize m1 a.1, _, ?_, ⟨r, ?_, ?_, ?_⟩, fun n => ?_⟩
    · rw [erase_bn, h1]
      cases c
      · rfl
      · simp only [vfix, bn, Anc.fix, mk, if_true]; rw [Int.add_comm (sz y)]
    · rw [sumSize_ne hpa, ptr_bn]; exact (setKid_kid (hh.1.trans ptr_bn)).symm
    · exact (addrs_bn (c := c)).trans hp.symm
    · intro x hx _; exact sumSize_ne (by rintro rfl; exact hx ha)
    · simp only [ancLoop, sumLoop, if_neg hr]
      obtain ⟨⟨g2, hg2⟩, -⟩ := rep_bn.1 r
      have : ((sumSize m1 a.1) a.1).parent = some p := by rw [hg2]; cases c <;> rfl
      rw [this]; rfl

/-- tree.go:506-525, 622-640. -/
theorem joinGroups_ok {m0 m : Mem K V} {p q1 q2 : Nat} {d : Bool} {a : Nat × Int} {k : K} {v : V}
    {l r l' r' : P K V} {g1 g2 : List Nat} {z : T K V} {anc : Anc}
    (hR : Rep m0 p (node a k v l r)) (hn : (p :: addrs (node a k v l r)).Nodup)
    (hh : Hole [] m0 p d (node a k v l r)) (hf : ∀ y, y ∉ addrs l ++ addrs r → m y = m0 y)
    (h1 : Rep m q1 l') (h2 : Rep m q2 r') (p1 : (g1 ++ addrs l').Perm (addrs l))
    (p2 : (g2 ++ addrs r').Perm (addrs r)) (h : join a.2 (erase l') (erase r') = some (z, anc)) :
    anc ≠ .keep ∧ ∃ m' t' gone, erase t' = z ∧ Good [] gone m0 m' p d (node a k v l r) t' ∧
      ∀ n, (addrs (node a k v l r)).length ≤ n →
        joinGroups root n m a.1 (ptr l') (ptr r') = ancLoop root anc n m' p := by
  obtain ⟨⟨g, hg⟩, -, -⟩ := id hR
  have hn' : (p :: a.1 :: (addrs l ++ addrs r)).Nodup := hn
  have ha : m a.1 = m0 a.1 := hf a.1 (by grind)
  have hpa : (m a.1).parent = some p := by rw [ha, hg]
  have hf' : ∀ y, y ∉ addrs (node a k v l r) → m y = m0 y := fun y hy => hf y (by
    simp only [addrs] at hy; grind)
  have e1 : ((ptr l').isNone && (ptr r').isNone) = ((erase l').isNil && (erase r').isNil) := by
    cases l' <;> cases r' <;> rfl
  have pp : ((a.1 :: (g1 ++ g2)) ++ (addrs r' ++ addrs l')).Perm (addrs (node a k v l r)) := by
    simp only [addrs, List.cons_append]
    refine List.Perm.cons _ ?_
    have e2 : ((g1 ++ g2) ++ (addrs r' ++ addrs l')).Perm ((g1 ++ addrs l') ++ (g2 ++ addrs r')) := by
      rw [List.append_assoc, List.append_assoc]
      refine List.Perm.append_left g1 ?_
      rw [← List.append_assoc]
      exact List.perm_append_comm
    exact e2.trans (p1.append p2)
  simp only [join, ← e1] at h
  by_cases c1 : ((ptr l').isNone && (ptr r').isNone) = true
  · rw [if_pos c1] at h
    cases h
    refine ⟨by simp, adopt m p d none, nil, addrs (node a k v l r), rfl,
      (adopt_good (w := nil) (q := 0) trivial hn (by simp [addrs])).before hf' (List.nodup_cons.1 hn).1,
      fun n _ => ?_⟩
    have hpp : m p = m0 p := hf p (by grind)
    have hh' : Hole [] m p d (node a k v l r) := by
      refine ⟨by rw [hpp]; exact hh.1, by rw [hpp]; exact hh.2⟩
    simp only [joinGroups, if_pos c1, hpa, Option.bind_some, getRelationship_ok hh' rfl hpa, ancLoop]
    rw [ha, hg]; rfl
  · rw [if_neg c1] at h
    simp only [joinGroups, if_neg c1, getSize_ptr h1, getSize_ptr h2]
    by_cases c2 : sz (erase l') > sz (erase r')
    · rw [if_pos c2, Option.map_eq_some_iff] at h
      obtain ⟨z', h3, h4⟩ := h
      cases h4
      simp only [if_pos c2]
      obtain ⟨m', t', i1, i2, i3⟩ := mergeGroups_ok (root := root) (c := true) hn hh rfl hf' hpa
        (by simp) h1 h2 pp h3
      exact ⟨by simp, m', t', _, i1, i2, i3⟩
    · rw [if_neg c2, Option.map_eq_some_iff] at h
      obtain ⟨z', h3, h4⟩ := h
      cases h4
      simp only [if_neg c2]
      obtain ⟨m', t', i1, i2, i3⟩ := mergeGroups_ok (root := root) (c := false) hn hh rfl hf' hpa
        (by simp) h2 h1 ((List.perm_append_comm.append_left _).trans pp) h3
      exact ⟨by simp, m', t', _, i1, i2, i3⟩

/-! ### `RemoveRange` -/

/-- tree.go:460-526 at the node found. -/
def rangeAt (root : Nat) (cmp : K → K → Int) (low high : K) (b : Nat) (m : Mem K V) (n : Nat) :
    Option (Mem K V) :=
  (cut cmp low true n m (m b).lo).bind fun p =>
  (cut cmp high false n p.1 (p.1 b).hi).bind fun q => joinGroups root n q.1 b p.2 q.2

theorem rangeAt_ok {m : Mem K V} {low high : K} {p : Nat} {d : Bool} {a : Nat × Int} {k : K} {v : V}
    {l r : P K V} {z : T K V} {anc : Anc} (hR : Rep m p (node a k v l r))
    (hn : (p :: addrs (node a k v l r)).Nodup) (hh : Hole [] m p d (node a k v l r))
    (h : join a.2 (cutL cmp low (erase l)) (cutR cmp high (erase r)) = some (z, anc)) :
    anc ≠ .keep ∧
      Runs [] any (rangeAt root cmp low high a.1 m) (ancLoop root anc) m p d (node a k v l r) z := by
  obtain ⟨⟨g, hg⟩, hl, hr⟩ := id hR
  have hn' : (p :: a.1 :: (addrs l ++ addrs r)).Nodup := hn
  have b1 := height_le l
  have b2 := height_le r
  obtain ⟨m1, l', ga, qa, i1, i2, i3⟩ := cut_ok (cmp := cmp) (bound := low) (c := true) l m a.1 hl
    (by grind)
  have hr1 : Rep m1 a.1 r := hr.congr fun x hx => i3.frame x (by grind)
  obtain ⟨m2, r', gb, qb, j1, j2, j3⟩ := cut_ok (cmp := cmp) (bound := high) (c := false) r m1 a.1 hr1
    (by grind)
  have hl2 : Rep m2 qa l' := i3.rep.congr fun x hx => j3.frame x (by have := i3.sub hx; grind)
  obtain ⟨k0, m3, t3, gone, k1, k2, k3⟩ := joinGroups_ok (root := root) (m := m2) (l' := l') (r' := r')
    hR hn hh (fun y hy => by rw [j3.frame y (by grind), i3.frame y (by grind)]) hl2 j3.rep i3.perm j3.perm
    (by rw [i2, j2]; exact h)
  refine ⟨k0, m3, t3, gone, 0, by omega, k1, k2, trivial, fun n hle => ?_⟩
  refine Eq.trans ?_ (k3 (n + 0) hle)
  simp only [addrs, List.length_cons, List.length_append] at hle
  have e1 : (m a.1).lo = ptr l := by rw [hg]
  have e2 : (m1 a.1).hi = ptr r := by rw [i3.frame a.1 (by grind), hg]
  simp only [rangeAt, e1, i1 _ (show l.height < n + 0 by omega), Option.bind_some, e2,
    j1 _ (show r.height < n + 0 by omega)]

/-- tree.go:441-526 `RemoveRange` below the node `p`. -/
theorem removeRange_ok {m : Mem K V} {low high : K} : ∀ (t : P K V) (p : Nat) (d : Bool) (n : Nat)
    (z : T K V) (anc : Anc), Rep m p t → (p :: addrs t).Nodup → Hole [] m p d t → root ∉ addrs t →
    t.height < n → Size.removeRange cmp low high (erase t) = some (z, anc) →
    (anc = .keep ∧ getRangeRoot cmp m low high n (ptr t) = some none ∧ z = erase t) ∨
    (anc ≠ .keep ∧ ∃ b, getRangeRoot cmp m low high n (ptr t) = some (some b) ∧
      Runs [] any (rangeAt root cmp low high b m) (ancLoop root anc) m p d t z)
  | nil, p, d, n, z, anc, _, _, _, _, hl, h => by
    simp only [erase, Size.removeRange, Option.some.injEq, Prod.mk.injEq] at h
    obtain ⟨rfl, rfl⟩ := h
    obtain ⟨n, rfl⟩ : ∃ n', n = n' + 1 := ⟨n - 1, by omega⟩
    exact .inl ⟨rfl, rfl, rfl⟩
  | node a k v l r, p, d, n, z, anc, hR, hn, hh, hr, hl, h => by
    obtain ⟨⟨g, hg⟩, hl', hr'⟩ := id hR
    have hlt : max l.height r.height + 1 < n := by simpa [Tree.height] using hl
    obtain ⟨n, rfl⟩ : ∃ n', n = n' + 1 := ⟨n - 1, by omega⟩
    have hn' : (p :: a.1 :: (addrs l ++ addrs r)).Nodup := hn
    have hra : root ∉ a.1 :: (addrs l ++ addrs r) := hr
    have key0 : getRangeRoot cmp m low high (n + 1) (ptr (node a k v l r)) =
        if cmp low k ≠ cmp high k then some (some a.1)
        else if cmp low k < 0 then getRangeRoot cmp m low high n (ptr l)
        else if cmp low k > 0 then getRangeRoot cmp m low high n (ptr r) else some (some a.1) := by
      simp only [ptr_node, getRangeRoot, hg]
    have fin : join a.2 (cutL cmp low (erase l)) (cutR cmp high (erase r)) = some (z, anc) →
        anc ≠ .keep ∧
        Runs [] any (rangeAt root cmp low high a.1 m) (ancLoop root anc) m p d (node a k v l r) z :=
      rangeAt_ok hR hn hh
    simp only [erase, Size.removeRange] at h
    split at h
    · rename_i c1
      exact .inr ⟨(fin h).1, a.1, key0.trans (if_pos c1), (fin h).2⟩
    · rename_i c1
      rw [if_neg c1] at key0
      split at h
      · rename_i c2
        rw [if_pos c2] at key0
        rw [Option.map_eq_some_iff] at h
        obtain ⟨⟨z1, anc1⟩, h1, h2⟩ := h
        simp only [Prod.mk.injEq] at h2
        obtain ⟨rfl, rfl⟩ := h2
        have ih := removeRange_ok l a.1 false n z1 anc1 hl' (by grind)
          (Hole.kid (c := false) hR (List.nodup_cons.1 hn).2) (by grind) (by omega) h1
        rcases ih with ⟨rfl, ih1, rfl⟩ | ⟨hk, b, ih1, ih2⟩
        · exact .inl ⟨rfl, key0.trans ih1, rfl⟩
        · exact .inr ⟨hk, b, key0.trans ih1, ih2.lift (c := false) (w := r) hR hn hh any_stable
            (ancLoop_step (c := false) (by grind) hk)⟩
      · rename_i c2
        rw [if_neg c2] at key0
        split at h
        · rename_i c3
          rw [if_pos c3] at key0
          rw [Option.map_eq_some_iff] at h
          obtain ⟨⟨z1, anc1⟩, h1, h2⟩ := h
          simp only [Prod.mk.injEq] at h2
          obtain ⟨rfl, rfl⟩ := h2
          have ih := removeRange_ok r a.1 true n z1 anc1 hr' (by grind)
            (Hole.kid (c := true) hR (List.nodup_cons.1 hn).2) (by grind) (by omega) h1
          rcases ih with ⟨rfl, ih1, rfl⟩ | ⟨hk, b, ih1, ih2⟩
          · exact .inl ⟨rfl, key0.trans ih1, rfl⟩
          · exact .inr ⟨hk, b, key0.trans ih1, ih2.lift (c := true) (w := l) hR hn hh any_stable
              (ancLoop_step (c := true) (by grind) hk)⟩
        · rename_i c3
          exact .inr ⟨(fin h).1, a.1, key0.trans (if_neg c3), (fin h).2⟩

/-! ### `RemoveRangeByIndex` -/

theorem rangeIdxAt_ok {m : Mem K V} {low high idx : Int} {p : Nat} {d : Bool} {a : Nat × Int} {k : K}
    {v : V} {l r : P K V} {z : T K V} {anc : Anc} (hR : Rep m p (node a k v l r))
    (hn : (p :: addrs (node a k v l r)).Nodup) (hh : Hole [] m p d (node a k v l r))
    (h : join a.2 (cutIdxL low (erase l) (idx - (rightSz (erase l) + 1)))
      (cutIdxR high (erase r) (idx + (leftSz (erase r) + 1))) = some (z, anc)) :
    anc ≠ .keep ∧ Runs [] any (fun n => removeRangeIdx root n m low high a.1 idx) (ancLoop root anc) m p d
      (node a k v l r) z := by
  obtain ⟨⟨g, hg⟩, hl, hr⟩ := id hR
  have hn' : (p :: a.1 :: (addrs l ++ addrs r)).Nodup := hn
  have b1 := height_le l
  have b2 := height_le r
  obtain ⟨m1, l', ga, qa, i1, i2, i3⟩ := cutIdx_ok (bound := low) (c := true) l m a.1 idx false hl
    (by grind)
  have hr1 : Rep m1 a.1 r := hr.congr fun x hx => i3.frame x (by grind)
  obtain ⟨m2, r', gb, qb, j1, j2, j3⟩ := cutIdx_ok (bound := high) (c := false) r m1 a.1 idx true hr1
    (by grind)
  have hl2 : Rep m2 qa l' := i3.rep.congr fun x hx => j3.frame x (by have := i3.sub hx; grind)
  obtain ⟨k0, m3, t3, gone, k1, k2, k3⟩ := joinGroups_ok (root := root) (m := m2) (l' := l') (r' := r')
    hR hn hh (fun y hy => by rw [j3.frame y (by grind), i3.frame y (by grind)]) hl2 j3.rep i3.perm j3.perm
    (by rw [i2, j2]; exact h)
  refine ⟨k0, m3, t3, gone, 0, by omega, k1, k2, trivial, fun n hle => ?_⟩
  refine Eq.trans ?_ (k3 (n + 0) hle)
  simp only [addrs, List.length_cons, List.length_append] at hle
  have e1 : (m a.1).lo = ptr l := by rw [hg]
  have e2 : (m1 a.1).hi = ptr r := by rw [i3.frame a.1 (by grind), hg]
  simp only [removeRangeIdx, e1, i1 _ (show l.height < n + 0 by omega), Option.bind_some, e2,
    j1 _ (show r.height < n + 0 by omega)]

/-- tree.go:530-641 `RemoveRangeByIndex` below the node `p`. -/
theorem removeRangeIdx_ok {m : Mem K V} {low high : Int} : ∀ (t : P K V) (p : Nat) (d : Bool) (n b : Nat)
    (idx : Int), Rep m p t → (p :: addrs t).Nodup → Hole [] m p d t → root ∉ addrs t →
    t.height ≤ n → ptr t = some b →
    match Size.removeRangeIdx low high (erase t) idx with
    | none => rangeLoop m low high n b idx = none
    | some none => True
    | some (some (z, anc)) => anc ≠ .keep ∧ ∃ x i, rangeLoop m low high n b idx = some (x, i) ∧
      Runs [] any (fun n => removeRangeIdx root n m low high x i) (ancLoop root anc) m p d t z
  | nil, p, d, n, b, idx, _, _, _, _, _, hb => by cases hb
  | node a k v l r, p, d, n, b, idx, hR, hn, hh, hr, hl, hb => by
    obtain rfl : b = a.1 := by simpa using hb.symm
    obtain ⟨⟨g, hg⟩, hl', hr'⟩ := id hR
    have hlt : max l.height r.height + 1 ≤ n := by simpa [Tree.height] using hl
    obtain ⟨n, rfl⟩ : ∃ n', n = n' + 1 := ⟨n - 1, by omega⟩
    have hn' : (p :: a.1 :: (addrs l ++ addrs r)).Nodup := hn
    have hra : root ∉ a.1 :: (addrs l ++ addrs r) := hr
    simp only [erase, Size.removeRangeIdx]
    by_cases c1 : idx > low ∧ idx > high
    · have e0 : rangeLoop m low high (n + 1) a.1 idx =
          (ptr l).bind fun b => rangeLoop m low high n b (idx - (getSize m (m b).hi + 1)) := by
        simp only [rangeLoop, if_pos c1, hg]
      simp only [if_pos c1, e0]
      cases hp : ptr l with
      | none =>
        obtain rfl : l = nil := by cases l; rfl; cases hp
        simp [erase, Size.removeRangeIdx]
      | some b2 =>
        have ih := removeRangeIdx_ok (low := low) (high := high) l a.1 false n b2
          (idx - (rightSz (erase l) + 1)) hl' (by grind)
          (Hole.kid (c := false) hR (List.nodup_cons.1 hn).2) (by grind) (by omega) hp
        rw [Option.bind_some, rightSz_ok hl' hp]
        match hrm : Size.removeRangeIdx low high (erase l) (idx - (rightSz (erase l) + 1)), ih with
        | none, ih => exact ih
        | some none, ih => trivial
        | some (some (z, anc)), ⟨hk, x, i, j1, j2⟩ =>
          exact ⟨hk, x, i, j1, j2.lift (c := false) (w := r) hR hn hh any_stable
            (ancLoop_step (c := false) (by grind) hk)⟩
    · by_cases c2 : idx < high ∧ idx < low
      · have e0 : rangeLoop m low high (n + 1) a.1 idx =
            (ptr r).bind fun b => rangeLoop m low high n b (idx + (getSize m (m b).lo + 1)) := by
          simp only [rangeLoop, if_neg c1, if_pos c2, hg]
        simp only [if_neg c1, if_pos c2, e0]
        cases hp : ptr r with
        | none =>
          obtain rfl : r = nil := by cases r; rfl; cases hp
          simp [erase, Size.removeRangeIdx]
        | some b2 =>
          have ih := removeRangeIdx_ok (low := low) (high := high) r a.1 true n b2
            (idx + (leftSz (erase r) + 1)) hr' (by grind)
            (Hole.kid (c := true) hR (List.nodup_cons.1 hn).2) (by grind) (by omega) hp
          rw [Option.bind_some, leftSz_ok hr' hp]
          match hrm : Size.removeRangeIdx low high (erase r) (idx + (leftSz (erase r) + 1)), ih with
          | none, ih => exact ih
          | some none, ih => trivial
          | some (some (z, anc)), ⟨hk, x, i, j1, j2⟩ =>
            exact ⟨hk, x, i, j1, j2.lift (c := true) (w := l) hR hn hh any_stable
              (ancLoop_step (c := true) (by grind) hk)⟩
      · have e0 : rangeLoop m low high (n + 1) a.1 idx = some (a.1, idx) := by
          simp only [rangeLoop, if_neg c1, if_neg c2]
        simp only [if_neg c1, if_neg c2, e0]
        cases hj : join a.2 (cutIdxL low (erase l) (idx - (rightSz (erase l) + 1)))
            (cutIdxR high (erase r) (idx + (leftSz (erase r) + 1))) with
        | none => trivial
        | some q =>
          obtain ⟨z, anc⟩ := q
          obtain ⟨hk, h2⟩ := rangeIdxAt_ok (root := root) hR hn hh hj
          exact ⟨hk, a.1, idx, rfl, h2⟩

end Verif.IndexHeap
