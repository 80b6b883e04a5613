import Verif.Tree.IndexHeap
import Verif.Tree.AvlHeapLemmas

/-! The pointer program of `Verif.Tree.IndexHeap`: trees in the memory, assignments, rotations. -/

namespace Verif.IndexHeap
open Verif.AvlHeap (P ptr addrs erase ptr_nil ptr_node ptr_mem ptr_ne)
open Verif.Tree Verif.Size
variable {K V : Type}

/-! ### Trees in the memory -/

/-- The node with the child `u` on the side `c` and `w` on the other one. -/
def bn {A : Type} (c : Bool) (a : A) (k : K) (v : V) (u w : Tree A K V) : Tree A K V :=
  if c then node a k v w u else node a k v u w

/-- The memory holds the tree, below the node `p`. -/
def Rep (m : Mem K V) : Nat → P K V → Prop
  | _, nil => True
  | p, node a k v l r => (∃ b, m a.1 = ⟨k, v, a.2, b, some p, ptr l, ptr r⟩) ∧ Rep m a.1 l ∧ Rep m a.1 r

theorem Rep.congr {m m' : Mem K V} : ∀ {p : Nat} {t : P K V}, Rep m p t →
    (∀ a ∈ addrs t, m' a = m a) → Rep m' p t
  | _, nil, _, _ => trivial
  | p, node a k v l r, h, hm => by
    refine ⟨?_, h.2.1.congr fun x hx => hm x ?_, h.2.2.congr fun x hx => hm x ?_⟩
    · rw [hm _ (by simp [addrs])]; exact h.1
    · simp [addrs, hx]
    · simp [addrs, hx]

/-- The root of the tree gets another parent. -/
theorem Rep.reparent {m m' : Mem K V} {p q : Nat} {t : P K V} (h : Rep m p t) (hn : (addrs t).Nodup)
    (h1 : ∀ a ∈ addrs t, ptr t ≠ some a → m' a = m a)
    (h2 : ∀ a, ptr t = some a → m' a = { m a with parent := some q }) : Rep m' q t := by
  cases t with
  | nil => trivial
  | node a k v l r =>
    obtain ⟨⟨b, hb⟩, hl, hr⟩ := h
    simp only [addrs, List.nodup_cons] at hn
    refine ⟨⟨b, by rw [h2 _ rfl, hb]⟩, hl.congr fun x hx => h1 x (by simp [addrs, hx]) ?_,
      hr.congr fun x hx => h1 x (by simp [addrs, hx]) ?_⟩ <;>
    · rw [ptr_node]; rintro ⟨rfl⟩; exact hn.1 (by simp [hx])

theorem rep_bn {m : Mem K V} {p : Nat} {c : Bool} {a : Nat × Int} {k : K} {v : V} {u w : P K V} :
    Rep m p (bn c a k v u w) ↔
      (∃ b, m a.1 = ((Cell.mk k v a.2 b (some p) none none).setKid c (ptr u)).setKid (!c) (ptr w)) ∧
      Rep m a.1 u ∧ Rep m a.1 w := by
  cases c
  · rfl
  · exact ⟨fun h => ⟨h.1, h.2.2, h.2.1⟩, fun h => ⟨h.1, h.2.2, h.2.1⟩⟩

theorem addrs_bn {c : Bool} {a : Nat × Int} {k : K} {v : V} {u w : P K V} :
    (addrs (bn c a k v u w)).Perm (a.1 :: (addrs u ++ addrs w)) := by
  cases c
  · exact .refl _
  · exact List.perm_append_comm.cons _

@[simp] theorem ptr_bn {c : Bool} {a : Nat × Int} {k : K} {v : V} {u w : P K V} :
    ptr (bn c a k v u w) = some a.1 := by cases c <;> rfl

@[simp] theorem erase_bn {c : Bool} {a : Nat × Int} {k : K} {v : V} {u w : P K V} :
    erase (bn c a k v u w) = bn c a.2 k v (erase u) (erase w) := by cases c <;> rfl

theorem getSize_ptr {m : Mem K V} {p : Nat} {t : P K V} (h : Rep m p t) :
    getSize m (ptr t) = sz (erase t) := by
  cases t with
  | nil => rfl
  | node a k v l r => obtain ⟨⟨b, hb⟩, -⟩ := h; simp [getSize, hb, erase, sz]

/-! ### Cells -/

@[simp] theorem upd_self (m : Mem K V) (a : Nat) (f : Cell K V → Cell K V) :
    upd m a f a = f (m a) := by simp [upd]
theorem upd_ne {m : Mem K V} {a b : Nat} (f : Cell K V → Cell K V) (h : b ≠ a) : upd m a f b = m b := by
  simp [upd, h]

@[simp] theorem kid_setKid (x : Cell K V) (c : Bool) (p : Option Nat) : (x.setKid c p).kid c = p := by
  cases c <;> rfl
@[simp] theorem kid_setKid_not (x : Cell K V) (c : Bool) (p : Option Nat) :
    (x.setKid c p).kid (!c) = x.kid (!c) := by cases c <;> rfl
@[simp] theorem kid_not_setKid (x : Cell K V) (c : Bool) (p : Option Nat) :
    (x.setKid (!c) p).kid c = x.kid c := by cases c <;> rfl
@[simp] theorem setKid_setKid (x : Cell K V) (c : Bool) (p q : Option Nat) :
    (x.setKid c p).setKid c q = x.setKid c q := by cases c <;> rfl
theorem setKid_kid {x : Cell K V} {c : Bool} {p : Option Nat} (h : x.kid c = p) : x.setKid c p = x := by
  cases c <;> cases x <;> simp_all [Cell.kid, Cell.setKid]

/-! ### Changes below one child of a node -/

/-- The child `c` of `p` is the tree `t`, and the other child is none of `new` and of the nodes of
`t`. -/
def Hole (new : List Nat) (m : Mem K V) (p : Nat) (c : Bool) (t : P K V) : Prop :=
  (m p).kid c = ptr t ∧ ∀ a ∈ new ++ addrs t, (m p).kid (!c) ≠ some a

/-- The memory changed from `m` to `m'` in that the child `c` of `p` is the tree `t'` instead of `t`.
`t'` consists of the cells of `t` and of `new` without those of `gone`; other cells are not touched. -/
structure Good (new gone : List Nat) (m m' : Mem K V) (p : Nat) (c : Bool) (t t' : P K V) : Prop where
  rep : Rep m' p t'
  par : m' p = (m p).setKid c (ptr t')
  perm : (gone ++ addrs t').Perm (new ++ addrs t)
  frame : ∀ x, x ∉ new ++ addrs t → x ≠ p → m' x = m x

theorem Good.refl {m : Mem K V} {p : Nat} {c : Bool} {t : P K V} (hR : Rep m p t)
    (hp : (m p).kid c = ptr t) : Good [] [] m m p c t t :=
  ⟨hR, (setKid_kid hp).symm, .refl _, fun _ _ _ => rfl⟩

theorem Good.hole {new gone : List Nat} {m m' : Mem K V} {p : Nat} {c : Bool} {t t' : P K V}
    (h : Good new gone m m' p c t t') (hh : Hole new m p c t) : Hole gone m' p c t' := by
  refine ⟨by rw [h.par]; simp, fun a ha => ?_⟩
  rw [h.par, kid_setKid_not]
  exact hh.2 a (h.perm.mem_iff.1 ha)

theorem Hole.mono {new : List Nat} {m : Mem K V} {p : Nat} {c : Bool} {t : P K V}
    (h : Hole new m p c t) : Hole [] m p c t :=
  ⟨h.1, fun a ha => h.2 a (List.mem_append_right _ ha)⟩

theorem Good.nodup {new gone : List Nat} {m m' : Mem K V} {p : Nat} {c : Bool} {t t' : P K V}
    (h : Good new gone m m' p c t t') (hn : (p :: (new ++ addrs t)).Nodup) :
    (p :: (gone ++ addrs t')).Nodup := (h.perm.cons p).nodup_iff.2 hn

theorem Good.trans {new gone gone' : List Nat} {m m₁ m₂ : Mem K V} {p : Nat} {c : Bool}
    {t t₁ t₂ : P K V} (h : Good new gone m m₁ p c t t₁) (h' : Good [] gone' m₁ m₂ p c t₁ t₂) :
    Good new (gone ++ gone') m m₂ p c t t₂ := by
  refine ⟨h'.rep, by rw [h'.par, h.par, setKid_setKid], ?_, ?_⟩
  · rw [List.append_assoc]; exact (h'.perm.append_left gone).trans h.perm
  · intro x hx hp
    rw [h'.frame x (fun hx' => hx (h.perm.mem_iff.1 (List.mem_append_right _ hx'))) hp, h.frame x hx hp]

/-- A change below the child `c` of `a` is a change below the parent of `a`. -/
theorem Good.kid {new gone : List Nat} {m m' : Mem K V} {p : Nat} {a : Nat × Int} {k : K} {v : V}
    {d c : Bool} {u u' w : P K V} (hR : Rep m p (bn c a k v u w)) (hp : (m p).kid d = some a.1)
    (hn : (p :: (new ++ addrs (bn c a k v u w))).Nodup) (hg : Good new gone m m' a.1 c u u') :
    Good new gone m m' p d (bn c a k v u w) (bn c a k v u' w) := by
  obtain ⟨⟨b, hb⟩, hu, hw⟩ := rep_bn.1 hR
  have hq : (p :: (new ++ (a.1 :: (addrs u ++ addrs w)))).Nodup :=
    (((addrs_bn (c := c)).append_left new).cons p).nodup_iff.1 hn
  have hm : ∀ x ∈ addrs w, m' x = m x := fun x hx => hg.frame x (by grind) (by grind)
  refine ⟨rep_bn.2 ⟨⟨b, ?_⟩, hg.rep, hw.congr hm⟩, ?_, ?_, ?_⟩
  · rw [hg.par, hb]; cases c <;> rfl
  · rw [hg.frame p (by grind) (by grind), ptr_bn]; exact (setKid_kid hp).symm
  · refine ((addrs_bn (c := c)).append_left gone).trans
      (List.Perm.trans ?_ ((addrs_bn (c := c)).append_left new).symm)
    refine List.perm_middle.trans (List.Perm.trans ?_ List.perm_middle.symm)
    have := (hg.perm.append_right (addrs w)).cons a.1
    simpa using this
  · intro x hx hxp
    have : x ∉ new ++ (a.1 :: (addrs u ++ addrs w)) := fun h =>
      hx (((addrs_bn (c := c)).append_left new).mem_iff.2 h)
    exact hg.frame x (by grind) (by grind)

theorem Hole.kid {new : List Nat} {m : Mem K V} {p : Nat} {a : Nat × Int} {k : K} {v : V}
    {c : Bool} {u w : P K V} (hR : Rep m p (bn c a k v u w))
    (hn : (new ++ addrs (bn c a k v u w)).Nodup) : Hole new m a.1 c u := by
  obtain ⟨⟨b, hb⟩, hu, hw⟩ := rep_bn.1 hR
  have hq : (new ++ (a.1 :: (addrs u ++ addrs w))).Nodup :=
    ((addrs_bn (c := c)).append_left new).nodup_iff.1 hn
  refine ⟨by rw [hb]; simp, fun x hx => ?_⟩
  rw [hb]
  simp only [kid_setKid]
  intro h
  have := ptr_mem h
  grind

/-! ### Rotations -/

/-- What is known of the memory during a rotation. -/
structure Quad (m m' : Mem K V) (p a b : Nat) (y : Option Nat) (P A B : Cell K V)
    (Y : Cell K V → Cell K V) : Prop where
  atP : m' p = P
  atA : m' a = A
  atB : m' b = B
  atY : ∀ z, y = some z → m' z = Y (m z)
  frame : ∀ z, z ≠ p → z ≠ a → z ≠ b → y ≠ some z → m' z = m z

theorem Quad.getSize {m m' : Mem K V} {p a b : Nat} {y : Option Nat} {P A B : Cell K V}
    {Y : Cell K V → Cell K V} (h : Quad m m' p a b y P A B Y) (hY : ∀ x, (Y x).size = x.size)
    {o : Option Nat} (h1 : o ≠ some p) (h2 : o ≠ some a) (h3 : o ≠ some b) :
    getSize m' o = getSize m o := by
  cases o with
  | none => rfl
  | some z =>
    simp only [IndexHeap.getSize]
    by_cases hz : y = some z
    · rw [h.atY z hz, hY]
    · rw [h.frame z (by rintro rfl; exact h1 rfl) (by rintro rfl; exact h2 rfl)
        (by rintro rfl; exact h3 rfl) hz]

section
variable {m m' : Mem K V} {p a b : Nat} {y : Option Nat} {P A B : Cell K V} {Y : Cell K V → Cell K V}

/-- The four cells are different. -/
structure Apart (p a b : Nat) (y : Option Nat) : Prop where
  pa : p ≠ a
  pb : p ≠ b
  ab : a ≠ b
  yp : y ≠ some p
  ya : y ≠ some a
  yb : y ≠ some b

theorem Quad.updP (h : Quad m m' p a b y P A B Y) (q : Apart p a b y) (f : Cell K V → Cell K V) :
    Quad m (upd m' p f) p a b y (f P) A B Y := by
  obtain ⟨q1, q2, q3, q4, q5, q6⟩ := q
  refine ⟨by rw [upd_self, h.atP], by rw [upd_ne _ q1.symm, h.atA], by rw [upd_ne _ q2.symm, h.atB], ?_, ?_⟩
  · intro z hz; rw [upd_ne _ (by rintro rfl; exact q4 hz), h.atY z hz]
  · intro z h1 h2 h3 h4; rw [upd_ne _ h1, h.frame z h1 h2 h3 h4]

theorem Quad.updA (h : Quad m m' p a b y P A B Y) (q : Apart p a b y) (f : Cell K V → Cell K V) :
    Quad m (upd m' a f) p a b y P (f A) B Y := by
  obtain ⟨q1, q2, q3, q4, q5, q6⟩ := q
  refine ⟨by rw [upd_ne _ q1, h.atP], by rw [upd_self, h.atA], by rw [upd_ne _ q3.symm, h.atB], ?_, ?_⟩
  · intro z hz; rw [upd_ne _ (by rintro rfl; exact q5 hz), h.atY z hz]
  · intro z h1 h2 h3 h4; rw [upd_ne _ h2, h.frame z h1 h2 h3 h4]

theorem Quad.updB (h : Quad m m' p a b y P A B Y) (q : Apart p a b y) (f : Cell K V → Cell K V) :
    Quad m (upd m' b f) p a b y P A (f B) Y := by
  obtain ⟨q1, q2, q3, q4, q5, q6⟩ := q
  refine ⟨by rw [upd_ne _ q2, h.atP], by rw [upd_ne _ q3, h.atA], by rw [upd_self, h.atB], ?_, ?_⟩
  · intro z hz; rw [upd_ne _ (by rintro rfl; exact q6 hz), h.atY z hz]
  · intro z h1 h2 h3 h4; rw [upd_ne _ h3, h.frame z h1 h2 h3 h4]

theorem Quad.updY (h : Quad m m' p a b y P A B id) (q : Apart p a b y) (c : Nat) :
    Quad m (setParent? m' y c) p a b y P A B (fun x => { x with parent := some c }) := by
  obtain ⟨q1, q2, q3, q4, q5, q6⟩ := q
  cases y with
  | none =>
    exact ⟨h.atP, h.atA, h.atB, (fun z hz => by cases hz), h.frame⟩
  | some w =>
    have hp : p ≠ w := fun e => q4 (by rw [e])
    have ha : a ≠ w := fun e => q5 (by rw [e])
    have hb : b ≠ w := fun e => q6 (by rw [e])
    refine ⟨by simp only [setParent?, setParent]; rw [upd_ne _ hp, h.atP],
      by simp only [setParent?, setParent]; rw [upd_ne _ ha, h.atA],
      by simp only [setParent?, setParent]; rw [upd_ne _ hb, h.atB], ?_, ?_⟩
    · intro z hz; cases hz; simp only [setParent?, setParent, upd_self, h.atY _ rfl, id]
    · intro z h1 h2 h3 h4
      simp only [setParent?, setParent]
      rw [upd_ne _ (fun e => h4 (by rw [e])), h.frame z h1 h2 h3 h4]

end

/-- The rotation of the model with subtrees. -/
def vrot (c : Bool) (t : T K V) : Option (T K V) := if c then lrotate t else rrotate t

theorem vrot_bn {c : Bool} {a b : Int} {k k2 : K} {v v2 : V} {x y r : T K V} :
    vrot c (bn c a k v (bn c b k2 v2 x y) r) =
      some (bn c (sz x + (sz y + sz r + 1) + 1) k2 v2 x (bn c (sz y + sz r + 1) k v y r)) := by
  cases c <;> simp [vrot, bn, lrotate, rrotate, mk, sz]; omega

theorem vrot_some {c : Bool} {t : P K V} {u : T K V} (h : vrot c (erase t) = some u) :
    ∃ a k v b k2 v2 x y r, t = bn c a k v (bn c b k2 v2 x y) r := by
  cases c
  · match t with
    | nil => simp [vrot, erase, rrotate] at h
    | node a k v nil r => simp [vrot, erase, rrotate] at h
    | node a k v (node b k2 v2 x y) r => exact ⟨a, k, v, b, k2, v2, x, y, r, rfl⟩
  · match t with
    | nil => simp [vrot, erase, lrotate] at h
    | node a k v r nil => simp [vrot, erase, lrotate] at h
    | node a k v r (node b k2 v2 y x) => exact ⟨a, k, v, b, k2, v2, x, y, r, rfl⟩

theorem getSize_kids {m : Mem K V} {x : Cell K V} (c : Bool) :
    getSize m x.lo + getSize m x.hi = getSize m (x.kid c) + getSize m (x.kid (!c)) := by
  cases c
  · rfl
  · exact Int.add_comm _ _

theorem sumSize_eq (m : Mem K V) (a : Nat) (c : Bool) {n : Int}
    (h : getSize m ((m a).kid c) + getSize m ((m a).kid (!c)) + 1 = n) :
    sumSize m a = upd m a fun x => { x with size := n } := by
  unfold sumSize setSize
  rw [getSize_kids c, h]

theorem rotate_bn {m : Mem K V} {p : Nat} {d c : Bool} {a b : Nat × Int} {k k2 : K} {v v2 : V}
    {x y r : P K V} (hR : Rep m p (bn c a k v (bn c b k2 v2 x y) r))
    (hn : (p :: addrs (bn c a k v (bn c b k2 v2 x y) r)).Nodup)
    (hh : Hole [] m p d (bn c a k v (bn c b k2 v2 x y) r)) :
    ∃ m', rotate m c a.1 = some m' ∧
      Good [] [] m m' p d (bn c a k v (bn c b k2 v2 x y) r)
        (bn c (b.1, sz (erase x) + (sz (erase y) + sz (erase r) + 1) + 1) k2 v2 x
          (bn c (a.1, sz (erase y) + sz (erase r) + 1) k v y r)) := by
  have hperm : (addrs (bn c a k v (bn c b k2 v2 x y) r)).Perm
      (a.1 :: ((b.1 :: (addrs x ++ addrs y)) ++ addrs r)) :=
    addrs_bn.trans ((addrs_bn.append_right _).cons _)
  have hn' : (p :: (a.1 :: ((b.1 :: (addrs x ++ addrs y)) ++ addrs r))).Nodup :=
    (hperm.cons p).nodup_iff.1 hn
  obtain ⟨⟨g, hg⟩, hb', hr⟩ := rep_bn.1 hR
  obtain ⟨⟨g2, hg2⟩, hx, hy⟩ := rep_bn.1 hb'
  obtain ⟨a, s⟩ := a
  obtain ⟨b, s2⟩ := b
  simp only [ptr_bn] at hg hg2 hx hy hr hn'
  have q : Apart p a b (ptr y) := by
    refine ⟨by grind, by grind, by grind, ptr_ne (by grind), ptr_ne (by grind), ptr_ne (by grind)⟩
  have hxp := ptr_ne (t := x) (a := p) (by grind)
  have hxa := ptr_ne (t := x) (a := a) (by grind)
  have hxb := ptr_ne (t := x) (a := b) (by grind)
  have hrp := ptr_ne (t := r) (a := p) (by grind)
  have hra := ptr_ne (t := r) (a := a) (by grind)
  have hrb := ptr_ne (t := r) (a := b) (by grind)
  have hl : (if (m p).kid c = some a then link m p c (some b) else link m p (!c) (some b)) =
      link m p d (some b) := by
    have h1 := hh.1
    rw [ptr_bn] at h1
    by_cases hcd : c = d
    · subst hcd; rw [if_pos h1]
    · have hd : d = !c := by cases c <;> cases d <;> simp_all
      subst hd
      have h2 := hh.2 a (by rw [List.nil_append, hperm.mem_iff]; simp)
      rw [Bool.not_not] at h2
      rw [if_neg h2]
  have h0 : Quad m m p a b (ptr y) (m p) (m a) (m b) id :=
    ⟨rfl, rfl, rfl, fun _ _ => rfl, fun _ _ _ _ _ => rfl⟩
  have h1 := h0.updP q (·.setKid d (some b))
  have h2 := h1.updB q fun z => { z with parent := some p }
  have h3 := h2.updA q (·.setKid c (ptr y))
  have h4 := h3.updY q a
  have h5 := h4.updB q (·.setKid (!c) (some a))
  have h6 := h5.updA q fun z => { z with parent := some b }
  have hY : ∀ z : Cell K V, ({ z with parent := some a } : Cell K V).size = z.size := fun _ => rfl
  have sx := getSize_ptr hx
  have sy := getSize_ptr hy
  have sr := getSize_ptr hr
  generalize hm6 : upd (upd (setParent? (upd (upd (upd m p _) b _) a _) (ptr y) a) b _) a _ = m6 at h6
  have e6 : sumSize m6 a = upd m6 a fun z => { z with size := sz (erase y) + sz (erase r) + 1 } := by
    refine sumSize_eq m6 a c ?_
    rw [h6.atA, hg]
    have e1 : getSize m6 (ptr y) = sz (erase y) := by rw [h6.getSize hY q.yp q.ya q.yb, sy]
    have e2 : getSize m6 (ptr r) = sz (erase r) := by rw [h6.getSize hY hrp hra hrb, sr]
    cases c <;> simp [Cell.kid, Cell.setKid, e1, e2]
  have h7 := h6.updA q fun z => { z with size := sz (erase y) + sz (erase r) + 1 }
  generalize hm7 : upd m6 a (fun z => { z with size := sz (erase y) + sz (erase r) + 1 }) = m7 at h7 e6
  have e7 : sumSize m7 b = upd m7 b fun z =>
      { z with size := sz (erase x) + (sz (erase y) + sz (erase r) + 1) + 1 } := by
    refine sumSize_eq m7 b c ?_
    rw [h7.atB, hg2]
    have e1 : getSize m7 (ptr x) = sz (erase x) := by rw [h7.getSize hY hxp hxa hxb, sx]
    have e2 : getSize m7 (some a) = sz (erase y) + sz (erase r) + 1 := by simp [getSize, h7.atA]
    cases c <;> simp [Cell.kid, Cell.setKid, e1, e2]
  have h8 := h7.updB q fun z =>
      { z with size := sz (erase x) + (sz (erase y) + sz (erase r) + 1) + 1 }
  generalize hm8 : upd m7 b (fun z =>
      { z with size := sz (erase x) + (sz (erase y) + sz (erase r) + 1) + 1 }) = m8 at h8 e7
  have h9 := h8.updA q fun z => { z with balance := getSize m8 z.lo - getSize m8 z.hi }
  generalize hm9 : upd m8 a (fun z => { z with balance := getSize m8 z.lo - getSize m8 z.hi }) = m9 at h9
  have h10 := h9.updB q fun z => { z with balance := getSize m9 z.lo - getSize m9 z.hi }
  generalize hm10 : upd m9 b (fun z => { z with balance := getSize m9 z.lo - getSize m9 z.hi }) = m10
    at h10
  refine ⟨m10, ?_, ?_⟩
  · have k1 : (m a).kid c = some b := by rw [hg]; simp
    have k2 : (m b).kid (!c) = ptr y := by rw [hg2]; simp
    have k3 : (m a).parent = some p := by rw [hg]; cases c <;> rfl
    simp only [rotate, k1, k2, k3, Option.bind_some, Option.map_some, hl]
    rw [← hm10, ← hm9, ← e7, ← e6, ← hm6]
    rfl
  · have hxm : ∀ z ∈ addrs x, m10 z = m z := fun z hz =>
      h10.frame z (by grind) (by grind) (by grind) (ptr_ne (by grind))
    have hrm : ∀ z ∈ addrs r, m10 z = m z := fun z hz =>
      h10.frame z (by grind) (by grind) (by grind) (ptr_ne (by grind))
    have hym : ∀ z ∈ addrs y, ptr y ≠ some z → m10 z = m z := fun z hz hyz =>
      h10.frame z (by grind) (by grind) (by grind) hyz
    refine ⟨?_, ?_, ?_, ?_⟩
    · refine rep_bn.2 ⟨⟨(m10 b).balance, ?_⟩, hx.congr hxm,
        rep_bn.2 ⟨⟨(m10 a).balance, ?_⟩, hy.reparent (by grind) hym h10.atY, hr.congr hrm⟩⟩
      · rw [h10.atB, hg2]; cases c <;> simp [Cell.setKid]
      · rw [h10.atA, hg]; cases c <;> simp [Cell.setKid]
    · rw [h10.atP, ptr_bn]
    · rw [List.nil_append, List.nil_append]
      refine List.Perm.trans ?_ hperm.symm
      refine addrs_bn.trans ((addrs_bn.append_left _).cons _ |>.trans ?_)
      refine (List.perm_middle.cons _).trans ((List.Perm.swap _ _ _).trans ?_)
      simp
    · intro z hz hzp
      rw [List.nil_append, hperm.mem_iff] at hz
      exact h10.frame z hzp (by grind) (by grind) (ptr_ne (by grind))

/-- A rotation. -/
theorem rotate_ok {m : Mem K V} {p a : Nat} {d c : Bool} {t : P K V} {u : T K V} (hR : Rep m p t)
    (hn : (p :: addrs t).Nodup) (hh : Hole [] m p d t) (ha : ptr t = some a)
    (h : vrot c (erase t) = some u) :
    ∃ m' t', rotate m c a = some m' ∧ erase t' = u ∧ Good [] [] m m' p d t t' := by
  obtain ⟨a, k, v, b, k2, v2, x, y, r, rfl⟩ := vrot_some h
  rw [ptr_bn, Option.some.injEq] at ha
  subst ha
  obtain ⟨m', h1, h2⟩ := rotate_bn hR hn hh
  refine ⟨m', _, h1, ?_, h2⟩
  simp only [erase_bn, vrot_bn, Option.some.injEq] at h ⊢
  exact h

/-- The double rotation of the model with subtrees. -/
def vsize (c : Bool) (t : T K V) : Option (T K V) := if c then sizeRRotate t else sizeLRotate t

theorem sizeRotate_ok {m : Mem K V} {p a : Nat} {d c : Bool} {t : P K V} {u : T K V} (hR : Rep m p t)
    (hn : (p :: addrs t).Nodup) (hh : Hole [] m p d t) (ha : ptr t = some a)
    (h : vsize c (erase t) = some u) :
    ∃ m' t', sizeRotate m c a = some m' ∧ erase t' = u ∧ Good [] [] m m' p d t t' := by
  obtain ⟨s, k, v, b, k2, v2, x, y, r, rfl⟩ : ∃ s k v b k2 v2 x y r,
      t = bn c s k v (bn c b k2 v2 x y) r := by
    cases c
    · match t with
      | nil => simp [vsize, erase, sizeLRotate] at h
      | node a k v nil r => simp [vsize, erase, sizeLRotate, kids] at h
      | node a k v (node b k2 v2 x y) r => exact ⟨a, k, v, b, k2, v2, x, y, r, rfl⟩
    · match t with
      | nil => simp [vsize, erase, sizeRRotate] at h
      | node a k v r nil => simp [vsize, erase, sizeRRotate, kids] at h
      | node a k v r (node b k2 v2 y x) => exact ⟨a, k, v, b, k2, v2, x, y, r, rfl⟩
  rw [ptr_bn, Option.some.injEq] at ha
  subst ha
  have hv : (if sz (erase y) > sz (erase x) then
        (vrot (!c) (bn c b.2 k2 v2 (erase x) (erase y))).bind fun q => vrot c (bn c s.2 k v q (erase r))
      else vrot c (bn c s.2 k v (bn c b.2 k2 v2 (erase x) (erase y)) (erase r))) = some u := by
    rw [← h]
    cases c <;> simp [vsize, bn, erase, sizeLRotate, sizeRRotate, kids, vrot]
  have hR' := hR
  obtain ⟨⟨g, hg⟩, hb', hr⟩ := rep_bn.1 hR
  obtain ⟨⟨g2, hg2⟩, hx, hy⟩ := rep_bn.1 hb'
  have i1 : (m s.1).kid c = some b.1 := by rw [hg]; simp
  have i2 : (m b.1).kid (!c) = ptr y := by rw [hg2]; simp
  have i3 : (m b.1).kid c = ptr x := by rw [hg2]; simp
  simp only [sizeRotate, i1, i2, i3, Option.bind_some, getSize_ptr hx, getSize_ptr hy]
  split at hv
  · rename_i hlt
    rw [if_pos hlt]
    cases h1 : vrot (!c) (bn c b.2 k2 v2 (erase x) (erase y)) with
    | none => rw [h1] at hv; cases hv
    | some q =>
      rw [h1, Option.bind_some] at hv
      have hn1 : (s.1 :: addrs (bn c b k2 v2 x y)).Nodup := by
        have := (addrs_bn (c := c)).nodup_iff.1 (List.nodup_cons.1 hn).2
        grind
      obtain ⟨m1, t1, e1, e2, e3⟩ := rotate_ok (c := !c) hb' hn1
        (Hole.kid hR (List.nodup_cons.1 hn).2) ptr_bn (by rw [erase_bn]; exact h1)
      have g1 := Good.kid hR (by rw [hh.1, ptr_bn]) hn e3
      rw [e1, Option.bind_some]
      obtain ⟨m2, t2, f1, f2, f3⟩ := rotate_ok (c := c) g1.rep (g1.nodup hn) (g1.hole hh) ptr_bn
        (by rw [erase_bn, e2]; exact hv)
      exact ⟨m2, t2, f1, f2, g1.trans f3⟩
  · rename_i hlt
    rw [if_neg hlt]
    exact rotate_ok hR hn hh ptr_bn (by rw [erase_bn, erase_bn]; exact hv)

end Verif.IndexHeap
