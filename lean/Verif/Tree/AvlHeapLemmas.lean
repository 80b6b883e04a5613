import Verif.Tree.AvlHeap
import Verif.Common.Tac


/-! The pointer program of `Verif.Tree.AvlHeap` does what the model of `Verif.Tree.AvlModel` does. -/

namespace Verif.AvlHeap
open Verif.Avl (w8 T)
open Verif.Tree
variable {K V : Type}

set_option linter.unusedSimpArgs false

/-! ### Results of two programs -/

/-- Both fail, or both have results that are related. -/
def Sim {α β : Type} (R : α → β → Prop) : Option α → Option β → Prop
  | none, none => True
  | some a, some b => R a b
  | _, _ => False

theorem Sim.bind {α β α' β' : Type} {R : α → β → Prop} {S : α' → β' → Prop} {o : Option α}
    {o' : Option β} {f : α → Option α'} {g : β → Option β'} (h : Sim R o o')
    (hf : ∀ a b, R a b → Sim S (f a) (g b)) : Sim S (o.bind f) (o'.bind g) := by
  cases o <;> cases o' <;> simp_all [Sim]

theorem Sim.map {α β α' β' : Type} {R : α → β → Prop} {S : α' → β' → Prop} {o : Option α}
    {o' : Option β} {f : α → α'} {g : β → β'} (h : Sim R o o')
    (hf : ∀ a b, R a b → S (f a) (g b)) : Sim S (o.map f) (o'.map g) := by
  cases o <;> cases o' <;> simp_all [Sim]

theorem Sim.mono {α β : Type} {R S : α → β → Prop} {o : Option α} {o' : Option β} (h : Sim R o o')
    (hf : ∀ a b, R a b → S a b) : Sim S o o' := by
  cases o <;> cases o' <;> simp_all [Sim]

theorem Sim.some_right {α β : Type} {R : α → β → Prop} {o : Option α} {b : β}
    (h : Sim R o (some b)) : ∃ a, o = some a ∧ R a b := by
  cases o
  · exact absurd h id
  · exact ⟨_, rfl, h⟩

theorem Sim.some_left {α β : Type} {R : α → β → Prop} {a : α} {o' : Option β}
    (h : Sim R (some a) o') : ∃ b, o' = some b ∧ R a b := by
  cases o'
  · exact absurd h id
  · exact ⟨_, rfl, h⟩

theorem Sim.map_eq {α β γ : Type} {R : α → β → Prop} {o : Option α} {o' : Option β} {f : α → γ}
    {g : β → γ} (h : Sim R o o') (hf : ∀ a b, R a b → f a = g b) : o.map f = o'.map g := by
  match o, o', h with
  | none, none, _ => rfl
  | some a, some b, h => exact congrArg some (hf a b h)

/-! ### Trees in the memory -/

/-- A tree whose nodes carry their address besides the height. -/
abbrev P (K V : Type) := Tree (Nat × Int) K V

/-- The address of the root. -/
def ptr : P K V → Option Nat
  | nil => none
  | node a _ _ _ _ => some a.1

/-- The addresses of the nodes. -/
def addrs : P K V → List Nat
  | nil => []
  | node a _ _ l r => a.1 :: (addrs l ++ addrs r)

/-- Forget the addresses. -/
def erase : P K V → T K V
  | nil => nil
  | node a k v l r => node a.2 k v (erase l) (erase r)

/-- The memory holds the tree. -/
def Rep (m : Mem K V) : P K V → Prop
  | nil => True
  | node a k v l r => m a.1 = ⟨k, v, a.2, ptr l, ptr r⟩ ∧ Rep m l ∧ Rep m r

theorem Rep.congr {m m' : Mem K V} : ∀ {t : P K V}, Rep m t → (∀ a ∈ addrs t, m' a = m a) → Rep m' t
  | nil, _, _ => trivial
  | node a k v l r, h, hm => by
    refine ⟨(hm _ (by simp [addrs])).trans h.1, h.2.1.congr fun x hx => hm x ?_,
      h.2.2.congr fun x hx => hm x ?_⟩ <;> simp [addrs, hx]

theorem toList_erase (t : P K V) : (erase t).toList = t.toList := by
  induction t with
  | nil => rfl
  | node a k v l r ihl ihr => simp [erase, ihl, ihr]

theorem height_erase (t : P K V) : (erase t).height = t.height := by
  induction t with
  | nil => rfl
  | node a k v l r ihl ihr => simp [erase, Tree.height, ihl, ihr]

theorem length_addrs (t : P K V) : (addrs t).length = t.toList.length := by
  induction t with
  | nil => rfl
  | node a k v l r ihl ihr => simp [addrs, ihl, ihr]; omega

@[simp] theorem ptr_nil : ptr (nil : P K V) = none := rfl
@[simp] theorem ptr_node (a : Nat × Int) (k : K) (v : V) (l r : P K V) :
    ptr (node a k v l r) = some a.1 := rfl

theorem ptr_mem {t : P K V} {a : Nat} (h : ptr t = some a) : a ∈ addrs t := by
  cases t
  · cases h
  · cases h; simp [addrs]

theorem ptr_ne {t : P K V} {a : Nat} (h : a ∉ addrs t) : ptr t ≠ some a := fun h' => h (ptr_mem h')

theorem isNone_ptr (t : P K V) : (ptr t).isNone = (erase t).isNil := by cases t <;> rfl

theorem hgt_ptr {m : Mem K V} {t : P K V} (h : Rep m t) : hgt m (ptr t) = Avl.hgt (erase t) := by
  cases t with
  | nil => rfl
  | node a k v l r => simp [ptr, hgt, h.1, erase, Avl.hgt]

/-! ### Cells -/

@[simp] theorem upd_self (m : Mem K V) (a : Nat) (x : Cell K V) : upd m a x a = x := by simp [upd]
theorem upd_ne {m : Mem K V} {a b : Nat} (x : Cell K V) (h : b ≠ a) : upd m a x b = m b := by
  simp [upd, h]
theorem hgt_upd_ne {m : Mem K V} {a : Nat} {q : Option Nat} (x : Cell K V) (h : q ≠ some a) :
    hgt (upd m a x) q = hgt m q := by
  cases q with
  | none => rfl
  | some b => simp only [hgt]; rw [upd_ne]; rintro rfl; exact h rfl

@[simp] theorem kid_mk (k : K) (v : V) (h : Int) (p q : Option Nat) (c : Bool) :
    (Cell.mk k v h p q).kid c = if c then q else p := rfl
@[simp] theorem kid_setKid (x : Cell K V) (c : Bool) (p : Option Nat) : (x.setKid c p).kid c = p := by
  cases c <;> rfl
@[simp] theorem kid_setKid_not (x : Cell K V) (c : Bool) (p : Option Nat) :
    (x.setKid c p).kid (!c) = x.kid (!c) := by
  cases c <;> rfl
@[simp] theorem setKid_setKid (x : Cell K V) (c : Bool) (p q : Option Nat) :
    (x.setKid c p).setKid c q = x.setKid c q := by
  cases c <;> rfl
theorem setKid_kid {x : Cell K V} {c : Bool} {p : Option Nat} (h : x.kid c = p) : x.setKid c p = x := by
  cases c <;> cases x <;> simp_all [Cell.kid, Cell.setKid]
@[simp] theorem setKid_true (k : K) (v : V) (h : Int) (p q r : Option Nat) :
    (Cell.mk k v h p q).setKid true r = ⟨k, v, h, p, r⟩ := rfl
@[simp] theorem setKid_false (k : K) (v : V) (h : Int) (p q r : Option Nat) :
    (Cell.mk k v h p q).setKid false r = ⟨k, v, h, r, q⟩ := rfl

/-! ### Rotations -/

/-- The memory changed from `m` to `m'` in that the child `c` of `p` is the tree `t'` instead of `t`.
`t'` consists of the cells of `t` and of `new` without those of `gone`; other cells are not touched. -/
structure Good (new gone : List Nat) (m m' : Mem K V) (p : Nat) (c : Bool) (t t' : P K V) : Prop where
  rep : Rep m' t'
  par : m' p = (m p).setKid c (ptr t')
  perm : (gone ++ addrs t').Perm (new ++ addrs t)
  frame : ∀ x, x ∉ new ++ addrs t → x ≠ p → m' x = m x

/-- Closes `upd (upd m a x) b y z = m z` from `z ≠ a`, `z ≠ b`. -/
local macro "skip_upds" : tactic =>
  `(tactic| repeat (first | exact rfl | refine Eq.trans (upd_ne _ (by assumption)) ?_))

theorem hgt_node (h : Int) (k : K) (v : V) (l r : T K V) : Avl.hgt (node h k v l r) = h := rfl

theorem leftRotate_ok {one : Bool} {m : Mem K V} {p : Nat} {c : Bool} {t : P K V} (hR : Rep m t)
    (hn : (p :: addrs t).Nodup) (hp : (m p).kid c = ptr t) :
    Sim (fun m' u => ∃ t', erase t' = u ∧ Good [] [] m m' p c t t') (leftRotate one m p c)
      (Avl.leftRotate one (erase t)) := by
  match t with
  | nil => simp [leftRotate, hp, erase, Avl.leftRotate, Sim]
  | node (a, h) k v l nil =>
    simp [leftRotate, hp, erase, Avl.leftRotate, Sim, hR.1]
  | node (a, h) k v l (node (b, h2) k2 v2 x y) =>
    obtain ⟨h'a, hl, h'b, hx, hy⟩ := hR
    simp only [addrs, ptr_node] at *
    have hpa : p ≠ a := by grind
    have hpb : p ≠ b := by grind
    have hab : a ≠ b := by grind
    have dp : p ∉ addrs l ∧ p ∉ addrs x ∧ p ∉ addrs y := by grind
    have da : a ∉ addrs l ∧ a ∉ addrs x ∧ a ∉ addrs y := by grind
    have db : b ∉ addrs l ∧ b ∉ addrs x ∧ b ∉ addrs y := by grind
    simp only [leftRotate, hp, h'a, h'b, Option.bind_some, kid_mk, if_true, if_false,
      Bool.false_eq_true, link, fixH, setH, upd_self, upd_ne _ hpa, upd_ne _ hpa.symm, upd_ne _ hpb,
      upd_ne _ hpb.symm, upd_ne _ hab, upd_ne _ hab.symm, hgt_upd_ne _ (ptr_ne dp.1), hgt_upd_ne _
      (ptr_ne dp.2.1), hgt_upd_ne _ (ptr_ne dp.2.2), hgt_upd_ne _ (ptr_ne da.1), hgt_upd_ne _ (ptr_ne
      da.2.1), hgt_upd_ne _ (ptr_ne da.2.2), hgt_upd_ne _ (ptr_ne db.1), hgt_upd_ne _ (ptr_ne db.2.1),
      hgt_upd_ne _ (ptr_ne db.2.2), setKid_true, setKid_false, Sim, erase, Avl.leftRotate, hgt_ptr hl,
      hgt_ptr hx, hgt_ptr hy]
    refine ⟨(node (b, Avl.newH one 0 (node (Avl.newH one 1 (erase l) (erase x)) k v (erase l) (erase
      x)) (erase y)) k2 v2 (node (a, Avl.newH one 1 (erase l) (erase x)) k v l x) y), rfl, ⟨?_, ?_,
      ?_, ?_⟩⟩
    · simp only [Rep, ptr_node, upd_self, upd_ne _ hpa, upd_ne _ hpa.symm, upd_ne _ hpb, upd_ne _ hpb.symm, upd_ne _ hab, upd_ne _ hab.symm]
      refine ⟨?_, ⟨?_, hl.congr ?_, hx.congr ?_⟩, hy.congr ?_⟩
      all_goals first
      | intro z hz
        have hzp : z ≠ p := (by grind)
        have hza : z ≠ a := (by grind)
        have hzb : z ≠ b := (by grind)
        skip_upds
      | simp [Avl.newH, hgt_node, hgt, upd_ne _ hpa, upd_ne _ hpa.symm, upd_ne _ hpb, upd_ne _
        hpb.symm, upd_ne _ hab, upd_ne _ hab.symm]
    · simp only [ptr_node, upd_self, upd_ne _ hpa, upd_ne _ hpa.symm, upd_ne _ hpb, upd_ne _ hpb.symm, upd_ne _ hab, upd_ne _ hab.symm]
    · simp only [addrs, List.nil_append]; grind
    · intro z hz hzp
      simp only [addrs, List.nil_append, List.mem_cons, List.mem_append, not_or] at hz
      have hzp : z ≠ p := (by grind)
      have hza : z ≠ a := (by grind)
      have hzb : z ≠ b := (by grind)
      skip_upds

theorem rightRotate_ok {one : Bool} {m : Mem K V} {p : Nat} {c : Bool} {t : P K V} (hR : Rep m t)
    (hn : (p :: addrs t).Nodup) (hp : (m p).kid c = ptr t) :
    Sim (fun m' u => ∃ t', erase t' = u ∧ Good [] [] m m' p c t t') (rightRotate one m p c)
      (Avl.rightRotate one (erase t)) := by
  match t with
  | nil => simp [rightRotate, hp, erase, Avl.rightRotate, Sim]
  | node (a, h) k v nil l =>
    simp [rightRotate, hp, erase, Avl.rightRotate, Sim, hR.1]
  | node (a, h) k v (node (b, h2) k2 v2 x y) l =>
    obtain ⟨h'a, ⟨h'b, hx, hy⟩, hl⟩ := hR
    simp only [addrs, ptr_node] at *
    have hpa : p ≠ a := by grind
    have hpb : p ≠ b := by grind
    have hab : a ≠ b := by grind
    have dp : p ∉ addrs l ∧ p ∉ addrs x ∧ p ∉ addrs y := by grind
    have da : a ∉ addrs l ∧ a ∉ addrs x ∧ a ∉ addrs y := by grind
    have db : b ∉ addrs l ∧ b ∉ addrs x ∧ b ∉ addrs y := by grind
    simp only [rightRotate, hp, h'a, h'b, Option.bind_some, kid_mk, if_true, if_false,
      Bool.false_eq_true, link, fixH, setH, upd_self, upd_ne _ hpa, upd_ne _ hpa.symm, upd_ne _ hpb,
      upd_ne _ hpb.symm, upd_ne _ hab, upd_ne _ hab.symm, hgt_upd_ne _ (ptr_ne dp.1), hgt_upd_ne _
      (ptr_ne dp.2.1), hgt_upd_ne _ (ptr_ne dp.2.2), hgt_upd_ne _ (ptr_ne da.1), hgt_upd_ne _ (ptr_ne
      da.2.1), hgt_upd_ne _ (ptr_ne da.2.2), hgt_upd_ne _ (ptr_ne db.1), hgt_upd_ne _ (ptr_ne db.2.1),
      hgt_upd_ne _ (ptr_ne db.2.2), setKid_true, setKid_false, Sim, erase, Avl.rightRotate, hgt_ptr
      hl, hgt_ptr hx, hgt_ptr hy]
    refine ⟨(node (b, Avl.newH one 1 (erase x) (node (Avl.newH one 0 (erase y) (erase l)) k v (erase
      y) (erase l))) k2 v2 x (node (a, Avl.newH one 0 (erase y) (erase l)) k v y l)), rfl, ⟨?_, ?_,
      ?_, ?_⟩⟩
    · simp only [Rep, ptr_node, upd_self, upd_ne _ hpa, upd_ne _ hpa.symm, upd_ne _ hpb, upd_ne _ hpb.symm, upd_ne _ hab, upd_ne _ hab.symm]
      refine ⟨?_, hx.congr ?_, ?_, hy.congr ?_, hl.congr ?_⟩
      all_goals first
      | intro z hz
        have hzp : z ≠ p := (by grind)
        have hza : z ≠ a := (by grind)
        have hzb : z ≠ b := (by grind)
        skip_upds
      | simp [Avl.newH, hgt_node, hgt, upd_ne _ hpa, upd_ne _ hpa.symm, upd_ne _ hpb, upd_ne _
        hpb.symm, upd_ne _ hab, upd_ne _ hab.symm]
    · simp only [ptr_node, upd_self, upd_ne _ hpa, upd_ne _ hpa.symm, upd_ne _ hpb, upd_ne _ hpb.symm, upd_ne _ hab, upd_ne _ hab.symm]
    · simp only [addrs, List.nil_append]; grind
    · intro z hz hzp
      simp only [addrs, List.nil_append, List.mem_cons, List.mem_append, not_or] at hz
      have hzp : z ≠ p := (by grind)
      have hza : z ≠ a := (by grind)
      have hzb : z ≠ b := (by grind)
      skip_upds

theorem leftRotateWithRight_ok {one : Bool} {m : Mem K V} {p : Nat} {c : Bool} {t : P K V} (hR : Rep m t)
    (hn : (p :: addrs t).Nodup) (hp : (m p).kid c = ptr t) :
    Sim (fun m' u => ∃ t', erase t' = u ∧ Good [] [] m m' p c t t') (leftRotateWithRight one m p c)
      (Avl.leftRotateWithRight one (erase t)) := by
  match t with
  | nil => simp [leftRotateWithRight, hp, erase, Avl.leftRotateWithRight, Sim]
  | node (a, h) k v l nil =>
    simp [leftRotateWithRight, hp, erase, Avl.leftRotateWithRight, Sim, hR.1]
  | node (a, h) k v l (node (b, h2) k2 v2 nil w) =>
    simp [leftRotateWithRight, hp, erase, Avl.leftRotateWithRight, Sim, hR.1, hR.2.2.1]
  | node (a, h) k v l (node (b, h2) k2 v2 (node (e, h3) k3 v3 x y) w) =>
    obtain ⟨h'a, hl, h'b, ⟨h'e, hx, hy⟩, hw⟩ := hR
    simp only [addrs, ptr_node] at *
    have hpa : p ≠ a := by grind
    have hpb : p ≠ b := by grind
    have hpe : p ≠ e := by grind
    have hab : a ≠ b := by grind
    have hae : a ≠ e := by grind
    have hbe : b ≠ e := by grind
    have dp : p ∉ addrs l ∧ p ∉ addrs x ∧ p ∉ addrs y ∧ p ∉ addrs w := by grind
    have da : a ∉ addrs l ∧ a ∉ addrs x ∧ a ∉ addrs y ∧ a ∉ addrs w := by grind
    have db : b ∉ addrs l ∧ b ∉ addrs x ∧ b ∉ addrs y ∧ b ∉ addrs w := by grind
    have de : e ∉ addrs l ∧ e ∉ addrs x ∧ e ∉ addrs y ∧ e ∉ addrs w := by grind
    simp only [leftRotateWithRight, hp, h'a, h'b, h'e, Option.bind_some, kid_mk, if_true, if_false,
      Bool.false_eq_true, link, fixH, setH, upd_self, upd_ne _ hpa, upd_ne _ hpa.symm, upd_ne _ hpb,
      upd_ne _ hpb.symm, upd_ne _ hpe, upd_ne _ hpe.symm, upd_ne _ hab, upd_ne _ hab.symm, upd_ne _
      hae, upd_ne _ hae.symm, upd_ne _ hbe, upd_ne _ hbe.symm, hgt_upd_ne _ (ptr_ne dp.1), hgt_upd_ne
      _ (ptr_ne dp.2.1), hgt_upd_ne _ (ptr_ne dp.2.2.1), hgt_upd_ne _ (ptr_ne dp.2.2.2), hgt_upd_ne _
      (ptr_ne da.1), hgt_upd_ne _ (ptr_ne da.2.1), hgt_upd_ne _ (ptr_ne da.2.2.1), hgt_upd_ne _
      (ptr_ne da.2.2.2), hgt_upd_ne _ (ptr_ne db.1), hgt_upd_ne _ (ptr_ne db.2.1), hgt_upd_ne _
      (ptr_ne db.2.2.1), hgt_upd_ne _ (ptr_ne db.2.2.2), hgt_upd_ne _ (ptr_ne de.1), hgt_upd_ne _
      (ptr_ne de.2.1), hgt_upd_ne _ (ptr_ne de.2.2.1), hgt_upd_ne _ (ptr_ne de.2.2.2), setKid_true,
      setKid_false, Sim, erase, Avl.leftRotateWithRight, hgt_ptr hl, hgt_ptr hx, hgt_ptr hy, hgt_ptr
      hw]
    refine ⟨(node (e, Avl.newH one 0 (node (Avl.newH one 0 (erase l) (erase x)) k v (erase l) (erase
      x)) (node (Avl.newH one 1 (erase y) (erase w)) k2 v2 (erase y) (erase w))) k3 v3 (node (a,
      Avl.newH one 0 (erase l) (erase x)) k v l x) (node (b, Avl.newH one 1 (erase y) (erase w)) k2 v2
      y w)), rfl, ⟨?_, ?_, ?_, ?_⟩⟩
    · simp only [Rep, ptr_node, upd_self, upd_ne _ hpa, upd_ne _ hpa.symm, upd_ne _ hpb, upd_ne _ hpb.symm, upd_ne _ hpe, upd_ne _ hpe.symm, upd_ne _ hab, upd_ne _ hab.symm, upd_ne _ hae, upd_ne _ hae.symm, upd_ne _ hbe, upd_ne _ hbe.symm]
      refine ⟨?_, ⟨?_, hl.congr ?_, hx.congr ?_⟩, ?_, hy.congr ?_, hw.congr ?_⟩
      all_goals first
      | intro z hz
        have hzp : z ≠ p := (by grind)
        have hza : z ≠ a := (by grind)
        have hzb : z ≠ b := (by grind)
        have hze : z ≠ e := (by grind)
        skip_upds
      | simp [Avl.newH, hgt_node, hgt, upd_ne _ hpa, upd_ne _ hpa.symm, upd_ne _ hpb, upd_ne _
        hpb.symm, upd_ne _ hpe, upd_ne _ hpe.symm, upd_ne _ hab, upd_ne _ hab.symm, upd_ne _ hae,
        upd_ne _ hae.symm, upd_ne _ hbe, upd_ne _ hbe.symm]
    · simp only [ptr_node, upd_self, upd_ne _ hpa, upd_ne _ hpa.symm, upd_ne _ hpb, upd_ne _ hpb.symm, upd_ne _ hpe, upd_ne _ hpe.symm, upd_ne _ hab, upd_ne _ hab.symm, upd_ne _ hae, upd_ne _ hae.symm, upd_ne _ hbe, upd_ne _ hbe.symm]
    · simp only [addrs, List.nil_append]; grind
    · intro z hz hzp
      simp only [addrs, List.nil_append, List.mem_cons, List.mem_append, not_or] at hz
      have hzp : z ≠ p := (by grind)
      have hza : z ≠ a := (by grind)
      have hzb : z ≠ b := (by grind)
      have hze : z ≠ e := (by grind)
      skip_upds

theorem rightRotateWithLeft_ok {one : Bool} {m : Mem K V} {p : Nat} {c : Bool} {t : P K V} (hR : Rep m t)
    (hn : (p :: addrs t).Nodup) (hp : (m p).kid c = ptr t) :
    Sim (fun m' u => ∃ t', erase t' = u ∧ Good [] [] m m' p c t t') (rightRotateWithLeft one m p c)
      (Avl.rightRotateWithLeft one (erase t)) := by
  match t with
  | nil => simp [rightRotateWithLeft, hp, erase, Avl.rightRotateWithLeft, Sim]
  | node (a, h) k v nil l =>
    simp [rightRotateWithLeft, hp, erase, Avl.rightRotateWithLeft, Sim, hR.1]
  | node (a, h) k v (node (b, h2) k2 v2 w nil) l =>
    simp [rightRotateWithLeft, hp, erase, Avl.rightRotateWithLeft, Sim, hR.1, hR.2.1.1]
  | node (a, h) k v (node (b, h2) k2 v2 w (node (e, h3) k3 v3 x y)) l =>
    obtain ⟨h'a, ⟨h'b, hw, h'e, hx, hy⟩, hl⟩ := hR
    simp only [addrs, ptr_node] at *
    have hpa : p ≠ a := by grind
    have hpb : p ≠ b := by grind
    have hpe : p ≠ e := by grind
    have hab : a ≠ b := by grind
    have hae : a ≠ e := by grind
    have hbe : b ≠ e := by grind
    have dp : p ∉ addrs l ∧ p ∉ addrs x ∧ p ∉ addrs y ∧ p ∉ addrs w := by grind
    have da : a ∉ addrs l ∧ a ∉ addrs x ∧ a ∉ addrs y ∧ a ∉ addrs w := by grind
    have db : b ∉ addrs l ∧ b ∉ addrs x ∧ b ∉ addrs y ∧ b ∉ addrs w := by grind
    have de : e ∉ addrs l ∧ e ∉ addrs x ∧ e ∉ addrs y ∧ e ∉ addrs w := by grind
    simp only [rightRotateWithLeft, hp, h'a, h'b, h'e, Option.bind_some, kid_mk, if_true, if_false,
      Bool.false_eq_true, link, fixH, setH, upd_self, upd_ne _ hpa, upd_ne _ hpa.symm, upd_ne _ hpb,
      upd_ne _ hpb.symm, upd_ne _ hpe, upd_ne _ hpe.symm, upd_ne _ hab, upd_ne _ hab.symm, upd_ne _
      hae, upd_ne _ hae.symm, upd_ne _ hbe, upd_ne _ hbe.symm, hgt_upd_ne _ (ptr_ne dp.1), hgt_upd_ne
      _ (ptr_ne dp.2.1), hgt_upd_ne _ (ptr_ne dp.2.2.1), hgt_upd_ne _ (ptr_ne dp.2.2.2), hgt_upd_ne _
      (ptr_ne da.1), hgt_upd_ne _ (ptr_ne da.2.1), hgt_upd_ne _ (ptr_ne da.2.2.1), hgt_upd_ne _
      (ptr_ne da.2.2.2), hgt_upd_ne _ (ptr_ne db.1), hgt_upd_ne _ (ptr_ne db.2.1), hgt_upd_ne _
      (ptr_ne db.2.2.1), hgt_upd_ne _ (ptr_ne db.2.2.2), hgt_upd_ne _ (ptr_ne de.1), hgt_upd_ne _
      (ptr_ne de.2.1), hgt_upd_ne _ (ptr_ne de.2.2.1), hgt_upd_ne _ (ptr_ne de.2.2.2), setKid_true,
      setKid_false, Sim, erase, Avl.rightRotateWithLeft, hgt_ptr hl, hgt_ptr hx, hgt_ptr hy, hgt_ptr
      hw]
    refine ⟨(node (e, Avl.newH one 1 (node (Avl.newH one 0 (erase w) (erase x)) k2 v2 (erase w) (erase
      x)) (node (Avl.newH one 1 (erase y) (erase l)) k v (erase y) (erase l))) k3 v3 (node (b,
      Avl.newH one 0 (erase w) (erase x)) k2 v2 w x) (node (a, Avl.newH one 1 (erase y) (erase l)) k v
      y l)), rfl, ⟨?_, ?_, ?_, ?_⟩⟩
    · simp only [Rep, ptr_node, upd_self, upd_ne _ hpa, upd_ne _ hpa.symm, upd_ne _ hpb, upd_ne _ hpb.symm, upd_ne _ hpe, upd_ne _ hpe.symm, upd_ne _ hab, upd_ne _ hab.symm, upd_ne _ hae, upd_ne _ hae.symm, upd_ne _ hbe, upd_ne _ hbe.symm]
      refine ⟨?_, ⟨?_, hw.congr ?_, hx.congr ?_⟩, ?_, hy.congr ?_, hl.congr ?_⟩
      all_goals first
      | intro z hz
        have hzp : z ≠ p := (by grind)
        have hza : z ≠ a := (by grind)
        have hzb : z ≠ b := (by grind)
        have hze : z ≠ e := (by grind)
        skip_upds
      | simp [Avl.newH, hgt_node, hgt, upd_ne _ hpa, upd_ne _ hpa.symm, upd_ne _ hpb, upd_ne _
        hpb.symm, upd_ne _ hpe, upd_ne _ hpe.symm, upd_ne _ hab, upd_ne _ hab.symm, upd_ne _ hae,
        upd_ne _ hae.symm, upd_ne _ hbe, upd_ne _ hbe.symm]
    · simp only [ptr_node, upd_self, upd_ne _ hpa, upd_ne _ hpa.symm, upd_ne _ hpb, upd_ne _ hpb.symm, upd_ne _ hpe, upd_ne _ hpe.symm, upd_ne _ hab, upd_ne _ hab.symm, upd_ne _ hae, upd_ne _ hae.symm, upd_ne _ hbe, upd_ne _ hbe.symm]
    · simp only [addrs, List.nil_append]; grind
    · intro z hz hzp
      simp only [addrs, List.nil_append, List.mem_cons, List.mem_append, not_or] at hz
      have hzp : z ≠ p := (by grind)
      have hza : z ≠ a := (by grind)
      have hzb : z ≠ b := (by grind)
      have hze : z ≠ e := (by grind)
      skip_upds


end Verif.AvlHeap
