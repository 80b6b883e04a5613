import Verif.Queue.PriorityHeap
import Verif.Tree.AvlHeapSim

/-! The rotations of the pointer program of `Verif.Queue.PriorityHeap` do what those of
`Verif.Queue.PriorityModel` do. -/

namespace Verif.PriorityHeap
open Verif.AvlHeap
open Verif.Tree
variable {K V : Type}

set_option linter.unusedSimpArgs false

/-- Closes `upd (upd m a x) b y z = m z` from `z ≠ a`, `z ≠ b`. -/
local macro "skip_upds" : tactic =>
  `(tactic| repeat (first | exact rfl | refine Eq.trans (upd_ne _ (by assumption)) ?_))

theorem sz_node (h : Int) (k : K) (v : V) (l r : Tree Int K V) : Size.sz (node h k v l r) = h := rfl

theorem szp {m : Mem K V} {t : P K V} (h : Rep m t) : hgt m (ptr t) = Size.sz (erase t) := by
  cases t with
  | nil => rfl
  | node a k v l r => simp [ptr, hgt, h.1, erase, Size.sz]

/-- The child of the root on the side `c`, if it is there, has a child on the other side. -/
def inner (c : Bool) : P K V → Prop
  | nil => True
  | node _ _ _ l r =>
    match if c then r else l with
    | nil => True
    | node _ _ _ l' r' => (if c then l' else r') ≠ nil

theorem leftRotate_ok {m : Mem K V} {p : Nat} {c : Bool} {t : P K V} (hR : Rep m t)
    (hn : (p :: addrs t).Nodup) (hp : (m p).kid c = ptr t) :
    Sim (fun m' u => ∃ t', erase t' = u ∧ Good [] [] m m' p c t t') (leftRotate m p c)
      (Priority.leftRotate (erase t)) := by
  match t with
  | nil => simp [leftRotate, hp, erase, Priority.leftRotate, Sim]
  | node (a, h) k v l nil => simp [leftRotate, hp, erase, Priority.leftRotate, Sim, hR.1]
  | node (a, h) k v l (node (b, h2) k2 v2 x y) =>
    obtain ⟨h'a, hl, h'b, hx, hy⟩ := hR
    simp only [addrs, ptr_node] at *
    have hpa : p ≠ a := by grind
    have hpb : p ≠ b := by grind
    have hab : a ≠ b := by grind
    have dp : p ∉ addrs l ∧ p ∉ addrs x ∧ p ∉ addrs y := by grind
    have da : a ∉ addrs l ∧ a ∉ addrs x ∧ a ∉ addrs y := by grind
    have db : b ∉ addrs l ∧ b ∉ addrs x ∧ b ∉ addrs y := by grind
    simp only [leftRotate, hp, h'a, h'b, Option.bind_some, kid_mk, if_true, if_false,
      Bool.false_eq_true, link, updateSize, setH, upd_self, upd_ne _ hpa, upd_ne _ hpa.symm,
      upd_ne _ hpb, upd_ne _ hpb.symm, upd_ne _ hab, upd_ne _ hab.symm, hgt_upd_ne _ (ptr_ne
      dp.1), hgt_upd_ne _ (ptr_ne dp.2.1), hgt_upd_ne _ (ptr_ne dp.2.2), hgt_upd_ne _ (ptr_ne
      da.1), hgt_upd_ne _ (ptr_ne da.2.1), hgt_upd_ne _ (ptr_ne da.2.2), hgt_upd_ne _ (ptr_ne
      db.1), hgt_upd_ne _ (ptr_ne db.2.1), hgt_upd_ne _ (ptr_ne db.2.2), setKid_true,
      setKid_false, Sim, erase, Priority.leftRotate, szp hl, szp hx, szp hy]
    refine ⟨(node (b, Size.sz (Size.mk k v (erase l) (erase x)) + Size.sz (erase y) + 1) k2 v2
      (node (a, Size.sz (erase l) + Size.sz (erase x) + 1) k v l x) y), rfl, ⟨?_, ?_, ?_, ?_⟩⟩
    · simp only [Rep, ptr_node, upd_self, upd_ne _ hpa, upd_ne _ hpa.symm, upd_ne _ hpb, upd_ne
      _ hpb.symm, upd_ne _ hab, upd_ne _ hab.symm]
      refine ⟨?_, ⟨?_, hl.congr ?_, hx.congr ?_⟩, hy.congr ?_⟩
      all_goals first
      | intro z hz
        have hzp : z ≠ p := (by grind)
        have hza : z ≠ a := (by grind)
        have hzb : z ≠ b := (by grind)
        skip_upds
      | simp [Size.mk, sz_node, hgt, upd_ne _ hpa, upd_ne _ hpa.symm, upd_ne _ hpb, upd_ne _
        hpb.symm, upd_ne _ hab, upd_ne _ hab.symm]
    · simp only [ptr_node, upd_self, upd_ne _ hpa, upd_ne _ hpa.symm, upd_ne _ hpb, upd_ne _
      hpb.symm, upd_ne _ hab, upd_ne _ hab.symm]
    · simp only [addrs, List.nil_append]; grind
    · intro z hz hzp
      simp only [addrs, List.nil_append, List.mem_cons, List.mem_append, not_or] at hz
      have hza : z ≠ a := (by grind)
      have hzb : z ≠ b := (by grind)
      skip_upds

theorem rightRotate_ok {m : Mem K V} {p : Nat} {c : Bool} {t : P K V} (hR : Rep m t)
    (hn : (p :: addrs t).Nodup) (hp : (m p).kid c = ptr t) :
    Sim (fun m' u => ∃ t', erase t' = u ∧ Good [] [] m m' p c t t') (rightRotate m p c)
      (Priority.rightRotate (erase t)) := by
  match t with
  | nil => simp [rightRotate, hp, erase, Priority.rightRotate, Sim]
  | node (a, h) k v nil l => simp [rightRotate, hp, erase, Priority.rightRotate, Sim, hR.1]
  | node (a, h) k v (node (b, h2) k2 v2 x y) l =>
    obtain ⟨h'a, ⟨h'b, hx, hy⟩, hl⟩ := hR
    simp only [addrs, ptr_node] at *
    have hpa : p ≠ a := by grind
    have hpb : p ≠ b := by grind
    have hab : a ≠ b := by grind
    have dp : p ∉ addrs l ∧ p ∉ addrs x ∧ p ∉ addrs y := by grind
    have da : a ∉ addrs l ∧ a ∉ addrs x ∧ a ∉ addrs y := by grind
    have db : b ∉ addrs l ∧ b ∉ addrs x ∧ b ∉ addrs y := by grind
    simp only [rightRotate, hp, h'a, h'b, Option.bind_some, kid_mk, if_true, if_false,
      Bool.false_eq_true, link, updateSize, setH, upd_self, upd_ne _ hpa, upd_ne _ hpa.symm,
      upd_ne _ hpb, upd_ne _ hpb.symm, upd_ne _ hab, upd_ne _ hab.symm, hgt_upd_ne _ (ptr_ne
      dp.1), hgt_upd_ne _ (ptr_ne dp.2.1), hgt_upd_ne _ (ptr_ne dp.2.2), hgt_upd_ne _ (ptr_ne
      da.1), hgt_upd_ne _ (ptr_ne da.2.1), hgt_upd_ne _ (ptr_ne da.2.2), hgt_upd_ne _ (ptr_ne
      db.1), hgt_upd_ne _ (ptr_ne db.2.1), hgt_upd_ne _ (ptr_ne db.2.2), setKid_true,
      setKid_false, Sim, erase, Priority.rightRotate, szp hl, szp hx, szp hy]
    refine ⟨(node (b, Size.sz (erase x) + Size.sz (Size.mk k v (erase y) (erase l)) + 1) k2 v2 x
      (node (a, Size.sz (erase y) + Size.sz (erase l) + 1) k v y l)), rfl, ⟨?_, ?_, ?_, ?_⟩⟩
    · simp only [Rep, ptr_node, upd_self, upd_ne _ hpa, upd_ne _ hpa.symm, upd_ne _ hpb, upd_ne
      _ hpb.symm, upd_ne _ hab, upd_ne _ hab.symm]
      refine ⟨?_, hx.congr ?_, ?_, hy.congr ?_, hl.congr ?_⟩
      all_goals first
      | intro z hz
        have hzp : z ≠ p := (by grind)
        have hza : z ≠ a := (by grind)
        have hzb : z ≠ b := (by grind)
        skip_upds
      | simp [Size.mk, sz_node, hgt, upd_ne _ hpa, upd_ne _ hpa.symm, upd_ne _ hpb, upd_ne _
        hpb.symm, upd_ne _ hab, upd_ne _ hab.symm]
    · simp only [ptr_node, upd_self, upd_ne _ hpa, upd_ne _ hpa.symm, upd_ne _ hpb, upd_ne _
      hpb.symm, upd_ne _ hab, upd_ne _ hab.symm]
    · simp only [addrs, List.nil_append]; grind
    · intro z hz hzp
      simp only [addrs, List.nil_append, List.mem_cons, List.mem_append, not_or] at hz
      have hza : z ≠ a := (by grind)
      have hzb : z ≠ b := (by grind)
      skip_upds

theorem leftRotateWithRight_ok {m : Mem K V} {p : Nat} {c : Bool} {t : P K V} (hR : Rep m t)
    (hn : (p :: addrs t).Nodup) (hp : (m p).kid c = ptr t) (hs : inner true t) :
    Sim (fun m' u => ∃ t', erase t' = u ∧ Good [] [] m m' p c t t') (leftRotateWithRight m p c)
      (Priority.leftRotateWithRight (erase t)) := by
  match t, hs with
  | nil, hs => simp [leftRotateWithRight, hp, erase, Priority.leftRotateWithRight, Sim]
  | node (a, h) k v l nil, hs => simp [leftRotateWithRight, hp, erase,
    Priority.leftRotateWithRight, Sim, hR.1]
  | node (a, h) k v l (node (b, h2) k2 v2 nil w), hs => exact absurd hs (by simp [inner])
  | node (a, h) k v l (node (b, h2) k2 v2 (node (e, h3) k3 v3 x y) w), hs =>
    obtain ⟨h'a, hl, h'b, ⟨h'e, hx, hy⟩, hw⟩ := hR
    simp only [addrs, ptr_node] at *
    have hpa : p ≠ a := by grind
    have hpb : p ≠ b := by grind
    have hpe : p ≠ e := by grind
    have hab : a ≠ b := by grind
    have hae : a ≠ e := by grind
    have hbe : b ≠ e := by grind
    have dp : p ∉ addrs l ∧ p ∉ addrs x ∧ p ∉ addrs y ∧ p ∉ addrs w := by grind
    have da : a ∉ addrs l ∧ a ∉ addrs x ∧ a ∉ addrs y ∧ a ∉ addrs w := by grind
    have db : b ∉ addrs l ∧ b ∉ addrs x ∧ b ∉ addrs y ∧ b ∉ addrs w := by grind
    have de : e ∉ addrs l ∧ e ∉ addrs x ∧ e ∉ addrs y ∧ e ∉ addrs w := by grind
    simp only [leftRotateWithRight, hp, h'a, h'b, h'e, Option.bind_some, kid_mk, if_true,
      if_false, Bool.false_eq_true, link, updateSize, setH, upd_self, upd_ne _ hpa, upd_ne _
      hpa.symm, upd_ne _ hpb, upd_ne _ hpb.symm, upd_ne _ hpe, upd_ne _ hpe.symm, upd_ne _ hab,
      upd_ne _ hab.symm, upd_ne _ hae, upd_ne _ hae.symm, upd_ne _ hbe, upd_ne _ hbe.symm,
      hgt_upd_ne _ (ptr_ne dp.1), hgt_upd_ne _ (ptr_ne dp.2.1), hgt_upd_ne _ (ptr_ne dp.2.2.1),
      hgt_upd_ne _ (ptr_ne dp.2.2.2), hgt_upd_ne _ (ptr_ne da.1), hgt_upd_ne _ (ptr_ne da.2.1),
      hgt_upd_ne _ (ptr_ne da.2.2.1), hgt_upd_ne _ (ptr_ne da.2.2.2), hgt_upd_ne _ (ptr_ne
      db.1), hgt_upd_ne _ (ptr_ne db.2.1), hgt_upd_ne _ (ptr_ne db.2.2.1), hgt_upd_ne _ (ptr_ne
      db.2.2.2), hgt_upd_ne _ (ptr_ne de.1), hgt_upd_ne _ (ptr_ne de.2.1), hgt_upd_ne _ (ptr_ne
      de.2.2.1), hgt_upd_ne _ (ptr_ne de.2.2.2), setKid_true, setKid_false, Sim, erase,
      Priority.leftRotateWithRight, szp hl, szp hx, szp hy, szp hw]
    refine ⟨(node (e, Size.sz (Size.mk k v (erase l) (erase x)) + Size.sz (Size.mk k2 v2 (erase
      y) (erase w)) + 1) k3 v3 (node (a, Size.sz (erase l) + Size.sz (erase x) + 1) k v l x)
      (node (b, Size.sz (erase y) + Size.sz (erase w) + 1) k2 v2 y w)), rfl, ⟨?_, ?_, ?_, ?_⟩⟩
    · simp only [Rep, ptr_node, upd_self, upd_ne _ hpa, upd_ne _ hpa.symm, upd_ne _ hpb, upd_ne
      _ hpb.symm, upd_ne _ hpe, upd_ne _ hpe.symm, upd_ne _ hab, upd_ne _ hab.symm, upd_ne _
      hae, upd_ne _ hae.symm, upd_ne _ hbe, upd_ne _ hbe.symm]
      refine ⟨?_, ⟨?_, hl.congr ?_, hx.congr ?_⟩, ?_, hy.congr ?_, hw.congr ?_⟩
      all_goals first
      | intro z hz
        have hzp : z ≠ p := (by grind)
        have hza : z ≠ a := (by grind)
        have hzb : z ≠ b := (by grind)
        have hze : z ≠ e := (by grind)
        skip_upds
      | simp [Size.mk, sz_node, hgt, upd_ne _ hpa, upd_ne _ hpa.symm, upd_ne _ hpb, upd_ne _
        hpb.symm, upd_ne _ hpe, upd_ne _ hpe.symm, upd_ne _ hab, upd_ne _ hab.symm, upd_ne _
        hae, upd_ne _ hae.symm, upd_ne _ hbe, upd_ne _ hbe.symm]
    · simp only [ptr_node, upd_self, upd_ne _ hpa, upd_ne _ hpa.symm, upd_ne _ hpb, upd_ne _
      hpb.symm, upd_ne _ hpe, upd_ne _ hpe.symm, upd_ne _ hab, upd_ne _ hab.symm, upd_ne _ hae,
      upd_ne _ hae.symm, upd_ne _ hbe, upd_ne _ hbe.symm]
    · simp only [addrs, List.nil_append]; grind
    · intro z hz hzp
      simp only [addrs, List.nil_append, List.mem_cons, List.mem_append, not_or] at hz
      have hza : z ≠ a := (by grind)
      have hzb : z ≠ b := (by grind)
      have hze : z ≠ e := (by grind)
      skip_upds

theorem rightRotateWithLeft_ok {m : Mem K V} {p : Nat} {c : Bool} {t : P K V} (hR : Rep m t)
    (hn : (p :: addrs t).Nodup) (hp : (m p).kid c = ptr t) (hs : inner false t) :
    Sim (fun m' u => ∃ t', erase t' = u ∧ Good [] [] m m' p c t t') (rightRotateWithLeft m p c)
      (Priority.rightRotateWithLeft (erase t)) := by
  match t, hs with
  | nil, hs => simp [rightRotateWithLeft, hp, erase, Priority.rightRotateWithLeft, Sim]
  | node (a, h) k v nil l, hs => simp [rightRotateWithLeft, hp, erase,
    Priority.rightRotateWithLeft, Sim, hR.1]
  | node (a, h) k v (node (b, h2) k2 v2 w nil) l, hs => exact absurd hs (by simp [inner])
  | node (a, h) k v (node (b, h2) k2 v2 w (node (e, h3) k3 v3 x y)) l, hs =>
    obtain ⟨h'a, ⟨h'b, hw, h'e, hx, hy⟩, hl⟩ := hR
    simp only [addrs, ptr_node] at *
    have hpa : p ≠ a := by grind
    have hpb : p ≠ b := by grind
    have hpe : p ≠ e := by grind
    have hab : a ≠ b := by grind
    have hae : a ≠ e := by grind
    have hbe : b ≠ e := by grind
    have dp : p ∉ addrs l ∧ p ∉ addrs x ∧ p ∉ addrs y ∧ p ∉ addrs w := by grind
    have da : a ∉ addrs l ∧ a ∉ addrs x ∧ a ∉ addrs y ∧ a ∉ addrs w := by grind
    have db : b ∉ addrs l ∧ b ∉ addrs x ∧ b ∉ addrs y ∧ b ∉ addrs w := by grind
    have de : e ∉ addrs l ∧ e ∉ addrs x ∧ e ∉ addrs y ∧ e ∉ addrs w := by grind
    simp only [rightRotateWithLeft, hp, h'a, h'b, h'e, Option.bind_some, kid_mk, if_true,
      if_false, Bool.false_eq_true, link, updateSize, setH, upd_self, upd_ne _ hpa, upd_ne _
      hpa.symm, upd_ne _ hpb, upd_ne _ hpb.symm, upd_ne _ hpe, upd_ne _ hpe.symm, upd_ne _ hab,
      upd_ne _ hab.symm, upd_ne _ hae, upd_ne _ hae.symm, upd_ne _ hbe, upd_ne _ hbe.symm,
      hgt_upd_ne _ (ptr_ne dp.1), hgt_upd_ne _ (ptr_ne dp.2.1), hgt_upd_ne _ (ptr_ne dp.2.2.1),
      hgt_upd_ne _ (ptr_ne dp.2.2.2), hgt_upd_ne _ (ptr_ne da.1), hgt_upd_ne _ (ptr_ne da.2.1),
      hgt_upd_ne _ (ptr_ne da.2.2.1), hgt_upd_ne _ (ptr_ne da.2.2.2), hgt_upd_ne _ (ptr_ne
      db.1), hgt_upd_ne _ (ptr_ne db.2.1), hgt_upd_ne _ (ptr_ne db.2.2.1), hgt_upd_ne _ (ptr_ne
      db.2.2.2), hgt_upd_ne _ (ptr_ne de.1), hgt_upd_ne _ (ptr_ne de.2.1), hgt_upd_ne _ (ptr_ne
      de.2.2.1), hgt_upd_ne _ (ptr_ne de.2.2.2), setKid_true, setKid_false, Sim, erase,
      Priority.rightRotateWithLeft, szp hl, szp hx, szp hy, szp hw]
    refine ⟨(node (e, Size.sz (Size.mk k2 v2 (erase w) (erase x)) + Size.sz (Size.mk k v (erase
      y) (erase l)) + 1) k3 v3 (node (b, Size.sz (erase w) + Size.sz (erase x) + 1) k2 v2 w x)
      (node (a, Size.sz (erase y) + Size.sz (erase l) + 1) k v y l)), rfl, ⟨?_, ?_, ?_, ?_⟩⟩
    · simp only [Rep, ptr_node, upd_self, upd_ne _ hpa, upd_ne _ hpa.symm, upd_ne _ hpb, upd_ne
      _ hpb.symm, upd_ne _ hpe, upd_ne _ hpe.symm, upd_ne _ hab, upd_ne _ hab.symm, upd_ne _
      hae, upd_ne _ hae.symm, upd_ne _ hbe, upd_ne _ hbe.symm]
      refine ⟨?_, ⟨?_, hw.congr ?_, hx.congr ?_⟩, ?_, hy.congr ?_, hl.congr ?_⟩
      all_goals first
      | intro z hz
        have hzp : z ≠ p := (by grind)
        have hza : z ≠ a := (by grind)
        have hzb : z ≠ b := (by grind)
        have hze : z ≠ e := (by grind)
        skip_upds
      | simp [Size.mk, sz_node, hgt, upd_ne _ hpa, upd_ne _ hpa.symm, upd_ne _ hpb, upd_ne _
        hpb.symm, upd_ne _ hpe, upd_ne _ hpe.symm, upd_ne _ hab, upd_ne _ hab.symm, upd_ne _
        hae, upd_ne _ hae.symm, upd_ne _ hbe, upd_ne _ hbe.symm]
    · simp only [ptr_node, upd_self, upd_ne _ hpa, upd_ne _ hpa.symm, upd_ne _ hpb, upd_ne _
      hpb.symm, upd_ne _ hpe, upd_ne _ hpe.symm, upd_ne _ hab, upd_ne _ hab.symm, upd_ne _ hae,
      upd_ne _ hae.symm, upd_ne _ hbe, upd_ne _ hbe.symm]
    · simp only [addrs, List.nil_append]; grind
    · intro z hz hzp
      simp only [addrs, List.nil_append, List.mem_cons, List.mem_append, not_or] at hz
      have hza : z ≠ a := (by grind)
      have hzb : z ≠ b := (by grind)
      have hze : z ≠ e := (by grind)
      skip_upds

end Verif.PriorityHeap
