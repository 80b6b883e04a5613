import Verif.Tree.AvlHeapLemmas

/-! The recursive functions of the pointer program against the model with subtrees. -/

namespace Verif.AvlHeap
open Verif.Avl (w8 T)
open Verif.Tree
variable {K V : Type}

/-! ### Composition -/

theorem Good.refl {m : Mem K V} {p : Nat} {c : Bool} {t : P K V} (hR : Rep m t)
    (hp : (m p).kid c = ptr t) : Good [] [] m m p c t t :=
  ⟨hR, (setKid_kid hp).symm, .refl _, fun _ _ _ => rfl⟩

theorem Good.kid {new gone : List Nat} {m m' : Mem K V} {p : Nat} {c : Bool} {t t' : P K V}
    (h : Good new gone m m' p c t t') : (m' p).kid c = ptr t' := by rw [h.par]; simp

theorem Good.nodup {new gone : List Nat} {m m' : Mem K V} {p : Nat} {c : Bool} {t t' : P K V}
    (h : Good new gone m m' p c t t') (hn : (p :: (new ++ addrs t)).Nodup) :
    (p :: (gone ++ addrs t')).Nodup := (h.perm.cons p).nodup_iff.2 hn

theorem Good.trans {new gone : List Nat} {m m₁ m₂ : Mem K V} {p : Nat} {c : Bool}
    {t t₁ t₂ : P K V} (h : Good new gone m m₁ p c t t₁) (h' : Good [] [] m₁ m₂ p c t₁ t₂) :
    Good new gone m m₂ p c t t₂ := by
  refine ⟨h'.rep, by rw [h'.par, h.par, setKid_setKid], (h'.perm.append_left gone).trans h.perm, ?_⟩
  intro x hx hp
  rw [h'.frame x (fun hx' => hx (h.perm.mem_iff.1 (List.mem_append_right _ hx'))) hp, h.frame x hx hp]

theorem Good.left {new gone : List Nat} {m m' : Mem K V} {p a : Nat} {h : Int} {k : K} {v : V}
    {c : Bool} {l l' r : P K V} (hR : Rep m (node (a, h) k v l r)) (hp : (m p).kid c = some a)
    (hn : (p :: (new ++ addrs (node (a, h) k v l r))).Nodup) (hg : Good new gone m m' a false l l') :
    Good new gone m m' p c (node (a, h) k v l r) (node (a, h) k v l' r) := by
  obtain ⟨ha, hl, hr⟩ := hR
  simp only [addrs] at hn
  have hm : ∀ x ∈ addrs r, m' x = m x := fun x hx => hg.frame x (by grind) (by grind)
  refine ⟨⟨?_, hg.rep, hr.congr hm⟩, ?_, ?_, ?_⟩
  · rw [hg.par, ha]; rfl
  · rw [hg.frame p (by grind) (by grind)]; exact (setKid_kid hp).symm
  · have := (hg.perm.append_right (addrs r)).cons a
    simp only [addrs]
    refine List.perm_middle.trans (List.Perm.trans ?_ List.perm_middle.symm)
    simpa using this
  · intro x hx hxp
    simp only [addrs] at hx
    exact hg.frame x (by grind) (by grind)

theorem Good.right {new gone : List Nat} {m m' : Mem K V} {p a : Nat} {h : Int} {k : K} {v : V}
    {c : Bool} {l r r' : P K V} (hR : Rep m (node (a, h) k v l r)) (hp : (m p).kid c = some a)
    (hn : (p :: (new ++ addrs (node (a, h) k v l r))).Nodup) (hg : Good new gone m m' a true r r') :
    Good new gone m m' p c (node (a, h) k v l r) (node (a, h) k v l r') := by
  obtain ⟨ha, hl, hr⟩ := hR
  simp only [addrs] at hn
  have hm : ∀ x ∈ addrs l, m' x = m x := fun x hx => hg.frame x (by grind) (by grind)
  refine ⟨⟨?_, hl.congr hm, hg.rep⟩, ?_, ?_, ?_⟩
  · rw [hg.par, ha]; rfl
  · rw [hg.frame p (by grind) (by grind)]; exact (setKid_kid hp).symm
  · have := ((hg.perm.append_right (addrs l)).trans List.perm_append_comm).cons a
    simp only [addrs]
    refine List.perm_middle.trans (List.Perm.trans ?_ List.perm_middle.symm)
    have h1 : (gone ++ (addrs l ++ addrs r')).Perm (gone ++ addrs r' ++ addrs l) := by
      rw [List.append_assoc]; exact List.perm_append_comm.append_left _
    have h2 : (new ++ (addrs l ++ addrs r)).Perm (new ++ addrs r ++ addrs l) := by
      rw [List.append_assoc]; exact List.perm_append_comm.append_left _
    exact ((h1.trans (hg.perm.append_right _)).trans h2.symm).cons a
  · intro x hx hxp
    simp only [addrs] at hx
    exact hg.frame x (by grind) (by grind)

/-! ### rebalance -/

theorem setH_good {m : Mem K V} {p a : Nat} {h h' : Int} {k : K} {v : V} {c : Bool} {l r : P K V}
    (hR : Rep m (node (a, h) k v l r)) (hp : (m p).kid c = some a)
    (hn : (p :: addrs (node (a, h) k v l r)).Nodup) :
    Good [] [] m (setH m a h') p c (node (a, h) k v l r) (node (a, h') k v l r) := by
  obtain ⟨ha, hl, hr⟩ := hR
  simp only [addrs] at hn
  refine ⟨⟨by simp [setH, ha], hl.congr ?_, hr.congr ?_⟩, ?_, .refl _, ?_⟩
  · intro x hx; exact upd_ne _ (by grind)
  · intro x hx; exact upd_ne _ (by grind)
  · simp only [setH]; rw [upd_ne _ (by grind)]; exact (setKid_kid hp).symm
  · intro x hx hxp
    simp only [addrs] at hx
    exact upd_ne _ (by grind)

/-- How the results of the two programs are related. -/
def RebRel (m : Mem K V) (p : Nat) (c : Bool) (t : P K V) (q : Mem K V × Bool) (q' : T K V × Bool) :
    Prop := q.2 = q'.2 ∧ ∃ t', erase t' = q'.1 ∧ Good [] [] m q.1 p c t t'

theorem rebalance_ok {one : Bool} {d : Int} {m : Mem K V} {p : Nat} {c : Bool} {t : P K V}
    (hR : Rep m t) (hn : (p :: addrs t).Nodup) (hp : (m p).kid c = ptr t) :
    Sim (RebRel m p c t) (rebalance one d m p c) (Avl.rebalance one d (erase t)) := by
  match t with
  | nil => simp [rebalance, hp, erase, Avl.rebalance, Sim]
  | node (a, h) k v l r =>
    have r1 := rightRotateWithLeft_ok (one := one) hR hn hp
    have r2 := rightRotate_ok (one := one) hR hn hp
    have r3 := leftRotateWithRight_ok (one := one) hR hn hp
    have r4 := leftRotate_ok (one := one) hR hn hp
    have h0 := Good.refl hR hp
    have hs := fun h' => setH_good (h' := h') hR hp hn
    obtain ⟨ha, hl, hr⟩ := hR
    rw [ptr_node] at hp
    simp only [rebalance, hp, Option.bind_some, ha, hgt_ptr hl, hgt_ptr hr]
    rw [show erase (node (a, h) k v l r) = node h k v (erase l) (erase r) from rfl] at *
    simp only [Avl.rebalance]
    split
    · match l, hl with
      | nil, _ => simp [erase, Avl.kids, Sim]
      | node b k2 v2 x y, hl =>
        simp only [ptr_node, Option.bind_some, hl.1, hgt_ptr hl.2.1, hgt_ptr hl.2.2, erase, Avl.kids]
        split
        · exact r1.map fun _ _ h => ⟨rfl, h⟩
        · exact r2.map fun _ _ h => ⟨rfl, h⟩
    · split
      · match r, hr with
        | nil, _ => simp [erase, Avl.kids, Sim]
        | node b k2 v2 x y, hr =>
          simp only [ptr_node, Option.bind_some, hr.1, hgt_ptr hr.2.1, hgt_ptr hr.2.2, erase, Avl.kids]
          split
          · exact r3.map fun _ _ h => ⟨rfl, h⟩
          · exact r4.map fun _ _ h => ⟨rfl, h⟩
      · split <;> split
        · exact ⟨rfl, _, rfl, hs _⟩
        · exact ⟨rfl, _, rfl, h0⟩
        · exact ⟨rfl, _, rfl, hs _⟩
        · exact ⟨rfl, _, rfl, h0⟩

/-! ### neighboring -/

theorem link_good {m : Mem K V} {p : Nat} {c : Bool} {t t' : P K V} {gone : List Nat}
    (hn : (p :: addrs t).Nodup) (hR : Rep m t') (hg : (gone ++ addrs t').Perm (addrs t)) :
    Good [] gone m (link m p c (ptr t')) p c t t' := by
  refine ⟨hR.congr ?_, by simp [link], hg, ?_⟩
  · intro x hx
    refine upd_ne _ ?_
    rintro rfl
    exact (List.nodup_cons.1 hn).1 (hg.mem_iff.1 (List.mem_append_right _ hx))
  · intro x _ hx
    exact upd_ne _ hx

theorem neighboring_ok {one : Bool} {d : Int} {right : Bool} : ∀ {n : Nat} {m : Mem K V} {p : Nat}
    {c : Bool} {t : P K V}, Rep m t → (p :: addrs t).Nodup → (m p).kid c = ptr t → t.height ≤ n →
    Sim (fun q q' => q.2.2 = q'.2.2 ∧ ((q.1 q.2.1).key, (q.1 q.2.1).val) = q'.2.1 ∧
        ∃ t', erase t' = q'.1 ∧ Good [] [q.2.1] m q.1 p c t t')
      (neighboring one d n m p c right) (Avl.neighboring one d right (erase t)) := by
  intro n
  induction n with
  | zero =>
    intro m p c t hR hn hp hh
    cases t with
    | nil => trivial
    | node a k v l r => simp [Tree.height] at hh
  | succ n ih =>
    intro m p c t hR hn hp hh
    match t with
    | nil => simp [neighboring, hp, erase, Avl.neighboring, Sim]
    | node (a, h) k v l r =>
      have hR' := hR
      obtain ⟨ha, hl, hr⟩ := hR
      rw [ptr_node] at hp
      simp only [Tree.height] at hh
      have hna : (a :: addrs l).Nodup ∧ (a :: addrs r).Nodup := by simp only [addrs] at hn; grind
      have hpa : p ∉ addrs (node (a, h) k v l r) := (List.nodup_cons.1 hn).1
      simp only [neighboring, hp, Option.bind_some, ha, kid_mk, erase, Avl.neighboring]
      cases right with
      | true =>
        simp only [if_true]
        match r, hr with
        | nil, hr =>
          refine ⟨rfl, ?_, l, rfl, ?_⟩
          · simp only [link]; rw [upd_ne _ (fun e => hpa (by rw [← e]; simp [addrs])), ha]
          · exact link_good hn hl (by simp [addrs])
        | node b k2 v2 x y, hr =>
          simp only [ptr_node]
          refine (ih (c := true) hr hna.2 (by simp [ha]) (by omega)).bind ?_
          rintro ⟨m1, z, b1⟩ ⟨u, e, b2⟩ ⟨hb, he, t1, ht, hg⟩
          simp only at hb he ht hg ⊢
          subst hb
          have h1 := hg.right hR' hp hn
          have h2 := h1.nodup (new := []) hn
          have hz : z ∉ addrs (node (a, h) k v l t1) := by grind
          have hzp : z ≠ p := by grind
          cases b1 with
          | false =>
            simp only [Avl.rebIf, Bool.false_eq_true, if_false, Option.map_some]
            exact ⟨rfl, he, _, by rw [← ht]; rfl, h1⟩
          | true =>
            simp only [Avl.rebIf, if_true]
            have h3 := rebalance_ok (one := one) (d := d) h1.rep (by grind) h1.kid
            rw [show erase (node (a, h) k v l t1) = node h k v (erase l) u from by rw [← ht]; rfl] at h3
            refine h3.map ?_
            rintro ⟨m2, b3⟩ ⟨u2, b4⟩ ⟨h4, t2, h5, h6⟩
            refine ⟨h4, ?_, t2, h5, h1.trans h6⟩
            have h7 : m2 z = m1 z := h6.frame z hz hzp
            simpa only [h7] using he
      | false =>
        simp only [Bool.false_eq_true, if_false]
        match l, hl with
        | nil, hl =>
          refine ⟨rfl, ?_, r, rfl, ?_⟩
          · simp only [link]; rw [upd_ne _ (fun e => hpa (by rw [← e]; simp [addrs])), ha]
          · exact link_good hn hr (by simp [addrs])
        | node b k2 v2 x y, hl =>
          simp only [ptr_node]
          refine (ih (c := false) hl hna.1 (by simp [ha]) (by omega)).bind ?_
          rintro ⟨m1, z, b1⟩ ⟨u, e, b2⟩ ⟨hb, he, t1, ht, hg⟩
          simp only at hb he ht hg ⊢
          subst hb
          have h1 := hg.left hR' hp hn
          have h2 := h1.nodup (new := []) hn
          have hz : z ∉ addrs (node (a, h) k v t1 r) := by grind
          have hzp : z ≠ p := by grind
          cases b1 with
          | false =>
            simp only [Avl.rebIf, Bool.false_eq_true, if_false, Option.map_some]
            exact ⟨rfl, he, _, by rw [← ht]; rfl, h1⟩
          | true =>
            simp only [Avl.rebIf, if_true]
            have h3 := rebalance_ok (one := one) (d := d) h1.rep (by grind) h1.kid
            rw [show erase (node (a, h) k v t1 r) = node h k v u (erase r) from by rw [← ht]; rfl] at h3
            refine h3.map ?_
            rintro ⟨m2, b3⟩ ⟨u2, b4⟩ ⟨h4, t2, h5, h6⟩
            refine ⟨h4, ?_, t2, h5, h1.trans h6⟩
            have h7 : m2 z = m1 z := h6.frame z hz hzp
            simpa only [h7] using he

/-! ### remove -/

theorem write_good {new gone : List Nat} {m m' : Mem K V} {p a : Nat} {h : Int} {k k' : K} {v v' : V}
    {c : Bool} {t l r : P K V} (hg : Good new gone m m' p c t (node (a, h) k v l r))
    (hn : (p :: (new ++ addrs t)).Nodup) :
    Good new gone m (write m' a fun _ => (k', v')) p c t (node (a, h) k' v' l r) := by
  have h1 := hg.nodup hn
  simp only [addrs] at h1
  obtain ⟨⟨ha, hl, hr⟩, h3, h4, h5⟩ := hg
  have hmem : a ∈ new ++ addrs t := h4.mem_iff.1 (by simp [addrs])
  refine ⟨⟨by simp [write, ha], hl.congr ?_, hr.congr ?_⟩, ?_, h4, ?_⟩
  · intro x hx; exact upd_ne _ (by grind)
  · intro x hx; exact upd_ne _ (by grind)
  · simp only [write]; rw [upd_ne _ (by grind)]; exact h3
  · intro x hx hxp
    simp only [write]
    rw [upd_ne _ (by rintro rfl; exact hx hmem), h5 x hx hxp]

theorem remove_ok {cmp : K → K → Int} {one : Bool} {d : Int} {key : K} : ∀ {n : Nat} {m : Mem K V}
    {g p : Nat} {c2 c : Bool} {t : P K V}, Rep m t → (p :: addrs t).Nodup → (m p).kid c = ptr t →
    (m g).kid c2 = some p → 0 ∉ addrs t → t.height < n →
    Sim (fun q q' => q.2 = q'.2 ∧ ∃ t' gone, erase t' = q'.1 ∧ Good [] gone m q.1 p c t t' ∧
        gone.length = if q.2.1.isSome then 1 else 0)
      (remove cmp one d key n m g c2 c) (Avl.remove one d cmp key (erase t) c) := by
  intro n
  induction n with
  | zero => intro m g p c2 c t hR hn hp hg h0 hh; omega
  | succ n ih =>
    intro m g p c2 c t hR hn hp hg h0 hh
    match t with
    | nil =>
      simp only [remove, hg, Option.bind_some, hp, erase, Avl.remove, ptr_nil]
      exact ⟨rfl, nil, [], rfl, Good.refl hR hp, rfl⟩
    | node (a, h) k v l r =>
      have hR' := hR
      obtain ⟨ha, hl, hr⟩ := hR
      have hp' := hp
      rw [ptr_node] at hp
      simp only [Tree.height] at hh
      have hna : (a :: addrs l).Nodup ∧ (a :: addrs r).Nodup := by simp only [addrs] at hn; grind
      have h0' : a ≠ 0 ∧ 0 ∉ addrs l ∧ 0 ∉ addrs r := by simp only [addrs] at h0; grind
      simp only [remove, hg, Option.bind_some, hp, ha, erase, Avl.remove]
      by_cases hc : cmp k key < 0
      · simp only [hc, if_true, Avl.removeHere]
        match l, r, hl, hr with
        | nil, r, hl, hr =>
          exact ⟨rfl, r, [a], rfl, link_good hn hr (by simp [addrs]), rfl⟩
        | node b1 k1 v1 x1 y1, nil, hl, hr =>
          exact ⟨rfl, node b1 k1 v1 x1 y1, [a], rfl, link_good hn hl (by simp [addrs]), rfl⟩
        | node b1 k1 v1 x1 y1, node b2 k2 v2 x2 y2, hl, hr =>
          simp only [ptr_node, Option.isNone_some, Bool.false_eq_true, if_false, erase, isNil]
          cases c with
          | true =>
            simp only [if_true]
            refine (neighboring_ok (c := true) (n := n) hr hna.2 (by simp [ha]) (by omega)).bind ?_
            rintro ⟨m1, z, b1⟩ ⟨u, e, b2⟩ ⟨hb, he, t1, ht, hg1⟩
            simp only at hb he ht hg1 ⊢
            rw [he]
            have h1 := write_good (k' := e.1) (v' := e.2) (hg1.right hR' hp hn) hn
            have h2 := h1.nodup (new := []) hn
            have h3 := rebalance_ok (one := one) (d := d) h1.rep (by grind) h1.kid
            simp only [erase, ht] at h3
            refine h3.map ?_
            rintro ⟨m2, b3⟩ ⟨u2, b4⟩ ⟨h4, t2, h5, h6⟩
            exact ⟨by rw [← h4], t2, [z], h5, h1.trans h6, rfl⟩
          | false =>
            simp only [Bool.false_eq_true, if_false]
            refine (neighboring_ok (c := false) (n := n) hl hna.1 (by simp [ha]) (by omega)).bind ?_
            rintro ⟨m1, z, b1⟩ ⟨u, e, b2⟩ ⟨hb, he, t1, ht, hg1⟩
            simp only at hb he ht hg1 ⊢
            rw [he]
            have h1 := write_good (k' := e.1) (v' := e.2) (hg1.left hR' hp hn) hn
            have h2 := h1.nodup (new := []) hn
            have h3 := rebalance_ok (one := one) (d := d) h1.rep (by grind) h1.kid
            simp only [erase, ht] at h3
            refine h3.map ?_
            rintro ⟨m2, b3⟩ ⟨u2, b4⟩ ⟨h4, t2, h5, h6⟩
            exact ⟨by rw [← h4], t2, [z], h5, h1.trans h6, rfl⟩
      · simp only [hc, if_false]
        by_cases hc0 : cmp k key = 0
        · simp only [hc0, if_true, dir, Option.bind_some]
          refine (ih (c := false) hl hna.1 (by simp [ha]) hp h0'.2.1 (by omega)).bind ?_
          rintro ⟨m1, o, b1⟩ ⟨u, o', b2⟩ ⟨hb, t1, gone, ht, hg1, hl1⟩
          simp only at hb ht hg1 ⊢
          cases hb
          have h1 := hg1.left hR' hp hn
          have h2 := h1.nodup (new := []) hn
          cases b1 with
          | false =>
            simp only [Avl.rebIf, Bool.false_eq_true, and_false, if_false, Option.map_some]
            exact ⟨rfl, _, gone, by rw [← ht]; rfl, h1, hl1⟩
          | true =>
            simp only [Avl.rebIf, ne_eq, h0'.1, not_false_iff, and_self, if_true]
            have h3 := rebalance_ok (one := one) (d := d) h1.rep (by grind) h1.kid
            simp only [erase, ht] at h3
            refine h3.map ?_
            rintro ⟨m2, b3⟩ ⟨u2, b4⟩ ⟨h4, t2, h5, h6⟩
            exact ⟨by rw [← h4], t2, gone, h5, h1.trans h6, hl1⟩
        · by_cases hc1 : cmp k key = 1
          · simp only [hc1, if_true, dir, Option.bind_some, Int.one_ne_zero, if_false]
            refine (ih (c := true) hr hna.2 (by simp [ha]) hp h0'.2.2 (by omega)).bind ?_
            rintro ⟨m1, o, b1⟩ ⟨u, o', b2⟩ ⟨hb, t1, gone, ht, hg1, hl1⟩
            simp only at hb ht hg1 ⊢
            cases hb
            have h1 := hg1.right hR' hp hn
            have h2 := h1.nodup (new := []) hn
            cases b1 with
            | false =>
              simp only [Avl.rebIf, Bool.false_eq_true, and_false, if_false, Option.map_some]
              exact ⟨rfl, _, gone, by rw [← ht]; rfl, h1, hl1⟩
            | true =>
              simp only [Avl.rebIf, ne_eq, h0'.1, not_false_iff, and_self, if_true]
              have h3 := rebalance_ok (one := one) (d := d) h1.rep (by grind) h1.kid
              simp only [erase, ht] at h3
              refine h3.map ?_
              rintro ⟨m2, b3⟩ ⟨u2, b4⟩ ⟨h4, t2, h5, h6⟩
              exact ⟨by rw [← h4], t2, gone, h5, h1.trans h6, hl1⟩
          · simp [hc0, hc1, dir, Sim]

/-! ### Rotations do not depend on the entries -/

section
variable (m : Mem K V) (a x : Nat) (f : K × V → K × V)

theorem write_lo : (write m a f x).lo = (m x).lo := by
  simp only [write, upd]; split <;> simp_all
theorem write_hi : (write m a f x).hi = (m x).hi := by
  simp only [write, upd]; split <;> simp_all
theorem write_height : (write m a f x).height = (m x).height := by
  simp only [write, upd]; split <;> simp_all
theorem write_kid (c : Bool) : (write m a f x).kid c = (m x).kid c := by
  simp only [Cell.kid, write_lo, write_hi]
theorem write_hgt (q : Option Nat) : hgt (write m a f) q = hgt m q := by
  cases q <;> simp [hgt, write_height]

theorem link_write (c : Bool) (q : Option Nat) :
    link (write m a f) x c q = write (link m x c q) a f := by
  funext z
  by_cases h1 : z = x <;> by_cases h2 : z = a <;> by_cases h3 : x = a <;> cases c <;>
    simp_all [link, write, upd, Cell.setKid]

theorem setH_write (h : Int) : setH (write m a f) x h = write (setH m x h) a f := by
  funext z
  by_cases h1 : z = x <;> by_cases h2 : z = a <;> by_cases h3 : x = a <;>
    simp_all [setH, write, upd]

theorem fixH_write (one c : Bool) : fixH one c (write m a f) x = write (fixH one c m x) a f := by
  simp only [fixH, write_kid, write_hgt, write_lo, write_hi, setH_write]

end

section
variable (one : Bool) (m : Mem K V) (a p : Nat) (c : Bool) (f : K × V → K × V)

theorem leftRotate_write :
    leftRotate one (write m a f) p c = (leftRotate one m p c).map (write · a f) := by
  simp only [leftRotate, write_kid, link_write, fixH_write, Option.map_bind, Function.comp_def, Option.map_some]

theorem rightRotate_write :
    rightRotate one (write m a f) p c = (rightRotate one m p c).map (write · a f) := by
  simp only [rightRotate, write_kid, link_write, fixH_write, Option.map_bind, Function.comp_def, Option.map_some]

theorem leftRotateWithRight_write :
    leftRotateWithRight one (write m a f) p c = (leftRotateWithRight one m p c).map (write · a f) := by
  simp only [leftRotateWithRight, write_kid, link_write, fixH_write, Option.map_bind, Function.comp_def, Option.map_some]

theorem rightRotateWithLeft_write :
    rightRotateWithLeft one (write m a f) p c = (rightRotateWithLeft one m p c).map (write · a f) := by
  simp only [rightRotateWithLeft, write_kid, link_write, fixH_write, Option.map_bind, Function.comp_def, Option.map_some]

theorem rebalance_write (d : Int) :
    rebalance one d (write m a f) p c = (rebalance one d m p c).map fun q => (write q.1 a f, q.2) := by
  simp only [rebalance, write_kid, write_hgt, write_lo, write_hi, write_height, leftRotate_write,
    rightRotate_write, leftRotateWithRight_write, rightRotateWithLeft_write, setH_write,
    Option.map_bind]
  refine congrArg _ (funext fun n => ?_)
  simp only [Function.comp]
  split
  · cases (m n).lo
    · rfl
    · simp only [Option.bind_some]
      split <;> simp only [Option.map_map] <;> rfl
  · split
    · cases (m n).hi
      · rfl
      · simp only [Option.bind_some]
        split <;> simp only [Option.map_map] <;> rfl
    · split <;> split <;> rfl

end

theorem rebalance_key {one : Bool} {m : Mem K V} {a p : Nat} {c : Bool} {d : Int} {key : K}
    {q : Mem K V × Bool} (h : rebalance one d m p c = some q) (hk : (m a).key = key) :
    (q.1 a).key = key := by
  have h1 : write m a (fun e => (key, e.2)) = m := by
    subst hk; funext x; simp only [write, upd]; split <;> simp_all
  have h2 := rebalance_write one m a p c (fun e => (key, e.2)) d
  rw [h1, h, Option.map_some, Option.some.injEq] at h2
  rw [h2]
  simp [write]

/-! ### put -/

/-- What the callers of `put` do with the node it returns. -/
def later (key : K) (val : V) (f : K × V → K × V) (ex : Bool) : K × V → K × V :=
  if ex then f else fun _ => (key, val)

theorem write_entry {m : Mem K V} {p a : Nat} {h : Int} {k : K} {v : V} {c : Bool} {l r : P K V}
    {f : K × V → K × V} (hR : Rep m (node (a, h) k v l r)) (hp : (m p).kid c = some a)
    (hn : (p :: addrs (node (a, h) k v l r)).Nodup) :
    Good [] [] m (write m a f) p c (node (a, h) k v l r)
      (node (a, h) (f (k, v)).1 (f (k, v)).2 l r) := by
  have h1 := write_good (k' := (f (k, v)).1) (v' := (f (k, v)).2) (Good.refl (c := c) hR hp) hn
  have : write m a f = write m a fun _ => ((f (k, v)).1, (f (k, v)).2) := by
    simp only [write, hR.1]
  rw [this]
  exact h1

theorem put_ok {cmp : K → K → Int} {one : Bool} {d : Int} {zero : V} {free : Nat} {key : K} {val : V}
    {f : K × V → K × V} : ∀ {n : Nat} {m : Mem K V} {p : Nat} {c : Bool} {t : P K V}, Rep m t →
    (p :: free :: addrs t).Nodup → (m p).kid c = ptr t → t.height < n →
    Sim (fun q q' => q.ex = q'.2.1 ∧ q.reb = q'.2.2 ∧
        q.target ∈ (if q.ex then [] else [free]) ++ addrs t ∧
        (q.ex = false → (q.mem q.target).key = key) ∧ ∃ t', erase t' = q'.1 ∧ Good (if q.ex then [] else [free]) [] m
          (write q.mem q.target (later key val f q.ex)) p c t t')
      (put cmp one d zero free key n m p c)
      (Avl.put cmp one d key val f (erase t) ((m p).kid (!c)).isNone) := by
  intro n
  induction n with
  | zero => intro m p c t hR hn hp hh; omega
  | succ n ih =>
    intro m p c t hR hn hp hh
    match t with
    | nil =>
      rw [ptr_nil] at hp
      have hpf : p ≠ free := by grind
      simp only [put, hp, erase, Avl.put]
      refine ⟨rfl, ?_, by simp, fun _ => by simp [link, upd_ne _ hpf.symm], node (free, 1) key val nil nil, rfl, ?_, ?_, .refl _, ?_⟩
      · simp [link, upd_ne _ hpf]
      · refine ⟨?_, trivial, trivial⟩
        simp [write, link, upd_ne _ hpf.symm, later]
      · simp [write, link, upd_ne _ hpf]
      · intro x hx hxp
        have hxf : x ≠ free := by simpa [addrs] using hx
        simp [write, link, upd_ne _ hxp, upd_ne _ hxf]
    | node (a, h) k v l r =>
      have hR' := hR
      obtain ⟨ha, hl, hr⟩ := hR
      rw [ptr_node] at hp
      simp only [Tree.height] at hh
      have hna : (a :: free :: addrs l).Nodup ∧ (a :: free :: addrs r).Nodup := by
        simp only [addrs] at hn; grind
      have hn' : (p :: addrs (node (a, h) k v l r)).Nodup := by grind
      simp only [put, hp, ha, erase, Avl.put]
      by_cases hc : cmp k key < 0
      · simp only [hc, if_true]
        exact ⟨rfl, rfl, by simp [addrs], nofun, _, rfl, write_entry hR' hp hn'⟩
      · simp only [hc, if_false]
        by_cases hc0 : cmp k key = 0
        · simp only [hc0, if_true, dir, Option.bind_some]
          have h1 := ih (c := false) hl hna.1 (by simp [ha]) (by omega)
          rw [show ((m a).kid (!false)).isNone = (erase r).isNil by simp [ha, isNone_ptr]] at h1
          refine h1.bind ?_
          rintro ⟨m1, z, ex, rb⟩ ⟨u, ex', rb'⟩ ⟨he, hb, hz, hk, t1, ht, hg⟩
          simp only at he hb ht hg hz hk ⊢
          cases he; cases hb
          have h2 := hg.left hR' hp (by cases ex <;> grind)
          have hz' : z ∈ (if ex then [] else [free]) ++ addrs (node (a, h) k v l r) := by
            simp only [addrs]; grind
          split
          · exact ⟨rfl, rfl, hz', hk, _, by rw [← ht]; rfl, h2⟩
          · have h3 := h2.nodup (by cases ex <;> grind)
            have h4 := rebalance_ok (one := one) (d := d) h2.rep (by grind) h2.kid
            rw [rebalance_write] at h4
            simp only [erase, ht] at h4
            cases hq : rebalance one d m1 p c with
            | none =>
              rw [hq] at h4
              revert h4
              cases Avl.rebalance one d (node h k v u (erase r)) <;> simp [Sim]
            | some q =>
              rw [hq] at h4
              revert h4
              cases Avl.rebalance one d (node h k v u (erase r)) with
              | none => simp [Sim]
              | some q' =>
                rintro ⟨h5, t2, h6, h7⟩
                exact ⟨rfl, h5, hz', fun h8 => rebalance_key hq (hk h8), t2, h6, h2.trans h7⟩
        · by_cases hc1 : cmp k key = 1
          · simp only [hc1, if_true, dir, Option.bind_some, Int.one_ne_zero, if_false]
            have h1 := ih (c := true) hr hna.2 (by simp [ha]) (by omega)
            rw [show ((m a).kid (!true)).isNone = (erase l).isNil by simp [ha, isNone_ptr]] at h1
            refine h1.bind ?_
            rintro ⟨m1, z, ex, rb⟩ ⟨u, ex', rb'⟩ ⟨he, hb, hz, hk, t1, ht, hg⟩
            simp only at he hb ht hg hz hk ⊢
            cases he; cases hb
            have h2 := hg.right hR' hp (by cases ex <;> grind)
            have hz' : z ∈ (if ex then [] else [free]) ++ addrs (node (a, h) k v l r) := by
              simp only [addrs]; grind
            split
            · exact ⟨rfl, rfl, hz', hk, _, by rw [← ht]; rfl, h2⟩
            · have h3 := h2.nodup (by cases ex <;> grind)
              have h4 := rebalance_ok (one := one) (d := d) h2.rep (by grind) h2.kid
              rw [rebalance_write] at h4
              simp only [erase, ht] at h4
              cases hq : rebalance one d m1 p c with
              | none =>
                rw [hq] at h4
                revert h4
                cases Avl.rebalance one d (node h k v (erase l) u) <;> simp [Sim]
              | some q =>
                rw [hq] at h4
                revert h4
                cases Avl.rebalance one d (node h k v (erase l) u) with
                | none => simp [Sim]
                | some q' =>
                  rintro ⟨h5, t2, h6, h7⟩
                  exact ⟨rfl, h5, hz', fun h8 => rebalance_key hq (hk h8), t2, h6, h2.trans h7⟩
          · simp [hc0, hc1, dir, Sim]

end Verif.AvlHeap
