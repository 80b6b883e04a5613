import Verif.Queue.PriorityHeapRot

/-! The recursive functions of the pointer program of `Verif.Queue.PriorityHeap` against the model with
subtrees. -/

namespace Verif.PriorityHeap
open Verif.AvlHeap
open Verif.Tree
open Verif.Size (sz)
variable {K V : Type}

/-! ### Composition -/

theorem Good.before {new gone : List Nat} {m m₁ m₂ : Mem K V} {p : Nat} {c : Bool}
    {t t₁ t₂ : P K V} (h : Good [] [] m m₁ p c t t₁) (h' : Good new gone m₁ m₂ p c t₁ t₂) :
    Good new gone m m₂ p c t t₂ := by
  refine ⟨h'.rep, by rw [h'.par, h.par, setKid_setKid],
    h'.perm.trans ((show (addrs t₁).Perm (addrs t) from h.perm).append_left new), ?_⟩
  intro x hx hp
  have hx' : x ∉ new ++ addrs t₁ := fun hx' => hx
    (((show (addrs t₁).Perm (addrs t) from h.perm).append_left new).mem_iff.1 hx')
  rw [h'.frame x hx' hp, h.frame x (fun h => hx (List.mem_append_right _ h)) hp]

theorem Sim.mapl {α β α' : Type} {R : α → β → Prop} {S : α' → β → Prop} {o : Option α}
    {o' : Option β} {f : α → α'} (h : Sim R o o') (hf : ∀ a b, R a b → S (f a) b) :
    Sim S (o.map f) o' := by
  cases o <;> cases o' <;> simp_all [Sim]

theorem Sim.mapr {α β β' : Type} {R : α → β → Prop} {S : α → β' → Prop} {o : Option α}
    {o' : Option β} {f : β → β'} (h : Sim R o o') (hf : ∀ a b, R a b → S a (f b)) :
    Sim S o (o'.map f) := by
  cases o <;> cases o' <;> simp_all [Sim]

theorem Sim.with_right {α β : Type} {R : α → β → Prop} {o : Option α} {o' : Option β}
    (h : Sim R o o') : Sim (fun a b => R a b ∧ o' = some b) o o' := by
  cases o <;> cases o' <;> simp_all [Sim]

/-! ### rebalance -/

theorem sizeRotateType_ok {m : Mem K V} {a : Nat} {c : Bool} {t : P K V} (hR : Rep m t)
    (hp : (m a).kid c = ptr t) : sizeRotateType m a c = Priority.sizeRotateType c (erase t) := by
  match t with
  | nil => simp [sizeRotateType, hp, erase, Priority.sizeRotateType]
  | node (b, h) k v l r =>
    obtain ⟨hb, hl, hr⟩ := hR
    simp only [sizeRotateType, hp, ptr_node, hb, kid_mk, erase, Priority.sizeRotateType]
    cases c with
    | true =>
      simp only [Bool.not_true, Bool.false_eq_true, if_false, if_true]
      match l, hl with
      | nil, _ => rfl
      | node d k2 v2 x y, hl =>
        have := szp hl
        simp only [ptr_node] at this
        simp only [ptr_node, erase, isNil, Bool.false_eq_true, if_false, szp hr, this]
        rfl
    | false =>
      simp only [Bool.not_false, Bool.false_eq_true, if_false, if_true]
      match r, hr with
      | nil, _ => rfl
      | node d k2 v2 x y, hr =>
        have := szp hr
        simp only [ptr_node] at this
        simp only [ptr_node, erase, isNil, Bool.false_eq_true, if_false, szp hl, this]
        rfl

theorem inner_of_type {c : Bool} {x : Nat × Int} {k : K} {v : V} {l r : P K V}
    (h : Priority.sizeRotateType c (erase (if c then r else l)) = true) :
    inner c (node x k v l r) := by
  simp only [inner]
  cases hs : (if c then r else l) with
  | nil => trivial
  | node y k2 v2 l2 r2 =>
    rw [hs] at h
    simp only [erase, Priority.sizeRotateType] at h
    cases c <;> simp only [Bool.false_eq_true, if_false, if_true] at h ⊢ <;> rintro rfl <;>
      simp [erase, isNil] at h

/-- How the results of the two programs are related. -/
def RebRel (m : Mem K V) (p : Nat) (c : Bool) (t : P K V) (m' : Mem K V) (u : Tree Int K V) :
    Prop := ∃ t', erase t' = u ∧ Good [] [] m m' p c t t'

theorem rebalance_ok {m : Mem K V} {p : Nat} {c : Bool} {t : P K V} (hR : Rep m t)
    (hn : (p :: addrs t).Nodup) (hp : (m p).kid c = ptr t) :
    Sim (RebRel m p c t) (rebalance m p c) (Priority.rebalance (erase t)) := by
  match t with
  | nil => simp [rebalance, hp, erase, Priority.rebalance, Sim]
  | node (a, h) k v l r =>
    have r1 := rightRotateWithLeft_ok hR hn hp
    have r2 := rightRotate_ok hR hn hp
    have r3 := leftRotateWithRight_ok hR hn hp
    have r4 := leftRotate_ok hR hn hp
    have h0 := Good.refl hR hp
    have s1 := sizeRotateType_ok (c := false) (a := a) hR.2.1 (by simp [hR.1])
    have s2 := sizeRotateType_ok (c := true) (a := a) hR.2.2 (by simp [hR.1])
    obtain ⟨ha, hl, hr⟩ := hR
    rw [ptr_node] at hp
    simp only [rebalance, hp, Option.bind_some, ha, szp hl, szp hr]
    rw [show erase (node (a, h) k v l r) = node h k v (erase l) (erase r) from rfl] at *
    simp only [Priority.rebalance]
    cases Priority.maybeHeight h with
    | none => trivial
    | some h0' =>
      simp only [Option.bind_some, s1, s2]
      generalize Priority.bottomsize _ = B
      repeat' split
      · rename_i h1; exact r1 (inner_of_type (c := false) h1)
      · exact r2
      · exact ⟨_, rfl, h0⟩
      · rename_i h1; exact r3 (inner_of_type (c := true) h1)
      · exact r4
      · exact ⟨_, rfl, h0⟩
      · exact ⟨_, rfl, h0⟩

/-- Count a size up or down and rebalance. -/
theorem change_ok {new gone : List Nat} {m m₁ : Mem K V} {p a : Nat} {c : Bool} {t l r : P K V}
    {h h' : Int} {k : K} {v : V} (hg : Good new gone m m₁ p c t (node (a, h) k v l r))
    (hn : (p :: (new ++ addrs t)).Nodup) :
    Good new gone m (setH m₁ a h') p c t (node (a, h') k v l r) ∧
    Sim (fun m' u => ∃ t', erase t' = u ∧ Good new gone m m' p c t t')
      (rebalance (setH m₁ a h') p c) (Priority.rebalance (node h' k v (erase l) (erase r))) := by
  have h1 := hg.nodup hn
  have h2 : (p :: addrs (node (a, h) k v l r)).Nodup := by grind
  have h3 := setH_good (h' := h') hg.rep hg.kid h2
  have h4 := hg.trans h3
  refine ⟨h4, ?_⟩
  refine (rebalance_ok h4.rep (by simpa [addrs] using h2) h4.kid).mono ?_
  rintro m' u ⟨t', h5, h6⟩
  exact ⟨t', h5, h4.trans h6⟩

/-! ### neighboring, removal of a node -/

theorem neighboring_ok {right : Bool} : ∀ {n : Nat} {m : Mem K V} {p : Nat}
    {c : Bool} {t : P K V}, Rep m t → (p :: addrs t).Nodup → (m p).kid c = ptr t → t.height ≤ n →
    Sim (fun q q' => ((q.1 q.2).key, (q.1 q.2).val) = q'.2 ∧
        ∃ t', erase t' = q'.1 ∧ Good [] [q.2] m q.1 p c t t')
      (neighboring n m p c right) (Priority.neighboring right (erase t)) := by
  intro n
  induction n with
  | zero =>
    intro m p c t hR hn hp hh
    cases t with
    | nil => trivial
    | node a k v l r => simp [Tree.height] at hh
  | succ n ih =>
    intro m p c t hR hn hp hh
    match t with
    | nil => simp [neighboring, hp, erase, Priority.neighboring, Sim]
    | node (a, h) k v l r =>
      have hR' := hR
      obtain ⟨ha, hl, hr⟩ := hR
      rw [ptr_node] at hp
      simp only [Tree.height] at hh
      have hna : (a :: addrs l).Nodup ∧ (a :: addrs r).Nodup := by simp only [addrs] at hn; grind
      have hpa : p ∉ addrs (node (a, h) k v l r) := (List.nodup_cons.1 hn).1
      simp only [neighboring, hp, Option.bind_some, ha, kid_mk, erase, Priority.neighboring]
      cases right with
      | true =>
        simp only [if_true]
        match r, hr with
        | nil, hr =>
          refine ⟨?_, l, rfl, ?_⟩
          · simp only [link]; rw [upd_ne _ (fun e => hpa (by rw [← e]; simp [addrs])), ha]
          · exact link_good hn hl (by simp [addrs])
        | node b k2 v2 x y, hr =>
          simp only [ptr_node]
          refine (ih (c := true) hr hna.2 (by simp [ha]) (by omega)).bind ?_
          rintro ⟨m1, z⟩ ⟨u, e⟩ ⟨he, t1, ht, hg⟩
          simp only at he ht hg ⊢
          have h1 := hg.right hR' hp hn
          have h2 := h1.nodup (new := []) hn
          have hz : z ∉ addrs (node (a, h) k v l t1) := by grind
          have hzp : z ≠ p := by grind
          have hza : z ≠ a := by simp only [addrs] at hz; grind
          rw [show (m1 a).height = h from by rw [hg.par, ha]; rfl]
          obtain ⟨h3, h4⟩ := change_ok (h' := h - 1) h1 hn
          have h5 := rebalance_ok h3.rep (by simp only [addrs] at h2 ⊢; grind) h3.kid
          simp only [erase, ht] at h5
          refine h5.map ?_
          rintro m2 u2 ⟨t2, h6, h7⟩
          refine ⟨?_, t2, h6, h3.trans h7⟩
          have h8 : m2 z = m1 z := by
            rw [h7.frame z (by simpa [addrs] using hz) hzp, setH, upd_ne _ hza]
          simpa only [h8] using he
      | false =>
        simp only [Bool.false_eq_true, if_false]
        match l, hl with
        | nil, hl =>
          refine ⟨?_, r, rfl, ?_⟩
          · simp only [link]; rw [upd_ne _ (fun e => hpa (by rw [← e]; simp [addrs])), ha]
          · exact link_good hn hr (by simp [addrs])
        | node b k2 v2 x y, hl =>
          simp only [ptr_node]
          refine (ih (c := false) hl hna.1 (by simp [ha]) (by omega)).bind ?_
          rintro ⟨m1, z⟩ ⟨u, e⟩ ⟨he, t1, ht, hg⟩
          simp only at he ht hg ⊢
          have h1 := hg.left hR' hp hn
          have h2 := h1.nodup (new := []) hn
          have hz : z ∉ addrs (node (a, h) k v t1 r) := by grind
          have hzp : z ≠ p := by grind
          have hza : z ≠ a := by simp only [addrs] at hz; grind
          rw [show (m1 a).height = h from by rw [hg.par, ha]; rfl]
          obtain ⟨h3, h4⟩ := change_ok (h' := h - 1) h1 hn
          have h5 := rebalance_ok h3.rep (by simp only [addrs] at h2 ⊢; grind) h3.kid
          simp only [erase, ht] at h5
          refine h5.map ?_
          rintro m2 u2 ⟨t2, h6, h7⟩
          refine ⟨?_, t2, h6, h3.trans h7⟩
          have h8 : m2 z = m1 z := by
            rw [h7.frame z (by simpa [addrs] using hz) hzp, setH, upd_ne _ hza]
          simpa only [h8] using he

theorem updateSize_eq {m : Mem K V} {x : Nat × Int} {k : K} {v : V} {l r : P K V}
    (h : Rep m (node x k v l r)) :
    updateSize m x.1 = setH m x.1 (sz (erase l) + sz (erase r) + 1) := by
  simp only [updateSize, h.1, szp h.2.1, szp h.2.2]

theorem removeHere_ok {n : Nat} {m : Mem K V} {p a : Nat} {c : Bool} {h : Int} {k : K} {v : V}
    {l r : P K V} (hR : Rep m (node (a, h) k v l r)) (hn : (p :: addrs (node (a, h) k v l r)).Nodup)
    (hp : (m p).kid c = some a) (hh : (node (a, h) k v l r).height ≤ n + 1) :
    Sim (fun q u => q.2 = v ∧ ∃ t' z, erase t' = u ∧ Good [] [z] m q.1 p c (node (a, h) k v l r) t')
      (removeHere n m p c a) (Priority.removeHere c (erase (node (a, h) k v l r))) := by
  have hR' := hR
  obtain ⟨ha, hl, hr⟩ := hR
  simp only [Tree.height] at hh
  have hna : (a :: addrs l).Nodup ∧ (a :: addrs r).Nodup := by simp only [addrs] at hn; grind
  simp only [removeHere, ha, erase, Priority.removeHere]
  match l, r, hl, hr with
  | nil, r, hl, hr =>
    exact ⟨rfl, r, a, rfl, link_good hn hr (by simp [addrs])⟩
  | node b1 k1 v1 x1 y1, nil, hl, hr =>
    exact ⟨rfl, node b1 k1 v1 x1 y1, a, rfl, link_good hn hl (by simp [addrs])⟩
  | node b1 k1 v1 x1 y1, node b2 k2 v2 x2 y2, hl, hr =>
    simp only [ptr_node, Option.isNone_some, Bool.false_eq_true, if_false, erase, isNil]
    cases c with
    | true =>
      simp only [if_true]
      refine (neighboring_ok (c := true) (n := n) hr hna.2 (by simp [ha]) (by omega)).bind ?_
      rintro ⟨m1, z⟩ ⟨u, e⟩ ⟨he, t1, ht, hg1⟩
      simp only at he ht hg1 ⊢
      rw [he]
      have h1 := write_good (k' := e.1) (v' := e.2) (hg1.right hR' hp hn) hn
      rw [updateSize_eq h1.rep]
      have h2 := (change_ok (h' := sz (erase (node b1 k1 v1 x1 y1)) + sz (erase t1) + 1) h1 hn).2
      rw [ht] at h2 ⊢
      revert h2
      simp only [Size.mk]
      exact fun h2 => Sim.mapl h2 fun _ _ ⟨t2, h5, h6⟩ => ⟨rfl, t2, z, h5, h6⟩
    | false =>
      simp only [Bool.false_eq_true, if_false]
      refine (neighboring_ok (c := false) (n := n) hl hna.1 (by simp [ha]) (by omega)).bind ?_
      rintro ⟨m1, z⟩ ⟨u, e⟩ ⟨he, t1, ht, hg1⟩
      simp only at he ht hg1 ⊢
      rw [he]
      have h1 := write_good (k' := e.1) (v' := e.2) (hg1.left hR' hp hn) hn
      rw [updateSize_eq h1.rep]
      have h2 := (change_ok (h' := sz (erase t1) + sz (erase (node b2 k2 v2 x2 y2)) + 1) h1 hn).2
      rw [ht] at h2 ⊢
      revert h2
      simp only [Size.mk]
      exact fun h2 => Sim.mapl h2 fun _ _ ⟨t2, h5, h6⟩ => ⟨rfl, t2, z, h5, h6⟩

/-! ### removeLeft -/

theorem remove_none {cmp : K → K → Int} {key : K} : ∀ {t t' : Tree Int K V} {c : Bool},
    Priority.remove cmp key t c = some (t', none) → t' = t
  | nil, t', c, h => by simp only [Priority.remove, Option.some.injEq, Prod.mk.injEq] at h; exact h.1.symm
  | node a k v l r, t', c, h => by
    simp only [Priority.remove] at h
    have hl := @remove_none cmp key l
    have hr := @remove_none cmp key r
    split at h
    · cases h1 : Priority.remove cmp key l false with
      | none => rw [h1] at h; cases h
      | some q =>
        obtain ⟨u, o⟩ := q
        rw [h1] at h
        cases o with
        | some w =>
          simp only [Option.bind_some, Option.isSome_some, if_true, Option.map_eq_some_iff] at h
          obtain ⟨_, _, h⟩ := h
          cases h
        | none =>
          simp only [Option.bind_some, Option.isSome_none, Bool.false_eq_true, if_false,
            Option.map_eq_some_iff] at h
          obtain ⟨_, _, h⟩ := h
          cases h
    · split at h
      · cases h1 : Priority.remove cmp key l false with
        | none => rw [h1] at h; cases h
        | some q =>
          obtain ⟨u, o⟩ := q
          rw [h1] at h
          cases o with
          | some w =>
            simp only [Option.bind_some, Option.isSome_some, if_true, Option.map_eq_some_iff] at h
            obtain ⟨_, _, h⟩ := h
            cases h
          | none => cases h; rw [hl h1]
      · split at h
        · cases h1 : Priority.remove cmp key r true with
          | none => rw [h1] at h; cases h
          | some q =>
            obtain ⟨u, o⟩ := q
            rw [h1] at h
            cases o with
            | some w =>
              simp only [Option.bind_some, Option.isSome_some, if_true, Option.map_eq_some_iff] at h
              obtain ⟨_, _, h⟩ := h
              cases h
            | none => cases h; rw [hr h1]
        · cases h

theorem removeLeft_ok {cmp : K → K → Int} {key : K} : ∀ {n : Nat} {m : Mem K V}
    {g p : Nat} {c2 c : Bool} {t : P K V}, Rep m t → (p :: addrs t).Nodup → (m p).kid c = ptr t →
    (m g).kid c2 = some p → 0 ∉ addrs t → t.height < n →
    Sim (fun q q' => q.2 = q'.2 ∧ ∃ t' gone, erase t' = q'.1 ∧ Good [] gone m q.1 p c t t' ∧
        gone.length = if q.2.isSome then 1 else 0)
      (removeLeft cmp key n m g c2 c) (Priority.remove cmp key (erase t) c) := by
  intro n
  induction n with
  | zero => intro m g p c2 c t hR hn hp hg h0 hh; omega
  | succ n ih =>
    intro m g p c2 c t hR hn hp hg h0 hh
    match t with
    | nil =>
      simp only [removeLeft, hg, Option.bind_some, hp, erase, Priority.remove, ptr_nil]
      exact ⟨rfl, nil, [], rfl, Good.refl hR hp, rfl⟩
    | node (a, h) k v l r =>
      have hR' := hR
      have hh' := hh
      obtain ⟨ha, hl, hr⟩ := hR
      rw [ptr_node] at hp
      simp only [Tree.height] at hh
      have hna : (a :: addrs l).Nodup ∧ (a :: addrs r).Nodup := by simp only [addrs] at hn; grind
      have h0' : a ≠ 0 ∧ 0 ∉ addrs l ∧ 0 ∉ addrs r := by simp only [addrs] at h0; grind
      simp only [removeLeft, hg, Option.bind_some, hp, ha, erase, Priority.remove]
      have il := ih (c := false) hl hna.1 (by simp [ha]) hp h0'.2.1 (by omega)
      have ir := ih (c := true) hr hna.2 (by simp [ha]) hp h0'.2.2 (by omega)
      by_cases hc : cmp k key < 0
      · simp only [hc, if_true]
        refine (Sim.with_right il).bind ?_
        rintro ⟨m1, o⟩ ⟨u, o'⟩ ⟨⟨hb, t1, gone, ht, hg1, hl1⟩, hu⟩
        simp only at hb ht hg1 hl1 hu ⊢
        subst hb
        have h1 := hg1.left hR' hp hn
        cases o with
        | some w =>
          simp only [Option.isSome_some, if_true, ne_eq, h0'.1, not_false_iff, Priority.shrunk]
          rw [show (m1 a).height = h from by rw [hg1.par, ha]; rfl]
          have h2 := (change_ok (h' := h - 1) h1 hn).2
          rw [ht] at h2
          refine h2.map ?_
          rintro m2 u2 ⟨t2, h5, h6⟩
          exact ⟨rfl, t2, gone, h5, h6, hl1⟩
        | none =>
          simp only [Option.isSome_none, Bool.false_eq_true, if_false] at hl1 ⊢
          have hgn : gone = [] := List.length_eq_zero_iff.1 hl1
          subst hgn
          have h2 : (p :: addrs (node (a, h) k v t1 r)).Nodup := h1.nodup (new := []) hn
          have h3 := removeHere_ok (n := n) h1.rep h2 h1.kid (by
            have h4 : t1.height ≤ n := by
              rw [← height_erase, ht, remove_none hu, height_erase]
              omega
            simp only [Tree.height]; omega)
          simp only [erase, ht] at h3
          refine h3.map ?_
          rintro ⟨m2, w⟩ u2 ⟨h4, t2, z, h5, h6⟩
          exact ⟨congrArg some h4, t2, [z], h5, Good.before h1 h6, rfl⟩
      · simp only [hc, if_false]
        by_cases hc0 : cmp k key = 0
        · simp only [hc0, if_true, dir, Option.bind_some]
          refine il.bind ?_
          rintro ⟨m1, o⟩ ⟨u, o'⟩ ⟨hb, t1, gone, ht, hg1, hl1⟩
          simp only at hb ht hg1 hl1 ⊢
          subst hb
          have h1 := hg1.left hR' hp hn
          cases o with
          | some w =>
            simp only [Option.isSome_some, if_true, ne_eq, h0'.1, not_false_iff, Priority.shrunk]
            rw [show (m1 a).height = h from by rw [hg1.par, ha]; rfl]
            have h2 := (change_ok (h' := h - 1) h1 hn).2
            rw [ht] at h2
            refine h2.map ?_
            rintro m2 u2 ⟨t2, h5, h6⟩
            exact ⟨rfl, t2, gone, h5, h6, hl1⟩
          | none => exact ⟨rfl, _, gone, by rw [← ht]; rfl, h1, hl1⟩
        · by_cases hc1 : cmp k key = 1
          · simp only [hc1, if_true, dir, Option.bind_some, Int.one_ne_zero, if_false]
            refine ir.bind ?_
            rintro ⟨m1, o⟩ ⟨u, o'⟩ ⟨hb, t1, gone, ht, hg1, hl1⟩
            simp only at hb ht hg1 hl1 ⊢
            subst hb
            have h1 := hg1.right hR' hp hn
            cases o with
            | some w =>
              simp only [Option.isSome_some, if_true, ne_eq, h0'.1, not_false_iff, Priority.shrunk]
              rw [show (m1 a).height = h from by rw [hg1.par, ha]; rfl]
              have h2 := (change_ok (h' := h - 1) h1 hn).2
              rw [ht] at h2
              refine h2.map ?_
              rintro m2 u2 ⟨t2, h5, h6⟩
              exact ⟨rfl, t2, gone, h5, h6, hl1⟩
            | none => exact ⟨rfl, _, gone, by rw [← ht]; rfl, h1, hl1⟩
          · simp [hc0, hc1, dir, Sim]

/-! ### removeIndex -/

theorem rep_setH {m : Mem K V} {p : Nat} {h : Int} {t : P K V} (hR : Rep m t) (hp : p ∉ addrs t) :
    Rep (setH m p h) t :=
  hR.congr fun x hx => upd_ne _ (by rintro rfl; exact hp hx)

theorem kid_setH {m : Mem K V} {p x : Nat} {h : Int} {c : Bool} :
    (setH m p h x).kid c = (m x).kid c := by
  simp only [setH, upd]; split <;> simp_all [Cell.kid]

theorem rightSz_ptr {m : Mem K V} {x : Nat × Int} {k : K} {v : V} {l r : P K V}
    (hR : Rep m (node x k v l r)) :
    hgt m (m x.1).hi = Size.rightSz (erase (node x k v l r)) := by
  rw [hR.1]; exact szp hR.2.2

theorem leftSz_ptr {m : Mem K V} {x : Nat × Int} {k : K} {v : V} {l r : P K V}
    (hR : Rep m (node x k v l r)) :
    hgt m (m x.1).lo = Size.leftSz (erase (node x k v l r)) := by
  rw [hR.1]; exact szp hR.2.1

theorem removeIndex_ok {i : Int} : ∀ {n : Nat} {m : Mem K V} {p : Nat} {c : Bool} {t : P K V}
    {idx : Int}, Rep m t → (p :: addrs t).Nodup → (m p).kid c = ptr t → t ≠ nil → t.height < n →
    Sim (fun q q' => q.2 = q'.2 ∧ ∃ t' gone, erase t' = q'.1 ∧
        Good [] gone (setH m p ((m p).height - 1)) q.1 p c t t' ∧
        gone.length = if q.2.isSome then 1 else 0)
      (removeIndex i n m p c idx) (Priority.removeIndex i (erase t) c idx) := by
  intro n
  induction n with
  | zero => intro m p c t idx hR hn hp h0 hh; omega
  | succ n ih =>
    intro m p c t idx hR hn hp h0 hh
    match t with
    | nil => exact absurd rfl h0
    | node (a, h) k v l r =>
      have hR0 := rep_setH (h := (m p).height - 1) hR (List.nodup_cons.1 hn).1
      have hp0 : (setH m p ((m p).height - 1) p).kid c = some a := by rw [kid_setH, hp]; rfl
      have hh' := hh
      simp only [removeIndex, hp0]
      generalize setH m p ((m p).height - 1) = m at *
      have hR' := hR0
      obtain ⟨ha, hl, hr⟩ := hR0
      simp only [Tree.height] at hh
      have hna : (a :: addrs l).Nodup ∧ (a :: addrs r).Nodup := by simp only [addrs] at hn; grind
      have hn' : ∀ {x : Int}, (p :: addrs (node (a, x) k v l r)).Nodup := by
        intro x; simpa [addrs] using hn
      have hs := setH_good (h' := h - 1) hR' hp0 hn
      have hma : (m a).height = h := by rw [ha]
      simp only [erase, Priority.removeIndex]
      split
      · have h1 := removeHere_ok (n := n) hR' hn hp0 (by omega)
        refine h1.map ?_
        rintro ⟨m2, w⟩ u2 ⟨h4, t2, z, h5, h6⟩
        exact ⟨congrArg some h4, t2, [z], h5, h6, rfl⟩
      · split
        · match l, hl with
          | nil, _ =>
            simp only [ha, ptr_nil, erase, isNil, if_true]
            exact ⟨rfl, _, [], rfl, Good.refl hR' hp0, rfl⟩
          | node b k2 v2 x y, hl =>
            rw [show (m a).lo = some b.1 from by rw [ha]; rfl]
            simp only [rightSz_ptr hl, show (erase (node b k2 v2 x y)).isNil = false from rfl,
              Bool.false_eq_true, if_false]
            refine Sim.mapr (ih (c := false) hl hna.1 (by rw [ha]; rfl) (by simp) (by omega)) ?_
            rintro ⟨m2, w⟩ ⟨u2, w'⟩ ⟨h4, t2, gone, h5, h6, h7⟩
            refine ⟨h4, node (a, h - 1) k v t2 r, gone, by rw [← h5]; rfl, ?_, h7⟩
            rw [hma] at h6
            exact Good.before hs (h6.left hs.rep hs.kid hn')
        · match r, hr with
          | nil, _ =>
            simp only [ha, ptr_nil, erase, isNil, if_true]
            exact ⟨rfl, _, [], rfl, Good.refl hR' hp0, rfl⟩
          | node b k2 v2 x y, hr =>
            rw [show (m a).hi = some b.1 from by rw [ha]; rfl]
            simp only [leftSz_ptr hr, show (erase (node b k2 v2 x y)).isNil = false from rfl,
              Bool.false_eq_true, if_false]
            refine Sim.mapr (ih (c := true) hr hna.2 (by rw [ha]; rfl) (by simp) (by omega)) ?_
            rintro ⟨m2, w⟩ ⟨u2, w'⟩ ⟨h4, t2, gone, h5, h6, h7⟩
            refine ⟨h4, node (a, h - 1) k v l t2, gone, by rw [← h5]; rfl, ?_, h7⟩
            rw [hma] at h6
            exact Good.before hs (h6.right hs.rep hs.kid hn')

/-! ### PopHead, PopTail -/

theorem popHead_ok : ∀ {n : Nat} {m : Mem K V} {p a : Nat} {h : Int} {k : K} {v : V} {l r : P K V},
    Rep m (node (a, h) k v l r) → (p :: addrs (node (a, h) k v l r)).Nodup →
    (m p).kid (decide (p = 0)) = some a → 0 ∉ addrs (node (a, h) k v l r) →
    (node (a, h) k v l r).height ≤ n →
    Sim (fun q q' => (q.1 q.2.2).val = q'.2.2 ∧ ∃ t', erase t' = q'.1 ∧
        Good [] [q.2.2] m (link q.1 q.2.1 (decide (q.2.1 = 0)) (q.1 q.2.2).hi) p (decide (p = 0))
          (node (a, h) k v l r) t')
      (descend false n m p a) (Size.takeMin (erase (node (a, h) k v l r))) := by
  intro n
  induction n with
  | zero => intro m p a h k v l r hR hn hp h0 hh; simp [Tree.height] at hh
  | succ n ih =>
    intro m p a h k v l r hR hn hp h0 hh
    have hR' := hR
    obtain ⟨ha, hl, hr⟩ := hR
    simp only [Tree.height] at hh
    have hna : (a :: addrs l).Nodup ∧ a ∉ addrs l := by simp only [addrs] at hn; grind
    have h0' : a ≠ 0 ∧ 0 ∉ addrs l := by simp only [addrs] at h0; grind
    simp only [descend, ha, kid_mk, Bool.false_eq_true, if_false, erase]
    match l, hl with
    | nil, hl =>
      refine ⟨congrArg Cell.val ha, r, rfl, ?_⟩
      rw [show (m a).hi = ptr r from by rw [ha]]
      exact link_good hn hr (by simp [addrs])
    | node (b, h2) k2 v2 x y, hl =>
      have hs := setH_good (h' := h - 1) hR' hp hn
      have h1 := ih (p := a) (rep_setH (h := h - 1) hl hna.2) hna.1
        (by rw [kid_setH, ha]; simp [h0'.1]) h0'.2 (by omega)
      rw [show decide (a = 0) = false from decide_eq_false h0'.1] at h1
      refine Sim.mapr h1 ?_
      rintro ⟨m2, p2, z⟩ ⟨u2, e⟩ ⟨h4, t2, h5, h6⟩
      refine ⟨h4, node (a, h - 1) k v t2 r, by rw [← h5]; rfl, ?_⟩
      exact Good.before hs (h6.left hs.rep hs.kid (by simpa [addrs] using hn))

theorem popTail_ok : ∀ {n : Nat} {m : Mem K V} {p a : Nat} {h : Int} {k : K} {v : V} {l r : P K V},
    Rep m (node (a, h) k v l r) → (p :: addrs (node (a, h) k v l r)).Nodup →
    (m p).kid true = some a → (node (a, h) k v l r).height ≤ n →
    Sim (fun q q' => (q.1 q.2.2).val = q'.2.2 ∧ ∃ t', erase t' = q'.1 ∧
        Good [] [q.2.2] m (link q.1 q.2.1 true (q.1 q.2.2).lo) p true (node (a, h) k v l r) t')
      (descend true n m p a) (Size.takeMax (erase (node (a, h) k v l r))) := by
  intro n
  induction n with
  | zero => intro m p a h k v l r hR hn hp hh; simp [Tree.height] at hh
  | succ n ih =>
    intro m p a h k v l r hR hn hp hh
    have hR' := hR
    obtain ⟨ha, hl, hr⟩ := hR
    simp only [Tree.height] at hh
    have hna : (a :: addrs r).Nodup ∧ a ∉ addrs r := by simp only [addrs] at hn; grind
    simp only [descend, ha, kid_mk, if_true, erase]
    match r, hr with
    | nil, hr =>
      refine ⟨congrArg Cell.val ha, l, rfl, ?_⟩
      rw [show (m a).lo = ptr l from by rw [ha]]
      exact link_good hn hl (by simp [addrs])
    | node (b, h2) k2 v2 x y, hr =>
      have hs := setH_good (h' := h - 1) hR' hp hn
      have h1 := ih (p := a) (rep_setH (h := h - 1) hr hna.2) hna.1
        (by rw [kid_setH, ha]; rfl) (by omega)
      refine Sim.mapr h1 ?_
      rintro ⟨m2, p2, z⟩ ⟨u2, e⟩ ⟨h4, t2, h5, h6⟩
      refine ⟨h4, node (a, h - 1) k v l t2, by rw [← h5]; rfl, ?_⟩
      exact Good.before hs (h6.right hs.rep hs.kid (by simpa [addrs] using hn))

/-! ### Rotations do not depend on the entries -/

section
variable (m : Mem K V) (a p : Nat) (c : Bool) (f : K × V → K × V)

theorem updateSize_write (x : Nat) : updateSize (write m a f) x = write (updateSize m x) a f := by
  simp only [updateSize, write_hgt, write_lo, write_hi, setH_write]

theorem leftRotate_write :
    leftRotate (write m a f) p c = (leftRotate m p c).map (write · a f) := by
  simp only [leftRotate, write_kid, link_write, updateSize_write, Option.map_bind, Function.comp_def,
    Option.map_some]

theorem rightRotate_write :
    rightRotate (write m a f) p c = (rightRotate m p c).map (write · a f) := by
  simp only [rightRotate, write_kid, link_write, updateSize_write, Option.map_bind, Function.comp_def,
    Option.map_some]

theorem leftRotateWithRight_write :
    leftRotateWithRight (write m a f) p c = (leftRotateWithRight m p c).map (write · a f) := by
  simp only [leftRotateWithRight, write_kid, link_write, updateSize_write, Option.map_bind,
    Function.comp_def]
  refine congrArg _ (funext fun cur => congrArg _ (funext fun sub => ?_))
  cases (m sub).kid false <;> rfl

theorem rightRotateWithLeft_write :
    rightRotateWithLeft (write m a f) p c = (rightRotateWithLeft m p c).map (write · a f) := by
  simp only [rightRotateWithLeft, write_kid, link_write, updateSize_write, Option.map_bind,
    Function.comp_def]
  refine congrArg _ (funext fun cur => congrArg _ (funext fun sub => ?_))
  cases (m sub).kid true <;> rfl

theorem sizeRotateType_write (x : Nat) :
    sizeRotateType (write m a f) x c = sizeRotateType m x c := by
  simp only [sizeRotateType, write_kid, write_hgt]

theorem rebalance_write :
    rebalance (write m a f) p c = (rebalance m p c).map (write · a f) := by
  simp only [rebalance, write_kid, write_hgt, write_lo, write_hi, write_height, leftRotate_write,
    rightRotate_write, leftRotateWithRight_write, rightRotateWithLeft_write, sizeRotateType_write,
    Option.map_bind]
  refine congrArg _ (funext fun n => ?_)
  simp only [Function.comp, Option.map_bind]
  refine congrArg _ (funext fun h0 => ?_)
  show _ = Option.map _ _
  generalize Priority.bottomsize _ = B
  repeat' split
  all_goals rfl

end

/-! ### put -/

theorem put_ok {cmp : K → K → Int} {zero : V} {free : Nat} {key : K} {val : V} :
    ∀ {n : Nat} {m : Mem K V} {p : Nat} {c : Bool} {t : P K V}, Rep m t →
    (p :: free :: addrs t).Nodup → (m p).kid c = ptr t → t.height < n →
    Sim (fun q q' => q.2.2 = q'.2 ∧ ∃ t', erase t' = q'.1 ∧
        Good [free] [] m (write q.1 q.2.1 fun e => (e.1, val)) p c t t')
      (put cmp zero free key n m p c)
      (Priority.put cmp key val (erase t) ((m p).kid (!c)).isSome) := by
  intro n
  induction n with
  | zero => intro m p c t hR hn hp hh; omega
  | succ n ih =>
    intro m p c t hR hn hp hh
    match t with
    | nil =>
      rw [ptr_nil] at hp
      have hpf : p ≠ free := by grind
      simp only [put, hp, erase, Priority.put]
      refine ⟨?_, node (free, 1) key val nil nil, rfl, ?_, ?_, .refl _, ?_⟩
      · simp [link, upd_ne _ hpf]
      · refine ⟨?_, trivial, trivial⟩
        simp [write, link, upd_ne _ hpf.symm]
      · simp [write, link, upd_ne _ hpf]
      · intro x hx hxp
        have hxf : x ≠ free := by simpa [addrs] using hx
        simp [write, link, upd_ne _ hxp, upd_ne _ hxf]
    | node (a, h) k v l r =>
      have hR' := hR
      obtain ⟨ha, hl, hr⟩ := hR
      rw [ptr_node] at hp
      simp only [Tree.height] at hh
      have hna : (a :: free :: addrs l).Nodup ∧ (a :: free :: addrs r).Nodup := by
        simp only [addrs] at hn; grind
      have hn' : (p :: ([free] ++ addrs (node (a, h) k v l r))).Nodup := hn
      simp only [put, hp, ha, erase, Priority.put]
      generalize (if cmp k key < 0 then 1 else cmp k key) = c0
      have il := ih (c := false) hl hna.1 (by simp [ha]) (by omega)
      rw [show ((m a).kid (!false)).isSome = !(erase r).isNil by
        rw [← isNone_ptr]; simp [ha]] at il
      have ir := ih (c := true) hr hna.2 (by simp [ha]) (by omega)
      rw [show ((m a).kid (!true)).isSome = !(erase l).isNil by
        rw [← isNone_ptr]; simp [ha]] at ir
      have key : ∀ {m1 : Mem K V} {z : Nat} {two : Bool} {l' r' : P K V},
          Good [free] [] m (write m1 z fun e => (e.1, val)) p c (node (a, h) k v l r)
            (node (a, h) k v l' r') →
          Sim (fun q q' => q.2.2 = q'.2 ∧ ∃ t', erase t' = q'.1 ∧
              Good [free] [] m (write q.1 q.2.1 fun e => (e.1, val)) p c (node (a, h) k v l r) t')
            (if ((setH m1 a ((m1 a).height + 1)) a).height > 2 ∧ two = false then
                (rebalance (setH m1 a ((m1 a).height + 1)) p c).map fun m => (m, z, two)
              else some (setH m1 a ((m1 a).height + 1), z, two))
            ((Priority.grown two (node h k v (erase l') (erase r'))).map fun t => (t, two)) := by
        intro m1 z two l' r' hg
        have h1 : (m1 a).height = h := by
          rw [← write_height m1 z a fun e => (e.1, val), hg.rep.1]
        rw [h1, show ((setH m1 a (h + 1)) a).height = h + 1 from by simp [setH]]
        obtain ⟨h2, h3⟩ := change_ok (h' := h + 1) hg hn'
        rw [setH_write] at h2 h3
        simp only [Priority.grown]
        split
        · rw [rebalance_write] at h3
          revert h3
          cases rebalance (setH m1 a (h + 1)) p c <;>
            cases Priority.rebalance (node (h + 1) k v (erase l') (erase r')) <;>
            simp only [Sim, Option.map_none, Option.map_some, false_imp_iff, true_imp_iff]
          exact fun h => ⟨trivial, h⟩
        · exact ⟨rfl, _, rfl, h2⟩
      by_cases hc0 : c0 = 0
      · simp only [hc0, if_true, dir, Option.bind_some]
        refine il.bind ?_
        rintro ⟨m1, z, two⟩ ⟨u, two'⟩ ⟨he, t1, ht, hg⟩
        simp only at he ht hg ⊢
        subst he ht
        exact key (hg.left hR' hp hn')
      · by_cases hc1 : c0 = 1
        · simp only [hc1, if_true, dir, Option.bind_some, Int.one_ne_zero, if_false]
          refine ir.bind ?_
          rintro ⟨m1, z, two⟩ ⟨u, two'⟩ ⟨he, t1, ht, hg⟩
          simp only at he ht hg ⊢
          subst he ht
          exact key (hg.right hR' hp hn')
        · simp [hc0, hc1, dir, Sim]

/-! ### Reading -/

/-- `getfirst` finds the node `Upsert` writes to. -/
theorem getfirst_ok {cmp : K → K → Int} {key : K} {m : Mem K V} : ∀ {n : Nat} {p : Nat} {c : Bool}
    {t : P K V} {sel : Option Nat}, Rep m t → (p :: addrs t).Nodup → (m p).kid c = ptr t →
    t.height < n →
    Sim (fun o e => o.map (fun a => ((m a).key, (m a).val)) = e ∧ ∀ val, ∃ u b,
        Avls.setVal cmp key val (erase t) = some (u, b) ∧
        (b = false → o = sel) ∧
        (b = true → ∃ a t', o = some a ∧ u = erase t' ∧
          Good [] [] m (write m a fun e => (e.1, val)) p c t t'))
      (getfirst cmp m key n p c sel)
      (Priority.getfirst cmp key (erase t) (sel.map fun a => ((m a).key, (m a).val))) := by
  intro n
  induction n with
  | zero => intro p c t sel hR hn hp hh; omega
  | succ n ih =>
    intro p c t sel hR hn hp hh
    match t with
    | nil =>
      rw [ptr_nil] at hp
      simp only [getfirst, hp, erase, Priority.getfirst, Avls.setVal]
      exact ⟨rfl, fun val => ⟨_, _, rfl, fun _ => rfl, nofun⟩⟩
    | node (a, h) k v l r =>
      have hR' := hR
      obtain ⟨ha, hl, hr⟩ := hR
      rw [ptr_node] at hp
      simp only [Tree.height] at hh
      have hna : (a :: addrs l).Nodup ∧ (a :: addrs r).Nodup := by simp only [addrs] at hn; grind
      simp only [getfirst, hp, ha, erase, Priority.getfirst]
      by_cases hc : cmp k key < 0
      · simp only [hc, if_true, Avls.setVal]
        have h1 := ih (c := false) (sel := some a) hl hna.1 (by simp [ha]) (by omega)
        rw [show (some a).map (fun a => ((m a).key, (m a).val)) = some (k, v) by simp [ha]] at h1
        refine h1.mono ?_
        rintro o e ⟨h2, h3⟩
        refine ⟨h2, fun val => ?_⟩
        obtain ⟨u, b, h4, h5, h6⟩ := h3 val
        rw [h4]
        cases b with
        | false =>
          exact ⟨_, _, rfl, nofun, fun _ => ⟨a, _, h5 rfl, rfl, write_entry hR' hp hn⟩⟩
        | true =>
          obtain ⟨z, t', h7, h8, h9⟩ := h6 rfl
          subst h8
          exact ⟨_, _, rfl, nofun, fun _ => ⟨z, node (a, h) k v t' r, h7, rfl, h9.left hR' hp hn⟩⟩
      · simp only [hc, if_false, Avls.setVal]
        by_cases hc0 : cmp k key = 0
        · simp only [hc0, if_true, dir, Option.bind_some]
          refine (ih (c := false) hl hna.1 (by simp [ha]) (by omega)).mono ?_
          rintro o e ⟨h2, h3⟩
          refine ⟨h2, fun val => ?_⟩
          obtain ⟨u, b, h4, h5, h6⟩ := h3 val
          rw [h4]
          refine ⟨_, _, rfl, h5, fun hb => ?_⟩
          obtain ⟨z, t', h7, h8, h9⟩ := h6 hb
          subst h8
          exact ⟨z, node (a, h) k v t' r, h7, rfl, h9.left hR' hp hn⟩
        · by_cases hc1 : cmp k key = 1
          · simp only [hc1, if_true, dir, Option.bind_some, Int.one_ne_zero, if_false]
            refine (ih (c := true) hr hna.2 (by simp [ha]) (by omega)).mono ?_
            rintro o e ⟨h2, h3⟩
            refine ⟨h2, fun val => ?_⟩
            obtain ⟨u, b, h4, h5, h6⟩ := h3 val
            rw [h4]
            refine ⟨_, _, rfl, h5, fun hb => ?_⟩
            obtain ⟨z, t', h7, h8, h9⟩ := h6 hb
            subst h8
            exact ⟨z, node (a, h) k v l t', h7, rfl, h9.right hR' hp hn⟩
          · simp [hc0, hc1, dir, Sim]

theorem index_ok {m : Mem K V} {i : Int} : ∀ {n : Nat} {a : Nat} {h : Int} {k : K} {v : V}
    {l r : P K V} {idx : Int}, Rep m (node (a, h) k v l r) → (node (a, h) k v l r).height ≤ n →
    ∃ o, index m i n a idx = some o ∧ o.map (fun a => ((m a).key, (m a).val)) =
      Size.nodeAt i (erase (node (a, h) k v l r)) idx := by
  intro n
  induction n with
  | zero => intro a h k v l r idx hR hh; simp [Tree.height] at hh
  | succ n ih =>
    intro a h k v l r idx hR hh
    obtain ⟨ha, hl, hr⟩ := hR
    simp only [Tree.height] at hh
    simp only [index, erase, Size.nodeAt]
    split
    · match l, hl with
      | nil, _ => exact ⟨none, by rw [ha]; rfl, rfl⟩
      | node b k2 v2 x y, hl =>
        rw [show (m a).lo = some b.1 from by rw [ha]; rfl]
        simp only [rightSz_ptr hl]
        exact ih hl (Nat.le_of_succ_le_succ (Nat.le_trans (Nat.succ_le_succ (Nat.le_max_left _ _)) hh))
    · split
      · match r, hr with
        | nil, _ => exact ⟨none, by rw [ha]; rfl, rfl⟩
        | node b k2 v2 x y, hr =>
          rw [show (m a).hi = some b.1 from by rw [ha]; rfl]
          simp only [leftSz_ptr hr]
          exact ih hr (Nat.le_of_succ_le_succ (Nat.le_trans (Nat.succ_le_succ (Nat.le_max_right _ _)) hh))
      · exact ⟨some a, rfl, by simp [ha]⟩

theorem seekRoot_ok {cmp : K → K → Int} {key : K} {m : Mem K V} : ∀ {n : Nat} {t : P K V}, Rep m t →
    t.height < n →
    Sim (fun o u => ∃ t', erase t' = u ∧ Rep m t' ∧ o = ptr t' ∧ t'.height ≤ t.height)
      (seekRoot cmp m key n (ptr t)) (Priority.seekRoot cmp key (erase t)) := by
  intro n
  induction n with
  | zero => intro t _ hh; omega
  | succ n ih =>
    intro t hR hh
    match t with
    | nil => exact ⟨nil, rfl, trivial, rfl, Nat.le_refl _⟩
    | node (a, h) k v l r =>
      have hR' := hR
      obtain ⟨ha, hl, hr⟩ := hR
      simp only [Tree.height] at hh
      simp only [seekRoot, ptr_node, ha, erase, Priority.seekRoot]
      split
      · exact ⟨_, rfl, hR', rfl, Nat.le_refl _⟩
      · by_cases hc0 : cmp k key = 0
        · simp only [hc0, if_true, dir, Option.bind_some, kid_mk, Bool.false_eq_true, if_false]
          refine (ih hl (by omega)).mono ?_
          rintro o u ⟨t', h1, h2, h3, h4⟩
          exact ⟨t', h1, h2, h3, by simp only [Tree.height]; omega⟩
        · by_cases hc1 : cmp k key = 1
          · simp only [hc1, if_true, dir, Option.bind_some, kid_mk, Int.one_ne_zero, if_false]
            refine (ih hr (by omega)).mono ?_
            rintro o u ⟨t', h1, h2, h3, h4⟩
            exact ⟨t', h1, h2, h3, by simp only [Tree.height]; omega⟩
          · simp [hc0, hc1, dir, Sim]

theorem collect_ok {cmp : K → K → Int} {key : K} {m : Mem K V} : ∀ {n : Nat} {t : P K V}, Rep m t →
    t.height < n → collect cmp m key n (ptr t) = Priority.collect cmp key (erase t) := by
  intro n
  induction n with
  | zero => intro t _ hh; omega
  | succ n ih =>
    intro t hR hh
    match t with
    | nil => rfl
    | node (a, h) k v l r =>
      obtain ⟨ha, hl, hr⟩ := hR
      simp only [Tree.height] at hh
      simp only [collect, ptr_node, ha, erase, Priority.collect, ih hl (by omega), ih hr (by omega)]
      split
      · rfl
      · by_cases hc0 : cmp k key = 0
        · simp only [hc0, if_true, dir, Option.bind_some, kid_mk, Bool.false_eq_true, if_false,
            ih hl (by omega)]
        · by_cases hc1 : cmp k key = 1
          · simp only [hc1, if_true, dir, Option.bind_some, kid_mk, Int.one_ne_zero, if_false,
              ih hr (by omega)]
          · simp [hc0, hc1, dir]

end Verif.PriorityHeap
