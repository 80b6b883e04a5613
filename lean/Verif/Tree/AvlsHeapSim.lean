import Verif.Tree.AvlsHeap
import Verif.Tree.AvlHeapMap
import Verif.Tree.AvlHeapIterLemmas
import Verif.Tree.AvlsLemmas

/-! Histories of calls of tree/avls: the pointer program and the model with subtrees. -/

namespace Verif.AvlsHeap
open Verif.AvlHeap Verif.Tree
open Verif.Avl (w8 T)
variable {K V : Type}

theorem withRight {α β : Type} {R : α → β → Prop} {o : Option α} {o' : Option β} (h : Sim R o o') :
    Sim (fun a b => R a b ∧ o' = some b) o o' := by
  cases o <;> cases o' <;> simp_all [Sim]

/-! ### get -/

theorem setVal_none {cmp : K → K → Int} {key : K} {val : V} : ∀ {t : T K V},
    Avls.get cmp key t = some none → Avls.setVal cmp key val t = some (t, false)
  | nil, _ => rfl
  | node h k v l r, hg => by
    have hl := @setVal_none cmp key val l
    have hr := @setVal_none cmp key val r
    simp only [Avls.get, Avls.setVal] at hg ⊢
    split at hg
    · rename_i hc
      simp only [Option.map_eq_some_iff] at hg
      obtain ⟨o, -, ho⟩ := hg
      split at ho <;> simp_all
    · split at hg
      · rename_i hc h0
        simp [hc, h0, hl hg]
      · split at hg
        · rename_i hc h0 h1
          simp [h1, hr hg]
        · cases hg

theorem get_ok {cmp : K → K → Int} {key : K} {m : Mem K V} : ∀ {n : Nat} {p : Nat} {c : Bool}
    {t : P K V}, Rep m t → (p :: addrs t).Nodup → (m p).kid c = ptr t → t.height < n →
    Sim (fun o e => o.map (fun a => ((m a).key, (m a).val)) = e ∧ ∀ a, o = some a → ∀ val, ∃ t',
        Avls.setVal cmp key val (erase t) = some (erase t', true) ∧
        Good [] [] m (write m a fun e => (e.1, val)) p c t t')
      (get cmp m key n (ptr t)) (Avls.get cmp key (erase t)) := by
  intro n
  induction n with
  | zero => intro p c t hR hn hp hh; omega
  | succ n ih =>
    intro p c t hR hn hp hh
    match t with
    | nil => simp [get, erase, Avls.get, Sim]
    | node (a, h) k v l r =>
      have hR' := hR
      obtain ⟨ha, hl, hr⟩ := hR
      rw [ptr_node] at hp
      simp only [Tree.height] at hh
      have hna : (a :: addrs l).Nodup ∧ (a :: addrs r).Nodup := by simp only [addrs] at hn; grind
      have il := ih (c := false) hl hna.1 (by simp [ha]) (by omega)
      have ir := ih (c := true) hr hna.2 (by simp [ha]) (by omega)
      simp only [get, ptr_node, ha, erase, Avls.get]
      by_cases hc : cmp k key < 0
      · simp only [hc, if_true, Avls.setVal]
        refine (withRight il).map ?_
        rintro o e ⟨⟨h1, h2⟩, h0⟩
        subst h1
        cases o with
        | none =>
          refine ⟨by simp [ha], ?_⟩
          rintro b hb val
          cases hb
          refine ⟨node (a, h) k val l r, ?_, write_entry hR' hp hn⟩
          rw [setVal_none h0]
          rfl
        | some x =>
          refine ⟨rfl, ?_⟩
          rintro b hb val
          obtain ⟨t', h3, h4⟩ := h2 b hb val
          exact ⟨node (a, h) k v t' r, by rw [h3]; rfl, h4.left hR' hp hn⟩
      · simp only [hc, if_false, Avls.setVal]
        by_cases hc0 : cmp k key = 0
        · simp only [hc0, if_true, dir, Option.bind_some, kid_mk, Bool.false_eq_true, if_false]
          refine il.mono ?_
          rintro o e ⟨h1, h2⟩
          refine ⟨h1, fun b hb val => ?_⟩
          obtain ⟨t', h3, h4⟩ := h2 b hb val
          exact ⟨node (a, h) k v t' r, by rw [h3]; rfl, h4.left hR' hp hn⟩
        · by_cases hc1 : cmp k key = 1
          · simp only [hc1, if_true, dir, Option.bind_some, kid_mk, Int.one_ne_zero, if_false]
            refine ir.mono ?_
            rintro o e ⟨h1, h2⟩
            refine ⟨h1, fun b hb val => ?_⟩
            obtain ⟨t', h3, h4⟩ := h2 b hb val
            exact ⟨node (a, h) k v l t', by rw [h3]; rfl, h4.right hR' hp hn⟩
          · simp [hc0, hc1, dir, Sim]

/-! ### put -/

theorem put_ok {cmp : K → K → Int} {d : Int} {zero : V} {free : Nat} {key : K} {val : V} :
    ∀ {n : Nat} {m : Mem K V} {p : Nat} {c : Bool} {t : P K V}, Rep m t →
    (p :: free :: addrs t).Nodup → (m p).kid c = ptr t → t.height < n →
    Sim (fun q q' => q.2.1 = free ∧ q.2.2 = q'.2 ∧ ∃ t', erase t' = q'.1 ∧ Good [free] [] m
          (write q.1 free fun _ => (key, val)) p c t t')
      (put cmp d zero free key n m p c)
      (Avls.put cmp d key val (erase t) ((m p).kid (!c)).isNone) := by
  intro n
  induction n with
  | zero => intro m p c t hR hn hp hh; omega
  | succ n ih =>
    intro m p c t hR hn hp hh
    match t with
    | nil =>
      rw [ptr_nil] at hp
      have hpf : p ≠ free := by grind
      simp only [put, hp, erase, Avls.put]
      refine ⟨rfl, ?_, node (free, 1) key val nil nil, rfl, ?_, ?_, .refl _, ?_⟩
      · simp [link, upd_ne _ hpf]
      · refine ⟨?_, trivial, trivial⟩
        simp [write, link, upd_ne _ hpf.symm]
      · simp [write, link, upd_ne _ hpf]
      · intro x hx hxp
        have hxf : x ≠ free := by simpa [addrs] using hx
        simp [write, link, upd_ne _ hxp, upd_ne _ hxf]
    | node (a, h) k v l r =>
      have hR' := hR
      obtain ⟨ha, hl, hr⟩ := hR
      rw [ptr_node] at hp
      simp only [Tree.height] at hh
      have hna : (a :: free :: addrs l).Nodup ∧ (a :: free :: addrs r).Nodup := by
        simp only [addrs] at hn; grind
      have hn' : (p :: addrs (node (a, h) k v l r)).Nodup := by grind
      have il := ih (c := false) hl hna.1 (by simp [ha]) (by omega)
      have ir := ih (c := true) hr hna.2 (by simp [ha]) (by omega)
      rw [show ((m a).kid (!false)).isNone = (erase r).isNil by simp [ha, isNone_ptr]] at il
      rw [show ((m a).kid (!true)).isNone = (erase l).isNil by simp [ha, isNone_ptr]] at ir
      simp only [put, hp, ha, erase, Avls.put]
      generalize (if cmp k key < 0 then (1 : Int) else cmp k key) = c0
      by_cases hc0 : c0 = 0
      · simp only [hc0, if_true, dir, Option.bind_some]
        refine il.bind ?_
        rintro ⟨m1, z, rb⟩ ⟨u, rb'⟩ ⟨hz, hb, t1, ht, hg⟩
        simp only at hb ht hg hz ⊢
        cases hb; cases hz
        have h2 := hg.left hR' hp (by grind)
        cases rb with
        | false =>
          simp only [Avl.rebIf, Bool.false_eq_true, if_false]
          exact ⟨rfl, rfl, _, by rw [← ht]; rfl, h2⟩
        | true =>
          have h3 := h2.nodup (by grind)
          have h4 := rebalance_ok (one := true) (d := d) h2.rep (by grind) h2.kid
          rw [rebalance_write] at h4
          simp only [erase, ht] at h4
          simp only [Avl.rebIf, if_true]
          revert h4
          cases rebalance true d m1 p c <;> cases Avl.rebalance true d (node h k v u (erase r)) <;>
            simp only [Option.map_none, Option.map_some, Sim, imp_self]
          rintro ⟨h5, t2, h6, h7⟩
          exact ⟨trivial, h5, t2, h6, h2.trans h7⟩
      · by_cases hc1 : c0 = 1
        · simp only [hc1, if_true, dir, Option.bind_some, Int.one_ne_zero, if_false]
          refine ir.bind ?_
          rintro ⟨m1, z, rb⟩ ⟨u, rb'⟩ ⟨hz, hb, t1, ht, hg⟩
          simp only at hb ht hg hz ⊢
          cases hb; cases hz
          have h2 := hg.right hR' hp (by grind)
          cases rb with
          | false =>
            simp only [Avl.rebIf, Bool.false_eq_true, if_false]
            exact ⟨rfl, rfl, _, by rw [← ht]; rfl, h2⟩
          | true =>
            have h3 := h2.nodup (by grind)
            have h4 := rebalance_ok (one := true) (d := d) h2.rep (by grind) h2.kid
            rw [rebalance_write] at h4
            simp only [erase, ht] at h4
            simp only [Avl.rebIf, if_true]
            revert h4
            cases rebalance true d m1 p c <;> cases Avl.rebalance true d (node h k v (erase l) u) <;>
              simp only [Option.map_none, Option.map_some, Sim, imp_self]
            rintro ⟨h5, t2, h6, h7⟩
            exact ⟨trivial, h5, t2, h6, h2.trans h7⟩
        · simp [hc0, hc1, dir, Sim]

/-! ### removeLeft -/

theorem removeHere_ok {d : Int} {n : Nat} {m : Mem K V} {p a : Nat} {h : Int} {k : K} {v : V}
    {c : Bool} {l r : P K V} (hR : Rep m (node (a, h) k v l r))
    (hn : (p :: addrs (node (a, h) k v l r)).Nodup) (hp : (m p).kid c = some a)
    (hh : l.height ≤ n ∧ r.height ≤ n) :
    Sim (fun q q' => q.2 = q'.2 ∧ q.2.1.isSome = true ∧ ∃ t' z, erase t' = q'.1 ∧
        Good [] [z] m q.1 p c (node (a, h) k v l r) t')
      (removeHere d n m p c a) (Avl.removeHere true d c (erase (node (a, h) k v l r))) := by
  have hR' := hR
  obtain ⟨ha, hl, hr⟩ := hR
  have hna : (a :: addrs l).Nodup ∧ (a :: addrs r).Nodup := by simp only [addrs] at hn; grind
  simp only [removeHere, ha, erase, Avl.removeHere]
  match l, r, hl, hr with
  | nil, r, hl, hr =>
    exact ⟨rfl, rfl, r, a, rfl, link_good hn hr (by simp [addrs])⟩
  | node b1 k1 v1 x1 y1, nil, hl, hr =>
    exact ⟨rfl, rfl, node b1 k1 v1 x1 y1, a, rfl, link_good hn hl (by simp [addrs])⟩
  | node b1 k1 v1 x1 y1, node b2 k2 v2 x2 y2, hl, hr =>
    simp only [ptr_node, Option.isNone_some, Bool.false_eq_true, if_false, erase, isNil]
    cases c with
    | true =>
      simp only [if_true]
      refine (neighboring_ok (c := true) (n := n) hr hna.2 (by simp [ha]) (by omega)).bind ?_
      rintro ⟨m1, z, b1⟩ ⟨u, e, b2⟩ ⟨hb, he, t1, ht, hg1⟩
      simp only at hb he ht hg1 ⊢
      rw [he]
      have h1 := write_good (k' := e.1) (v' := e.2) (hg1.right hR' hp hn) hn
      have h2 := h1.nodup (new := []) hn
      have h3 := rebalance_ok (one := true) (d := d) h1.rep (by grind) h1.kid
      simp only [erase, ht] at h3
      refine h3.map ?_
      rintro ⟨m2, b3⟩ ⟨u2, b4⟩ ⟨h4, t2, h5, h6⟩
      exact ⟨by rw [← h4], rfl, t2, z, h5, h1.trans h6⟩
    | false =>
      simp only [Bool.false_eq_true, if_false]
      refine (neighboring_ok (c := false) (n := n) hl hna.1 (by simp [ha]) (by omega)).bind ?_
      rintro ⟨m1, z, b1⟩ ⟨u, e, b2⟩ ⟨hb, he, t1, ht, hg1⟩
      simp only at hb he ht hg1 ⊢
      rw [he]
      have h1 := write_good (k' := e.1) (v' := e.2) (hg1.left hR' hp hn) hn
      have h2 := h1.nodup (new := []) hn
      have h3 := rebalance_ok (one := true) (d := d) h1.rep (by grind) h1.kid
      simp only [erase, ht] at h3
      refine h3.map ?_
      rintro ⟨m2, b3⟩ ⟨u2, b4⟩ ⟨h4, t2, h5, h6⟩
      exact ⟨by rw [← h4], rfl, t2, z, h5, h1.trans h6⟩

/-- A failed search changes nothing: neither the tree nor the memory. -/
theorem removeLeft_none {cmp : K → K → Int} {d : Int} {key : K} : ∀ {n : Nat} {m m' : Mem K V}
    {g : Nat} {c2 c b : Bool}, removeLeft cmp d key n m g c2 c = some (m', none, b) →
    m' = m ∧ b = false := by
  intro n
  induction n with
  | zero => intro m m' g c2 c b h; cases h
  | succ n ih =>
    intro m m' g c2 c b h
    simp only [removeLeft, Option.bind_eq_some_iff] at h
    obtain ⟨parent, -, h⟩ := h
    split at h
    · simp only [Option.some.injEq, Prod.mk.injEq, true_and] at h
      exact ⟨h.1.symm, h.2.symm⟩
    · split at h
      · simp only [Option.bind_eq_some_iff] at h
        obtain ⟨⟨m1, o, b1⟩, h1, h⟩ := h
        split at h
        · rename_i ho
          split at h
          · simp only [Option.map_eq_some_iff, Prod.mk.injEq] at h
            obtain ⟨q, -, -, h2, -⟩ := h
            rw [h2] at ho; cases ho
          · simp only [Option.some.injEq, Prod.mk.injEq] at h
            rw [h.2.1] at ho; cases ho
        · simp only [removeHere] at h
          split at h
          · simp at h
          · split at h
            · simp at h
            · simp [Option.bind_eq_some_iff] at h
      · simp only [Option.bind_eq_some_iff] at h
        obtain ⟨c', -, ⟨m1, o, b1⟩, h1, h⟩ := h
        split at h
        · rename_i ho
          simp only [Option.map_eq_some_iff, Prod.mk.injEq] at h
          obtain ⟨q, -, -, h2, -⟩ := h
          rw [h2] at h1
          have := (ih h1).2
          rw [this] at ho
          exact absurd ho.2 (by simp)
        · simp only [Option.some.injEq, Prod.mk.injEq] at h
          rw [h.2.1] at h1
          exact ⟨h.1.symm.trans (ih h1).1, h.2.2.symm.trans (ih h1).2⟩

theorem removeLeft_ok {cmp : K → K → Int} {d : Int} {key : K} : ∀ {n : Nat} {m : Mem K V}
    {g p : Nat} {c2 c : Bool} {t : P K V}, Rep m t → (p :: addrs t).Nodup → (m p).kid c = ptr t →
    (m g).kid c2 = some p → 0 ∉ addrs t → t.height < n →
    Sim (fun q q' => q.2 = q'.2 ∧ ∃ t' gone, erase t' = q'.1 ∧ Good [] gone m q.1 p c t t' ∧
        gone.length = if q.2.1.isSome then 1 else 0)
      (removeLeft cmp d key n m g c2 c) (Avls.remove cmp d key (erase t) c) := by
  intro n
  induction n with
  | zero => intro m g p c2 c t hR hn hp hg h0 hh; omega
  | succ n ih =>
    intro m g p c2 c t hR hn hp hg h0 hh
    match t with
    | nil =>
      simp only [removeLeft, hg, Option.bind_some, hp, erase, Avls.remove, ptr_nil]
      exact ⟨rfl, nil, [], rfl, Good.refl hR hp, rfl⟩
    | node (a, h) k v l r =>
      have hR' := hR
      obtain ⟨ha, hl, hr⟩ := hR
      rw [ptr_node] at hp
      simp only [Tree.height] at hh
      have hna : (a :: addrs l).Nodup ∧ (a :: addrs r).Nodup := by simp only [addrs] at hn; grind
      have h0' : a ≠ 0 ∧ 0 ∉ addrs l ∧ 0 ∉ addrs r := by simp only [addrs] at h0; grind
      have il := ih (c := false) hl hna.1 (by simp [ha]) hp h0'.2.1 (by omega)
      have ir := ih (c := true) hr hna.2 (by simp [ha]) hp h0'.2.2 (by omega)
      simp only [removeLeft, hg, Option.bind_some, hp, ha, erase, Avls.remove]
      by_cases hc : cmp k key < 0
      · simp only [hc, if_true]
        cases hq : removeLeft cmp d key n m p c false with
        | none =>
          rw [hq] at il
          revert il
          cases Avls.remove cmp d key (erase l) false <;> simp [Sim]
        | some q =>
          obtain ⟨m1, o, b1⟩ := q
          rw [hq] at il
          revert il
          cases Avls.remove cmp d key (erase l) false with
          | none => simp [Sim]
          | some q' =>
            obtain ⟨u, o', b2⟩ := q'
            rintro ⟨hb, t1, gone, ht, hg1, hl1⟩
            simp only at hb ht hg1 hl1
            cases hb
            simp only [Option.bind_some]
            have h1 := hg1.left hR' hp hn
            cases o with
            | some w =>
              simp only [Option.isSome_some, if_true]
              have h2 := h1.nodup (new := []) hn
              cases b1 with
              | false =>
                simp only [Avl.rebIf, Bool.false_eq_true, and_false, if_false, Option.map_some]
                exact ⟨rfl, _, gone, by rw [← ht]; rfl, h1, hl1⟩
              | true =>
                simp only [Avl.rebIf, ne_eq, h0'.1, not_false_iff, and_self, if_true]
                have h3 := rebalance_ok (one := true) (d := d) h1.rep (by grind) h1.kid
                simp only [erase, ht] at h3
                refine h3.map ?_
                rintro ⟨m2, b3⟩ ⟨u2, b4⟩ ⟨h4, t2, h5, h6⟩
                exact ⟨by rw [← h4], t2, gone, h5, h1.trans h6, hl1⟩
            | none =>
              have hm := (removeLeft_none hq).1
              subst hm
              have ht1 : t1 = l := rep_unique hg1.rep hl (by
                have := hg1.kid
                rw [show (m1 a).kid false = ptr l by simp [ha]] at this
                exact this.symm)
              subst ht1
              subst ht
              simp only [Option.isSome_none, Bool.false_eq_true, if_false]
              have h3 := removeHere_ok (d := d) (n := n) hR' hn hp (by omega)
              refine h3.mono ?_
              rintro ⟨m2, o2⟩ ⟨u2, o3⟩ ⟨h4, h5, t2, z, h6, h7⟩
              simp only at h4 h5 h6 h7 ⊢
              exact ⟨h4, t2, [z], h6, h7, by simp [h5]⟩
      · simp only [hc, if_false]
        by_cases hc0 : cmp k key = 0
        · simp only [hc0, if_true, dir, Option.bind_some]
          refine il.bind ?_
          rintro ⟨m1, o, b1⟩ ⟨u, o', b2⟩ ⟨hb, t1, gone, ht, hg1, hl1⟩
          simp only at hb ht hg1 ⊢
          cases hb
          have h1 := hg1.left hR' hp hn
          have h2 := h1.nodup (new := []) hn
          cases b1 with
          | false =>
            simp only [Avl.rebIf, Bool.false_eq_true, and_false, if_false, Option.map_some]
            exact ⟨rfl, _, gone, by rw [← ht]; rfl, h1, hl1⟩
          | true =>
            simp only [Avl.rebIf, ne_eq, h0'.1, not_false_iff, and_self, if_true]
            have h3 := rebalance_ok (one := true) (d := d) h1.rep (by grind) h1.kid
            simp only [erase, ht] at h3
            refine h3.map ?_
            rintro ⟨m2, b3⟩ ⟨u2, b4⟩ ⟨h4, t2, h5, h6⟩
            exact ⟨by rw [← h4], t2, gone, h5, h1.trans h6, hl1⟩
        · by_cases hc1 : cmp k key = 1
          · simp only [hc1, if_true, dir, Option.bind_some, Int.one_ne_zero, if_false]
            refine ir.bind ?_
            rintro ⟨m1, o, b1⟩ ⟨u, o', b2⟩ ⟨hb, t1, gone, ht, hg1, hl1⟩
            simp only at hb ht hg1 ⊢
            cases hb
            have h1 := hg1.right hR' hp hn
            have h2 := h1.nodup (new := []) hn
            cases b1 with
            | false =>
              simp only [Avl.rebIf, Bool.false_eq_true, and_false, if_false, Option.map_some]
              exact ⟨rfl, _, gone, by rw [← ht]; rfl, h1, hl1⟩
            | true =>
              simp only [Avl.rebIf, ne_eq, h0'.1, not_false_iff, and_self, if_true]
              have h3 := rebalance_ok (one := true) (d := d) h1.rep (by grind) h1.kid
              simp only [erase, ht] at h3
              refine h3.map ?_
              rintro ⟨m2, b3⟩ ⟨u2, b4⟩ ⟨h4, t2, h5, h6⟩
              exact ⟨by rw [← h4], t2, gone, h5, h1.trans h6, hl1⟩
          · simp [hc0, hc1, dir, Sim]

/-! ### The map -/

section
variable {cmp : K → K → Int} {d : Int} {zero : V}

theorem put_sim {s : PMap K V} {m : Avl.Map K V} (h : MRel s m) (k : K) (v : V) :
    Sim MRel (putM cmp d zero s k v) (Avls.Map.put cmp d m k v) := by
  obtain ⟨hs, t, ht, hH, hlen⟩ := h
  have h1 := put_ok (cmp := cmp) (d := d) (zero := zero) (key := k) (val := v)
    hH.rep hH.fresh hH.root hH.height
  rw [ht, show ((s.mem 0).kid (!true)).isNone = false by
    rw [show (!true) = false from rfl, hH.center]; rfl] at h1
  refine h1.map ?_
  rintro ⟨m1, z, rb⟩ ⟨u, rb'⟩ ⟨he, -, t', h2, h3⟩
  simp only at he h2 h3 ⊢
  subst he
  exact ⟨by simp [hs], t', h2, hH.step h3 (Nat.le_succ _) (by simp) (by simp) _,
    by simpa [hlen] using h3.perm.length_eq.symm⟩

theorem getM_sim {s : PMap K V} {m : Avl.Map K V} (h : MRel s m) (k : K) :
    getM cmp s k = (Avls.get cmp k m.root).map fun e => e.map (·.2) := by
  obtain ⟨hs, t, ht, hH, hlen⟩ := h
  have h1 := get_ok (cmp := cmp) (key := k) hH.rep hH.nodup hH.root hH.height
  simp only [getM, PMap.root]
  rw [show (s.mem 0).hi = ptr t from hH.root, ← ht]
  revert h1
  cases get cmp s.mem k s.free (ptr t) <;> cases Avls.get cmp k (erase t) <;>
    simp only [Sim, false_imp_iff, true_imp_iff, Option.map_none]
  rintro ⟨h1, -⟩
  subst h1
  simp [Option.map_map, Function.comp_def]

theorem set_sim {s : PMap K V} {m : Avl.Map K V} (h : MRel s m) (k : K) (v : V) :
    Sim RRel (setM cmp d zero s k v) (Avls.Map.set cmp d m k v) := by
  have h0 := put_sim (cmp := cmp) (d := d) (zero := zero) h k v
  obtain ⟨hs, t, ht, hH, hlen⟩ := h
  have h1 := get_ok (cmp := cmp) (key := k) hH.rep hH.nodup hH.root hH.height
  simp only [setM, Avls.Map.set, PMap.root]
  rw [show (s.mem 0).hi = ptr t from hH.root, ← ht]
  refine h1.bind ?_
  rintro o e ⟨h2, h3⟩
  subst h2
  cases o with
  | none => exact h0.map fun _ _ h => ⟨rfl, h⟩
  | some a =>
    obtain ⟨t', h4, h5⟩ := h3 a rfl v
    simp only [Option.map_some, Option.isSome_some, if_true, h4]
    exact ⟨rfl, hs, t', rfl, hH.step h5 (Nat.le_refl _) (by simp) (by simp) _,
      by simpa [hlen] using h5.perm.length_eq.symm⟩

theorem insert_sim {s : PMap K V} {m : Avl.Map K V} (h : MRel s m) (k : K) (v : V) :
    Sim RRel (insertIfAbsentM cmp d zero s k v) (Avls.Map.insertIfAbsent cmp d m k v) := by
  have h0 := put_sim (cmp := cmp) (d := d) (zero := zero) h k v
  simp only [insertIfAbsentM, Avls.Map.insertIfAbsent, getM_sim h]
  cases Avls.get cmp k m.root with
  | none => trivial
  | some e =>
    cases e with
    | none => exact h0.map fun _ _ h => ⟨rfl, h⟩
    | some e => exact ⟨rfl, h⟩

theorem remove_sim {s : PMap K V} {m : Avl.Map K V} (h : MRel s m) (k : K) :
    Sim RRel (removeM cmp d s k) (Avls.Map.remove cmp d m k) := by
  obtain ⟨hs, t, ht, hH, hlen⟩ := h
  have h1 := removeLeft_ok (cmp := cmp) (d := d) (key := k) hH.rep hH.nodup hH.root hH.center
    (List.nodup_cons.1 hH.nodup).1 hH.height
  rw [ht] at h1
  refine h1.map ?_
  rintro ⟨m1, o, b⟩ ⟨u, o', b'⟩ ⟨he, t', gone, h2, h3, h4⟩
  cases he
  refine ⟨rfl, by simp [hs], t', h2, hH.step h3 (Nat.le_refl _) (by simp) (by simp) _, ?_⟩
  have h5 := h3.perm.length_eq
  simp only [List.length_append, List.length_nil, h4, ← hlen] at h5 ⊢
  cases o <;> simp at h5 ⊢ <;> omega

/-- One call: the two programs fail together, or answer the same and stay in the same state. -/
theorem step_sim {s : PMap K V} {m : Avl.Map K V} (h : MRel s m) (op : Avls.Op K V) :
    Sim RRel (step cmp d zero s op) (Avls.step cmp d m op) := by
  have hp := @put_sim K V cmp d zero s m h
  have hs := @set_sim K V cmp d zero s m h
  have hi := @insert_sim K V cmp d zero s m h
  have hr := @remove_sim K V cmp d s m h
  have hg := @getM_sim K V cmp s m h
  have hc := clear_sim h
  have h' := h
  obtain ⟨hz, t, ht, hH, -⟩ := h
  have hroot : s.root = ptr t := hH.root
  have ht' : ∀ every, traverse every s.mem s.free s.root = some (m.root.traverse every) := by
    intro every; rw [hroot, ← ht]; exact traverse_ok hH.rep hH.height
  cases op with
  | put k v => exact (hp k v).map fun _ _ h => ⟨rfl, h⟩
  | insertIfAbsent k v => exact (hi k v).map fun _ _ h => ⟨congrArg _ h.1, h.2⟩
  | set k v => exact (hs k v).map fun _ _ h => ⟨congrArg _ h.1, h.2⟩
  | upsert k v => exact (hs k v).map fun _ _ h => ⟨by simp only [h.1], h.2⟩
  | get k =>
    simp only [step, Avls.step, hg]
    cases Avls.get cmp k m.root
    · trivial
    · exact ⟨rfl, h'⟩
  | remove k => exact (hr k).map fun _ _ h => ⟨congrArg _ h.1, h.2⟩
  | delete k => exact (hr k).map fun _ _ h => ⟨congrArg _ h.1, h.2⟩
  | clear => exact ⟨rfl, hc⟩
  | size => exact ⟨congrArg _ hz, h'⟩
  | len => exact ⟨congrArg _ hz, h'⟩
  | height =>
    simp only [step, Avls.step, PMap.height, Avl.Map.height, hz, hroot, ← ht]
    split
    · exact ⟨rfl, h'⟩
    · match t, ht, hH with
      | nil, _, _ => trivial
      | node a k v l r, _, hH =>
        refine ⟨?_, h'⟩
        simp [hH.rep.1]
  | values =>
    simp only [step, Avls.step, hz, ht']
    split
    · exact ⟨rfl, h'⟩
    · exact ⟨rfl, h'⟩
  | traverse every =>
    simp only [step, Avls.step, ht']
    exact ⟨rfl, h'⟩

/-- A history of calls. -/
theorem run_sim : ∀ (os : List (Avls.Op K V)) {s : PMap K V} {m : Avl.Map K V}, MRel s m →
    Sim RRel (run (step cmp d zero) s os) (run (Avls.step cmp d) m os) := by
  intro os
  induction os with
  | nil => intro s m h; exact ⟨rfl, h⟩
  | cons o os ih =>
    intro s m h
    have h1 := step_sim (cmp := cmp) (d := d) (zero := zero) h o
    simp only [run]
    revert h1
    cases step cmp d zero s o <;> cases Avls.step cmp d m o <;>
      simp only [Sim, false_imp_iff, true_imp_iff]
    rename_i q q'
    rintro ⟨h2, h3⟩
    have h4 := ih h3
    revert h4
    obtain ⟨s1, r⟩ := q
    obtain ⟨m1, r'⟩ := q'
    simp only at h2 ⊢
    subst h2
    cases run (step cmp d zero) s1 os <;> cases run (Avls.step cmp d) m1 os <;>
      simp only [Sim, false_imp_iff, true_imp_iff]
    rintro ⟨h5, h6⟩
    exact ⟨congrArg _ h5, h6⟩

end

end Verif.AvlsHeap
