import Verif.Tree.AvlHeapSim
import Mathlib.Data.List.Perm.Subperm

/-! Histories of calls of the pointer program and of the model with subtrees. -/

namespace Verif.AvlHeap
open Verif.Avl (w8 T)
open Verif.Tree
variable {K V : Type}

theorem get_ok {cmp : K → K → Int} {key : K} {m : Mem K V} : ∀ {n : Nat} {p : Nat} {c : Bool}
    {t : P K V}, Rep m t → (p :: addrs t).Nodup → (m p).kid c = ptr t → t.height < n →
    Sim (fun o e => o.map (fun a => ((m a).key, (m a).val)) = e ∧ ∀ a, o = some a → ∀ val, ∃ t',
        Avl.setVal cmp key val (erase t) = some (erase t') ∧
        Good [] [] m (write m a fun e => (e.1, val)) p c t t')
      (get cmp m key n (ptr t)) (Avl.get cmp key (erase t)) := by
  intro n
  induction n with
  | zero => intro p c t hR hn hp hh; omega
  | succ n ih =>
    intro p c t hR hn hp hh
    match t with
    | nil => simp [get, erase, Avl.get, Sim]
    | node (a, h) k v l r =>
      have hR' := hR
      obtain ⟨ha, hl, hr⟩ := hR
      rw [ptr_node] at hp
      simp only [Tree.height] at hh
      have hna : (a :: addrs l).Nodup ∧ (a :: addrs r).Nodup := by simp only [addrs] at hn; grind
      simp only [get, ptr_node, ha, erase, Avl.get]
      by_cases hc : cmp k key < 0
      · simp only [hc, if_true, Avl.setVal]
        refine ⟨by simp [ha], ?_⟩
        rintro b hb val
        cases hb
        exact ⟨_, rfl, write_entry hR' hp hn⟩
      · simp only [hc, if_false, Avl.setVal]
        by_cases hc0 : cmp k key = 0
        · simp only [hc0, if_true, dir, Option.bind_some, kid_mk, Bool.false_eq_true, if_false]
          refine (ih (c := false) hl hna.1 (by simp [ha]) (by omega)).mono ?_
          rintro o e ⟨h1, h2⟩
          refine ⟨h1, fun b hb val => ?_⟩
          obtain ⟨t', h3, h4⟩ := h2 b hb val
          exact ⟨node (a, h) k v t' r, by rw [h3]; rfl, h4.left hR' hp hn⟩
        · by_cases hc1 : cmp k key = 1
          · simp only [hc1, if_true, dir, Option.bind_some, kid_mk, Int.one_ne_zero, if_false]
            refine (ih (c := true) hr hna.2 (by simp [ha]) (by omega)).mono ?_
            rintro o e ⟨h1, h2⟩
            refine ⟨h1, fun b hb val => ?_⟩
            obtain ⟨t', h3, h4⟩ := h2 b hb val
            exact ⟨node (a, h) k v l t', by rw [h3]; rfl, h4.right hR' hp hn⟩
          · simp [hc0, hc1, dir, Sim]

theorem traverse_ok {every : K → V → Bool} {m : Mem K V} : ∀ {n : Nat} {t : P K V}, Rep m t →
    t.height < n → traverse every m n (ptr t) = some ((erase t).traverse every) := by
  intro n
  induction n with
  | zero => intro t _ hh; omega
  | succ n ih =>
    intro t hR hh
    match t with
    | nil => rfl
    | node (a, h) k v l r =>
      obtain ⟨ha, hl, hr⟩ := hR
      simp only [Tree.height] at hh
      simp only [traverse, ptr_node, ha, erase, Tree.traverse, ih hl (by omega), ih hr (by omega),
        Option.bind_some, Option.map_some]
      rcases (erase l).traverse every with ⟨xs, _ | _⟩ <;> rcases every k v with _ | _ <;>
        rcases (erase r).traverse every with ⟨ys, _ | _⟩ <;> rfl

/-! ### The map -/

/-- The pointer program holds the tree `t`. The cells of `t` are distinct, in use and not the
`Center` node, whose `Children[0]` is itself. -/
structure Holds (s : PMap K V) (t : P K V) : Prop where
  rep : Rep s.mem t
  root : (s.mem 0).kid true = ptr t
  center : (s.mem 0).kid false = some 0
  nodup : (0 :: addrs t).Nodup
  used : ∀ a ∈ addrs t, a < s.free
  free : 0 < s.free

theorem Holds.height {s : PMap K V} {t : P K V} (h : Holds s t) : t.height < s.free := by
  have h1 : (0 :: addrs t).length ≤ (List.range s.free).length :=
    (List.subperm_of_subset h.nodup fun x hx => by
      rcases List.mem_cons.1 hx with rfl | hx
      · exact List.mem_range.2 h.free
      · exact List.mem_range.2 (h.used x hx)).length_le
  have h2 := t.height_le_count
  rw [t.count_eq, ← length_addrs] at h2
  simp only [List.length_cons, List.length_range] at h1
  omega

/-- Both programs are in the same state. -/
def MRel (s : PMap K V) (m : Avl.Map K V) : Prop :=
  s.size = m.size ∧ ∃ t, erase t = m.root ∧ Holds s t ∧ s.size = (addrs t).length

theorem MRel.new (junk : K × V) : MRel (PMap.new junk) (Avl.Map.new : Avl.Map K V) :=
  ⟨rfl, nil, rfl, ⟨trivial, rfl, rfl, by simp [addrs], by simp [addrs], by simp [PMap.new]⟩, rfl⟩

theorem Holds.step {s : PMap K V} {m' : Mem K V} {n' : Nat} {new gone : List Nat} {t t' : P K V}
    (h : Holds s t) (hg : Good new gone s.mem m' 0 true t t') (hf : s.free ≤ n')
    (hnew : ∀ a ∈ new, s.free ≤ a ∧ a < n') (hn : new.Nodup) (size : Nat) :
    Holds ⟨m', n', size⟩ t' := by
  have h1 : (0 :: (new ++ addrs t)).Nodup := by
    have h2 := h.nodup
    have h3 := h.used
    have h4 := h.free
    simp only [List.nodup_cons, List.nodup_append, List.mem_append, not_or] at h2 ⊢
    refine ⟨⟨fun h5 => ?_, h2.1⟩, hn, h2.2, ?_⟩
    · have := hnew 0 h5; omega
    · rintro a ha b hb rfl
      have := hnew a ha
      have := h3 a hb
      omega
  have h2 := hg.nodup h1
  refine ⟨hg.rep, hg.kid, ?_, ?_, ?_, ?_⟩
  · simp only [hg.par]
    exact (kid_setKid_not _ true _).trans h.center
  · simp only [List.nodup_cons, List.nodup_append, List.mem_append, not_or] at h2 ⊢
    exact ⟨h2.1.2, h2.2.2.1⟩
  · intro a ha
    have : a ∈ new ++ addrs t := hg.perm.mem_iff.1 (List.mem_append_right _ ha)
    rcases List.mem_append.1 this with h5 | h5
    · exact (hnew a h5).2
    · exact Nat.lt_of_lt_of_le (h.used a h5) hf
  · exact Nat.lt_of_lt_of_le h.free hf

theorem Holds.fresh {s : PMap K V} {t : P K V} (h : Holds s t) : (0 :: s.free :: addrs t).Nodup := by
  have h2 := h.nodup
  have h3 := h.used
  have h4 := h.free
  simp only [List.nodup_cons, List.mem_cons, not_or] at h2 ⊢
  exact ⟨⟨by omega, h2.1⟩, fun h5 => absurd (h3 _ h5) (by omega), h2.2⟩

section
variable {cmp : K → K → Int} {one : Bool} {d : Int} {zero : V}

/-- How the results of a call are related. -/
def RRel {α : Type} (q : PMap K V × α) (q' : Avl.Map K V × α) : Prop := q.2 = q'.2 ∧ MRel q.1 q'.1

theorem put_sim {s : PMap K V} {m : Avl.Map K V} (h : MRel s m) (k : K) (v : V) :
    Sim RRel (s.put cmp one d zero k v) (m.put cmp one d k v) := by
  obtain ⟨hs, t, ht, hH, hlen⟩ := h
  have h1 := put_ok (cmp := cmp) (one := one) (d := d) (zero := zero) (key := k) (val := v)
    (f := id) hH.rep hH.fresh hH.root hH.height
  rw [ht, show ((s.mem 0).kid (!true)).isNone = false by
    rw [show (!true) = false from rfl, hH.center]; rfl] at h1
  refine h1.map ?_
  rintro ⟨m1, z, ex, rb⟩ ⟨u, ex', rb'⟩ ⟨he, -, -, hk, t', h2, h3⟩
  simp only at he hk h2 h3 ⊢
  cases he
  cases ex with
  | true =>
    refine ⟨rfl, hs, t', h2, ?_⟩
    have : write m1 z (later k v id true) = m1 := by
      funext x; simp only [write, later, upd, if_true, id]; split <;> simp_all
    rw [this] at h3
    exact ⟨hH.step h3 (Nat.le_refl _) (by simp) (by simp) _, by simpa [hlen] using h3.perm.length_eq.symm⟩
  | false =>
    refine ⟨rfl, by simp [hs], t', h2, ?_⟩
    have : write m1 z (later k v id false) = write m1 z fun e => (e.1, v) := by
      simp only [write, later, Bool.false_eq_true, if_false, hk rfl]
    rw [this] at h3
    exact ⟨hH.step h3 (Nat.le_succ _) (by simp) (by simp) _, by simpa [hlen] using h3.perm.length_eq.symm⟩

theorem set_sim {s : PMap K V} {m : Avl.Map K V} (h : MRel s m) (k : K) (v : V) :
    Sim RRel (s.set cmp one d zero k v) (m.set cmp one d k v) := by
  obtain ⟨hs, t, ht, hH, hlen⟩ := h
  have h1 := put_ok (cmp := cmp) (one := one) (d := d) (zero := zero) (key := k) (val := v)
    (f := fun _ => (k, v)) hH.rep hH.fresh hH.root hH.height
  rw [ht, show ((s.mem 0).kid (!true)).isNone = false by
    rw [show (!true) = false from rfl, hH.center]; rfl] at h1
  refine h1.map ?_
  rintro ⟨m1, z, ex, rb⟩ ⟨u, ex', rb'⟩ ⟨he, -, -, hk, t', h2, h3⟩
  simp only at he hk h2 h3 ⊢
  cases he
  have : later k v (fun _ => (k, v)) ex = fun _ => (k, v) := by cases ex <;> rfl
  rw [this] at h3
  cases ex with
  | true => exact ⟨rfl, hs, t', h2, hH.step h3 (Nat.le_refl _) (by simp) (by simp) _,
      by simpa [hlen] using h3.perm.length_eq.symm⟩
  | false => exact ⟨rfl, by simp [hs], t', h2, hH.step h3 (Nat.le_succ _) (by simp) (by simp) _,
      by simpa [hlen] using h3.perm.length_eq.symm⟩

theorem remove_sim {s : PMap K V} {m : Avl.Map K V} (h : MRel s m) (k : K) :
    Sim RRel (s.remove cmp one d k) (m.remove cmp one d k) := by
  obtain ⟨hs, t, ht, hH, hlen⟩ := h
  have h1 := remove_ok (cmp := cmp) (one := one) (d := d) (key := k) hH.rep hH.nodup hH.root hH.center
    (List.nodup_cons.1 hH.nodup).1 hH.height
  rw [ht] at h1
  refine h1.map ?_
  rintro ⟨m1, o, b⟩ ⟨u, o', b'⟩ ⟨he, t', gone, h2, h3, h4⟩
  cases he
  refine ⟨rfl, by simp [hs], t', h2, hH.step h3 (Nat.le_refl _) (by simp) (by simp) _, ?_⟩
  have h5 := h3.perm.length_eq
  simp only [List.length_append, List.length_nil, h4, ← hlen] at h5 ⊢
  cases o <;> simp at h5 ⊢ <;> omega

theorem get_sim {s : PMap K V} {m : Avl.Map K V} (h : MRel s m) (k : K) :
    s.get cmp k = m.get cmp k := by
  obtain ⟨hs, t, ht, hH, hlen⟩ := h
  have h1 := get_ok (cmp := cmp) (key := k) hH.rep hH.nodup hH.root hH.height
  simp only [PMap.get, Avl.Map.get, PMap.root]
  rw [show (s.mem 0).hi = ptr t from hH.root, ← ht]
  revert h1
  cases get cmp s.mem k s.free (ptr t) <;> cases Avl.get cmp k (erase t) <;> simp only [Sim, false_imp_iff, true_imp_iff, Option.map_none]
  rintro ⟨h1, -⟩
  subst h1
  simp [Option.map_map, Function.comp_def]

theorem upsert_sim {s : PMap K V} {m : Avl.Map K V} (h : MRel s m) (k : K) (v : V) :
    Sim RRel (s.upsert cmp one d zero k v) (m.upsert cmp one d k v) := by
  have h0 := set_sim (cmp := cmp) (one := one) (d := d) (zero := zero) h k v
  obtain ⟨hs, t, ht, hH, hlen⟩ := h
  have h1 := get_ok (cmp := cmp) (key := k) hH.rep hH.nodup hH.root hH.height
  simp only [PMap.upsert, Avl.Map.upsert, PMap.root]
  rw [show (s.mem 0).hi = ptr t from hH.root, ← ht]
  refine h1.bind ?_
  rintro o e ⟨h2, h3⟩
  subst h2
  cases o with
  | none => exact h0.map fun _ _ h => ⟨rfl, h.2⟩
  | some a =>
    obtain ⟨t', h4, h5⟩ := h3 a rfl v
    simp only [Option.map_some, Option.isSome_some, if_true, h4]
    exact ⟨rfl, hs, t', rfl, hH.step h5 (Nat.le_refl _) (by simp) (by simp) _,
      by simpa [hlen] using h5.perm.length_eq.symm⟩

theorem clear_sim {s : PMap K V} {m : Avl.Map K V} (h : MRel s m) :
    MRel ⟨link s.mem 0 true none, s.free, 0⟩ (⟨nil, 0⟩ : Avl.Map K V) := by
  obtain ⟨hs, t, ht, hH, hlen⟩ := h
  exact ⟨rfl, nil, rfl, hH.step (gone := addrs t) (link_good hH.nodup (t' := nil) trivial (by simp [addrs]))
    (Nat.le_refl _) (by simp) (by simp) _, rfl⟩

/-- One call: the two programs fail together, or answer the same and stay in the same state. -/
theorem step_sim {s : PMap K V} {m : Avl.Map K V} (h : MRel s m) (op : Avl.Op K V) :
    Sim RRel (step cmp one d zero s op) (Avl.step cmp one d m op) := by
  have hp := @put_sim K V cmp one d zero s m h
  have hs := @set_sim K V cmp one d zero s m h
  have hu := @upsert_sim K V cmp one d zero s m h
  have hr := @remove_sim K V cmp one d s m h
  have hg := @get_sim K V cmp s m h
  have hc := clear_sim h
  have h' := h
  obtain ⟨hz, t, ht, hH, -⟩ := h
  have hroot : s.root = ptr t := hH.root
  have ht' : ∀ every, traverse every s.mem s.free s.root = some (m.root.traverse every) := by
    intro every; rw [hroot, ← ht]; exact traverse_ok hH.rep hH.height
  cases op with
  | put k v => exact (hp k v).map fun _ _ h => ⟨congrArg _ h.1, h.2⟩
  | insertIfAbsent k v => exact (hp k v).map fun _ _ h => ⟨congrArg _ h.1, h.2⟩
  | set k v => exact (hs k v).map fun _ _ h => ⟨congrArg _ h.1, h.2⟩
  | upsert k v => exact (hu k v).map fun _ _ h => ⟨congrArg _ h.1, h.2⟩
  | get k =>
    simp only [step, Avl.step, hg]
    cases m.get cmp k
    · trivial
    · exact ⟨rfl, h'⟩
  | contains k =>
    simp only [step, Avl.step, hg]
    cases m.get cmp k
    · trivial
    · exact ⟨rfl, h'⟩
  | remove k => exact (hr k).map fun _ _ h => ⟨congrArg _ h.1, h.2⟩
  | delete k => exact (hr k).map fun _ _ h => ⟨congrArg _ h.1, h.2⟩
  | clear => exact ⟨rfl, hc⟩
  | size => exact ⟨congrArg _ hz, h'⟩
  | len => exact ⟨congrArg _ hz, h'⟩
  | empty => exact ⟨by simp [hz], h'⟩
  | height =>
    simp only [step, Avl.step, PMap.height, Avl.Map.height, hz, hroot, ← ht]
    split
    · exact ⟨rfl, h'⟩
    · match t, ht, hH with
      | nil, _, _ => trivial
      | node a k v l r, _, hH =>
        refine ⟨?_, h'⟩
        simp [hH.rep.1]
  | values =>
    simp only [step, Avl.step, hz, ht']
    split
    · exact ⟨rfl, h'⟩
    · exact ⟨rfl, h'⟩
  | traverse every =>
    simp only [step, Avl.step, ht']
    exact ⟨rfl, h'⟩

/-- A history of calls. -/
theorem run_sim : ∀ (os : List (Avl.Op K V)) {s : PMap K V} {m : Avl.Map K V}, MRel s m →
    Sim RRel (run (step cmp one d zero) s os) (run (Avl.step cmp one d) m os) := by
  intro os
  induction os with
  | nil => intro s m h; exact ⟨rfl, h⟩
  | cons o os ih =>
    intro s m h
    have h1 := step_sim (cmp := cmp) (one := one) (d := d) (zero := zero) h o
    simp only [run]
    revert h1
    cases step cmp one d zero s o <;> cases Avl.step cmp one d m o <;>
      simp only [Sim, false_imp_iff, true_imp_iff]
    rename_i q q'
    rintro ⟨h2, h3⟩
    have h4 := ih h3
    revert h4
    obtain ⟨s1, r⟩ := q
    obtain ⟨m1, r'⟩ := q'
    simp only at h2 ⊢
    subst h2
    cases run (step cmp one d zero) s1 os <;> cases run (Avl.step cmp one d) m1 os <;>
      simp only [Sim, false_imp_iff, true_imp_iff]
    rintro ⟨h5, h6⟩
    exact ⟨congrArg _ h5, h6⟩

end

end Verif.AvlHeap
