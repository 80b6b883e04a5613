import Verif.Queue.PriorityHeapSim
import Verif.Tree.AvlHeapMap

/-! Histories of calls of the pointer program of queue/priority and of the model with subtrees. -/

namespace Verif.PriorityHeap
open Verif.AvlHeap
open Verif.Tree
open Verif.Size (sz)
open Priority (Op Res)
variable {K V : Type}

/-- The pointer program holds the tree `t`. The cells of `t` are distinct, in use and not the
`Center` node, whose `Children[0]` is itself. -/
abbrev Held (s : PQueue K V) (t : P K V) : Prop := Holds (⟨s.mem, s.free, 0⟩ : PMap K V) t

/-- Both programs are in the same state. -/
def QRel (s : PQueue K V) (u : Tree Int K V) : Prop := ∃ t, erase t = u ∧ Held s t

theorem QRel.new (junk : K × V) : QRel (PQueue.new junk) (nil : Tree Int K V) :=
  ⟨nil, rfl, ⟨trivial, rfl, rfl, by simp [addrs], by simp [addrs], by simp [PQueue.new]⟩⟩

theorem held_step {s : PQueue K V} {m' : Mem K V} {gone : List Nat} {t t' : P K V}
    (h : Held s t) (hg : Good [] gone s.mem m' 0 true t t') : Held ⟨m', s.free⟩ t' :=
  h.step hg (Nat.le_refl _) (by simp) (by simp) 0

theorem held_size {s : PQueue K V} {t : P K V} (h : Held s t) : s.size = sz (erase t) := by
  have h1 : s.root = ptr t := h.root
  rw [PQueue.size, h1]
  exact szp h.rep

/-- How the results of a call are related. -/
def RRel {α : Type} (q : PQueue K V × α) (q' : Tree Int K V × α) : Prop := q.2 = q'.2 ∧ QRel q.1 q'.1

section
variable {cmp : K → K → Int} {zero : V}

theorem put_sim {s : PQueue K V} {u : Tree Int K V} (h : QRel s u) (k : K) (v : V) :
    Sim QRel (s.put cmp zero k v) (Priority.doPut cmp u k v) := by
  obtain ⟨t, ht, hH⟩ := h
  have h1 := put_ok (cmp := cmp) (zero := zero) (key := k) (val := v) hH.rep hH.fresh hH.root hH.height
  rw [ht, show ((s.mem 0).kid (!true)).isSome = true by
    rw [show (!true) = false from rfl, show (s.mem 0).kid false = some 0 from hH.center]; rfl] at h1
  refine h1.map ?_
  rintro ⟨m1, z, two⟩ ⟨u, two'⟩ ⟨-, t', h2, h3⟩
  exact ⟨t', h2, hH.step h3 (Nat.le_succ _) (by simp) (by simp) 0⟩

theorem getfirst_sim {s : PQueue K V} {u : Tree Int K V} (h : QRel s u) (k : K) :
    Sim (fun o e => o.map (fun a => ((s.mem a).key, (s.mem a).val)) = e ∧
        ∀ a, o = some a → ∀ v, ∃ u', Avls.setVal cmp k v u = some (u', true) ∧
          QRel ⟨write s.mem a fun e => (e.1, v), s.free⟩ u')
      (s.getfirst cmp k) (Priority.getfirst cmp k u none) := by
  obtain ⟨t, ht, hH⟩ := h
  have h1 := getfirst_ok (cmp := cmp) (key := k) (sel := none) hH.rep hH.nodup hH.root hH.height
  rw [ht] at h1
  refine h1.mono ?_
  rintro o e ⟨h2, h3⟩
  refine ⟨h2, ?_⟩
  rintro a rfl v
  obtain ⟨u', b, h4, h5, h6⟩ := h3 v
  cases b with
  | false => exact absurd (h5 rfl) (by simp)
  | true =>
    obtain ⟨a', t', h7, h8, h9⟩ := h6 rfl
    cases h7
    exact ⟨u', h4, t', h8.symm, held_step hH h9⟩

theorem insert_sim {s : PQueue K V} {u : Tree Int K V} (h : QRel s u) (k : K) (v : V) :
    Sim RRel (s.insertIfAbsent cmp zero k v) (Priority.doInsert cmp u k v) := by
  refine (getfirst_sim (cmp := cmp) h k).bind ?_
  rintro o e ⟨h1, -⟩
  subst h1
  cases o with
  | none => exact (put_sim (cmp := cmp) (zero := zero) h k v).map fun _ _ h => ⟨rfl, h⟩
  | some a => exact ⟨rfl, h⟩

theorem upsert_sim {s : PQueue K V} {u : Tree Int K V} (h : QRel s u) (k : K) (v : V) :
    Sim RRel (s.upsert cmp zero k v) (Priority.doUpsert cmp u k v) := by
  refine (getfirst_sim (cmp := cmp) h k).bind ?_
  rintro o e ⟨h1, h2⟩
  subst h1
  cases o with
  | none => exact (put_sim (cmp := cmp) (zero := zero) h k v).map fun _ _ h => ⟨rfl, h⟩
  | some a =>
    obtain ⟨u', h3, h4⟩ := h2 a rfl v
    simp only [Option.map_some, Option.isSome_some, if_true, h3]
    exact ⟨rfl, h4⟩

theorem remove_sim {s : PQueue K V} {u : Tree Int K V} (h : QRel s u) (k : K) :
    Sim RRel (s.remove cmp k) (Priority.remove cmp k u true) := by
  obtain ⟨t, ht, hH⟩ := h
  have h1 := removeLeft_ok (cmp := cmp) (key := k) hH.rep hH.nodup hH.root hH.center
    (List.nodup_cons.1 hH.nodup).1 hH.height
  rw [ht] at h1
  refine Sim.mapl h1 ?_
  rintro ⟨m1, o⟩ ⟨u, o'⟩ ⟨he, t', gone, h2, h3, h4⟩
  exact ⟨he, t', h2, held_step hH h3⟩

theorem center_setH {s : PQueue K V} {t : P K V} (hH : Held s t) (h : Int) :
    Held ⟨setH s.mem 0 h, s.free⟩ t := by
  refine ⟨rep_setH hH.rep (List.nodup_cons.1 hH.nodup).1, ?_, ?_, hH.nodup, hH.used, hH.free⟩
  · exact kid_setH.trans hH.root
  · exact kid_setH.trans hH.center

theorem removeIndex_sim {s : PQueue K V} {u : Tree Int K V} (h : QRel s u) (i : Int) :
    Sim RRel ((s.removeIndex i).map fun p =>
        (p.1, match p.2 with | some v => Res.val (some v) | none => (.panic : Res K V)))
      (Priority.doRemoveIndex u i) := by
  obtain ⟨t, ht, hH⟩ := h
  have hroot : s.root = ptr t := hH.root
  subst ht
  match t with
  | nil =>
    simp only [PQueue.removeIndex, hroot, ptr_nil, erase, Priority.doRemoveIndex, isNil, if_true,
      Option.map_some]
    exact ⟨rfl, nil, rfl, hH⟩
  | node (a, h) k v l r =>
    simp only [PQueue.removeIndex, hroot, ptr_node, Priority.doRemoveIndex,
      show (erase (node (a, h) k v l r)).isNil = false from rfl, Bool.false_eq_true, if_false,
      held_size hH]
    rw [show hgt s.mem (s.mem a).lo = Size.leftSz (erase (node (a, h) k v l r)) from
      leftSz_ptr hH.rep]
    have h1 := fun j => removeIndex_ok (i := j) (idx := Size.leftSz (erase (node (a, h) k v l r)))
      hH.rep hH.nodup hH.root (by simp) hH.height
    have h2 : ∀ j, Sim RRel ((((removeIndex j s.free s.mem 0 true
          (Size.leftSz (erase (node (a, h) k v l r)))).map
          fun p => ((⟨p.1, s.free⟩ : PQueue K V), p.2)).map fun p =>
          (p.1, match p.2 with | some v => Res.val (some v) | none => (.panic : Res K V))))
        ((Priority.removeIndex j (erase (node (a, h) k v l r)) true
          (Size.leftSz (erase (node (a, h) k v l r)))).map fun p =>
          (p.1, match p.2 with | some v => Res.val (some v) | none => .panic)) := by
      intro j
      rw [Option.map_map]
      refine (h1 j).map ?_
      rintro ⟨m1, o⟩ ⟨u, o'⟩ ⟨he, t', gone, h2, h3, h4⟩
      simp only at he h2 h3
      subst he
      exact ⟨rfl, t', h2, held_step (s := ⟨setH s.mem 0 _, s.free⟩) (center_setH hH _) h3⟩
    split
    · exact h2 _
    · exact h2 _

theorem popHead_sim {s : PQueue K V} {u : Tree Int K V} (h : QRel s u) :
    Sim RRel (s.popHead.map fun p => (p.1, (.val p.2 : Res K V)))
      (if sz u = 0 then some (u, .val none)
       else (Size.takeMin u).map fun p => (p.1, .val (some p.2.2))) := by
  have h' := h
  obtain ⟨t, ht, hH⟩ := h
  have hroot : s.root = ptr t := hH.root
  subst ht
  simp only [PQueue.popHead, held_size hH]
  split
  · exact ⟨rfl, h'⟩
  · match t with
    | nil => simp [hroot, erase, Size.takeMin, Sim]
    | node (a, h) k v l r =>
      simp only [hroot, ptr_node, Option.bind_some, Option.map_map]
      refine (popHead_ok (n := s.free) (p := 0) hH.rep hH.nodup hH.root (List.nodup_cons.1 hH.nodup).1
        (Nat.le_of_lt hH.height)).map ?_
      rintro ⟨m2, p2, z⟩ ⟨u2, e⟩ ⟨h4, t2, h5, h6⟩
      exact ⟨congrArg (fun x => Res.val (some x)) h4, t2, h5, held_step hH h6⟩

theorem popTail_sim {s : PQueue K V} {u : Tree Int K V} (h : QRel s u) :
    Sim RRel (s.popTail.map fun p => (p.1, (.val p.2 : Res K V)))
      (if sz u = 0 then some (u, .val none)
       else (Size.takeMax u).map fun p => (p.1, .val (some p.2.2))) := by
  have h' := h
  obtain ⟨t, ht, hH⟩ := h
  have hroot : s.root = ptr t := hH.root
  subst ht
  simp only [PQueue.popTail, held_size hH]
  split
  · exact ⟨rfl, h'⟩
  · match t with
    | nil => simp [hroot, erase, Size.takeMax, Sim]
    | node (a, h) k v l r =>
      simp only [hroot, ptr_node, Option.bind_some, Option.map_map]
      refine (popTail_ok (n := s.free) (p := 0) hH.rep hH.nodup hH.root
        (Nat.le_of_lt hH.height)).map ?_
      rintro ⟨m2, p2, z⟩ ⟨u2, e⟩ ⟨h4, t2, h5, h6⟩
      exact ⟨congrArg (fun x => Res.val (some x)) h4, t2, h5, held_step hH h6⟩

theorem index_sim {s : PQueue K V} {u : Tree Int K V} (h : QRel s u) (i : Int) :
    (s.index i).map (fun e => (match e with
      | some a => .val (some (s.mem a).val)
      | none => .panic : Res K V)) = some (Priority.doIndex u i) := by
  obtain ⟨t, ht, hH⟩ := h
  have hroot : s.root = ptr t := hH.root
  subst ht
  match t with
  | nil =>
    simp only [PQueue.index, hroot, ptr_nil, Option.map_some, Priority.doIndex, erase, Size.nodeAt]
  | node (a, h) k v l r =>
    simp only [PQueue.index, hroot, ptr_node, held_size hH, Priority.doIndex]
    rw [show hgt s.mem (s.mem a).lo = Size.leftSz (erase (node (a, h) k v l r)) from
      leftSz_ptr hH.rep]
    obtain ⟨o, h1, h2⟩ := index_ok (i := if i < 0 then sz (erase (node (a, h) k v l r)) + i else i)
      (idx := Size.leftSz (erase (node (a, h) k v l r))) hH.rep (Nat.le_of_lt hH.height)
    rw [h1, ← h2]
    cases o <;> rfl

theorem gets_sim {s : PQueue K V} {u : Tree Int K V} (h : QRel s u) (k : K) :
    s.gets cmp k = Priority.gets cmp k u := by
  obtain ⟨t, ht, hH⟩ := h
  have hroot : s.root = ptr t := hH.root
  subst ht
  have hlt : t.height < s.free := hH.height
  have h1 := seekRoot_ok (cmp := cmp) (key := k) hH.rep hlt
  simp only [PQueue.gets, hroot, Priority.gets]
  revert h1
  cases seekRoot cmp s.mem k s.free (ptr t) <;> cases Priority.seekRoot cmp k (erase t) <;>
    simp only [Sim, false_imp_iff, true_imp_iff, Option.bind_none, Option.bind_some]
  rintro ⟨t', h2, h3, h4, h5⟩
  subst h2 h4
  match t', h3, h5 with
  | nil, _, _ => rfl
  | node b k2 v2 l r, h3, h5 =>
    simp only [ptr_node, Option.isNone_some, Bool.false_eq_true, if_false]
    exact collect_ok h3 (by omega)

theorem clear_sim {s : PQueue K V} {u : Tree Int K V} (h : QRel s u) :
    QRel ⟨link s.mem 0 true none, s.free⟩ (nil : Tree Int K V) := by
  obtain ⟨t, ht, hH⟩ := h
  exact ⟨nil, rfl, held_step (gone := addrs t) hH
    (link_good hH.nodup (t' := nil) trivial (by simp [addrs]))⟩

/-- One call: the two programs fail together, or answer the same and stay in the same state. -/
theorem step_sim {s : PQueue K V} {u : Tree Int K V} (h : QRel s u) (op : Op K V) :
    Sim RRel (step cmp zero s op) (Priority.step cmp u op) := by
  have hsize : s.size = sz u := by
    obtain ⟨t, ht, hH⟩ := h
    rw [held_size hH, ht]
  have ht' : ∀ every, traverse every s.mem s.free s.root = some (u.traverse every) := by
    obtain ⟨t, ht, hH⟩ := h
    intro every; rw [show s.root = ptr t from hH.root, ← ht]; exact traverse_ok hH.rep hH.height
  cases op with
  | put k v => exact (put_sim h k v).map fun _ _ h => ⟨rfl, h⟩
  | insertIfAbsent k v => exact (insert_sim h k v).map fun _ _ h => ⟨congrArg _ h.1, h.2⟩
  | upsert k v => exact (upsert_sim h k v).map fun _ _ h => ⟨congrArg _ h.1, h.2⟩
  | get k =>
    refine (getfirst_sim h k).map ?_
    rintro o e ⟨h1, -⟩
    subst h1
    exact ⟨by simp [Option.map_map, Function.comp_def], h⟩
  | index i =>
    have h1 := index_sim h i
    simp only [step, Priority.step]
    cases h2 : s.index i with
    | none => rw [h2] at h1; cases h1
    | some e =>
      rw [h2] at h1
      exact ⟨Option.some.inj h1, h⟩
  | remove k => exact (remove_sim h k).map fun _ _ h => ⟨congrArg _ h.1, h.2⟩
  | delete k => exact (remove_sim h k).map fun _ _ h => ⟨congrArg _ h.1, h.2⟩
  | removeIndex i => exact removeIndex_sim h i
  | popHead => exact popHead_sim h
  | popTail => exact popTail_sim h
  | clear => exact ⟨rfl, clear_sim h⟩
  | size => exact ⟨congrArg _ hsize, h⟩
  | len => exact ⟨congrArg _ hsize, h⟩
  | traverse every =>
    simp only [step, Priority.step, ht']
    exact ⟨rfl, h⟩
  | values =>
    have hnil : s.root.isNone = u.isNil := by
      obtain ⟨t, ht, hH⟩ := h
      rw [show s.root = ptr t from hH.root, isNone_ptr, ht]
    simp only [step, Priority.step, ht', hsize, hnil]
    split
    · exact ⟨rfl, h⟩
    · split
      · trivial
      · exact ⟨rfl, h⟩

/-- A history of calls. -/
theorem run_sim : ∀ (os : List (Op K V)) {s : PQueue K V} {u : Tree Int K V}, QRel s u →
    Sim RRel (run (step cmp zero) s os) (run (Priority.step cmp) u os) := by
  intro os
  induction os with
  | nil => intro s u h; exact ⟨rfl, h⟩
  | cons o os ih =>
    intro s u h
    have h1 := step_sim (cmp := cmp) (zero := zero) h o
    simp only [run]
    revert h1
    cases step cmp zero s o <;> cases Priority.step cmp u o <;>
      simp only [Sim, false_imp_iff, true_imp_iff]
    rename_i q q'
    rintro ⟨h2, h3⟩
    have h4 := ih h3
    revert h4
    obtain ⟨s1, r⟩ := q
    obtain ⟨m1, r'⟩ := q'
    simp only at h2 ⊢
    subst h2
    cases run (step cmp zero) s1 os <;> cases run (Priority.step cmp) m1 os <;>
      simp only [Sim, false_imp_iff, true_imp_iff]
    rintro ⟨h5, h6⟩
    exact ⟨congrArg _ h5, h6⟩

end

end Verif.PriorityHeap
