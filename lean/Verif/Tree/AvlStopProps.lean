import Verif.Tree.AvlStop
import Verif.Tree.AvlHeapProps
import Verif.Tree.AvlsHeapProps
import Verif.Queue.PriorityHeapProps

/-! C107 for tree/avl, set/treeset, tree/avls and queue/priority. -/

namespace Verif
open Out

namespace AvlHeap
variable {K V : Type} {cmp : K → K → Int} {one : Bool} {d : Int} {zero : V}

theorem put_stop {bad : Nat → Bool} {free : Nat} {key : K} : ∀ (n : Nat) (m : Mem K V) (p : Nat) (c : Bool),
    Same m (∃ a, bad a = true) (putB bad cmp one d zero free key n m p c)
      (put cmp one d zero free key n m p c)
  | 0, _, _, _ => .inr rfl
  | n + 1, m, p, c => by
    rw [putB, put]
    cases (m p).kid c with
    | none => exact same_done _
    | some cur =>
      refine same_if (fun h => ⟨_, h⟩) ?_
      dsimp only
      split
      · exact same_done _
      · refine (Same.of _).bind fun c' _ => (put_stop n m cur c').bind fun q _ => ?_
        split
        · exact same_done _
        · exact .of _

theorem get_stop {bad : Nat → Bool} {m : Mem K V} {key : K} : ∀ (n : Nat) (p : Option Nat),
    Same m (∃ a, bad a = true) (getB bad cmp m key n p) (get cmp m key n p)
  | 0, _ => .inr rfl
  | _ + 1, none => .inr rfl
  | n + 1, some cur => by
    rw [getB, get]
    refine same_if (fun h => ⟨_, h⟩) ?_
    dsimp only
    split
    · exact same_done _
    · exact (Same.of _).bind fun c' _ => get_stop n _

theorem remove_stop {bad : Nat → Bool} {key : K} : ∀ (n : Nat) (m : Mem K V) (g : Nat) (c2 c1 : Bool),
    Same m (∃ a, bad a = true) (removeB bad cmp one d key n m g c2 c1)
      (remove cmp one d key n m g c2 c1)
  | 0, _, _, _, _ => .inr rfl
  | n + 1, m, g, c2, c1 => by
    rw [removeB, remove]
    refine (Same.of _).bind fun parent _ => ?_
    dsimp only
    cases (m parent).kid c1 with
    | none => exact same_done _
    | some cur =>
      dsimp only
      refine same_if (fun h => ⟨_, h⟩) ?_
      split
      · exact .of _
      · exact (Same.of _).bind fun c' _ => (remove_stop n m parent c1 c').bind fun q _ => .of _

variable {bad : Bad} {s : PMap K V}

theorem set_stop (i : Nat) (k : K) (v : V) :
    Same s bad.some (s.setB bad cmp one d zero i k v) (s.set cmp one d zero k v) :=
  (((put_stop _ _ _ _).lift s.at).mono fun ⟨a, h⟩ => ⟨i, a, h⟩).map _

theorem stepB_stop (op : Avl.Op K V) :
    Same s bad.some (stepB bad cmp one d zero s op) (step cmp one d zero s op) := by
  have hp : ∀ k v, Same s bad.some (s.putB bad cmp one d zero k v) (s.put cmp one d zero k v) :=
    fun k v => (((put_stop _ _ _ _).lift s.at).mono fun ⟨a, h⟩ => ⟨0, a, h⟩).map _
  have hg : ∀ k, Same s bad.some (s.getB bad cmp k) (s.get cmp k) :=
    fun k => (((get_stop _ _).lift s.at).mono fun ⟨a, h⟩ => ⟨0, a, h⟩).map _
  have hr : ∀ k, Same s bad.some (s.removeB bad cmp one d k) (s.remove cmp one d k) :=
    fun k => (((remove_stop _ _ _ _ _).lift s.at).mono fun ⟨a, h⟩ => ⟨0, a, h⟩).map _
  have hu : ∀ k v, Same s bad.some (s.upsertB bad cmp one d zero k v) (s.upsert cmp one d zero k v) := by
    intro k v
    refine (((get_stop _ _).lift s.at).mono fun ⟨a, h⟩ => ⟨0, a, h⟩).bind fun e _ => ?_
    cases e with
    | some cur => exact same_done _
    | none => exact (set_stop 1 k v).map _
  cases op with
  | put k v => exact (hp k v).map _
  | insertIfAbsent k v => exact (hp k v).map _
  | set k v => exact (set_stop 0 k v).map _
  | upsert k v => exact (hu k v).map _
  | get k => exact (hg k).map _
  | contains k => exact (hg k).map _
  | remove k => exact (hr k).map _
  | delete k => exact (hr k).map _
  | _ => exact .inr rfl

end AvlHeap

namespace AvlsHeap
open AvlHeap
variable {K V : Type} {cmp : K → K → Int} {d : Int} {zero : V}

theorem put_stop {bad : Nat → Bool} {free : Nat} {key : K} : ∀ (n : Nat) (m : Mem K V) (p : Nat) (c : Bool),
    Same m (∃ a, bad a = true) (putB bad cmp d zero free key n m p c) (put cmp d zero free key n m p c)
  | 0, _, _, _ => .inr rfl
  | n + 1, m, p, c => by
    rw [putB, put]
    cases (m p).kid c with
    | none => exact same_done _
    | some cur =>
      refine same_if (fun h => ⟨_, h⟩) ?_
      exact (Same.of _).bind fun c' _ => (put_stop n m cur c').bind fun q _ => .of _

theorem get_stop {bad : Nat → Bool} {m : Mem K V} {key : K} : ∀ (n : Nat) (p : Option Nat),
    Same m (∃ a, bad a = true) (getB bad cmp m key n p) (get cmp m key n p)
  | 0, _ => .inr rfl
  | _ + 1, none => .inr rfl
  | n + 1, some cur => by
    rw [getB, get]
    refine same_if (fun h => ⟨_, h⟩) ?_
    dsimp only
    split
    · exact (get_stop n _).map _
    · exact (Same.of _).bind fun c' _ => get_stop n _

theorem remove_stop {bad : Nat → Bool} {key : K} : ∀ (n : Nat) (m : Mem K V) (g : Nat) (c2 c1 : Bool),
    Same m (∃ a, bad a = true) (removeLeftB bad cmp d key n m g c2 c1)
      (removeLeft cmp d key n m g c2 c1)
  | 0, _, _, _, _ => .inr rfl
  | n + 1, m, g, c2, c1 => by
    rw [removeLeftB, removeLeft]
    refine (Same.of _).bind fun parent _ => ?_
    dsimp only
    cases (m parent).kid c1 with
    | none => exact same_done _
    | some cur =>
      dsimp only
      refine same_if (fun h => ⟨_, h⟩) ?_
      split
      · exact (remove_stop n m parent c1 false).bind fun q _ => .of _
      · exact (Same.of _).bind fun c' _ => (remove_stop n m parent c1 c').bind fun q _ => .of _

variable {bad : Bad} {s : PMap K V}

theorem stepB_stop (op : Avls.Op K V) :
    Same s bad.some (stepB bad cmp d zero s op) (step cmp d zero s op) := by
  have hp : ∀ i k v, Same s bad.some (putMB bad cmp d zero s i k v) (putM cmp d zero s k v) :=
    fun i k v => (((put_stop _ _ _ _).lift s.at).mono fun ⟨a, h⟩ => ⟨i, a, h⟩).map _
  have hg : ∀ k, Same s bad.some (getMB bad cmp s k) (getM cmp s k) :=
    fun k => (((get_stop _ _).lift s.at).mono fun ⟨a, h⟩ => ⟨0, a, h⟩).map _
  have hr : ∀ k, Same s bad.some (removeMB bad cmp d s k) (removeM cmp d s k) :=
    fun k => (((remove_stop _ _ _ _ _).lift s.at).mono fun ⟨a, h⟩ => ⟨0, a, h⟩).map _
  have hs : ∀ k v, Same s bad.some (setMB bad cmp d zero s k v) (setM cmp d zero s k v) := by
    intro k v
    refine (((get_stop _ _).lift s.at).mono fun ⟨a, h⟩ => ⟨0, a, h⟩).bind fun e _ => ?_
    cases e with
    | some cur => exact same_done _
    | none => exact (hp 1 k v).map _
  have hi : ∀ k v, Same s bad.some (insertIfAbsentMB bad cmp d zero s k v)
      (insertIfAbsentM cmp d zero s k v) := by
    intro k v
    refine (hg k).bind fun e _ => ?_
    cases e with
    | some cur => exact same_done _
    | none => exact (hp 1 k v).map _
  cases op with
  | put k v => exact (hp 0 k v).map _
  | insertIfAbsent k v => exact (hi k v).map _
  | set k v => exact (hs k v).map _
  | upsert k v => exact (hs k v).map _
  | get k => exact (hg k).map _
  | remove k => exact (hr k).map _
  | delete k => exact (hr k).map _
  | _ => exact .inr rfl

end AvlsHeap

namespace PriorityHeap
open AvlHeap (Mem)
variable {K V : Type} {cmp : K → K → Int} {zero : V}

theorem put_stop {bad : Nat → Bool} {free : Nat} {key : K} : ∀ (n : Nat) (m : Mem K V) (p : Nat) (c : Bool),
    Same m (∃ a, bad a = true) (putB bad cmp zero free key n m p c) (put cmp zero free key n m p c)
  | 0, _, _, _ => .inr rfl
  | n + 1, m, p, c => by
    rw [putB, put]
    cases (m p).kid c with
    | none => exact same_done _
    | some cur =>
      refine same_if (fun h => ⟨_, h⟩) ?_
      exact (Same.of _).bind fun c' _ => (put_stop n m cur c').bind fun q _ => .of _

theorem get_stop {bad : Nat → Bool} {m : Mem K V} {key : K} : ∀ (n : Nat) (p : Nat) (c : Bool)
    (sel : Option Nat),
    Same m (∃ a, bad a = true) (getfirstB bad cmp m key n p c sel) (getfirst cmp m key n p c sel)
  | 0, _, _, _ => .inr rfl
  | n + 1, p, c, sel => by
    rw [getfirstB, getfirst]
    cases (m p).kid c with
    | none => exact same_done _
    | some cur =>
      refine same_if (fun h => ⟨_, h⟩) ?_
      dsimp only
      split
      · exact get_stop n _ _ _
      · exact (Same.of _).bind fun c' _ => get_stop n _ _ _

theorem remove_stop {bad : Nat → Bool} {key : K} : ∀ (n : Nat) (m : Mem K V) (g : Nat) (c2 c1 : Bool),
    Same m (∃ a, bad a = true) (removeLeftB bad cmp key n m g c2 c1)
      (removeLeft cmp key n m g c2 c1)
  | 0, _, _, _, _ => .inr rfl
  | n + 1, m, g, c2, c1 => by
    rw [removeLeftB, removeLeft]
    refine (Same.of _).bind fun parent _ => ?_
    dsimp only
    cases (m parent).kid c1 with
    | none => exact same_done _
    | some cur =>
      dsimp only
      refine same_if (fun h => ⟨_, h⟩) ?_
      split
      · exact (remove_stop n m parent c1 false).bind fun q _ => .of _
      · exact (Same.of _).bind fun c' _ => (remove_stop n m parent c1 c').bind fun q _ => .of _

variable {bad : Bad} {s : PQueue K V}

theorem stepB_stop (op : Priority.Op K V) :
    Same s bad.some (stepB bad cmp zero s op) (step cmp zero s op) := by
  have hp : ∀ i k v, Same s bad.some (s.putB bad cmp zero i k v) (s.put cmp zero k v) :=
    fun i k v => (((put_stop _ _ _ _).lift s.at).mono fun ⟨a, h⟩ => ⟨i, a, h⟩).map _
  have hg : ∀ k, Same s bad.some (s.getfirstB bad cmp k) (s.getfirst cmp k) :=
    fun k => ((get_stop _ _ _ _).lift s.at).mono fun ⟨a, h⟩ => ⟨0, a, h⟩
  have hr : ∀ k, Same s bad.some (s.removeB bad cmp k) (s.remove cmp k) :=
    fun k => (((remove_stop _ _ _ _ _).lift s.at).mono fun ⟨a, h⟩ => ⟨0, a, h⟩).map _
  have hu : ∀ k v, Same s bad.some (s.upsertB bad cmp zero k v) (s.upsert cmp zero k v) := by
    intro k v
    refine (hg k).bind fun e _ => ?_
    cases e with
    | some cur => exact same_done _
    | none => exact (hp 1 k v).map _
  have hi : ∀ k v, Same s bad.some (s.insertIfAbsentB bad cmp zero k v)
      (s.insertIfAbsent cmp zero k v) := by
    intro k v
    refine (hg k).bind fun e _ => ?_
    cases e with
    | some cur => exact same_done _
    | none => exact (hp 1 k v).map _
  cases op with
  | put k v => exact (hp 0 k v).map _
  | insertIfAbsent k v => exact (hi k v).map _
  | upsert k v => exact (hu k v).map _
  | get k => exact (hg k).map _
  | remove k => exact (hr k).map _
  | delete k => exact (hr k).map _
  | _ => exact .inr rfl

end PriorityHeap
end Verif
