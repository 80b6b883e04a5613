import Verif.Common.Stop
import Verif.Tree.AvlHeap
import Verif.Tree.AvlsHeap
import Verif.Queue.PriorityHeap

/-! The methods of tree/avl, set/treeset, tree/avls and queue/priority with a comparator that may panic.
These are the programs of `AvlHeap`, `AvlsHeap` and `PriorityHeap` once more, but each comparison is a
place where the program may stop, and the memory is then left as it is at that moment.

When the comparator panics is given by `Bad`. -/

namespace Verif

namespace AvlHeap
variable {K V : Type}

/-- tree/avl/tree_hide.go:9-38 `put`; set/treeset/tree_hide.go:9-38. -/
def putB (bad : Nat → Bool) (cmp : K → K → Int) (one : Bool) (d : Int) (zero : V) (free : Nat) (key : K) :
    Nat → Mem K V → Nat → Bool → Out (Mem K V) (Put K V)
  | 0, _, _, _ => .fail
  | n + 1, m, parent, child =>
    match (m parent).kid child with
    | none =>
      let m := upd m free ⟨key, zero, 1, none, none⟩
      let m := link m parent child (some free)
      .done ⟨m, free, false, ((m parent).kid (!child)).isNone⟩
    | some cur =>
      if bad cur then .stopped m
      else
        let c := cmp (m cur).key key
        if c < 0 then .done ⟨m, cur, true, false⟩
        else
          (Out.of (dir c)).bind fun c =>
          (putB bad cmp one d zero free key n m cur c).bind fun p =>
            if p.ex || !p.reb then .done p
            else .of ((rebalance one d p.mem parent child).map fun q => ⟨q.1, p.target, p.ex, q.2⟩)

/-- tree/avl/tree_hide.go:40-49 `get`; set/treeset/tree_hide.go:40-49. -/
def getB (bad : Nat → Bool) (cmp : K → K → Int) (m : Mem K V) (key : K) :
    Nat → Option Nat → Out (Mem K V) (Option Nat)
  | 0, _ => .fail
  | _ + 1, none => .done none
  | n + 1, some cur =>
    if bad cur then .stopped m
    else
      let c := cmp (m cur).key key
      if c < 0 then .done (some cur)
      else (Out.of (dir c)).bind fun c => getB bad cmp m key n ((m cur).kid c)

/-- tree/avl/tree_hide.go:51-89 `remove`; set/treeset/tree_hide.go:51-89. -/
def removeB (bad : Nat → Bool) (cmp : K → K → Int) (one : Bool) (d : Int) (key : K) :
    Nat → Mem K V → Nat → Bool → Bool → Out (Mem K V) (Mem K V × Option V × Bool)
  | 0, _, _, _, _ => .fail
  | n + 1, m, grandpa, child2, child1 =>
    (Out.of ((m grandpa).kid child2)).bind fun parent =>
      match (m parent).kid child1 with
      | none => .done (m, none, false)
      | some cur =>
        if bad cur then .stopped m
        else
          let c := cmp (m cur).key key
          if c < 0 then
            .of (if (m cur).lo.isNone then some (link m parent child1 (m cur).hi, some (m cur).val, true)
              else if (m cur).hi.isNone then
                some (link m parent child1 (m cur).lo, some (m cur).val, true)
              else
                let result := (m cur).val
                (neighboring one d n m cur child1 (!child1)).bind fun p =>
                  let m := write p.1 cur fun _ => ((p.1 p.2.1).key, (p.1 p.2.1).val)
                  (rebalance one d m parent child1).map fun q => (q.1, some result, q.2))
          else
            (Out.of (dir c)).bind fun c =>
            (removeB bad cmp one d key n m parent child1 c).bind fun p =>
              .of (if cur ≠ 0 ∧ p.2.2 = true then
                (rebalance one d p.1 parent child1).map fun q => (q.1, p.2.1, q.2)
              else some p)

section
variable (bad : Bad) (cmp : K → K → Int) (one : Bool) (d : Int) (zero : V) (s : PMap K V)

/-- A search that stops leaves its memory to the map. -/
def PMap.at (m : Mem K V) : PMap K V := { s with mem := m }

/-- tree/avl/tree.go:43-51 `Set`; set/treeset/tree.go:45-53. `i` is the number of the search. -/
def PMap.setB (i : Nat) (k : K) (v : V) : Out (PMap K V) (PMap K V × Bool) :=
  ((putB (bad i) cmp one d zero s.free k s.free s.mem 0 true).lift s.at).map fun p =>
    let m := write p.mem p.target fun _ => (k, v)
    if p.ex then (⟨m, s.free, s.size⟩, false) else (⟨m, s.free + 1, s.size + 1⟩, true)

/-- tree/avl/tree.go:63-70 `Put`; set/treeset/tree.go:65-72 `Add`. -/
def PMap.putB (k : K) (v : V) : Out (PMap K V) (PMap K V × Bool) :=
  ((AvlHeap.putB (bad 0) cmp one d zero s.free k s.free s.mem 0 true).lift s.at).map fun p =>
    if p.ex then (⟨p.mem, s.free, s.size⟩, false)
    else (⟨write p.mem p.target fun e => (e.1, v), s.free + 1, s.size + 1⟩, true)

/-- tree/avl/tree.go:54-61 `Upsert`; set/treeset/tree.go:56-63. -/
def PMap.upsertB (k : K) (v : V) : Out (PMap K V) (PMap K V × Bool) :=
  ((getB (bad 0) cmp s.mem k s.free s.root).lift s.at).bind fun e =>
    match e with
    | some cur => .done (⟨write s.mem cur fun e => (e.1, v), s.free, s.size⟩, true)
    | none => (s.setB bad cmp one d zero 1 k v).map fun p => (p.1, false)

/-- tree/avl/tree.go:77-84 `Get`; set/treeset/tree.go:87-94. -/
def PMap.getB (k : K) : Out (PMap K V) (Option V) :=
  ((AvlHeap.getB (bad 0) cmp s.mem k s.free s.root).lift s.at).map fun e =>
    e.map fun cur => (s.mem cur).val

/-- tree/avl/tree.go:86-93 `Remove`; set/treeset/tree.go:100-107. -/
def PMap.removeB (k : K) : Out (PMap K V) (PMap K V × Option V) :=
  ((AvlHeap.removeB (bad 0) cmp one d k s.free s.mem 0 false true).lift s.at).map fun p =>
    (⟨p.1, s.free, if p.2.1.isSome then s.size - 1 else s.size⟩, p.2.1)

open Avl (Op Res)

/-- One call; those of `step` that do not compare are as there. -/
def stepB : Op K V → Out (PMap K V) (PMap K V × Res K V)
  | .put k v => (s.putB bad cmp one d zero k v).map fun p => (p.1, .bool p.2)
  | .insertIfAbsent k v => (s.putB bad cmp one d zero k v).map fun p => (p.1, .bool p.2)
  | .set k v => (s.setB bad cmp one d zero 0 k v).map fun p => (p.1, .bool p.2)
  | .upsert k v => (s.upsertB bad cmp one d zero k v).map fun p => (p.1, .bool p.2)
  | .get k => (s.getB bad cmp k).map fun o => (s, .val o)
  | .contains k => (s.getB bad cmp k).map fun o => (s, .bool o.isSome)
  | .remove k => (s.removeB bad cmp one d k).map fun p => (p.1, .val p.2)
  | .delete k => (s.removeB bad cmp one d k).map fun p => (p.1, .val p.2)
  | op => .of (step cmp one d zero s op)

end
end AvlHeap

/-! ### tree/avls -/

namespace AvlsHeap
open AvlHeap
variable {K V : Type}

/-- tree/avls/tree_hide.go:9-34 `put`. -/
def putB (bad : Nat → Bool) (cmp : K → K → Int) (d : Int) (zero : V) (free : Nat) (key : K) :
    Nat → Mem K V → Nat → Bool → Out (Mem K V) (Mem K V × Nat × Bool)
  | 0, _, _, _ => .fail
  | n + 1, m, parent, child =>
    match (m parent).kid child with
    | none =>
      let m := upd m free ⟨key, zero, 1, none, none⟩
      let m := link m parent child (some free)
      .done (m, free, ((m parent).kid (!child)).isNone)
    | some cur =>
      if bad cur then .stopped m
      else
        let c0 := cmp (m cur).key key
        let c := if c0 < 0 then 1 else c0
        (Out.of (dir c)).bind fun c =>
        (putB bad cmp d zero free key n m cur c).bind fun p =>
          .of (if p.2.2 then (rebalance true d p.1 parent child).map fun q => (q.1, p.2.1, q.2)
            else some p)

/-- tree/avls/tree_hide.go:36-50 `get`. -/
def getB (bad : Nat → Bool) (cmp : K → K → Int) (m : Mem K V) (key : K) :
    Nat → Option Nat → Out (Mem K V) (Option Nat)
  | 0, _ => .fail
  | _ + 1, none => .done none
  | n + 1, some cur =>
    if bad cur then .stopped m
    else
      let c := cmp (m cur).key key
      if c < 0 then
        (getB bad cmp m key n (m cur).lo).map fun left => if left.isSome then left else some cur
      else (Out.of (dir c)).bind fun c => getB bad cmp m key n ((m cur).kid c)

/-- tree/avls/tree_hide.go:52-96 `removeLeft`. After a recursive call that took out nothing the node is
taken out itself, which compares nothing. -/
def removeLeftB (bad : Nat → Bool) (cmp : K → K → Int) (d : Int) (key : K) :
    Nat → Mem K V → Nat → Bool → Bool → Out (Mem K V) (Mem K V × Option V × Bool)
  | 0, _, _, _, _ => .fail
  | n + 1, m, grandpa, child2, child1 =>
    (Out.of ((m grandpa).kid child2)).bind fun parent =>
      match (m parent).kid child1 with
      | none => .done (m, none, false)
      | some cur =>
        if bad cur then .stopped m
        else
          let c := cmp (m cur).key key
          if c < 0 then
            (removeLeftB bad cmp d key n m parent child1 false).bind fun p =>
              .of (if p.2.1.isSome then
                if cur ≠ 0 ∧ p.2.2 = true then
                  (rebalance true d p.1 parent child1).map fun q => (q.1, p.2.1, q.2)
                else some p
              else removeHere d n p.1 parent child1 cur)
          else
            (Out.of (dir c)).bind fun c =>
            (removeLeftB bad cmp d key n m parent child1 c).bind fun p =>
              .of (if cur ≠ 0 ∧ p.2.2 = true then
                (rebalance true d p.1 parent child1).map fun q => (q.1, p.2.1, q.2)
              else some p)

section
variable (bad : Bad) (cmp : K → K → Int) (d : Int) (zero : V) (s : PMap K V)

/-- tree/avls/tree.go:60-66 `Put`. -/
def putMB (i : Nat) (k : K) (v : V) : Out (PMap K V) (PMap K V) :=
  ((putB (bad i) cmp d zero s.free k s.free s.mem 0 true).lift s.at).map fun p =>
    ⟨write p.1 p.2.1 fun _ => (k, v), s.free + 1, s.size + 1⟩

/-- tree/avls/tree.go:37-48 `Set`, 51-58 `Upsert`. -/
def setMB (k : K) (v : V) : Out (PMap K V) (PMap K V × Bool) :=
  ((getB (bad 0) cmp s.mem k s.free s.root).lift s.at).bind fun e =>
    match e with
    | some cur => .done (⟨write s.mem cur fun e => (e.1, v), s.free, s.size⟩, false)
    | none => (putMB bad cmp d zero s 1 k v).map fun s' => (s', true)

/-- tree/avls/tree.go:77-83 `Get`. -/
def getMB (k : K) : Out (PMap K V) (Option V) :=
  ((getB (bad 0) cmp s.mem k s.free s.root).lift s.at).map fun e => e.map fun cur => (s.mem cur).val

/-- tree/avls/tree.go:69-75 `InsertIfAbsent`. -/
def insertIfAbsentMB (k : K) (v : V) : Out (PMap K V) (PMap K V × Bool) :=
  (getMB bad cmp s k).bind fun e =>
    if e.isSome then .done (s, false) else (putMB bad cmp d zero s 1 k v).map fun s' => (s', true)

/-- tree/avls/tree.go:85-92 `Remove`. -/
def removeMB (k : K) : Out (PMap K V) (PMap K V × Option V) :=
  ((removeLeftB (bad 0) cmp d k s.free s.mem 0 false true).lift s.at).map fun p =>
    (⟨p.1, s.free, if p.2.1.isSome then s.size - 1 else s.size⟩, p.2.1)

open Avl (Res)
open Avls (Op)

/-- One call; those of `step` that do not compare are as there. -/
def stepB : Op K V → Out (PMap K V) (PMap K V × Res K V)
  | .put k v => (putMB bad cmp d zero s 0 k v).map fun s' => (s', .bool true)
  | .insertIfAbsent k v => (insertIfAbsentMB bad cmp d zero s k v).map fun p => (p.1, .bool p.2)
  | .set k v => (setMB bad cmp d zero s k v).map fun p => (p.1, .bool p.2)
  | .upsert k v => (setMB bad cmp d zero s k v).map fun p => (p.1, .bool !p.2)
  | .get k => (getMB bad cmp s k).map fun o => (s, .val o)
  | .remove k => (removeMB bad cmp d s k).map fun p => (p.1, .val p.2)
  | .delete k => (removeMB bad cmp d s k).map fun p => (p.1, .val p.2)
  | op => .of (step cmp d zero s op)

end
end AvlsHeap

/-! ### queue/priority -/

namespace PriorityHeap
open AvlHeap (Mem upd link setH write dir hgt Cell)
variable {K V : Type}

/-- queue/priority/tree_hide.go:14-43 `put`. -/
def putB (bad : Nat → Bool) (cmp : K → K → Int) (zero : V) (free : Nat) (key : K) :
    Nat → Mem K V → Nat → Bool → Out (Mem K V) (Mem K V × Nat × Bool)
  | 0, _, _, _ => .fail
  | n + 1, m, parent, child =>
    match (m parent).kid child with
    | none =>
      let m := upd m free ⟨key, zero, 1, none, none⟩
      let m := link m parent child (some free)
      .done (m, free, ((m parent).kid (!child)).isSome)
    | some cur =>
      if bad cur then .stopped m
      else
        let c0 := cmp (m cur).key key
        (Out.of (dir (if c0 < 0 then 1 else c0))).bind fun c =>
        (putB bad cmp zero free key n m cur c).bind fun p =>
          let m := setH p.1 cur ((p.1 cur).height + 1)
          .of (if (m cur).height > 2 ∧ p.2.2 = false then
              (rebalance m parent child).map fun m => (m, p.2)
            else some (m, p.2))

/-- queue/priority/tree_hide.go:74-86 `getfirst`. -/
def getfirstB (bad : Nat → Bool) (cmp : K → K → Int) (m : Mem K V) (key : K) :
    Nat → Nat → Bool → Option Nat → Out (Mem K V) (Option Nat)
  | 0, _, _, _ => .fail
  | n + 1, parent, child, sel =>
    match (m parent).kid child with
    | none => .done sel
    | some cur =>
      if bad cur then .stopped m
      else
        let c := cmp (m cur).key key
        if c < 0 then getfirstB bad cmp m key n cur false (some cur)
        else (Out.of (dir c)).bind fun c => getfirstB bad cmp m key n cur c sel

/-- queue/priority/tree_hide.go:150-201 `removeLeft`. -/
def removeLeftB (bad : Nat → Bool) (cmp : K → K → Int) (key : K) :
    Nat → Mem K V → Nat → Bool → Bool → Out (Mem K V) (Mem K V × Option V)
  | 0, _, _, _, _ => .fail
  | n + 1, m, grandpa, child2, child1 =>
    (Out.of ((m grandpa).kid child2)).bind fun parent =>
      match (m parent).kid child1 with
      | none => .done (m, none)
      | some cur =>
        if bad cur then .stopped m
        else
          let c := cmp (m cur).key key
          if c < 0 then
            (removeLeftB bad cmp key n m parent child1 false).bind fun p =>
              .of (if p.2.isSome then
                let m := setH p.1 cur ((p.1 cur).height - 1)
                if cur ≠ 0 then (rebalance m parent child1).map fun m => (m, p.2) else some (m, p.2)
              else (removeHere n p.1 parent child1 cur).map fun q => (q.1, some q.2))
          else
            (Out.of (dir c)).bind fun c =>
            (removeLeftB bad cmp key n m parent child1 c).bind fun p =>
              .of (if p.2.isSome then
                let m := setH p.1 cur ((p.1 cur).height - 1)
                if cur ≠ 0 then (rebalance m parent child1).map fun m => (m, p.2) else some (m, p.2)
              else some p)

section
variable (bad : Bad) (cmp : K → K → Int) (zero : V) (s : PQueue K V)

/-- As `PMap.at`. -/
def PQueue.at (m : Mem K V) : PQueue K V := { s with mem := m }

/-- queue/priority/tree.go:32-40 `Put`. -/
def PQueue.putB (i : Nat) (k : K) (v : V) : Out (PQueue K V) (PQueue K V) :=
  ((PriorityHeap.putB (bad i) cmp zero s.free k s.free s.mem 0 true).lift s.at).map fun p =>
    ⟨write p.1 p.2.1 fun e => (e.1, v), s.free + 1⟩

/-- queue/priority/tree.go:61-68 `Get`: `getfirst` from the root. -/
def PQueue.getfirstB (k : K) : Out (PQueue K V) (Option Nat) :=
  (PriorityHeap.getfirstB (bad 0) cmp s.mem k s.free 0 true none).lift s.at

/-- queue/priority/tree.go:43-49 `InsertIfAbsent`. -/
def PQueue.insertIfAbsentB (k : K) (v : V) : Out (PQueue K V) (PQueue K V × Bool) :=
  (s.getfirstB bad cmp k).bind fun e =>
    if e.isSome then .done (s, false) else (s.putB bad cmp zero 1 k v).map fun s' => (s', true)

/-- queue/priority/tree.go:52-59 `Upsert`. -/
def PQueue.upsertB (k : K) (v : V) : Out (PQueue K V) (PQueue K V × Bool) :=
  (s.getfirstB bad cmp k).bind fun e =>
    match e with
    | some cur => .done (⟨write s.mem cur fun e => (e.1, v), s.free⟩, true)
    | none => (s.putB bad cmp zero 1 k v).map fun s' => (s', false)

/-- queue/priority/tree.go:94-101 `Remove`. -/
def PQueue.removeB (k : K) : Out (PQueue K V) (PQueue K V × Option V) :=
  ((removeLeftB (bad 0) cmp k s.free s.mem 0 false true).lift s.at).map fun p => (⟨p.1, s.free⟩, p.2)

open Priority (Op Res)

/-- One call; those of `step` that do not compare are as there. -/
def stepB : Op K V → Out (PQueue K V) (PQueue K V × Res K V)
  | .put k v => (s.putB bad cmp zero 0 k v).map fun s' => (s', .bool true)
  | .insertIfAbsent k v => (s.insertIfAbsentB bad cmp zero k v).map fun p => (p.1, .bool p.2)
  | .upsert k v => (s.upsertB bad cmp zero k v).map fun p => (p.1, .bool p.2)
  | .get k => (s.getfirstB bad cmp k).map fun e => (s, .val (e.map fun a => (s.mem a).val))
  | .remove k => (s.removeB bad cmp k).map fun p => (p.1, .val p.2)
  | .delete k => (s.removeB bad cmp k).map fun p => (p.1, .val p.2)
  | op => .of (step cmp zero s op)

end
end PriorityHeap
end Verif
