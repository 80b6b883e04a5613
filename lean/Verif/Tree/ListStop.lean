import Verif.Tree.IndexStop
import Verif.Tree.ListHeap

/-! The methods of tree/treelist with a comparator that may panic: the programs of `ListHeap` once more, but
each comparison is a place where the program may stop. The links are never assigned while it compares. -/

namespace Verif.ListHeap
open Verif.IndexHeap
open Verif.TreeList (limit Op Res)
variable {K V : Type}

/-- The loop of `putWith`, utils.go:77-102. -/
def putLoopB (bad : Nat → Bool) (root : Nat) (cmp : K → K → Int) (write : V → V) (fresh : Nat) (key : K)
    (val : V) (rounds : Nat) (m : Mem K V) (d : Dir) :
    Nat → Nat → Option Nat → Option Nat → Out (Mem K V) (Mem K V × Dir × Bool)
  | 0, _, _, _ => .fail
  | n + 1, cur, left, right =>
    if bad cur then .stopped m
    else
      let c := cmp key (m cur).key
      if c < 0 then
        match (m cur).lo with
        | some b => putLoopB bad root cmp write fresh key val rounds m d n b left (some cur)
        | none =>
          .of ((fixPut root false limit rounds
            (link (alloc m fresh cur key val) cur false (some fresh)) cur).map
              fun m => (m, thread root d fresh left (some cur), false))
      else if c > 0 then
        match (m cur).hi with
        | some b => putLoopB bad root cmp write fresh key val rounds m d n b (some cur) right
        | none =>
          .of ((fixPut root false limit rounds
            (link (alloc m fresh cur key val) cur true (some fresh)) cur).map
              fun m => (m, thread root d fresh (some cur) right, false))
      else .done (upd m cur fun x => { x with val := write x.val }, d, true)

/-- `ltrim` and `rtrim` of `RemoveRange`, tree.go:255-279, 289-313. -/
def cutB (d : Dir) (bad : Nat → Bool) (cmp : K → K → Int) (bound : K) (c : Bool) :
    Nat → Mem K V → Option Nat → Option Nat → Out (Mem K V) (Mem K V × Option Nat × Option Nat)
  | 0, _, _, _ => .fail
  | _ + 1, m, e, none => .done (m, e, none)
  | n + 1, m, e, some a =>
    if bad a then .stopped m
    else
      let x := cmp bound (m a).key
      if (if c then x > 0 else x < 0) then
        (cutB d bad cmp bound c n m e ((m a).kid c)).map fun p =>
          (hook p.1 a c p.2.2, if p.2.2.isNone then some a else p.2.1, some a)
      else if (if c then x < 0 else x > 0) then
        cutB d bad cmp bound c n m (if ((m a).kid (!c)).isNone then side (!c) (d a) else e) ((m a).kid (!c))
      else .done (m, side (!c) (d a), (m a).kid (!c))

/-- tree.go:281-286, 315-320. -/
def cutTopB (d : Dir) (bad : Nat → Bool) (cmp : K → K → Int) (bound : K) (c : Bool) (n : Nat) (m : Mem K V)
    (rt : Nat) : Out (Mem K V) (Mem K V × Option Nat × Option Nat) :=
  match (m rt).kid (!c) with
  | none => .done (m, side (!c) (d rt), none)
  | some b => cutB d bad cmp bound c n m none (some b)

/-- tree.go:253-352, `RemoveRange` at the root of the range. -/
def rangeAtB (d : Dir) (bad : Bad) (root : Nat) (cmp : K → K → Int) (low high : K) (rt : Nat) (m : Mem K V)
    (n : Nat) : Out (Mem K V) (Mem K V × Option Nat × Option Nat) :=
  (cutTopB d (bad 3) cmp low true n m rt).bind fun p =>
  (cutTopB d (bad 4) cmp high false n p.1 rt).bind fun q =>
  .of ((joinGroups root n q.1 rt p.2.2 q.2.2).map fun m => (m, p.2.1, q.2.1))

section
variable (bad : Bad) (cmp : K → K → Int) (s : PList K V)

/-- A search that stops leaves its memory to the list. -/
def PList.at (m : Mem K V) : PList K V := { s with mem := m }

/-- utils.go:64-103 `putWith`. -/
def PList.putWithB (key : K) (val : V) (write : V → V) : Out (PList K V) (PList K V × Bool) :=
  match s.top with
  | none => .of (s.putWith cmp key val write)
  | some cur =>
    ((putLoopB (bad 0) s.root cmp write s.free key val s.free s.mem s.dir s.free cur none none).lift
      s.at).map fun p => (⟨p.1, p.2.1, if p.2.2 then s.free else s.free + 1, s.root⟩, p.2.2)

/-- tree.go:185-190 `Remove`; `i` is the number of the search. -/
def PList.removeB (i : Nat) (key : K) : Out (PList K V) (PList K V × Option (K × V)) :=
  ((getNodeB (bad i) cmp s.mem key s.free s.top).lift s.at).bind fun o =>
    match o with
    | none => .done (s, none)
    | some cur => .of ((s.removeNode cur).map fun p => (p.1, some p.2))

/-- tree.go:235-354 `RemoveRange`; the comparison of the two bounds, 240, is the search number 0. -/
def PList.removeRangeB (low high : K) : Out (PList K V) (PList K V × Res K V) :=
  if bad 0 s.root then .stopped s
  else
    let c := cmp low high
    if c > 0 then .done (s, .panic)
    else if c = 0 then (s.removeB bad cmp 1 low).map fun p => (p.1, .bool p.2.isSome)
    else
      ((getRangeRootB (bad 1) (bad 2) cmp s.mem low high s.free s.top).lift s.at).bind fun o =>
        match o with
        | none => .done (s, .bool false)
        | some rt => ((rangeAtB s.dir bad s.root cmp low high rt s.mem s.free).lift s.at).map fun p =>
          ({ s with mem := p.1, dir := unlink s.root s.dir p.2.1 p.2.2 }, .bool true)

/-- One call; those of `step` that do not compare are as there. `Trim`, tree.go:528-611, compares the two
bounds in line 530. -/
def stepB : Op K V → Out (PList K V) (PList K V × Res K V)
  | .put k v => (s.putWithB bad cmp k v id).map fun p => (p.1, .bool !p.2)
  | .set k v => (s.putWithB bad cmp k v fun _ => v).map fun p => (p.1, .bool p.2)
  | .putDup k v f => (s.putWithB bad cmp k v f).map fun p => (p.1, .bool p.2)
  | .get k => ((getNodeB (bad 0) cmp s.mem k s.free s.top).lift s.at).map fun o =>
    (s, .found (o.map fun cur => (s.mem cur).val))
  | .remove k => (s.removeB bad cmp 0 k).map fun p => (p.1, .slice p.2)
  | .indexOf k => match s.top with
    | none => .done (s, .int (-1))
    | some cur => ((indexOfLoopB (bad 0) cmp s.mem k s.free cur
        (getSize s.mem (s.mem cur).lo)).lift s.at).map fun i => (s, .int i)
  | .removeRange low high => s.removeRangeB bad cmp low high
  | .trim low high =>
    if bad 0 s.root then .stopped s
    else if cmp low high > 0 then .done (s, .panic)
    else ((trimB bad cmp s.root s.free s.mem low high).lift s.at).bind fun m =>
      .of (({ s with mem := m } : PList K V).fence.map fun s => (s, .unit))
  | op => .of (step cmp s op)

end
end Verif.ListHeap
