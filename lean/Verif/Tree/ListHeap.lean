import Verif.Tree.IndexHeap
import Verif.Tree.TreeListModel

/-! Model of tree/treelist on the level of pointers: children, parents and the two links `Direct` are
addresses. The model of `Verif.Tree.TreeListModel` has subtrees instead of children and parents; that both
agree is proved in `Verif.Tree.ListHeapRun`.

Much of the code is that of tree/indextree, and for it the functions of `Verif.Tree.IndexHeap` are used:

* getRoot utils.go:24-26, getRangeRoot 106-128, fixPutSize 130-135, fixRemoveSize 137-142, fixPut 169-208,
  fixRemoveRange 210-241, sizeRRotate 243-253, sizeLRotate 255-265, lrotate 267-298, rrotate 300-331,
  mergeGroups 333-363, index 482-507, getNode 509-526, getChildrenSumSize 566-568, getSize 574-579,
  getRelationship 581-586, updateBalance 588-590, check 947-985;
* of tree.go the loop of IndexOf 119-140, the inner function of Traverse 150-166, the part of
  RemoveRange 333-352 and of RemoveRangeByIndex 480-499 that joins the groups, the search of
  RemoveRangeByIndex 372-383, Trim 536-592, TrimByIndex 629-699.

The simplifications are those of `Verif.Tree.IndexHeap`. The fields of a node are in `mem`, except for
`Direct`, which is in `dir`; `root` is the node `tree.root`. -/

namespace Verif.ListHeap
open Verif.IndexHeap Verif.DLL
open Verif.TreeList (limit Op Res SetOp walk countAll pull)
variable {K V : Type}

/-- The fields `Direct` of all nodes. -/
abbrev Dir := Nat → Option Nat × Option Nat

/-- `Direct[c]`. -/
def side (c : Bool) (x : Option Nat × Option Nat) : Option Nat := if c then x.2 else x.1

/-- `a.Direct[c] = q`. -/
def setDir (d : Dir) (a : Nat) (c : Bool) (q : Option Nat) : Dir := fun b =>
  if b = a then (if c then ((d b).1, q) else (q, (d b).2)) else d b

/-- `if p != nil { p.Direct[c] = q } else { tree.root.Direct[1-c] = q }`. -/
def join (root : Nat) (d : Dir) (c : Bool) (p q : Option Nat) : Dir :=
  match p with
  | some a => setDir d a c q
  | none => setDir d root (!c) q

/-- What is between `dleft` and `dright` is left out: utils.go:380-390, tree.go:321-331, 468-478. -/
def unlink (root : Nat) (d : Dir) (dleft dright : Option Nat) : Dir :=
  join root (join root d true dleft dright) false dright dleft

/-- tree.go:36-43 `Tree`, with the memory. -/
structure PList (K V : Type) where
  mem : Mem K V
  dir : Dir
  free : Nat
  root : Nat

/-- utils.go:24-26 `getRoot`. -/
def PList.top (s : PList K V) : Option Nat := (s.mem s.root).lo

/-- The fields `Slice` and `Direct` of the nodes, all that a walk along the links sees. -/
def view (m : Mem K V) (d : Dir) : Store (K × V) := fun a =>
  ⟨(d a).1, (d a).2, ((m a).key, (m a).val)⟩

/-! ### Insertion -/

/-- The links of a new node, utils.go:47-60. -/
def thread (root : Nat) (d : Dir) (fresh : Nat) (left right : Option Nat) : Dir :=
  let d := join root d true left (some fresh)
  let d := join root d false right (some fresh)
  let d := setDir d fresh false left
  setDir d fresh true right

/-- The loop of `putWith`, utils.go:77-102, with `attachNode`, 39-62. `upd` is what `onExists` does to the
value. The last component says whether a node was found. -/
def putLoop (root : Nat) (cmp : K → K → Int) (write : V → V) (fresh : Nat) (key : K) (val : V)
    (rounds : Nat) (m : Mem K V) (d : Dir) :
    Nat → Nat → Option Nat → Option Nat → Option (Mem K V × Dir × Bool)
  | 0, _, _, _ => none
  | n + 1, cur, left, right =>
    let c := cmp key (m cur).key
    if c < 0 then
      match (m cur).lo with
      | some b => putLoop root cmp write fresh key val rounds m d n b left (some cur)
      | none =>
        (fixPut root false limit rounds (link (alloc m fresh cur key val) cur false (some fresh)) cur).map
          fun m => (m, thread root d fresh left (some cur), false)
    else if c > 0 then
      match (m cur).hi with
      | some b => putLoop root cmp write fresh key val rounds m d n b (some cur) right
      | none =>
        (fixPut root false limit rounds (link (alloc m fresh cur key val) cur true (some fresh)) cur).map
          fun m => (m, thread root d fresh (some cur) right, false)
    else some (upd m cur fun x => { x with val := write x.val }, d, true)

/-- utils.go:64-103 `putWith`, with 28-37 `initRootNode`; a node just allocated has nil links. -/
def PList.putWith (cmp : K → K → Int) (s : PList K V) (key : K) (val : V) (write : V → V) :
    Option (PList K V × Bool) :=
  match s.top with
  | none =>
    let m := link (alloc s.mem s.free s.root key val) s.root false (some s.free)
    let d := setDir (setDir s.dir s.free false none) s.free true none
    let d := setDir d s.root false (some s.free)
    let d := setDir d s.root true (some s.free)
    some (⟨m, d, s.free + 1, s.root⟩, false)
  | some cur =>
    (putLoop s.root cmp write s.free key val s.free s.mem s.dir s.free cur none none).map fun p =>
      (⟨p.1, p.2.1, if p.2.2 then s.free else s.free + 1, s.root⟩, p.2.2)

/-! ### Removal -/

/-- utils.go:365-472 `removeNode`. -/
def PList.removeNode (s : PList K V) (cur : Nat) : Option (PList K V × (K × V)) :=
  let slice := ((s.mem cur).key, (s.mem cur).val)
  if (s.mem cur).size = 1 then
    (s.mem cur).parent.bind fun parent =>
      if parent ≠ s.root then
        (getRelationship s.mem cur).bind fun c =>
        (fixRemoveSize s.root s.free (link s.mem parent c none) parent).map fun m =>
          ({ s with mem := m, dir := unlink s.root s.dir (s.dir cur).1 (s.dir cur).2 }, slice)
      else
        let d := setDir (setDir s.dir s.root false none) s.root true none
        some ({ s with mem := link s.mem parent false none, dir := d }, slice)
  else
    let c := decide ¬getSize s.mem (s.mem cur).lo > getSize s.mem (s.mem cur).hi
    (takeOut s.root (fun _ w => w) s.free s.mem c cur).bind fun p =>
    (side c (s.dir cur)).map fun x =>
      let far := side c (s.dir x)
      let d := join s.root s.dir (!c) far (some cur)
      ({ s with mem := p.1, dir := setDir d cur c far }, slice)

/-- tree.go:185-190 `Remove`. -/
def PList.remove (cmp : K → K → Int) (s : PList K V) (key : K) :
    Option (PList K V × Option (K × V)) :=
  (getNode cmp s.mem key s.free s.top).bind fun o =>
    match o with
    | none => some (s, none)
    | some cur => (s.removeNode cur).map fun p => (p.1, some p.2)

/-! ### Ranges -/

section
variable (d : Dir)

/-- `ltrim` (`c = true`, the bound is `low`) and `rtrim` (`c = false`, `hight`) of `RemoveRange`,
tree.go:255-279, 289-313. The variable `dleft` (`dright`) is passed on and returned. -/
def cut (cmp : K → K → Int) (bound : K) (c : Bool) : Nat → Mem K V → Option Nat → Option Nat →
    Option (Mem K V × Option Nat × Option Nat)
  | 0, _, _, _ => none
  | _ + 1, m, e, none => some (m, e, none)
  | n + 1, m, e, some a =>
    let x := cmp bound (m a).key
    if (if c then x > 0 else x < 0) then
      (cut cmp bound c n m e ((m a).kid c)).map fun p =>
        (hook p.1 a c p.2.2, if p.2.2.isNone then some a else p.2.1, some a)
    else if (if c then x < 0 else x > 0) then
      cut cmp bound c n m (if ((m a).kid (!c)).isNone then side (!c) (d a) else e) ((m a).kid (!c))
    else some (m, side (!c) (d a), (m a).kid (!c))

/-- tree.go:281-286, 315-320: the groups below the two children of the root of the range. -/
def cutTop (cmp : K → K → Int) (bound : K) (c : Bool) (n : Nat) (m : Mem K V) (rt : Nat) :
    Option (Mem K V × Option Nat × Option Nat) :=
  match (m rt).kid (!c) with
  | none => some (m, side (!c) (d rt), none)
  | some b => cut d cmp bound c n m none (some b)

/-- `ltrim` (`c = true`, the bound is `low`) and `rtrim` (`c = false`, `hight`) of `RemoveRangeByIndex`,
tree.go:390-422, 432-464. `dir` is where the node is below its parent. -/
def cutIdx (bound : Int) (c : Bool) : Nat → Mem K V → Option Nat → Int → Bool → Option Nat →
    Option (Mem K V × Option Nat × Option Nat)
  | 0, _, _, _, _, _ => none
  | _ + 1, m, e, _, _, none => some (m, e, none)
  | n + 1, m, e, idx, dir, some a =>
    let idx := if dir then idx + (getSize m (m a).lo + 1) else idx - (getSize m (m a).hi + 1)
    if (if c then idx < bound else idx > bound) then
      (cutIdx bound c n m e idx c ((m a).kid c)).map fun p =>
        (hook p.1 a c p.2.2, if p.2.2.isNone then some a else p.2.1, some a)
    else if (if c then idx > bound else idx < bound) then
      cutIdx bound c n m (if ((m a).kid (!c)).isNone then side (!c) (d a) else e) idx (!c)
        ((m a).kid (!c))
    else some (m, side (!c) (d a), (m a).kid (!c))

/-- tree.go:424-429, 466-471. -/
def cutIdxTop (bound : Int) (c : Bool) (n : Nat) (m : Mem K V) (rt : Nat) (idx : Int) :
    Option (Mem K V × Option Nat × Option Nat) :=
  match (m rt).kid (!c) with
  | none => some (m, side (!c) (d rt), none)
  | some b => cutIdx d bound c n m none idx (!c) (some b)

/-- tree.go:253-352, `RemoveRange` at the root of the range, without the assignments to `Direct`: the
memory, `dleft` and `dright`. -/
def rangeAt (root : Nat) (cmp : K → K → Int) (low high : K) (rt : Nat) (m : Mem K V) (n : Nat) :
    Option (Mem K V × Option Nat × Option Nat) :=
  (cutTop d cmp low true n m rt).bind fun p =>
  (cutTop d cmp high false n p.1 rt).bind fun q =>
  (joinGroups root n q.1 rt p.2.2 q.2.2).map fun m => (m, p.2.1, q.2.1)

/-- tree.go:385-499, the same for `RemoveRangeByIndex`. -/
def rangeIdxAt (root : Nat) (low high : Int) (rt : Nat) (idx : Int) (m : Mem K V) (n : Nat) :
    Option (Mem K V × Option Nat × Option Nat) :=
  (cutIdxTop d low true n m rt idx).bind fun p =>
  (cutIdxTop d high false n p.1 rt idx).bind fun q =>
  (joinGroups root n q.1 rt p.2.2 q.2.2).map fun m => (m, p.2.1, q.2.1)

end

/-- tree.go:235-354 `RemoveRange`. -/
def PList.removeRange (cmp : K → K → Int) (s : PList K V) (low high : K) : Option (PList K V × Res K V) :=
  let c := cmp low high
  if c > 0 then some (s, .panic)
  else if c = 0 then (s.remove cmp low).map fun p => (p.1, .bool p.2.isSome)
  else
    (getRangeRoot cmp s.mem low high s.free s.top).bind fun o =>
      match o with
      | none => some (s, .bool false)
      | some rt => (rangeAt s.dir s.root cmp low high rt s.mem s.free).map fun p =>
        ({ s with mem := p.1, dir := unlink s.root s.dir p.2.1 p.2.2 }, .bool true)

/-- tree.go:357-500 `RemoveRangeByIndex`; a panic of the search changes nothing. -/
def PList.removeRangeByIndex (s : PList K V) (low high : Int) : Option (PList K V × Res K V) :=
  if low > high then some (s, .unit)
  else
    match rangeFind s.mem low high s.free s.top with
    | none => some (s, .panic)
    | some f => (rangeIdxAt s.dir s.root low high f.1 f.2 s.mem s.free).map fun p =>
      ({ s with mem := p.1, dir := unlink s.root s.dir p.2.1 p.2.2 }, .unit)

/-- The end of `Trim` and `TrimByIndex`, tree.go:594-610, 699-715. -/
def PList.fence (s : PList K V) : Option (PList K V) :=
  match s.top with
  | none => some s
  | some rt =>
    (far s.mem false s.free rt).bind fun lhand =>
    (far s.mem true s.free rt).map fun rhand =>
      let d := setDir s.dir lhand false none
      let d := setDir d s.root false (some lhand)
      let d := setDir d rhand true none
      { s with dir := setDir d s.root true (some rhand) }

/-! ### The methods -/

/-- tree.go:66-716, as `Verif.TreeList.step`. -/
def step (cmp : K → K → Int) (s : PList K V) : Op K V → Option (PList K V × Res K V)
  -- 99-101
  | .put k v => (s.putWith cmp k v id).map fun p => (p.1, .bool !p.2)
  -- 92-96
  | .set k v => (s.putWith cmp k v fun _ => v).map fun p => (p.1, .bool p.2)
  -- 85-89
  | .putDup k v f => (s.putWith cmp k v f).map fun p => (p.1, .bool p.2)
  -- 74-79
  | .get k => (getNode cmp s.mem k s.free s.top).map fun o =>
    (s, .found (o.map fun cur => (s.mem cur).val))
  -- 185-190
  | .remove k => (s.remove cmp k).map fun p => (p.1, .slice p.2)
  -- 193-198
  | .removeIndex i =>
    match index s.mem i s.free s.top with
    | none => some (s, .panic)
    | some cur => (s.removeNode cur).map fun p => (p.1, .slice (some p.2))
  -- 210-215; removing the nil pointer panics
  | .removeHead =>
    if s.top.isNone then some (s, .slice none)
    else (s.dir s.root).1.bind fun a => (s.removeNode a).map fun p => (p.1, .slice (some p.2))
  -- 227-232
  | .removeTail =>
    if s.top.isNone then some (s, .slice none)
    else (s.dir s.root).2.bind fun a => (s.removeNode a).map fun p => (p.1, .slice (some p.2))
  -- 201-207
  | .head => some (s, .slice ((s.dir s.root).1.map fun a => ((s.mem a).key, (s.mem a).val)))
  -- 218-224
  | .tail => some (s, .slice ((s.dir s.root).2.map fun a => ((s.mem a).key, (s.mem a).val)))
  -- 66-71
  | .size => some (s, .int (getSize s.mem s.top))
  -- 106-109
  | .index i =>
    match index s.mem i s.free s.top with
    | none => some (s, .panic)
    | some cur => some (s, .slice (some ((s.mem cur).key, (s.mem cur).val)))
  -- 112-141
  | .indexOf k => match s.top with
    | none => some (s, .int (-1))
    | some cur => (indexOfLoop cmp s.mem k s.free cur (getSize s.mem (s.mem cur).lo)).map fun i =>
      (s, .int i)
  -- 170-182
  | .slices => (traverse (fun _ _ => true) s.mem s.free s.top).map fun p => (s, .list p.1)
  -- 144-167
  | .traverse every => (traverse every s.mem s.free s.top).map fun p => (s, .list p.1)
  -- 503-509
  | .clear =>
    let d := setDir (setDir s.dir s.root false none) s.root true none
    some ({ s with mem := link s.mem s.root false none, dir := d }, .unit)
  | .removeRange low high => s.removeRange cmp low high
  | .removeRangeByIndex low high => s.removeRangeByIndex low high
  -- 528-611
  | .trim low high =>
    if cmp low high > 0 then some (s, .panic)
    else (trim cmp s.root s.free s.mem low high).bind fun m =>
      ({ s with mem := m } : PList K V).fence.map fun s => (s, .unit)
  -- 614-716
  | .trimByIndex low high =>
    if low > high then some (s, .panic)
    else
      let p := trimByIndex s.root s.free s.mem low high
      if p.2 then some ({ s with mem := p.1 }, .panic)
      else ({ s with mem := p.1 } : PList K V).fence.map fun s => (s, .unit)
  -- iterator.go:84-127
  | .forward => (walk (view s.mem s.dir) false s.free (s.dir s.root).1).map fun l => (s, .list l)
  | .backward => (walk (view s.mem s.dir) true s.free (s.dir s.root).2).map fun l => (s, .list l)

/-! ### Several lists -/

/-- A memory with several lists, given by their nodes `root`. -/
structure Forest (K V : Type) where
  mem : Mem K V
  dir : Dir
  free : Nat
  roots : List Nat

/-- The state of `build`: the memory, `prev`, and the heads of the two lists that the stream reads. -/
structure Build (K V : Type) where
  mem : Mem K V
  dir : Dir
  free : Nat
  prev : Option Nat
  p : Option Nat
  q : Option Nat

/-- `&treeNode{Parent: p}`; `junk` is the zero entry. -/
def blank (junk : K × V) (m : Mem K V) (a : Nat) (p : Option Nat) : Mem K V :=
  upd m a fun _ => ⟨junk.1, junk.2, 0, 0, p, none, none⟩

/-- `build`, utils.go:915-940, for `size` nodes below `parent`; the first number bounds the depth of the
recursion. `next` is `Verif.TreeList.pull`, utils.go:836-865, on the memory as it is. -/
def build (cmp : K → K → Int) (op : SetOp) (rounds : Nat) (junk : K × V) (root : Nat) :
    Nat → Nat → Nat → Build K V → Option (Option Nat × Build K V)
  | _, 0, _, b => some (none, b)
  | 0, _ + 1, _, _ => none
  | n + 1, size + 1, parent, b =>
    let leftSize := (size + 1) / 2
    let rightSize := size + 1 - leftSize - 1
    let a := b.free
    (build cmp op rounds junk root n leftSize a
      { b with mem := blank junk b.mem a (some parent), free := a + 1
               dir := setDir (setDir b.dir a false none) a true none }).bind fun l =>
      let b := l.2
      let m := link b.mem a false l.1
      (pull cmp op (view m b.dir) (view m b.dir) rounds b.p b.q).bind fun x =>
        let m := upd m a fun y => { y with key := x.1.1, val := x.1.2 }
        let d := match b.prev with
          | some z => setDir (setDir b.dir z true (some a)) a false (some z)
          | none => setDir b.dir root false (some a)
        (build cmp op rounds junk root n rightSize a
          { b with mem := m, dir := d, prev := some a, p := x.2.1, q := x.2.2 }).map fun r =>
            (some a, { r.2 with mem := updateBalance (sumSize (link r.2.mem a true r.1) a) a })

/-- tree.go:719-743 `Intersection`, `UnionSets`, `DifferenceSets` of the lists `i` and `j`, with
setOperationStream utils.go:762-867 and buildFromSortedStream 908-945: the result is the last list. (The
counting pass of the stream comes before the result is touched.) -/
def setOp (cmp : K → K → Int) (junk : K × V) (op : SetOp) (s : Forest K V) (i j : Nat) :
    Option (Forest K V) :=
  let root := s.free
  let m := blank junk s.mem root none
  let d := setDir (setDir s.dir root false none) root true none
  let free := root + 1
  (countAll cmp op (view m d) (view m d) (free + free) (d i).1 (d j).1).bind fun count =>
    if count = 0 then some ⟨m, d, free, s.roots ++ [root]⟩
    else
      (build cmp op (free + free) junk root count count root ⟨m, d, free, none, (d i).1, (d j).1⟩).map
        fun r => ⟨link r.2.mem root false r.1, setDir r.2.dir root true r.2.prev, r.2.free,
          s.roots ++ [root]⟩

/-- Calls of a program with several lists: a new list, a call on the list number `i`, or a set operation
on the lists number `i` and `j`, where the list returned is kept as a further one. -/
inductive Call (K V : Type) where
  | new | on (i : Nat) (op : Op K V) | merge (op : SetOp) (i j : Nat)

inductive CallRes (K V : Type) where
  | made | of (r : Res K V)

/-- One call. A list that is not there is an error of the caller (`none`). -/
def fstep (cmp : K → K → Int) (junk : K × V) (s : Forest K V) : Call K V → Option (Forest K V × CallRes K V)
  -- tree.go:46-48
  | .new => some (⟨blank junk s.mem s.free none, setDir (setDir s.dir s.free false none) s.free true none,
      s.free + 1, s.roots ++ [s.free]⟩, .made)
  | .on i op => s.roots[i]?.bind fun a => (step cmp ⟨s.mem, s.dir, s.free, a⟩ op).map fun p =>
    (⟨p.1.mem, p.1.dir, p.1.free, s.roots⟩, .of p.2)
  | .merge op i j => s.roots[i]?.bind fun a => s.roots[j]?.bind fun b =>
    (setOp cmp junk op s a b).map fun s => (s, .made)

/-- Before the first `New`. -/
def Forest.empty (junk : K × V) : Forest K V :=
  ⟨fun _ => ⟨junk.1, junk.2, 0, 0, none, none, none⟩, fun _ => (none, none), 0, []⟩

end Verif.ListHeap
