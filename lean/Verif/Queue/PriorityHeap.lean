import Verif.Queue.PriorityModel
import Verif.Tree.AvlHeap

/-! Model of queue/priority on the level of pointers: the nodes live in a memory, children are
addresses, and every assignment to a field of a node is an update of the memory. The model of
`Verif.Queue.PriorityModel` has subtrees instead of pointers; that both agree is proved in
`Verif.Queue.PriorityHeapSim`.

The cells and the memory are those of `Verif.Tree.AvlHeap`: the type `Node` of queue/priority
(node.go:7-12) has the field `Size` where that of tree/avl has `Height`, so `Cell.height` is `Size`,
`setH` is the assignment to it, and `hgt` is `getSize` (node.go:25-30, 39-44).

Simplifications:
* An address is a natural number. `free` is the least address not used so far; nothing is freed.
  Address 0 is the `Center` node.
* The memory is a total function. Only addresses below `free` are ever used.
* A nil pointer is `none`; to use one is a panic (`none`), except in `Index` and `RemoveIndex`, where
  the panic is a result and the memory is left as it is then.
* Recursion and loops have a number of rounds, `none` when they do not suffice. The calls use `free`;
  the theorems say that this is enough.
* `Size` is an integer without overflow (Go: `int`).
* `removeLeft` and `removeIndex` return in Go a pointer to the value of the node taken out, which the
  caller reads at once; the model returns the value.
* `updateSize` (node.go:18-23) writes the size also if it is right already. -/

namespace Verif.PriorityHeap
open Verif.AvlHeap (Cell Mem upd link write setH hgt dir)
open Verif.Priority (maybeHeight bottomsize)
variable {K V : Type}

/-- queue/priority/node.go:18-23 `updateSize`. -/
def updateSize (m : Mem K V) (a : Nat) : Mem K V := setH m a (hgt m (m a).lo + hgt m (m a).hi + 1)

/-- queue/priority/node.go:123-134 `leftRotate`. -/
def leftRotate (m : Mem K V) (parent : Nat) (child : Bool) : Option (Mem K V) :=
  ((m parent).kid child).bind fun cur =>
  ((m cur).kid true).bind fun sub =>
    let m := link m parent child (some sub)
    let m := link m cur true ((m sub).kid false)
    let m := link m sub false (some cur)
    let m := updateSize m cur
    some (updateSize m sub)

/-- queue/priority/node.go:136-147 `rightRotate`. -/
def rightRotate (m : Mem K V) (parent : Nat) (child : Bool) : Option (Mem K V) :=
  ((m parent).kid child).bind fun cur =>
  ((m cur).kid false).bind fun sub =>
    let m := link m parent child (some sub)
    let m := link m cur false ((m sub).kid true)
    let m := link m sub true (some cur)
    let m := updateSize m cur
    some (updateSize m sub)

/-- queue/priority/node.go:71-95 `leftRotateWithRight`. -/
def leftRotateWithRight (m : Mem K V) (parent : Nat) (child : Bool) : Option (Mem K V) :=
  ((m parent).kid child).bind fun cur =>
  ((m cur).kid true).bind fun sub =>
    match (m sub).kid false with
    | some subsub =>
      let m := link m parent child (some subsub)
      let c0 := (m subsub).kid false
      let c1 := (m subsub).kid true
      let m := link m subsub false (some cur)
      let m := link m subsub true (some sub)
      let m := link m cur true c0
      let m := link m sub false c1
      let m := updateSize m cur
      let m := updateSize m sub
      some (updateSize m subsub)
    | none =>
      let m := link m parent child none
      let m := link m parent child (some sub)
      let m := link m cur true none
      let m := link m sub false none
      let m := updateSize m cur
      some (updateSize m sub)

/-- queue/priority/node.go:97-121 `rightRotateWithLeft`. -/
def rightRotateWithLeft (m : Mem K V) (parent : Nat) (child : Bool) : Option (Mem K V) :=
  ((m parent).kid child).bind fun cur =>
  ((m cur).kid false).bind fun sub =>
    match (m sub).kid true with
    | some subsub =>
      let m := link m parent child (some subsub)
      let c0 := (m subsub).kid false
      let c1 := (m subsub).kid true
      let m := link m subsub true (some cur)
      let m := link m subsub false (some sub)
      let m := link m cur false c1
      let m := link m sub true c0
      let m := updateSize m cur
      let m := updateSize m sub
      some (updateSize m subsub)
    | none =>
      let m := link m parent child none
      let m := link m parent child (some sub)
      let m := link m cur false none
      let m := link m sub true none
      let m := updateSize m cur
      some (updateSize m sub)

/-- queue/priority/tree_hide.go:220-233 `sizeRotateType`. -/
def sizeRotateType (m : Mem K V) (cur : Nat) (child : Bool) : Bool :=
  match (m cur).kid child with
  | none => false
  | some sub =>
    match (m sub).kid (!child) with
    | none => false
    | some subsub => decide (hgt m ((m sub).kid child) > hgt m (some subsub))

/-- queue/priority/tree_hide.go:235-269 `rebalance`. Its answer is not used by any caller. -/
def rebalance (m : Mem K V) (parent : Nat) (child : Bool) : Option (Mem K V) :=
  ((m parent).kid child).bind fun node =>
    let lsize := hgt m (m node).lo
    let rsize := hgt m (m node).hi
    (maybeHeight (m node).height).bind fun h0 =>
      let h := if h0 < 2 then 2 else h0
      let h := if h ≥ 64 then 63 else h
      if lsize > rsize then
        if lsize - rsize ≥ bottomsize h then
          if sizeRotateType m node false then rightRotateWithLeft m parent child
          else rightRotate m parent child
        else some m
      else if rsize > lsize then
        if rsize - lsize ≥ bottomsize h then
          if sizeRotateType m node true then leftRotateWithRight m parent child
          else leftRotate m parent child
        else some m
      else some m

/-- queue/priority/tree_hide.go:14-43 `put`: the memory, the new node, and whether `isExists` is 2 (it
is 0 otherwise, never 1). `zero` is the zero value, which a new node has until the caller writes its
value. -/
def put (cmp : K → K → Int) (zero : V) (free : Nat) (key : K) :
    Nat → Mem K V → Nat → Bool → Option (Mem K V × Nat × Bool)
  | 0, _, _, _ => none
  | n + 1, m, parent, child =>
    match (m parent).kid child with
    | none =>
      let m := upd m free ⟨key, zero, 1, none, none⟩
      let m := link m parent child (some free)
      some (m, free, ((m parent).kid (!child)).isSome)
    | some cur =>
      let c0 := cmp (m cur).key key
      (dir (if c0 < 0 then 1 else c0)).bind fun c =>
      (put cmp zero free key n m cur c).bind fun p =>
        let m := setH p.1 cur ((p.1 cur).height + 1)
        if (m cur).height > 2 ∧ p.2.2 = false then (rebalance m parent child).map fun m => (m, p.2)
        else some (m, p.2)

/-- queue/priority/tree_hide.go:74-86 `getfirst`. -/
def getfirst (cmp : K → K → Int) (m : Mem K V) (key : K) :
    Nat → Nat → Bool → Option Nat → Option (Option Nat)
  | 0, _, _, _ => none
  | n + 1, parent, child, sel =>
    match (m parent).kid child with
    | none => some sel
    | some cur =>
      let c := cmp (m cur).key key
      if c < 0 then getfirst cmp m key n cur false (some cur)
      else (dir c).bind fun c => getfirst cmp m key n cur c sel

/-- queue/priority/tree_hide.go:46-57 `seekRoot`. -/
def seekRoot (cmp : K → K → Int) (m : Mem K V) (key : K) : Nat → Option Nat → Option (Option Nat)
  | 0, _ => none
  | _ + 1, none => some none
  | n + 1, some cur =>
    let c := cmp (m cur).key key
    if c < 0 then some (some cur) else (dir c).bind fun c => seekRoot cmp m key n ((m cur).kid c)

/-- queue/priority/tree_hide.go:60-72 `traverse`: what is appended to `result`. -/
def collect (cmp : K → K → Int) (m : Mem K V) (key : K) : Nat → Option Nat → Option (List V)
  | 0, _ => none
  | _ + 1, none => some []
  | n + 1, some cur =>
    let c := cmp (m cur).key key
    if c < 0 then
      (collect cmp m key n (m cur).lo).bind fun a =>
        (collect cmp m key n (m cur).hi).map fun b => (m cur).val :: (a ++ b)
    else (dir c).bind fun c => collect cmp m key n ((m cur).kid c)

/-- The loop of queue/priority/tree_hide.go:88-106 `index`, at a node that is there; the answer `none`
is the panic at a missing child. -/
def index (m : Mem K V) (i : Int) : Nat → Nat → Int → Option (Option Nat)
  | 0, _, _ => none
  | n + 1, cur, idx =>
    if idx > i then
      match (m cur).lo with
      | none => some none
      | some sub => index m i n sub (idx - (hgt m (m sub).hi + 1))
    else if idx < i then
      match (m cur).hi with
      | none => some none
      | some sub => index m i n sub (idx + (hgt m (m sub).lo + 1))
    else some (some cur)

/-- queue/priority/tree_hide.go:203-218 `neighboring`. -/
def neighboring : Nat → Mem K V → Nat → Bool → Bool → Option (Mem K V × Nat)
  | 0, _, _, _, _ => none
  | n + 1, m, parent, child2, child1 =>
    ((m parent).kid child2).bind fun cur =>
      match (m cur).kid child1 with
      | none => some (link m parent child2 ((m cur).kid (!child1)), cur)
      | some _ =>
        (neighboring n m cur child1 child1).bind fun p =>
          (rebalance (setH p.1 cur ((p.1 cur).height - 1)) parent child2).map fun m => (m, p.2)

/-- The removal of the node `cur`, which is the child `child` of `parent`:
queue/priority/tree_hide.go:171-189 (`removeLeft`), 116-135 (`removeIndex`). -/
def removeHere (n : Nat) (m : Mem K V) (parent : Nat) (child : Bool) (cur : Nat) :
    Option (Mem K V × V) :=
  if (m cur).lo.isNone then some (link m parent child (m cur).hi, (m cur).val)
  else if (m cur).hi.isNone then some (link m parent child (m cur).lo, (m cur).val)
  else
    let result := (m cur).val
    (neighboring n m cur child (!child)).bind fun p =>
      let m := write p.1 cur fun _ => ((p.1 p.2).key, (p.1 p.2).val)
      let m := updateSize m cur
      (rebalance m parent child).map fun m => (m, result)

/-- queue/priority/tree_hide.go:150-201 `removeLeft`. -/
def removeLeft (cmp : K → K → Int) (key : K) :
    Nat → Mem K V → Nat → Bool → Bool → Option (Mem K V × Option V)
  | 0, _, _, _, _ => none
  | n + 1, m, grandpa, child2, child1 =>
    ((m grandpa).kid child2).bind fun parent =>
      match (m parent).kid child1 with
      | none => some (m, none)
      | some cur =>
        let c := cmp (m cur).key key
        if c < 0 then
          (removeLeft cmp key n m parent child1 false).bind fun p =>
            if p.2.isSome then
              let m := setH p.1 cur ((p.1 cur).height - 1)
              if cur ≠ 0 then (rebalance m parent child1).map fun m => (m, p.2) else some (m, p.2)
            else (removeHere n p.1 parent child1 cur).map fun q => (q.1, some q.2)
        else
          (dir c).bind fun c =>
          (removeLeft cmp key n m parent child1 c).bind fun p =>
            if p.2.isSome then
              let m := setH p.1 cur ((p.1 cur).height - 1)
              if cur ≠ 0 then (rebalance m parent child1).map fun m => (m, p.2) else some (m, p.2)
            else some p

/-- queue/priority/tree_hide.go:108-148 `removeIndex`. The value `none` in the result: it panicked, and
the memory is left like this. -/
def removeIndex (i : Int) : Nat → Mem K V → Nat → Bool → Int → Option (Mem K V × Option V)
  | 0, _, _, _, _ => none
  | n + 1, m, parent, child, idx =>
    let m := setH m parent ((m parent).height - 1)
    match (m parent).kid child with
    | none => some (m, none)
    | some cur =>
      if idx = i then (removeHere n m parent child cur).map fun q => (q.1, some q.2)
      else if idx > i then
        match (m cur).lo with
        | none => some (m, none)
        | some sub => removeIndex i n m cur false (idx - (hgt m (m sub).hi + 1))
      else
        match (m cur).hi with
        | none => some (m, none)
        | some sub => removeIndex i n m cur true (idx + (hgt m (m sub).lo + 1))

/-- The loop of `PopHead` (`right = false`), queue/priority/tree.go:133-137, and of `PopTail`
(`right = true`), 156-160: the memory, `parent`, `cur`. -/
def descend (right : Bool) : Nat → Mem K V → Nat → Nat → Option (Mem K V × Nat × Nat)
  | 0, _, _, _ => none
  | n + 1, m, parent, cur =>
    match (m cur).kid right with
    | none => some (m, parent, cur)
    | some sub => descend right n (setH m cur ((m cur).height - 1)) cur sub

/-! ### The queue -/

/-- queue/priority/tree.go:9-19 `Tree`. `Left` and `Right` are never used. -/
structure PQueue (K V : Type) where
  mem : Mem K V
  free : Nat

/-- queue/priority/tree.go:21-30 `New`: `Center.Children[0]` is `Center` itself. `junk` is the zero
entry. -/
def PQueue.new (junk : K × V) : PQueue K V :=
  ⟨fun a => ⟨junk.1, junk.2, 0, if a = 0 then some 0 else none, none⟩, 1⟩

/-- queue/priority/tree_hide.go:10-12 `getRoot`. -/
def PQueue.root (s : PQueue K V) : Option Nat := (s.mem 0).hi

/-- queue/priority/tree.go:170-172 `Size`. -/
def PQueue.size (s : PQueue K V) : Int := hgt s.mem s.root

section
variable (cmp : K → K → Int) (zero : V)

/-- queue/priority/tree.go:32-40 `Put`. -/
def PQueue.put (s : PQueue K V) (k : K) (v : V) : Option (PQueue K V) :=
  (PriorityHeap.put cmp zero s.free k s.free s.mem 0 true).map fun p =>
    ⟨write p.1 p.2.1 fun e => (e.1, v), s.free + 1⟩

/-- queue/priority/tree.go:61-68 `Get`: `getfirst` from the root. -/
def PQueue.getfirst (s : PQueue K V) (k : K) : Option (Option Nat) :=
  PriorityHeap.getfirst cmp s.mem k s.free 0 true none

/-- queue/priority/tree.go:43-49 `InsertIfAbsent`. -/
def PQueue.insertIfAbsent (s : PQueue K V) (k : K) (v : V) : Option (PQueue K V × Bool) :=
  (s.getfirst cmp k).bind fun e =>
    if e.isSome then some (s, false) else (s.put cmp zero k v).map fun s' => (s', true)

/-- queue/priority/tree.go:52-59 `Upsert`. -/
def PQueue.upsert (s : PQueue K V) (k : K) (v : V) : Option (PQueue K V × Bool) :=
  (s.getfirst cmp k).bind fun e =>
    match e with
    | some cur => some (⟨write s.mem cur fun e => (e.1, v), s.free⟩, true)
    | none => (s.put cmp zero k v).map fun s' => (s', false)

/-- queue/priority/tree.go:71-78 `Gets`. -/
def PQueue.gets (s : PQueue K V) (k : K) : Option (List V) :=
  (seekRoot cmp s.mem k s.free s.root).bind fun cur =>
    if cur.isNone then some [] else collect cmp s.mem k s.free cur

/-- queue/priority/tree.go:80-92 `Index`, tree_hide.go:88-92: the address found, `none` is a panic. -/
def PQueue.index (s : PQueue K V) (i : Int) : Option (Option Nat) :=
  match s.root with
  | none => some none
  | some cur =>
    PriorityHeap.index s.mem (if i < 0 then s.size + i else i) s.free cur (hgt s.mem (s.mem cur).lo)

/-- queue/priority/tree.go:94-101 `Remove`. -/
def PQueue.remove (s : PQueue K V) (k : K) : Option (PQueue K V × Option V) :=
  (removeLeft cmp k s.free s.mem 0 false true).map fun p => (⟨p.1, s.free⟩, p.2)

/-- queue/priority/tree.go:109-123 `RemoveIndex`: `idx < 0` is a test of the wrong variable. -/
def PQueue.removeIndex (s : PQueue K V) (i : Int) : Option (PQueue K V × Option V) :=
  match s.root with
  | none => some (s, none)
  | some cur =>
    let idx := hgt s.mem (s.mem cur).lo
    (PriorityHeap.removeIndex (if idx < 0 then s.size + i else i) s.free s.mem 0 true idx).map
      fun p => (⟨p.1, s.free⟩, p.2)

/-- queue/priority/tree.go:125-146 `PopHead`. -/
def PQueue.popHead (s : PQueue K V) : Option (PQueue K V × Option V) :=
  if s.size = 0 then some (s, none)
  else
    s.root.bind fun cur =>
    (descend false s.free s.mem 0 cur).map fun p =>
      (⟨link p.1 p.2.1 (decide (p.2.1 = 0)) (p.1 p.2.2).hi, s.free⟩, some (p.1 p.2.2).val)

/-- queue/priority/tree.go:148-164 `PopTail`. -/
def PQueue.popTail (s : PQueue K V) : Option (PQueue K V × Option V) :=
  if s.size = 0 then some (s, none)
  else
    s.root.bind fun cur =>
    (descend true s.free s.mem 0 cur).map fun p =>
      (⟨link p.1 p.2.1 true (p.1 p.2.2).lo, s.free⟩, some (p.1 p.2.2).val)

open Priority (Op Res)

/-- One call: queue/priority/tree.go also 104-106 `Delete`, 166-168 `Clear`, 174-177 `Len`, 179-198
`Traverse` (its inner function is that of tree/avl), 200-210 `Values` (`make` panics for a negative
capacity). -/
def step (s : PQueue K V) : Op K V → Option (PQueue K V × Res K V)
  | .put k v => (s.put cmp zero k v).map fun s' => (s', .bool true)
  | .insertIfAbsent k v => (s.insertIfAbsent cmp zero k v).map fun p => (p.1, .bool p.2)
  | .upsert k v => (s.upsert cmp zero k v).map fun p => (p.1, .bool p.2)
  | .get k => (s.getfirst cmp k).map fun e => (s, .val (e.map fun a => (s.mem a).val))
  | .index i => (s.index i).map fun e =>
      (s, match e with | some a => .val (some (s.mem a).val) | none => .panic)
  | .remove k => (s.remove cmp k).map fun p => (p.1, .val p.2)
  | .delete k => (s.remove cmp k).map fun p => (p.1, .val p.2)
  | .removeIndex i => (s.removeIndex i).map fun p =>
      (p.1, match p.2 with | some v => .val (some v) | none => .panic)
  | .popHead => s.popHead.map fun p => (p.1, .val p.2)
  | .popTail => s.popTail.map fun p => (p.1, .val p.2)
  | .clear => some (⟨link s.mem 0 true none, s.free⟩, .unit)
  | .size => some (s, .int s.size)
  | .len => some (s, .int s.size)
  | .traverse every =>
      (AvlHeap.traverse every s.mem s.free s.root).map fun p => (s, .entries p.1)
  | .values => if s.root.isNone then some (s, .list [])
      else if s.size < 0 then none
      else (AvlHeap.traverse (fun _ _ => true) s.mem s.free s.root).map fun p =>
        (s, .list (p.1.map (·.2)))

end

end Verif.PriorityHeap
