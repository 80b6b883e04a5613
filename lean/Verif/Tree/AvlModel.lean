import Verif.Tree.Base
import Verif.Common.History

/-! Model of tree/avl and set/treeset (whose code is the same up to the two rotation variants), and of
the parts of tree/avls they share.

Simplifications:
* A subtree is a value instead of a pointer. `put` returns in Go a pointer to the node found or
  created, and `Set`/`Put` then write its key and value; no step between reads them, so the model
  writes them on the way (`upd` for a node that was found, the new entry otherwise).
* `tree.size` is a natural number (Go: `uint`, 64 bits).
* The `Center` node is not modelled: it is the parent of the root, its `Children[0]` is itself, so
  for `put` the root has a non-nil sibling.
* Heights are Go `int8`: `w8` wraps.
* `none` is a run-time panic. -/

namespace Verif.Avl
variable {K V : Type}

/-- Conversion to Go `int8`, the type of `Node.Height`. -/
def w8 (x : Int) : Int := (x + 128) % 256 - 128

abbrev T (K V : Type) := Tree Int K V
open Tree

/-- tree/avl/node.go:91-96 `getHeight`; the same in tree/avls/node.go and set/treeset/node.go. -/
def hgt : T K V → Int
  | nil => 0
  | node h _ _ _ _ => h

/-- The height a rotation records for a node with children `l` and `r`.
`one = false`: tree/avl/node.go:35-43 `updateHeight`. `one = true`: `updateHeightOneChild(child)` of
set/treeset/node.go:35-37 and tree/avls/node.go:18-20. -/
def newH (one : Bool) (child : Nat) (l r : T K V) : Int :=
  if one then w8 (hgt (if child = 0 then l else r) + 1)
  else if hgt l > hgt r then w8 (hgt l + 1) else w8 (hgt r + 1)

/-- tree/avl/node.go:148-160 `leftRotate`; set/treeset/node.go:140-151; tree/avls/node.go:74-85. -/
def leftRotate (one : Bool) : T K V → Option (T K V)
  | node _ k v l (node _ ks vs b a) =>
    let cur := node (newH one 1 l b) k v l b
    some (node (newH one 0 cur a) ks vs cur a)
  | _ => none

/-- tree/avl/node.go:162-174 `rightRotate`; set/treeset/node.go:153-164; tree/avls/node.go:87-98. -/
def rightRotate (one : Bool) : T K V → Option (T K V)
  | node _ k v (node _ ks vs a b) r =>
    let cur := node (newH one 0 b r) k v b r
    some (node (newH one 1 a cur) ks vs a cur)
  | _ => none

/-- tree/avl/node.go:107-126 `leftRotateWithRight`; set/treeset/node.go:101-119;
tree/avls/node.go:35-53. -/
def leftRotateWithRight (one : Bool) : T K V → Option (T K V)
  | node _ k v l (node _ ks vs (node _ kss vss c0 c1) a) =>
    let cur := node (newH one 0 l c0) k v l c0
    let sub := node (newH one 1 c1 a) ks vs c1 a
    some (node (newH one 0 cur sub) kss vss cur sub)
  | _ => none

/-- tree/avl/node.go:128-146 `rightRotateWithLeft`; set/treeset/node.go:121-138;
tree/avls/node.go:55-72. -/
def rightRotateWithLeft (one : Bool) : T K V → Option (T K V)
  | node _ k v (node _ ks vs a (node _ kss vss c0 c1)) r =>
    let cur := node (newH one 1 c1 r) k v c1 r
    let sub := node (newH one 0 a c0) ks vs a c0
    some (node (newH one 1 sub cur) kss vss sub cur)
  | _ => none

/-- The children of a node (nil dereference otherwise). -/
def kids : T K V → Option (T K V × T K V)
  | nil => none
  | node _ _ _ l r => some (l, r)

/-- tree/avl/tree_hide.go:109-148 `rebalance`; set/treeset/tree_hide.go:109-150;
tree/avls/tree_hide.go:116-157. `d` is `tree.differenceHeight`. -/
def rebalance (one : Bool) (d : Int) : T K V → Option (T K V × Bool)
  | nil => none
  | node h k v l r =>
    let lh := hgt l
    let rh := hgt r
    let diff := w8 (lh - rh)
    if diff ≥ d then
      (kids l).bind fun s =>
        (if hgt s.2 > hgt s.1 then rightRotateWithLeft one (node h k v l r)
         else rightRotate one (node h k v l r)).map fun t => (t, true)
    else if diff ≤ w8 (-d) then
      (kids r).bind fun s =>
        (if hgt s.1 > hgt s.2 then leftRotateWithRight one (node h k v l r)
         else leftRotate one (node h k v l r)).map fun t => (t, true)
    else if lh > rh then
      if h ≠ w8 (lh + 1) then some (node (w8 (lh + 1)) k v l r, true)
      else some (node h k v l r, false)
    else
      if h ≠ w8 (rh + 1) then some (node (w8 (rh + 1)) k v l r, true)
      else some (node h k v l r, false)

/-- The second half of `put` and `remove`: rebalance if asked to. -/
def rebIf (one : Bool) (d : Int) (rb : Bool) (t : T K V) : Option (T K V × Bool) :=
  if rb then rebalance one d t else some (t, false)

section
variable (cmp : K → K → Int) (one : Bool) (d : Int)

/-- tree/avl/tree_hide.go:9-38 `put`; set/treeset/tree_hide.go:9-38. `sib`: the other child of the
parent is nil (`parent.Children[^child+2] == nil`). Result: the tree, `isExists`, `isRebalance`. -/
def put (key : K) (val : V) (upd : K × V → K × V) : T K V → Bool → Option (T K V × Bool × Bool)
  | nil, sib => some (node 1 key val nil nil, false, sib)
  | node h k v l r, _ =>
    let c := cmp k key
    if c < 0 then some (node h (upd (k, v)).1 (upd (k, v)).2 l r, true, false)
    else if c = 0 then
      (put key val upd l r.isNil).bind fun p =>
        if p.2.1 || !p.2.2 then some (node h k v p.1 r, p.2.1, p.2.2)
        else (rebalance one d (node h k v p.1 r)).map fun q => (q.1, p.2.1, q.2)
    else if c = 1 then
      (put key val upd r l.isNil).bind fun p =>
        if p.2.1 || !p.2.2 then some (node h k v l p.1, p.2.1, p.2.2)
        else (rebalance one d (node h k v l p.1)).map fun q => (q.1, p.2.1, q.2)
    else none

/-- tree/avl/tree_hide.go:40-49 `get`; set/treeset/tree_hide.go:40-49. -/
def get (key : K) : T K V → Option (Option (K × V))
  | nil => some none
  | node _ k v l r =>
    let c := cmp k key
    if c < 0 then some (some (k, v))
    else if c = 0 then get key l
    else if c = 1 then get key r
    else none

/-- `cur.Value = value` on the node found by `get` (`Upsert`). -/
def setVal (key : K) (val : V) : T K V → Option (T K V)
  | nil => some nil
  | node h k v l r =>
    let c := cmp k key
    if c < 0 then some (node h k val l r)
    else if c = 0 then (setVal key val l).map fun l' => node h k v l' r
    else if c = 1 then (setVal key val r).map fun r' => node h k v l r'
    else none

end

section
variable (one : Bool) (d : Int)

/-- tree/avl/tree_hide.go:91-107 `neighboring`; set/treeset/tree_hide.go:91-107;
tree/avls/tree_hide.go:98-114. The argument is `parent.Children[child2]`; `right` is `child1 = 1`.
Result: what replaces it, the node taken out, `isRebalance`. -/
def neighboring (right : Bool) : T K V → Option (T K V × (K × V) × Bool)
  | nil => none
  | node h k v l r =>
    if right then
      match r with
      | nil => some (l, (k, v), true)
      | node .. => (neighboring right r).bind fun p =>
          (rebIf one d p.2.2 (node h k v l p.1)).map fun q => (q.1, p.2.1, q.2)
    else
      match l with
      | nil => some (r, (k, v), true)
      | node .. => (neighboring right l).bind fun p =>
          (rebIf one d p.2.2 (node h k v p.1 r)).map fun q => (q.1, p.2.1, q.2)

/-- The removal of the node itself: tree/avl/tree_hide.go:61-79; set/treeset/tree_hide.go:61-79;
tree/avls/tree_hide.go:70-87. `right` tells that the node is `Children[1]` of its parent
(`child1 = 1`). -/
def removeHere (right : Bool) : T K V → Option (T K V × Option V × Bool)
  | nil => none
  | node h _ v l r =>
    if l.isNil then some (r, some v, true)
    else if r.isNil then some (l, some v, true)
    else if right then
      (neighboring one d false r).bind fun p =>
        (rebalance one d (node h p.2.1.1 p.2.1.2 l p.1)).map fun q => (q.1, some v, q.2)
    else
      (neighboring one d true l).bind fun p =>
        (rebalance one d (node h p.2.1.1 p.2.1.2 p.1 r)).map fun q => (q.1, some v, q.2)

/-- tree/avl/tree_hide.go:51-89 `remove`; set/treeset/tree_hide.go:51-89. The argument is
`parent.Children[child1]`. Result: what replaces it, the value removed, `isRebalance`. -/
def remove (cmp : K → K → Int) (key : K) : T K V → Bool → Option (T K V × Option V × Bool)
  | nil, _ => some (nil, none, false)
  | node h k v l r, right =>
    let c := cmp k key
    if c < 0 then removeHere one d right (node h k v l r)
    else if c = 0 then
      (remove cmp key l false).bind fun p =>
        (rebIf one d p.2.2 (node h k v p.1 r)).map fun q => (q.1, p.2.1, q.2)
    else if c = 1 then
      (remove cmp key r true).bind fun p =>
        (rebIf one d p.2.2 (node h k v l p.1)).map fun q => (q.1, p.2.1, q.2)
    else none

end

/-! ### The map -/

structure Map (K V : Type) where
  root : T K V
  size : Nat

/-- tree/avl/tree.go:17-41 `New`, `NewEx`; set/treeset/tree.go:19-43. -/
def Map.new : Map K V := ⟨nil, 0⟩

inductive Op (K V : Type) where
  | put (k : K) (v : V) | insertIfAbsent (k : K) (v : V) | set (k : K) (v : V)
  | upsert (k : K) (v : V) | get (k : K) | contains (k : K) | remove (k : K) | delete (k : K) | clear
  | size | len | empty | height | values | traverse (every : K → V → Bool)

inductive Res (K V : Type) where
  | unit | bool (b : Bool) | val (o : Option V) | nat (n : Nat) | int (n : Int) | list (l : List V)
  | entries (l : List (K × V))

section
variable (cmp : K → K → Int) (one : Bool) (d : Int)

/-- tree/avl/tree.go:43-51 `Set`; set/treeset/tree.go:45-53. -/
def Map.set (m : Map K V) (k : K) (v : V) : Option (Map K V × Bool) :=
  (Avl.put cmp one d k v (fun _ => (k, v)) m.root false).map fun p =>
    (⟨p.1, if p.2.1 then m.size else m.size + 1⟩, !p.2.1)

/-- tree/avl/tree.go:63-70 `Put`; set/treeset/tree.go:65-72 `Add`. -/
def Map.put (m : Map K V) (k : K) (v : V) : Option (Map K V × Bool) :=
  (Avl.put cmp one d k v id m.root false).map fun p =>
    (⟨p.1, if p.2.1 then m.size else m.size + 1⟩, !p.2.1)

/-- tree/avl/tree.go:54-61 `Upsert`; set/treeset/tree.go:56-63. -/
def Map.upsert (m : Map K V) (k : K) (v : V) : Option (Map K V × Bool) :=
  (Avl.get cmp k m.root).bind fun e =>
    if e.isSome then (Avl.setVal cmp k v m.root).map fun t => (⟨t, m.size⟩, true)
    else (m.set cmp one d k v).map fun p => (p.1, false)

/-- tree/avl/tree.go:77-84 `Get`; set/treeset/tree.go:87-94. -/
def Map.get (m : Map K V) (k : K) : Option (Option V) :=
  (Avl.get cmp k m.root).map fun e => e.map (·.2)

/-- tree/avl/tree.go:86-93 `Remove`; set/treeset/tree.go:100-107. -/
def Map.remove (m : Map K V) (k : K) : Option (Map K V × Option V) :=
  (Avl.remove one d cmp k m.root true).map fun p =>
    (⟨p.1, if p.2.1.isSome then m.size - 1 else m.size⟩, p.2.1)

/-- tree/avl/tree.go:147-152 `Height`; set/treeset/tree.go:161-166. -/
def Map.height (m : Map K V) : Option Int :=
  if m.size = 0 then some 0
  else match m.root with
    | nil => none
    | node h _ _ _ _ => some h

/-- One call on the map: tree/avl/tree.go 73-75 `InsertIfAbsent`, 96-98 `Delete`, 100-103 `Clear`,
105-112 `Size`, `Len`, 114-133 `Traverse`, 135-145 `Values`; set/treeset/tree.go likewise, and there
80-85 `Contains`, 96-98 `Empty`. -/
def step (m : Map K V) : Op K V → Option (Map K V × Res K V)
  | .put k v => (m.put cmp one d k v).map fun p => (p.1, .bool p.2)
  | .insertIfAbsent k v => (m.put cmp one d k v).map fun p => (p.1, .bool p.2)
  | .set k v => (m.set cmp one d k v).map fun p => (p.1, .bool p.2)
  | .upsert k v => (m.upsert cmp one d k v).map fun p => (p.1, .bool p.2)
  | .get k => (m.get cmp k).map fun o => (m, .val o)
  | .contains k => (m.get cmp k).map fun o => (m, .bool o.isSome)
  | .remove k => (m.remove cmp one d k).map fun p => (p.1, .val p.2)
  | .delete k => (m.remove cmp one d k).map fun p => (p.1, .val p.2)
  | .clear => some (⟨nil, 0⟩, .unit)
  | .size => some (m, .nat m.size)
  | .len => some (m, .nat m.size)
  | .empty => some (m, .bool (m.size = 0))
  | .height => m.height.map fun h => (m, .int h)
  | .values => some (m, .list (if m.size = 0 then []
      else (m.root.traverse fun _ _ => true).1.map (·.2)))
  | .traverse every => some (m, .entries (m.root.traverse every).1)

end

end Verif.Avl
