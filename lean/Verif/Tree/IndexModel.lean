import Verif.Tree.SizeModel
import Verif.Tree.AvlIter

/-! Model of tree/indextree: the size balanced map with ranks. Rotations, insertion, removal and
trimming are in `Verif.Tree.SizeModel`.

* A value of type `interface{}` is an `Option W`: `none` is the nil interface.
* `shift` is the package variable `sizeToleranceShift` (2 unless `SetSizeToleranceShift` is called); a
  negative one makes Go panic and is not modelled.
* `String` is in `Verif.Print.Model`; the counters are not modelled. -/

namespace Verif.IndexTree

open Tree Size

variable {K W : Type}

/-- `int64(1) << height`. -/
def shl64 (h : Nat) : Int := if h < 63 then 2 ^ h else if h = 63 then -2 ^ 63 else 0

/-- utils.go:33-39 `getHeightLimit`. -/
def limit (shift : Nat) (height : Nat) : Option (Int × Int) :=
  some (shl64 height, (shl64 height) >>> shift + 1)

/-! ### Splitting -/

section
variable (cmp : K → K → Int) (incl : Bool) (key : K)

/-- Does a key belong to the left tree? `Split` (tree.go:832): `c < 0`; `SplitContain` (tree.go:955):
not `c > 0`. -/
def goesLeft (c : Int) : Bool := if incl then !decide (c > 0) else decide (c < 0)

/-- The recursion `traverse` of `Split` (tree.go:850-890) and `SplitContain` (tree.go:972-1011): what
becomes the right subtree of `lroot` and the left subtree of `rroot`. -/
def splitMid : T K W → T K W × T K W
  | nil => (nil, nil)
  | node _ k v l r =>
    let c := cmp k key
    if c > 0 then ((splitMid l).1, mk k v (splitMid l).2 r)
    else if c < 0 then (mk k v l (splitMid r).1, (splitMid r).2)
    else if incl then (node (sz l + 1) k v l nil, r)
    else (l, node (sz r + 1) k v nil r)

/-- The search for `lroot` and `rroot` (tree.go:831-847, 954-969) going right until the first node that
belongs to the right tree, the split there, and the sizes on the way back (tree.go:927-935,
1049-1057); `none` if there is no such node. -/
def spineL : T K W → Option (T K W × T K W)
  | nil => none
  | node _ k v l r =>
    if goesLeft incl (cmp k key) then (spineL r).map fun p => (mk k v l p.1, p.2)
    else some ((splitMid cmp incl key l).1, mk k v (splitMid cmp incl key l).2 r)

/-- The same going left until the first node that belongs to the left tree. -/
def spineR : T K W → Option (T K W × T K W)
  | nil => none
  | node _ k v l r =>
    if goesLeft incl (cmp k key) then
      some (mk k v l (splitMid cmp incl key r).1, (splitMid cmp incl key r).2)
    else (spineR l).map fun p => (p.1, mk k v p.2 r)

/-- tree.go:818-938 `Split` (`incl = false`), 941-1060 `SplitContain` (`incl = true`): the root of the
tree and the root of the tree returned; `none` if nil is returned. -/
def split : T K W → Option (T K W × T K W)
  | nil => none
  | node a k v l r =>
    if goesLeft incl (cmp k key) then
      some ((spineL cmp incl key (node a k v l r)).getD (node a k v l r, nil))
    else some ((spineR cmp incl key (node a k v l r)).getD (nil, node a k v l r))

end

/-! ### The methods -/

/-- The methods. `split key incl other`: `Split` or `SplitContain`, and whether the caller goes on with
the tree returned (`other`) or with the tree itself. -/
inductive Op (K W : Type) where
  | put (k : K) (v : Option W) | insertIfAbsent (k : K) (v : Option W) | set (k : K) (v : Option W)
  | upsert (k : K) (v : Option W) | get (k : K) | remove (k : K) | delete (k : K)
  | index (i : Int) | indexOf (k : K) | removeIndex (i : Int)
  | removeRange (low high : K) | removeRangeByIndex (low high : Int)
  | trim (low high : K) | trimByIndex (low high : Int)
  | split (key : K) (incl other : Bool)
  | clear | size | len | values | traverse (every : K → Option W → Bool)

/-- `panic`: the call panicked, the tree is left as the state says. -/
inductive Res (K W : Type) where
  | unit | panic | bool (b : Bool) | val (v : Option W) | found (v : Option (Option W))
  | int (n : Int) | entry (e : K × Option W) | list (vs : List (Option W))
  | entries (es : List (K × Option W))

/-- An entry found by `Put` stays, by `Set` it is replaced. -/
def kept (e : K × Option W) : K × Option W := e

/-- The methods of tree.go: Size 41-46, Get 54-59, Put 62-102, InsertIfAbsent 105-107, Set 110-152,
Upsert 155-162, Index 165-168, IndexOf 171-201, Traverse 236-259, Values 262-274, Remove 277-349,
Delete 352-358, Len 361-363, RemoveIndex 366-438, RemoveRange 441-526, RemoveRangeByIndex 530-641,
Trim 644-714, TrimByIndex 717-815, Split 818-938, SplitContain 941-1060, Clear 1063-1065. The outer
`none` is a panic with an unknown state (or the use of the nil tree returned by `Split`). -/
def step (shift : Nat) (cmp : K → K → Int) (t : T K (Option W)) :
    Op K W → Option (T K (Option W) × Res K W)
  | .put k v => (Size.put (limit shift) cmp k v kept t).map fun p => (p.1, .bool p.2.isSome)
  | .insertIfAbsent k v =>
    (Size.put (limit shift) cmp k v kept t).map fun p => (p.1, .bool p.2.isSome)
  | .set k v =>
    if t.isNil then some (node 1 k v nil nil, .bool true)
    else (Size.put (limit shift) cmp k v (fun _ => (k, v)) t).map fun p => (p.1, .bool p.2.isNone)
  | .upsert k v =>
    if (Size.get cmp k t).isSome then some (setVal cmp k v t, .bool true)
    else (Size.put (limit shift) cmp k v kept t).map fun p => (p.1, .bool false)
  | .get k => some (t, .found ((Size.get cmp k t).map (·.2)))
  | .remove k => (Size.remove (fun _ w => w) cmp k t).map fun p => (p.1, .val (p.2.bind (·.2)))
  | .delete k => (Size.remove (fun _ w => w) cmp k t).map fun p =>
    (p.1, .found ((p.2.bind (·.2)).map some))
  | .index i => match nodeAt i t (leftSz t) with
    | none => some (t, .panic)
    | some e => some (t, .entry e)
  | .indexOf k => some (t, .int (Size.indexOf cmp k t (leftSz t)))
  | .removeIndex i => match removeAt (fun _ w => w) i t (leftSz t) with
    | none => some (t, .panic)
    | some o => o.map fun p => (p.1, .val p.2.2)
  | .removeRange low high =>
    let c := cmp low high
    if c > 0 then some (t, .panic)
    else if c = 0 then (Size.remove (fun _ w => w) cmp low t).map fun p => (p.1, .unit)
    else (Size.removeRange cmp low high t).map fun p => (p.1, .unit)
  | .removeRangeByIndex low high =>
    if low > high then some (t, .unit)
    else match removeRangeIdx low high t (leftSz t) with
      | none => some (t, .panic)
      | some o => o.map fun p => (p.1, .unit)
  | .trim low high =>
    if cmp low high > 0 then some (t, .panic) else some (Size.trim cmp low high t, .unit)
  | .trimByIndex low high =>
    if low > high then some (t, .panic)
    else match trimIdx low high t (leftSz t) with
      | .ok t' => some (t', .unit)
      | .untouched => some (t, .panic)
      | .broken t' => some (t', .panic)
  | .split key incl other => match split cmp incl key t with
    | none => if other then none else some (t, .unit)
    | some p => some (if other then p.2 else p.1, .unit)
  | .clear => some (nil, .unit)
  | .size => some (t, .int (sz t))
  | .len => some (t, .int (sz t))
  | .values => some (t, .list ((t.traverse fun _ _ => true).1.map (·.2)))
  | .traverse every => some (t, .entries (t.traverse every).1)

/-! ### Iterators -/

/-- utils.go:382-404 `hight`: the depth of the deepest node of size 1. -/
def hight : T K W → Nat → Nat
  | nil, _ => 0
  | node a _ _ l r, h => if a = 1 then h else max (hight l (h + 1)) (hight r (h + 1))

/-- iterator.go:3-11 `Iterator`, with the rank `pos`. The stack as in `Verif.Avl.Iter`. -/
structure It (K W : Type) where
  it : Avl.Iter Int K W
  pos : Int

/-- iterator_hide.go:3-14 `newIterator`. The index `idx` is an int8, so that no more than 128 slots can
be used. -/
def It.new (t : T K W) : It K W :=
  ⟨⟨min ((if hight t 0 = 0 then 1 else hight t 0) + 1) 128, nil, []⟩, 0⟩

/-- A comparator with the results of the search trees, so that the loop of `Verif.Avl.Iter.seekLoop`
is that of `seekEqual` (iterator_hide.go:83-105: equal, then `cmp < 0` goes right, else left). -/
def toEx (cmp : K → K → Int) (a b : K) : Int :=
  if cmp a b = 0 then -1 else if cmp a b < 0 then 1 else 0

/-- The loop of `seekThan`, iterator_hide.go:117-143: it stops at the first node with `cmp > 0`. The
outer `none` is a panic (`iter.cur` is nil after `move` in line 130). -/
def seekThanLoop (cmp : K → K → Int) (root : T K W) (key : K) (c : Bool) : Nat → It K W →
    Option (It K W × Bool)
  | 0, _ => none
  | n + 1, s =>
    match s.it.cur with
    | nil => none
    | node _ k _ _ _ =>
      let x := cmp k key
      if x > 0 then
        (s.it.move c).bind fun it' =>
          match it'.cur with
          | nil => none
          | node _ k' _ _ _ => some (⟨it', Size.indexOf cmp k' root (leftSz root)⟩, true)
      else
        let dir := decide (x < 0)
        (s.it.down dir).bind fun p =>
          if p.2 then seekThanLoop cmp root key c n ⟨p.1, s.pos⟩
          else (if dir = c then (p.1.up c).map (·.1) else some p.1).map fun it' =>
            match it'.cur with
            | nil => (⟨it', s.pos⟩, false)
            | node _ k' _ _ _ => (⟨it', Size.indexOf cmp k' root (leftSz root)⟩, false)

inductive IOp (K : Type) where
  | seekToFirst | seekToLast | seekByIndex (i : Int) | next | prev
  | seekGE (k : K) | seekGT (k : K) | seekLE (k : K) | seekLT (k : K) | valid | entry | index | clone

inductive IRes (K W : Type) where
  | unit | bool (b : Bool) | entry (e : K × W) | int (n : Int)

/-- iterator.go:18-95, iterator_hide.go:16-156. On an empty tree the seeks leave stack and rank as they
are; `SeekByIndex` (34-42) does not touch the stack. In `up` (iterator_hide.go:58) a full stack is not
written; it is never full there, because the node itself is not on it. -/
def istep (cmp : K → K → Int) (root : T K W) (s : It K W) : IOp K → Option (It K W × IRes K W)
  | .seekToFirst => (s.it.seekEnd root false).map fun i => (⟨i, 0⟩, .unit)
  | .seekToLast => (s.it.seekEnd root true).map fun i => (⟨i, sz root - 1⟩, .unit)
  | .seekByIndex i =>
    if i < 0 ∨ i ≥ sz root then some (⟨{ s.it with cur := nil }, s.pos⟩, .unit)
    else (subAt i root (leftSz root)).map fun t => (⟨{ s.it with cur := t }, i⟩, .unit)
  | .next => (s.it.move true).map fun i => (⟨i, s.pos + 1⟩, .unit)
  | .prev => (s.it.move false).map fun i => (⟨i, s.pos - 1⟩, .unit)
  | .seekGE k => seekEqual k true
  | .seekLE k => seekEqual k false
  | .seekGT k => seekThan k true
  | .seekLT k => seekThan k false
  | .valid => some (s, .bool (!s.it.cur.isNil))
  | .entry => match s.it.cur with
    | nil => none
    | node _ k v _ _ => some (s, .entry (k, v))
  | .index => some (s, .int s.pos)
  | .clone => some (⟨⟨s.it.cap, s.it.cur, s.it.stk⟩, s.pos⟩, .unit)
where
  /-- utils.go:289-314 `index`: the node itself. -/
  subAt (i : Int) : T K W → Int → Option (T K W)
    | nil, _ => none
    | node a k v l r, idx =>
      if idx > i then subAt i l (idx - (rightSz l + 1))
      else if idx < i then subAt i r (idx + (leftSz r + 1))
      else some (node a k v l r)
  /-- iterator_hide.go:74-106 `seekEqual`. -/
  seekEqual (k : K) (c : Bool) : Option (It K W × IRes K W) :=
    if root.isNil then some (⟨{ s.it with cur := nil }, s.pos⟩, .bool false)
    else (s.it.seek (toEx cmp) root k c false).map fun p =>
      (⟨p.1, Size.indexOf cmp k root (leftSz root)⟩, .bool p.2)
  /-- iterator_hide.go:108-144 `seekThan`. -/
  seekThan (k : K) (c : Bool) : Option (It K W × IRes K W) :=
    if root.isNil then some (⟨{ s.it with cur := nil }, s.pos⟩, .bool false)
    else
      let it' : Avl.Iter Int K W := { s.it with cur := root, stk := [] }
      (seekThanLoop cmp root k c it'.fuel ⟨it', s.pos⟩).map fun p => (p.1, .bool p.2)

end Verif.IndexTree
