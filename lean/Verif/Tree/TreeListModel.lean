import Verif.Tree.SizeModel
import Verif.Common.DLL

/-! Model of tree/treelist: the size balanced map whose nodes are also threaded into a doubly linked
list (`Direct`). Rotations, insertion, ranges and ranks are in `Verif.Tree.SizeModel`.

* A node has an address. The tree is a value whose entries carry the address of their node; the
  `Direct` links and the `Slice` of the nodes are in a store (`prev` is `Direct[0]`, `next` is
  `Direct[1]`). The `Slice` of a node in the tree is thus kept twice, and every write goes to both
  places.
* `head`, `tail` are `tree.root.Direct`; the rest of the sentinel `tree.root` is not modelled.
* `none` is a run-time panic, or a loop over links that does not end; `Res.panic` is a panic after
  which the state is known.
* The counters of rotations, `String`, debug_utils.go, bad_code.go, unused_code.go and the functions
  of utils.go that nothing calls (`find`, `unionSetSlice`, `intersectionSlice`, `differenceSetSlice`,
  `buildFromSortedSlices`, `check`) are not modelled. -/

namespace Verif.TreeList

open Tree Size DLL

variable {K V : Type}

/-- An entry of the tree: the key, the address of the node, the value. -/
abbrev Ent (K V : Type) := K × (Nat × V)

/-- tree.go:36-43 `Tree`. `free` is the next address. -/
structure TL (K V : Type) where
  tree : T K (Nat × V)
  heap : Store (K × V)
  free : Nat
  head : Option Nat
  tail : Option Nat

/-- tree.go:46-48 `New`. What the store holds at addresses not yet in use is never read. -/
def new (junk : K × V) : TL K V := ⟨nil, fun _ => ⟨none, none, junk⟩, 0, none, none⟩

/-- utils.go:149-167 `rootSizeTable`, where it is read: out of range is a panic, the first two
entries are nil pointers. -/
def limit (height : Nat) : Option (Int × Int) :=
  if 2 ≤ height ∧ height < 64 then
    some (2 ^ height, (List.range 61).foldl (fun b i => b - (2 ^ height : Int) >>> (i + 3))
      ((2 ^ height : Int) >>> 1))
  else none

/-- `if p != nil { p.Direct[1] = q } else { tree.root.Direct[0] = q }`. -/
def TL.setR (s : TL K V) (p q : Option Nat) : TL K V :=
  match p with
  | some a => { s with heap := s.heap.setNext a q }
  | none => { s with head := q }

/-- `if p != nil { p.Direct[0] = q } else { tree.root.Direct[1] = q }`. -/
def TL.setL (s : TL K V) (p q : Option Nat) : TL K V :=
  match p with
  | some a => { s with heap := s.heap.setPrev a q }
  | none => { s with tail := q }

/-- The two statements that take out what is between `dleft` and `dright`: utils.go:380-390,
tree.go:321-331, 468-478. -/
def TL.unlink (s : TL K V) (dleft dright : Option Nat) : TL K V :=
  (s.setR dleft dright).setL dright dleft

/-! ### Insertion -/

/-- The variables `left` and `right` of `putWith` (utils.go:74-95) when the search ends. -/
def gap (cmp : K → K → Int) (key : K) :
    T K (Nat × V) → Option Nat → Option Nat → Option Nat × Option Nat
  | nil, left, right => (left, right)
  | node _ k v l r, left, right =>
    let c := cmp key k
    if c < 0 then gap cmp key l left (some v.1)
    else if c > 0 then gap cmp key r (some v.1) right
    else (left, right)

/-- utils.go:64-103 `putWith` with 28-37 `initRootNode` and 39-62 `attachNode`; `upd` is what
`onExists` does to the value. The result tells whether the key was there. -/
def putWith (cmp : K → K → Int) (s : TL K V) (key : K) (value : V) (upd : V → V) :
    Option (TL K V × Bool) :=
  if s.tree.isNil then
    some ({ tree := node 1 key (s.free, value) nil nil
            heap := s.heap.put s.free ⟨none, none, (key, value)⟩
            free := s.free + 1, head := some s.free, tail := some s.free }, false)
  else
    match put limit cmp key (s.free, value) (fun e => (e.1, (e.2.1, upd e.2.2))) s.tree,
        get cmp key s.tree with
    | none, _ => none
    | some p, some e => some ({ s with tree := p.1, heap := s.heap.setVal e.2.1 (e.1, upd e.2.2) }, true)
    | some p, none =>
      let g := gap cmp key s.tree none none
      let s' := ({ s with tree := p.1 }.setR g.1 (some s.free)).setL g.2 (some s.free)
      some ({ s' with heap := s'.heap.put s.free ⟨g.1, g.2, (key, value)⟩, free := s.free + 1 }, false)

/-! ### Removal -/

/-- Which way `removeNode` goes: the node is a leaf, or it takes key and value of the node before or
after it. -/
inductive Cut (K V : Type) where
  | leaf | prev (e : Ent K V) | next (e : Ent K V)

/-- utils.go:365-472 `removeNode`, the tree: what replaces the subtree of the node. -/
def cutHere : T K (Nat × V) → Option (T K (Nat × V) × Cut K V)
  | nil => none
  | node n _ v l r =>
    if n = 1 then some (nil, .leaf)
    else if sz l > sz r then
      (takeMax l).map fun p => (node (n - 1) p.2.1 (v.1, p.2.2.2) p.1 r, .prev p.2)
    else (takeMin r).map fun p => (node (n - 1) p.2.1 (v.1, p.2.2.2) l p.1, .next p.2)

/-- The node with the address `a`, and the sizes on the way to the root (`fixRemoveSize`,
utils.go:137-142). `none` if there is no such node in the tree. -/
def cutAt (a : Nat) : T K (Nat × V) → Option (T K (Nat × V) × Cut K V)
  | nil => none
  | node n k v l r =>
    if v.1 = a then cutHere (node n k v l r)
    else
      match cutAt a l with
      | some p => some (node (n - 1) k v p.1 r, p.2)
      | none => (cutAt a r).map fun p => (node (n - 1) k v l p.1, p.2)

/-- utils.go:365-472 `removeNode`. -/
def removeNode (s : TL K V) (a : Nat) : Option (TL K V × (K × V)) :=
  let slice := (s.heap a).val
  match cutAt a s.tree with
  | none => none
  | some (t, .leaf) =>
    if t.isNil then some ({ s with tree := t, head := none, tail := none }, slice)
    else some ({ s with tree := t }.unlink (s.heap a).prev (s.heap a).next, slice)
  | some (t, .prev e) =>
    (s.heap a).prev.map fun p =>
      let dleft := (s.heap p).prev
      let s' := { s with tree := t, heap := s.heap.setVal a (e.1, e.2.2) }.setR dleft (some a)
      ({ s' with heap := s'.heap.setPrev a dleft }, slice)
  | some (t, .next e) =>
    (s.heap a).next.map fun p =>
      let dright := (s.heap p).next
      let s' := { s with tree := t, heap := s.heap.setVal a (e.1, e.2.2) }.setL dright (some a)
      ({ s' with heap := s'.heap.setNext a dright }, slice)

/-! ### Ranges -/

section
variable (cmp : K → K → Int) (low high : K) (h : Store (K × V))

/-- `ltrim` of `RemoveRange`, tree.go:255-279: what is below `low`, and `dleft`. -/
def cutL : T K (Nat × V) → T K (Nat × V) × Option Nat
  | nil => (nil, none)
  | node _ k v l r =>
    let c := cmp low k
    if c > 0 then
      (mk k v l (cutL r).1, if (cutL r).1.isNil then some v.1 else (cutL r).2)
    else if c < 0 then
      if l.isNil then (nil, (h v.1).prev) else cutL l
    else (l, (h v.1).prev)

/-- `rtrim` of `RemoveRange`, tree.go:289-313: what is above `high`, and `dright`. -/
def cutR : T K (Nat × V) → T K (Nat × V) × Option Nat
  | nil => (nil, none)
  | node _ k v l r =>
    let c := cmp high k
    if c < 0 then
      (mk k v (cutR l).1 r, if (cutR l).1.isNil then some v.1 else (cutR l).2)
    else if c > 0 then
      if r.isNil then (nil, (h v.1).next) else cutR r
    else (r, (h v.1).next)

/-- tree.go:281-286, 315-320, 333-352: `RemoveRange` at the root of the range. The last component is
`dleft` and `dright`. -/
def rangeHere (n : Int) (v : Nat × V) (l r : T K (Nat × V)) :
    Option (T K (Nat × V) × Anc × Option (Option Nat × Option Nat)) :=
  let p := if l.isNil then (nil, (h v.1).prev) else cutL cmp low h l
  let q := if r.isNil then (nil, (h v.1).next) else cutR cmp high h r
  (join n p.1 q.1).map fun j => (j.1, j.2, some (p.2, q.2))

/-- `getRangeRoot`, utils.go:106-128, and the rest of `RemoveRange` (tree.go:248-354) at the node
found; no links are returned if there is none. -/
def rangeOut : T K (Nat × V) → Option (T K (Nat × V) × Anc × Option (Option Nat × Option Nat))
  | nil => some (nil, .keep, none)
  | node n k v l r =>
    let c1 := cmp low k
    let c2 := cmp high k
    if c1 ≠ c2 then rangeHere cmp low high h n v l r
    else if c1 < 0 then (rangeOut l).map fun p => (p.2.1.fix n k v p.1 r, p.2)
    else if c1 > 0 then (rangeOut r).map fun p => (p.2.1.fix n k v l p.1, p.2)
    else rangeHere cmp low high h n v l r

end

section
variable (low high : Int) (h : Store (K × V))

/-- `ltrim` of `RemoveRangeByIndex`, tree.go:390-422; `idx` is the rank of the node (the code passes
that of the parent and the direction). -/
def cutIdxL : T K (Nat × V) → Int → T K (Nat × V) × Option Nat
  | nil, _ => (nil, none)
  | node _ k v l r, idx =>
    if idx < low then
      let p := cutIdxL r (idx + (leftSz r + 1))
      (mk k v l p.1, if p.1.isNil then some v.1 else p.2)
    else if idx > low then
      if l.isNil then (nil, (h v.1).prev) else cutIdxL l (idx - (rightSz l + 1))
    else (l, (h v.1).prev)

/-- `rtrim` of `RemoveRangeByIndex`, tree.go:432-464. -/
def cutIdxR : T K (Nat × V) → Int → T K (Nat × V) × Option Nat
  | nil, _ => (nil, none)
  | node _ k v l r, idx =>
    if idx > high then
      let p := cutIdxR l (idx - (rightSz l + 1))
      (mk k v p.1 r, if p.1.isNil then some v.1 else p.2)
    else if idx < high then
      if r.isNil then (nil, (h v.1).next) else cutIdxR r (idx + (leftSz r + 1))
    else (r, (h v.1).next)

/-- tree.go:370-500: `none` is the panic of the search, which changes nothing, `some none` a panic
later. -/
def rangeIdxOut : T K (Nat × V) → Int →
    Option (Option (T K (Nat × V) × Anc × (Option Nat × Option Nat)))
  | nil, _ => none
  | node n k v l r, idx =>
    if idx > low ∧ idx > high then (rangeIdxOut l (idx - (rightSz l + 1))).map fun o =>
      o.map fun p => (p.2.1.fix n k v p.1 r, p.2)
    else if idx < high ∧ idx < low then (rangeIdxOut r (idx + (leftSz r + 1))).map fun o =>
      o.map fun p => (p.2.1.fix n k v l p.1, p.2)
    else
      let p := if l.isNil then (nil, (h v.1).prev) else cutIdxL low h l (idx - (rightSz l + 1))
      let q := if r.isNil then (nil, (h v.1).next) else cutIdxR high h r (idx + (leftSz r + 1))
      some ((join n p.1 q.1).map fun j => (j.1, j.2, (p.2, q.2)))

end

/-- `for lhand.Children[L] != nil { lhand = lhand.Children[L] }`. -/
def first : T K (Nat × V) → Option Nat
  | nil => none
  | node _ _ v l _ => if l.isNil then some v.1 else first l

/-- `for rhand.Children[R] != nil { rhand = rhand.Children[R] }`. -/
def last : T K (Nat × V) → Option Nat
  | nil => none
  | node _ _ v _ r => if r.isNil then some v.1 else last r

/-- The end of `Trim` and `TrimByIndex`, tree.go:591-610, 698-715: nothing if the tree is empty. -/
def TL.fence (s : TL K V) : TL K V :=
  match first s.tree, last s.tree with
  | some a, some b =>
    { s with heap := (s.heap.setPrev a none).setNext b none, head := some a, tail := some b }
  | _, _ => s

/-! ### Walking -/

/-- The loop `SeekToFirst(); Valid(); Next()` (or `SeekToLast`, `Prev`), and the slices it sees; `none`
if it does not end within as many rounds as there ever were nodes. -/
def walk (h : Store (K × V)) (back : Bool) : Nat → Option Nat → Option (List (K × V))
  | _, none => some []
  | 0, some _ => none
  | n + 1, some a =>
    (walk h back n (if back then (h a).prev else (h a).next)).map fun l => (h a).val :: l

/-! ### The methods -/

/-- The methods. `putDup k v f` is `PutDuplicate` with a callback that sets the value with `f`.
`forward` and `backward` are whole walks with an iterator. -/
inductive Op (K V : Type) where
  | put (k : K) (v : V) | set (k : K) (v : V) | putDup (k : K) (v : V) (f : V → V)
  | get (k : K) | remove (k : K) | removeIndex (i : Int) | removeHead | removeTail | head | tail
  | size | index (i : Int) | indexOf (k : K) | slices | traverse (every : K → V → Bool) | clear
  | removeRange (low high : K) | removeRangeByIndex (low high : Int)
  | trim (low high : K) | trimByIndex (low high : Int) | forward | backward

inductive Res (K V : Type) where
  | unit | bool (b : Bool) | int (i : Int) | found (v : Option V) | slice (s : Option (K × V))
  | list (l : List (K × V)) | panic
  deriving DecidableEq

/-- An entry without the address. -/
def strip (e : Ent K V) : K × V := (e.1, e.2.2)

variable (cmp : K → K → Int)

/-- tree.go:185-190 `Remove`. -/
def doRemove (s : TL K V) (k : K) : Option (TL K V × Option (K × V)) :=
  match get cmp k s.tree with
  | none => some (s, none)
  | some e => (removeNode s e.2.1).map fun p => (p.1, some p.2)

/-- tree.go:235-354 `RemoveRange`. -/
def doRemoveRange (s : TL K V) (low high : K) : Option (TL K V × Res K V) :=
  let c := cmp low high
  if c > 0 then some (s, .panic)
  else if c = 0 then (doRemove cmp s low).map fun p => (p.1, .bool p.2.isSome)
  else
    match rangeOut cmp low high s.heap s.tree with
    | none => none
    | some (_, _, none) => some (s, .bool false)
    | some (t, _, some (dl, dr)) => some ({ s with tree := t }.unlink dl dr, .bool true)

/-- tree.go:357-500 `RemoveRangeByIndex`. -/
def doRemoveRangeByIndex (s : TL K V) (low high : Int) : Option (TL K V × Res K V) :=
  if low > high then some (s, .unit)
  else
    match rangeIdxOut low high s.heap s.tree (leftSz s.tree) with
    | none => some (s, .panic)
    | some none => none
    | some (some (t, _, dl, dr)) => some ({ s with tree := t }.unlink dl dr, .unit)

/-- tree.go:528-611 `Trim`. -/
def doTrim (s : TL K V) (low high : K) : TL K V × Res K V :=
  if cmp low high > 0 then (s, .panic)
  else ({ s with tree := Size.trim cmp low high s.tree }.fence, .unit)

/-- tree.go:614-716 `TrimByIndex`. -/
def doTrimByIndex (s : TL K V) (low high : Int) : TL K V × Res K V :=
  if low > high then (s, .panic)
  else
    match trimIdx low high s.tree (leftSz s.tree) with
    | .ok t => ({ s with tree := t }.fence, .unit)
    | .untouched => (s, .panic)
    | .broken t => ({ s with tree := t }, .panic)

/-- tree.go:66-716. -/
def step (s : TL K V) : Op K V → Option (TL K V × Res K V)
  -- 99-101
  | .put k v => (putWith cmp s k v id).map fun p => (p.1, .bool !p.2)
  -- 92-96
  | .set k v => (putWith cmp s k v fun _ => v).map fun p => (p.1, .bool p.2)
  -- 85-89
  | .putDup k v f => (putWith cmp s k v f).map fun p => (p.1, .bool p.2)
  -- 74-79
  | .get k => some (s, .found ((get cmp k s.tree).map fun e => e.2.2))
  | .remove k => (doRemove cmp s k).map fun p => (p.1, .slice p.2)
  -- 193-198
  | .removeIndex i =>
    match nodeAt i s.tree (leftSz s.tree) with
    | none => some (s, .panic)
    | some e => (removeNode s e.2.1).map fun p => (p.1, .slice (some p.2))
  -- 210-215; removing the nil pointer panics
  | .removeHead =>
    if s.tree.isNil then some (s, .slice none)
    else s.head.bind fun a => (removeNode s a).map fun p => (p.1, .slice (some p.2))
  -- 227-232
  | .removeTail =>
    if s.tree.isNil then some (s, .slice none)
    else s.tail.bind fun a => (removeNode s a).map fun p => (p.1, .slice (some p.2))
  -- 201-207
  | .head => some (s, .slice (s.head.map fun a => (s.heap a).val))
  -- 218-224
  | .tail => some (s, .slice (s.tail.map fun a => (s.heap a).val))
  -- 66-71
  | .size => some (s, .int (sz s.tree))
  -- 106-109
  | .index i =>
    match nodeAt i s.tree (leftSz s.tree) with
    | none => some (s, .panic)
    | some e => some (s, .slice (some (strip e)))
  -- 112-141
  | .indexOf k => some (s, .int (indexOf cmp k s.tree (leftSz s.tree)))
  -- 170-182
  | .slices => some (s, .list ((s.tree.traverse fun _ _ => true).1.map strip))
  -- 144-167
  | .traverse every => some (s, .list ((s.tree.traverse fun k v => every k v.2).1.map strip))
  -- 503-509
  | .clear => some ({ s with tree := nil, head := none, tail := none }, .unit)
  | .removeRange low high => doRemoveRange cmp s low high
  | .removeRangeByIndex low high => doRemoveRangeByIndex s low high
  | .trim low high => some (doTrim cmp s low high)
  | .trimByIndex low high => some (doTrimByIndex s low high)
  -- iterator.go:84-127
  | .forward => (walk s.heap false s.free s.head).map fun l => (s, .list l)
  | .backward => (walk s.heap true s.free s.tail).map fun l => (s, .list l)

/-! ### Iterators -/

/-- utils.go:528-564 `seekNodeWithIndex`: the node, its rank, and the last comparison; `none` is the
nil dereference on an empty tree. -/
def seekAt (key : K) : T K (Nat × V) → Int → Option (Nat × Int × Int)
  | nil, _ => none
  | node _ k v l r, offset =>
    let c := cmp key k
    if c < 0 then
      if l.isNil then some (v.1, offset, c) else seekAt key l (offset - (rightSz l + 1))
    else if c > 0 then
      if r.isNil then some (v.1, offset, c) else seekAt key r (offset + (leftSz r + 1))
    else some (v.1, offset, c)

/-- iterator.go:3-14 `Iterator`. -/
structure Iter where
  cur : Option Nat
  idx : Int
  deriving DecidableEq

inductive IOp (K : Type) where
  | seekGE (k : K) | seekGT (k : K) | seekLE (k : K) | seekLT (k : K) | seekByIndex (i : Int)
  | seekToFirst | seekToLast | next | prev | valid | index | slice | compare (k : K)

inductive IRes (K V : Type) where
  | unit | bool (b : Bool) | int (i : Int) | slice (s : K × V) | panic
  deriving DecidableEq

/-- The seeks to the right, iterator.go:16-43: `strict` is `SeekGT`. -/
def seekRight (s : TL K V) (strict : Bool) (key : K) : Option (Iter × Int) :=
  (seekAt cmp key s.tree (leftSz s.tree)).map fun p =>
    if (if strict then p.2.2 ≥ 0 else p.2.2 > 0) then (⟨(s.heap p.1).next, p.2.1 + 1⟩, p.2.2)
    else (⟨some p.1, p.2.1⟩, p.2.2)

/-- The seeks to the left, iterator.go:53-81: `strict` is `SeekLT`. -/
def seekLeft (s : TL K V) (strict : Bool) (key : K) : Option (Iter × Int) :=
  (seekAt cmp key s.tree (leftSz s.tree)).map fun p =>
    if (if strict then p.2.2 ≤ 0 else p.2.2 < 0) then (⟨(s.heap p.1).prev, p.2.1 - 1⟩, p.2.2)
    else (⟨some p.1, p.2.1⟩, p.2.2)

/-- iterator.go:16-153; `Key` and `Value` are parts of `Slice`, `Clone` is the iterator itself. -/
def istep (s : TL K V) (it : Iter) : IOp K → Option (Iter × IRes K V)
  -- 19-29
  | .seekGE k => (seekRight cmp s false k).map fun p => (p.1, .bool (p.2 == 0))
  -- 34-44
  | .seekGT k => (seekRight cmp s true k).map fun p => (p.1, .bool (p.2 == 0))
  -- 57-67
  | .seekLE k => (seekLeft cmp s false k).map fun p => (p.1, .bool (p.2 == 0))
  -- 71-81
  | .seekLT k => (seekLeft cmp s true k).map fun p => (p.1, .bool (p.2 == 0))
  -- 48-52
  | .seekByIndex i =>
    match nodeAt i s.tree (leftSz s.tree) with
    | none => some (it, .panic)
    | some e => some (⟨some e.2.1, i⟩, .unit)
  -- 84-91
  | .seekToFirst => some (⟨s.head, 0⟩, .unit)
  -- 94-100
  | .seekToLast => some (⟨s.tail, sz s.tree - 1⟩, .unit)
  -- 103-105
  | .valid => some (it, .bool it.cur.isSome)
  -- 108-113
  | .prev => it.cur.map fun a => (⟨(s.heap a).prev, it.idx - 1⟩, .unit)
  -- 124-128
  | .next => it.cur.map fun a => (⟨(s.heap a).next, it.idx + 1⟩, .unit)
  -- 119-121
  | .compare k => it.cur.map fun a => (it, .int (cmp (s.heap a).val.1 k))
  -- 131-133
  | .slice => it.cur.map fun a => (it, .slice (s.heap a).val)
  -- 136-138
  | .index => some (it, .int it.idx)

/-- iterator_range.go:13-17 `IteratorRange`; `reverse` is `dir`. -/
structure IterRange where
  siter : Iter
  eiter : Iter
  reverse : Bool

/-- iterator_range.go:100-217: `GE2LE`, `GT2LE`, `GE2LT`, `GT2LT`. -/
def setRange (s : TL K V) (ir : IterRange) (gt lt : Bool) (start stop : K) : Option IterRange :=
  (seekRight cmp s gt start).bind fun p =>
    (seekLeft cmp s lt stop).map fun q => { ir with siter := p.1, eiter := q.1 }

/-- iterator_range.go:86-94 `Size`. -/
def IterRange.size (ir : IterRange) : Int :=
  if ir.siter.cur.isNone ∨ ir.eiter.cur.isNone ∨ ir.siter.idx > ir.eiter.idx then 0
  else ir.eiter.idx - ir.siter.idx + 1

/-- The loop of `Range`, iterator_range.go:55-65; `none` is the nil dereference. -/
def rangeLoop (h : Store (K × V)) (every : K × V → Int → Bool) (stop : Option Nat) (reverse : Bool) :
    Nat → Option Nat → Int → Option (List ((K × V) × Int))
  | 0, _, _ => none
  | _, none, _ => none
  | n + 1, some a, idx =>
    if every (h a).val idx = false ∨ some a = stop then some [((h a).val, idx)]
    else (rangeLoop h every stop reverse n (if reverse then (h a).prev else (h a).next)
      (if reverse then idx - 1 else idx + 1)).map fun l => ((h a).val, idx) :: l

/-- iterator_range.go:25-67 `Range`: what the callback is called with. -/
def IterRange.range (s : TL K V) (ir : IterRange) (every : K × V → Int → Bool) :
    Option (List ((K × V) × Int)) :=
  if ir.siter.idx > ir.eiter.idx then some []
  else if ir.reverse then rangeLoop s.heap every ir.siter.cur true s.free ir.eiter.cur ir.eiter.idx
  else rangeLoop s.heap every ir.eiter.cur false s.free ir.siter.cur ir.siter.idx

/-! ### Set operations -/

inductive SetOp where
  | inter | union | diff

section
variable (op : SetOp) (ha hb : Store (K × V))

/-- `emit`, utils.go:764-808: the slice given out, and the new heads. -/
def emit (a b : Nat) (c : Int) : Option (K × V) × Option Nat × Option Nat :=
  match op with
  | .inter =>
    if c < 0 then (none, (ha a).next, some b)
    else if c > 0 then (none, some a, (hb b).next)
    else (some (ha a).val, (ha a).next, (hb b).next)
  | .union =>
    if c < 0 then (some (ha a).val, (ha a).next, some b)
    else if c > 0 then (some (hb b).val, some a, (hb b).next)
    else (some (ha a).val, (ha a).next, (hb b).next)
  | .diff =>
    if c < 0 then (some (ha a).val, (ha a).next, some b)
    else if c > 0 then (none, some a, (hb b).next)
    else (none, (ha a).next, (hb b).next)

/-- The loops `for head != nil { count++; head = head.Direct[R] }`. -/
def countRest (h : Store (K × V)) : Nat → Option Nat → Option Nat
  | _, none => some 0
  | 0, some _ => none
  | n + 1, some a => (countRest h n (h a).next).map (· + 1)

/-- The first pass, utils.go:810-834. -/
def countAll : Nat → Option Nat → Option Nat → Option Nat
  | n + 1, some a, some b =>
    let e := emit op ha hb a b (cmp (ha a).val.1 (hb b).val.1)
    (countAll n e.2.1 e.2.2).map fun m => if e.1.isSome then m + 1 else m
  | 0, some _, some _ => none
  | n, p, q =>
    match op with
    | .inter => some 0
    | .union => (countRest ha n p).bind fun x => (countRest hb n q).map fun y => x + y
    | .diff => countRest ha n p

/-- The second pass, utils.go:836-865: one call of `next`; `none` is its panic. -/
def pull : Nat → Option Nat → Option Nat → Option ((K × V) × Option Nat × Option Nat)
  | n + 1, some a, some b =>
    let e := emit op ha hb a b (cmp (ha a).val.1 (hb b).val.1)
    match e.1 with
    | some x => some (x, e.2)
    | none => pull n e.2.1 e.2.2
  | 0, some _, some _ => none
  | _, some a, none =>
    match op with
    | .inter => none
    | _ => some ((ha a).val, (ha a).next, none)
  | _, none, some b =>
    match op with
    | .union => some ((hb b).val, none, (hb b).next)
    | _ => none
  | _, none, none => none

end

/-- The state of `build`: the heads of the stream, the new nodes, `prev` and `root.Direct[0]`. -/
structure Build (K V : Type) where
  p : Option Nat
  q : Option Nat
  heap : Store (K × V)
  free : Nat
  prev : Option Nat
  head : Option Nat

/-- `build`, utils.go:914-940, for `size` nodes; the first number bounds the depth of the recursion. -/
def build (next : Option Nat → Option Nat → Option ((K × V) × Option Nat × Option Nat)) :
    Nat → Nat → Build K V → Option (T K (Nat × V) × Build K V)
  | _, 0, b => some (nil, b)
  | 0, _ + 1, _ => none
  | n + 1, m + 1, b =>
    let leftSize := (m + 1) / 2
    let rightSize := m + 1 - leftSize - 1
    let a := b.free
    (build next n leftSize { b with free := a + 1 }).bind fun l =>
      (next l.2.p l.2.q).bind fun x =>
        let h := l.2.heap.put a ⟨l.2.prev, none, x.1⟩
        (build next n rightSize
          { p := x.2.1, q := x.2.2, free := l.2.free, prev := some a
            heap := match l.2.prev with | some b => h.setNext b (some a) | none => h
            head := match l.2.prev with | some _ => l.2.head | none => some a }).map fun r =>
          (mk x.1.1 (a, x.1.2) l.1 r.1, r.2)

/-- tree.go:719-743 `Intersection`, `UnionSets`, `DifferenceSets`; utils.go:762-867
`setOperationStream`, 908-945 `buildFromSortedStream`. -/
def setOp (op : SetOp) (s o : TL K V) (junk : K × V) : Option (TL K V) :=
  (countAll cmp op s.heap o.heap (s.free + o.free) s.head o.head).bind fun count =>
    if count = 0 then some (new junk)
    else (build (pull cmp op s.heap o.heap (s.free + o.free)) count count
      ⟨s.head, o.head, (new junk).heap, 0, none, none⟩).map fun r =>
        { tree := r.1, heap := r.2.heap, free := r.2.free, head := r.2.head, tail := r.2.prev }

end Verif.TreeList
