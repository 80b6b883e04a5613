import Verif.Tree.SizeModel
import Verif.Tree.AvlsModel

/-! Model of queue/priority (package treequeue): a size balanced tree with duplicate keys.

Simplifications:
* A subtree is a value instead of a pointer. `put` returns in Go a pointer to the new node and `Put`
  writes its value; the model writes it at once.
* `Size` is an integer without overflow (Go: `int`).
* The `Center` node is not modelled: it is the parent of the root and its `Children[0]` is itself, so
  for `put` the root has a non-nil sibling. Its `Size` is counted down by `removeIndex` and never read.
* `none` is a run-time panic or a loop without end, except in `RemoveIndex`, where a panic for an index
  out of range leaves sizes changed: that one is the result `.panic` with the changed tree, and so is
  the panic of `Index`.
* Not modelled: tree_hide.go:271-533 (trim, split, merge), which no exported function calls,
  debug_utils.go and the `view` and `check` functions, and the files that are comments only
  (utils.go, priority.go, tree_old.go). -/

namespace Verif.Priority

open Tree Size

variable {K V : Type}

abbrev T (K V : Type) := Tree Int K V

/-- queue/priority/node.go:46-52 `getMaybeHeight`: the number of binary digits; for a negative number
the loop does not end. -/
def maybeHeight (size : Int) : Option Nat :=
  if size < 0 then none else some (if size = 0 then 0 else size.toNat.log2 + 1)

/-- queue/priority/node.go:59-69 `rootSizeTable[h].bottomsize` for `2 ≤ h < 64`; `1 << 63` is negative
in Go. -/
def bottomsize (h : Nat) : Int :=
  if h = 63 then -(2 ^ 61) + 1 else 2 ^ (h - 2) + 1

/-- queue/priority/node.go:123-134 `leftRotate`. -/
def leftRotate : T K V → Option (T K V)
  | node _ k v l (node _ ks vs b a) => some (mk ks vs (mk k v l b) a)
  | _ => none

/-- queue/priority/node.go:136-147 `rightRotate`. -/
def rightRotate : T K V → Option (T K V)
  | node _ k v (node _ ks vs a b) r => some (mk ks vs a (mk k v b r))
  | _ => none

/-- queue/priority/node.go:71-95 `leftRotateWithRight`. Without a `subsub` the node `cur` is lost. -/
def leftRotateWithRight : T K V → Option (T K V)
  | node _ k v l (node _ ks vs (node _ kk vv c0 c1) a) => some (mk kk vv (mk k v l c0) (mk ks vs c1 a))
  | node _ _ _ _ (node _ ks vs nil a) => some (mk ks vs nil a)
  | _ => none

/-- queue/priority/node.go:97-121 `rightRotateWithLeft`. -/
def rightRotateWithLeft : T K V → Option (T K V)
  | node _ k v (node _ ks vs a (node _ kk vv c0 c1)) r => some (mk kk vv (mk ks vs a c0) (mk k v c1 r))
  | node _ _ _ (node _ ks vs a nil) _ => some (mk ks vs a nil)
  | _ => none

/-- queue/priority/tree_hide.go:220-233 `sizeRotateType`, for the child `sub` of `cur` on the right
(`right`) or on the left. -/
def sizeRotateType (right : Bool) : T K V → Bool
  | nil => false
  | node _ _ _ l r =>
    let inner := if right then l else r
    let outer := if right then r else l
    if inner.isNil then false else decide (sz outer > sz inner)

/-- queue/priority/tree_hide.go:235-269 `rebalance`. -/
def rebalance : T K V → Option (T K V)
  | nil => none
  | node a k v l r =>
    (maybeHeight a).bind fun h0 =>
      let h := if h0 < 2 then 2 else h0
      let h := if h ≥ 64 then 63 else h
      if sz l > sz r then
        if sz l - sz r ≥ bottomsize h then
          if sizeRotateType false l then rightRotateWithLeft (node a k v l r)
          else rightRotate (node a k v l r)
        else some (node a k v l r)
      else if sz r > sz l then
        if sz r - sz l ≥ bottomsize h then
          if sizeRotateType true r then leftRotateWithRight (node a k v l r)
          else leftRotate (node a k v l r)
        else some (node a k v l r)
      else some (node a k v l r)

section
variable (cmp : K → K → Int)

/-- The way back of `put`, queue/priority/tree_hide.go:37-40. -/
def grown (two : Bool) : T K V → Option (T K V)
  | nil => none
  | node a k v l r =>
    if a + 1 > 2 ∧ two = false then rebalance (node (a + 1) k v l r) else some (node (a + 1) k v l r)

/-- queue/priority/tree_hide.go:14-43 `put`. `sib` tells whether the sibling is there. The flag of the
result is `isExists == 2`; `isExists` is never 1. -/
def put (key : K) (val : V) : T K V → Bool → Option (T K V × Bool)
  | nil, sib => some (node 1 key val nil nil, sib)
  | node a k v l r, _ =>
    let c0 := cmp k key
    let c := if c0 < 0 then 1 else c0
    if c = 0 then (put key val l (!r.isNil)).bind fun p =>
      (grown p.2 (node a k v p.1 r)).map fun t => (t, p.2)
    else if c = 1 then (put key val r (!l.isNil)).bind fun p =>
      (grown p.2 (node a k v l p.1)).map fun t => (t, p.2)
    else none

/-- queue/priority/tree_hide.go:74-86 `getfirst`. -/
def getfirst (key : K) : T K V → Option (K × V) → Option (Option (K × V))
  | nil, sel => some sel
  | node _ k v l r, sel =>
    let c := cmp k key
    if c < 0 then getfirst key l (some (k, v))
    else if c = 0 then getfirst key l sel
    else if c = 1 then getfirst key r sel
    else none

/-- queue/priority/tree_hide.go:46-57 `seekRoot`. -/
def seekRoot (key : K) : T K V → Option (T K V)
  | nil => some nil
  | node a k v l r =>
    let c := cmp k key
    if c < 0 then some (node a k v l r)
    else if c = 0 then seekRoot key l
    else if c = 1 then seekRoot key r
    else none

/-- queue/priority/tree_hide.go:60-72 `traverse`: what is appended to `result`. -/
def collect (key : K) : T K V → Option (List V)
  | nil => some []
  | node _ k v l r =>
    let c := cmp k key
    if c < 0 then (collect key l).bind fun a => (collect key r).map fun b => v :: (a ++ b)
    else if c = 0 then collect key l
    else if c = 1 then collect key r
    else none

/-- queue/priority/tree.go:71-78 `Gets`. -/
def gets (key : K) (t : T K V) : Option (List V) :=
  (seekRoot cmp key t).bind fun s => collect cmp key s

end

/-- queue/priority/tree_hide.go:203-218 `neighboring`, on the subtree `parent.Children[child2]`; it goes
to the left or to the right (`right`, in Go `child1`). -/
def neighboring (right : Bool) : T K V → Option (T K V × (K × V))
  | nil => none
  | node a k v l r =>
    if right then
      if r.isNil then some (l, (k, v))
      else (neighboring right r).bind fun p =>
        (rebalance (node (a - 1) k v l p.1)).map fun t => (t, p.2)
    else
      if l.isNil then some (r, (k, v))
      else (neighboring right l).bind fun p =>
        (rebalance (node (a - 1) k v p.1 r)).map fun t => (t, p.2)

/-- The removal of a node, queue/priority/tree_hide.go:171-188 (`removeLeft`), 116-133 (`removeIndex`).
`right` is the side of its parent the node is on. -/
def removeHere (right : Bool) : T K V → Option (T K V)
  | nil => none
  | node _ _ _ l r =>
    if l.isNil then some r
    else if r.isNil then some l
    else if right then (neighboring false r).bind fun p => rebalance (mk p.2.1 p.2.2 l p.1)
    else (neighboring true l).bind fun p => rebalance (mk p.2.1 p.2.2 p.1 r)

/-- The way back of `removeLeft` after a removal below, queue/priority/tree_hide.go:163-166, 194-197. -/
def shrunk : T K V → Option (T K V)
  | nil => none
  | node a k v l r => rebalance (node (a - 1) k v l r)

/-- queue/priority/tree_hide.go:150-201 `removeLeft`. -/
def remove (cmp : K → K → Int) (key : K) : T K V → Bool → Option (T K V × Option V)
  | nil, _ => some (nil, none)
  | node a k v l r, right =>
    let c := cmp k key
    if c < 0 then
      (remove cmp key l false).bind fun p =>
        if p.2.isSome then (shrunk (node a k v p.1 r)).map fun t => (t, p.2)
        else (removeHere right (node a k v p.1 r)).map fun t => (t, some v)
    else if c = 0 then
      (remove cmp key l false).bind fun p =>
        if p.2.isSome then (shrunk (node a k v p.1 r)).map fun t => (t, p.2)
        else some (node a k v p.1 r, none)
    else if c = 1 then
      (remove cmp key r true).bind fun p =>
        if p.2.isSome then (shrunk (node a k v l p.1)).map fun t => (t, p.2)
        else some (node a k v l p.1, none)
    else none

/-- queue/priority/tree_hide.go:108-148 `removeIndex`, on a node that is there, of rank `idx`. The size
of the node is counted down before the call for a child (`parent.Size--`); a missing child is a nil
dereference just before. The value `none` in the result: it panicked, and the tree is left like this. -/
def removeIndex (i : Int) : T K V → Bool → Int → Option (T K V × Option V)
  | nil, _, _ => none
  | node a k v l r, right, idx =>
    if idx = i then (removeHere right (node a k v l r)).map fun t => (t, some v)
    else if idx > i then
      if l.isNil then some (node a k v l r, none)
      else (removeIndex i l false (idx - (rightSz l + 1))).map fun p => (node (a - 1) k v p.1 r, p.2)
    else
      if r.isNil then some (node a k v l r, none)
      else (removeIndex i r true (idx + (leftSz r + 1))).map fun p => (node (a - 1) k v l p.1, p.2)

inductive Op (K V : Type) where
  | put (k : K) (v : V) | insertIfAbsent (k : K) (v : V) | upsert (k : K) (v : V) | get (k : K)
  | index (i : Int) | remove (k : K) | delete (k : K) | removeIndex (i : Int) | popHead | popTail
  | clear | size | len | traverse (every : K → V → Bool) | values

inductive Res (K V : Type) where
  | unit | bool (b : Bool) | val (v : Option V) | int (i : Int) | list (vs : List V)
  | entries (es : List (K × V)) | panic
deriving DecidableEq

section
variable (cmp : K → K → Int)

/-- queue/priority/tree.go:32-40 `Put`. -/
def doPut (t : T K V) (k : K) (v : V) : Option (T K V) := (put cmp k v t true).map (·.1)

/-- queue/priority/tree.go:43-49 `InsertIfAbsent`. -/
def doInsert (t : T K V) (k : K) (v : V) : Option (T K V × Bool) :=
  (getfirst cmp k t none).bind fun e =>
    if e.isSome then some (t, false) else (doPut cmp t k v).map fun t' => (t', true)

/-- queue/priority/tree.go:52-59 `Upsert`; the node found by `getfirst` gets the value. -/
def doUpsert (t : T K V) (k : K) (v : V) : Option (T K V × Bool) :=
  (getfirst cmp k t none).bind fun e =>
    if e.isSome then (Avls.setVal cmp k v t).map fun p => (p.1, true)
    else (doPut cmp t k v).map fun t' => (t', false)

/-- queue/priority/tree.go:80-92 `Index`, tree_hide.go:88-106 `index`. -/
def doIndex (t : T K V) (i : Int) : Res K V :=
  match nodeAt (if i < 0 then sz t + i else i) t (leftSz t) with
  | none => .panic
  | some e => .val (some e.2)

/-- queue/priority/tree.go:109-123 `RemoveIndex`: a panic on an empty tree; `idx < 0` is a test of the
wrong variable. -/
def doRemoveIndex (t : T K V) (i : Int) : Option (T K V × Res K V) :=
  if t.isNil then some (t, .panic)
  else
    let idx := leftSz t
    (if idx < 0 then removeIndex (sz t + i) t true idx else removeIndex i t true idx).map fun p =>
      (p.1, match p.2 with | some v => .val (some v) | none => .panic)

/-- One call: queue/priority/tree.go also 61-68 `Get`, 94-106 `Remove`, `Delete`, 125-146 `PopHead`,
148-164 `PopTail`, 166-168 `Clear`, 170-177 `Size`, `Len`, 179-198 `Traverse`, 200-210 `Values` (`make`
panics for a negative capacity). -/
def step (t : T K V) : Op K V → Option (T K V × Res K V)
  | .put k v => (doPut cmp t k v).map fun t' => (t', .bool true)
  | .insertIfAbsent k v => (doInsert cmp t k v).map fun p => (p.1, .bool p.2)
  | .upsert k v => (doUpsert cmp t k v).map fun p => (p.1, .bool p.2)
  | .get k => (getfirst cmp k t none).map fun e => (t, .val (e.map (·.2)))
  | .index i => some (t, doIndex t i)
  | .remove k => (remove cmp k t true).map fun p => (p.1, .val p.2)
  | .delete k => (remove cmp k t true).map fun p => (p.1, .val p.2)
  | .removeIndex i => doRemoveIndex t i
  | .popHead => if sz t = 0 then some (t, .val none)
      else (takeMin t).map fun p => (p.1, .val (some p.2.2))
  | .popTail => if sz t = 0 then some (t, .val none)
      else (takeMax t).map fun p => (p.1, .val (some p.2.2))
  | .clear => some (nil, .unit)
  | .size => some (t, .int (sz t))
  | .len => some (t, .int (sz t))
  | .traverse every => some (t, .entries (t.traverse every).1)
  | .values => if t.isNil then some (t, .list [])
      else if sz t < 0 then none
      else some (t, .list ((t.traverse fun _ _ => true).1.map (·.2)))

end

/-- queue/priority/iterator_hide.go:5-13 `newIterator`. The other functions of the iterator are those
of tree/avl (`Avl.istep cmp false`): iterator_hide.go:15-136, iterator.go:39-107. The cursor `idx` into
the stack is a Go `int8`; the model has no such limit, the stack never has more than 94 places. -/
def iterator (t : T K V) : Option (Avl.Iter Int K V) :=
  (maybeHeight (sz t)).map fun h => ⟨h + h / 2, nil, []⟩

/-! ### Specification -/

section
variable (o : K → K → Ordering)

/-- The rank meant by an index: negative ones count from the end. -/
def rank (xs : List (K × V)) (i : Int) : Option Nat :=
  let j := if i < 0 then xs.length + i else i
  if 0 ≤ j ∧ j < xs.length then some j.toNat else none

/-- The ideal stable priority queue: a list of entries sorted by key, equal keys in the order of their
insertion. -/
def spec (xs : List (K × V)) : Op K V → List (K × V) × Res K V
  | .put k v => (Avls.insertAfter o (k, v) xs, .bool true)
  | .insertIfAbsent k v =>
    if xs.any fun e => o e.1 k == .eq then (xs, .bool false)
    else (Avls.insertAfter o (k, v) xs, .bool true)
  | .upsert k v =>
    if xs.any fun e => o e.1 k == .eq then (Avls.setFirst o k v xs, .bool true)
    else (Avls.insertAfter o (k, v) xs, .bool false)
  | .get k => (xs, .val ((xs.find? fun e => o e.1 k == .eq).map (·.2)))
  | .index i => (xs, match rank xs i with
      | some j => .val (xs[j]?.map (·.2))
      | none => .panic)
  | .remove k => (xs.eraseP fun e => o e.1 k == .eq,
      .val ((xs.find? fun e => o e.1 k == .eq).map (·.2)))
  | .delete k => (xs.eraseP fun e => o e.1 k == .eq,
      .val ((xs.find? fun e => o e.1 k == .eq).map (·.2)))
  | .removeIndex i => match rank xs i with
      | some j => (xs.eraseIdx j, .val (xs[j]?.map (·.2)))
      | none => (xs, .panic)
  | .popHead => (xs.tail, .val (xs.head?.map (·.2)))
  | .popTail => (xs.dropLast, .val (xs.getLast?.map (·.2)))
  | .clear => ([], .unit)
  | .size => (xs, .int xs.length)
  | .len => (xs, .int xs.length)
  | .traverse every => (xs, .entries (seen (fun e => every e.1 e.2) xs))
  | .values => (xs, .list (xs.map (·.2)))

end

/-- `RemoveIndex` with a rank of the tree; all other calls in every state. -/
def legal (xs : List (K × V)) : Op K V → Prop
  | .removeIndex i => 0 ≤ i ∧ i < xs.length
  | _ => True

end Verif.Priority
