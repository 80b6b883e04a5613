import Verif.Tree.IndexModel
import Verif.Tree.AvlModel

/-! Model of tree/indextree/experiment: the size balanced tree `ShiftToleranceTree` and the height
balanced tree `Tree`.

Simplifications:
* As in `Verif.Tree.SizeModel`: subtrees are values, walks towards the root are the way back of a
  recursion, the sentinel `Center` is not modelled, `Balance` is not stored (every read of it follows
  `updateBalance`), sizes are integers without overflow. A negative `shift` (Go panics) is not modelled.
* Heights are Go `int8`: `Avl.w8` wraps.
* The counters `singleRotations`, `doubleRotations` and the float `AvgDepth` are not modelled; the sum
  and the number of depths `AvgDepth` is the quotient of are.
* In `Tree`, the fields `Node.Size` and `Node.Parent`, which no other method reads, are not modelled.
* `none` is a run-time panic. -/

namespace Verif.Exper

open Tree

variable {K V : Type}

/-! ### ShiftToleranceTree -/

/-- A node records `Height` and `Size`: shift_tolerance_tree.go:20-28. -/
abbrev N (K V : Type) := Tree (Int × Int) K V

/-- shift_tolerance_tree.go:195-200 `getHeightTolerance`. -/
def hgt : N K V → Int
  | nil => 0
  | node a _ _ _ _ => a.1

/-- shift_tolerance_tree.go:188-193 `getSizeTolerance`. -/
def sz : N K V → Int
  | nil => 0
  | node a _ _ _ _ => a.2

/-- shift_tolerance_tree.go:202-210 `updateHeight`: the height recorded above the children `l`, `r`. -/
def newH (l r : N K V) : Int := if hgt l > hgt r then Avl.w8 (hgt l + 1) else Avl.w8 (hgt r + 1)

/-- A node whose size and height are recomputed (lines 132-134, 269-274, 302-307). -/
def mk (k : K) (v : V) (l r : N K V) : N K V := node (newH l r, sz l + sz r + 1) k v l r

/-- shift_tolerance_tree.go:246-277 `lrotate`. -/
def lrotate : N K V → Option (N K V)
  | node _ k v l (node _ km vm b c) => some (mk km vm (mk k v l b) c)
  | _ => none

/-- shift_tolerance_tree.go:279-310 `rrotate`. -/
def rrotate : N K V → Option (N K V)
  | node _ k v (node _ km vm a b) r => some (mk km vm a (mk k v b r))
  | _ => none

/-- shift_tolerance_tree.go:216-218 `getChildrenSizeTolerance`. -/
def kidSizes : N K V → Option (Int × Int)
  | nil => none
  | node _ _ _ l r => some (sz l, sz r)

/-- shift_tolerance_tree.go:233-244 `sizeRRotate`. -/
def sizeRRotate : N K V → Option (N K V)
  | nil => none
  | node a k v l r =>
    (kidSizes r).bind fun s =>
      if s.1 > s.2 then (rrotate r).bind fun r' => lrotate (node a k v l r')
      else lrotate (node a k v l r)

/-- shift_tolerance_tree.go:220-231 `sizeLRotate`. -/
def sizeLRotate : N K V → Option (N K V)
  | nil => none
  | node a k v l r =>
    (kidSizes l).bind fun s =>
      if s.1 < s.2 then (lrotate l).bind fun l' => rrotate (node a k v l' r)
      else rrotate (node a k v l r)

/-- shift_tolerance_tree.go:180-186 `getHeightLimit`: `rootsize` and `bottomsize`. -/
def heightLimit (shift height : Nat) : Int × Int :=
  (IndexTree.shl64 height, (IndexTree.shl64 height) >>> shift + 1)

/-- One round of `fixPut` (shift_tolerance_tree.go:139-178) and `fixPutSize` (130-137): the argument is
the node with its new child, `up` is where the walk stands when it arrives there. -/
def fixNode (shift : Nat) (up : Size.Up) (a : Int × Int) (k : K) (v : V) (l r : N K V) :
    Option (N K V × Size.Up) :=
  let cur := node (newH l r, a.2 + 1) k v l r
  match up with
  | .leaf => if a.2 + 1 = 3 then some (cur, .size) else some (cur, .fix 2)
  | .size => some (mk k v l r, .size)
  | .fix height =>
    let limitSize := heightLimit shift height
    if a.2 + 1 < limitSize.1 then
      let balance := sz l - sz r
      if balance < 0 then
        if -balance ≥ limitSize.2 then (sizeRRotate cur).map fun t => (t, .size)
        else some (cur, .fix (height + 1))
      else
        if balance ≥ limitSize.2 then (sizeLRotate cur).map fun t => (t, .size)
        else some (cur, .fix (height + 1))
    else some (cur, .fix (height + 1))

section
variable (cmp : K → K → Int) (shift : Nat)

/-- shift_tolerance_tree.go:65-109 `Put` without the counter. The second component of the result is
`none` if the key was found. -/
def put (key : K) (val : V) : N K V → Option (N K V × Option Size.Up)
  | nil => some (node (1, 1) key val nil nil, some .leaf)
  | node a k v l r =>
    if cmp k key < 0 then
      (put key val r).bind fun p =>
        match p.2 with
        | none => some (node a k v l p.1, none)
        | some up => (fixNode shift up a k v l p.1).map fun q => (q.1, some q.2)
    else if cmp k key > 0 then
      (put key val l).bind fun p =>
        match p.2 with
        | none => some (node a k v p.1 r, none)
        | some up => (fixNode shift up a k v p.1 r).map fun q => (q.1, some q.2)
    else some (node a k v l r, none)

/-- shift_tolerance_tree.go:119-128 `get`: the entry found; `none` if `cmp` is no index of `Children`. -/
def get (key : K) : N K V → Option (Option (K × V))
  | nil => some none
  | node _ k v l r =>
    if cmp k key < 0 then some (some (k, v))
    else if cmp k key = 0 then get key l
    else if cmp k key = 1 then get key r
    else none

end

/-- The tree: `Center.Children[1]` and `size`. -/
structure Shift (K V : Type) where
  root : N K V
  size : Nat

/-- shift_tolerance_tree.go:35-44 `NewShiftTolerance`, 46-48 `NewIndexTreeDefault` (`shift = 2`). -/
def Shift.new : Shift K V := ⟨nil, 0⟩

/-! ### BenchmarkStats -/

/-- The loop of `shapeStats` (shift_tolerance_tree.go:345-362, bench_stats.go:30-47): `queue` holds the
nodes to visit with their depths; the depths in the order of the visits. `fuel` bounds the rounds,
`count root` of them are made. A nil child is not queued. -/
def visit {A : Type} : Nat → List (Tree A K V × Nat) → List Nat
  | 0, _ => []
  | _, [] => []
  | fuel + 1, (nil, _) :: queue => visit fuel queue
  | fuel + 1, (node _ _ _ l r, depth) :: queue =>
    depth :: visit fuel (queue ++ (if l.isNil then [] else [(l, depth + 1)]) ++
      (if r.isNil then [] else [(r, depth + 1)]))

/-- Insertion of a number in a sorted list. -/
def insertNat (x : Nat) : List Nat → List Nat
  | [] => [x]
  | y :: l => if x ≤ y then x :: y :: l else y :: insertNat x l

/-- `sort.Ints`: the result of sorting, not the algorithm. -/
def sortNat : List Nat → List Nat
  | [] => []
  | x :: l => insertNat x (sortNat l)

structure Stats where
  height : Nat
  /-- `totalDepth` and `count`, whose quotient is `AvgDepth`. -/
  total : Nat
  count : Nat
  p50 : Nat
  p95 : Nat
deriving DecidableEq

/-- shift_tolerance_tree.go:329-369 `shapeStats` with 317-327 `BenchmarkStats`; bench_stats.go:14-54 with
tree.go:163-173. For an empty tree all answers are 0 (`count` does not matter then). `none`: an index
out of range. -/
def stats {A : Type} (t : Tree A K V) : Option Stats :=
  if t.isNil then some ⟨0, 0, 0, 0, 0⟩
  else
    let depths := visit t.count [(t, 1)]
    let sorted := sortNat depths
    (sorted[(sorted.length - 1) / 2]?).bind fun p50 =>
      (sorted[(sorted.length - 1) * 95 / 100]?).map fun p95 =>
        ⟨depths.foldl (fun h d => if d > h then d else h) 0, depths.foldl (· + ·) 0, depths.length, p50, p95⟩

/-! ### Calls on ShiftToleranceTree -/

inductive Op (K V : Type) where
  | put (k : K) (v : V) | get (k : K) | size | height | stats

inductive Res (V : Type) where
  | bool (b : Bool) | val (o : Option V) | nat (n : Nat) | int (n : Int) | stats (s : Stats)

/-- One call: `Put` (shift_tolerance_tree.go:65-109), `Get` (111-117), `Size` (50-52), `Height` (54-59),
`BenchmarkStats` (317-327). -/
def step (shift : Nat) (cmp : K → K → Int) (s : Shift K V) : Op K V → Option (Shift K V × Res V)
  | .put k v => (put cmp shift k v s.root).map fun p =>
      (⟨p.1, if p.2.isSome then s.size + 1 else s.size⟩, .bool p.2.isSome)
  | .get k => (get cmp k s.root).map fun e => (s, .val (e.map (·.2)))
  | .size => some (s, .nat s.size)
  | .height => if s.size = 0 then some (s, .int 0) else match s.root with
      | nil => none
      | node a _ _ _ _ => some (s, .int a.1)
  | .stats => (stats s.root).map fun x => (s, .stats x)

/-! ### Tree -/

namespace AvlLike

open Avl (T Map rebalance)

section
variable (cmp : K → K → Int) (d : Int)

/-- tree_hide.go:16-55 `put`: as `Avl.put`, but the comparator is read the other way. `rebalance`
(tree_hide.go:126-165) and the rotations (node.go:121-237) are those of tree/avl. -/
def put (key : K) (val : V) (upd : K × V → K × V) : T K V → Bool → Option (T K V × Bool × Bool)
  | nil, sib => some (node 1 key val nil nil, false, sib)
  | node h k v l r, _ =>
    let c := cmp k key
    if c < 0 then
      (put key val upd l r.isNil).bind fun p =>
        if p.2.1 || !p.2.2 then some (node h k v p.1 r, p.2.1, p.2.2)
        else (rebalance false d (node h k v p.1 r)).map fun q => (q.1, p.2.1, q.2)
    else if c > 0 then
      (put key val upd r l.isNil).bind fun p =>
        if p.2.1 || !p.2.2 then some (node h k v l p.1, p.2.1, p.2.2)
        else (rebalance false d (node h k v l p.1)).map fun q => (q.1, p.2.1, q.2)
    else some (node h (upd (k, v)).1 (upd (k, v)).2 l r, true, false)

/-- tree.go:43-51 `Set`. -/
def set (m : Map K V) (k : K) (v : V) : Option (Map K V × Bool) :=
  (put cmp d k v (fun _ => (k, v)) m.root false).map fun p =>
    (⟨p.1, if p.2.1 then m.size else m.size + 1⟩, !p.2.1)

/-- tree.go:63-70 `Put`. -/
def putNew (m : Map K V) (k : K) (v : V) : Option (Map K V × Bool) :=
  (put cmp d k v id m.root false).map fun p =>
    (⟨p.1, if p.2.1 then m.size else m.size + 1⟩, !p.2.1)

/-- tree.go:54-61 `Upsert`; `get` (tree_hide.go:57-66) is that of tree/avl. -/
def upsert (m : Map K V) (k : K) (v : V) : Option (Map K V × Bool) :=
  (Avl.get cmp k m.root).bind fun e =>
    if e.isSome then (Avl.setVal cmp k v m.root).map fun t => (⟨t, m.size⟩, true)
    else (set cmp d m k v).map fun p => (p.1, false)

/-- One call on the tree: tree.go 43-51 `Set`, 54-61 `Upsert`, 63-75 `Put`, `InsertIfAbsent`; the others
are those of tree/avl: 77-84 `Get`, 86-98 `Remove`, `Delete` (with tree_hide.go:68-124), 100-112 `Clear`,
`Size`, `Len`, 114-152 `Traverse`, `Values`, `Height`. -/
def step (m : Map K V) : Avl.Op K V → Option (Map K V × Avl.Res K V)
  | .put k v => (putNew cmp d m k v).map fun p => (p.1, .bool p.2)
  | .insertIfAbsent k v => (putNew cmp d m k v).map fun p => (p.1, .bool p.2)
  | .set k v => (set cmp d m k v).map fun p => (p.1, .bool p.2)
  | .upsert k v => (upsert cmp d m k v).map fun p => (p.1, .bool p.2)
  | op => Avl.step cmp false d m op

end

end AvlLike

end Verif.Exper
