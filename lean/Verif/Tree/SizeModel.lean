import Verif.Tree.Base
import Verif.Common.History

/-! Model of the size balanced trees tree/indextree and tree/treelist: the parts whose code is the
same in both packages.

Simplifications:
* A subtree is a value instead of a pointer; parent pointers are not modelled, a walk towards the
  root is the way back of a recursion. The sentinel `tree.root` is not modelled.
* `Size` is an integer without overflow (Go: `int64`). `Balance` is recomputed by `updateBalance`
  right before it is read (tree/indextree/utils.go:44, 60, tree/treelist/utils.go:171, 186), so it is
  not stored.
* The counters `singleRotations`, `doubleRotations` are not modelled.
* `none` is a run-time panic. -/

namespace Verif.Size

open Tree

variable {K V : Type}

abbrev T (K V : Type) := Tree Int K V

/-- `getSize`: tree/indextree/utils.go:184-189. -/
def sz : T K V → Int
  | nil => 0
  | node a _ _ _ _ => a

/-- `Children[0]`, `Children[1]` of a pointer that may be nil. -/
def kids : T K V → Option (T K V × T K V)
  | nil => none
  | node _ _ _ l r => some (l, r)

/-- The size of `cur.Children[0]`, where it is read from a node that is there (0 for nil). -/
def leftSz : T K V → Int
  | nil => 0
  | node _ _ _ l _ => sz l

/-- The size of `cur.Children[1]`. -/
def rightSz : T K V → Int
  | nil => 0
  | node _ _ _ _ r => sz r

/-- A node whose size is recomputed: `cur.Size = getChildrenSumSize(cur) + 1`. -/
def mk (k : K) (v : V) (l r : T K V) : T K V := node (sz l + sz r + 1) k v l r

/-- tree/indextree/utils.go:108-140 `lrotate`; tree/treelist/utils.go:267-298. -/
def lrotate : T K V → Option (T K V)
  | node _ k v l (node _ km vm b c) => some (mk km vm (mk k v l b) c)
  | _ => none

/-- tree/indextree/utils.go:142-174 `rrotate`; tree/treelist/utils.go:300-331. -/
def rrotate : T K V → Option (T K V)
  | node _ k v (node _ km vm a b) r => some (mk km vm a (mk k v b r))
  | _ => none

/-- tree/indextree/utils.go:84-94 `sizeRRotate`; tree/treelist/utils.go:243-253. -/
def sizeRRotate : T K V → Option (T K V)
  | nil => none
  | node a k v l r =>
    (kids r).bind fun s =>
      if sz s.1 > sz s.2 then (rrotate r).bind fun r' => lrotate (node a k v l r')
      else lrotate (node a k v l r)

/-- tree/indextree/utils.go:96-106 `sizeLRotate`; tree/treelist/utils.go:255-265. -/
def sizeLRotate : T K V → Option (T K V)
  | nil => none
  | node a k v l r =>
    (kids l).bind fun s =>
      if sz s.1 < sz s.2 then (lrotate l).bind fun l' => rrotate (node a k v l' r)
      else rrotate (node a k v l r)

/-- Where the walk of `fixPut` stands when it arrives at a node: it comes from the new node, it
compares sizes with `height` as given, or it only counts (`fixPutSize`). -/
inductive Up where
  | leaf | fix (height : Nat) | size

/-- One round of `fixPut` and `fixPutSize`: tree/indextree/utils.go:7-13, 41-82;
tree/treelist/utils.go:130-135, 169-208. `lim` gives `rootsize` and `bottomsize` for a height. -/
def fixNode (lim : Nat → Option (Int × Int)) : Up → T K V → Option (T K V × Up)
  | _, nil => none
  | .leaf, node a k v l r =>
    if a + 1 = 3 then some (node (a + 1) k v l r, .size) else some (node (a + 1) k v l r, .fix 2)
  | .size, node a k v l r => some (node (a + 1) k v l r, .size)
  | .fix height, node a k v l r =>
    (lim height).bind fun s =>
      if a + 1 < s.1 then
        let balance := sz l - sz r
        if balance < 0 then
          if -balance ≥ s.2 then (sizeRRotate (node (a + 1) k v l r)).map fun t => (t, .size)
          else some (node (a + 1) k v l r, .fix (height + 1))
        else if balance ≥ s.2 then (sizeLRotate (node (a + 1) k v l r)).map fun t => (t, .size)
        else some (node (a + 1) k v l r, .fix (height + 1))
      else some (node (a + 1) k v l r, .fix (height + 1))

section
variable (lim : Nat → Option (Int × Int)) (cmp : K → K → Int)

/-- tree/indextree/tree.go:62-102 `Put`, 110-152 `Set`; tree/treelist/utils.go:64-103 `putWith` with
39-62 `attachNode` (without the links of the list). `upd` is what happens to an entry that is found.
The second component of the result is `none` if the key was found. -/
def put (key : K) (val : V) (upd : K × V → K × V) : T K V → Option (T K V × Option Up)
  | nil => some (node 1 key val nil nil, some .leaf)
  | node a k v l r =>
    let c := cmp key k
    if c < 0 then
      (put key val upd l).bind fun p =>
        match p.2 with
        | none => some (node a k v p.1 r, none)
        | some up => (fixNode lim up (node a k v p.1 r)).map fun q => (q.1, some q.2)
    else if c > 0 then
      (put key val upd r).bind fun p =>
        match p.2 with
        | none => some (node a k v l p.1, none)
        | some up => (fixNode lim up (node a k v l p.1)).map fun q => (q.1, some q.2)
    else some (node a (upd (k, v)).1 (upd (k, v)).2 l r, none)

/-- tree/indextree/utils.go:316-333 `getNode`; tree/treelist/utils.go:509-526. -/
def get (key : K) : T K V → Option (K × V)
  | nil => none
  | node _ k v l r =>
    let c := cmp key k
    if c < 0 then get key l else if c > 0 then get key r else some (k, v)

/-- `cur.Value = value` on the node found by `getNode` (tree/indextree/tree.go:156-158). -/
def setVal (key : K) (val : V) : T K V → T K V
  | nil => nil
  | node a k v l r =>
    let c := cmp key k
    if c < 0 then node a k v (setVal key val l) r
    else if c > 0 then node a k v l (setVal key val r)
    else node a k val l r

end

/-- Take out the rightmost node: tree/indextree/tree.go:291-294, 300-313;
tree/treelist/utils.go:407-411, 416-433. Every node on the way counts down (`fixRemoveSize`). -/
def takeMax : T K V → Option (T K V × (K × V))
  | nil => none
  | node a k v l r =>
    match r with
    | nil => some (l, (k, v))
    | node .. => (takeMax r).map fun p => (node (a - 1) k v l p.1, p.2)

/-- Take out the leftmost node: tree/indextree/tree.go:319-322, 328-341;
tree/treelist/utils.go:445-448, 453-466. -/
def takeMin : T K V → Option (T K V × (K × V))
  | nil => none
  | node a k v l r =>
    match l with
    | nil => some (r, (k, v))
    | node .. => (takeMin l).map fun p => (node (a - 1) k v p.1 r, p.2)

/-- The removal of a node from the tree: tree/indextree/tree.go:281-345 (`Remove`), 370-434
(`RemoveIndex`); tree/treelist/utils.go:365-472 `removeNode` (without the links of the list). Key and
value of a neighbour are copied into the node; `mv` is the new value from the old one and that of the
neighbour. -/
def removeNode (mv : V → V → V) : T K V → Option (T K V)
  | nil => none
  | node a _ v l r =>
    if a = 1 then some nil
    else if sz l > sz r then (takeMax l).map fun p => node (a - 1) p.2.1 (mv v p.2.2) p.1 r
    else (takeMin r).map fun p => node (a - 1) p.2.1 (mv v p.2.2) l p.1

/-- tree/indextree/tree.go:277-349 `Remove`: the tree and the entry removed. -/
def remove (mv : V → V → V) (cmp : K → K → Int) (key : K) :
    T K V → Option (T K V × Option (K × V))
  | nil => some (nil, none)
  | node a k v l r =>
    let c := cmp key k
    if c < 0 then (remove mv cmp key l).map fun p =>
      (node (if p.2.isSome then a - 1 else a) k v p.1 r, p.2)
    else if c > 0 then (remove mv cmp key r).map fun p =>
      (node (if p.2.isSome then a - 1 else a) k v l p.1, p.2)
    else (removeNode mv (node a k v l r)).map fun t => (t, some (k, v))

/-! ### By rank -/

/-- The loop of `index`, tree/indextree/utils.go:301-312, tree/treelist/utils.go:482-507: the node is
reached with the rank `idx`; `none` is a nil dereference. -/
def nodeAt (i : Int) : T K V → Int → Option (K × V)
  | nil, _ => none
  | node _ k v l r, idx =>
    if idx > i then nodeAt i l (idx - (rightSz l + 1))
    else if idx < i then nodeAt i r (idx + (leftSz r + 1))
    else some (k, v)

/-- tree/indextree/tree.go:366-438 `RemoveIndex`: `none` if `index` panics (nothing is changed then),
`some none` if the removal does. -/
def removeAt (mv : V → V → V) (i : Int) : T K V → Int → Option (Option (T K V × (K × V)))
  | nil, _ => none
  | node a k v l r, idx =>
    if idx > i then (removeAt mv i l (idx - (rightSz l + 1))).map fun o =>
      o.map fun p => (node (a - 1) k v p.1 r, p.2)
    else if idx < i then (removeAt mv i r (idx + (leftSz r + 1))).map fun o =>
      o.map fun p => (node (a - 1) k v l p.1, p.2)
    else some ((removeNode mv (node a k v l r)).map fun t => (t, (k, v)))

/-- The loop of `IndexOf`, tree/indextree/tree.go:181-199; tree/treelist/tree.go:112-141. -/
def indexOf (cmp : K → K → Int) (key : K) : T K V → Int → Int
  | nil, _ => -1
  | node _ k _ l r, offset =>
    let c := cmp key k
    if c < 0 then indexOf cmp key l (offset - (rightSz l + 1))
    else if c > 0 then indexOf cmp key r (offset + (leftSz r + 1))
    else offset

/-! ### Removal of ranges -/

/-- What the walk to the root does after a range was cut out: nothing, subtract a size
(tree/indextree/tree.go:509-513), or recompute the sizes (tree/indextree/utils.go:250-254). -/
inductive Anc where
  | keep | sub (n : Int) | sum

/-- A node on that walk. -/
def Anc.fix : Anc → Int → K → V → T K V → T K V → T K V
  | .keep, a, k, v, l, r => node a k v l r
  | .sub n, a, k, v, l, r => node (a - n) k v l r
  | .sum, _, k, v, l, r => mk k v l r

/-- tree/indextree/utils.go:257-287 `fixRemoveRange`; tree/treelist/utils.go:210-241. -/
def fixRange : T K V → Option (T K V)
  | nil => none
  | node a k v l r =>
    if a ≤ 2 then some (node a k v l r)
    else if sz l > sz r ∧ sz l ≥ 2 * sz r then
      (kids l).bind fun s =>
        if sz s.1 < sz s.2 then (lrotate l).bind fun l' => rrotate (node a k v l' r)
        else rrotate (node a k v l r)
    else if sz l < sz r ∧ sz r ≥ 2 * sz l then
      (kids r).bind fun s =>
        if sz s.1 > sz s.2 then (rrotate r).bind fun r' => lrotate (node a k v l r')
        else lrotate (node a k v l r)
    else some (node a k v l r)

/-- `mergeGroups` below `rparent`, for `LR = 1` (tree/indextree/utils.go:225-248,
tree/treelist/utils.go:333-356): hang `child` below the rightmost node of the group. -/
def hangR (child : T K V) (childSize : Int) : T K V → Option (T K V)
  | nil => none
  | node a k v l r =>
    match r with
    | nil =>
      if child.isNil then some (node a k v l child) else fixRange (node (a + childSize) k v l child)
    | node .. => (hangR child childSize r).bind fun r' =>
      if child.isNil then some (node a k v l r') else fixRange (node (a + childSize) k v l r')

/-- The same for `LR = 0`. -/
def hangL (child : T K V) (childSize : Int) : T K V → Option (T K V)
  | nil => none
  | node a k v l r =>
    match l with
    | nil =>
      if child.isNil then some (node a k v child r) else fixRange (node (a + childSize) k v child r)
    | node .. => (hangL child childSize l).bind fun l' =>
      if child.isNil then some (node a k v l' r) else fixRange (node (a + childSize) k v l' r)

/-- tree/indextree/tree.go:506-525 (also 622-640): what replaces the root of the range, of size
`size`, when `lgroup` and `rgroup` are what remains below it; tree/treelist/tree.go alike. -/
def join (size : Int) (lgroup rgroup : T K V) : Option (T K V × Anc) :=
  if lgroup.isNil && rgroup.isNil then some (nil, .sub size)
  else if sz lgroup > sz rgroup then (hangR rgroup (sz rgroup) lgroup).map fun t => (t, .sum)
  else (hangL lgroup (sz lgroup) rgroup).map fun t => (t, .sum)

section
variable (cmp : K → K → Int) (low high : K)

/-- `ltrim` of `RemoveRange`, tree/indextree/tree.go:460-476: what is below `low`. -/
def cutL : T K V → T K V
  | nil => nil
  | node _ k v l r => if cmp low k > 0 then mk k v l (cutL r) else cutL l

/-- `rtrim` of `RemoveRange`, tree/indextree/tree.go:483-499: what is above `high`. -/
def cutR : T K V → T K V
  | nil => nil
  | node _ k v l r => if cmp high k < 0 then mk k v (cutR l) r else cutR r

/-- `getRangeRoot`, tree/indextree/utils.go:202-223, tree/treelist/utils.go:106-128, and the rest of
`RemoveRange` (tree/indextree/tree.go:454-526) at the node found. -/
def removeRange : T K V → Option (T K V × Anc)
  | nil => some (nil, .keep)
  | node a k v l r =>
    let c1 := cmp low k
    let c2 := cmp high k
    if c1 ≠ c2 then join a (cutL cmp low l) (cutR cmp high r)
    else if c1 < 0 then (removeRange l).map fun p => (p.2.fix a k v p.1 r, p.2)
    else if c1 > 0 then (removeRange r).map fun p => (p.2.fix a k v l p.1, p.2)
    else join a (cutL cmp low l) (cutR cmp high r)

/-- `getRangeRoot` itself. -/
def rangeRoot : T K V → T K V
  | nil => nil
  | node a k v l r =>
    let c1 := cmp low k
    let c2 := cmp high k
    if c1 ≠ c2 then node a k v l r
    else if c1 < 0 then rangeRoot l
    else if c1 > 0 then rangeRoot r
    else node a k v l r

end

section
variable (low high : Int)

/-- `ltrim` of `RemoveRangeByIndex`, tree/indextree/tree.go:560-584; `idx` is the rank of the node
(the code passes the rank of the parent and the direction). -/
def cutIdxL : T K V → Int → T K V
  | nil, _ => nil
  | node _ k v l r, idx =>
    if idx < low then mk k v l (cutIdxL r (idx + (leftSz r + 1)))
    else if idx > low then cutIdxL l (idx - (rightSz l + 1))
    else l

/-- `rtrim` of `RemoveRangeByIndex`, tree/indextree/tree.go:591-615. -/
def cutIdxR : T K V → Int → T K V
  | nil, _ => nil
  | node _ k v l r, idx =>
    if idx > high then mk k v (cutIdxR l (idx - (rightSz l + 1))) r
    else if idx < high then cutIdxR r (idx + (leftSz r + 1))
    else r

/-- tree/indextree/tree.go:545-641: `none` is the panic of the search, which changes nothing,
`some none` a panic later. -/
def removeRangeIdx : T K V → Int → Option (Option (T K V × Anc))
  | nil, _ => none
  | node a k v l r, idx =>
    if idx > low ∧ idx > high then (removeRangeIdx l (idx - (rightSz l + 1))).map fun o =>
      o.map fun p => (p.2.fix a k v p.1 r, p.2)
    else if idx < high ∧ idx < low then (removeRangeIdx r (idx + (leftSz r + 1))).map fun o =>
      o.map fun p => (p.2.fix a k v l p.1, p.2)
    else some (join a (cutIdxL low l (idx - (rightSz l + 1))) (cutIdxR high r (idx + (leftSz r + 1))))

end

/-! ### Trimming -/

section
variable (cmp : K → K → Int) (low high : K)

/-- `ltrim` of `Trim`, tree/indextree/tree.go:657-677: what is not below `low`. -/
def trimL : T K V → T K V
  | nil => nil
  | node _ k v l r =>
    let c := cmp low k
    if c > 0 then trimL r
    else if c < 0 then mk k v (trimL l) r
    else node (sz r + 1) k v nil r

/-- `rtrim` of `Trim`, tree/indextree/tree.go:682-702: what is not above `high`. -/
def trimR : T K V → T K V
  | nil => nil
  | node _ k v l r =>
    let c := cmp high k
    if c < 0 then trimR l
    else if c > 0 then mk k v l (trimR r)
    else node (sz l + 1) k v l nil

/-- `ltrim(root)` with the result dropped (679): the nodes are changed in place. -/
def trimLAt : T K V → T K V
  | nil => nil
  | node a k v l r =>
    if cmp low k > 0 then node a k v l (trimLAt r) else trimL cmp low (node a k v l r)

/-- `rtrim(root)` with the result dropped (704). -/
def trimRAt : T K V → T K V
  | nil => nil
  | node a k v l r =>
    if cmp high k < 0 then node a k v (trimRAt l) r else trimR cmp high (node a k v l r)

/-- tree/indextree/tree.go:654-712: the new root of `Trim`. -/
def trim (t : T K V) : T K V := trimRAt cmp high (trimLAt cmp low (rangeRoot cmp low high t))

end

section
variable (low high : Int)

/-- `ltrim` of `TrimByIndex`, tree/indextree/tree.go:747-768; `none` is a nil dereference, which
comes before the first change. -/
def trimIdxL : T K V → Int → Option (T K V)
  | nil, _ => some nil
  | node _ k v l r, idx =>
    if idx < low then
      if r.isNil then none else trimIdxL r (idx + leftSz r + 1)
    else if idx > low then
      if l.isNil then none else (trimIdxL l (idx - rightSz l - 1)).map fun l' => mk k v l' r
    else some (node (sz r + 1) k v nil r)

/-- `rtrim` of `TrimByIndex`, tree/indextree/tree.go:772-793. -/
def trimIdxR : T K V → Int → Option (T K V)
  | nil, _ => some nil
  | node _ k v l r, idx =>
    if idx > high then
      if l.isNil then none else trimIdxR l (idx - rightSz l - 1)
    else if idx < high then
      if r.isNil then none else (trimIdxR r (idx + leftSz r + 1)).map fun r' => mk k v l r'
    else some (node (sz l + 1) k v l nil)

/-- How `TrimByIndex` ends: with the new root, or with a panic that leaves the tree as it was, or as
given. -/
inductive Trimmed (K V : Type) where
  | ok (t : T K V) | untouched | broken (t : T K V)

/-- A panic inside a subtree leaves the nodes above as they are. -/
def Trimmed.under (f : T K V → T K V) : Trimmed K V → Trimmed K V
  | .broken t => .broken (f t)
  | x => x

/-- tree/indextree/tree.go:732-815 `TrimByIndex`; at the root of the range the results of `ltrim` and
`rtrim` are the root itself. -/
def trimIdx : T K V → Int → Trimmed K V
  | nil, _ => .untouched
  | node a k v l r, idx =>
    if idx > low ∧ idx > high then
      (trimIdx l (idx - (rightSz l + 1))).under fun l' => node a k v l' r
    else if idx < high ∧ idx < low then
      (trimIdx r (idx + (leftSz r + 1))).under fun r' => node a k v l r'
    else
      match trimIdxL low (node a k v l r) idx with
      | none => .untouched
      | some t =>
        match trimIdxR high t idx with
        | none => .broken t
        | some t' => .ok t'

end

end Verif.Size
