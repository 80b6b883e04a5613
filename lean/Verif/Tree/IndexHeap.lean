import Verif.Tree.IndexModel

/-! Model of tree/indextree on the level of pointers: the nodes live in a memory, children and parents
are addresses, and every assignment to a field of a node is an update of the memory. Walks towards the
root follow `Parent`. The model of `Verif.Tree.IndexModel` has subtrees instead of pointers and no
parents; that both agree is proved in `Verif.Tree.IndexHeapRun`.

Simplifications:
* An address is a natural number. `free` is the least address not used so far; nothing is freed.
* The memory is a total function. Only addresses below `free` are ever used.
* A nil pointer is `none`; to use one is a panic (`none`).
* Recursion and loops have a number of rounds, `none` when they do not suffice. The calls of a tree use
  `free`; the theorems say that this is enough.
* `Size`, `Balance` are integers without overflow (Go: `int64`).
* The counters `singleRotations`, `doubleRotations` are left out, they are in `Verif.Tree.ExperModel`.
* Code that is written twice with left and right exchanged is modelled once, with a parameter `c` for
  the side; `false` is index 0 (left). -/

namespace Verif.IndexHeap
open Verif.IndexTree (limit goesLeft Op Res)
variable {K V W : Type}

/-- tree.go:12-19 `hNode`. `lo`, `hi` are `Children[0]`, `Children[1]`. -/
structure Cell (K V : Type) where
  key : K
  val : V
  size : Int
  balance : Int
  parent : Option Nat
  lo : Option Nat
  hi : Option Nat

/-- `Children[c]`. -/
def Cell.kid (x : Cell K V) (c : Bool) : Option Nat := if c then x.hi else x.lo

/-- `Children[c] = p`. -/
def Cell.setKid (x : Cell K V) (c : Bool) (p : Option Nat) : Cell K V :=
  if c then { x with hi := p } else { x with lo := p }

abbrev Mem (K V : Type) := Nat → Cell K V

/-- An assignment to a field of the node `a`. -/
def upd (m : Mem K V) (a : Nat) (f : Cell K V → Cell K V) : Mem K V :=
  fun b => if b = a then f (m b) else m b

/-- `a.Children[c] = p`. -/
def link (m : Mem K V) (a : Nat) (c : Bool) (p : Option Nat) : Mem K V := upd m a (·.setKid c p)

/-- `a.Parent = p`. -/
def setParent (m : Mem K V) (a p : Nat) : Mem K V := upd m a fun x => { x with parent := some p }

/-- `if a != nil { a.Parent = p }`. -/
def setParent? (m : Mem K V) (a : Option Nat) (p : Nat) : Mem K V :=
  match a with
  | none => m
  | some a => setParent m a p

/-- utils.go:184-189 `getSize`. -/
def getSize (m : Mem K V) : Option Nat → Int
  | none => 0
  | some a => (m a).size

/-- `a.Size = n`. -/
def setSize (m : Mem K V) (a : Nat) (n : Int) : Mem K V := upd m a fun x => { x with size := n }

/-- `a.Size = getChildrenSumSize(a) + 1`, utils.go:176-178. -/
def sumSize (m : Mem K V) (a : Nat) : Mem K V :=
  setSize m a (getSize m (m a).lo + getSize m (m a).hi + 1)

/-- utils.go:191-193 `updateBalance`. -/
def updateBalance (m : Mem K V) (a : Nat) : Mem K V :=
  upd m a fun x => { x with balance := getSize m x.lo - getSize m x.hi }

/-- utils.go:195-200 `getRelationship`. -/
def getRelationship (m : Mem K V) (cur : Nat) : Option Bool :=
  (m cur).parent.map fun p => decide ((m p).hi = some cur)

/-- Follow `Children[c]` to the end: tree.go:292-294, 320-322, utils.go:228-230. -/
def far (m : Mem K V) (c : Bool) : Nat → Nat → Option Nat
  | 0, _ => none
  | n + 1, a => match (m a).kid c with
    | none => some a
    | some b => far m c n b

/-! ### Rotations -/

/-- utils.go:108-140 `lrotate` (`c = true`), 142-174 `rrotate` (`c = false`); `c` is the constant `L`
of the two functions. -/
def rotate (m : Mem K V) (c : Bool) (cur : Nat) : Option (Mem K V) :=
  ((m cur).kid c).bind fun mov =>
  (m cur).parent.map fun p =>
    let movright := (m mov).kid (!c)
    let m := if (m p).kid c = some cur then link m p c (some mov) else link m p (!c) (some mov)
    let m := setParent m mov p
    let m := setParent? (link m cur c movright) movright cur
    let m := link m mov (!c) (some cur)
    let m := setParent m cur mov
    let m := sumSize m cur
    let m := sumSize m mov
    let m := updateBalance m cur
    updateBalance m mov

/-- utils.go:84-94 `sizeRRotate` (`c = true`), 96-106 `sizeLRotate` (`c = false`): the child `c` of
`cur` is the bigger one. -/
def sizeRotate (m : Mem K V) (c : Bool) (cur : Nat) : Option (Mem K V) :=
  ((m cur).kid c).bind fun b =>
    if getSize m ((m b).kid (!c)) > getSize m ((m b).kid c) then
      (rotate m (!c) b).bind fun m => rotate m c cur
    else rotate m c cur

/-! ### Insertion -/

section
variable (root : Nat) (bal : Bool)

/-- utils.go:7-13 `fixPutSize`; tree/treelist/utils.go:130-135 does not compute the balance
(`bal = false`). -/
def fixPutSize : Nat → Mem K V → Nat → Option (Mem K V)
  | 0, _, _ => none
  | n + 1, m, cur =>
    if cur = root then some m
    else
      let m := setSize m cur ((m cur).size + 1)
      let m := if bal then updateBalance m cur else m
      (m cur).parent.bind (fixPutSize n m)

/-- utils.go:15-20 `fixRemoveSize`. -/
def fixRemoveSize : Nat → Mem K V → Nat → Option (Mem K V)
  | 0, _, _ => none
  | n + 1, m, cur =>
    if cur = root then some m
    else
      let m := setSize m cur ((m cur).size - 1)
      (m cur).parent.bind (fixRemoveSize n m)

/-- The loop of `fixPut`, utils.go:55-81. -/
def fixPutLoop (lim : Nat → Option (Int × Int)) : Nat → Mem K V → Nat → Nat → Option (Mem K V)
  | 0, _, _, _ => none
  | n + 1, m, height, cur =>
    if cur = root then some m
    else
      let m := setSize m cur ((m cur).size + 1)
      let m := updateBalance m cur
      (m cur).parent.bind fun parent =>
      (lim height).bind fun limitSize =>
        if (m cur).size < limitSize.1 then
          let balance := (m cur).balance
          if balance < 0 then
            if -balance ≥ limitSize.2 then
              (sizeRotate m true cur).bind fun m => fixPutSize root bal n m parent
            else fixPutLoop lim n m (height + 1) parent
          else if balance ≥ limitSize.2 then
            (sizeRotate m false cur).bind fun m => fixPutSize root bal n m parent
          else fixPutLoop lim n m (height + 1) parent
        else fixPutLoop lim n m (height + 1) parent

/-- utils.go:41-82 `fixPut`. -/
def fixPut (lim : Nat → Option (Int × Int)) (n : Nat) (m : Mem K V) (cur : Nat) : Option (Mem K V) :=
  let m := setSize m cur ((m cur).size + 1)
  let m := updateBalance m cur
  if (m cur).size = 3 then (m cur).parent.bind (fixPutSize root bal n m)
  else (m cur).parent.bind fun p => fixPutLoop root bal lim n m 2 p

/-- `&hNode[T]{Parent: p, Key: key, Value: value, Size: 1}`. -/
def alloc (m : Mem K V) (a p : Nat) (key : K) (val : V) : Mem K V :=
  upd m a fun _ => ⟨key, val, 1, 0, some p, none, none⟩

/-- The loop of `Put`, tree.go:73-100, and of `Set`, tree.go:121-150: `write` is what is done to the
key and the value of a node found. The second component says whether a node was found. -/
def putLoop (lim : Nat → Option (Int × Int)) (cmp : K → K → Int) (write : K × V → K × V) (fresh : Nat)
    (key : K) (val : V) (rounds : Nat) : Nat → Mem K V → Nat → Option (Mem K V × Bool)
  | 0, _, _ => none
  | n + 1, m, cur =>
    let c := cmp key (m cur).key
    if c < 0 then
      match (m cur).lo with
      | some b => putLoop lim cmp write fresh key val rounds n m b
      | none =>
        (fixPut root bal lim rounds (link (alloc m fresh cur key val) cur false (some fresh)) cur).map
          fun m => (m, false)
    else if c > 0 then
      match (m cur).hi with
      | some b => putLoop lim cmp write fresh key val rounds n m b
      | none =>
        (fixPut root bal lim rounds (link (alloc m fresh cur key val) cur true (some fresh)) cur).map
          fun m => (m, false)
    else
      some (upd m cur fun x =>
        { x with key := (write (x.key, x.val)).1, val := (write (x.key, x.val)).2 }, true)

end

/-- utils.go:316-333 `getNode`. -/
def getNode (cmp : K → K → Int) (m : Mem K V) (key : K) : Nat → Option Nat → Option (Option Nat)
  | 0, _ => none
  | _ + 1, none => some none
  | n + 1, some cur =>
    let c := cmp key (m cur).key
    if c < 0 then getNode cmp m key n (m cur).lo
    else if c > 0 then getNode cmp m key n (m cur).hi
    else some (some cur)

/-! ### Removal -/

section
variable (root : Nat) (keep : V → V → V)

/-- Key and value of the neighbour on the side `c` replace those of `cur`, and the neighbour is taken
out: tree.go:291-316 (`c = false`), 319-344 (`c = true`); also 380-405, 408-433. In the code
`keep _ w = w`, as in `Verif.Size.removeNode`. -/
def takeOut (n : Nat) (m : Mem K V) (c : Bool) (cur : Nat) : Option (Mem K V × V) :=
  ((m cur).kid c).bind fun b =>
  (far m (!c) n b).bind fun z =>
    let value := (m cur).val
    let m := upd m cur fun x => { x with key := (m z).key, val := keep x.val (m z).val }
    (m z).parent.bind fun q =>
      if q = cur then
        let m := link m cur c ((m z).kid c)
        let m := setParent? m ((m cur).kid c) cur
        (fixRemoveSize root n m cur).map fun m => (m, value)
      else
        let m := link m q (!c) ((m z).kid c)
        let m := setParent? m ((m q).kid (!c)) q
        (fixRemoveSize root n m q).map fun m => (m, value)

/-- What `Remove` and `RemoveIndex` do with the node they found: tree.go:281-345, 370-434. -/
def removeCell (n : Nat) (m : Mem K V) (cur : Nat) : Option (Mem K V × V) :=
  if (m cur).size = 1 then
    (m cur).parent.bind fun p =>
    (getRelationship m cur).bind fun c =>
      let m := link m p c none
      (fixRemoveSize root n m p).map fun m => (m, (m cur).val)
  else if getSize m (m cur).lo > getSize m (m cur).hi then takeOut root keep n m false cur
  else takeOut root keep n m true cur

end

/-! ### By rank -/

/-- The loop of `index`, utils.go:301-312: the node is reached with the rank `idx`. -/
def indexLoop (m : Mem K V) (i : Int) : Nat → Nat → Int → Option Nat
  | 0, _, _ => none
  | n + 1, cur, idx =>
    if idx > i then
      (m cur).lo.bind fun b => indexLoop m i n b (idx - (getSize m (m b).hi + 1))
    else if idx < i then
      (m cur).hi.bind fun b => indexLoop m i n b (idx + (getSize m (m b).lo + 1))
    else some cur

/-- utils.go:289-314 `index`. -/
def index (m : Mem K V) (i : Int) (n : Nat) (top : Option Nat) : Option Nat :=
  top.bind fun cur => indexLoop m i n cur (getSize m (m cur).lo)

/-- The loop of `IndexOf`, tree.go:181-199. -/
def indexOfLoop (cmp : K → K → Int) (m : Mem K V) (key : K) : Nat → Nat → Int → Option Int
  | 0, _, _ => none
  | n + 1, cur, offset =>
    let c := cmp key (m cur).key
    if c < 0 then match (m cur).lo with
      | none => some (-1)
      | some b => indexOfLoop cmp m key n b (offset - (getSize m (m b).hi + 1))
    else if c > 0 then match (m cur).hi with
      | none => some (-1)
      | some b => indexOfLoop cmp m key n b (offset + (getSize m (m b).lo + 1))
    else some offset

/-! ### Removal of ranges -/

/-- utils.go:202-223 `getRangeRoot`. -/
def getRangeRoot (cmp : K → K → Int) (m : Mem K V) (low high : K) :
    Nat → Option Nat → Option (Option Nat)
  | 0, _ => none
  | _ + 1, none => some none
  | n + 1, some cur =>
    let c1 := cmp low (m cur).key
    let c2 := cmp high (m cur).key
    if c1 ≠ c2 then some (some cur)
    else if c1 < 0 then getRangeRoot cmp m low high n (m cur).lo
    else if c1 > 0 then getRangeRoot cmp m low high n (m cur).hi
    else some (some cur)

/-- utils.go:257-287 `fixRemoveRange`. -/
def fixRemoveRange (m : Mem K V) (cur : Nat) : Option (Mem K V) :=
  if (m cur).size ≤ 2 then some m
  else
    let ls := getSize m (m cur).lo
    let rs := getSize m (m cur).hi
    if ls > rs ∧ ls ≥ 2 * rs then sizeRotate m false cur
    else if ls < rs ∧ rs ≥ 2 * ls then sizeRotate m true cur
    else some m

/-- A kept node of `ltrim`, `rtrim`: `root.Children[c] = child`, the parent of the child, and
`root.Size`; tree.go:466-471 and so on. -/
def hook (m : Mem K V) (a : Nat) (c : Bool) (child : Option Nat) : Mem K V :=
  sumSize (setParent? (link m a c child) child a) a

/-- `ltrim` (`c = true`, the bound is `low`) and `rtrim` (`c = false`, `high`) of `RemoveRange`,
tree.go:460-476, 483-499. -/
def cut (cmp : K → K → Int) (bound : K) (c : Bool) : Nat → Mem K V → Option Nat →
    Option (Mem K V × Option Nat)
  | 0, _, _ => none
  | _ + 1, m, none => some (m, none)
  | n + 1, m, some a =>
    let x := cmp bound (m a).key
    if (if c then x > 0 else x < 0) then
      (cut cmp bound c n m ((m a).kid c)).map fun p => (hook p.1 a c p.2, some a)
    else cut cmp bound c n m ((m a).kid (!c))

/-- `ltrim` (`c = true`, the bound is `low`) and `rtrim` (`c = false`, `hight`) of
`RemoveRangeByIndex`, tree.go:560-584, 591-615. `dir` is where the node is below its parent. -/
def cutIdx (bound : Int) (c : Bool) : Nat → Mem K V → Int → Bool → Option Nat →
    Option (Mem K V × Option Nat)
  | 0, _, _, _, _ => none
  | _ + 1, m, _, _, none => some (m, none)
  | n + 1, m, idx, dir, some a =>
    let idx := if dir then idx + (getSize m (m a).lo + 1) else idx - (getSize m (m a).hi + 1)
    if (if c then idx < bound else idx > bound) then
      (cutIdx bound c n m idx c ((m a).kid c)).map fun p => (hook p.1 a c p.2, some a)
    else if (if c then idx > bound else idx < bound) then
      cutIdx bound c n m idx (!c) ((m a).kid (!c))
    else some (m, (m a).kid (!c))

/-- The first loop of `mergeGroups`, utils.go:242-247. -/
def mergeLoop (rparent : Nat) (childSize : Int) : Nat → Mem K V → Nat → Option (Mem K V)
  | 0, _, _ => none
  | n + 1, m, parent =>
    if parent = rparent then some m
    else
      let m := setSize m parent ((m parent).size + childSize)
      (m parent).parent.bind fun temp =>
      (fixRemoveRange m parent).bind fun m => mergeLoop rparent childSize n m temp

section
variable (root : Nat)

/-- Recompute the sizes up to the root: utils.go:250-254, tree.go:927-930, 932-935, 1049-1052,
1054-1057. -/
def sumLoop : Nat → Mem K V → Nat → Option (Mem K V)
  | 0, _, _ => none
  | n + 1, m, cur =>
    if cur = root then some m
    else
      let m := sumSize m cur
      (m cur).parent.bind (sumLoop n m)

/-- Subtract a size up to the root: tree.go:510-513, 626-629. -/
def subLoop (size : Int) : Nat → Mem K V → Nat → Option (Mem K V)
  | 0, _, _ => none
  | n + 1, m, cur =>
    if cur = root then some m
    else
      let m := setSize m cur ((m cur).size - size)
      (m cur).parent.bind (subLoop size n m)

/-- utils.go:225-255 `mergeGroups`; `c` is `LR`. -/
def mergeGroups (n : Nat) (m : Mem K V) (rt : Nat) (group childGroup : Option Nat) (childSize : Int)
    (c : Bool) : Option (Mem K V) :=
  (m rt).parent.bind fun rparent =>
  group.bind fun g =>
  (far m c n g).bind fun hand =>
    let m := link m hand c childGroup
    let m := setParent? m childGroup hand
    (getRelationship m rt).bind fun rel =>
    let m := link m rparent rel (some g)
    let m := setParent m g rparent
    (match childGroup with
      | none => some m
      | some x => (m x).parent.bind fun parent => mergeLoop rparent childSize n m parent).bind fun m =>
    sumLoop root n m rparent

/-- tree.go:506-525, 622-640: the node `rt` is replaced by what remains of its two subtrees. -/
def joinGroups (n : Nat) (m : Mem K V) (rt : Nat) (lgroup rgroup : Option Nat) : Option (Mem K V) :=
  if lgroup.isNone && rgroup.isNone then
    (m rt).parent.bind fun rparent =>
    (getRelationship m rt).bind fun rel =>
      subLoop root (m rt).size n (link m rparent rel none) rparent
  else
    let rsize := getSize m rgroup
    let lsize := getSize m lgroup
    if lsize > rsize then mergeGroups root n m rt lgroup rgroup rsize true
    else mergeGroups root n m rt rgroup lgroup lsize false

/-- tree.go:454-526, `RemoveRange` for `low` below `high`. -/
def removeRange (cmp : K → K → Int) (n : Nat) (m : Mem K V) (low high : K) : Option (Mem K V) :=
  (getRangeRoot cmp m low high n (m root).lo).bind fun o =>
    match o with
    | none => some m
    | some rt =>
      (cut cmp low true n m (m rt).lo).bind fun p =>
      (cut cmp high false n p.1 (p.1 rt).hi).bind fun q =>
      joinGroups root n q.1 rt p.2 q.2

/-- tree.go:545-556, 733-744: the first node on the way down whose rank is between the two. -/
def rangeLoop (m : Mem K V) (low high : Int) : Nat → Nat → Int → Option (Nat × Int)
  | 0, _, _ => none
  | n + 1, cur, idx =>
    if idx > low ∧ idx > high then
      (m cur).lo.bind fun b => rangeLoop m low high n b (idx - (getSize m (m b).hi + 1))
    else if idx < high ∧ idx < low then
      (m cur).hi.bind fun b => rangeLoop m low high n b (idx + (getSize m (m b).lo + 1))
    else some (cur, idx)

/-- tree.go:543-556: the search of `RemoveRangeByIndex` and (731-744) of `TrimByIndex`. -/
def rangeFind (m : Mem K V) (low high : Int) (n : Nat) (top : Option Nat) : Option (Nat × Int) :=
  top.bind fun cur => rangeLoop m low high n cur (getSize m (m cur).lo)

/-- tree.go:558-641, `RemoveRangeByIndex` at the node found. -/
def removeRangeIdx (n : Nat) (m : Mem K V) (low high : Int) (rt : Nat) (idx : Int) :
    Option (Mem K V) :=
  (cutIdx low true n m idx false (m rt).lo).bind fun p =>
  (cutIdx high false n p.1 idx true (p.1 rt).hi).bind fun q =>
  joinGroups root n q.1 rt p.2 q.2

end

/-! ### Trimming -/

/-- `root.Children[c] = nil`, and the size from the other child: tree.go:673-675, 698-700, 764-766,
789-791. -/
def chop (m : Mem K V) (a : Nat) (c : Bool) : Mem K V :=
  let m := link m a c none
  setSize m a (getSize m ((m a).kid (!c)) + 1)

/-- `ltrim` (`c = false`, the bound is `low`) and `rtrim` (`c = true`, `high`) of `Trim`,
tree.go:657-677, 682-702. -/
def trimRec (cmp : K → K → Int) (bound : K) (c : Bool) : Nat → Mem K V → Option Nat →
    Option (Mem K V × Option Nat)
  | 0, _, _ => none
  | _ + 1, m, none => some (m, none)
  | n + 1, m, some a =>
    let x := cmp bound (m a).key
    if (if c then x < 0 else x > 0) then trimRec cmp bound c n m ((m a).kid (!c))
    else if (if c then x > 0 else x < 0) then
      (trimRec cmp bound c n m ((m a).kid c)).map fun p => (hook p.1 a c p.2, some a)
    else some (chop m a c, some a)

/-- tree.go:706-712, 797-802: the root of the range becomes the root of the tree. (The test
`root != tree.root` of the code always holds.) -/
def replant (m : Mem K V) (root : Nat) (rt : Option Nat) : Mem K V :=
  setParent? (link m root false rt) rt root

/-- tree.go:654-714, `Trim` for `low` not above `high`. -/
def trim (cmp : K → K → Int) (root n : Nat) (m : Mem K V) (low high : K) : Option (Mem K V) :=
  (getRangeRoot cmp m low high n (m root).lo).bind fun rt =>
  (trimRec cmp low false n m rt).bind fun p =>
  (trimRec cmp high true n p.1 rt).map fun q => replant q.1 root rt

/-- The rank of the child `c` of a node of rank `idx`, as `TrimByIndex` computes it: tree.go:753, 755,
778, 780; a nil child is a panic. -/
def stepIdx (m : Mem K V) (idx : Int) (c : Bool) (a : Nat) : Option (Int × Nat) :=
  ((m a).kid c).map fun b =>
    (if c then idx + getSize m (m b).lo + 1 else idx - getSize m (m b).hi - 1, b)

/-- `ltrim` (`c = false`, the bound is `low`) and `rtrim` (`c = true`, `high`) of `TrimByIndex`,
tree.go:747-768, 772-793. A panic comes before the first assignment. -/
def trimIdxRec (bound : Int) (c : Bool) : Nat → Mem K V → Int → Nat → Option (Mem K V × Nat)
  | 0, _, _, _ => none
  | n + 1, m, idx, a =>
    if (if c then idx > bound else idx < bound) then
      (stepIdx m idx (!c) a).bind fun s => trimIdxRec bound c n m s.1 s.2
    else if (if c then idx < bound else idx > bound) then
      (stepIdx m idx c a).bind fun s =>
      (trimIdxRec bound c n m s.1 s.2).map fun p => (hook p.1 a c (some p.2), a)
    else some (chop m a c, a)

/-- tree.go:729-815, `TrimByIndex` for `low` not above `high`: the memory, and whether the call panics.
(The two loops of lines 804-812 change nothing.) -/
def trimByIndex (root n : Nat) (m : Mem K V) (low high : Int) : Mem K V × Bool :=
  match rangeFind m low high n (m root).lo with
  | none => (m, true)
  | some (rt, idx) =>
    match trimIdxRec low false n m idx rt with
    | none => (m, true)
    | some p =>
      match trimIdxRec high true n p.1 idx rt with
      | none => (p.1, true)
      | some q => (replant q.1 root (some rt), false)

/-! ### Splitting -/

section
variable (cmp : K → K → Int) (incl : Bool) (key : K)

/-- The search for `lroot` and `rroot`, tree.go:831-847, 954-969: `cur`, `lroot`, `rroot`. -/
def splitFind (m : Mem K V) : Nat → Option Nat → Option Nat → Option Nat →
    Option (Option Nat × Option Nat × Option Nat)
  | 0, _, _, _ => none
  | _ + 1, none, lroot, rroot => some (none, lroot, rroot)
  | n + 1, some cur, lroot, rroot =>
    if goesLeft incl (cmp (m cur).key key) then
      if rroot.isSome then some ((m cur).hi, some cur, rroot)
      else splitFind m n (m cur).hi (some cur) rroot
    else
      if lroot.isSome then some ((m cur).lo, lroot, some cur)
      else splitFind m n (m cur).lo lroot (some cur)

/-- `traverse`, tree.go:850-890, 972-1011. -/
def splitRec : Nat → Mem K V → Option Nat → Nat → Nat → Option (Mem K V)
  | 0, _, _, _, _ => none
  | _ + 1, m, none, lroot, rroot => some (chop (chop m lroot true) rroot false)
  | n + 1, m, some cur, lroot, rroot =>
    let c := cmp (m cur).key key
    if c > 0 then
      let m := setParent (link m rroot false (some cur)) cur rroot
      (splitRec n m (m cur).lo lroot cur).map fun m => sumSize m rroot
    else if c < 0 then
      let m := setParent (link m lroot true (some cur)) cur lroot
      (splitRec n m (m cur).hi cur rroot).map fun m => sumSize m lroot
    else if incl then
      let m := setParent (link m lroot true (some cur)) cur lroot
      let right := (m cur).hi
      let m := sumSize (chop m cur true) lroot
      some (hook m rroot false right)
    else
      let m := setParent (link m rroot false (some cur)) cur rroot
      let left := (m cur).lo
      let m := sumSize (chop m cur false) rroot
      some (hook m lroot true left)

/-- `New`, tree.go:30-32: the node `&hNode[T]{}`; `junk` is the zero entry. -/
def sentinel (junk : K × V) (m : Mem K V) (a : Nat) : Mem K V :=
  upd m a fun _ => ⟨junk.1, junk.2, 0, 0, none, none, none⟩

/-- tree.go:818-938 `Split` (`incl = false`), 941-1060 `SplitContain` (`incl = true`): `fresh` becomes
the node `root` of the tree returned; `false` if nil is returned. -/
def split (junk : K × V) (root fresh n : Nat) (m : Mem K V) : Option (Mem K V × Bool) :=
  match (m root).lo with
  | none => some (m, false)
  | some top =>
    (splitFind cmp incl key m n (some top) none none).bind fun s =>
      match s with
      | (_, none, _) =>
        let m := link m root false none
        let m := sentinel junk m fresh
        some (setParent (link m fresh false (some top)) top fresh, true)
      | (_, some _, none) => some (sentinel junk m fresh, true)
      | (cur, some lroot, some rroot) =>
        let m := sentinel junk m fresh
        let m := if (m lroot).parent ≠ some rroot then
            setParent (link m fresh false (some rroot)) rroot fresh
          else
            let m := setParent (link m fresh false (some top)) top fresh
            setParent (link m root false (some lroot)) lroot root
        let m := link (link m lroot true none) rroot false none
        (splitRec cmp incl key n m cur lroot rroot).bind fun m =>
        (sumLoop root n m lroot).bind fun m =>
        (sumLoop fresh n m rroot).map fun m => (m, true)

end

/-! ### Traversal -/

/-- The inner function of `Traverse`, tree.go:242-257: the entries handed to the callback, and whether
the walk goes on. -/
def traverse (every : K → V → Bool) (m : Mem K V) : Nat → Option Nat → Option (List (K × V) × Bool)
  | 0, _ => none
  | _ + 1, none => some ([], true)
  | n + 1, some cur =>
    (traverse every m n (m cur).lo).bind fun p =>
      if !p.2 then some (p.1, false)
      else if !every (m cur).key (m cur).val then some (p.1 ++ [((m cur).key, (m cur).val)], false)
      else (traverse every m n (m cur).hi).map fun q =>
        (p.1 ++ ((m cur).key, (m cur).val) :: q.1, q.2)

/-- The inner function of `check`, utils.go:348-377: `false` is one of the two panics. -/
def checkRec (m : Mem K V) : Nat → Option Nat → Option Bool
  | 0, _ => none
  | _ + 1, none => some true
  | n + 1, some a =>
    if (m a).size ≠ getSize m (m a).lo + getSize m (m a).hi + 1 then some false
    else if !((m a).lo.all fun b => decide ((m b).parent = some a)) then some false
    else if !((m a).hi.all fun b => decide ((m b).parent = some a)) then some false
    else (checkRec m n (m a).lo).bind fun x => if x then checkRec m n (m a).hi else some false

/-- utils.go:339-380 `check`. -/
def check (m : Mem K V) (root n : Nat) : Option Bool :=
  match (m root).lo with
  | none => some true
  | some top => if (m top).parent ≠ some root then some false else checkRec m n (some top)

/-! ### The methods -/

/-- The memory with one tree: `root` is `tree.root`. -/
structure PTree (K V : Type) where
  mem : Mem K V
  free : Nat
  root : Nat

/-- tree.go:49-51, utils.go:335-337 `getRoot`. -/
def PTree.top (s : PTree K V) : Option Nat := (s.mem s.root).lo

section
variable (shift : Nat) (cmp : K → K → Int) (junk : K × Option W) (s : PTree K (Option W))

/-- tree.go:62-102 `Put`, 110-152 `Set`: the second component says whether a node was found. -/
def PTree.putWith (write : K × Option W → K × Option W) (k : K) (v : Option W) :
    Option (PTree K (Option W) × Bool) :=
  match s.top with
  | none => some (⟨link (alloc s.mem s.free s.root k v) s.root false (some s.free), s.free + 1, s.root⟩,
      false)
  | some cur =>
    (putLoop s.root true (limit shift) cmp write s.free k v s.free s.free s.mem cur).map fun p =>
      (⟨p.1, if p.2 then s.free else s.free + 1, s.root⟩, p.2)

/-- tree.go:62-102 `Put`. -/
def PTree.put (k : K) (v : Option W) : Option (PTree K (Option W) × Bool) :=
  (s.putWith shift cmp IndexTree.kept k v).map fun p => (p.1, !p.2)

/-- tree.go:277-349 `Remove`. -/
def PTree.remove (k : K) : Option (PTree K (Option W) × Option W) :=
  (getNode cmp s.mem k s.free s.top).bind fun o =>
    match o with
    | none => some (s, none)
    | some cur => (removeCell s.root (fun _ w => w) s.free s.mem cur).map fun p => ({ s with mem := p.1 }, p.2)

/-- One call on a tree, as `Verif.IndexTree.step`: Size 41-46, Get 54-59, Put 62-102, InsertIfAbsent
105-107, Set 110-152, Upsert 155-162, Index 165-168, IndexOf 171-201, Traverse 236-259, Values 262-274,
Remove 277-349, Delete 352-358, Len 361-363, RemoveIndex 366-438, RemoveRange 441-526,
RemoveRangeByIndex 530-641, Trim 644-714, TrimByIndex 717-815, Split 818-938, SplitContain 941-1060,
Clear 1063-1065. -/
def step : Op K W → Option (PTree K (Option W) × Res K W)
  | .put k v => (s.put shift cmp k v).map fun p => (p.1, .bool p.2)
  | .insertIfAbsent k v => (s.put shift cmp k v).map fun p => (p.1, .bool p.2)
  | .set k v => (s.putWith shift cmp (fun _ => (k, v)) k v).map fun p =>
    (p.1, .bool (s.top.isNone || p.2))
  | .upsert k v =>
    (getNode cmp s.mem k s.free s.top).bind fun o =>
      match o with
      | some cur => some ({ s with mem := upd s.mem cur fun x => { x with val := v } }, .bool true)
      | none => (s.put shift cmp k v).map fun p => (p.1, .bool false)
  | .get k => (getNode cmp s.mem k s.free s.top).map fun o =>
    (s, .found (o.map fun cur => (s.mem cur).val))
  | .remove k => (s.remove cmp k).map fun p => (p.1, .val p.2)
  | .delete k => (s.remove cmp k).map fun p => (p.1, .found (p.2.map some))
  | .index i => match index s.mem i s.free s.top with
    | none => some (s, .panic)
    | some cur => some (s, .entry ((s.mem cur).key, (s.mem cur).val))
  | .indexOf k => match s.top with
    | none => some (s, .int (-1))
    | some cur => (indexOfLoop cmp s.mem k s.free cur (getSize s.mem (s.mem cur).lo)).map fun i =>
      (s, .int i)
  | .removeIndex i => match index s.mem i s.free s.top with
    | none => some (s, .panic)
    | some cur => (removeCell s.root (fun _ w => w) s.free s.mem cur).map fun p => ({ s with mem := p.1 }, .val p.2)
  | .removeRange low high =>
    let c := cmp low high
    if c > 0 then some (s, .panic)
    else if c = 0 then (s.remove cmp low).map fun p => (p.1, .unit)
    else (removeRange s.root cmp s.free s.mem low high).map fun m => ({ s with mem := m }, .unit)
  | .removeRangeByIndex low high =>
    if low > high then some (s, .unit)
    else match rangeFind s.mem low high s.free s.top with
      | none => some (s, .panic)
      | some p => (removeRangeIdx s.root s.free s.mem low high p.1 p.2).map fun m =>
        ({ s with mem := m }, .unit)
  | .trim low high =>
    if cmp low high > 0 then some (s, .panic)
    else (trim cmp s.root s.free s.mem low high).map fun m => ({ s with mem := m }, .unit)
  | .trimByIndex low high =>
    if low > high then some (s, .panic)
    else
      let p := trimByIndex s.root s.free s.mem low high
      some ({ s with mem := p.1 }, if p.2 then .panic else .unit)
  | .split key incl other =>
    (split cmp incl key junk s.root s.free s.free s.mem).bind fun p =>
      if other then if p.2 then some (⟨p.1, s.free + 1, s.free⟩, .unit) else none
      else some (⟨p.1, s.free + 1, s.root⟩, .unit)
  | .clear => some ({ s with mem := link s.mem s.root false none }, .unit)
  | .size => some (s, .int (getSize s.mem s.top))
  | .len => some (s, .int (getSize s.mem s.top))
  | .values => (traverse (fun _ _ => true) s.mem s.free s.top).map fun p => (s, .list (p.1.map (·.2)))
  | .traverse every => (traverse every s.mem s.free s.top).map fun p => (s, .entries p.1)

end

/-! ### Several trees -/

/-- A memory with several trees, given by their nodes `root`. -/
structure Forest (K V : Type) where
  mem : Mem K V
  free : Nat
  roots : List Nat

/-- Calls of a program with several trees: a new tree, a call on the tree number `i`, or `Split`
(`SplitContain`) of the tree number `i`, where the tree returned is kept as a further one. -/
inductive Call (K W : Type) where
  | new | on (i : Nat) (op : Op K W) | split (i : Nat) (key : K) (incl : Bool)

/-- The results of these calls: `isNil` says whether `Split` returned nil. -/
inductive CallRes (K W : Type) where
  | made | of (r : Res K W) | split (isNil : Bool)

/-- One call. A tree that is not there is an error of the caller (`none`). -/
def fstep (shift : Nat) (cmp : K → K → Int) (junk : K × Option W) (s : Forest K (Option W)) :
    Call K W → Option (Forest K (Option W) × CallRes K W)
  | .new => some (⟨sentinel junk s.mem s.free, s.free + 1, s.roots ++ [s.free]⟩, .made)
  | .on i op => s.roots[i]?.bind fun a => (step shift cmp junk ⟨s.mem, s.free, a⟩ op).map fun p =>
    (⟨p.1.mem, p.1.free, s.roots.set i p.1.root⟩, .of p.2)
  | .split i key incl => s.roots[i]?.bind fun a =>
    (IndexHeap.split cmp incl key junk a s.free s.free s.mem).map fun p =>
      (⟨p.1, s.free + 1, if p.2 then s.roots ++ [s.free] else s.roots⟩, .split (!p.2))

/-- Before the first `New`. -/
def Forest.empty (junk : K × Option W) : Forest K (Option W) :=
  ⟨fun _ => ⟨junk.1, junk.2, 0, 0, none, none, none⟩, 0, []⟩

end Verif.IndexHeap
