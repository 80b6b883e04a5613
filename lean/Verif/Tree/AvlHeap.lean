import Verif.Tree.AvlModel
import Verif.Tree.AvlIter

/-! Model of tree/avl and set/treeset on the level of pointers: the nodes live in a memory, children
are addresses, and every assignment to a field of a node is an update of the memory. The model of
`Verif.Tree.AvlModel` has subtrees instead of pointers; that both agree is proved in
`Verif.Tree.AvlHeapMap`.

Simplifications:
* An address is a natural number. `free` is the least address not used so far; nothing is freed.
  Address 0 is the `Center` node.
* The memory is a total function. Only addresses below `free` are ever used.
* A nil pointer is `none`; to use one is a panic (`none`).
* Recursion and loops have a number of rounds, `none` when they do not suffice. The calls of the map
  use `free`; the theorems say that this is enough.
* `tree.size` is a natural number (Go: `uint`). The counters `singleRotations`, `doubleRotations` are
  left out, they are in `Verif.Tree.ExperModel`.
* `remove` returns in Go a pointer to the value of the node taken out, which `Remove` reads at once;
  the model returns the value. -/

namespace Verif.AvlHeap
open Verif.Avl (w8)
variable {K V : Type}

/-- tree/avl/node.go:7-12 `Node`; set/treeset/node.go:7-12. `lo`, `hi` are `Children[0]`,
`Children[1]`. -/
structure Cell (K V : Type) where
  key : K
  val : V
  height : Int
  lo : Option Nat
  hi : Option Nat

/-- `Children[c]`. -/
def Cell.kid (x : Cell K V) (c : Bool) : Option Nat := if c then x.hi else x.lo

/-- `Children[c] = p`. -/
def Cell.setKid (x : Cell K V) (c : Bool) (p : Option Nat) : Cell K V :=
  if c then { x with hi := p } else { x with lo := p }

abbrev Mem (K V : Type) := Nat → Cell K V

/-- Update one cell. -/
def upd (m : Mem K V) (a : Nat) (x : Cell K V) : Mem K V := fun b => if b = a then x else m b

/-- `a.Children[c] = p`. -/
def link (m : Mem K V) (a : Nat) (c : Bool) (p : Option Nat) : Mem K V := upd m a ((m a).setKid c p)

/-- `a.Key, a.Value = f(a.Key, a.Value)`. -/
def write (m : Mem K V) (a : Nat) (f : K × V → K × V) : Mem K V :=
  upd m a { m a with key := (f ((m a).key, (m a).val)).1, val := (f ((m a).key, (m a).val)).2 }

/-- `a.Height = h`. -/
def setH (m : Mem K V) (a : Nat) (h : Int) : Mem K V := upd m a { m a with height := h }

/-- tree/avl/node.go:91-96 `getHeight`; set/treeset/node.go:85-90. -/
def hgt (m : Mem K V) : Option Nat → Int
  | none => 0
  | some a => (m a).height

/-- `one = false`: tree/avl/node.go:35-43 `updateHeight`. `one = true`: `updateHeightOneChild(child)`
of set/treeset/node.go:35-37. -/
def fixH (one : Bool) (child : Bool) (m : Mem K V) (a : Nat) : Mem K V :=
  setH m a (if one then w8 (hgt m ((m a).kid child) + 1)
    else if hgt m (m a).lo > hgt m (m a).hi then w8 (hgt m (m a).lo + 1) else w8 (hgt m (m a).hi + 1))

/-- tree/avl/node.go:148-160 `leftRotate`; set/treeset/node.go:140-151. -/
def leftRotate (one : Bool) (m : Mem K V) (parent : Nat) (child : Bool) : Option (Mem K V) :=
  ((m parent).kid child).bind fun cur =>
  ((m cur).kid true).bind fun sub =>
    let m := link m parent child (some sub)
    let m := link m cur true ((m sub).kid false)
    let m := link m sub false (some cur)
    let m := fixH one true m cur
    some (fixH one false m sub)

/-- tree/avl/node.go:162-174 `rightRotate`; set/treeset/node.go:153-164. -/
def rightRotate (one : Bool) (m : Mem K V) (parent : Nat) (child : Bool) : Option (Mem K V) :=
  ((m parent).kid child).bind fun cur =>
  ((m cur).kid false).bind fun sub =>
    let m := link m parent child (some sub)
    let m := link m cur false ((m sub).kid true)
    let m := link m sub true (some cur)
    let m := fixH one false m cur
    some (fixH one true m sub)

/-- tree/avl/node.go:107-126 `leftRotateWithRight`; set/treeset/node.go:101-119. -/
def leftRotateWithRight (one : Bool) (m : Mem K V) (parent : Nat) (child : Bool) :
    Option (Mem K V) :=
  ((m parent).kid child).bind fun cur =>
  ((m cur).kid true).bind fun sub =>
  ((m sub).kid false).bind fun subsub =>
    let m := link m parent child (some subsub)
    let c0 := (m subsub).kid false
    let c1 := (m subsub).kid true
    let m := link m subsub false (some cur)
    let m := link m subsub true (some sub)
    let m := link m cur true c0
    let m := link m sub false c1
    let m := fixH one false m cur
    let m := fixH one true m sub
    some (fixH one false m subsub)

/-- tree/avl/node.go:128-146 `rightRotateWithLeft`; set/treeset/node.go:121-138. -/
def rightRotateWithLeft (one : Bool) (m : Mem K V) (parent : Nat) (child : Bool) :
    Option (Mem K V) :=
  ((m parent).kid child).bind fun cur =>
  ((m cur).kid false).bind fun sub =>
  ((m sub).kid true).bind fun subsub =>
    let m := link m parent child (some subsub)
    let c0 := (m subsub).kid false
    let c1 := (m subsub).kid true
    let m := link m subsub true (some cur)
    let m := link m subsub false (some sub)
    let m := link m cur false c1
    let m := link m sub true c0
    let m := fixH one true m cur
    let m := fixH one false m sub
    some (fixH one true m subsub)

/-- tree/avl/tree_hide.go:109-148 `rebalance`; set/treeset/tree_hide.go:109-150. -/
def rebalance (one : Bool) (d : Int) (m : Mem K V) (parent : Nat) (child : Bool) :
    Option (Mem K V × Bool) :=
  ((m parent).kid child).bind fun node =>
    let lh := hgt m (m node).lo
    let rh := hgt m (m node).hi
    let diff := w8 (lh - rh)
    if diff ≥ d then
      (m node).lo.bind fun sub =>
        (if hgt m (m sub).hi > hgt m (m sub).lo then rightRotateWithLeft one m parent child
         else rightRotate one m parent child).map fun m => (m, true)
    else if diff ≤ w8 (-d) then
      (m node).hi.bind fun sub =>
        (if hgt m (m sub).lo > hgt m (m sub).hi then leftRotateWithRight one m parent child
         else leftRotate one m parent child).map fun m => (m, true)
    else if lh > rh then
      if (m node).height ≠ w8 (lh + 1) then some (setH m node (w8 (lh + 1)), true)
      else some (m, false)
    else
      if (m node).height ≠ w8 (rh + 1) then some (setH m node (w8 (rh + 1)), true)
      else some (m, false)

/-- `Children[c]` for the answer `c` of `Compare` used as an index: `none` is an index out of
range. -/
def dir (c : Int) : Option Bool := if c = 0 then some false else if c = 1 then some true else none

/-- What `put` returns: the memory, the node found or made (then it is the new cell at `free`),
`isExists`, `isRebalance`. -/
structure Put (K V : Type) where
  mem : Mem K V
  target : Nat
  ex : Bool
  reb : Bool

/-- tree/avl/tree_hide.go:9-38 `put`; set/treeset/tree_hide.go:9-38. `zero` is the zero value, which
a new node has until the caller writes its value. -/
def put (cmp : K → K → Int) (one : Bool) (d : Int) (zero : V) (free : Nat) (key : K) :
    Nat → Mem K V → Nat → Bool → Option (Put K V)
  | 0, _, _, _ => none
  | n + 1, m, parent, child =>
    match (m parent).kid child with
    | none =>
      let m := upd m free ⟨key, zero, 1, none, none⟩
      let m := link m parent child (some free)
      some ⟨m, free, false, ((m parent).kid (!child)).isNone⟩
    | some cur =>
      let c := cmp (m cur).key key
      if c < 0 then some ⟨m, cur, true, false⟩
      else
        (dir c).bind fun c =>
        (put cmp one d zero free key n m cur c).bind fun p =>
          if p.ex || !p.reb then some p
          else (rebalance one d p.mem parent child).map fun q => ⟨q.1, p.target, p.ex, q.2⟩

/-- tree/avl/tree_hide.go:40-49 `get`; set/treeset/tree_hide.go:40-49. -/
def get (cmp : K → K → Int) (m : Mem K V) (key : K) : Nat → Option Nat → Option (Option Nat)
  | 0, _ => none
  | _ + 1, none => some none
  | n + 1, some cur =>
    let c := cmp (m cur).key key
    if c < 0 then some (some cur) else (dir c).bind fun c => get cmp m key n ((m cur).kid c)

/-- tree/avl/tree_hide.go:91-107 `neighboring`; set/treeset/tree_hide.go:91-107. -/
def neighboring (one : Bool) (d : Int) :
    Nat → Mem K V → Nat → Bool → Bool → Option (Mem K V × Nat × Bool)
  | 0, _, _, _, _ => none
  | n + 1, m, parent, child2, child1 =>
    ((m parent).kid child2).bind fun cur =>
      match (m cur).kid child1 with
      | none => some (link m parent child2 ((m cur).kid (!child1)), cur, true)
      | some _ =>
        (neighboring one d n m cur child1 child1).bind fun p =>
          if p.2.2 then (rebalance one d p.1 parent child2).map fun q => (q.1, p.2.1, q.2)
          else some p

/-- tree/avl/tree_hide.go:51-89 `remove`; set/treeset/tree_hide.go:51-89. -/
def remove (cmp : K → K → Int) (one : Bool) (d : Int) (key : K) :
    Nat → Mem K V → Nat → Bool → Bool → Option (Mem K V × Option V × Bool)
  | 0, _, _, _, _ => none
  | n + 1, m, grandpa, child2, child1 =>
    ((m grandpa).kid child2).bind fun parent =>
      match (m parent).kid child1 with
      | none => some (m, none, false)
      | some cur =>
        let c := cmp (m cur).key key
        if c < 0 then
          if (m cur).lo.isNone then some (link m parent child1 (m cur).hi, some (m cur).val, true)
          else if (m cur).hi.isNone then
            some (link m parent child1 (m cur).lo, some (m cur).val, true)
          else
            let result := (m cur).val
            (neighboring one d n m cur child1 (!child1)).bind fun p =>
              let m := write p.1 cur fun _ => ((p.1 p.2.1).key, (p.1 p.2.1).val)
              (rebalance one d m parent child1).map fun q => (q.1, some result, q.2)
        else
          (dir c).bind fun c =>
          (remove cmp one d key n m parent child1 c).bind fun p =>
            if cur ≠ 0 ∧ p.2.2 = true then
              (rebalance one d p.1 parent child1).map fun q => (q.1, p.2.1, q.2)
            else some p

/-- The inner function of `Traverse`, tree/avl/tree.go:114-133; set/treeset/tree.go:128-147: the
entries handed to the callback, and whether the walk goes on. -/
def traverse (every : K → V → Bool) (m : Mem K V) : Nat → Option Nat → Option (List (K × V) × Bool)
  | 0, _ => none
  | _ + 1, none => some ([], true)
  | n + 1, some cur =>
    (traverse every m n (m cur).lo).bind fun p =>
      if !p.2 then some (p.1, false)
      else if !every (m cur).key (m cur).val then some (p.1 ++ [((m cur).key, (m cur).val)], false)
      else (traverse every m n (m cur).hi).map fun q =>
        (p.1 ++ ((m cur).key, (m cur).val) :: q.1, q.2)

/-! ### The map -/

/-- tree/avl/tree.go:7-15 `Tree`; set/treeset/tree.go:9-17. -/
structure PMap (K V : Type) where
  mem : Mem K V
  free : Nat
  size : Nat

/-- tree/avl/tree.go:17-41 `New`, `NewEx`; set/treeset/tree.go:19-43: `Center.Children[0]` is `Center`
itself. `junk` is the zero entry. -/
def PMap.new (junk : K × V) : PMap K V :=
  ⟨fun a => ⟨junk.1, junk.2, 0, if a = 0 then some 0 else none, none⟩, 1, 0⟩

/-- tree/avl/tree_hide.go:5-7 `getRoot`; set/treeset/tree_hide.go:5-7. -/
def PMap.root (s : PMap K V) : Option Nat := (s.mem 0).hi

section
variable (cmp : K → K → Int) (one : Bool) (d : Int) (zero : V)

/-- tree/avl/tree.go:43-51 `Set`; set/treeset/tree.go:45-53. -/
def PMap.set (s : PMap K V) (k : K) (v : V) : Option (PMap K V × Bool) :=
  (AvlHeap.put cmp one d zero s.free k s.free s.mem 0 true).map fun p =>
    let m := write p.mem p.target fun _ => (k, v)
    if p.ex then (⟨m, s.free, s.size⟩, false) else (⟨m, s.free + 1, s.size + 1⟩, true)

/-- tree/avl/tree.go:63-70 `Put`; set/treeset/tree.go:65-72 `Add`. -/
def PMap.put (s : PMap K V) (k : K) (v : V) : Option (PMap K V × Bool) :=
  (AvlHeap.put cmp one d zero s.free k s.free s.mem 0 true).map fun p =>
    if p.ex then (⟨p.mem, s.free, s.size⟩, false)
    else (⟨write p.mem p.target fun e => (e.1, v), s.free + 1, s.size + 1⟩, true)

/-- tree/avl/tree.go:54-61 `Upsert`; set/treeset/tree.go:56-63. -/
def PMap.upsert (s : PMap K V) (k : K) (v : V) : Option (PMap K V × Bool) :=
  (AvlHeap.get cmp s.mem k s.free s.root).bind fun e =>
    match e with
    | some cur => some (⟨write s.mem cur fun e => (e.1, v), s.free, s.size⟩, true)
    | none => (s.set cmp one d zero k v).map fun p => (p.1, false)

/-- tree/avl/tree.go:77-84 `Get`; set/treeset/tree.go:87-94. -/
def PMap.get (s : PMap K V) (k : K) : Option (Option V) :=
  (AvlHeap.get cmp s.mem k s.free s.root).map fun e => e.map fun cur => (s.mem cur).val

/-- tree/avl/tree.go:86-93 `Remove`; set/treeset/tree.go:100-107. -/
def PMap.remove (s : PMap K V) (k : K) : Option (PMap K V × Option V) :=
  (AvlHeap.remove cmp one d k s.free s.mem 0 false true).map fun p =>
    (⟨p.1, s.free, if p.2.1.isSome then s.size - 1 else s.size⟩, p.2.1)

/-- tree/avl/tree.go:147-152 `Height`; set/treeset/tree.go:161-166. -/
def PMap.height (s : PMap K V) : Option Int :=
  if s.size = 0 then some 0 else s.root.map fun r => (s.mem r).height

open Avl (Op Res)

/-- One call on the map: tree/avl/tree.go 73-75 `InsertIfAbsent`, 96-98 `Delete`, 100-103 `Clear`,
105-112 `Size`, `Len`, 114-133 `Traverse`, 135-145 `Values`; set/treeset/tree.go likewise, and there
80-85 `Contains`, 96-98 `Empty`. -/
def step (s : PMap K V) : Op K V → Option (PMap K V × Res K V)
  | .put k v => (s.put cmp one d zero k v).map fun p => (p.1, .bool p.2)
  | .insertIfAbsent k v => (s.put cmp one d zero k v).map fun p => (p.1, .bool p.2)
  | .set k v => (s.set cmp one d zero k v).map fun p => (p.1, .bool p.2)
  | .upsert k v => (s.upsert cmp one d zero k v).map fun p => (p.1, .bool p.2)
  | .get k => (s.get cmp k).map fun o => (s, .val o)
  | .contains k => (s.get cmp k).map fun o => (s, .bool o.isSome)
  | .remove k => (s.remove cmp one d k).map fun p => (p.1, .val p.2)
  | .delete k => (s.remove cmp one d k).map fun p => (p.1, .val p.2)
  | .clear => some (⟨link s.mem 0 true none, s.free, 0⟩, .unit)
  | .size => some (s, .nat s.size)
  | .len => some (s, .nat s.size)
  | .empty => some (s, .bool (s.size = 0))
  | .height => s.height.map fun h => (s, .int h)
  | .values => if s.size = 0 then some (s, .list [])
      else (traverse (fun _ _ => true) s.mem s.free s.root).map fun p => (s, .list (p.1.map (·.2)))
  | .traverse every => (traverse every s.mem s.free s.root).map fun p => (s, .entries p.1)

end

end Verif.AvlHeap
