import Verif.Tree.AvlHeap

/-! Model of the iterators of tree/avl and set/treeset on the level of pointers, together with the map:
the calls of the map and of one iterator in any order. In `Verif.Tree.AvlIter` a pointer is the
subtree below it, which is right as long as the map is not changed; here it is an address, and what
the iterator finds there is what the memory holds at that time.

Simplifications: as in `Verif.Tree.AvlHeap`. The slots of the array `stack` above `idx` are never
read and left out. Rounds of loops are limited by `2 * free + 2`. An answer of `Compare` above 1 is a panic
(Go truncates it to `int8` first). -/

namespace Verif.AvlHeap
open Verif.Avl (IOp IRes)
variable {K V : Type}

/-- tree/avl/iterator.go:4-16 `Iterator`, `NodeDir`; set/treeset/iterator.go:4-16. `cap` is the length
of the array `stack`, `stk` its slots up to `idx`, top first. -/
structure PIter where
  cap : Nat
  cur : Option Nat
  stk : List (Nat × Bool)

/-- `iter.idx++`, then the slot is written; `none` is an index out of range. -/
def PIter.push (it : PIter) (e : Nat × Bool) (cur : Option Nat) : Option PIter :=
  if it.stk.length < it.cap then some ⟨it.cap, cur, e :: it.stk⟩ else none

/-- iterator_hide.go:16-39 `down` (tree/avl, set/treeset alike). -/
def PIter.down (m : Mem K V) (c : Bool) (it : PIter) : Option (PIter × Bool) :=
  match it.cur with
  | none =>
    match it.stk with
    | [] => some (it, false)
    | (n, d) :: stk =>
      if it.cap < it.stk.length then none
      else if d = !c then some (⟨it.cap, some n, stk⟩, true)
      else some (it, false)
  | some a =>
    match (m a).kid c with
    | none => some (it, false)
    | some b => (it.push (a, c) (some b)).map fun it' => (it', true)

/-- The search of `up`: the nearest entry with the other direction. -/
def findUp (c : Bool) : List (Nat × Bool) → Option (Nat × List (Nat × Bool))
  | [] => none
  | (n, d) :: stk => if d = !c then some (n, stk) else findUp c stk

/-- iterator_hide.go:41-69 `up` (tree/avl, set/treeset alike). The top slot is read first. -/
def PIter.up (c : Bool) (it : PIter) : Option (PIter × Bool) :=
  if it.cap < it.stk.length then none
  else match findUp c it.stk with
  | some (n, stk) => some (⟨it.cap, some n, stk⟩, true)
  | none =>
    match it.cur with
    | none => some (it, false)
    | some a => (it.push (a, c) none).map fun it' => (it', false)

/-- The loop `for iter.down(c) {}`. -/
def PIter.downs (m : Mem K V) (c : Bool) : Nat → PIter → Option PIter
  | 0, _ => none
  | n + 1, it => (it.down m c).bind fun p => if p.2 then p.1.downs m c n else some p.1

/-- iterator_hide.go `move`: tree/avl 122-132, set/treeset 120-130. -/
def PIter.move (m : Mem K V) (fuel : Nat) (c : Bool) (it : PIter) : Option PIter :=
  (it.down m c).bind fun p =>
    if p.2 then p.1.downs m (!c) fuel else (it.up c).map (·.1)

/-- iterator.go `SeekToFirst`, `SeekToLast`: tree/avl 34-52, set/treeset 39-57. -/
def PIter.seekEnd (m : Mem K V) (fuel : Nat) (root : Option Nat) (c : Bool) (it : PIter) :
    Option PIter :=
  (⟨it.cap, root, []⟩ : PIter).downs m c fuel

section
variable (cmp : K → K → Int)

/-- The loop of `seekEqual` (`strict = false`) and `seekThan` (`strict = true`): tree/avl 79-92,
105-119; set/treeset 78-91, 103-117. -/
def PIter.seekLoop (m : Mem K V) (fuel : Nat) (key : K) (c strict : Bool) :
    Nat → PIter → Option (PIter × Bool)
  | 0, _ => none
  | n + 1, it =>
    it.cur.bind fun a =>
      let x := cmp (m a).key key
      if x < 0 then
        if strict then (it.move m fuel c).map fun it' => (it', true) else some (it, true)
      else
        (dir x).bind fun x =>
        (it.down m x).bind fun p =>
          if p.2 then p.1.seekLoop m fuel key c strict n
          else if x = c then (p.1.up c).map fun q => (q.1, false) else some (p.1, false)

/-- iterator_hide.go `seekEqual`, `seekThan`: tree/avl 72-119; set/treeset 72-117. On an empty map
the old stack stays. -/
def PIter.seek (m : Mem K V) (fuel : Nat) (root : Option Nat) (key : K) (c strict : Bool)
    (it : PIter) : Option (PIter × Bool) :=
  match root with
  | none => some (⟨it.cap, none, it.stk⟩, false)
  | some r => PIter.seekLoop cmp m fuel key c strict fuel ⟨it.cap, some r, []⟩

/-- tree/avl/tree.go:154-156 `Iterator`, tree/avl/iterator_hide.go:5-14 `newIterator`;
set/treeset/tree.go:195-197, set/treeset/iterator_hide.go:5-14. A negative length of the array is a
panic. -/
def PMap.iterator (s : PMap K V) : Option PIter :=
  s.height.bind fun h => if h < 0 then none else some ⟨h.toNat, none, []⟩

/-- A call on the iterator of the map `s`. tree/avl/iterator.go, set/treeset/iterator.go: `Key` and
`Value` together are `entry`. `Clone` (tree/avl 82-88, set/treeset 108-117) makes the array as long as
the present height of the map and copies the slots; where the old array is longer, tree/avl copies
what fits, while set/treeset (`one`) panics. -/
def istep (one : Bool) (s : PMap K V) (it : PIter) : IOp K → Option (PIter × IRes K V)
  | .seekToFirst => (it.seekEnd s.mem (2 * s.free + 2) s.root false).map fun i => (i, .unit)
  | .seekToLast => (it.seekEnd s.mem (2 * s.free + 2) s.root true).map fun i => (i, .unit)
  | .next => (it.move s.mem (2 * s.free + 2) true).map fun i => (i, .unit)
  | .prev => (it.move s.mem (2 * s.free + 2) false).map fun i => (i, .unit)
  | .seekGE k => (it.seek cmp s.mem (2 * s.free + 2) s.root k true false).map fun p => (p.1, .bool p.2)
  | .seekGT k => (it.seek cmp s.mem (2 * s.free + 2) s.root k true true).map fun p => (p.1, .bool p.2)
  | .seekLE k => (it.seek cmp s.mem (2 * s.free + 2) s.root k false false).map fun p => (p.1, .bool p.2)
  | .seekLT k => (it.seek cmp s.mem (2 * s.free + 2) s.root k false true).map fun p => (p.1, .bool p.2)
  | .valid => some (it, .bool it.cur.isSome)
  | .entry => it.cur.map fun a => (it, .entry ((s.mem a).key, (s.mem a).val))
  | .clone => s.iterator.bind fun i =>
      if one ∧ i.cap < it.stk.length then none else some (⟨i.cap, it.cur, it.stk⟩, .unit)

/-- The calls of the map and of one iterator. -/
inductive COp (K V : Type) where
  | call (op : Avl.Op K V)
  | iter (op : IOp K)

inductive CRes (K V : Type) where
  | call (r : Avl.Res K V)
  | iter (r : IRes K V)

/-- One call; the iterator was made before. -/
def cstep (one : Bool) (d : Int) (zero : V) (q : PMap K V × PIter) :
    COp K V → Option ((PMap K V × PIter) × CRes K V)
  | .call op => (step cmp one d zero q.1 op).map fun p => ((p.1, q.2), .call p.2)
  | .iter op => (istep cmp one q.1 q.2 op).map fun p => ((q.1, p.1), .iter p.2)

end

end Verif.AvlHeap
